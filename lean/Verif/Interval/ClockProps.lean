import Verif.Interval.Props
/-! C145..C147: changes of the period, the clock being set, and periods of zero or less. -/
namespace Verif.Interval
open Verif

/-! ### C145 -/

/-- The states that can be reached, with the periods that were in force when each call of the function was decided: a
record, added to the steps, of what the object has been through (interval_event.hpp:48-51, 112-116). -/
inductive Held : State → List Int → Prop
  | new : Held State.new []
  | quiet (s s' : State) (l : Label) (ps : List Int) : Held s ps → Step s l (.ok s') → s'.calls = s.calls → Held s' ps
  | call (s s' : State) (l : Label) (ps : List Int) (P : Int) : Held s ps → Step s l (.ok s') → s'.calls ≠ s.calls →
      s.period = some P → Held s' (ps ++ [P])

/-- What a step does to the calls and to the schedule. -/
theorem Step.paced {s s' : State} {l : Label} (h : Step s l (.ok s')) :
    (s'.calls = s.calls ∧ s'.last = s.last ∧ s'.t0 = s.t0 ∧
      (s'.worker = .nap ∨ s'.worker = .start ↔ s.worker = .nap ∨ s.worker = .start)) ∨
    (s.worker = .start ∧ s'.calls = s.calls ∧ s'.last = s'.t0 ∧ s'.worker = .test) ∨
    (∃ now P, l = .work now ∧ s.worker = .check ∧ s.period = some P ∧ s.last + P ≤ now ∧
      s'.calls = s.calls ++ [now] ∧ s'.last = s.last + P * 1000000 ∧ s'.t0 = s.t0 ∧ s'.worker = .calling) := by
  generalize hr : Res.ok s' = r at h
  cases h with
  | work now ho =>
    rcases workerStep_cases hr.symm with ⟨hw, rfl⟩ | ⟨hw, rfl⟩ | ⟨hw, hd, rfl⟩ | ⟨Q, hw, hd, hQ, hge, rfl⟩ |
      ⟨Q, hw, hd, hQ, _, rfl⟩ | ⟨hw, rfl⟩ | ⟨hw, hd, rfl⟩ | ⟨hw, _, rfl⟩ | ⟨hw, _, rfl⟩ | ⟨hw, rfl⟩
    · exact .inl ⟨rfl, rfl, rfl, by simp [hw]⟩
    · exact .inr (.inl ⟨hw, rfl, rfl, rfl⟩)
    · refine .inl ⟨rfl, rfl, rfl, ?_⟩
      cases s.flag <;> simp [hw]
    · exact .inr (.inr ⟨now, Q, rfl, hw, hQ, by omega, rfl, rfl, rfl, rfl⟩)
    all_goals exact .inl ⟨rfl, rfl, rfl, by simp [hw]⟩
  | selfStop hw hns => cases hr; exact .inl ⟨rfl, rfl, rfl, by simp [hw]⟩
  | notify j hw hj =>
    split at hr
    · cases hr
    · cases hr
      exact .inl ⟨rfl, rfl, rfl, by simp [hw]⟩
  | notifyNone hw hk =>
    split at hr
    · cases hr
    · cases hr
      exact .inl ⟨rfl, rfl, rfl, by simp [hw]⟩
  | _ => cases hr; exact .inl ⟨rfl, rfl, rfl, Iff.rfl⟩

/-- Every execution has such a record. -/
theorem Reach.held {s : State} (h : Reach anyStep s) : ∃ ps, Held s ps := by
  induction h with
  | new => exact ⟨[], .new⟩
  | step s s' l _ _ hs ih =>
    obtain ⟨ps, hp⟩ := ih
    rcases hs.paced with ⟨hc, _⟩ | ⟨_, hc, _⟩ | ⟨now, P, _, _, hP, _, hc, _⟩
    · exact ⟨ps, .quiet s s' l ps hp hs hc⟩
    · exact ⟨ps, .quiet s s' l ps hp hs hc⟩
    · refine ⟨ps ++ [P], .call s s' l ps P hp hs ?_ hP⟩
      rw [hc]
      simp

/-- What is known of the time when the period changes. -/
structure Paced (s : State) (ps : List Int) : Prop where
  before : s.worker = .nap ∨ s.worker = .start → s.calls = []
  len : ps.length = s.calls.length
  sched : ¬(s.worker = .nap ∨ s.worker = .start) → s.last = s.t0 + ps.sum * 1000000
  late : ∀ (n : Nat) (t : Int), s.calls[n]? = some t →
    ∃ P, ps[n]? = some P ∧ s.t0 + (ps.take n).sum * 1000000 + P ≤ t

theorem Paced.step {s s' : State} {l : Label} {ps : List Int} (h : Paced s ps) (hs : Step s l (.ok s')) :
    (s'.calls = s.calls → Paced s' ps) ∧
    (∀ P, s'.calls ≠ s.calls → s.period = some P → Paced s' (ps ++ [P])) := by
  rcases hs.paced with ⟨hc, hl, ht, hw⟩ | ⟨hw, hc, hl, hw'⟩ | ⟨now, P, _, hw, hP, hn, hc, hl, ht, hw'⟩
  · refine ⟨fun _ => ⟨fun e => hc.trans (h.before (hw.1 e)), hc ▸ h.len, fun e => ?_, ?_⟩, fun _ e => absurd hc e⟩
    · rw [hl, ht]
      exact h.sched (fun e' => e (hw.2 e'))
    · rw [hc, ht]
      exact h.late
  · have he := h.before (.inr hw)
    have hps : ps = [] := List.length_eq_zero_iff.1 (by rw [h.len, he]; rfl)
    refine ⟨fun _ => ⟨fun e => hc.trans he, hc ▸ h.len, fun _ => ?_, fun n t e => ?_⟩, fun _ e => absurd hc e⟩
    · rw [hl, hps]
      simp
    · rw [hc, he] at e
      simp at e
  · refine ⟨fun e => ?_, fun Q _ hQ => ?_⟩
    · rw [hc] at e
      simp at e
    · rw [hP] at hQ
      cases hQ
      have hsch := h.sched (by simp [hw])
      refine ⟨fun e => by simp [hw'] at e, by simp [hc, h.len], fun _ => ?_, fun n t e => ?_⟩
      · rw [hl, ht, hsch, List.sum_append]
        simp only [List.sum_cons, List.sum_nil]
        omega
      · rw [hc] at e
        rw [ht]
        by_cases hlt : n < s.calls.length
        · rw [List.getElem?_append_left hlt] at e
          obtain ⟨Q, h1, h2⟩ := h.late n t e
          have hlt' : n < ps.length := h.len ▸ hlt
          refine ⟨Q, by rw [List.getElem?_append_left hlt', h1], ?_⟩
          rw [List.take_append_of_le_length (by omega)]
          exact h2
        · have hn' : n = s.calls.length := by
            have := (List.getElem?_eq_some_iff.1 e).1
            simp only [List.length_append, List.length_singleton] at this
            omega
          subst hn'
          simp only [List.getElem?_concat_length, Option.some.injEq] at e
          subst e
          refine ⟨P, by rw [← h.len]; simp, ?_⟩
          rw [← h.len, List.take_left]
          omega

theorem Held.paced {s : State} {ps : List Int} (h : Held s ps) : Paced s ps := by
  induction h with
  | new => constructor <;> simp [State.new]
  | quiet s s' l ps _ hs hc ih => exact (ih.step hs).1 hc
  | call s s' l ps P _ hs hc hP ih => exact (ih.step hs).2 P hc hP

/-- C145, as far as it holds (and while nothing overflows, see `C63_undefined_iff`): whatever the changes of the period and
the readings of the clock, a call is not decided before the periods in force at the earlier calls have gone by, one for
each, since the first reading. -/
theorem C145_schedule_partial {s : State} {ps : List Int} (h : Held s ps) : ps.length = s.calls.length ∧
    ∀ (n : Nat) (t : Int), s.calls[n]? = some t →
      ∃ P, ps[n]? = some P ∧ s.t0 + (ps.take n).sum * 1000000 + P ≤ t :=
  ⟨h.paced.len, h.paced.late⟩

/-- C145, exactly when a check calls the function (partial as above): with period `Q`, if the clock reads `Q` nanoseconds
past the instant up to which the periods of the earlier calls last. -/
theorem C145_next_partial {s s' : State} {ps : List Int} (h : Held s ps) {Q now : Int} (hw : s.worker = .check)
    (hQ : s.period = some Q) (hs : Step s (.work now) (.ok s')) :
    (s.t0 + ps.sum * 1000000 + Q ≤ now → s'.calls = s.calls ++ [now]) ∧
    (now < s.t0 + ps.sum * 1000000 + Q → s'.calls = s.calls) := by
  have hsch := h.paced.sched (by simp [hw])
  generalize hr : Res.ok s' = r at hs
  cases hs with
  | work _ ho =>
    rcases workerStep_cases hr.symm with ⟨hx, _⟩ | ⟨hx, _⟩ | ⟨hx, _⟩ | ⟨Q', _, _, hQ', hge, rfl⟩ |
      ⟨Q', _, _, hQ', hge, rfl⟩ | ⟨hx, _⟩ | ⟨hx, _⟩ | ⟨hx, _⟩ | ⟨hx, _⟩ | ⟨hx, _⟩
    all_goals first
      | (rw [hw] at hx; cases hx)
      | skip
    · rw [hQ] at hQ'
      cases hQ'
      exact ⟨fun _ => rfl, fun hlt => by omega⟩
    · rw [hQ] at hQ'
      cases hQ'
      exact ⟨fun hlt => by omega, fun _ => rfl⟩

/-- C145 refuted, in every execution: after a call that was decided with period `P`, whose scheduled instant the earlier
periods give, the next call is decided with the period set since, `Q`, only once `P` milliseconds, not `Q`, have gone by
since that instant (and `Q` nanoseconds). -/
theorem C145_old_period_refuted {s s' : State} {ps : List Int} {P : Int} (h : Held s (ps ++ [P])) {Q now : Int}
    (hw : s.worker = .check) (hQ : s.period = some Q) (hs : Step s (.work now) (.ok s')) :
    (s'.calls ≠ s.calls ↔ s.t0 + ps.sum * 1000000 + P * 1000000 + Q ≤ now) := by
  obtain ⟨h1, h2⟩ := C145_next_partial h hw hQ hs
  rw [List.sum_append] at h1 h2
  simp only [List.sum_cons, List.sum_nil] at h1 h2
  constructor
  · intro hne
    apply Classical.byContradiction
    intro hlt
    exact hne (h2 (by omega))
  · intro hle
    rw [h1 (by omega)]
    simp

/-- The first call is decided with period `P` and sets the period to `Q`. -/
theorem changed {P Q : Int} (h0 : 0 < P) (h1 : P * 1000000 < 2 ^ 63) : ∃ s, Reach anyStep s ∧ Held s [P] ∧
    s.worker = .check ∧ s.destroyed = false ∧ s.period = some Q ∧ s.t0 = 0 ∧ s.last = P * 1000000 ∧ s.calls = [P] := by
  let s1 : State := { State.new with period := some P }
  let s2 : State := { s1 with worker := .start }
  let s3 : State := { s2 with worker := .test }
  let s4 : State := { s3 with worker := .check }
  let s5 : State := { s4 with last := 0 + P * 1000000, calls := [P], worker := .calling }
  let s6 : State := { s5 with period := some Q }
  let s7 : State := { s6 with worker := .pause }
  let s8 : State := { s7 with worker := .test }
  let s9 : State := { s8 with worker := .check }
  have t1 : Step State.new (.build P) (.ok s1) := .build _ P rfl
  have t2 : Step s1 (.work 0) (.ok s2) := .work s1 0 rfl
  have t3 : Step s2 (.work 0) (.ok s3) := .work s2 0 rfl
  have t4 : Step s3 (.work 0) (.ok s4) := .work s3 0 rfl
  have t5 : Step s4 (.work P) (.ok s5) := by
    have hst := Step.work s4 P rfl
    have hw : workerStep s4 P = .ok s5 := by
      have e1 : inRep (P - 0) := by simp only [inRep]; omega
      have e2 : inRep (P * 1000000) ∧ inRep (0 + P * 1000000) := by simp only [inRep]; omega
      have e3 : P - 0 ≥ P := by omega
      have : workerStep s4 P = check s4 P P := rfl
      rw [this]
      have hl : s4.last = 0 := rfl
      simp only [check, advance, hl, if_pos e1, if_pos e2, if_pos e3, Res.ok_bind, Res.pure_eq]
      rfl
    rwa [hw] at hst
  have t6 : Step s5 (.setPeriod Q) (.ok s6) := .setPeriod s5 Q P rfl rfl
  have t7 : Step s6 (.work 0) (.ok s7) := .work s6 0 rfl
  have t8 : Step s7 (.work 0) (.ok s8) := .work s7 0 rfl
  have t9 : Step s8 (.work 0) (.ok s9) := .work s8 0 rfl
  have hR : Reach anyStep s9 :=
    .step _ _ _ (.step _ _ _ (.step _ _ _ (.step _ _ _ (.step _ _ _ (.step _ _ _ (.step _ _ _ (.step _ _ _
      (.step _ _ _ .new trivial t1) trivial t2) trivial t3) trivial t4) trivial t5) trivial t6) trivial t7) trivial t8)
      trivial t9
  have g4 : Held s4 [] := .quiet _ _ _ _ (.quiet _ _ _ _ (.quiet _ _ _ _ (.quiet _ _ _ _ .new t1 rfl) t2 rfl) t3 rfl) t4 rfl
  have g5 : Held s5 [P] := .call s4 s5 _ [] P g4 t5 (by simp [s5, s4, s3, s2, s1, State.new]) rfl
  have g9 : Held s9 [P] := .quiet _ _ _ _ (.quiet _ _ _ _ (.quiet _ _ _ _ (.quiet _ _ _ _ g5 t6 rfl) t7 rfl) t8 rfl) t9 rfl
  exact ⟨s9, hR, g9, rfl, rfl, rfl, rfl, by show 0 + P * 1000000 = _; omega, rfl⟩

/-- A check that is defined. -/
theorem check_defined {s : State} {Q now : Int} (hw : s.worker = .check) (hd : s.destroyed = false)
    (hQ : s.period = some Q) (h1 : -9223372036854775808 ≤ now - s.last) (h2 : now - s.last ≤ 9223372036854775807)
    (h3 : Q ≤ now - s.last → -9223372036854775808 ≤ Q * 1000000 ∧ Q * 1000000 ≤ 9223372036854775807 ∧
      -9223372036854775808 ≤ s.last + Q * 1000000 ∧ s.last + Q * 1000000 ≤ 9223372036854775807) :
    ∃ s', Step s (.work now) (.ok s') := by
  have hst := Step.work s now (by simp [hw, WPc.out])
  cases he : workerStep s now with
  | ok s' => exact ⟨s', he ▸ hst⟩
  | ub =>
    rw [he] at hst
    rcases (C63_undefined_iff hw hQ hd now).1 hst with h | ⟨h, h'⟩
    · omega
    · have := h3 h
      omega
  | hang =>
    simp only [workerStep, hw, hd, hQ, Bool.false_eq_true, if_false, check, advance] at he
    split at he
    · split at he
      · split at he <;> simp [Res.ok_bind, Res.ub_bind, Res.pure_eq] at he
      · simp [Res.pure_eq] at he
    · cases he

/-- C145 refuted, too early: the function sets a longer period, and is called again before it has gone by. -/
theorem C145_early_refuted {P Q : Int} (h0 : 0 < P) (h1 : P < Q) (h2 : (P + Q) * 1000000 < 2 ^ 63) :
    ∃ s s' now, Reach anyStep s ∧ s.period = some Q ∧ s.calls = [P] ∧ Step s (.work now) (.ok s') ∧
      s'.calls = [P, now] ∧ now < P + Q * 1000000 := by
  obtain ⟨s, hR, hH, hw, hd, hQ, ht, hl, hc⟩ := changed (Q := Q) h0 (by omega)
  obtain ⟨s', hs⟩ := check_defined (now := P * 1000000 + Q) hw hd hQ (by omega) (by omega) (by omega)
  refine ⟨s, s', P * 1000000 + Q, hR, hQ, hc, hs, ?_, by omega⟩
  have := (C145_next_partial hH hw hQ hs).1 (by simp only [List.sum_cons, List.sum_nil]; omega)
  rw [this, hc]
  rfl

/-- C145 refuted, too late: the function sets a shorter period, which goes by several times without a call, whatever the
clock reads before the old one has gone by. -/
theorem C145_late_refuted {P Q : Int} (h0 : 0 ≤ Q) (h1 : Q < P) (h2 : (P + Q) * 1000000 < 2 ^ 63) :
    ∃ s, Reach anyStep s ∧ s.worker = .check ∧ s.period = some Q ∧ s.calls = [P] ∧
      ∀ now, P ≤ now → now < P * 1000000 → ∃ s', Step s (.work now) (.ok s') ∧ s'.calls = [P] := by
  obtain ⟨s, hR, hH, hw, hd, hQ, ht, hl, hc⟩ := changed (P := P) (Q := Q) (by omega) (by omega)
  refine ⟨s, hR, hw, hQ, hc, fun now n1 n2 => ?_⟩
  obtain ⟨s', hs⟩ := check_defined (now := now) hw hd hQ (by omega) (by omega) (by omega)
  refine ⟨s', hs, ?_⟩
  have := (C145_next_partial hH hw hQ hs).2 (by simp only [List.sum_cons, List.sum_nil]; omega)
  rw [this, hc]

/-- An hour becomes a millisecond in the first call. -/
example : ∃ s, Reach anyStep s ∧ s.worker = .check ∧ s.period = some 1 ∧ s.calls = [3600000] ∧
    ∀ now, 3600000 ≤ now → now < 3600000 * 1000000 → ∃ s', Step s (.work now) (.ok s') ∧ s'.calls = [3600000] :=
  C145_late_refuted (by decide) (by decide) (by decide)

example : ∃ s s' now, Reach anyStep s ∧ s.period = some 3600000 ∧ s.calls = [1] ∧ Step s (.work now) (.ok s') ∧
    s'.calls = [1, now] ∧ now < 1 + 3600000 * 1000000 :=
  C145_early_refuted (by decide) (by decide) (by decide)

/-- Three calls, the period changed after each. -/
example : ∃ s s' : State, Reach anyStep s ∧ Run anyStep s (Ex.round 15000007) s' ∧
    s'.calls = [10, 10000005, 15000007] :=
  follow_ex 1 (gAny_ok 1) (Ex.up 10 ++ Ex.round 10 ++ [.setPeriod 5] ++ Ex.round 10000005 ++ [.setPeriod 7]) _
    (by decide +kernel)

/-! ### C146 -/

theorem Run.constant_silent {P : Int} {s s' : State} {ls : List Label} (hr : Run (constant P) s ls s')
    (h : Reach (constant P) s) (hb : ¬(s.worker = .nap ∨ s.worker = .start))
    (hn : ∀ now, .work now ∈ ls → now < s.t0 + s.calls.length * (P * 1000000) + P) : s'.calls = s.calls := by
  induction hr with
  | nil s => rfl
  | cons s s1 s2 l ls hg hs _ ih =>
    have hr1 : Reach (constant P) s1 := .step s s1 l h hg hs
    rcases hs.paced with ⟨hc, hl, ht, hw⟩ | ⟨hw, _⟩ | ⟨now, Q, rfl, hw, hQ, hle, _⟩
    · rw [← hc]
      refine ih hr1 (fun e => hb (hw.1 e)) (fun now hm => ?_)
      rw [ht, hc]
      exact hn now (List.mem_cons_of_mem _ hm)
    · exact absurd (.inr hw) hb
    · have hsch := h.timed.sched (fun e => hb (.inl e)) (fun e => hb (.inr e))
      have := h.timed.period Q hQ
      subst this
      have := hn now (by simp)
      omega

/-- C146 refuted, in every execution: once the worker has begun, there is no call, however long it goes on, as long as the
clock reads less than the instant it has got to, for instance because it has been set back. -/
theorem C146_set_back_refuted {P : Int} {s s' : State} {ls : List Label} (h : Reach (constant P) s)
    (hb : s.worker ≠ .nap ∧ s.worker ≠ .start) (hr : Run (constant P) s ls s')
    (hn : ∀ now, .work now ∈ ls → now < s.t0 + s.calls.length * (P * 1000000) + P) : s'.calls = s.calls :=
  hr.constant_silent h (fun e => e.elim hb.1 hb.2) hn

/-- The clock is set back by a year: ten checks of an event with a period of 100 ms, and no call. -/
example : ∃ s s' : State, Reach (constant 100) s ∧
    Run (constant 100) s ((List.replicate 10 [.work (-31536000000000000), .work (-31536000000000000),
      .work (-31536000000000000)]).flatten) s' ∧
    (s.worker = .test ∧ s.calls = [100, 100000100] ∧ s'.calls = [100, 100000100]) :=
  follow_ex 1 (gConstant_ok 100 1) (Ex.up 100 ++ Ex.round 100 ++ Ex.round 100000100) _ (by decide +kernel)

/-- One round of the worker in which the function is called. -/
theorem round_call {P now : Int} {s : State} (hw : s.worker = .test) (hf : s.flag = true) (hd : s.destroyed = false)
    (hP : s.period = some P) (h1 : inRep (now - s.last)) (h2 : s.last + P ≤ now) (h3 : inRep (P * 1000000))
    (h4 : inRep (s.last + P * 1000000)) :
    Run (constant P) s [.work now, .work now, .work now, .work now]
      { s with last := s.last + P * 1000000, calls := s.calls ++ [now] } := by
  have t1 : Step s (.work now) (.ok { s with worker := .check }) := by
    have := Step.work s now (by simp [hw, WPc.out])
    have e : workerStep s now = .ok { s with worker := .check } := by
      simp only [workerStep, hw, hd, hf, Bool.false_eq_true, if_false, if_true]
    rwa [e] at this
  have t2 : Step { s with worker := .check } (.work now)
      (.ok { s with last := s.last + P * 1000000, calls := s.calls ++ [now], worker := .calling }) := by
    have := Step.work { s with worker := .check } now rfl
    have e : workerStep { s with worker := .check } now =
        .ok { s with last := s.last + P * 1000000, calls := s.calls ++ [now], worker := .calling } := by
      have h2' : now - s.last ≥ P := by omega
      simp only [workerStep, hd, hP, Bool.false_eq_true, if_false, check, advance, if_pos h1, if_pos h2',
        if_pos (And.intro h3 h4), Res.ok_bind, Res.pure_eq]
    rwa [e] at this
  have t3 : Step { s with last := s.last + P * 1000000, calls := s.calls ++ [now], worker := .calling } (.work now)
      (.ok { s with last := s.last + P * 1000000, calls := s.calls ++ [now], worker := .pause }) := .work _ now rfl
  have t4 : Step { s with last := s.last + P * 1000000, calls := s.calls ++ [now], worker := .pause } (.work now)
      (.ok { s with last := s.last + P * 1000000, calls := s.calls ++ [now] }) := by
    have := Step.work { s with last := s.last + P * 1000000, calls := s.calls ++ [now], worker := .pause } now rfl
    have e : workerStep { s with last := s.last + P * 1000000, calls := s.calls ++ [now], worker := .pause } now =
        .ok { s with last := s.last + P * 1000000, calls := s.calls ++ [now] } := by
      simp only [workerStep, hd, hP, Bool.false_eq_true, if_false]
      rw [← hw]
    rwa [e] at this
  exact .cons _ _ _ _ _ trivial t1 (.cons _ _ _ _ _ trivial t2 (.cons _ _ _ _ _ trivial t3
    (.cons _ _ _ _ _ trivial t4 (.nil _))))

theorem Run.append {G : State → Label → Prop} {s s1 s2 : State} {l1 l2 : List Label} (h1 : Run G s l1 s1)
    (h2 : Run G s1 l2 s2) : Run G s (l1 ++ l2) s2 := by
  induction h1 with
  | nil s => exact h2
  | cons s a b l ls hg hs _ ih => exact .cons _ _ _ _ _ hg hs (ih h2)

/-- C146 refuted, the other way: wherever the worker has got to, if the clock is set forward by `k` periods or more, the
function is called `k` times in a row, while the clock need not advance at all. -/
theorem C146_set_forward_refuted {P now : Int} (hP0 : 0 ≤ P) (k : Nat) {s : State} (hw : s.worker = .test)
    (hf : s.flag = true) (hd : s.destroyed = false) (hP : s.period = some P) (hl : 0 ≤ s.last) (hm : now < 2 ^ 63)
    (hk : s.last + k * (P * 1000000) + P ≤ now) :
    ∃ s', Run (constant P) s ((List.replicate k [.work now, .work now, .work now, .work now]).flatten) s' ∧
      s'.calls = s.calls ++ List.replicate k now := by
  induction k generalizing s with
  | zero => exact ⟨s, .nil s, by simp⟩
  | succ k ih =>
    have hkn : (0 : Int) ≤ k * (P * 1000000) := Int.mul_nonneg (Int.natCast_nonneg k) (by omega)
    have hs : ((k + 1 : Nat) : Int) * (P * 1000000) = k * (P * 1000000) + P * 1000000 := by
      rw [Int.natCast_add, Int.add_mul]
      simp
    rw [hs] at hk
    have r1 := round_call (now := now) hw hf hd hP (by simp only [inRep]; omega) (by omega) (by simp only [inRep]; omega)
      (by simp only [inRep]; omega)
    obtain ⟨s', r2, hc⟩ := ih (s := { s with last := s.last + P * 1000000, calls := s.calls ++ [now] }) hw hf hd hP
      (by show 0 ≤ s.last + P * 1000000; omega) (by show s.last + P * 1000000 + _ + P ≤ now; omega)
    refine ⟨s', ?_, ?_⟩
    · rw [List.replicate_succ, List.flatten_cons]
      exact r1.append r2
    · rw [hc, List.replicate_succ]
      simp

/-- The clock is set forward by a minute: 600 calls in a row. -/
example {s : State} (hw : s.worker = .test) (hf : s.flag = true) (hd : s.destroyed = false) (hP : s.period = some 100)
    (hl : s.last = 0) :
    ∃ s', Run (constant 100) s ((List.replicate 600 [.work 60000000100, .work 60000000100, .work 60000000100,
      .work 60000000100]).flatten) s' ∧ s'.calls = s.calls ++ List.replicate 600 60000000100 :=
  C146_set_forward_refuted (by decide) 600 hw hf hd hP (by omega) (by decide) (by rw [hl]; decide)

example : ∃ s s' : State, Reach (constant 100) s ∧ Run (constant 100) s [] s' ∧
    (s'.worker = .test ∧ s'.flag = true ∧ s'.destroyed = false ∧ s'.period = some 100 ∧ s'.last = 0) :=
  follow_ex 1 (gConstant_ok 100 1) (Ex.up 100) _ (by decide +kernel)

/-- C146, as far as it holds: however the clock is set, the number of calls is bounded by the greatest reading `T` at which
one was decided: `n` calls need `n - 1` periods since the first reading (while nothing overflows, see
`C63_undefined_iff`). -/
theorem C146_count_partial {P T : Int} {s : State} (h : Reach (constant P) s) {n : Nat}
    (hn : s.calls.length = n + 1) (hT : ∀ t ∈ s.calls, t ≤ T) : s.t0 + n * (P * 1000000) + P ≤ T := by
  have hlt : n < s.calls.length := by omega
  have h1 := h.timed.late n s.calls[n] (List.getElem?_eq_getElem hlt)
  have h2 := hT s.calls[n] (List.getElem_mem hlt)
  omega

example : ∃ s s' : State, Reach (constant 100) s ∧ Run (constant 100) s [] s' ∧
    (s'.calls = [100, 350000000, 350000000, 350000000] ∧ ∀ t ∈ s'.calls, t ≤ 350000000) :=
  follow_ex 1 (gConstant_ok 100 1) (Ex.up 100 ++ Ex.round 100 ++ Ex.round 350000000 ++ Ex.round 350000000 ++
    Ex.round 350000000) _ (by decide +kernel)

/-! ### C147 -/

/-- C147, as far as it holds: with a period of zero or less, every check that reads no less than the first reading and is
defined calls the function. -/
theorem C147_every_check_partial {P : Int} (hP : P ≤ 0) {s s' : State} (h : Reach (constant P) s)
    (hw : s.worker = .check) {now : Int} (hn : s.t0 ≤ now) (hs : Step s (.work now) (.ok s')) :
    s'.calls = s.calls ++ [now] ∧ s'.worker = .calling := by
  have : (s.calls.length : Int) * (P * 1000000) ≤ 0 :=
    Int.mul_nonpos_of_nonneg_of_nonpos (Int.natCast_nonneg _) (by omega)
  exact (C63_catches_up_partial h hw hs).1 (by omega)

example : ∃ s s' : State, Reach (constant 0) s ∧ Run (constant 0) s [.work 7] s' ∧
    (s.worker = .check ∧ s.t0 = 0 ∧ s.calls = [3, 7] ∧ s'.calls = [3, 7, 7]) :=
  follow_ex 1 (gConstant_ok 0 1) (Ex.up 0 ++ Ex.round 3 ++ Ex.round 7 ++ [.work 0]) _ (by decide +kernel)

/-- C147 refuted, for a period of zero: a check that reads less than the first reading calls nothing, in every
execution. -/
theorem C147_earlier_refuted {s s' : State} (h : Reach (constant 0) s) (hw : s.worker = .check) {now : Int}
    (hn : now < s.t0) (hs : Step s (.work now) (.ok s')) : s'.calls = s.calls :=
  ((C63_catches_up_partial h hw hs).2 (by omega)).1

example : ∃ s s' : State, Reach (constant 0) s ∧ Run (constant 0) s [.work (-1)] s' ∧
    (s.worker = .check ∧ s.t0 = 0 ∧ s'.calls = [3]) :=
  follow_ex 1 (gConstant_ok 0 1) (Ex.up 0 ++ Ex.round 3 ++ [.work 0]) _ (by decide +kernel)

/-- C147 refuted, for a period less than zero: each call moves the schedule back, in every execution, until a check is
undefined. -/
theorem C147_negative_refuted {P : Int} (hP : P ≤ 0) {s : State} (h : Reach (constant P) s) (hw : s.worker = .check)
    (hd : s.destroyed = false) (hp : s.period = some P) {now : Int} (hn : s.t0 ≤ now)
    (ho : s.t0 + (s.calls.length + 1 : Nat) * (P * 1000000) < -9223372036854775808) : Step s (.work now) .ub := by
  have hsch := h.timed.sched (by simp [hw]) (by simp [hw])
  have h0 : (s.calls.length : Int) * (P * 1000000) ≤ 0 :=
    Int.mul_nonpos_of_nonneg_of_nonpos (Int.natCast_nonneg _) (by omega)
  have hs : ((s.calls.length + 1 : Nat) : Int) * (P * 1000000) = s.calls.length * (P * 1000000) + P * 1000000 := by
    rw [Int.natCast_add, Int.add_mul]
    simp
  rw [hs] at ho
  exact (C63_undefined_iff hw hp hd now).2 (.inr ⟨by omega, .inr (.inr (.inl (by omega)))⟩)

/-- A period of minus a century: the third check is undefined. -/
example : ∃ s s' : State, Reach (constant (-3155760000000)) s ∧ Run (constant (-3155760000000)) s [] s' ∧
    (s'.worker = .check ∧ s'.destroyed = false ∧ s'.period = some (-3155760000000) ∧ s'.calls = [0, 0] ∧ s'.t0 = 0 ∧
      (0 : Int) + (2 + 1) * (-3155760000000 * 1000000) < -9223372036854775808) :=
  follow_ex 1 (gConstant_ok _ 1) (Ex.up (-3155760000000) ++ Ex.round 0 ++ Ex.round 0 ++ [.work 0]) _ (by decide +kernel)

end Verif.Interval
