import Verif.Interval.Props
/-!
Property C176: functions that throw (interval_event.hpp:50).  The worker is a `std::thread` whose function catches nothing
(interval_event.hpp:43-55), so that an exception ends the program.  `boom n` says whether call number `n` of the function throws; it may call
`stop()` and wait before it throws.  Everything else is as in `Model.lean`.
-/
namespace Verif.Interval.Throw
open Verif Verif.Interval

/-- The step from `s` to `s'` leaves the function, by an exception (interval_event.hpp:50). -/
def Dies (boom : Nat → Bool) (s s' : State) : Prop :=
  s.worker = .calling ∧ s'.worker = .pause ∧ boom (s.calls.length - 1) = true

/-- The states that can be reached; with `true` if the program has ended there by an exception (interval_event.hpp:41-127). -/
inductive Reach (G : State → Label → Prop) (boom : Nat → Bool) : State → Bool → Prop
  | new : Reach G boom State.new false
  | goes (s s' : State) (l : Label) : Reach G boom s false → G s l → Step s l (.ok s') → ¬ Dies boom s s' → Reach G boom s' false
  | dies (s s' : State) (l : Label) : Reach G boom s false → G s l → Step s l (.ok s') → Dies boom s s' → Reach G boom s' true

/-- The worker is in the function (no code). -/
def inside : WPc → Bool
  | .calling | .selfWait | .selfAsleep => true
  | _ => false

/-- How many calls of the function have ended (no code). -/
def done (s : State) : Nat := s.calls.length - (if inside s.worker then 1 else 0)

/-- A step does not change how many calls have ended, or it leaves the function. -/
theorem done_step {s s' : State} {l : Label} (hin : inside s.worker = true → s.calls ≠ []) (h : Step s l (.ok s')) :
    (inside s'.worker = true → s'.calls ≠ []) ∧
    ((done s' = done s ∧ ¬ (s.worker = .calling ∧ s'.worker = .pause)) ∨
      (s.worker = .calling ∧ s'.worker = .pause ∧ s'.calls = s.calls ∧ done s = s.calls.length - 1 ∧ done s' = s.calls.length)) := by
  generalize hr : Res.ok s' = r at h
  cases h with
  | build P _ => cases hr; exact ⟨hin, .inl ⟨rfl, fun h => by rw [h.1] at h; cases h.2⟩⟩
  | setPeriod P Q _ _ => cases hr; exact ⟨hin, .inl ⟨rfl, fun h => by rw [h.1] at h; cases h.2⟩⟩
  | work now hout =>
    unfold workerStep at hr
    cases hw : s.worker with
    | nap => rw [hw] at hr; cases hr; exact ⟨by simp [inside], .inl ⟨by simp [done, hw, inside], by simp⟩⟩
    | start => rw [hw] at hr; cases hr; exact ⟨by simp [inside], .inl ⟨by simp [done, hw, inside], by simp⟩⟩
    | test =>
      rw [hw] at hr
      dsimp only at hr
      split at hr
      · cases hr
      · cases hr
        refine ⟨?_, .inl ⟨?_, by simp⟩⟩
        · dsimp only
          split <;> simp [inside]
        · simp only [done, hw]
          split <;> simp [inside]
    | check =>
      rw [hw] at hr
      dsimp only at hr
      split at hr
      · cases hr
      · split at hr
        · cases hr
        · unfold check at hr
          split at hr
          · split at hr
            · unfold advance at hr
              split at hr
              · cases hr
                exact ⟨by simp, .inl ⟨by simp [done, hw, inside], by simp⟩⟩
              · cases hr
            · cases hr
              exact ⟨by simp [inside], .inl ⟨by simp [done, hw, inside], by simp⟩⟩
          · cases hr
    | calling =>
      rw [hw] at hr
      cases hr
      exact ⟨by simp [inside], .inr ⟨rfl, rfl, rfl, by simp [done, hw, inside], by simp [done, inside]⟩⟩
    | pause =>
      rw [hw] at hr
      dsimp only at hr
      split at hr
      · cases hr
      · split at hr
        · cases hr
        · cases hr
          exact ⟨by simp [inside], .inl ⟨by simp [done, hw, inside], by simp⟩⟩
    | notify => rw [hw] at hr; cases hr
    | ended => rw [hw] at hr; cases hr
    | selfWait =>
      have := hin (by simp [hw, inside])
      rw [hw] at hr
      dsimp only at hr
      split at hr <;> cases hr
      · exact ⟨fun _ => this, .inl ⟨by simp [done, hw, inside], by simp⟩⟩
      · exact ⟨fun _ => this, .inl ⟨by simp [done, hw, inside], by simp⟩⟩
    | selfAsleep =>
      have := hin (by simp [hw, inside])
      rw [hw] at hr
      cases hr
      exact ⟨fun _ => this, .inl ⟨by simp [done, hw, inside], by simp⟩⟩
  | selfStop hw _ =>
    cases hr
    exact ⟨fun _ => hin (by simp [hw, inside]), .inl ⟨by simp [done, hw, inside], by simp⟩⟩
  | notify k hw _ =>
    split at hr
    · cases hr
    · cases hr
      exact ⟨by simp [inside], .inl ⟨by simp [done, hw, inside], by simp⟩⟩
  | notifyNone hw _ =>
    split at hr
    · cases hr
    · cases hr
      exact ⟨by simp [inside], .inl ⟨by simp [done, hw, inside], by simp⟩⟩
  | begin k Q _ _ _ _ => cases hr; exact ⟨hin, .inl ⟨rfl, fun h => by rw [h.1] at h; cases h.2⟩⟩
  | again k Q _ _ _ _ => cases hr; exact ⟨hin, .inl ⟨rfl, fun h => by rw [h.1] at h; cases h.2⟩⟩
  | clear k _ => cases hr; exact ⟨hin, .inl ⟨rfl, fun h => by rw [h.1] at h; cases h.2⟩⟩
  | look k _ => cases hr; exact ⟨hin, .inl ⟨rfl, fun h => by rw [h.1] at h; cases h.2⟩⟩
  | wake k _ => cases hr; exact ⟨hin, .inl ⟨rfl, fun h => by rw [h.1] at h; cases h.2⟩⟩
  | leave k _ => cases hr; exact ⟨hin, .inl ⟨rfl, fun h => by rw [h.1] at h; cases h.2⟩⟩
  | destroy _ _ _ => cases hr; exact ⟨hin, .inl ⟨rfl, fun h => by rw [h.1] at h; cases h.2⟩⟩

theorem in_calls {G : State → Label → Prop} {s : State} (h : Interval.Reach G s) : inside s.worker = true → s.calls ≠ [] := by
  induction h with
  | new => simp [State.new, inside]
  | step s s' l _ _ hs ih => exact (done_step ih hs).1

theorem calm_step {boom : Nat → Bool} {s s' : State} {l : Label} (hin : inside s.worker = true → s.calls ≠ []) (h : Step s l (.ok s')) :
    (∀ n, n < done s' → boom n = false) ↔ (∀ n, n < done s → boom n = false) ∧ ¬ Dies boom s s' := by
  rcases (done_step hin h).2 with ⟨e, hn⟩ | ⟨h1, h2, _, h4, h5⟩
  · rw [e]
    exact ⟨fun hc => ⟨hc, fun hd => hn ⟨hd.1, hd.2.1⟩⟩, fun hc => hc.1⟩
  · have hne : s.calls.length ≠ 0 := fun h0 => hin (by simp [h1, inside]) (List.eq_nil_of_length_eq_zero h0)
    rw [h4, h5]
    constructor
    · intro hc
      refine ⟨fun n hn => hc n (by omega), fun hd => ?_⟩
      have := hc (s.calls.length - 1) (by omega)
      rw [hd.2.2] at this
      cases this
    · intro ⟨hc, hd⟩ n hn
      by_cases hl : n = s.calls.length - 1
      · subst hl
        cases hb : boom (s.calls.length - 1) with
        | false => rfl
        | true => exact absurd ⟨h1, h2, hb⟩ hd
      · exact hc n (by omega)

/-- **C176.** Until an exception comes everything is as if the function never threw: the states are exactly those in which every call that
has ended was one that does not throw. -/
theorem C176_until {G : State → Label → Prop} {boom : Nat → Bool} {s : State} :
    Reach G boom s false ↔ Interval.Reach G s ∧ ∀ n, n < done s → boom n = false := by
  constructor
  · intro h
    generalize hd : false = d at h
    induction h with
    | new => exact ⟨.new, fun n hn => by simp [done, State.new] at hn⟩
    | goes s s' l _ hg hs hn ih =>
      obtain ⟨h1, h2⟩ := ih rfl
      exact ⟨.step s s' l h1 hg hs, (calm_step (in_calls h1) hs).mpr ⟨h2, hn⟩⟩
    | dies => cases hd
  · intro ⟨h, hc⟩
    induction h with
    | new => exact .new
    | step s s' l hr hg hs ih =>
      obtain ⟨h1, h2⟩ := (calm_step (in_calls hr) hs).mp hc
      exact .goes s s' l (ih h1) hg hs h2

/-- **C176.** The program ends by the first call that throws, which is the last call. -/
theorem C176_ends {G : State → Label → Prop} {boom : Nat → Bool} {s : State} (h : Reach G boom s true) :
    ∃ n, s.calls.length = n + 1 ∧ boom n = true ∧ ∀ m, m < n → boom m = false := by
  cases h with
  | dies s0 _ l h0 hg hs hd =>
    obtain ⟨h1, h2⟩ := C176_until.mp h0
    have hin := in_calls h1
    rcases (done_step hin hs).2 with ⟨_, hn⟩ | ⟨k1, _, k3, k4, _⟩
    · exact absurd ⟨hd.1, hd.2.1⟩ hn
    · have hne : s0.calls.length ≠ 0 := fun h0 => hin (by simp [k1, inside]) (List.eq_nil_of_length_eq_zero h0)
      exact ⟨s0.calls.length - 1, by rw [k3]; omega, hd.2.2, fun m hm => h2 m (by omega)⟩

/-- **C176.** The function is never called after a call that throws. -/
theorem C176_last {G : State → Label → Prop} {boom : Nat → Bool} {s : State} {d : Bool} (h : Reach G boom s d) {n : Nat}
    (hb : boom n = true) : s.calls.length ≤ n + 1 := by
  cases d with
  | true =>
    obtain ⟨m, h1, _, h3⟩ := C176_ends h
    rcases Nat.lt_or_ge n m with hlt | hge
    · rw [h3 n hlt] at hb
      cases hb
    · omega
  | false =>
    obtain ⟨_, h2⟩ := C176_until.mp h
    have : done s ≤ n := by
      rcases Nat.lt_or_ge n (done s) with hlt | hge
      · rw [h2 n hlt] at hb
        cases hb
      · exact hge
    unfold done at this
    split at this <;> omega

/-- **C176.** Once a call of `stop()` has returned no exception comes any more: whatever the threads do then, no step leaves the function. -/
theorem C176_after_stop {boom : Nat → Bool} {s s1 s2 s3 : State} {k : Nat} (h : Reach anyStep boom s false)
    (hs : Step s (.leave k) (.ok s1) ∨ Step s (.again k) (.ok s1)) {ls : List Label} (hr : Run anyStep s1 ls s2) {l : Label}
    (_hl : Step s2 l (.ok s3)) : ¬ Dies boom s2 s3 := by
  intro hd
  rcases (C61_no_call_after_stop (C176_until.mp h).1 hs hr).2.2 with hw | hw
  · rw [hd.1] at hw
    cases hw
  · rw [hd.1] at hw
    cases hw

/-- C176 as stated: after a call that throws the function may be called again. -/
def C176_Statement : Prop :=
  ∀ (boom : Nat → Bool) (n : Nat), boom n = true → ∃ s d, Reach anyStep boom s d ∧ n + 1 < s.calls.length

theorem C176_refuted : ¬ C176_Statement := by
  intro h
  obtain ⟨s, d, h1, h2⟩ := h (fun _ => true) 0 rfl
  have := C176_last h1 (n := 0) rfl
  omega

/-- The second of two calls throws. -/
example : ∃ s, Reach anyStep (fun n => n == 1) s true ∧ s.calls = [200, 100000200] := by
  obtain ⟨s, s', h1, h2, h3, h4, h5⟩ : ∃ s s' : State, Interval.Reach anyStep s ∧ Run anyStep s [] s' ∧
      (s'.worker = .calling ∧ s'.calls = [200, 100000200] ∧ s'.flag = true) :=
    follow_ex 1 (gAny_ok 1) (Interval.Ex.up 100 ++ Interval.Ex.round 200 ++ [.work 0, .work 100000200]) _ (by decide +kernel)
  have st := Step.work s' 0 (by simp [h3, WPc.out])
  rw [show workerStep s' 0 = .ok { s' with worker := .pause } by rw [workerStep, h3]] at st
  refine ⟨_, .dies s' _ (.work 0) (C176_until.mpr ⟨h2.reach h1, fun n hn => ?_⟩) trivial st ⟨h3, rfl, by rw [h4]; rfl⟩, h4⟩
  rw [done, h3, h4] at hn
  have : n = 0 := by simpa [inside] using hn
  subst this
  rfl

end Verif.Interval.Throw
