import Verif.Pipeline.Late
/-!
C137: threads that push into a stage while another thread destroys it.
-/
namespace Verif.Pipeline
open Verif

variable {α : Type}

/-! ### An executable scheduler, for the examples -/

/-- The result of a step, if it is possible and defined; the producers are those below `n`. -/
def Late.fire (n : Nat) (s : Late α) : Late.Act α → Option (Late α)
  | .step (.begin p x) =>
    if p < n ∧ s.gone = false ∧ (s.st.pend p).isNone then
      some { s with st := { s.st with q := s.st.q.claim x, pend := setAt s.st.pend p (some (s.st.q.tail, x)) } }
    else none
  | .step (.store p) =>
    match s.st.pend p with
    | none => none
    | some (i, x) =>
      if s.gone then none else
      match s.st.q.store i x with
      | .ok q => some { s with st := { s.st with q := q, pend := setAt s.st.pend p none } }
      | _ => none
  | .step .close => if s.st.closed = false then some { s with st := { s.st with closed := true } } else none
  | .step (.work e) =>
    if s.st.q.pc ≠ .ended then
      match s.st.q.work s.st.closed e with
      | .ok q => some { s with st := { s.st with q := q }, cut := Late.mark q }
      | _ => none
    else none
  | .leave =>
    if s.gone = false ∧ s.st.closed = true ∧ s.st.q.pc = .ended then some { s with gone := true } else none

theorem Late.fire_step {n : Nat} {s s' : Late α} {l : Late.Act α} (h : s.fire n l = some s') :
    Step s l (.ok s') := by
  cases l with
  | leave =>
    simp only [Late.fire] at h
    split at h
    · rename_i hc
      cases h
      exact .leave s hc.1 hc.2.1 hc.2.2
    · cases h
  | step l =>
    cases l with
    | begin p x =>
      simp only [Late.fire] at h
      split at h
      · rename_i hc
        cases h
        exact .begin s p x hc.2.1 (by simpa using hc.2.2)
      · cases h
    | store p =>
      simp only [Late.fire] at h
      split at h
      · cases h
      · rename_i i x hp
        split at h
        · cases h
        · rename_i hg
          split at h
          · rename_i q hq
            cases h
            have := Step.store s p i x hp
            rw [if_neg hg, hq] at this
            exact this
          · cases h
    | close =>
      simp only [Late.fire] at h
      split at h
      · rename_i hc
        cases h
        exact .close s hc
      · cases h
    | work e =>
      simp only [Late.fire] at h
      split at h
      · rename_i hc
        split at h
        · rename_i q hq
          cases h
          have := Step.work s e hc
          rw [hq] at this
          exact this
        · cases h
      · cases h

/-- Follow a schedule, as long as its steps pass the test `g`. -/
def Late.follow (g : Late α → Late.Act α → Bool) (n : Nat) : Late α → List (Late.Act α) → Option (Late α)
  | s, [] => some s
  | s, l :: ls =>
    if g s l then
      match s.fire n l with
      | some s' => s'.follow g n ls
      | none => none
    else none

theorem Late.follow_reach {g : Late α → Late.Act α → Bool} {G : Late α → Late.Act α → Prop} {n b : Nat}
    (hg : ∀ s l, g s l = true → G s l) {s s' : Late α} (ls : List (Late.Act α)) (h : Reach b G s)
    (hf : s.follow g n ls = some s') : Reach b G s' := by
  induction ls generalizing s with
  | nil => cases hf; exact h
  | cons l ls ih =>
    rw [Late.follow] at hf
    split at hf
    · rename_i hgl
      split at hf
      · rename_i s1 h1
        exact ih (.step s s1 l h (hg s l hgl) (Late.fire_step h1)) hf
      · cases hf
    · cases hf

/-- A schedule as a witness. -/
theorem Late.follow_ex {n b : Nat} {P : Late α → Prop} [DecidablePred P] (ls : List (Late.Act α))
    (h : ((Late.new b).follow (fun _ _ => true) n ls).any (fun s => decide (P s)) = true) :
    ∃ s, Reach b Late.anyStep s ∧ P s := by
  cases hf : (Late.new b).follow (fun _ _ => true) n ls with
  | none => rw [hf] at h; cases h
  | some s =>
    rw [hf] at h
    exact ⟨s, Late.follow_reach (fun _ _ _ => trivial) ls .new hf, by simpa using h⟩

theorem Late.fire_pend {n : Nat} {s s' : Late α} {l : Late.Act α} (h : s.fire n l = some s')
    (hi : ∀ p, n ≤ p → s.st.pend p = none) : ∀ p, n ≤ p → s'.st.pend p = none := by
  have hp : ∀ p x, l = .step (.begin p x) → p < n := by
    rintro p x rfl
    simp only [Late.fire] at h
    split at h
    · rename_i hc
      exact hc.1
    · cases h
  intro p' hp'
  rcases (Late.fire_step h).cases_ok with ⟨p, x, hl, _, _, rfl⟩ | ⟨p, i, x, q, _, _, _, _, rfl⟩ | ⟨_, _, rfl⟩ |
      ⟨e', q, _, _, _, rfl⟩ | ⟨_, _, _, _, rfl⟩
  · have := hp p x hl
    simp only [setAt]
    rw [if_neg (by omega)]
    exact hi p' hp'
  · simp only [setAt]
    split
    · rfl
    · exact hi p' hp'
  · exact hi p' hp'
  · exact hi p' hp'
  · exact hi p' hp'

/-- The test for `Late.tame`. -/
def Late.isTame (n : Nat) (s : Late α) : Late.Act α → Bool
  | .step l => s.st.q.pc = .ended || Pipeline.isTame n s.st l
  | .leave => true

theorem Late.isTame_tame {n : Nat} {s : Late α} {l : Late.Act α} (hi : ∀ p, n ≤ p → s.st.pend p = none)
    (h : s.isTame n l = true) : Late.tame s l := by
  cases l with
  | leave => trivial
  | step l =>
    intro hne
    simp only [Late.isTame, Bool.or_eq_true, decide_eq_true_eq, hne, false_or] at h
    cases l with
    | begin p x => simpa [Pipeline.isTame, Pipeline.tame] using h
    | store p => trivial
    | close => trivial
    | work e =>
      intro ht p x hp
      simp only [Pipeline.isTame, ht, ne_eq, not_true_eq_false, decide_false, Bool.false_or,
        List.all_eq_true, List.mem_range] at h
      by_cases hpn : n ≤ p
      · rw [hi p hpn] at hp
        cases hp
      · have := h p (by omega)
        rw [hp] at this
        simp at this

/-- A schedule that satisfies `Late.tame` as a witness. -/
theorem Late.follow_tame {n b : Nat} {P : Late α → Prop} [DecidablePred P] (ls : List (Late.Act α))
    (h : ((Late.new b).follow (Late.isTame n) n ls).any (fun s => decide (P s)) = true) :
    ∃ s, Reach b Late.tame s ∧ P s := by
  have key : ∀ (ls : List (Late.Act α)) (s s' : Late α), Reach b Late.tame s →
      (∀ p, n ≤ p → s.st.pend p = none) → s.follow (Late.isTame n) n ls = some s' → Reach b Late.tame s' := by
    intro ls
    induction ls with
    | nil => intro s s' hr _ hf; cases hf; exact hr
    | cons l ls ih =>
      intro s s' hr hi hf
      rw [Late.follow] at hf
      split at hf
      · rename_i hg
        split at hf
        · rename_i s1 h1
          exact ih s1 s' (.step s s1 l hr (Late.isTame_tame hi hg) (Late.fire_step h1)) (Late.fire_pend h1 hi) hf
        · cases hf
      · cases hf
  cases hf : (Late.new b).follow (Late.isTame n) n ls with
  | none => rw [hf] at h; cases h
  | some s =>
    rw [hf] at h
    exact ⟨s, key ls _ s .new (fun _ _ => rfl) hf, by simpa using h⟩

theorem Q.work_open {e : Int} {q q' : Q α} (h1 : q.pc ≠ .drain) (h2 : q.pc ≠ .ended)
    (hq : q.work false e = .ok q') : q'.pc ≠ .drain ∧ q'.pc ≠ .ended := by
  cases hpc : q.pc with
  | drain => exact absurd hpc h1
  | ended => exact absurd hpc h2
  | outer => simp only [Q.work, hpc, Res.ok.injEq] at hq; subst hq; simp
  | inner =>
    simp only [Q.work, hpc, Res.ok.injEq] at hq
    subst hq
    dsimp only
    split <;> simp
  | take => simp only [Q.work, hpc, Res.ok.injEq] at hq; subst hq; simp
  | stat => simp only [Q.work, hpc, Res.ok.injEq] at hq; subst hq; simp
  | check =>
    cases hs : q.slots[q.head % q.slots.length]? with
    | none => simp [Q.work, hpc, hs] at hq
    | some o => cases o <;> (simp only [Q.work, hpc, hs, Res.ok.injEq] at hq; subst hq; simp)
  | call i =>
    rcases Q.work_handled hq with ⟨_, h5⟩ | ⟨i, v, hpc', hs, _⟩
    · exact absurd hpc (h5 i)
    · simp only [Q.work, hpc', hs] at hq
      cases h1 : timeForUnit q.stat with
      | ub => simp [h1] at hq
      | hang => simp [h1] at hq
      | ok a =>
      cases h2 : bufferUtilization q.stat with
      | ub => simp [h1, h2] at hq
      | hang => simp [h1, h2] at hq
      | ok b =>
      simp only [h1, h2, Res.ok_bind, Res.ok.injEq] at hq
      subst hq
      simp

theorem ended_closed {b : Nat} {s : Stage α} (h : Stage.Reach b Pipeline.anyStep s) (he : s.q.pc = .ended) :
    s.closed = true := by
  have key : (s.q.pc = .drain ∨ s.q.pc = .ended) → s.closed = true := by
    clear he
    induction h with
    | new => simp [Stage.new, Q.new]
    | step s s' l hr _ hs ih =>
      rcases hs.cases_ok with ⟨p, x, rfl, hc, hp, rfl⟩ | ⟨p, i, x, q, rfl, hp, hq, rfl⟩ | ⟨rfl, hc, hp, rfl⟩ |
        ⟨e, q, rfl, hpc, hq, rfl⟩
      · exact ih
      · rw [Q.store_same hq]
        exact ih
      · exact fun _ => rfl
      · intro h
        rcases Bool.eq_false_or_eq_true s.closed with hc | hc
        · exact hc
        · have hd : s.q.pc ≠ .drain := fun h => by
            rw [ih (.inl h)] at hc
            cases hc
          rw [hc] at hq
          exact absurd h (not_or.2 (Q.work_open hd hpc hq))
  exact key (.inr he)

/-- What `Stage` can do, this model can do: `Stage` is the case that the destructor begins when no push is
under way, and none begins afterwards. -/
theorem Late.of_stage {b : Nat} {s : Stage α} (h : Stage.Reach b Pipeline.anyStep s) :
    Late.Reach b Late.anyStep ⟨s, Late.mark s.q, false⟩ := by
  induction h with
  | new => exact .new
  | step s s' l hr _ hs ih =>
    rcases hs.cases_ok with ⟨p, x, rfl, hc, hp, rfl⟩ | ⟨p, i, x, q, rfl, hp, hq, rfl⟩ | ⟨rfl, hc, hp, rfl⟩ |
      ⟨e, q, rfl, hpc, hq, rfl⟩
    · have hne : s.q.pc ≠ .ended := fun he => by
        rw [ended_closed hr he] at hc
        cases hc
      have := Late.Step.begin ⟨s, Late.mark s.q, false⟩ p x rfl hp
      refine .step _ _ (.step (.begin p x)) ih trivial ?_
      simpa [Late.mark, Q.claim, hne] using this
    · have := Late.Step.store ⟨s, Late.mark s.q, false⟩ p i x hp
      have hsm := Q.store_same hq
      rw [if_neg (fun h => by cases h), hq] at this
      refine .step _ _ (.step (.store p)) ih trivial ?_
      simpa [Late.mark, hsm] using this
    · exact .step _ _ _ ih trivial (Late.Step.close ⟨s, Late.mark s.q, false⟩ hc)
    · have := Late.Step.work ⟨s, Late.mark s.q, false⟩ e hpc
      rw [hq] at this
      exact .step _ _ _ ih trivial this

/-! ### C137 -/

/-- When the worker leaves its loop, it has handled as many items as pushes have incremented the counter
so far: before `closed_` was set or after, and whether they have returned or not.  It handles no more
afterwards: once the destructor has returned it is that number still. -/
theorem C137_counted_partial {b : Nat} (hb : 0 < b) {s : Late α} (h : Late.Reach b Late.anyStep s)
    (hw : s.st.q.pushed.length < word) :
    (∀ s' e, Late.Step s (.step (.work e)) (.ok s') → s'.st.q.pc = .ended →
      s'.st.closed = true ∧ s'.st.q.handled.length = s'.st.q.pushed.length ∧
      s'.cut = some s'.st.q.pushed.length) ∧
    (∀ n, s.cut = some n → s.st.q.handled.length = n ∧ n ≤ s.st.q.pushed.length ∧
      ∀ l s', Late.Step s l (.ok s') → s'.cut = some n) ∧
    (s.gone = true → ∃ n, s.cut = some n) := by
  have hi := h.linv hb hw
  refine ⟨fun s' e hs he => ?_, fun n hcut => ?_, fun hg => ?_⟩
  · rcases hs.cases_ok with ⟨p, x, hl, _⟩ | ⟨p, i, x, q, hl, _⟩ | ⟨hl, _⟩ |
      ⟨e', q, hl, hpc, hq, rfl⟩ | ⟨hl, _⟩
    · cases hl
    · cases hl
    · cases hl
    · have hcut : s.cut = none := by
        cases hcut : s.cut with
        | none => rfl
        | some n => exact absurd (hi.over n hcut).1 hpc
      have hqi := (hi.live hcut).2.2.work e' hq
      have he : q.pc = .ended := he
      obtain ⟨e1, e2⟩ := hqi.ended he
      have e3 := hqi.head
      have e4 := hqi.tail
      rw [he] at e3
      simp only [Pc.taken] at e3
      have e5 : q.handled.length = q.pushed.length := by omega
      exact ⟨e1, e5, by simp only [Late.mark, if_pos he]⟩
    · cases hl
  · obtain ⟨a1, a2, a3, a4⟩ := hi.over n hcut
    refine ⟨a3, a4, fun l s' hs => ?_⟩
    rcases hs.cases_ok with ⟨p, x, _, _, _, rfl⟩ | ⟨p, i, x, q, _, _, _, _, rfl⟩ | ⟨_, _, rfl⟩ |
      ⟨e', q, _, hpc, _⟩ | ⟨_, _, _, _, rfl⟩
    · exact hcut
    · exact hcut
    · exact hcut
    · exact absurd a1 hpc
    · exact hcut
  · cases hcut : s.cut with
    | some n => exact ⟨n, rfl⟩
    | none =>
      have := (hi.live hcut).2.1
      rw [hg] at this
      cases this

/-- In the first lap, the worker has handled the items of exactly those pushes that had incremented the
counter when it left its loop, once each and in that order, and those pushes have all stored.  So a store
is undefined, because the stage is gone, only for a push that began after the worker had left its loop. -/
theorem C137_first_lap_partial {b : Nat} (hb : 0 < b) {s : Late α} (h : Late.Reach b Late.anyStep s)
    (hw : s.st.q.pushed.length < word) {n : Nat} (hn : s.cut = some n) (hl : n ≤ b) :
    s.st.q.handled = s.st.q.pushed.take n ∧
    (∀ p i x, s.st.pend p = some (i, x) → n ≤ i ∧ s.st.q.pushed[i]? = some x) ∧
    ∀ p, Late.Step s (.step (.store p)) .ub → ∃ i x, s.st.pend p = some (i, x) ∧ n ≤ i := by
  have hlap := h.lap hb hw
  have hi := h.linv hb hw
  unfold Late.lap at hlap
  rw [hn] at hlap
  obtain ⟨h1, h2⟩ := hlap (by rw [h.slots]; exact hl)
  refine ⟨h1, fun p i x hp => ⟨h2 p i x hp, hi.pendOk p i x hp⟩, fun p hs => ?_⟩
  generalize hr : Res.ub = r at hs
  cases hs with
  | store p i x hp => exact ⟨i, x, hp, h2 p i x hp⟩

/-- The same for any number of laps, if pushes do not outrun the worker and it takes an index only when
its store is complete. -/
theorem C137_tame_partial {b : Nat} (hb : 0 < b) {s : Late α} (h : Late.Reach b Late.tame s)
    (hw : s.st.q.pushed.length < word) {n : Nat} (hn : s.cut = some n) :
    s.st.q.handled = s.st.q.pushed.take n ∧
    (∀ p i x, s.st.pend p = some (i, x) → n ≤ i ∧ s.st.q.pushed[i]? = some x) ∧
    ∀ p, Late.Step s (.step (.store p)) .ub → ∃ i x, s.st.pend p = some (i, x) ∧ n ≤ i := by
  have hno := h.noOverrun hb hw
  have hi := h.linv hb hw
  unfold Late.noOverrun at hno
  rw [hn] at hno
  obtain ⟨h1, h2⟩ := hno
  refine ⟨h1, fun p i x hp => ⟨h2 p i x hp, hi.pendOk p i x hp⟩, fun p hs => ?_⟩
  generalize hr : Res.ub = r at hs
  cases hs with
  | store p i x hp => exact ⟨i, x, hp, h2 p i x hp⟩

/-- Before the destructor has returned, no store is undefined, whatever was pushed and when. -/
theorem C137_meanwhile_partial {b : Nat} (hb : 0 < b) {s : Late α} (h : Late.Reach b Late.anyStep s)
    (hg : s.gone = false) (p : Nat) : ¬ Late.Step s (.step (.store p)) .ub := by
  intro hs
  generalize hr : Res.ub = r at hs
  cases hs with
  | store p i x hp =>
    rw [hg, if_neg (by decide), Q.store, h.slots, if_pos (Nat.mod_lt _ hb)] at hr
    cases hr

/-- The example for the theorems: two threads push while the stage is being destroyed; one push begins
after `closed_` was set and is handled, one begins after the worker has left its loop and is not, and it
is still under way when the destructor returns. -/
def Ex.late : List (Late.Act Nat) :=
  [.step (.begin 0 7), .step .close, .step (.work 0), .step (.begin 1 8), .step (.store 1), .step (.work 0),
   .step (.work 0), .step (.work 0), .step (.store 0)] ++
  List.replicate 13 (.step (.work 0)) ++
  [.step (.begin 0 9), .step (.begin 1 10), .step (.store 1), .leave]

example : ∃ s : Late Nat, Late.Reach 4 Late.anyStep s ∧ s.gone = true ∧ s.cut = some 2 ∧
    s.st.q.pushed = [7, 8, 9, 10] ∧ s.st.q.handled = [7, 8] ∧ s.st.pend 0 = some (2, 9) :=
  Late.follow_ex (n := 2) Ex.late (by decide)

example : ∃ s : Late Nat, Late.Reach 4 Late.anyStep s ∧ s.gone = false ∧ s.st.closed = true ∧
    s.st.pend 0 = some (0, 7) :=
  Late.follow_ex (n := 2) (Ex.late.take 4) (by decide)

example : ∃ s : Late Nat, Late.Reach 1 Late.tame s ∧ s.gone = true ∧ s.cut = some 2 ∧
    s.st.q.pushed = [7, 8, 9, 10] ∧ s.st.q.handled = [7, 8] ∧ s.st.pend 0 = some (2, 9) :=
  Late.follow_tame (n := 2)
    ([.step (.begin 0 7), .step .close, .step (.store 0)] ++ List.replicate 6 (.step (.work 0)) ++
      [.step (.begin 1 8), .step (.store 1)] ++ List.replicate 9 (.step (.work 0)) ++
      [.step (.begin 0 9), .step (.begin 1 10), .step (.store 1), .leave]) (by decide)

/-- A push that has returned before the destructor returns may be lost: the worker had left its loop. -/
theorem C137_lost_refuted (b : Nat) (hb : 0 < b) (x : α) : ∃ s : Late α, Late.Reach b Late.anyStep s ∧
    s.gone = true ∧ s.st.q.pushed = [x] ∧ s.st.q.handled = [] ∧ ∀ p, s.st.pend p = none := by
  let q : Q α := (Q.new b).claim x
  let s1 : Late α := ⟨⟨{ q with pc := .ended }, true, setAt (fun _ => none) 0 (some (0, x))⟩, some 0, false⟩
  have h1 : Late.Reach b Late.anyStep s1 :=
    Late.follow_reach (g := fun _ _ => true) (n := 1) (fun _ _ _ => trivial)
      [.step .close, .step (.work 0), .step (.work 0), .step (.begin 0 x)] .new 
      (by simp [Late.follow, Late.fire, Late.new, Stage.new, Q.new, Q.work, Late.mark, Q.claim, word, s1, q])
  have hq : s1.st.q.store 0 x = .ok { s1.st.q with slots := s1.st.q.slots.set (0 % s1.st.q.slots.length) (some x) } := by
    rw [Q.store, h1.slots, if_pos (Nat.mod_lt _ hb)]
  have h2 := Late.Step.store s1 0 0 x rfl
  rw [if_neg (fun h => by cases h), hq] at h2
  refine ⟨_, .step _ _ _ (.step _ _ _ h1 trivial h2) trivial (.leave _ rfl rfl rfl), rfl, rfl, rfl, fun p => ?_⟩
  simp only [setAt, s1]
  split <;> rfl

/-- A push that has begun before the destructor returns may store into a stage that is gone. -/
theorem C137_undefined_refuted (b : Nat) (x : α) : ∃ s : Late α, Late.Reach b Late.anyStep s ∧
    s.gone = true ∧ s.st.pend 0 = some (0, x) ∧ Late.Step s (.step (.store 0)) .ub := by
  let q : Q α := (Q.new b).claim x
  let s1 : Late α := ⟨⟨{ q with pc := .ended }, true, setAt (fun _ => none) 0 (some (0, x))⟩, some 0, true⟩
  have h1 : Late.Reach b Late.anyStep s1 :=
    Late.follow_reach (g := fun _ _ => true) (n := 1) (fun _ _ _ => trivial)
      [.step .close, .step (.work 0), .step (.work 0), .step (.begin 0 x), .leave] .new 
      (by simp [Late.follow, Late.fire, Late.new, Stage.new, Q.new, Q.work, Late.mark, Q.claim, word, s1, q])
  exact ⟨s1, h1, rfl, rfl, Late.Step.store s1 0 0 x rfl⟩

/-- That can happen to a push that began before the destructor did: after the first lap the worker does
not wait for it, because it finds the slot filled from the lap before. -/
theorem C137_overrun_refuted : ∃ s s' : Late Nat, Late.Reach 1 Late.anyStep s ∧ s.st.closed = false ∧
    s.st.pend 0 = some (1, 8) ∧ Late.Reach 1 Late.anyStep s' ∧ s'.gone = true ∧
    s'.st.pend 0 = some (1, 8) ∧ s'.st.q.handled = [7, 7] ∧ Late.Step s' (.step (.store 0)) .ub := by
  obtain ⟨s, h1, h2, h3⟩ := Late.follow_ex (n := 1) (b := 1)
    (P := fun s : Late Nat => s.st.closed = false ∧ s.st.pend 0 = some (1, 8))
    [.step (.begin 0 7), .step (.store 0), .step (.begin 0 8)] (by decide)
  obtain ⟨s', h4, h5, h6, h7⟩ := Late.follow_ex (n := 1) (b := 1)
    (P := fun s : Late Nat => s.gone = true ∧ s.st.pend 0 = some (1, 8) ∧ s.st.q.handled = [7, 7])
    ([.step (.begin 0 7), .step (.store 0), .step (.begin 0 8), .step .close] ++
      List.replicate 15 (.step (.work 0)) ++ [.leave]) (by decide)
  have := Late.Step.store s' 0 1 8 h6
  rw [if_pos h5] at this
  exact ⟨s, s', h1, h2, h3, h4, h5, h6, h7, this⟩
end Verif.Pipeline
