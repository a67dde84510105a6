import Verif.Pipeline.Queue
/-!
`pipeline_stage` (`include/xitren/comm/pipeline_stage.hpp`): producers, the destructor and the worker
interleave.  Nobody pushes once destruction has begun, and destruction begins when no push is under way
(anything else uses an object whose lifetime is over).
-/
namespace Verif.Pipeline
open Verif
variable {α : Type}

/-- A stage with its producers: `pend p` is the push of producer `p` that has incremented `tail` and not
yet stored its item (pipeline_stage.hpp:34-140). -/
structure Stage (α : Type) where
  q : Q α
  closed : Bool
  pend : Nat → Option (Nat × α)

/-- A new stage with `b` slots (pipeline_stage.hpp:46, 97-103). -/
def Stage.new (b : Nat) : Stage α := ⟨Q.new b, false, fun _ => none⟩

/-- The steps: producer `p` enters `push(x)` and increments the counter, producer `p` stores its item
and returns, the destructor sets `closed_` (pipeline_stage.hpp:50), the worker takes a step. -/
inductive Label (α : Type) where
  | begin (p : Nat) (x : α)
  | store (p : Nat)
  | close
  | work (e : Int)

/-- One step and its result (pipeline_stage.hpp:50-140). -/
inductive Stage.Step : Stage α → Label α → Res (Stage α) → Prop
  | begin (s : Stage α) (p : Nat) (x : α) : s.closed = false → s.pend p = none →
      Step s (.begin p x) (.ok
        { s with
          q := s.q.claim x
          pend := setAt s.pend p (some (s.q.tail, x)) })
  | store (s : Stage α) (p i : Nat) (x : α) : s.pend p = some (i, x) →
      Step s (.store p) (do
        let q ← s.q.store i x
        return { s with q := q, pend := setAt s.pend p none })
  | close (s : Stage α) : s.closed = false → (∀ p, s.pend p = none) →
      Step s .close (.ok { s with closed := true })
  | work (s : Stage α) (e : Int) : s.q.pc ≠ .ended →
      Step s (.work e) (do
        let q ← s.q.work s.closed e
        return { s with q := q })

/-- The states reached by steps that satisfy `G`. -/
inductive Stage.Reach (b : Nat) (G : Stage α → Label α → Prop) : Stage α → Prop
  | new : Reach b G (Stage.new b)
  | step (s s' : Stage α) (l : Label α) : Reach b G s → G s l → Step s l (.ok s') → Reach b G s'

/-- No restriction. -/
def anyStep : Stage α → Label α → Prop := fun _ _ => True

theorem Stage.Reach.mono {b : Nat} {G G' : Stage α → Label α → Prop} (h : ∀ s l, G s l → G' s l)
    {s : Stage α} (hr : Reach b G s) : Reach b G' s := by
  induction hr with
  | new => exact .new
  | step s s' l _ hg hs ih => exact .step s s' l ih (h s l hg) hs

/-- What a step does to the queue. -/
theorem Stage.Step.cases_ok {s s' : Stage α} {l : Label α} (h : Step s l (.ok s')) :
    (∃ p x, l = .begin p x ∧ s.closed = false ∧ s.pend p = none ∧
      s' = { s with q := s.q.claim x, pend := setAt s.pend p (some (s.q.tail, x)) }) ∨
    (∃ p i x q, l = .store p ∧ s.pend p = some (i, x) ∧ s.q.store i x = .ok q ∧
      s' = { s with q := q, pend := setAt s.pend p none }) ∨
    (l = .close ∧ s.closed = false ∧ (∀ p, s.pend p = none) ∧ s' = { s with closed := true }) ∨
    (∃ e q, l = .work e ∧ s.q.pc ≠ .ended ∧ s.q.work s.closed e = .ok q ∧
      s' = { s with q := q }) := by
  generalize hr : Res.ok s' = r at h
  cases h with
  | begin p x h1 h2 =>
    cases hr
    exact .inl ⟨p, x, rfl, h1, h2, rfl⟩
  | store p i x h1 =>
    cases hq : s.q.store i x with
    | ub => rw [hq] at hr; cases hr
    | hang => rw [hq] at hr; cases hr
    | ok q =>
      rw [hq] at hr
      simp only [Res.ok_bind, Res.pure_eq, Res.ok.injEq] at hr
      exact .inr (.inl ⟨p, i, x, q, rfl, h1, hq, hr⟩)
  | close h1 h2 =>
    cases hr
    exact .inr (.inr (.inl ⟨rfl, h1, h2, rfl⟩))
  | work e h1 =>
    cases hq : s.q.work s.closed e with
    | ub => rw [hq] at hr; cases hr
    | hang => rw [hq] at hr; cases hr
    | ok q =>
      rw [hq] at hr
      simp only [Res.ok_bind, Res.pure_eq, Res.ok.injEq] at hr
      exact .inr (.inr (.inr ⟨e, q, rfl, h1, hq, hr⟩))

theorem Q.store_same {q q' : Q α} {i : Nat} {x : α} (h : q.store i x = .ok q') :
    q' = { q with slots := q.slots.set (i % q.slots.length) (some x) } := by
  rw [Q.store] at h
  split at h
  · cases h
    rfl
  · cases h

/-- Pushes only add; the number of slots never changes. -/
theorem Stage.Step.mono {s s' : Stage α} {l : Label α} (h : Step s l (.ok s')) :
    s.q.pushed.length ≤ s'.q.pushed.length ∧ s'.q.slots.length = s.q.slots.length := by
  rcases h.cases_ok with ⟨p, x, _, _, _, rfl⟩ | ⟨p, i, x, q, _, _, hq, rfl⟩ | ⟨_, _, _, rfl⟩ |
      ⟨e, q, _, _, hq, rfl⟩
  · simp [Q.claim]
  · have := Q.store_same hq
    subst this
    simp
  · simp
  · obtain ⟨_, h2, h3⟩ := Q.work_same hq
    simp only [h2, h3]
    simp

theorem Stage.Reach.slots {b : Nat} {G : Stage α → Label α → Prop} {s : Stage α} (h : Reach b G s) :
    s.q.slots.length = b := by
  induction h with
  | new => simp [Stage.new, Q.new]
  | step s s' l _ _ hs ih => rw [hs.mono.2, ih]

theorem Stage.Reach.inv {b : Nat} (hb : 0 < b) {G : Stage α → Label α → Prop} {s : Stage α}
    (h : Reach b G s) (hw : s.q.pushed.length < word) :
    QInv s.closed s.q s.pend ∧ (s.closed = true → ∀ p, s.pend p = none) := by
  induction h with
  | new => exact ⟨QInv.new b hb _ fun _ => rfl, fun h => by cases h⟩
  | step s s' l _ _ hs ih =>
    obtain ⟨i1, i2⟩ := ih (Nat.lt_of_le_of_lt hs.mono.1 hw)
    rcases hs.cases_ok with ⟨p, x, _, hc, hp, rfl⟩ | ⟨p, i, x, q, _, hp, hq, rfl⟩ | ⟨_, hc, hp, rfl⟩ |
      ⟨e, q, _, _, hq, rfl⟩
    · rw [hc] at i1
      simp only [hc]
      refine ⟨i1.claim p x ?_ hp, fun h => by cases h⟩
      simpa [Q.claim] using hw
    · refine ⟨i1.store p i x hp hq, fun hc => ?_⟩
      have := i2 hc p
      rw [hp] at this
      cases this
    · rw [hc] at i1
      exact ⟨i1.close, fun _ => hp⟩
    · exact ⟨i1.work e hq, i2⟩

theorem Stage.Reach.firstLap {b : Nat} (hb : 0 < b) {G : Stage α → Label α → Prop} {s : Stage α}
    (h : Reach b G s) (hw : s.q.pushed.length < word) (hl : s.q.pushed.length ≤ b) :
    FirstLap s.q := by
  induction h with
  | new => exact FirstLap.new b
  | step s s' l hr _ hs ih =>
    have hm := hs.mono.1
    have ih := ih (by omega) (by omega)
    have hi := (hr.inv hb (by omega)).1
    have hsl := hr.slots
    rcases hs.cases_ok with ⟨p, x, _, hc, hp, rfl⟩ | ⟨p, i, x, q, _, hp, hq, rfl⟩ | ⟨_, hc, hp, rfl⟩ |
      ⟨e, q, _, _, hq, rfl⟩
    · exact ih.claim hi x
    · exact ih.store hi (by omega) p i x hp hq
    · exact ih
    · exact ih.work hi (by omega) hq

/-- The restriction under which several laps are safe: a push begins only while fewer items than slots
are unhandled, and the worker takes an index only when its store is complete. -/
def tame : Stage α → Label α → Prop
  | s, .begin _ _ => s.q.tail < s.q.handled.length + s.q.slots.length
  | s, .work _ => s.q.pc = .take → ∀ p x, s.pend p ≠ some (s.q.head, x)
  | _, _ => True

theorem Stage.Reach.noOverrun {b : Nat} (hb : 0 < b) {s : Stage α}
    (h : Reach b tame s) (hw : s.q.pushed.length < word) : NoOverrun s.q s.pend := by
  induction h with
  | new => exact NoOverrun.new b _ fun _ => rfl
  | step s s' l hr hg hs ih =>
    have hm := hs.mono.1
    have ih := ih (by omega)
    have hi := (hr.inv hb (by omega)).1
    rcases hs.cases_ok with ⟨p, x, rfl, hc, hp, rfl⟩ | ⟨p, i, x, q, rfl, hp, hq, rfl⟩ |
      ⟨rfl, hc, hp, rfl⟩ | ⟨e, q, rfl, _, hq, rfl⟩
    · exact ih.claim hi p x (by simpa [Q.claim] using hw) hp hg
    · exact ih.store hi p i x hp hq
    · exact ih
    · exact ih.work hi hg hq

/-- Handler calls that take at most 214748364 ms (two and a half days). -/
def short : Stage α → Label α → Prop
  | _, .work e => 0 ≤ e ∧ e ≤ 214748364
  | _, _ => True

theorem Stage.Reach.smallSamples {b : Nat} (hb : 0 < b) {s : Stage α}
    (h : Reach b short s) (hn : s.q.pushed.length ≤ 214748364) : SmallSamples s.q.samples := by
  induction h with
  | new => intro x hx; simp [Stage.new, Q.new] at hx
  | step s s' l hr hg hs ih =>
    have hm := hs.mono.1
    have ih := ih (by omega)
    have hi := (hr.inv hb (by simp only [word]; omega)).1
    rcases hs.cases_ok with ⟨p, x, rfl, hc, hp, rfl⟩ | ⟨p, i, x, q, rfl, hp, hq, rfl⟩ |
      ⟨rfl, hc, hp, rfl⟩ | ⟨e, q, rfl, _, hq, rfl⟩
    · exact ih
    · have := Q.store_same hq
      subst this
      exact ih
    · exact ih
    · exact SmallSamples.work hi ih hg (by omega) hq

/-! ### Facts that do not depend on the number of pushes -/

/-- What always holds. -/
structure SInv (s : Stage α) : Prop where
  len : 0 < s.q.slots.length
  ready : s.q.pc = .take → ∃ v, s.q.slots[s.q.head % s.q.slots.length]? = some (some v)
  readyCall : ∀ i, s.q.pc = .call i → ∃ v, s.q.slots[i % s.q.slots.length]? = some (some v)
  mem : ∀ v, some v ∈ s.q.slots → v ∈ s.q.pushed
  pend : ∀ p i x, s.pend p = some (i, x) → x ∈ s.q.pushed
  hmem : ∀ v ∈ s.q.handled, v ∈ s.q.pushed
  stat : s.q.stat = s.q.samples.take 10
  samples : s.q.samples.length + s.q.pc.unsampled = s.q.handled.length

theorem Stage.Reach.sinv {b : Nat} (hb : 0 < b) {G : Stage α → Label α → Prop} {s : Stage α}
    (h : Reach b G s) : SInv s := by
  induction h with
  | new => constructor <;> simp [Stage.new, Q.new, hb, Pc.unsampled]
  | step s s' l _ _ hs ih =>
    rcases hs.cases_ok with ⟨p, x, _, hc, hp, rfl⟩ | ⟨p, i, x, q, _, hp, hq, rfl⟩ | ⟨_, hc, hp, rfl⟩ |
      ⟨e, q, _, hne, hq, rfl⟩
    · constructor
      · exact ih.len
      · exact ih.ready
      · exact ih.readyCall
      · exact fun v hv => List.mem_append_left _ (ih.mem v hv)
      · intro p' i y hy
        simp only [setAt] at hy
        split at hy
        · cases hy
          simp [Q.claim]
        · exact List.mem_append_left _ (ih.pend p' i y hy)
      · exact fun v hv => List.mem_append_left _ (ih.hmem v hv)
      · exact ih.stat
      · exact ih.samples
    · have := Q.store_same hq
      subst this
      constructor
      · simpa using ih.len
      · intro ht
        simp only [List.length_set]
        exact set_some _ _ _ _ (ih.ready ht)
      · intro j hj
        simp only [List.length_set]
        exact set_some _ _ _ _ (ih.readyCall j hj)
      · intro v hv
        simp only at hv ⊢
        rcases List.mem_or_eq_of_mem_set hv with hv | hv
        · exact ih.mem v hv
        · cases hv
          exact ih.pend p i x hp
      · intro p' j y hy
        simp only [setAt] at hy
        split at hy
        · cases hy
        · exact ih.pend p' j y hy
      · exact ih.hmem
      · exact ih.stat
      · exact ih.samples
    · exact ⟨ih.len, ih.ready, ih.readyCall, ih.mem, ih.pend, ih.hmem, ih.stat, ih.samples⟩
    · obtain ⟨_, h2, h3⟩ := Q.work_same hq
      have hhm : ∀ v ∈ q.handled, v ∈ q.pushed := by
        rw [h3]
        rcases Q.work_handled hq with ⟨h4, _⟩ | ⟨i, v, _, hv, h4⟩
        · rw [h4]
          exact ih.hmem
        · rw [h4]
          intro w hw
          rcases List.mem_append.1 hw with hw | hw
          · exact ih.hmem w hw
          · simp only [List.mem_singleton] at hw
            subst hw
            exact ih.mem _ (List.mem_of_getElem? hv)
      have hmem : ∀ v, some v ∈ q.slots → v ∈ q.pushed := by
        rw [h2, h3]
        exact ih.mem
      have hpend : ∀ p i x, s.pend p = some (i, x) → x ∈ q.pushed := by
        rw [h3]
        exact ih.pend
      have hsamp := ih.samples
      have hlen : 0 < q.slots.length := by
        rw [h2]
        exact ih.len
      cases hpc : s.q.pc with
      | outer =>
        simp only [Q.work, hpc, Res.ok.injEq] at hq
        rw [hpc] at hsamp
        subst hq
        cases hc : s.closed
        · exact ⟨hlen, by simp, by simp, hmem, hpend, hhm, ih.stat, hsamp⟩
        · exact ⟨hlen, by simp, by simp, hmem, hpend, hhm, ih.stat, hsamp⟩
      | drain =>
        simp only [Q.work, hpc, Res.ok.injEq] at hq
        rw [hpc] at hsamp
        subst hq
        by_cases hz : (s.q.tail + word - s.q.head) % word > 0
        · simp only [if_pos hz] at *
          exact ⟨hlen, by simp, by simp, hmem, hpend, hhm, ih.stat, hsamp⟩
        · simp only [if_neg hz] at *
          exact ⟨hlen, by simp, by simp, hmem, hpend, hhm, ih.stat, hsamp⟩
      | inner =>
        simp only [Q.work, hpc, Res.ok.injEq] at hq
        rw [hpc] at hsamp
        subst hq
        by_cases hz : s.q.head < s.q.tail
        · simp only [if_pos hz] at *
          exact ⟨hlen, by simp, by simp, hmem, hpend, hhm, ih.stat, hsamp⟩
        · simp only [if_neg hz] at *
          exact ⟨hlen, by simp, by simp, hmem, hpend, hhm, ih.stat, hsamp⟩
      | check =>
        rw [hpc] at hsamp
        cases hs' : s.q.slots[s.q.head % s.q.slots.length]? with
        | none => simp [Q.work, hpc, hs'] at hq
        | some o =>
          cases o with
          | none =>
            simp only [Q.work, hpc, hs', Res.ok.injEq] at hq
            subst hq
            exact ⟨hlen, by simp, by simp, hmem, hpend, hhm, ih.stat, hsamp⟩
          | some v =>
            simp only [Q.work, hpc, hs', Res.ok.injEq] at hq
            subst hq
            exact ⟨hlen, fun _ => ⟨v, hs'⟩, by simp, hmem, hpend, hhm, ih.stat, hsamp⟩
      | take =>
        have hr := ih.ready hpc
        rw [hpc] at hsamp
        simp only [Q.work, hpc, Res.ok.injEq] at hq
        subst hq
        refine ⟨hlen, by simp, fun i hi => ?_, hmem, hpend, hhm, ih.stat, hsamp⟩
        simp only [Pc.call.injEq] at hi
        rw [← hi]
        exact hr
      | call i =>
        obtain ⟨v, hv⟩ := ih.readyCall i hpc
        rw [hpc] at hsamp
        simp only [Q.work, hpc, hv] at hq
        cases h1 : timeForUnit s.q.stat with
        | ub => simp [h1] at hq
        | hang => simp [h1] at hq
        | ok a =>
        cases h2 : bufferUtilization s.q.stat with
        | ub => simp [h1, h2] at hq
        | hang => simp [h1, h2] at hq
        | ok b =>
        simp only [h1, h2, Res.ok_bind, Res.ok.injEq] at hq
        subst hq
        refine ⟨hlen, by simp, by simp, hmem, hpend, hhm, ih.stat, ?_⟩
        simp only [Pc.unsampled, List.length_append, List.length_cons, List.length_nil] at hsamp ⊢
        omega
      | stat =>
        rw [hpc] at hsamp
        simp only [Q.work, hpc, Res.ok.injEq] at hq
        subst hq
        refine ⟨hlen, by simp, by simp, hmem, hpend, hhm, ?_, ?_⟩
        · simp only [ih.stat]
          exact addSample_take _ _
        · simp only [Pc.unsampled, List.length_cons] at hsamp ⊢
          omega
      | ended => exact absurd hpc hne

/-! ### An executable scheduler, for the examples -/

/-- The result of a step, if it is possible; the producers are those below `n`. -/
def Stage.fire (n : Nat) (s : Stage α) : Label α → Option (Stage α)
  | .begin p x =>
    if p < n ∧ s.closed = false ∧ (s.pend p).isNone then
      some { s with q := s.q.claim x, pend := setAt s.pend p (some (s.q.tail, x)) }
    else none
  | .store p =>
    match s.pend p with
    | none => none
    | some (i, x) =>
      match s.q.store i x with
      | .ok q => some { s with q := q, pend := setAt s.pend p none }
      | _ => none
  | .close =>
    if s.closed = false ∧ (List.range n).all (fun p => (s.pend p).isNone) then
      some { s with closed := true }
    else none
  | .work e =>
    if s.q.pc ≠ .ended then
      match s.q.work s.closed e with
      | .ok q => some { s with q := q }
      | _ => none
    else none

theorem Stage.fire_step {n : Nat} {s s' : Stage α} {l : Label α} (hi : ∀ p, n ≤ p → s.pend p = none)
    (h : s.fire n l = some s') : Step s l (.ok s') ∧ ∀ p, n ≤ p → s'.pend p = none := by
  cases l with
  | begin p x =>
    simp only [Stage.fire] at h
    split at h
    · rename_i hc
      cases h
      refine ⟨.begin s p x hc.2.1 (by simpa using hc.2.2), fun p' hp' => ?_⟩
      simp only [setAt]
      rw [if_neg (by omega)]
      exact hi p' hp'
    · cases h
  | store p =>
    simp only [Stage.fire] at h
    split at h
    · cases h
    · rename_i i x hp
      split at h
      · rename_i q hq
        cases h
        have := Step.store s p i x hp
        rw [hq] at this
        refine ⟨this, fun p' hp' => ?_⟩
        simp only [setAt]
        split
        · rfl
        · exact hi p' hp'
      · cases h
  | close =>
    simp only [Stage.fire] at h
    split at h
    · rename_i hc
      cases h
      refine ⟨.close s hc.1 fun p => ?_, hi⟩
      by_cases hp : n ≤ p
      · exact hi p hp
      · have := hc.2
        simp only [List.all_eq_true, List.mem_range, Option.isNone_iff_eq_none] at this
        exact this p (by omega)
    · cases h
  | work e =>
    simp only [Stage.fire] at h
    split at h
    · rename_i hc
      split at h
      · rename_i q hq
        cases h
        have := Step.work s e hc
        rw [hq] at this
        exact ⟨this, hi⟩
      · cases h
    · cases h

/-- Follow a schedule, as long as its steps pass the test `g`. -/
def Stage.follow (g : Stage α → Label α → Bool) (n : Nat) : Stage α → List (Label α) → Option (Stage α)
  | s, [] => some s
  | s, l :: ls =>
    if g s l then
      match s.fire n l with
      | some s' => s'.follow g n ls
      | none => none
    else none

theorem Stage.follow_reach {g : Stage α → Label α → Bool} {G : Stage α → Label α → Prop} {n b : Nat}
    (hg : ∀ s l, (∀ p, n ≤ p → s.pend p = none) → g s l = true → G s l)
    {s s' : Stage α} (ls : List (Label α))
    (h : Reach b G s) (hi : ∀ p, n ≤ p → s.pend p = none)
    (hf : s.follow g n ls = some s') : Reach b G s' := by
  induction ls generalizing s with
  | nil => cases hf; exact h
  | cons l ls ih =>
    rw [Stage.follow] at hf
    split at hf
    · rename_i hgl
      split at hf
      · rename_i s1 h1
        obtain ⟨hs, hi'⟩ := Stage.fire_step hi h1
        exact ih (.step s s1 l h (hg s l hi hgl) hs) hi' hf
      · cases hf
    · cases hf

theorem Stage.follow_exG {g : Stage α → Label α → Bool} {G : Stage α → Label α → Prop} {n b : Nat}
    (hg : ∀ s l, (∀ p, n ≤ p → s.pend p = none) → g s l = true → G s l)
    {P : Stage α → Prop} [DecidablePred P] (ls : List (Label α))
    (h : ((Stage.new b).follow g n ls).any (fun s => decide (P s)) = true) :
    ∃ s, Reach b G s ∧ P s := by
  cases hf : (Stage.new b).follow g n ls with
  | none => rw [hf] at h; cases h
  | some s =>
    rw [hf] at h
    exact ⟨s, Stage.follow_reach hg ls .new (fun _ _ => rfl) hf, by simpa using h⟩

/-- A schedule as a witness. -/
theorem Stage.follow_ex {n b : Nat} {P : Stage α → Prop} [DecidablePred P] (ls : List (Label α))
    (h : ((Stage.new b).follow (fun _ _ => true) n ls).any (fun s => decide (P s)) = true) :
    ∃ s, Reach b anyStep s ∧ P s :=
  Stage.follow_exG (fun _ _ _ _ => trivial) ls h

/-- The test for `tame`. -/
def isTame (n : Nat) (s : Stage α) : Label α → Bool
  | .begin _ _ => s.q.tail < s.q.handled.length + s.q.slots.length
  | .work _ => s.q.pc ≠ .take || (List.range n).all fun p =>
      match s.pend p with
      | some (i, _) => i ≠ s.q.head
      | none => true
  | _ => true

/-- A schedule that satisfies `tame` as a witness. -/
theorem Stage.follow_tame {n b : Nat} {P : Stage α → Prop} [DecidablePred P] (ls : List (Label α))
    (h : ((Stage.new b).follow (isTame n) n ls).any (fun s => decide (P s)) = true) :
    ∃ s, Reach b tame s ∧ P s := by
  refine Stage.follow_exG (fun s l hi hg => ?_) ls h
  cases l with
  | begin p x => simpa [isTame, tame] using hg
  | store p => trivial
  | close => trivial
  | work e =>
    intro ht p x hp
    simp only [isTame, ht, ne_eq, not_true_eq_false, decide_false, Bool.false_or, List.all_eq_true,
      List.mem_range] at hg
    by_cases hpn : n ≤ p
    · rw [hi p hpn] at hp
      cases hp
    · have := hg p (by omega)
      rw [hp] at this
      simp at this

/-- The test for `short`. -/
def isShort (_ : Stage α) : Label α → Bool
  | .work e => 0 ≤ e ∧ e ≤ 214748364
  | _ => true

/-- A schedule that satisfies `short` as a witness. -/
theorem Stage.follow_short {n b : Nat} {P : Stage α → Prop} [DecidablePred P] (ls : List (Label α))
    (h : ((Stage.new b).follow isShort n ls).any (fun s => decide (P s)) = true) :
    ∃ s, Reach b short s ∧ P s := by
  refine Stage.follow_exG (fun s l hi hg => ?_) ls h
  cases l with
  | work e => simpa [isShort, short] using hg
  | _ => trivial

end Verif.Pipeline
