import Verif.Observer.FixedThreads
/-!
The record of accesses of the model of threads in the fixed-capacity observable tells the truth: a step that changes something records a write of it, what a step
does next depends only on what it records, and what is recorded as a write can change something.
-/
namespace Verif.Observer.Fixed
open Verif Verif.HB

variable {V : Type}

/-- The two agree at the place (lines 169-177). -/
def SameAt (s s' : Sh) : Loc → Prop
  | .cnt => s.cnt = s'.cnt
  | .slot i => s.arr[i]? = s'.arr[i]?
  | .ins => s.ins = s'.ins

theorem writes_next {p q : Prog V} {s s' : Sh} (h : p.next s = some (s', q)) {loc : Loc} (hn : ¬ SameAt s s' loc) :
    .acc loc true 0 ∈ p.ops := by
  cases p with
  | ret e => cases h
  | data o v k => cases h
  | disc o k => cases h
  | left o k => cases h
  | undef => cases h
  | cnt k =>
    simp only [Prog.next, Option.some.injEq, Prod.mk.injEq] at h
    obtain ⟨rfl, _⟩ := h
    cases loc <;> exact absurd rfl hn
  | ins k =>
    simp only [Prog.next, Option.some.injEq, Prod.mk.injEq] at h
    obtain ⟨rfl, _⟩ := h
    cases loc <;> exact absurd rfl hn
  | setCnt n k =>
    simp only [Prog.next, Option.some.injEq, Prod.mk.injEq] at h
    obtain ⟨rfl, _⟩ := h
    cases loc with
    | cnt => simp [Prog.ops]
    | slot i => exact absurd rfl hn
    | ins => exact absurd rfl hn
  | setIns b k =>
    simp only [Prog.next, Option.some.injEq, Prod.mk.injEq] at h
    obtain ⟨rfl, _⟩ := h
    cases loc with
    | cnt => exact absurd rfl hn
    | slot i => exact absurd rfl hn
    | ins => simp [Prog.ops]
  | «at» i k =>
    simp only [Prog.next] at h
    split at h
    · simp only [Option.some.injEq, Prod.mk.injEq] at h
      obtain ⟨rfl, _⟩ := h
      cases loc <;> exact absurd rfl hn
    · cases h
  | setAt i x k =>
    simp only [Prog.next] at h
    split at h
    · simp only [Option.some.injEq, Prod.mk.injEq] at h
      obtain ⟨rfl, _⟩ := h
      cases loc with
      | cnt => exact absurd rfl hn
      | slot j =>
        by_cases hij : i = j
        · subst hij
          simp [Prog.ops]
        · exact absurd (by simp [SameAt, List.getElem?_set_ne hij]) hn
      | ins => exact absurd rfl hn
    · cases h

/-- **C136.** A step records the accesses that it makes, and a place whose content changes in a step is among those that it writes. -/
theorem C136_accesses {m m' : State V} {l : Lbl V} (hs : step m l = some m') :
    m'.mem = m.mem.run l.who (ops m l) ∧ ∀ loc, ¬ SameAt m.sh m'.sh loc → .acc loc true 0 ∈ ops m l := by
  have same : m'.sh = m.sh → ∀ loc, ¬ SameAt m.sh m'.sh loc → HB.Op.acc loc true 0 ∈ ops m l := by
    intro h loc hn
    rw [h] at hn
    cases loc <;> exact absurd rfl hn
  cases l with
  | call t c =>
    simp only [step] at hs
    split at hs
    · cases hs
      exact ⟨rfl, same rfl⟩
    · cases hs
  | act t =>
    simp only [step] at hs
    cases hf : m.stack t with
    | nil => rw [hf] at hs; cases hs
    | cons f fs =>
      rw [hf] at hs
      dsimp only at hs
      split at hs
      · cases hs
      · have ho : ops m (.act t) = f.prog.ops := by simp only [ops, hf]
        unfold act at hs
        dsimp only at hs
        split at hs
        all_goals rename_i hp
        · cases hs
          exact ⟨by rw [ho, hp]; rfl, same rfl⟩
        · cases hs
          exact ⟨by rw [ho, hp]; rfl, same rfl⟩
        · cases hs
          exact ⟨by rw [ho, hp]; rfl, same rfl⟩
        · cases hs
          exact ⟨by rw [ho, hp]; rfl, same rfl⟩
        · simp only [Option.map_eq_some_iff] at hs
          obtain ⟨⟨s', q⟩, h1, rfl⟩ := hs
          exact ⟨by rw [ho]; rfl, fun loc hn => by rw [ho]; exact writes_next h1 hn⟩
  | back t =>
    simp only [step] at hs
    split at hs
    · split at hs
      · cases hs
        exact ⟨rfl, same rfl⟩
      · cases hs
    · cases hs
  | rel t n =>
    simp only [step] at hs
    split at hs
    · cases hs
      exact ⟨rfl, same rfl⟩
    · cases hs
  | acq t n =>
    simp only [step] at hs
    split at hs
    · cases hs
      exact ⟨rfl, same rfl⟩
    · cases hs

/-- **C136.** What a step writes, and what a call does next, depend only on the places that the step records as accesses. -/
theorem C136_depends {p q : Prog V} {s s' s1 : Sh} (h : p.next s = some (s', q))
    (ha : ∀ loc wr, .acc loc wr 0 ∈ p.ops → SameAt s s1 loc) :
    ∃ s1', p.next s1 = some (s1', q) ∧ ∀ loc, .acc loc true 0 ∈ p.ops → SameAt s' s1' loc := by
  cases p with
  | ret e => cases h
  | data o v k => cases h
  | disc o k => cases h
  | left o k => cases h
  | undef => cases h
  | cnt k =>
    have := ha .cnt false (by simp [Prog.ops])
    simp only [Prog.next, Option.some.injEq, Prod.mk.injEq] at h
    simp only [SameAt] at this
    exact ⟨s1, by simp only [Prog.next, ← this, h.2], by simp [Prog.ops]⟩
  | ins k =>
    have := ha .ins false (by simp [Prog.ops])
    simp only [Prog.next, Option.some.injEq, Prod.mk.injEq] at h
    simp only [SameAt] at this
    exact ⟨s1, by simp only [Prog.next, ← this, h.2], by simp [Prog.ops]⟩
  | setCnt n k =>
    simp only [Prog.next, Option.some.injEq, Prod.mk.injEq] at h
    obtain ⟨rfl, rfl⟩ := h
    exact ⟨_, rfl, by simp [Prog.ops, SameAt]⟩
  | setIns b k =>
    simp only [Prog.next, Option.some.injEq, Prod.mk.injEq] at h
    obtain ⟨rfl, rfl⟩ := h
    exact ⟨_, rfl, by simp [Prog.ops, SameAt]⟩
  | «at» i k =>
    have := ha (.slot i) false (by simp [Prog.ops])
    simp only [SameAt] at this
    simp only [Prog.next, ← this]
    simp only [Prog.next] at h
    split at h
    · rename_i x hx
      simp only [Option.some.injEq, Prod.mk.injEq] at h
      exact ⟨s1, by simp only [h.2], by simp [Prog.ops]⟩
    · cases h
  | setAt i x k =>
    have := ha (.slot i) true (by simp [Prog.ops])
    simp only [SameAt] at this
    simp only [Prog.next] at h
    split at h
    · rename_i hi
      simp only [Option.some.injEq, Prod.mk.injEq] at h
      have h1 : i < s1.arr.length := by
        rw [List.getElem?_eq_getElem hi] at this
        exact (List.getElem?_eq_some_iff.1 this.symm).1
      obtain ⟨rfl, rfl⟩ := h
      exact ⟨_, if_pos h1, by simp [Prog.ops, SameAt, hi, h1]⟩
    · cases h

/-- **C136.** What is recorded as a write is one: there are contents of the object that it changes at that place. -/
theorem C136_writes {p : Prog V} {loc : Loc} (h : .acc loc true 0 ∈ p.ops) :
    ∃ s s' q, p.next s = some (s', q) ∧ ¬ SameAt s s' loc := by
  cases p with
  | ret e => simp [Prog.ops] at h
  | data o v k => simp [Prog.ops] at h
  | disc o k => simp [Prog.ops] at h
  | left o k => simp [Prog.ops] at h
  | undef => simp [Prog.ops] at h
  | cnt k => simp [Prog.ops] at h
  | ins k => simp [Prog.ops] at h
  | «at» i k => simp [Prog.ops] at h
  | setCnt n k =>
    simp only [Prog.ops, List.mem_singleton, HB.Op.acc.injEq, and_true] at h
    subst h
    exact ⟨⟨[], n + 1, false⟩, _, _, rfl, by simp [SameAt]⟩
  | setIns b k =>
    simp only [Prog.ops, List.mem_singleton, HB.Op.acc.injEq, and_true] at h
    subst h
    exact ⟨⟨[], 0, !b⟩, _, _, rfl, by cases b <;> simp [SameAt]⟩
  | setAt i x k =>
    simp only [Prog.ops, List.mem_singleton, HB.Op.acc.injEq, and_true] at h
    subst h
    exact ⟨⟨List.replicate (i + 1) (if x = none then some 0 else none), 0, false⟩, _, _, if_pos (by simp),
      by cases x <;> simp [SameAt]⟩

/-- A step that writes. -/
example : (Prog.setAt 0 (some 7) (.ret .ok) : Prog V).next ⟨[none, none, none], 1, false⟩ =
      some (⟨[some 7, none, none], 1, false⟩, .ret .ok) ∧
    ¬ SameAt ⟨[none, none, none], 1, false⟩ ⟨[some 7, none, none], 1, false⟩ (.slot 0) ∧
    .acc (.slot 0) true 0 ∈ (Prog.setAt 0 (some 7) (.ret .ok) : Prog V).ops := by
  simp [Prog.next, SameAt, Prog.ops]

/-- **C136, users are free.** The model keeps no thread that runs code of the user's (it is in no call, or the call it made last is in a
callback) from anything: it can begin any call and synchronise with others. -/
theorem C136_users {m : State V} {t : Nat} (h : m.stack t = [] ∨ ∃ f fs, m.stack t = f :: fs ∧ f.busy = true) :
    (∀ op, ∃ m', step m (.call t op) = some m') ∧ (∀ n, ∃ m', step m (.rel t n) = some m') ∧
    ∀ n, ∃ m', step m (.acq t n) = some m' := by
  have hu : m.user t = true := by
    unfold State.user
    rcases h with h | ⟨f, fs, h, hb⟩
    · rw [h]
    · rw [h]; exact hb
  exact ⟨fun op => ⟨_, if_pos hu⟩, fun n => ⟨_, if_pos hu⟩, fun n => ⟨_, if_pos hu⟩⟩

end Verif.Observer.Fixed
