import Verif.Heap.Threads
import Verif.Heap.MemLemmas
/-!
The record of accesses of the model of threads in the heap tells the truth: a step that changes a byte or a data member records
a write of it, what a step does depends only on what it records, and what is recorded as a write can change something.
-/
namespace Verif.Heap.Conc
open Verif Verif.HB

/-- The two agree at the place (static_heap.hpp:534-546). -/
def SameAt (h h' : Heap) : Loc → Prop
  | .byte a => h.mem a = h'.mem a
  | .var x => var h x = var h' x

theorem same_self (h : Heap) (loc : Loc) : SameAt h h loc := by cases loc <;> rfl

theorem mem_bytes {a n x : Nat} {wr : Bool} (h : a ≤ x ∧ x < a + n) : .acc (.byte x) wr 0 ∈ bytes a n wr := by
  refine List.mem_map.2 ⟨x - a, List.mem_range.2 (by omega), ?_⟩
  rw [show a + (x - a) = x by omega]

theorem of_mem_bytes {a n : Nat} {wr wr' : Bool} {loc : Loc} {tag : Nat} (h : .acc loc wr' tag ∈ bytes a n wr) :
    wr' = wr ∧ tag = 0 ∧ ∃ x, loc = .byte x ∧ a ≤ x ∧ x < a + n := by
  obtain ⟨i, hi, he⟩ := List.mem_map.1 h
  simp only [HB.Op.acc.injEq] at he
  obtain ⟨h1, h2, h3⟩ := he
  have := List.mem_range.1 hi
  exact ⟨h2.symm, h3.symm, a + i, h1.symm, by omega, by omega⟩

theorem var_setVar (h : Heap) (x y : Var) (v : Nat) (hn : y ≠ x) : var (setVar h x v) y = var h y := by
  cases x <;> cases y <;> first | rfl | exact absurd rfl hn

theorem mem_setVar (h : Heap) (x : Var) (v : Nat) : (setVar h x v).mem = h.mem := by cases x <;> rfl

theorem writes_next {p q : Prog} {h h' : Heap} (hs : p.next h = some (h', q)) {loc : Loc} (hn : ¬ SameAt h h' loc) :
    .acc loc true 0 ∈ p.ops := by
  have same : h' ≠ h := fun e => hn (e ▸ same_self h loc)
  cases p with
  | ret p => cases hs
  | hang => cases hs
  | ld a k =>
    simp only [Prog.next] at hs
    split at hs
    · simp only [Option.some.injEq, Prod.mk.injEq] at hs
      exact absurd hs.1.symm same
    · cases hs
  | get x k =>
    simp only [Prog.next, Option.some.injEq, Prod.mk.injEq] at hs
    exact absurd hs.1.symm same
  | st a v k =>
    simp only [Prog.next] at hs
    split at hs
    · simp only [Option.some.injEq, Prod.mk.injEq] at hs
      obtain ⟨rfl, _⟩ := hs
      cases loc with
      | byte x =>
        by_cases hx : a ≤ x ∧ x < a + 8
        · exact mem_bytes hx
        · exact absurd (store64_other (by omega)).symm hn
      | var x => exact absurd (by cases x <;> rfl) hn
    · cases hs
  | set y v k =>
    simp only [Prog.next, Option.some.injEq, Prod.mk.injEq] at hs
    obtain ⟨rfl, _⟩ := hs
    cases loc with
    | byte x => exact absurd (by simp only [SameAt, mem_setVar]) hn
    | var x =>
      by_cases hx : x = y
      · subst hx
        simp [Prog.ops]
      · exact absurd (var_setVar h y x v hx).symm hn
  | zero a n k =>
    simp only [Prog.next] at hs
    split at hs
    · simp only [Option.some.injEq, Prod.mk.injEq] at hs
      obtain ⟨rfl, _⟩ := hs
      cases loc with
      | byte x =>
        by_cases hx : a ≤ x ∧ x < a + n
        · exact mem_bytes hx
        · exact absurd (by simp only [SameAt, clear, if_neg hx]) hn
      | var x => exact absurd (by cases x <;> rfl) hn
    · cases hs
  | call k =>
    simp only [Prog.next, Option.some.injEq, Prod.mk.injEq] at hs
    obtain ⟨rfl, _⟩ := hs
    cases loc with
    | byte x => exact absurd rfl hn
    | var x => exact absurd (by cases x <;> rfl) hn

/-- **C130.** A step records the accesses that it makes, and a byte or data member that changes in a step is among those that it
writes. -/
theorem C130_accesses {m m' : State} {l : Lbl} (hs : step m l = some m') :
    m'.mem = m.mem.run l.who (ops m l) ∧ ∀ loc, ¬ SameAt m.heap m'.heap loc → ∃ tag, .acc loc true tag ∈ ops m l := by
  have same : m'.heap = m.heap → ∀ loc, ¬ SameAt m.heap m'.heap loc → ∃ tag, HB.Op.acc loc true tag ∈ ops m l :=
    fun h loc hn => absurd (h ▸ same_self _ loc) hn
  cases l with
  | act t =>
    simp only [step] at hs
    cases hp : m.pc t with
    | none => rw [hp] at hs; cases hs
    | some cp =>
      obtain ⟨c, p⟩ := cp
      rw [hp] at hs
      simp only [Option.map_eq_some_iff] at hs
      obtain ⟨⟨h', q⟩, h1, rfl⟩ := hs
      refine ⟨rfl, fun loc hn => ⟨0, ?_⟩⟩
      have ho : ops m (.act t) = p.ops := by simp only [ops, hp]
      rw [ho]
      exact writes_next h1 hn
  | ret t =>
    simp only [step] at hs
    split at hs
    · cases hs
      exact ⟨rfl, same rfl⟩
    · cases hs
  | write t x v =>
    simp only [step] at hs
    split at hs
    · cases hs
    · cases hs
      refine ⟨rfl, fun loc hn => ⟨m.idAt x, ?_⟩⟩
      cases loc with
      | byte y =>
        by_cases hy : y = x
        · subst hy
          simp [ops]
        · exact absurd (by simp only [SameAt, if_neg hy]) hn
      | var y => exact absurd (by cases y <;> rfl) hn
  | call t c => simp only [step] at hs; split at hs <;> cases hs; exact ⟨rfl, same rfl⟩
  | read t x => simp only [step] at hs; split at hs <;> cases hs; exact ⟨rfl, same rfl⟩
  | lock t => simp only [step] at hs; split at hs <;> cases hs; exact ⟨rfl, same rfl⟩
  | unlock t => simp only [step] at hs; split at hs <;> cases hs; exact ⟨rfl, same rfl⟩
  | rel t n => simp only [step] at hs; split at hs <;> cases hs; exact ⟨rfl, same rfl⟩
  | acq t n => simp only [step] at hs; split at hs <;> cases hs; exact ⟨rfl, same rfl⟩

/-- The members that never change are the same. -/
def SameFixed (h h' : Heap) : Prop := h.size = h'.size ∧ h.base = h'.base ∧ h.startAddr = h'.startAddr

theorem same_ok {h h' : Heap} (hf : SameFixed h h') (a : Nat) : ok h' a = ok h a := by
  simp only [ok, hf.1, hf.2.1, hf.2.2]

theorem same_inBuf {h h' : Heap} (hf : SameFixed h h') (a n : Nat) : inBuf h' a n = inBuf h a n := by
  simp only [inBuf, hf.1, hf.2.1]

theorem var_set (h : Heap) (x : Var) (v : Nat) : var (setVar h x v) x = if x = .callback then (if v = 0 then 0 else 1) else v := by
  cases x <;> first | rfl | simp [var, setVar]

/-- **C130.** What a step writes, and what a call does next, depend only on what the step records as accesses, and on the members
that never change. -/
theorem C130_depends {p q : Prog} {h h' h1 : Heap} (hs : p.next h = some (h', q)) (hf : SameFixed h h1)
    (ha : ∀ loc wr, .acc loc wr 0 ∈ p.ops → SameAt h h1 loc) :
    ∃ h1', p.next h1 = some (h1', q) ∧ ∀ loc, .acc loc true 0 ∈ p.ops → SameAt h' h1' loc := by
  cases p with
  | ret p => cases hs
  | hang => cases hs
  | ld a k =>
    have hl : load64 h1.mem a = load64 h.mem a :=
      load64_congr fun i h1 h2 => (ha (.byte i) false (mem_bytes ⟨h1, h2⟩)).symm
    simp only [Prog.next] at hs ⊢
    split at hs
    · rename_i hk
      simp only [Option.some.injEq, Prod.mk.injEq] at hs
      refine ⟨h1, ?_, fun loc hm => ?_⟩
      · rw [same_ok hf, if_pos hk, hl, hs.2]
      · exact absurd (of_mem_bytes hm).1 (by simp)
    · cases hs
  | get x k =>
    have hl := ha (.var x) false (by simp [Prog.ops])
    simp only [Prog.next, Option.some.injEq, Prod.mk.injEq] at hs
    simp only [SameAt] at hl
    exact ⟨h1, by simp only [Prog.next, ← hl, hs.2], by simp [Prog.ops]⟩
  | st a v k =>
    simp only [Prog.next] at hs ⊢
    split at hs
    · rename_i hk
      simp only [Option.some.injEq, Prod.mk.injEq] at hs
      obtain ⟨rfl, rfl⟩ := hs
      refine ⟨_, if_pos (by rw [same_ok hf]; exact hk), fun loc hm => ?_⟩
      obtain ⟨_, _, x, rfl, h3⟩ := of_mem_bytes hm
      simp only [SameAt, store64, if_pos h3]
    · cases hs
  | set x v k =>
    simp only [Prog.next, Option.some.injEq, Prod.mk.injEq] at hs
    obtain ⟨rfl, rfl⟩ := hs
    refine ⟨_, rfl, fun loc hm => ?_⟩
    simp only [Prog.ops, List.mem_singleton, HB.Op.acc.injEq, and_true] at hm
    subst hm
    simp only [SameAt, var_set]
  | zero a n k =>
    simp only [Prog.next] at hs ⊢
    split at hs
    · rename_i hk
      simp only [Option.some.injEq, Prod.mk.injEq] at hs
      obtain ⟨rfl, rfl⟩ := hs
      refine ⟨_, if_pos (by rw [same_inBuf hf]; exact hk), fun loc hm => ?_⟩
      obtain ⟨_, _, x, rfl, h3⟩ := of_mem_bytes hm
      simp only [SameAt, clear, if_pos h3]
    · cases hs
  | call k =>
    simp only [Prog.next, Option.some.injEq, Prod.mk.injEq] at hs
    obtain ⟨rfl, rfl⟩ := hs
    exact ⟨_, rfl, by simp [Prog.ops]⟩

/-- **C130.** What a step that is possible records as a write is one: there are contents that it changes at that place. -/
theorem C130_writes {p q : Prog} {h h' : Heap} (hs : p.next h = some (h', q)) {loc : Loc} (hw : .acc loc true 0 ∈ p.ops) :
    ∃ h1 h1', SameFixed h h1 ∧ p.next h1 = some (h1', q) ∧ ¬ SameAt h1 h1' loc := by
  have ne : ∀ b : BitVec 8, ¬ b + 1 = b := by decide
  cases p with
  | ret p => cases hs
  | hang => cases hs
  | ld a k => exact absurd (of_mem_bytes hw).1 (by simp)
  | get x k => simp [Prog.ops] at hw
  | call k => simp [Prog.ops] at hw
  | st a v k =>
    simp only [Prog.next] at hs
    split at hs
    · rename_i hk
      simp only [Option.some.injEq, Prod.mk.injEq] at hs
      obtain ⟨rfl, rfl⟩ := hs
      obtain ⟨_, _, x, rfl, h3⟩ := of_mem_bytes hw
      refine ⟨{ h with mem := fun y => store64 h.mem a v y + 1 }, _, ⟨rfl, rfl, rfl⟩, if_pos hk, ?_⟩
      simp only [SameAt, store64, if_pos h3]
      exact ne _
    · cases hs
  | set x v k =>
    simp only [Prog.next, Option.some.injEq, Prod.mk.injEq] at hs
    obtain ⟨rfl, rfl⟩ := hs
    simp only [Prog.ops, List.mem_singleton, HB.Op.acc.injEq, and_true] at hw
    subst hw
    refine ⟨setVar h x (if v = 0 then 1 else if x = .callback then 0 else v + 1), _, ?_, rfl, ?_⟩
    · cases x <;> exact ⟨rfl, rfl, rfl⟩
    · simp only [SameAt, var_set]
      by_cases hv : v = 0 <;> by_cases hx : x = .callback <;> simp [hv, hx]
  | zero a n k =>
    simp only [Prog.next] at hs
    split at hs
    · rename_i hk
      simp only [Option.some.injEq, Prod.mk.injEq] at hs
      obtain ⟨rfl, rfl⟩ := hs
      obtain ⟨_, _, x, rfl, h3⟩ := of_mem_bytes hw
      refine ⟨{ h with mem := fun _ => 1 }, _, ⟨rfl, rfl, rfl⟩, if_pos hk, ?_⟩
      simp only [SameAt, clear, if_pos h3]
      decide
    · cases hs

/-- A step that writes a data member. -/
example (h : Heap) : (Prog.set .free 5 .hang).next { h with freeBytes := 7 } = some ({ h with freeBytes := 5 }, .hang) ∧
    ¬ SameAt { h with freeBytes := 7 } { h with freeBytes := 5 } (.var .free) ∧
    .acc (.var .free) true 0 ∈ (Prog.set .free 5 .hang).ops := by
  simp [Prog.next, setVar, SameAt, var, Prog.ops]

/-- **C130, users are free.** The model keeps no thread that is in no call from anything: it can begin any call, read and write, and synchronise with
others; it gets the lock exactly if nobody has it and gives it back exactly if it has it. -/
theorem C130_users {m : State} {t : Nat} (h : m.pc t = none) :
    (∀ c, ∃ m', step m (.call t c) = some m' ∧ m'.heap = m.heap) ∧
    (∀ x, ∃ m', step m (.read t x) = some m' ∧ m'.heap = m.heap) ∧
    (∀ x v, ∃ m', step m (.write t x v) = some m' ∧ m'.heap.mem x = v) ∧
    (∀ n, ∃ m', step m (.rel t n) = some m') ∧ (∀ n, ∃ m', step m (.acq t n) = some m') ∧
    ((∃ m', step m (.lock t) = some m' ∧ m'.holder = some t) ↔ m.holder = none) ∧
    ((∃ m', step m (.unlock t) = some m' ∧ m'.holder = none) ↔ m.holder = some t) := by
  simp only [step, h, Option.isSome_none, Bool.false_eq_true, if_false, false_or]
  refine ⟨fun c => ⟨_, rfl, rfl⟩, fun x => ⟨_, rfl, rfl⟩, fun x v => ⟨_, rfl, by simp⟩, fun n => ⟨_, rfl⟩, fun n => ⟨_, rfl⟩, ?_, ?_⟩
  · by_cases hh : m.holder = none <;> simp [hh]
  · by_cases hh : m.holder = some t <;> simp [hh]

end Verif.Heap.Conc
