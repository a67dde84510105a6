import Verif.Heap.Props

/-!
Model of `include/xitren/allocators/static_heap_allocator.hpp` (all line numbers refer to that
file) and properties C18, C19.

A program has several heaps, numbered by `Nat`, and allocator objects living at addresses.  An
allocator object only holds a reference to its heap (line 21).
-/
namespace Verif.Heap

/-- An allocator object: its own address and the heap `manager_` refers to (static_heap_allocator.hpp:21). -/
structure Allocator where
  self : Nat
  manager : Nat
  deriving DecidableEq, Repr

namespace Allocator

/-- The constructor from a heap, static_heap_allocator.hpp:36. -/
def make (addr heap : Nat) : Allocator := ⟨addr, heap⟩

/-- The converting constructor, static_heap_allocator.hpp:38-40, and the implicit copy constructor: the new object, at
another address, refers to the same heap. -/
def copy (addr : Nat) (other : Allocator) : Allocator := ⟨addr, other.manager⟩

/-- `operator==`, static_heap_allocator.hpp:58-63: object identity. -/
def eq (a b : Allocator) : Bool := a.self == b.self

/-- `operator!=`, static_heap_allocator.hpp:65-70. -/
def ne (a b : Allocator) : Bool := !(a.eq b)

/-- Outcome of a call that may throw. -/
inductive Alloc where
  | ptr (h : Heap) (p : Nat)
  | badAlloc (h : Heap)

/-- `allocate(size)`, static_heap_allocator.hpp:42-50; `sizeofT` is `sizeof(Type)`.  The product is a `size_t`. -/
def allocate (h : Heap) (sizeofT n : Nat) : Res Alloc := do
  let (h', p) ← h.allocate (wmul n sizeofT)
  if p ≠ 0 then .ok (.ptr h' p) else .ok (.badAlloc h')

/-- `deallocate(ptr, size)`, static_heap_allocator.hpp:52-56, on a program whose heaps are `heaps`. -/
def deallocate (heaps : Nat → Heap) (a : Allocator) (p : Nat) : Res (Nat → Heap) := do
  let h' ← (heaps a.manager).deallocate p
  .ok (fun i => if i = a.manager then h' else heaps i)

end Allocator

variable {size base st : Nat} {w : World}

/-- Full statement of C18: the call throws or returns room for `n` objects. -/
def C18_Statement : Prop :=
  ∀ {size base st : Nat} {w : World}, Layout size base st → Roomy size base → Reach size base st w →
    ∀ sizeofT n, n < 2 ^ 64 → 0 < sizeofT → sizeofT < 2 ^ 64 → ∃ r, Allocator.allocate w.heap sizeofT n = .ok r ∧
      ∀ h' p, r = .ptr h' p → p % 8 = 0 ∧ base ≤ p ∧ p + n * sizeofT ≤ base + size

/-- **C18 (partial).** If `n * sizeof(T)` fits `size_t`, the call throws (and then the heap is
unchanged except for the callback count) or returns an aligned block of `n * sizeof(T)` bytes inside
the heap that overlaps no live block.
Missing: `n * sizeof(T) ≥ 2^64`, where the claim is false (`C18_overflow_refuted`). -/
theorem C18_enough_or_throws_partial (hl : Layout size base st) (hr : Roomy size base)
    (hw : Reach size base st w) {sizeofT n : Nat} (hfit : n * sizeofT < 2 ^ 64) :
    ∃ r, Allocator.allocate w.heap sizeofT n = .ok r ∧
      (∀ h' p, r = .ptr h' p → p % 8 = 0 ∧ base ≤ p ∧ p + n * sizeofT ≤ base + size ∧
        ∀ l ∈ w.live, l.ptr + l.len ≤ p ∨ p + n * sizeofT ≤ l.ptr) ∧
      (∀ h', r = .badAlloc h' → h' = { w.heap with callbackCalls := h'.callbackCalls }) := by
  have hmul : wmul n sizeofT = n * sizeofT := Nat.mod_eq_of_lt hfit
  obtain ⟨w', p, hs, hw'⟩ := reach_step hl hr hw (op := .alloc (n * sizeofT)) hfit
  obtain ⟨bs, i⟩ := reach_inv hl hr hw
  rcases inv_alloc i (n := n * sizeofT) hfit with ⟨pre, b, post, h', e, h1, h2, h3, h4, h5, h6, h7, h8, h9⟩ | ⟨_, h2, _⟩
  · refine ⟨.ptr h' (b.addr + 16), ?_, ?_, ?_⟩
    · unfold Allocator.allocate
      rw [hmul, h5, Res.ok_bind]
      show (if b.addr + 16 ≠ 0 then _ else _) = _
      rw [if_pos (by omega)]
    · intro h'' q he
      obtain ⟨rfl, rfl⟩ := Allocator.Alloc.ptr.inj he
      obtain ⟨c1, c2, c3⟩ := (C02_inside_and_aligned hl hr hw).1 _ _ _ hfit h5 (by omega)
      refine ⟨c1, c2, c3, ?_⟩
      rw [step_alloc h5] at hs
      have hs := Res.ok.inj hs
      simp only [Prod.mk.injEq] at hs
      have hd := (C03_disjoint hl hr hw').1
      rw [← hs.1, afterAlloc_live (by omega)] at hd
      intro l hlv
      have := (List.pairwise_cons.mp hd).1 l hlv
      simp only at this
      omega
    · intro h'' he; exact absurd he (by simp)
  · refine ⟨.badAlloc (w.heap.fireCallback 0), ?_, ?_, ?_⟩
    · unfold Allocator.allocate
      rw [hmul, h2, Res.ok_bind]
      simp only [ne_eq, not_true_eq_false, if_false]
    · intro h'' q he; exact absurd he (by simp)
    · intro h'' he
      rw [← Allocator.Alloc.badAlloc.inj he]
      unfold Heap.fireCallback
      split <;> rfl

example : ∃ w, Layout 256 4099 8192 ∧ Roomy 256 4099 ∧ Reach 256 4099 8192 w ∧ 5 * 12 < 2 ^ 64 := by
  obtain ⟨w, h1, _⟩ := demo_world
  exact ⟨w, demo_layout, demo_roomy, h1, by decide⟩

/-- 2^61 + 1 objects of 8 bytes: the product wraps to 8 and a small block is returned. -/
theorem C18_overflow_refuted : ¬ C18_Statement := by
  intro h
  have hd : (demo []).map (fun w => match Allocator.allocate w.heap 8 (2 ^ 61 + 1) with
      | .ok (.ptr _ p) => p | _ => 0) = some 4120 := by decide +kernel
  cases hw : demo [] with
  | none => rw [hw] at hd; simp at hd
  | some w =>
    rw [hw] at hd
    simp only [Option.map_some, Option.some.injEq] at hd
    obtain ⟨r, h1, h2⟩ := h demo_layout demo_roomy (demo_reach hw) 8 (2 ^ 61 + 1) (by decide) (by decide) (by decide)
    rw [h1] at hd
    cases r with
    | badAlloc h' => simp at hd
    | ptr h' p =>
      have := (h2 h' p rfl).2.2
      omega

/-- Allocators obtained from one another by copying or rebinding. -/
inductive Related : Allocator → Allocator → Prop where
  | refl (a) : Related a a
  | copy (a addr) : Related a (a.copy addr)
  | symm {a b} : Related a b → Related b a
  | trans {a b c} : Related a b → Related b c → Related a c

/-- Full statement of C19's last clause: a copy compares equal to its source. -/
def C19_CopyEqual : Prop := ∀ (a : Allocator) (addr : Nat), addr ≠ a.self → (a.copy addr).eq a = true

/-- **C19 (partial).** In a program whose allocator objects `objs` live at distinct addresses:
allocators that compare equal, or are related by copying, refer to the same heap, so a live block
obtained through `a` can be freed through `b`: only that heap changes and gets the block back.
Missing: a copy compares equal to its source, which is false (`C19_copies_unequal`). -/
theorem C19_interchangeable_partial (objs : List Allocator)
    (hobjs : objs.Pairwise (fun a b => a.self ≠ b.self)) {a b : Allocator} (ha : a ∈ objs) (hb : b ∈ objs)
    (hab : a.eq b = true ∨ Related a b)
    {worlds : Nat → World} (hl : Layout size base st) (hr : Roomy size base)
    (hw : Reach size base st (worlds a.manager)) {l : Live} (hlv : l ∈ (worlds a.manager).live) :
    ∃ heaps', b.deallocate (fun i => (worlds i).heap) l.ptr = .ok heaps' ∧
      (heaps' a.manager).freeHeapSize = (worlds a.manager).heap.freeHeapSize + l.cost ∧
      ∀ i, i ≠ a.manager → heaps' i = (worlds i).heap := by
  have hman : b.manager = a.manager := by
    rcases hab with hab | hab
    · have he : a.self = b.self := by simpa [Allocator.eq] using hab
      have : a = b := by
        clear hab
        induction objs with
        | nil => simp at ha
        | cons c cs ih =>
          obtain ⟨p1, p2⟩ := List.pairwise_cons.mp hobjs
          rcases List.mem_cons.mp ha with rfl | ha' <;> rcases List.mem_cons.mp hb with rfl | hb'
          · rfl
          · exact absurd he (p1 _ hb')
          · exact absurd he.symm (p1 _ ha')
          · exact ih p2 ha' hb'
      rw [this]
    · clear hlv hw hb ha
      induction hab with
      | refl a => rfl
      | copy a addr => rfl
      | symm _ ih => exact ih.symm
      | trans _ _ ih1 ih2 => exact ih2.trans ih1
  obtain ⟨bs, i⟩ := reach_inv hl hr hw
  obtain ⟨_, _, h', _, h2, _, h4, _⟩ := inv_free i hlv
  refine ⟨fun i => if i = a.manager then h' else (worlds i).heap, ?_, ?_, ?_⟩
  · unfold Allocator.deallocate
    rw [hman]
    simp only [h2, Res.ok_bind]
  · show Heap.freeHeapSize (if _ then _ else _) = _
    rw [if_pos rfl]; exact h4.freeBytes
  · intro i hi
    show (if _ then _ else _) = _
    rw [if_neg hi]

example : Related (.make 8 3) ((Allocator.make 8 3).copy 16) ∧
    [Allocator.make 8 3, (Allocator.make 8 3).copy 16].Pairwise (fun a b => a.self ≠ b.self) :=
  ⟨.copy _ _, by decide⟩

/-- C19, the two operators: `==` is identity of the objects and `!=` its negation. -/
theorem C19_comparison (a b : Allocator) :
    (a.eq b = true ↔ a.self = b.self) ∧ (a.ne b = true ↔ a.self ≠ b.self) := by
  simp [Allocator.eq, Allocator.ne]

example : (Allocator.make 8 3).ne ((Allocator.make 8 3).copy 16) = true := by decide

/-- A copy never compares equal to its source. -/
theorem C19_copies_unequal : ¬ C19_CopyEqual := by
  intro h
  exact absurd (h ⟨8, 0⟩ 16 (by decide)) (by decide)

end Verif.Heap
