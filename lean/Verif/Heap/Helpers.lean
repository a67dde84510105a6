import Verif.Heap.Stats

/-! Last helper lemmas before the property statements (proof machinery). -/
namespace Verif.Heap

theorem reach_step {size base st : Nat} {w : World} (hl : Layout size base st) (hr : Roomy size base)
    (hw : Reach size base st w) {op : Op} (hop : Legal w op) :
    ∃ w' p, w.step op = .ok (w', p) ∧ Reach size base st w' := by
  obtain ⟨bs, i⟩ := reach_inv hl hr hw
  obtain ⟨w', p, _, h, _⟩ := inv_step i hop
  exact ⟨w', p, h, hw.step hop h⟩

theorem initMem_outside {m : Mem} {size base st s e x : Nat} (h1 : x < base ∨ base + size ≤ x)
    (h2 : x < st ∨ st + 16 ≤ x) (hs : base ≤ s) (hs' : s + 16 ≤ base + size) (he : base ≤ e)
    (he' : e + 16 ≤ base + size) : initMem m st s e x = m x := by
  unfold initMem
  rw [store64_other (by omega), store64_other (by omega), store64_other (by omega), store64_other (by omega),
    store64_other (by omega), store64_other (by omega)]

theorem area_facts (size base : Nat) (h : areaLo base + 16 ≤ base + size) :
    base ≤ areaLo base ∧ areaLo base ≤ areaHi size base ∧ areaHi size base + 16 ≤ base + size ∧
    areaLo base % 8 = 0 ∧ areaHi size base % 8 = 0 ∧ base + size < areaHi size base + 24 := by
  unfold areaLo areaHi at *; omega

theorem construct_outside {size base st : Nat} {m : Mem} (hl : Layout size base st)
    (hr : areaLo base + 16 ≤ base + size) :
    ∃ h, Heap.construct size base st m = .ok h ∧ h.freeBytes = areaHi size base - areaLo base ∧
      ∀ x, (x < base ∨ base + size ≤ x) → (x < st ∨ st + 16 ≤ x) → h.mem x = m x := by
  have hf := area_facts size base hr
  refine ⟨_, construct_eq hl.base_pos hl.fits hr hl.start_aligned, rfl, ?_⟩
  intro x h1 h2
  show initMem m st (areaLo base) (areaHi size base) x = m x
  exact initMem_outside h1 h2 (by omega) (by omega) (by omega) (by omega)

/-- Giving back a block just cut off restores the block list. -/
theorem release_cut {pre post : List Blk} {b : Blk} {w : Nat} (hf : b.free = true) (hw : w ≤ b.size)
    (na : NoAdj (pre ++ b :: post)) :
    ∃ rest, cut b w = ⟨b.addr, taken b w, false⟩ :: rest ∧
      release pre ⟨b.addr, taken b w, false⟩ (rest ++ post) = pre ++ b :: post := by
  obtain ⟨n1, n2, n3⟩ := noAdj_append.mp na
  have hpre : ∀ pre' c, pre = pre' ++ [c] → c.free = false := by
    intro pre' c he
    subst he
    cases hc : c.free with
    | false => rfl
    | true =>
      have := n3 c (by simp) hc b (by simp)
      rw [hf] at this; exact absurd this (by simp)
  obtain ⟨a, z, f⟩ := b
  simp only at hf hw
  subst hf
  unfold cut taken
  by_cases h : z - w > 32
  · refine ⟨[⟨a + w, z - w, true⟩], ?_, ?_⟩
    · rw [if_pos (by exact h), if_pos (by exact h)]
    · rw [if_pos (by exact h), release_not hpre]
      simp only [List.cons_append, List.nil_append, absorb, if_true]
      rw [Nat.add_sub_cancel' hw]
  · refine ⟨[], ?_, ?_⟩
    · rw [if_neg (by exact h), if_neg (by exact h)]
    · rw [if_neg (by exact h), release_not hpre]
      simp only [List.nil_append]
      cases post with
      | nil => rfl
      | cons d ds =>
        have hd : d.free = false := n2.1 rfl d (by simp)
        simp [absorb, hd]

/-- The free of a pointer that was freed before and not reused. -/
theorem stale_free {size base st : Nat} {w : World} {bs : List Blk} (i : WInv size base st w bs) {p : Nat}
    (hp : p ∈ w.freed) : w.heap.deallocate p = .ok w.heap := by
  obtain ⟨h1, h2, ⟨c, hc, hcf, hc1, hc2⟩, h4, h5⟩ := i.stale p hp
  have hb := blk_in i hc
  have hacc : accessible w.heap.size w.heap.base w.heap.startAddr (p - 16 + 8) = true := by
    apply i.rep.geo.acc_buf
    · rw [i.base_eq]; omega
    · rw [i.base_eq, i.size_eq]; omega
    · omega
  have hW := i.rep.geo.lim
  have e0 : wsub p structSize = p - 16 := by
    rw [structSize_eq]; exact wsub_eq (by omega) (by rw [i.base_eq, i.size_eq] at hW; omega)
  have e1 : w.heap.ld (p - 16 + offSize) = .ok (load64 w.heap.mem (p - 8)) := by
    rw [offSize_add, ld_ok hacc, show p - 16 + 8 = p - 8 by omega]
  have e2 : (load64 w.heap.mem (p - 8) &&& allocBit) = 0 := (and_allocBit_eq_zero (load64_lt _ _)).mpr h5
  unfold Heap.deallocate
  rw [if_pos (by omega), e0]
  simp only [e1, Res.ok_bind, e2, ne_eq, not_true_eq_false, if_false]

/-- On a heap with fewer than 16 free bytes every request fails. -/
theorem allocate_tiny {h : Heap} {n : Nat} (hn : n < 2 ^ 64) (hf : h.freeBytes < 16) :
    h.allocate n = .ok (h.fireCallback 0, 0) := by
  have hr := roundWanted_eq (n := n) hn
  have hnf := need_facts n
  have hc : h.allocCore (Heap.roundWanted n) = .ok (h, 0) := by
    have hsmall : ¬ (Heap.roundWanted n > 0 ∧ Heap.roundWanted n ≤ h.freeBytes) := by
      rw [hr]; split <;> omega
    unfold Heap.allocCore
    rw [if_neg hsmall]
    split <;> rfl
  unfold Heap.allocate
  rw [hc, Res.ok_bind]

theorem callocate_tiny {h : Heap} {k n : Nat} (hf : h.freeBytes < 16) :
    ∃ h', h.callocate k n = .ok (h', 0) ∧ h'.freeBytes = h.freeBytes ∧ h'.mem = h.mem := by
  unfold Heap.callocate
  split
  · have hlt : wmul k n < 2 ^ 64 := Nat.mod_lt _ (by decide)
    rw [allocate_tiny hlt hf]
    refine ⟨h.fireCallback 0, ?_, (fire_same h 0).2.2.2.2.2.1, fire_mem h 0⟩
    simp only [Res.ok_bind, ne_eq, not_true_eq_false, if_false]
  · exact ⟨h, rfl, rfl, rfl⟩

theorem live_move_zero (ls : List Live) : ls.map (Live.move 0) = ls := by
  have : Live.move 0 = id := by funext l; rfl
  rw [this, List.map_id]

theorem blk_move_zero (bs : List Blk) : bs.map (Blk.move 0) = bs := by
  have : Blk.move 0 = id := by funext l; rfl
  rw [this, List.map_id]

theorem op_move_zero (ops : List Op) : ops.map (Op.move 0) = ops := by
  have : Op.move 0 = id := by
    funext op
    cases op <;> simp [Op.move, movePtr]
    intro h; exact h.symm
  rw [this, List.map_id]

theorem foldl_max_spec (xs : List Nat) : ∀ m, (∀ x ∈ xs, x ≤ xs.foldl max m) ∧ m ≤ xs.foldl max m ∧
    (xs.foldl max m = m ∨ xs.foldl max m ∈ xs) := by
  induction xs with
  | nil => intro m; simp
  | cons x xs ih =>
    intro m
    obtain ⟨h1, h2, h3⟩ := ih (max m x)
    simp only [List.foldl_cons]
    refine ⟨?_, by omega, ?_⟩
    · intro y hy
      rcases List.mem_cons.mp hy with rfl | hy
      · omega
      · exact h1 y hy
    · rcases h3 with h3 | h3
      · rw [h3]
        rcases Nat.le_total m x with h | h
        · rw [Nat.max_eq_right h]; right; simp
        · rw [Nat.max_eq_left h]; left; rfl
      · right; simp [h3]

theorem foldl_min_spec (xs : List Nat) : ∀ m, (∀ x ∈ xs, xs.foldl min m ≤ x) ∧ xs.foldl min m ≤ m ∧
    (xs.foldl min m = m ∨ xs.foldl min m ∈ xs) := by
  induction xs with
  | nil => intro m; simp
  | cons x xs ih =>
    intro m
    obtain ⟨h1, h2, h3⟩ := ih (min m x)
    simp only [List.foldl_cons]
    refine ⟨?_, by omega, ?_⟩
    · intro y hy
      rcases List.mem_cons.mp hy with rfl | hy
      · omega
      · exact h1 y hy
    · rcases h3 with h3 | h3
      · rw [h3]
        rcases Nat.le_total m x with h | h
        · rw [Nat.min_eq_left h]; left; rfl
        · rw [Nat.min_eq_right h]; right; simp
      · right; simp [h3]

theorem freeSum_eq (bs : List Blk) : freeSum bs = (freeSizes bs).sum := by
  induction bs with
  | nil => rfl
  | cons b bs ih =>
    unfold freeSizes at *
    cases hf : b.free <;> simp [freeSum, hf, ih]

end Verif.Heap
