import Verif.Heap.Frame

/-! The statistics loop computes count, maximum and minimum over the free blocks (proof machinery). -/
namespace Verif.Heap

/-- Sizes of the free blocks in address order. -/
def freeSizes (bs : List Blk) : List Nat := (bs.filter (fun b => b.free)).map (·.size)

theorem statsLoop_spec {h : Heap} {s : Nat} (g : Geo h s) :
    ∀ (bs : List Blk) (p lo fuel n mx mn : Nat), Linked h.mem p bs h.pxEnd → Tiles lo bs h.pxEnd →
      s ≤ lo → bs.length < fuel → n + bs.length < W →
      h.statsLoop fuel (protect (load64 h.mem p)) n mx mn =
        .ok (n + (freeSizes bs).length, (freeSizes bs).foldl max mx, (freeSizes bs).foldl min mn) := by
  obtain ⟨g1, g2, g3, g4, g5, g6, g7, g8, g9, g10, g11, g12⟩ := id g
  intro bs
  induction bs with
  | nil =>
    intro p lo fuel n mx mn hl ht hlo hf hn
    obtain ⟨fuel, rfl⟩ : ∃ k, fuel = k + 1 := ⟨fuel - 1, by simp at hf; omega⟩
    simp only [Linked] at hl
    rw [hl, protect_protect]
    unfold Heap.statsLoop
    rw [if_neg (by simp)]
    rfl
  | cons b bs ih =>
    intro p lo fuel n mx mn hl ht hlo hf hn
    have ht' := ht
    obtain ⟨t1, t2, t3, t4⟩ := ht
    have hle := tiles_le t4
    have hb8 : b.addr % 8 = 0 := by
      have := tiles_mod8 ht'
      omega
    simp only [List.length_cons] at hf hn
    simp only [Linked] at hl
    by_cases hfree : b.free = true
    · simp only [hfree, if_true] at hl
      obtain ⟨l1, l2, l3⟩ := hl
      obtain ⟨fuel, rfl⟩ : ∃ k, fuel = k + 1 := ⟨fuel - 1, by omega⟩
      have a1 := g.acc_buf (a := b.addr + 8) (by omega) (by omega) (by omega)
      have a2 := g.acc_buf (a := b.addr) (by omega) (by omega) (by omega)
      rw [l1, protect_protect]
      have hstep : h.statsLoop (fuel + 1) b.addr n mx mn =
          h.statsLoop fuel (protect (load64 h.mem b.addr)) (n + 1) (max mx b.size) (min mn b.size) := by
        have e1 : (if b.size > mx then b.size else mx) = max mx b.size := by split <;> omega
        have e2 : (if b.size < mn then b.size else mn) = min mn b.size := by split <;> omega
        have e3 : wadd n 1 = n + 1 := by unfold wadd; exact Nat.mod_eq_of_lt (by omega)
        have e4 : h.ld (b.addr + offSize) = .ok (b.size) := by rw [offSize_add, ld_ok a1, l2]
        have e5 : h.ld (b.addr + offNext) = .ok (load64 h.mem b.addr) := by rw [offNext_add, ld_ok a2]
        rw [Heap.statsLoop, if_pos (by omega)]
        simp only [e4, e5, Res.ok_bind, e1, e2, e3]
      rw [hstep, ih b.addr _ fuel (n + 1) _ _ l3 t4 (by omega) (by omega) (by omega)]
      simp only [freeSizes, List.filter_cons, hfree, if_true, List.map_cons, List.foldl_cons, List.length_cons]
      rw [Nat.add_right_comm, Nat.add_assoc]
    · simp only [hfree, Bool.false_eq_true, if_false] at hl
      rw [ih p _ fuel n mx mn hl.2.2 t4 (by omega) (by omega) (by omega)]
      simp only [freeSizes, List.filter_cons, hfree, Bool.false_eq_true, if_false]

theorem getStats_spec {size base st : Nat} {w : World} {bs : List Blk} (i : WInv size base st w bs) :
    w.heap.getStats = .ok
      { available := w.heap.freeBytes, largest := (freeSizes bs).foldl max 0,
        smallest := (freeSizes bs).foldl min portMaxDelay, nFreeBlocks := (freeSizes bs).length,
        minEver := w.heap.minEver, nAlloc := w.heap.nAlloc, nFree := w.heap.nFree } := by
  have t := i.rep.tiles
  have hlen := tiles_length t
  obtain ⟨g1, g2, g3, g4, g5, g6, g7, g8, g9, g10, g11, g12⟩ := id i.rep.geo

  have hfirst : protect (load64 w.heap.mem w.heap.startAddr) ≠ 0 := by
    obtain ⟨nxa, n1, n2, n3, n4⟩ := linked_head i.rep.linked t (by omega)
    rw [n4, protect_protect]; omega
  have a0 := i.rep.geo.acc_start
  have e0 : w.heap.ld (w.heap.startAddr + offNext) = .ok (load64 w.heap.mem w.heap.startAddr) := by
    rw [offNext_add, ld_ok a0]
  have hloop := statsLoop_spec i.rep.geo bs w.heap.startAddr (areaLo base) (w.heap.size + 2) 0 0 portMaxDelay
    i.rep.linked t (Nat.le_refl _) (by omega) (by omega)
  unfold Heap.getStats
  simp only [e0, Res.ok_bind, hfirst, ne_eq, not_false_eq_true, if_true, hloop, Nat.zero_add]

end Verif.Heap
