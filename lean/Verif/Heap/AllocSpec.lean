import Verif.Heap.AllocProof

/-! `allocate` refines first fit on the block list (proof machinery). -/
namespace Verif.Heap

/-- Block size needed for a request of `n` bytes: header plus padding to 8. -/
def need (n : Nat) : Nat := (n + 23) / 8 * 8

theorem need_facts (n : Nat) : n + 16 ≤ need n ∧ need n ≤ n + 23 ∧ need n % 8 = 0 := by
  unfold need; omega

theorem roundWanted_eq {n : Nat} (hn : n < W) :
    Heap.roundWanted n = if n = 0 ∨ W ≤ need n then 0 else need n := by
  unfold Heap.roundWanted
  by_cases h0 : n > 0
  · rw [if_pos h0]
    by_cases h1 : addWillOverflow n structSize = false
    · rw [if_pos h1]
      have h2 : n + 16 < W := by
        unfold addWillOverflow at h1
        rw [structSize_eq, sizeMax_eq] at h1
        simp only [gt_iff_lt, decide_eq_false_iff_not] at h1
        unfold W at *
        omega
      simp only [structSize_eq, wadd_eq h2, and_alignMask, alignment]
      by_cases h3 : (n + 16) % 8 ≠ 0
      · rw [if_pos h3]
        by_cases h4 : addWillOverflow (n + 16) (8 - (n + 16) % 8) = false
        · rw [if_pos h4]
          have h5 : (n + 16) + (8 - (n + 16) % 8) < W := by
            unfold addWillOverflow at h4
            rw [sizeMax_eq] at h4
            simp only [gt_iff_lt, decide_eq_false_iff_not] at h4
            unfold W at *
            omega
          rw [wadd_eq h5]
          have e : need n = (n + 16) + (8 - (n + 16) % 8) := by unfold need; omega
          rw [if_neg (by omega), e]
        · rw [if_neg h4]
          have h5 : W ≤ (n + 16) + (8 - (n + 16) % 8) := by
            unfold addWillOverflow at h4
            rw [sizeMax_eq] at h4
            simp only [gt_iff_lt, decide_eq_false_iff_not, Nat.not_lt] at h4
            unfold W at *
            omega
          have e : need n = (n + 16) + (8 - (n + 16) % 8) := by unfold need; omega
          rw [if_pos (by omega)]
      · rw [if_neg h3]
        have e : need n = n + 16 := by unfold need; omega
        rw [if_neg (by omega), e]
    · rw [if_neg h1]
      have h2 : W ≤ n + 16 := by
        unfold addWillOverflow at h1
        rw [structSize_eq, sizeMax_eq] at h1
        simp only [gt_iff_lt, decide_eq_false_iff_not, Nat.not_lt] at h1
        unfold W at *
        omega
      have := need_facts n
      rw [if_pos (by omega)]
  · rw [if_neg h0, if_pos (by omega)]; omega

theorem fireCallback_ne {h : Heap} {p : Nat} (hp : p ≠ 0) : h.fireCallback p = h := by
  unfold Heap.fireCallback
  rw [if_neg (by simp [hp])]

/-- `allocate` is first fit. -/
theorem allocate_spec {h : Heap} {s n : Nat} {bs : List Blk} (r : Rep h s bs) (hn : n < W) :
    (∃ pre b post, bs = pre ++ b :: post ∧ 0 < n ∧ b.free = true ∧ need n ≤ b.size ∧
      (∀ c ∈ pre, c.free = true → c.size < need n) ∧
      ∃ h', h.allocate n = .ok (h', b.addr + 16) ∧ Rep h' s (pre ++ cut b (need n) ++ post) ∧
        AllocEff h h' (taken b (need n)) ∧ OnlyFree h bs h'.mem) ∨
    ((n = 0 ∨ ∀ c ∈ bs, c.free = true → c.size < need n) ∧
      h.allocate n = .ok (h.fireCallback 0, 0)) := by
  have hnf := need_facts n
  obtain ⟨g, t, l, ss, en, es, na, fe⟩ := id r
  obtain ⟨g1, g2, g3, g4, g5, g6, g7, g8, g9, g10, g11, g12⟩ := id g
  have hbig : ∀ c ∈ bs, c.size < 2 ^ 63 := by
    intro c hc
    have := tiles_mem t c hc
    omega
  have hcore0 : ∀ w, h.allocCore w = .ok (h, 0) → Heap.roundWanted n = w →
      h.allocate n = .ok (h.fireCallback 0, 0) := by
    intro w hw hr
    unfold Heap.allocate
    rw [hr, hw]
    rfl
  have hr := roundWanted_eq hn
  by_cases h0 : n = 0 ∨ W ≤ need n
  · rw [if_pos h0] at hr
    right
    refine ⟨?_, hcore0 0 ?_ hr⟩
    · rcases h0 with h0 | h0
      · exact .inl h0
      · right; intro c hc _
        have := hbig c hc
        unfold W at h0; omega
    · unfold Heap.allocCore
      split
      · rw [if_neg (by omega)]
      · rfl
  · rw [if_neg h0] at hr
    have hW : need n < W := by omega
    by_cases hv : need n < 2 ^ 63
    · have hv' : sizeIsValid (need n) = true := by
        unfold sizeIsValid
        rw [(and_allocBit_eq_zero hW).mpr hv]; rfl
      by_cases hfree : need n ≤ h.freeBytes
      · have hlen := tiles_length t
        have hff := findFit_spec g (w := need n) (by omega) en es bs h.startAddr s (h.size + 2) l t
          (Nat.le_refl _) (by omega)
        rcases hff with ⟨pre, b, post, e1, e2, e3, e4, e5⟩ | ⟨e1, q, e2⟩
        · left
          subst e1
          obtain ⟨h', t1, t2, t3, t4⟩ := take_spec r e2 (by omega) (by omega) e3
          refine ⟨pre, b, post, rfl, by omega, e2, e3, e4, h', ?_, t2, t3, t4⟩
          obtain ⟨mid, u1, u2⟩ := tiles_append.mp t
          have hb1 := tiles_mem t b (by simp)
          have hne : b.addr ≠ h.pxEnd := by omega
          have : h.allocCore (need n) = .ok (h', b.addr + 16) := by
            unfold Heap.allocCore
            rw [if_pos hv', if_pos ⟨by omega, hfree⟩, offNext_add, ld_ok g.acc_start]
            simp only [Res.ok_bind, e5]
            rw [if_pos hne, t1]
          unfold Heap.allocate
          rw [hr, this]
          simp only [Res.ok_bind]
          rw [fireCallback_ne (by omega)]
        · right
          refine ⟨.inr e1, hcore0 _ ?_ hr⟩
          unfold Heap.allocCore
          rw [if_pos hv', if_pos ⟨by omega, hfree⟩, offNext_add, ld_ok g.acc_start]
          simp only [Res.ok_bind, e2]
          rw [if_neg (by simp)]
      · right
        refine ⟨.inr ?_, hcore0 _ ?_ hr⟩
        · intro c hc hcf
          have := mem_freeSum hc hcf
          omega
        · unfold Heap.allocCore
          rw [if_pos hv', if_neg (by omega)]
    · right
      refine ⟨.inr ?_, hcore0 _ ?_ hr⟩
      · intro c hc _
        have := hbig c hc
        omega
      · have hv' : ¬ sizeIsValid (need n) = true := by
          unfold sizeIsValid
          have := mt (and_allocBit_eq_zero hW).mp hv
          simpa using this
        unfold Heap.allocCore
        rw [if_neg hv']

end Verif.Heap
