import Verif.Heap.Construct
import Verif.Heap.Client

/-! More facts about block lists (proof machinery). -/
namespace Verif.Heap

/-- The used blocks. -/
def used (bs : List Blk) : List Blk := bs.filter (fun b => !b.free)

theorem used_append (xs ys : List Blk) : used (xs ++ ys) = used xs ++ used ys := by
  unfold used; rw [List.filter_append]

theorem mem_used {bs : List Blk} {b : Blk} : b ∈ used bs ↔ b ∈ bs ∧ b.free = false := by
  unfold used; simp

theorem used_cut {pre post : List Blk} {b : Blk} {w : Nat} (hf : b.free = true) :
    ∃ us vs, used (pre ++ b :: post) = us ++ vs ∧
      used (pre ++ cut b w ++ post) = us ++ ⟨b.addr, taken b w, false⟩ :: vs := by
  refine ⟨used pre, used post, ?_, ?_⟩
  · rw [used_append]; unfold used; simp [hf]
  · rw [used_append, used_append]
    unfold cut taken
    split <;> simp [used]

theorem used_absorb (sz : Nat) (post : List Blk) : used (absorb sz post).2 = used post := by
  unfold absorb
  split
  · rename_i d ds
    split
    · rename_i h; simp [used, h]
    · rfl
  · rfl

/-- Is the last block free? -/
theorem last_cases (pre : List Blk) :
    (∃ pre' c, pre = pre' ++ [c] ∧ c.free = true) ∨ (∀ pre' c, pre = pre' ++ [c] → c.free = false) := by
  by_cases h : ∃ pre' c, pre = pre' ++ [c] ∧ c.free = true
  · exact .inl h
  · right
    intro pre' c hp
    cases hc : c.free
    · rfl
    · exact absurd ⟨pre', c, hp, hc⟩ h

theorem used_release (pre : List Blk) (b : Blk) (post : List Blk) :
    used (release pre b post) = used pre ++ used post := by
  rcases last_cases pre with ⟨pre', c, rfl, hc⟩ | hne
  · rw [release_concat hc, used_append, used_append]
    simp [used, hc]
    exact used_absorb _ _
  · rw [release_not hne, used_append]
    simp [used]
    exact used_absorb _ _

theorem absorb_mem {sz : Nat} {post : List Blk} {c : Blk} (h : c ∈ (absorb sz post).2) : c ∈ post := by
  unfold absorb at h
  split at h
  · rename_i d ds
    split at h
    · simp at h; simp [h]
    · exact h
  · simp at h

/-- Every block after a release starts where a block started before. -/
theorem release_sub {pre post : List Blk} {b c : Blk} (h : c ∈ release pre b post) :
    ∃ c' ∈ pre ++ b :: post, c'.addr = c.addr ∧ (c.free = false → c' = c) ∧
      (c.free = true → c'.free = true ∨ c' = b) := by
  rcases last_cases pre with ⟨pre', d, rfl, hd⟩ | hne
  · rw [release_concat hd] at h
    simp only [List.mem_append, List.mem_cons] at h
    rcases h with h | rfl | h
    · exact ⟨c, by simp [h], rfl, fun _ => rfl, fun h => .inl h⟩
    · exact ⟨d, by simp, rfl, by simp, fun _ => .inl hd⟩
    · exact ⟨c, by simp [absorb_mem h], rfl, fun _ => rfl, fun h => .inl h⟩
  · rw [release_not hne] at h
    simp only [List.mem_append, List.mem_cons] at h
    rcases h with h | rfl | h
    · exact ⟨c, by simp [h], rfl, fun _ => rfl, fun h => .inl h⟩
    · exact ⟨b, by simp, rfl, by simp, fun _ => .inr rfl⟩
    · exact ⟨c, by simp [absorb_mem h], rfl, fun _ => rfl, fun h => .inl h⟩

/-- Free space stays free: every free block, and the released one, lies in a free block
afterwards. -/
theorem release_sup {pre post : List Blk} {b c : Blk} {s hi : Nat} (t : Tiles s (pre ++ b :: post) hi)
    (h : c ∈ pre ++ b :: post) (hc : c.free = true ∨ c = b) :
    ∃ c' ∈ release pre b post, c'.free = true ∧ c'.addr ≤ c.addr ∧
      c.addr + c.size ≤ c'.addr + c'.size := by
  obtain ⟨mid, t1, e1, e2, e3, e4⟩ := tiles_append.mp t
  have key : ∀ (sz a : Nat), a + sz = mid + b.size → ∀ c ∈ post, c.free = true →
      (c ∈ (absorb sz post).2) ∨ (a ≤ c.addr ∧ c.addr + c.size ≤ a + (absorb sz post).1) := by
    intro sz a ha c hc hcf
    cases post with
    | nil => simp at hc
    | cons d ds =>
      obtain ⟨d1, d2, d3, d4⟩ := e4
      rcases List.mem_cons.mp hc with rfl | hc
      · right
        simp only [absorb, hcf, if_true]
        omega
      · left
        unfold absorb
        simp only
        split
        · exact hc
        · simp [hc]
  rcases last_cases pre with ⟨pre', d, rfl, hd⟩ | hne
  · rw [release_concat hd]
    obtain ⟨mid', t1', c1, c2, c3, c4⟩ := tiles_append.mp t1
    simp only [Tiles] at c4
    have hge := absorb_ge (d.size + b.size) post
    simp only [List.mem_append, List.mem_cons, List.not_mem_nil, or_false] at h
    have hnew : ∀ c : Blk, d.addr ≤ c.addr → c.addr + c.size ≤ d.addr + (absorb (d.size + b.size) post).1 →
        ∃ c' ∈ pre' ++ ⟨d.addr, (absorb (d.size + b.size) post).1, true⟩ :: (absorb (d.size + b.size) post).2,
          c'.free = true ∧ c'.addr ≤ c.addr ∧ c.addr + c.size ≤ c'.addr + c'.size := by
      intro c h1 h2
      exact ⟨⟨d.addr, (absorb (d.size + b.size) post).1, true⟩, by simp, rfl, h1, h2⟩
    rcases h with (h | rfl) | rfl | h
    · rcases hc with hc | rfl
      · exact ⟨c, by simp [h], hc, Nat.le_refl _, Nat.le_refl _⟩
      · have := tiles_mem t1' c h
        omega
    · exact hnew _ (by omega) (by omega)
    · exact hnew _ (by omega) (by omega)
    · rcases hc with hc | rfl
      · rcases key (d.size + b.size) d.addr (by omega) c h hc with h | h
        · exact ⟨c, by simp [h], hc, Nat.le_refl _, Nat.le_refl _⟩
        · exact hnew _ (by omega) (by omega)
      · have := tiles_mem e4 c h
        omega
  · rw [release_not hne]
    have hge := absorb_ge b.size post
    simp only [List.mem_append, List.mem_cons] at h
    have hnew : ∀ c : Blk, b.addr ≤ c.addr → c.addr + c.size ≤ b.addr + (absorb b.size post).1 →
        ∃ c' ∈ pre ++ ⟨b.addr, (absorb b.size post).1, true⟩ :: (absorb b.size post).2,
          c'.free = true ∧ c'.addr ≤ c.addr ∧ c.addr + c.size ≤ c'.addr + c'.size := by
      intro c h1 h2
      exact ⟨⟨b.addr, (absorb b.size post).1, true⟩, by simp, rfl, h1, h2⟩
    rcases h with h | rfl | h
    · rcases hc with hc | rfl
      · exact ⟨c, by simp [h], hc, Nat.le_refl _, Nat.le_refl _⟩
      · have := tiles_mem t1 c h
        omega
    · exact hnew _ (by omega) (by omega)
    · rcases hc with hc | rfl
      · rcases key b.size b.addr (by omega) c h hc with h | h
        · exact ⟨c, by simp [h], hc, Nat.le_refl _, Nat.le_refl _⟩
        · exact hnew _ (by omega) (by omega)
      · have := tiles_mem e4 c h
        omega

/-- Two blocks of a tiling are equal or do not overlap. -/
theorem tiles_disj {bs : List Blk} : ∀ {lo hi : Nat}, Tiles lo bs hi → ∀ b ∈ bs, ∀ c ∈ bs,
    b = c ∨ b.addr + b.size ≤ c.addr ∨ c.addr + c.size ≤ b.addr := by
  induction bs with
  | nil => intro lo hi _ b hb; simp at hb
  | cons d bs ih =>
    intro lo hi h b hb c hc
    obtain ⟨h1, h2, h3, h4⟩ := h
    rcases List.mem_cons.mp hb with hb' | hb'
    · rcases List.mem_cons.mp hc with hc' | hc'
      · exact .inl (by rw [hb', hc'])
      · have := tiles_mem h4 c hc'; subst hb'; right; omega
    · rcases List.mem_cons.mp hc with hc' | hc'
      · have := tiles_mem h4 b hb'; subst hc'; right; omega
      · exact ih h4 b hb' c hc'

theorem tiles_addr_inj {bs : List Blk} {lo hi : Nat} (h : Tiles lo bs hi) {b c : Blk} (hb : b ∈ bs) (hc : c ∈ bs)
    (he : b.addr = c.addr) : b = c := by
  have h1 := tiles_mem h b hb
  have h2 := tiles_mem h c hc
  rcases tiles_disj h b hb c hc with h | h | h
  · exact h
  · omega
  · omega

/-- Total size of the used blocks. -/
def sizes (bs : List Blk) : Nat := (bs.map (·.size)).sum

theorem tiles_sum {bs : List Blk} : ∀ {lo hi : Nat}, Tiles lo bs hi → lo + freeSum bs + sizes (used bs) = hi := by
  induction bs with
  | nil => intro lo hi h; simp only [Tiles] at h; simp [freeSum, sizes, used]; omega
  | cons b bs ih =>
    intro lo hi h
    have := ih h.2.2.2
    cases hf : b.free
    · simp only [freeSum, hf, used, sizes, List.filter_cons, Bool.not_false, if_true, List.map_cons,
        List.sum_cons, Bool.false_eq_true, if_false] at *
      omega
    · simp only [freeSum, hf, used, sizes, List.filter_cons, Bool.not_true, if_true,
        Bool.false_eq_true, if_false] at *
      omega

/-- Without used blocks the whole area is one free block. -/
theorem tiles_no_used {bs : List Blk} {lo hi : Nat} (t : Tiles lo bs hi) (n : NoAdj bs) (hu : used bs = [])
    (hlt : lo < hi) : bs = [⟨lo, hi - lo, true⟩] := by
  have hall : ∀ b ∈ bs, b.free = true := by
    intro b hb
    cases hf : b.free
    · have : b ∈ used bs := mem_used.mpr ⟨hb, hf⟩
      rw [hu] at this; simp at this
    · rfl
  match bs, t, n, hall with
  | [], t, _, _ => simp only [Tiles] at t; omega
  | [b], t, _, hall =>
    obtain ⟨t1, t2, t3, t4⟩ := t
    simp only [Tiles] at t4
    have := hall b (by simp)
    obtain ⟨a, z, f⟩ := b
    simp only at *
    subst t1 this
    congr 2
    omega
  | b :: c :: bs, t, n, hall =>
    have h1 := hall b (by simp)
    have h2 := hall c (by simp)
    have := n.1 h1 c (by simp)
    rw [h2] at this; exact absurd this (by simp)

end Verif.Heap
