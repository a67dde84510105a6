import Verif.Heap.Step

/-! Maximal gaps between live blocks are the free blocks (proof machinery). -/
namespace Verif.Heap

theorem tiles_succ {bs : List Blk} {lo hi : Nat} {c : Blk} (t : Tiles lo bs hi) (n : NoAdj bs) (hc : c ∈ bs) :
    c.addr + c.size = hi ∨ ∃ d ∈ bs, d.addr = c.addr + c.size ∧ (c.free = true → d.free = false) := by
  obtain ⟨pre, post, rfl⟩ := List.append_of_mem hc
  obtain ⟨mid, t1, e1, e2, e3, e4⟩ := tiles_append.mp t
  cases post with
  | nil => left; simp only [Tiles] at e4; omega
  | cons d ds =>
    right
    refine ⟨d, by simp, by rw [e4.1, e1], ?_⟩
    intro hcf
    have := (noAdj_append.mp n).2.1.1 hcf
    exact this d (by simp)

theorem tiles_pred {bs : List Blk} {lo hi : Nat} {c : Blk} (t : Tiles lo bs hi) (n : NoAdj bs) (hc : c ∈ bs) :
    c.addr = lo ∨ ∃ d ∈ bs, d.addr + d.size = c.addr ∧ (c.free = true → d.free = false) := by
  obtain ⟨pre, post, rfl⟩ := List.append_of_mem hc
  obtain ⟨mid, t1, e1, e2, e3, e4⟩ := tiles_append.mp t
  rcases List.eq_nil_or_concat pre with rfl | ⟨pre', d, hp⟩
  · left; simp only [Tiles] at t1; omega
  · right
    rw [List.concat_eq_append] at hp
    subst hp
    obtain ⟨mid', t1', c1, c2, c3, c4⟩ := tiles_append.mp t1
    simp only [Tiles] at c4
    refine ⟨d, by simp, by omega, ?_⟩
    intro hcf
    cases hdf : d.free
    · rfl
    · have := (noAdj_append.mp n).2.2 d (by simp) hdf c (by simp)
      rw [hcf] at this; exact absurd this (by simp)

theorem tiles_first {bs : List Blk} {lo hi : Nat} (t : Tiles lo bs hi) (h : lo < hi) : ∃ c ∈ bs, c.addr = lo := by
  cases bs with
  | nil => simp only [Tiles] at t; omega
  | cons b bs => exact ⟨b, by simp, t.1⟩

theorem WInv.used_live {size base st : Nat} {w : World} {bs : List Blk} (i : WInv size base st w bs) {c : Blk}
    (hc : c ∈ bs) (hf : c.free = false) :
    ∃ l ∈ w.live, l.blk = c ∧ l.start = c.addr ∧ l.stop = c.addr + c.size := by
  have := (i.perm.mem_iff).mpr (mem_used.mpr ⟨hc, hf⟩)
  obtain ⟨l, hl, he⟩ := List.mem_map.mp this
  refine ⟨l, hl, he, ?_, ?_⟩
  · rw [← he]; rfl
  · rw [← he]; rfl

theorem gap_iff {size base st : Nat} {w : World} {bs : List Blk} (i : WInv size base st w bs) {a b : Nat} :
    Gap w.live (areaLo base) (areaHi size base) a b ↔
      ∃ c ∈ bs, c.free = true ∧ a = c.addr ∧ b = c.addr + c.size := by
  have t := i.rep.tiles
  rw [i.end_eq] at t
  have na := i.rep.noAdj
  constructor
  · rintro ⟨hab, ha, hb, hdis⟩
    have hbhi : b ≤ areaHi size base := by
      rcases hb with rfl | ⟨l, hl, rfl⟩
      · exact Nat.le_refl _
      · obtain ⟨hlb, _⟩ := i.live_blk hl
        have := tiles_mem t _ hlb
        simp only [Live.blk] at this
        simp only [Live.start]; omega
    have hstart : ∃ c ∈ bs, c.addr = a := by
      rcases ha with rfl | ⟨l, hl, rfl⟩
      · exact tiles_first t (by omega)
      · obtain ⟨hlb, _⟩ := i.live_blk hl
        rcases tiles_succ t na hlb with h | ⟨d, hd, hda, _⟩
        · exfalso
          simp only [Live.blk] at h
          simp only [Live.stop] at hab
          omega
        · exact ⟨d, hd, hda⟩
    obtain ⟨c, hc, hca⟩ := hstart
    have hcm := tiles_mem t c hc
    have hcf : c.free = true := by
      cases hf : c.free
      · exfalso
        obtain ⟨l, hl, _, h1, h2⟩ := i.used_live hc hf
        have := hdis l hl
        omega
      · rfl
    refine ⟨c, hc, hcf, hca.symm, ?_⟩
    have hle : b ≤ c.addr + c.size := by
      rcases tiles_succ t na hc with h | ⟨d, hd, hda, hdf⟩
      · omega
      · obtain ⟨l, hl, _, h1, h2⟩ := i.used_live hd (hdf hcf)
        have := hdis l hl
        have := tiles_mem t d hd
        omega
    rcases hb with rfl | ⟨l, hl, rfl⟩
    · omega
    · obtain ⟨hlb, hlf⟩ := i.live_blk hl
      have hlm := tiles_mem t _ hlb
      rcases tiles_disj t _ hlb c hc with he | he | he
      · rw [he] at hlf; rw [hcf] at hlf; exact absurd hlf (by simp)
      · simp only [Live.blk] at he hlm
        simp only [Live.start] at *
        omega
      · simp only [Live.blk] at he hlm
        simp only [Live.start] at *
        omega
  · rintro ⟨c, hc, hcf, rfl, rfl⟩
    have hcm := tiles_mem t c hc
    refine ⟨by omega, ?_, ?_, ?_⟩
    · rcases tiles_pred t na hc with h | ⟨d, hd, hda, hdf⟩
      · exact .inl h
      · obtain ⟨l, hl, _, h1, h2⟩ := i.used_live hd (hdf hcf)
        exact .inr ⟨l, hl, by omega⟩
    · rcases tiles_succ t na hc with h | ⟨d, hd, hda, hdf⟩
      · exact .inl h
      · obtain ⟨l, hl, _, h1, h2⟩ := i.used_live hd (hdf hcf)
        exact .inr ⟨l, hl, by omega⟩
    · intro l hl
      obtain ⟨hlb, hlf⟩ := i.live_blk hl
      rcases tiles_disj t _ hlb c hc with he | he | he
      · rw [he] at hlf; rw [hcf] at hlf; exact absurd hlf (by simp)
      · left; simp only [Live.blk] at he; simp only [Live.stop]; omega
      · right; simp only [Live.blk] at he; simp only [Live.start]; omega

end Verif.Heap
