import Verif.Heap.FreeProof

/-! `deallocate` refines freeing with coalescing on the block list (proof machinery). -/
namespace Verif.Heap

theorem absorb_ge (sz : Nat) (post : List Blk) : sz ≤ (absorb sz post).1 := by
  unfold absorb
  split
  · split <;> simp
  · simp

/-- Effect of a deallocation on the members of the object. -/
structure FreeEff (h h' : Heap) (n : Nat) : Prop where
  size : h'.size = h.size
  base : h'.base = h.base
  startAddr : h'.startAddr = h.startAddr
  pxEnd : h'.pxEnd = h.pxEnd
  freeBytes : h'.freeBytes = h.freeBytes + n
  minEver : h'.minEver = h.minEver
  nAlloc : h'.nAlloc = h.nAlloc
  nFree : h'.nFree = wadd h.nFree 1
  callback : h'.callback = h.callback
  callbackCalls : h'.callbackCalls = h.callbackCalls

/-- Memory is unchanged outside `x_start_` and the headers of `b` and the free blocks. -/
def OnlyHdr (h : Heap) (bs : List Blk) (b : Blk) (m' : Mem) : Prop :=
  ∀ x, (x < h.startAddr ∨ h.startAddr + 16 ≤ x) → (x < b.addr ∨ b.addr + 16 ≤ x) →
    (∀ c ∈ bs, c.free = true → x < c.addr ∨ c.addr + 16 ≤ x) → m' x = h.mem x

theorem deallocate_eq {size base st0 e f me nal nfr cc : Nat} {m : Mem} {cb : Bool} {a sz : Nat} {h2 : Heap}
    (aa : accessible size base st0 a = true) (aa8 : accessible size base st0 (a + 8) = true)
    (la : load64 m a = protect 0) (la8 : load64 m (a + 8) = sz + 2 ^ 63) (h63 : sz < 2 ^ 63)
    (ha : a + 16 < W) (hf : f + sz < W)
    (hins : (Heap.mk size base st0 (store64 m (a + 8) sz) e (f + sz) me nal nfr cb cc).insertFree a = .ok h2) :
    (Heap.mk size base st0 m e f me nal nfr cb cc).deallocate (a + 16) =
      .ok { h2 with nFree := wadd h2.nFree 1 } := by
  have e0 : wsub (a + 16) structSize = a := by
    rw [structSize_eq, wsub_eq (by omega) ha]; omega
  have e1 : (sz + 2 ^ 63) &&& allocBit ≠ 0 := by
    intro hc
    have := (and_allocBit_eq_zero (a := sz + 2 ^ 63) (by unfold W; omega)).mp hc
    omega
  have e2 : (sz + 2 ^ 63) &&& not64 allocBit = sz := by
    rw [and_not_allocBit]; omega
  have e3 : load64 (store64 m (a + 8) sz) (a + 8) = sz := load64_store64_same (by unfold W; omega)
  have e4 : wadd f sz = f + sz := wadd_eq hf
  have e5 : a + 16 ≠ 0 := by omega
  unfold Heap.deallocate
  rw [if_pos e5]
  simp only [e0, offNext_add, offSize_add, ld_mk aa, ld_mk aa8, st_mk aa8, Res.ok_bind, la, la8, if_pos e1,
    if_true, e2, e3, e4, hins]

theorem dealloc_spec {h : Heap} {s : Nat} {pre post : List Blk} {b : Blk}
    (r : Rep h s (pre ++ b :: post)) (hf : b.free = false) :
    ∃ h', h.deallocate (b.addr + 16) = .ok h' ∧ Rep h' s (release pre b post) ∧
      FreeEff h h' b.size ∧ OnlyHdr h (release pre b post) b h'.mem ∧
      load64 h'.mem (b.addr + 8) < 2 ^ 63 := by
  obtain ⟨g, t, l, ss, en, es, na, fe⟩ := r
  obtain ⟨p1, p2, p3, p4, p5, p6⟩ := prev_facts g t
  obtain ⟨g1, g2, g3, g4, g5, g6, g7, g8, g9, g10, g11, g12⟩ := id g
  obtain ⟨mid, t1, t2⟩ := tiles_append.mp t
  obtain ⟨e1, e2, e3, e4⟩ := t2
  have hmid := tiles_le t1
  have hhi := tiles_le e4
  have hm8 := tiles_mod8 t1
  obtain ⟨l1, l2⟩ := linked_append.mp l
  simp only [Linked, hf, Bool.false_eq_true, if_false] at l2
  obtain ⟨l3, l4, l5⟩ := l2
  have hfs : h.freeBytes + b.size ≤ h.pxEnd := by
    have h1 := freeSum_le t1
    have h2 := freeSum_le e4
    rw [fe, freeSum_append]
    simp only [freeSum, hf, Bool.false_eq_true, if_false]
    omega
  obtain ⟨p7, p8⟩ : accessible h.size h.base h.startAddr b.addr = true ∧
      accessible h.size h.base h.startAddr (b.addr + 8) = true :=
    ⟨g.acc_buf (by omega) (by omega) (by omega), g.acc_buf (by omega) (by omega) (by omega)⟩
  have hpre := tiles_mem t1
  have hpost := tiles_mem e4
  have hmemb : b ∈ pre ++ b :: post := by simp
  obtain ⟨nx, n1, n2, n3, n4⟩ := linked_head l5 e4 (by omega)
  have nal := noAdj_append.mp na
  have napost : NoAdj post := nal.2.1.2
  have hlen := tiles_length t1
  -- state after clearing the mark and accounting
  let m0 := store64 h.mem (b.addr + 8) b.size
  let h0 : Heap := { h with mem := m0, freeBytes := h.freeBytes + b.size }
  have g0 : Geo h0 s := g.of_eq rfl rfl rfl rfl
  have hm0 : ∀ q, q + 8 ≤ b.addr + 8 ∨ b.addr + 16 ≤ q → load64 m0 q = load64 h.mem q :=
    fun q hq => load64_store64_ne (by omega)
  have hm0a : load64 m0 (b.addr + 8) = b.size := load64_store64_same (by omega)
  have s0 : Seg m0 h.startAddr pre := by
    refine seg_frame l1 t1 (by omega) (fun _ => hm0 _ (by omega)) ?_
    intro c hc
    have := hpre c hc
    exact ⟨fun _ => hm0 _ (by omega), hm0 _ (by omega)⟩
  have hpos : h0.findPos b.addr (h0.size + 2) h0.startAddr = .ok (last h.startAddr pre) := by
    refine findPos_spec (h := h0) (nx := nx) g0 (by omega) pre h.startAddr s (h.size + 2) s0
      (by rw [e1]; exact t1) (Nat.le_refl _) g7 ?_ g.acc_start ?_ (by omega)
    · show b.addr ≤ h.pxEnd; omega
    · show load64 m0 _ = _
      rw [hm0 _ (by omega), n4]
  have hsizes : ∀ c ∈ pre, c.free = true → load64 h.mem (c.addr + 8) = c.size := seg_size l1
  by_cases hcase : ∃ pre' c, pre = pre' ++ [c] ∧ c.free = true
  · -- merge with the previous block
    obtain ⟨pre', c, rfl, hcf⟩ := hcase
    have hlast : last h.startAddr (pre' ++ [c]) = c.addr := by
      rw [last_append]; simp only [last, hcf, if_true]
    rw [hlast] at p1 p2 p3 p4 p5 p6 l5 n4 hpos
    have hc := hpre c (by simp)
    have hcsz := hsizes c (by simp) hcf
    obtain ⟨mid', t1', t1''⟩ := tiles_append.mp t1
    obtain ⟨c1, c2, c3, c4⟩ := t1''
    simp only [Tiles] at c4
    obtain ⟨l1', l1''⟩ := seg_append.mp l1
    simp only [Seg, hcf, if_true, and_true] at l1''
    obtain ⟨k1, k2⟩ := l1''
    have hb := @mergeBefore_merge h.size h.base h.startAddr h.pxEnd (h.freeBytes + b.size) h.minEver h.nAlloc
      h.nFree h.callbackCalls m0 h.callback c.addr b.addr c.size b.size p3 p8
      (by rw [hm0 _ (by omega), hcsz]) hm0a (by omega) (by omega)
    let m1 := store64 m0 (c.addr + 8) (c.size + b.size)
    let h1 : Heap := { h0 with mem := m1 }
    have hm1 : ∀ q, (q + 8 ≤ b.addr + 8 ∨ b.addr + 16 ≤ q) → (q + 8 ≤ c.addr + 8 ∨ c.addr + 16 ≤ q) →
        load64 m1 q = load64 h.mem q := by
      intro q hq1 hq2
      rw [← hm0 q hq1]; exact load64_store64_ne (by omega)
    have hlk : Linked m1 c.addr post h.pxEnd := by
      refine linked_repoint l5 (hm1 _ (by omega) (by omega)) ?_
      intro d hd
      have := hpost d hd
      exact ⟨hm1 _ (by omega) (by omega), hm1 _ (by omega) (by omega)⟩
    obtain ⟨m2, q1, q2, q3, q4, q5⟩ := after_spec (h := h1) (it := c.addr) (ins := c.addr)
      (sz := c.size + b.size) (post := post) (g.of_eq rfl rfl rfl rfl) p2 (by omega) (by omega) (by omega) (by omega)
      (load64_store64_same (by omega)) hlk
      (by show Tiles _ _ h.pxEnd
          rw [show c.addr + (c.size + b.size) = mid + b.size by omega]; exact e4)
    have hX := absorb_ge (c.size + b.size) post
    have hX8' : (c.addr + (absorb (c.size + b.size) post).1) % 8 = h.pxEnd % 8 := tiles_mod8 q4
    have hins : h0.insertFree b.addr = .ok { h1 with mem := m2 } := by
      unfold Heap.insertFree
      rw [hpos]
      simp only [Res.ok_bind]
      have hb' : h0.mergeBefore c.addr b.addr = .ok (h1, c.addr) := hb
      rw [hb']
      simp only [Res.ok_bind, q1, ne_eq, not_true, if_false]
    have hm2 : ∀ q, (q + 8 ≤ b.addr + 8 ∨ b.addr + 16 ≤ q) → (q + 8 ≤ c.addr ∨ c.addr + 16 ≤ q) →
        load64 m2 q = load64 h.mem q := by
      intro q hq1 hq2
      rw [← hm1 q hq1 (by omega)]
      exact load64_congr fun i hi1 hi2 => q5 i (by omega)
    have hd := @deallocate_eq h.size h.base h.startAddr h.pxEnd h.freeBytes h.minEver h.nAlloc
      h.nFree h.callbackCalls h.mem h.callback b.addr b.size _ p7 p8 l3 l4 (by omega) (by omega) (by omega) hins
    refine ⟨_, hd, ?_, ?_, ?_, ?_⟩
    · have hpre' := tiles_mem t1'
      rw [release_concat hcf]
      constructor
      · exact g.of_eq rfl rfl rfl rfl
      · show Tiles s (pre' ++ _) h.pxEnd
        rw [tiles_append]
        refine ⟨mid', t1', c1, ?_, ?_, ?_⟩
        · simp only; omega
        · simp only; omega
        · rw [← c1]; exact q4
      · show Linked m2 h.startAddr _ h.pxEnd
        rw [linked_append]
        refine ⟨?_, ?_⟩
        · refine seg_frame l1' t1' (by omega) (fun _ => hm2 _ (by omega) (by omega)) ?_
          intro d hd
          have hd' := hpre' d hd
          exact ⟨fun _ => hm2 _ (by omega) (by omega), hm2 _ (by omega) (by omega)⟩
        · simp only [Linked, if_true]
          refine ⟨?_, q2, q3⟩
          rw [← k1]
          rcases last_eq_or h.startAddr pre' with e | ⟨d, hd, _, e⟩
          · rw [e]; exact hm2 _ (by omega) (by omega)
          · have := hpre' d hd
            rw [e]; exact hm2 _ (by omega) (by omega)
      · show load64 m2 (h.startAddr + 8) = 0
        rw [hm2 _ (by omega) (by omega), ss]
      · show load64 m2 h.pxEnd = protect 0
        rw [hm2 _ (by omega) (by omega), en]
      · show load64 m2 (h.pxEnd + 8) = 0
        rw [hm2 _ (by omega) (by omega), es]
      · rw [noAdj_append]
        rw [noAdj_append] at nal
        refine ⟨nal.1.1, noAdj_absorb napost, ?_⟩
        intro x hx hxf y hy
        have := nal.1.2.2 x hx hxf c (by simp)
        rw [hcf] at this; exact absurd this (by simp)
      · show h.freeBytes + b.size = _
        rw [← release_concat hcf, freeSum_release, fe, freeSum_append (pre' ++ [c])]
        simp only [freeSum, hf, Bool.false_eq_true, if_false]; omega
    · constructor <;> rfl
    · intro x hx1 hxb hx2
      have hxc := hx2 ⟨c.addr, (absorb (c.size + b.size) post).1, true⟩
        (by rw [release_concat hcf]; simp) rfl
      simp only at hxc
      show m2 x = h.mem x
      rw [q5 x (by omega)]
      show store64 (store64 h.mem _ _) _ _ x = h.mem x
      rw [store64_other (by omega), store64_other (by omega)]
    · show load64 m2 (b.addr + 8) < _
      have : load64 m2 (b.addr + 8) = load64 m0 (b.addr + 8) := by
        rw [load64_congr (m := m1) (fun i hi1 hi2 => q5 i (by omega))]
        exact load64_store64_ne (by omega)
      rw [this, hm0a]; omega
  · -- no free block right before
    have hne : ∀ pre' c, pre = pre' ++ [c] → c.free = false := by
      intro pre' c hp
      cases hcf : c.free
      · rfl
      · exact absurd ⟨pre', c, hp, hcf⟩ hcase
    have hit : ∃ isz, load64 h.mem (last h.startAddr pre + 8) = isz ∧
        wadd (last h.startAddr pre) isz ≠ b.addr := by
      rcases List.eq_nil_or_concat pre with rfl | ⟨pre', d, hp⟩
      · refine ⟨0, by simp only [last]; exact ss, ?_⟩
        simp only [last]
        rw [wadd_eq (by omega)]; omega
      · rw [List.concat_eq_append] at hp
        have hdf := hne pre' d hp
        subst hp
        have hl : last h.startAddr (pre' ++ [d]) = last h.startAddr pre' := by
          rw [last_append]; simp only [last, hdf, Bool.false_eq_true, if_false]
        rw [hl]
        rcases last_eq_or h.startAddr pre' with e | ⟨c, hc, hcf, e⟩
        · rw [e]
          exact ⟨0, ss, by rw [wadd_eq (by omega)]; omega⟩
        · refine ⟨c.size, by rw [e]; exact hsizes c (by simp [hc]) hcf, ?_⟩
          obtain ⟨mid', t1', t1''⟩ := tiles_append.mp t1
          obtain ⟨c1, c2, c3, c4⟩ := t1''
          have := tiles_mem t1' c hc
          have := tiles_le c4
          rw [e, wadd_eq (by omega)]
          omega
    obtain ⟨isz, hisz, hwne⟩ := hit
    have hb := @mergeBefore_not h.size h.base h.startAddr h.pxEnd (h.freeBytes + b.size) h.minEver h.nAlloc
      h.nFree h.callbackCalls m0 h.callback (last h.startAddr pre) b.addr isz p3
      (by rw [hm0 _ (by omega), hisz]) hwne
    have hlk : Linked m0 (last h.startAddr pre) post h.pxEnd := by
      refine linked_repoint l5 (hm0 _ (by omega)) ?_
      intro d hd
      have := hpost d hd
      exact ⟨hm0 _ (by omega), hm0 _ (by omega)⟩
    obtain ⟨m2, q1, q2, q3, q4, q5⟩ := after_spec (h := h0) (it := last h.startAddr pre) (ins := b.addr)
      (sz := b.size) (post := post) g0 p2 (by omega) (by omega) e2 (by omega)
      hm0a hlk (by rw [e1]; exact e4)
    have hX := absorb_ge b.size post
    have hX8 : (b.addr + (absorb b.size post).1) % 8 = h.pxEnd % 8 := tiles_mod8 q4
    have hpne : last h.startAddr pre ≠ b.addr := by omega
    let m3 := store64 m2 (last h.startAddr pre) (protect b.addr)
    have hins : h0.insertFree b.addr = .ok { h0 with mem := m3 } := by
      unfold Heap.insertFree
      rw [hpos]
      simp only [Res.ok_bind]
      have hb' : h0.mergeBefore (last h.startAddr pre) b.addr = .ok (h0, b.addr) := hb
      rw [hb']
      simp only [Res.ok_bind, q1, ne_eq, hpne, not_false_eq_true, if_true, offNext_add]
      exact st_mk p2
    have hm3 : ∀ q, (q + 8 ≤ b.addr ∨ b.addr + 16 ≤ q) →
        (q + 8 ≤ last h.startAddr pre ∨ last h.startAddr pre + 8 ≤ q) →
        load64 m3 q = load64 h.mem q := by
      intro q hq1 hq2
      rw [← hm0 q (by omega)]
      have : load64 m3 q = load64 m2 q := load64_store64_ne (by omega)
      rw [this]
      exact load64_congr fun i hi1 hi2 => q5 i (by omega)
    have hd := @deallocate_eq h.size h.base h.startAddr h.pxEnd h.freeBytes h.minEver h.nAlloc
      h.nFree h.callbackCalls h.mem h.callback b.addr b.size _ p7 p8 l3 l4 (by omega) (by omega) (by omega) hins
    refine ⟨_, hd, ?_, ?_, ?_, ?_⟩
    · rw [release_not hne]
      have hpost' := tiles_mem q4
      constructor
      · exact g.of_eq rfl rfl rfl rfl
      · show Tiles s (pre ++ _) h.pxEnd
        rw [tiles_append]
        refine ⟨mid, t1, e1, ?_, ?_, ?_⟩
        · simp only; omega
        · simp only; omega
        · rw [← e1]; exact q4
      · show Linked m3 h.startAddr _ h.pxEnd
        rw [linked_append]
        refine ⟨?_, ?_⟩
        · refine seg_frame l1 t1 (by omega) (fun _ => hm3 _ (by omega) (by omega)) ?_
          intro d hd
          have := hpre d hd
          have := p5 d hd
          exact ⟨fun _ => hm3 _ (by omega) (by omega), hm3 _ (by omega) (by omega)⟩
        · simp only [Linked, if_true]
          refine ⟨load64_store64_same (protect_lt (by omega)), ?_, ?_⟩
          · rw [← q2]; exact load64_store64_ne (by omega)
          · refine linked_repoint q3 (load64_store64_ne (by omega)) ?_
            intro d hd
            have hd' := hpost' d hd
            have hdd : d.addr + d.size ≤ h.pxEnd := hd'.2.1
            exact ⟨load64_store64_ne (by omega), load64_store64_ne (by omega)⟩
      · show load64 m3 (h.startAddr + 8) = 0
        rw [hm3 _ (by omega) (by omega), ss]
      · show load64 m3 h.pxEnd = protect 0
        rw [hm3 _ (by omega) (by omega), en]
      · show load64 m3 (h.pxEnd + 8) = 0
        rw [hm3 _ (by omega) (by omega), es]
      · rw [noAdj_append]
        refine ⟨nal.1, noAdj_absorb napost, ?_⟩
        intro x hx hxf y hy
        exfalso
        rcases List.eq_nil_or_concat pre with rfl | ⟨pre', d, hp⟩
        · simp at hx
        · rw [List.concat_eq_append] at hp
          have := hne pre' d hp
          subst hp
          simp at hx
          subst hx
          rw [hxf] at this; exact absurd this (by simp)
      · show h.freeBytes + b.size = _
        rw [← release_not hne, freeSum_release, fe, freeSum_append pre]
        simp only [freeSum, hf, Bool.false_eq_true, if_false]; omega
    · constructor <;> rfl
    · intro x hx1 hxb hx2
      have hxp : x < last h.startAddr pre ∨ last h.startAddr pre + 8 ≤ x := by
        rcases last_eq_or h.startAddr pre with e | ⟨c, hc, hcf, e⟩
        · omega
        · have h1 := hx2 c (by rw [release_not hne]; simp [hc]) hcf
          omega
      show store64 m2 _ _ x = h.mem x
      rw [store64_other (by omega), q5 x (by omega)]
      show store64 h.mem _ _ x = h.mem x
      rw [store64_other (by omega)]
    · show load64 m3 (b.addr + 8) < _
      have : load64 m3 (b.addr + 8) = load64 m2 (b.addr + 8) := load64_store64_ne (by omega)
      have hz : b.addr + (absorb b.size post).1 ≤ h.pxEnd := tiles_le q4
      rw [this, q2]; omega

end Verif.Heap
