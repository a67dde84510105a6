import Verif.Heap.AllocBase

/-! `take` on the block list. -/
namespace Verif.Heap

/-- Memory after taking a whole block. -/
def wholeMem (m : Mem) (p a sz : Nat) : Mem :=
  store64 (store64 (store64 m p (load64 m a)) (a + 8) (sz + 2 ^ 63)) a (protect 0)

/-- Memory after taking `w` bytes off a block. -/
def splitMem (m : Mem) (p a sz w : Nat) : Mem :=
  store64 (store64 (store64 (store64 (store64 (store64 (store64 m p (load64 m a)) (a + w + 8) (sz - w))
    (a + 8) w) (a + w) (load64 m a)) p (protect (a + w))) (a + 8) (w + 2 ^ 63)) a (protect 0)

theorem take_whole {size base st0 e f me nal nfr cc : Nat} {m : Mem} {cb : Bool}
    {p a sz w : Nat}
    (ap : accessible size base st0 p = true) (aa : accessible size base st0 a = true)
    (aa8 : accessible size base st0 (a + 8) = true)
    (hd : p + 16 ≤ a ∨ a + 16 ≤ p) (lp : load64 m p = protect a) (ls : load64 m (a + 8) = sz)
    (ha : a + sz < W) (hw : w ≤ sz) (hws : sz - w ≤ 32) (h16 : 16 ≤ sz) (h63 : sz < 2 ^ 63) (hsf : sz ≤ f)
    (hfW : f < W) :
    (Heap.mk size base st0 m e f me nal nfr cb cc).take p a w = .ok
      (Heap.mk size base st0 (wholeMem m p a sz) e (f - sz) (min me (f - sz)) (wadd nal 1) nfr cb cc,
        a + 16) := by
  have e1 : wadd (protect (protect a)) structSize = a + 16 := by
    rw [protect_protect, structSize_eq]; exact wadd_eq (by omega)
  have e2 : load64 (store64 m p (load64 m a)) (a + 8) = sz := by
    rw [load64_store64_ne (by omega), ls]
  have e3 : ¬ (wsub sz w > minBlock) := by
    rw [wsub_eq hw (by omega), minBlock_eq]; omega
  have e4 : wsub f sz = f - sz := wsub_eq hsf hfW
  simp only [Heap.take, Heap.split, offNext_add, offSize_add, ld_mk ap, ld_mk aa, ld_mk aa8, st_mk ap,
    Res.ok_bind, lp, e1, e2, if_neg e3, e4, or_allocBit h63]
  by_cases hm : f - sz < me
  · simp only [if_pos hm, st_mk aa, st_mk aa8, Res.ok_bind, Nat.min_eq_right (Nat.le_of_lt hm)]
    rfl
  · simp only [if_neg hm, st_mk aa, st_mk aa8, Res.ok_bind, Nat.min_eq_left (Nat.le_of_not_lt hm)]
    rfl

theorem take_split {size base st0 e f me nal nfr cc : Nat} {m : Mem} {cb : Bool}
    {p a sz w : Nat}
    (ap : accessible size base st0 p = true) (aa : accessible size base st0 a = true)
    (aa8 : accessible size base st0 (a + 8) = true)
    (an : accessible size base st0 (a + w) = true) (an8 : accessible size base st0 (a + w + 8) = true)
    (hd : p + 16 ≤ a ∨ a + sz ≤ p) (lp : load64 m p = protect a) (ls : load64 m (a + 8) = sz)
    (ha : a + sz < W) (hw : w ≤ sz) (hws : sz - w > 32) (h16 : 16 ≤ w) (h63 : sz < 2 ^ 63) (hsf : sz ≤ f)
    (hfW : f < W) :
    (Heap.mk size base st0 m e f me nal nfr cb cc).take p a w = .ok
      (Heap.mk size base st0 (splitMem m p a sz w) e (f - w) (min me (f - w)) (wadd nal 1) nfr cb cc,
        a + 16) := by
  have e1 : wadd (protect (protect a)) structSize = a + 16 := by
    rw [protect_protect, structSize_eq]; exact wadd_eq (by omega)
  have e2 : load64 (store64 m p (load64 m a)) (a + 8) = sz := by
    rw [load64_store64_ne (by omega), ls]
  have e0 : wsub sz w = sz - w := wsub_eq hw (by omega)
  have e3 : sz - w > minBlock := by
    rw [minBlock_eq]; omega
  have e4 : wsub f w = f - w := wsub_eq (by omega) hfW
  have e5 : wadd a w = a + w := wadd_eq (by omega)
  have e6 : load64 (store64 (store64 (store64 m p (load64 m a)) (a + w + 8) (sz - w)) (a + 8) w) p
      = load64 m a := by
    rw [load64_store64_ne (by omega), load64_store64_ne (by omega),
      load64_store64_same (load64_lt _ _)]
  have e7 : load64 (store64 (store64 (store64 (store64 (store64 m p (load64 m a)) (a + w + 8) (sz - w))
    (a + 8) w) (a + w) (load64 m a)) p (protect (a + w))) (a + 8) = w := by
    rw [load64_store64_ne (by omega), load64_store64_ne (by omega),
      load64_store64_same (by omega)]
  have e8 := or_allocBit (a := w) (by omega)
  simp only [Heap.take, Heap.split, offNext_add, offSize_add, ld_mk ap, ld_mk aa, ld_mk aa8, st_mk ap,
    st_mk aa8, st_mk an, st_mk an8, Res.ok_bind, lp, e1, e2, e0, if_pos e3, e4, e5, e6, e7, e8]
  by_cases hm : f - w < me
  · simp only [if_pos hm, st_mk aa, st_mk aa8, Res.ok_bind, Nat.min_eq_right (Nat.le_of_lt hm)]
    rfl
  · simp only [if_neg hm, st_mk aa, st_mk aa8, Res.ok_bind, Nat.min_eq_left (Nat.le_of_not_lt hm)]
    rfl

theorem take_spec {h : Heap} {s w : Nat} {pre post : List Blk} {b : Blk}
    (r : Rep h s (pre ++ b :: post)) (hf : b.free = true) (hw : 16 ≤ w) (hw8 : w % 8 = 0)
    (hle : w ≤ b.size) :
    ∃ h', h.take (last h.startAddr pre) b.addr w = .ok (h', b.addr + 16) ∧
      Rep h' s (pre ++ cut b w ++ post) ∧ AllocEff h h' (taken b w) ∧
      OnlyFree h (pre ++ b :: post) h'.mem := by
  obtain ⟨g, t, l, ss, en, es, na, fe⟩ := r
  obtain ⟨p1, p2, p3, p4, p5, p6⟩ := prev_facts g t
  obtain ⟨g1, g2, g3, g4, g5, g6, g7, g8, g9, g10, g11, g12⟩ := id g
  obtain ⟨mid, t1, t2⟩ := tiles_append.mp t
  obtain ⟨e1, e2, e3, e4⟩ := t2
  have hmid := tiles_le t1
  have hhi := tiles_le e4
  have hm8 := tiles_mod8 t1
  obtain ⟨l1, l2⟩ := linked_append.mp l
  simp only [Linked, hf, if_true] at l2
  obtain ⟨l3, l4, l5⟩ := l2
  have hfs : b.size ≤ h.freeBytes := by
    rw [fe]; exact mem_freeSum (by simp) hf
  have hfs2 := freeSum_le t
  rw [← fe] at hfs2
  obtain ⟨p7, p8⟩ : accessible h.size h.base h.startAddr b.addr = true ∧
      accessible h.size h.base h.startAddr (b.addr + 8) = true :=
    ⟨g.acc_buf (by omega) (by omega) (by omega), g.acc_buf (by omega) (by omega) (by omega)⟩
  have hpre := tiles_mem t1
  have hpost := tiles_mem e4
  have hmemb : b ∈ pre ++ b :: post := by simp
  by_cases hws : b.size - w > 32
  · have an := g.acc_buf (a := b.addr + w) (by omega) (by omega) (by omega)
    have an8 := g.acc_buf (a := b.addr + w + 8) (by omega) (by omega) (by omega)
    have htk := @take_split h.size h.base h.startAddr h.pxEnd h.freeBytes h.minEver h.nAlloc h.nFree
      h.callbackCalls h.mem h.callback (last h.startAddr pre) b.addr b.size w p2 p7 p8 an an8
      (by omega) l3 l4 (by omega) hle hws hw (by omega) hfs (by omega)
    have hcut : cut b w = [⟨b.addr, w, false⟩, ⟨b.addr + w, b.size - w, true⟩] := by
      unfold cut; rw [if_pos hws]
    have htaken : taken b w = w := by unfold taken; rw [if_pos hws]
    refine ⟨_, htk, ?_, ?_, ?_⟩
    · have hR : ∀ q, (q + 8 ≤ b.addr ∨ b.addr + 16 ≤ q) → (q + 8 ≤ b.addr + w ∨ b.addr + w + 16 ≤ q) →
          (q + 8 ≤ last h.startAddr pre ∨ last h.startAddr pre + 8 ≤ q) →
          load64 (splitMem h.mem (last h.startAddr pre) b.addr b.size w) q = load64 h.mem q := by
        intro q hq1 hq2 hq3
        unfold splitMem
        rw [load64_store64_ne (by omega), load64_store64_ne (by omega), load64_store64_ne (by omega),
          load64_store64_ne (by omega), load64_store64_ne (by omega), load64_store64_ne (by omega),
          load64_store64_ne (by omega)]
      constructor
      · exact g.of_eq rfl rfl rfl rfl
      · rw [hcut]
        show Tiles s (pre ++ _ ++ post) h.pxEnd
        rw [List.append_assoc, tiles_append]
        refine ⟨mid, t1, e1, by simpa using hw, by simpa using hw8, ?_⟩
        refine ⟨by simp; omega, by simp; omega, by simp; omega, ?_⟩
        simp only
        rw [show mid + w + (b.size - w) = mid + b.size by omega]
        exact e4
      · rw [hcut]
        show Linked (splitMem h.mem (last h.startAddr pre) b.addr b.size w) h.startAddr (pre ++ _ ++ post) h.pxEnd
        rw [List.append_assoc, linked_append]
        refine ⟨?_, ?_⟩
        · refine seg_frame l1 t1 (by omega) ?_ ?_
          · intro hne
            exact hR _ (by omega) (by omega) (by omega)
          · intro c hc
            have h1 := hpre c hc
            have h2 := p5 c hc
            exact ⟨fun hne => hR _ (by omega) (by omega) (by omega), hR _ (by omega) (by omega) (by omega)⟩
        · simp only [List.cons_append, List.nil_append, Linked, Bool.false_eq_true, if_false, if_true]
          refine ⟨?_, ?_, ?_, ?_, ?_⟩
          · unfold splitMem
            rw [load64_store64_same (protect_lt (by unfold W; omega))]
          · unfold splitMem
            rw [load64_store64_ne (by omega), load64_store64_same (by unfold W; omega)]
          · unfold splitMem
            rw [load64_store64_ne (by omega), load64_store64_ne (by omega),
              load64_store64_same (protect_lt (by omega))]
          · unfold splitMem
            rw [load64_store64_ne (by omega), load64_store64_ne (by omega), load64_store64_ne (by omega),
              load64_store64_ne (by omega), load64_store64_ne (by omega),
              load64_store64_same (by omega)]
          · refine linked_repoint l5 ?_ ?_
            · unfold splitMem
              rw [load64_store64_ne (by omega), load64_store64_ne (by omega), load64_store64_ne (by omega),
                load64_store64_same (load64_lt _ _)]
            · intro c hc
              have h1 := hpost c hc
              exact ⟨hR _ (by omega) (by omega) (by omega), hR _ (by omega) (by omega) (by omega)⟩
      · show load64 (splitMem h.mem _ _ _ _) (h.startAddr + 8) = 0
        rw [hR _ (by omega) (by omega) (by omega), ss]
      · show load64 (splitMem h.mem _ _ _ _) h.pxEnd = protect 0
        rw [hR _ (by omega) (by omega) (by omega), en]
      · show load64 (splitMem h.mem _ _ _ _) (h.pxEnd + 8) = 0
        rw [hR _ (by omega) (by omega) (by omega), es]
      · exact noAdj_cut hf na
      · show h.freeBytes - w = _
        rw [hcut, fe]
        simp only [freeSum_append, freeSum, hf, if_true, Bool.false_eq_true, if_false]
        omega
    · rw [htaken]; constructor <;> rfl
    · intro x hx1 hx2
      have hxb := hx2 b hmemb hf
      have hxp : x < last h.startAddr pre ∨ last h.startAddr pre + 8 ≤ x := by
        rcases last_eq_or h.startAddr pre with e | ⟨c, hc, hcf, e⟩
        · omega
        · have h1 := hx2 c (by simp [hc]) hcf
          have h2 := hpre c hc
          omega
      show splitMem h.mem _ _ _ _ x = _
      unfold splitMem
      rw [store64_other (by omega), store64_other (by omega), store64_other (by omega), store64_other (by omega),
        store64_other (by omega), store64_other (by omega), store64_other (by omega)]
  · have htk := @take_whole h.size h.base h.startAddr h.pxEnd h.freeBytes h.minEver h.nAlloc h.nFree
      h.callbackCalls h.mem h.callback (last h.startAddr pre) b.addr b.size w p2 p7 p8
      (by omega) l3 l4 (by omega) hle (by omega) (by omega) (by omega) hfs (by omega)
    have hcut : cut b w = [⟨b.addr, b.size, false⟩] := by
      unfold cut; rw [if_neg hws]
    have htaken : taken b w = b.size := by unfold taken; rw [if_neg hws]
    refine ⟨_, htk, ?_, ?_, ?_⟩
    · have hR : ∀ q, (q + 8 ≤ b.addr ∨ b.addr + 16 ≤ q) →
          (q + 8 ≤ last h.startAddr pre ∨ last h.startAddr pre + 8 ≤ q) →
          load64 (wholeMem h.mem (last h.startAddr pre) b.addr b.size) q = load64 h.mem q := by
        intro q hq1 hq3
        unfold wholeMem
        rw [load64_store64_ne (by omega), load64_store64_ne (by omega), load64_store64_ne (by omega)]
      constructor
      · exact g.of_eq rfl rfl rfl rfl
      · rw [hcut]
        show Tiles s (pre ++ _ ++ post) h.pxEnd
        rw [List.append_assoc, tiles_append]
        exact ⟨mid, t1, e1, e2, e3, e4⟩
      · rw [hcut]
        show Linked (wholeMem h.mem (last h.startAddr pre) b.addr b.size) h.startAddr (pre ++ _ ++ post) h.pxEnd
        rw [List.append_assoc, linked_append]
        refine ⟨?_, ?_⟩
        · refine seg_frame l1 t1 (by omega) ?_ ?_
          · intro hne
            exact hR _ (by omega) (by omega)
          · intro c hc
            have h1 := hpre c hc
            have h2 := p5 c hc
            exact ⟨fun hne => hR _ (by omega) (by omega), hR _ (by omega) (by omega)⟩
        · simp only [List.cons_append, List.nil_append, Linked, Bool.false_eq_true, if_false]
          refine ⟨?_, ?_, ?_⟩
          · unfold wholeMem
            rw [load64_store64_same (protect_lt (by unfold W; omega))]
          · unfold wholeMem
            rw [load64_store64_ne (by omega), load64_store64_same (by unfold W; omega)]
          · refine linked_repoint l5 ?_ ?_
            · unfold wholeMem
              rw [load64_store64_ne (by omega), load64_store64_ne (by omega),
                load64_store64_same (load64_lt _ _)]
            · intro c hc
              have h1 := hpost c hc
              exact ⟨hR _ (by omega) (by omega), hR _ (by omega) (by omega)⟩
      · show load64 (wholeMem h.mem _ _ _) (h.startAddr + 8) = 0
        rw [hR _ (by omega) (by omega), ss]
      · show load64 (wholeMem h.mem _ _ _) h.pxEnd = protect 0
        rw [hR _ (by omega) (by omega), en]
      · show load64 (wholeMem h.mem _ _ _) (h.pxEnd + 8) = 0
        rw [hR _ (by omega) (by omega), es]
      · exact noAdj_cut hf na
      · show h.freeBytes - b.size = _
        rw [hcut, fe]
        simp only [freeSum_append, freeSum, hf, if_true, Bool.false_eq_true, if_false]
        omega
    · rw [htaken]; constructor <;> rfl
    · intro x hx1 hx2
      have hxb := hx2 b hmemb hf
      have hxp : x < last h.startAddr pre ∨ last h.startAddr pre + 8 ≤ x := by
        rcases last_eq_or h.startAddr pre with e | ⟨c, hc, hcf, e⟩
        · omega
        · have h1 := hx2 c (by simp [hc]) hcf
          have h2 := hpre c hc
          omega
      show wholeMem h.mem _ _ _ x = _
      unfold wholeMem
      rw [store64_other (by omega), store64_other (by omega), store64_other (by omega)]

end Verif.Heap
