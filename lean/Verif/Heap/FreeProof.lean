import Verif.Heap.AllocSpec

/-! `deallocate` refines freeing with coalescing on the block list (proof machinery). -/
namespace Verif.Heap

/-- Merge with a free block right after. -/
def absorb (sz : Nat) : List Blk → Nat × List Blk
  | d :: ds => if d.free then (sz + d.size, ds) else (sz, d :: ds)
  | [] => (sz, [])

section eqs
variable {size base st0 e f me nal nfr cc : Nat} {m : Mem} {cb : Bool}

theorem mergeAfter_merge {it ins sz d dsz : Nat}
    (ai : accessible size base st0 it = true) (an : accessible size base st0 ins = true)
    (an8 : accessible size base st0 (ins + 8) = true) (ad : accessible size base st0 d = true)
    (ad8 : accessible size base st0 (d + 8) = true)
    (hd : it = ins ∨ it + 8 ≤ ins + 8 ∨ ins + 16 ≤ it)
    (ls : load64 m (ins + 8) = sz) (li : load64 m it = protect d) (hds : load64 m (d + 8) = dsz)
    (hw : ins + sz = d) (hne : d ≠ e) (hlim : d + dsz < W) (h16 : 16 ≤ sz) :
    (Heap.mk size base st0 m e f me nal nfr cb cc).mergeAfter it ins = .ok
      (Heap.mk size base st0 (store64 (store64 m (ins + 8) (sz + dsz)) ins (load64 m d))
        e f me nal nfr cb cc) := by
  have e1 : wadd ins sz = d := by rw [wadd_eq (by omega), hw]
  have e2 : load64 (store64 m (ins + 8) (sz + dsz)) it = protect d := by
    rw [load64_store64_ne (by omega), li]
  have e3 : load64 (store64 m (ins + 8) (sz + dsz)) d = load64 m d := by
    rw [load64_store64_ne (by omega)]
  have e4 : wadd sz dsz = sz + dsz := wadd_eq (by omega)
  simp only [Heap.mergeAfter, offNext_add, offSize_add, ld_mk ai, ld_mk an8, ld_mk ad, ld_mk ad8, st_mk an,
    st_mk an8, Res.ok_bind, ls, li, protect_protect, if_pos e1, ne_eq, hne, not_false_eq_true, if_true,
    hds, e2, e3, e4]

theorem mergeAfter_link {it ins sz nx : Nat}
    (ai : accessible size base st0 it = true) (an : accessible size base st0 ins = true)
    (an8 : accessible size base st0 (ins + 8) = true)
    (ls : load64 m (ins + 8) = sz) (li : load64 m it = protect nx)
    (hw : ins + sz = nx → nx = e) (hlim : ins + sz < W) :
    (Heap.mk size base st0 m e f me nal nfr cb cc).mergeAfter it ins = .ok
      (Heap.mk size base st0 (store64 m ins (protect nx)) e f me nal nfr cb cc) := by
  simp only [Heap.mergeAfter, offNext_add, offSize_add, ld_mk ai, ld_mk an8, Res.ok_bind, ls, li,
    protect_protect, wadd_eq hlim]
  by_cases hc : ins + sz = nx
  · rw [if_pos hc, if_neg (by simp [hw hc]), st_mk an, hw hc]
  · rw [if_neg hc, st_mk an]

theorem mergeBefore_merge {it blk isz bsz : Nat}
    (ai8 : accessible size base st0 (it + 8) = true) (ab8 : accessible size base st0 (blk + 8) = true)
    (li : load64 m (it + 8) = isz) (lb : load64 m (blk + 8) = bsz) (hw : it + isz = blk)
    (hlim : blk + bsz < W) :
    (Heap.mk size base st0 m e f me nal nfr cb cc).mergeBefore it blk = .ok
      (Heap.mk size base st0 (store64 m (it + 8) (isz + bsz)) e f me nal nfr cb cc, it) := by
  simp only [Heap.mergeBefore, offSize_add, ld_mk ai8, ld_mk ab8, Res.ok_bind, li, lb,
    wadd_eq (show it + isz < W by omega), wadd_eq (show isz + bsz < W by omega), if_pos hw, st_mk ai8]

theorem mergeBefore_not {it blk isz : Nat}
    (ai8 : accessible size base st0 (it + 8) = true)
    (li : load64 m (it + 8) = isz) (hw : wadd it isz ≠ blk) :
    (Heap.mk size base st0 m e f me nal nfr cb cc).mergeBefore it blk = .ok
      (Heap.mk size base st0 m e f me nal nfr cb cc, blk) := by
  simp only [Heap.mergeBefore, offSize_add, ld_mk ai8, Res.ok_bind, li, if_neg hw]

end eqs

theorem findPos_next {h : Heap} {blk fuel it nx : Nat} (h1 : h.ld it = .ok nx) (h2 : protect nx < blk) :
    h.findPos blk (fuel + 1) it = h.findPos blk fuel (protect nx) := by
  rw [Heap.findPos]
  simp only [offNext_add, h1, Res.ok_bind, if_pos h2]

theorem findPos_stop {h : Heap} {blk fuel it nx : Nat} (h1 : h.ld it = .ok nx) (h2 : ¬ protect nx < blk) :
    h.findPos blk (fuel + 1) it = .ok it := by
  rw [Heap.findPos]
  simp only [offNext_add, h1, Res.ok_bind, if_neg h2]

/-- The search for the insertion position ends at the last free block before `blk`. -/
theorem findPos_spec {h : Heap} {s blk nx : Nat} (g : Geo h s) (hnx : blk ≤ nx) :
    ∀ (pre : List Blk) (p lo fuel : Nat), Seg h.mem p pre → Tiles lo pre blk → s ≤ lo → lo % 8 = 0 → blk ≤ h.pxEnd →
      accessible h.size h.base h.startAddr p = true →
      load64 h.mem (last p pre) = protect nx → pre.length < fuel →
      h.findPos blk fuel p = .ok (last p pre) := by
  obtain ⟨g1, g2, g3, g4, g5, g6, g7, g8, g9, g10, g11, g12⟩ := id g
  intro pre
  induction pre with
  | nil =>
    intro p lo fuel hs ht hlo hlo8 hbe ha hl hf
    obtain ⟨fuel, rfl⟩ : ∃ k, fuel = k + 1 := ⟨fuel - 1, by simp at hf; omega⟩
    refine findPos_stop (ld_ok ha) ?_
    simp only [last] at hl
    rw [hl, protect_protect]; omega
  | cons b bs ih =>
    intro p lo fuel hs ht hlo hlo8 hbe ha hl hf
    simp only [List.length_cons] at hf
    obtain ⟨t1, t2, t3, t4⟩ := id ht
    have hle := tiles_le t4
    simp only [Seg] at hs
    by_cases hfree : b.free = true
    · simp only [hfree, if_true] at hs
      simp only [last, hfree, if_true] at hl ⊢
      obtain ⟨fuel, rfl⟩ : ∃ k, fuel = k + 1 := ⟨fuel - 1, by omega⟩
      rw [findPos_next (ld_ok ha) (by rw [hs.1, protect_protect]; omega), hs.1, protect_protect]
      have : accessible h.size h.base h.startAddr b.addr = true :=
        g.acc_buf (by omega) (by omega) (by omega)
      exact ih b.addr _ fuel hs.2.2 t4 (by omega) (by omega) hbe this hl (by omega)
    · simp only [hfree, Bool.false_eq_true, if_false] at hs
      simp only [last, hfree, Bool.false_eq_true, if_false] at hl ⊢
      exact ih p _ fuel hs.2.2 t4 (by omega) (by omega) hbe ha hl (by omega)

theorem after_spec {h : Heap} {s it ins sz : Nat} {post : List Blk} (g : Geo h s)
    (ai : accessible h.size h.base h.startAddr it = true) (hs : s ≤ ins) (h8 : ins % 8 = 0)
    (h16 : 16 ≤ sz) (hd : it = ins ∨ it + 16 ≤ ins ∨ ins + 16 ≤ it)
    (ls : load64 h.mem (ins + 8) = sz)
    (l : Linked h.mem it post h.pxEnd) (t : Tiles (ins + sz) post h.pxEnd) :
    ∃ m2, h.mergeAfter it ins = .ok { h with mem := m2 } ∧
      load64 m2 (ins + 8) = (absorb sz post).1 ∧ Linked m2 ins (absorb sz post).2 h.pxEnd ∧
      Tiles (ins + (absorb sz post).1) (absorb sz post).2 h.pxEnd ∧
      (∀ x, x < ins ∨ ins + 16 ≤ x → m2 x = h.mem x) := by
  obtain ⟨g1, g2, g3, g4, g5, g6, g7, g8, g9, g10, g11, g12⟩ := id g
  have hle := tiles_le t
  have an := g.acc_buf (a := ins) (by omega) (by omega) (by omega)
  have an8 := g.acc_buf (a := ins + 8) (by omega) (by omega) (by omega)
  have hm := tiles_mem t
  by_cases hc : ∃ d ds, post = d :: ds ∧ d.free = true
  · obtain ⟨d, ds, rfl, hdf⟩ := hc
    obtain ⟨t1, t2, t3, t4⟩ := t
    have hle' := tiles_le t4
    have h8' := (tiles_mod8 t4)
    simp only [Linked, hdf, if_true] at l
    obtain ⟨l1, l2, l3⟩ := l
    have ad := g.acc_buf (a := d.addr) (by omega) (by omega) (by omega)
    have ad8 := g.acc_buf (a := d.addr + 8) (by omega) (by omega) (by omega)
    have hab : absorb sz (d :: ds) = (sz + d.size, ds) := by simp only [absorb, hdf, if_true]
    rw [hab]
    refine ⟨_, @mergeAfter_merge h.size h.base h.startAddr h.pxEnd h.freeBytes h.minEver h.nAlloc h.nFree
      h.callbackCalls h.mem h.callback it ins sz d.addr d.size ai an an8 ad ad8 (by omega) ls l1 l2
      (by omega) (by omega) (by omega) h16, ?_, ?_, ?_, ?_⟩
    · rw [load64_store64_ne (by omega), load64_store64_same (by omega)]
    · refine linked_repoint l3 ?_ ?_
      · rw [load64_store64_same (load64_lt _ _)]
      · intro c hcm
        have := tiles_mem t4 c hcm
        constructor <;> rw [load64_store64_ne (by omega), load64_store64_ne (by omega)]
    · simp only
      rw [← Nat.add_assoc]; exact t4
    · intro x hx
      rw [store64_other (by omega), store64_other (by omega)]
  · have hab : absorb sz post = (sz, post) := by
      unfold absorb
      split
      · rename_i d ds
        rw [if_neg]
        intro hdf
        exact hc ⟨d, ds, rfl, hdf⟩
      · rfl
    rw [hab]
    obtain ⟨nx, n1, n2, n3, n4⟩ := linked_head l t (by omega)
    have hw : ins + sz = nx → nx = h.pxEnd := by
      intro hnx
      cases post with
      | nil => simp only [Tiles] at t; omega
      | cons d ds =>
        exfalso
        have hdf : d.free = false := by
          cases hdf : d.free
          · rfl
          · exact absurd ⟨d, ds, rfl, hdf⟩ hc
        obtain ⟨t1, t2, t3, t4⟩ := t
        simp only [Linked, hdf, Bool.false_eq_true, if_false] at l
        obtain ⟨nx', m1, m2, m3, m4⟩ := linked_head l.2.2 t4 (by omega)
        have := protect_inj.mp (n4.symm.trans m4)
        omega
    refine ⟨_, @mergeAfter_link h.size h.base h.startAddr h.pxEnd h.freeBytes h.minEver h.nAlloc h.nFree
      h.callbackCalls h.mem h.callback it ins sz nx ai an an8 ls n4 hw (by omega), ?_, ?_, t, ?_⟩
    · rw [load64_store64_ne (by omega), ls]
    · refine linked_repoint l ?_ ?_
      · rw [load64_store64_same (protect_lt (by omega)), n4]
      · intro c hcm
        have := tiles_mem t c hcm
        constructor <;> rw [load64_store64_ne (by omega)]
    · intro x hx
      rw [store64_other (by omega)]

theorem seg_size {m : Mem} {bs : List Blk} : ∀ {p : Nat}, Seg m p bs → ∀ c ∈ bs, c.free = true →
    load64 m (c.addr + 8) = c.size := by
  induction bs with
  | nil => intro p _ c hc; simp at hc
  | cons b bs ih =>
    intro p h c hc hf
    simp only [Seg] at h
    split at h
    · rcases List.mem_cons.mp hc with rfl | hc
      · exact h.2.1
      · exact ih h.2.2 c hc hf
    · rename_i hnf
      rcases List.mem_cons.mp hc with rfl | hc
      · exact absurd hf hnf
      · exact ih h.2.2 c hc hf

/-- The block list after freeing `b`: merge with free neighbours. -/
def release (pre : List Blk) (b : Blk) (post : List Blk) : List Blk :=
  match pre.getLast? with
  | some c =>
    if c.free then
      pre.dropLast ++ ⟨c.addr, (absorb (c.size + b.size) post).1, true⟩ :: (absorb (c.size + b.size) post).2
    else pre ++ ⟨b.addr, (absorb b.size post).1, true⟩ :: (absorb b.size post).2
  | none => ⟨b.addr, (absorb b.size post).1, true⟩ :: (absorb b.size post).2

theorem release_concat {pre : List Blk} {c b : Blk} {post : List Blk} (hc : c.free = true) :
    release (pre ++ [c]) b post =
      pre ++ ⟨c.addr, (absorb (c.size + b.size) post).1, true⟩ :: (absorb (c.size + b.size) post).2 := by
  unfold release
  simp [hc]

theorem release_not {pre : List Blk} {b : Blk} {post : List Blk}
    (hc : ∀ pre' c, pre = pre' ++ [c] → c.free = false) :
    release pre b post = pre ++ ⟨b.addr, (absorb b.size post).1, true⟩ :: (absorb b.size post).2 := by
  unfold release
  rcases List.eq_nil_or_concat pre with rfl | ⟨pre', c, rfl⟩
  · simp
  · have := hc pre' c (by simp)
    simp [this]

theorem absorb_freeSum (sz : Nat) (post : List Blk) :
    (absorb sz post).1 + freeSum (absorb sz post).2 = sz + freeSum post := by
  unfold absorb
  split
  · rename_i d ds
    split
    · rename_i h; simp only [freeSum, h, if_true]; omega
    · rfl
  · rfl

theorem noAdj_absorb {sz a : Nat} {post : List Blk} (h : NoAdj post) :
    NoAdj (⟨a, (absorb sz post).1, true⟩ :: (absorb sz post).2) := by
  unfold absorb
  split
  · rename_i d ds
    split
    · rename_i hd
      simp only [NoAdj] at h ⊢
      exact ⟨fun _ => h.1 hd, h.2⟩
    · rename_i hd
      simp only [NoAdj] at h ⊢
      refine ⟨fun _ => ?_, h⟩
      intro c hc
      simp only [List.head?_cons, Option.mem_def, Option.some.injEq] at hc
      subst hc
      simpa using hd
  · simp [NoAdj]

theorem freeSum_release (pre : List Blk) (b : Blk) (post : List Blk) :
    freeSum (release pre b post) = freeSum pre + b.size + freeSum post := by
  rcases List.eq_nil_or_concat pre with rfl | ⟨pre', c, hp⟩
  · rw [release_not (by intro p c h; simp at h)]
    have := absorb_freeSum b.size post
    simp only [List.nil_append, freeSum, if_true]; omega
  · by_cases hc : c.free = true
    · subst hp
      have := absorb_freeSum (c.size + b.size) post
      rw [List.concat_eq_append, release_concat hc]
      simp only [freeSum_append, freeSum, hc, if_true]; omega
    · have := absorb_freeSum b.size post
      rw [release_not]
      · simp only [freeSum_append, freeSum, if_true]; omega
      · intro p' c' h
        rw [hp, List.concat_eq_append] at h
        have := List.append_inj' h rfl
        have := this.2
        simp only [List.cons.injEq, and_true] at this
        subst this
        simpa using hc

end Verif.Heap
