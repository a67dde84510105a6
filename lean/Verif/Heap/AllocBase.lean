import Verif.Heap.Inv

/-! `allocate` refines first fit on the block list (proof machinery). -/
namespace Verif.Heap

/-- Resolve loads after stores; addresses are compared with `omega`. -/
macro "mload" : tactic => `(tactic|
  repeat' first
    | rw [load64_store64_same (by assumption)]
    | rw [load64_store64_ne (by omega)])

/-- What becomes of a free block of which `w` bytes are taken. -/
def cut (b : Blk) (w : Nat) : List Blk :=
  if b.size - w > 32 then [⟨b.addr, w, false⟩, ⟨b.addr + w, b.size - w, true⟩]
  else [⟨b.addr, b.size, false⟩]

/-- Size of the block handed out. -/
def taken (b : Blk) (w : Nat) : Nat := if b.size - w > 32 then w else b.size

theorem linked_head {m : Mem} {bs : List Blk} {t : Nat} : ∀ {p lo : Nat}, Linked m p bs t →
    Tiles lo bs t → 0 < lo → ∃ a, 0 < a ∧ lo ≤ a ∧ a ≤ t ∧ load64 m p = protect a := by
  induction bs with
  | nil =>
    intro p lo h ht h0
    simp only [Tiles] at ht; subst ht
    exact ⟨lo, h0, by omega, by omega, h⟩
  | cons b bs ih =>
    intro p lo h ht h0
    have hle := tiles_le ht.2.2.2
    simp only [Linked] at h
    split at h
    · exact ⟨b.addr, by have := ht.1; omega, by have := ht.1; omega, by have := ht.1; omega, h.1⟩
    · obtain ⟨a, h1, h2, h3, h4⟩ := ih h.2.2 ht.2.2.2 (by omega)
      exact ⟨a, h1, by omega, h3, h4⟩

theorem findFit_next {h : Heap} {w fuel prev blk sz nx : Nat}
    (h1 : h.ld (blk + 8) = .ok sz) (h2 : h.ld blk = .ok nx) (h3 : sz < w) (h4 : nx ≠ protect 0) :
    h.findFit w (fuel + 1) prev blk = h.findFit w fuel blk (protect nx) := by
  rw [Heap.findFit]
  simp only [offSize, offNext, Nat.add_zero, h1, h2, Res.ok_bind, if_pos h3, if_pos h4]

theorem findFit_fit {h : Heap} {w fuel prev blk sz : Nat}
    (h1 : h.ld (blk + 8) = .ok sz) (h3 : w ≤ sz) :
    h.findFit w (fuel + 1) prev blk = .ok (prev, blk) := by
  rw [Heap.findFit]
  simp only [offSize, h1, Res.ok_bind, if_neg (Nat.not_lt.mpr h3)]

theorem findFit_end {h : Heap} {w fuel prev blk sz nx : Nat}
    (h1 : h.ld (blk + 8) = .ok sz) (h2 : h.ld blk = .ok nx) (h3 : sz < w) (h4 : nx = protect 0) :
    h.findFit w (fuel + 1) prev blk = .ok (prev, blk) := by
  rw [Heap.findFit]
  simp only [offSize, offNext, Nat.add_zero, h1, h2, Res.ok_bind, if_pos h3, h4, ne_eq, not_true,
    if_false]

theorem ld_ok {h : Heap} {a : Nat} (ha : accessible h.size h.base h.startAddr a = true) :
    h.ld a = .ok (load64 h.mem a) := by unfold Heap.ld; rw [if_pos ha]

theorem st_ok {h : Heap} {a v : Nat} (ha : accessible h.size h.base h.startAddr a = true) :
    h.st a v = .ok { h with mem := store64 h.mem a v } := by unfold Heap.st; rw [if_pos ha]

theorem findFit_spec {h : Heap} {s w : Nat} (g : Geo h s) (hw : 0 < w)
    (en : load64 h.mem h.pxEnd = protect 0) (es : load64 h.mem (h.pxEnd + 8) = 0) :
    ∀ (bs : List Blk) (p lo fuel : Nat), Linked h.mem p bs h.pxEnd → Tiles lo bs h.pxEnd →
      s ≤ lo → bs.length < fuel →
      (∃ pre b post, bs = pre ++ b :: post ∧ b.free = true ∧ w ≤ b.size ∧
        (∀ c ∈ pre, c.free = true → c.size < w) ∧
        h.findFit w fuel p (protect (load64 h.mem p)) = .ok (last p pre, b.addr)) ∨
      ((∀ c ∈ bs, c.free = true → c.size < w) ∧
        ∃ q, h.findFit w fuel p (protect (load64 h.mem p)) = .ok (q, h.pxEnd)) := by
  obtain ⟨g1, g2, g3, g4, g5, g6, g7, g8, g9, g10, g11, g12⟩ := id g
  intro bs
  induction bs with
  | nil =>
    intro p lo fuel hl ht hlo hf
    right
    refine ⟨by simp, p, ?_⟩
    obtain ⟨fuel, rfl⟩ : ∃ k, fuel = k + 1 := ⟨fuel - 1, by simp at hf; omega⟩
    simp only [Linked] at hl
    rw [hl, protect_protect]
    have a1 := g.acc_buf (a := h.pxEnd + 8) (by omega) (by omega) (by omega)
    have a2 := g.acc_buf (a := h.pxEnd) (by omega) (by omega) (by omega)
    exact findFit_end (ld_ok a1) (ld_ok a2) (by rw [es]; exact hw) en
  | cons b bs ih =>
    intro p lo fuel hl ht hlo hf
    obtain ⟨t1, t2, t3, t4⟩ := ht
    have hle := tiles_le t4
    have hb8 : b.addr % 8 = 0 := by
      have := tiles_mod8 (bs := b :: bs) (lo := lo) (hi := h.pxEnd) ⟨t1, t2, t3, t4⟩
      omega
    simp only [List.length_cons] at hf
    simp only [Linked] at hl
    by_cases hfree : b.free = true
    · simp only [hfree, if_true] at hl
      obtain ⟨l1, l2, l3⟩ := hl
      obtain ⟨fuel, rfl⟩ : ∃ k, fuel = k + 1 := ⟨fuel - 1, by omega⟩
      have a1 := g.acc_buf (a := b.addr + 8) (by omega) (by omega) (by omega)
      have a2 := g.acc_buf (a := b.addr) (by omega) (by omega) (by omega)
      by_cases hfit : w ≤ b.size
      · left
        refine ⟨[], b, bs, rfl, hfree, hfit, by simp, ?_⟩
        rw [l1, protect_protect]
        exact findFit_fit (ld_ok a1) (by rw [l2]; exact hfit)
      · obtain ⟨nxa, n1, n2, n3, n4⟩ := linked_head l3 t4 (by omega)
        have hne : load64 h.mem b.addr ≠ protect 0 := by
          rw [n4]; intro hc; have := protect_inj.mp hc; omega
        have hstep : h.findFit w (fuel + 1) p (protect (load64 h.mem p)) =
            h.findFit w fuel b.addr (protect (load64 h.mem b.addr)) := by
          rw [l1, protect_protect]
          exact findFit_next (ld_ok a1) (ld_ok a2) (by rw [l2]; omega) hne
        rw [hstep]
        rcases ih b.addr (lo + b.size) fuel l3 t4 (by omega) (by omega) with
          ⟨pre, c, post, e1, e2, e3, e4, e5⟩ | ⟨e1, q, e2⟩
        · left
          refine ⟨b :: pre, c, post, by rw [e1]; rfl, e2, e3, ?_, ?_⟩
          · intro d hd hdf
            rcases List.mem_cons.mp hd with rfl | hd
            · omega
            · exact e4 d hd hdf
          · simp only [last, hfree, if_true]; exact e5
        · right
          refine ⟨?_, q, e2⟩
          intro d hd hdf
          rcases List.mem_cons.mp hd with rfl | hd
          · omega
          · exact e1 d hd hdf
    · simp only [hfree, Bool.false_eq_true, if_false] at hl
      rcases ih p (lo + b.size) fuel hl.2.2 t4 (by omega) (by omega) with
        ⟨pre, c, post, e1, e2, e3, e4, e5⟩ | ⟨e1, q, e2⟩
      · left
        refine ⟨b :: pre, c, post, by rw [e1]; rfl, e2, e3, ?_, ?_⟩
        · intro d hd hdf
          rcases List.mem_cons.mp hd with rfl | hd
          · exact absurd hdf hfree
          · exact e4 d hd hdf
        · simp only [last, hfree, Bool.false_eq_true, if_false]; exact e5
      · right
        refine ⟨?_, q, e2⟩
        intro d hd hdf
        rcases List.mem_cons.mp hd with rfl | hd
        · exact absurd hdf hfree
        · exact e1 d hd hdf

/-- Where the pointer to the block `b` of `pre ++ b :: post` is stored. -/
theorem prev_facts {h : Heap} {s : Nat} {pre post : List Blk} {b : Blk}
    (g : Geo h s) (t : Tiles s (pre ++ b :: post) h.pxEnd) :
    (last h.startAddr pre) % 8 = 0 ∧
    accessible h.size h.base h.startAddr (last h.startAddr pre) = true ∧
    accessible h.size h.base h.startAddr (last h.startAddr pre + 8) = true ∧
    (last h.startAddr pre + 16 ≤ b.addr ∨ h.pxEnd + 16 ≤ last h.startAddr pre) ∧
    (∀ c ∈ pre, c.addr = last h.startAddr pre ∨ c.addr + 16 ≤ last h.startAddr pre ∨
      last h.startAddr pre + 16 ≤ c.addr) ∧
    (last h.startAddr pre = h.startAddr ∨ last h.startAddr pre + 16 ≤ h.startAddr ∨
      h.startAddr + 16 ≤ last h.startAddr pre) := by
  obtain ⟨g1, g2, g3, g4, g5, g6, g7, g8, g9, g10, g11, g12⟩ := id g
  obtain ⟨mid, t1, t2⟩ := tiles_append.mp t
  obtain ⟨e1, e2, e3, e4⟩ := t2
  have hle := tiles_le e4
  have hle' := tiles_le t1
  rcases last_eq_or h.startAddr pre with e | ⟨c, hc, hcf, e⟩
  · rw [e]
    refine ⟨g9, g.acc_start, g.acc_start8, by omega, ?_, by omega⟩
    intro c hc
    have := tiles_mem t1 c hc
    omega
  · have hc' := tiles_mem t1 c hc
    rw [e]
    refine ⟨by omega, g.acc_buf (by omega) (by omega) (by omega),
      g.acc_buf (by omega) (by omega) (by omega), by omega, ?_, by omega⟩
    intro d hd
    obtain ⟨xs, ys, rfl⟩ := List.append_of_mem hd
    obtain ⟨m1, u1, u2⟩ := tiles_append.mp t1
    obtain ⟨v1, v2, v3, v4⟩ := u2
    rcases List.mem_append.mp hc with hc1 | hc1
    · have := tiles_mem u1 c hc1; omega
    · rcases List.mem_cons.mp hc1 with rfl | hc1
      · omega
      · have := tiles_mem v4 c hc1; omega

/-- Effect of handing out `n` bytes on the members of the object. -/
structure AllocEff (h h' : Heap) (n : Nat) : Prop where
  size : h'.size = h.size
  base : h'.base = h.base
  startAddr : h'.startAddr = h.startAddr
  pxEnd : h'.pxEnd = h.pxEnd
  freeBytes : h'.freeBytes = h.freeBytes - n
  minEver : h'.minEver = min h.minEver (h.freeBytes - n)
  nAlloc : h'.nAlloc = wadd h.nAlloc 1
  nFree : h'.nFree = h.nFree
  callback : h'.callback = h.callback
  callbackCalls : h'.callbackCalls = h.callbackCalls

/-- Memory is unchanged outside `x_start_` and the free blocks of `bs`. -/
def OnlyFree (h : Heap) (bs : List Blk) (m' : Mem) : Prop :=
  ∀ x, (x < h.startAddr ∨ h.startAddr + 16 ≤ x) →
    (∀ c ∈ bs, c.free = true → x < c.addr ∨ c.addr + c.size ≤ x) → m' x = h.mem x

theorem Geo.of_eq {h h' : Heap} {s : Nat} (g : Geo h s) (e1 : h'.size = h.size) (e2 : h'.base = h.base)
    (e3 : h'.startAddr = h.startAddr) (e4 : h'.pxEnd = h.pxEnd) : Geo h' s := by
  obtain ⟨g1, g2, g3, g4, g5, g6, g7, g8, g9, g10, g11, g12⟩ := g
  constructor <;> simp only [*]

theorem noAdj_append {xs ys : List Blk} : NoAdj (xs ++ ys) ↔
    NoAdj xs ∧ NoAdj ys ∧ (∀ x ∈ xs.getLast?, x.free = true → ∀ y ∈ ys.head?, y.free = false) := by
  induction xs with
  | nil => simp [NoAdj]
  | cons x xs ih =>
    cases xs with
    | nil =>
      simp only [List.cons_append, List.nil_append, NoAdj, List.head?_nil, List.getLast?_singleton]
      simp
      constructor
      · rintro ⟨a, b⟩; exact ⟨b, a⟩
      · rintro ⟨a, b⟩; exact ⟨b, a⟩
    | cons x2 xs =>
      have : (x :: x2 :: xs).getLast? = (x2 :: xs).getLast? := by simp
      rw [this]
      show (_ ∧ NoAdj ((x2 :: xs) ++ ys)) ↔ _
      rw [ih]
      simp only [NoAdj, List.head?_cons]
      constructor
      · rintro ⟨a, ⟨b1, b2⟩, c, d⟩; exact ⟨⟨a, b1, b2⟩, c, d⟩
      · rintro ⟨⟨a, b1, b2⟩, c, d⟩; exact ⟨a, ⟨b1, b2⟩, c, d⟩

theorem noAdj_cut {pre post : List Blk} {b : Blk} {w : Nat} (hf : b.free = true)
    (hn : NoAdj (pre ++ b :: post)) : NoAdj (pre ++ cut b w ++ post) := by
  rw [noAdj_append] at hn
  obtain ⟨h1, h2, h3⟩ := hn
  simp only [NoAdj] at h2
  rw [List.append_assoc, noAdj_append]
  unfold cut
  split
  · refine ⟨h1, ?_, ?_⟩
    · simp only [List.cons_append, List.nil_append, NoAdj]
      refine ⟨by simp, ?_, h2.2⟩
      intro _; exact h2.1 hf
    · intro x hx hxf y hy; simp at hy; subst hy; rfl
  · refine ⟨h1, ?_, ?_⟩
    · simp only [List.cons_append, List.nil_append, NoAdj]
      exact ⟨by simp, h2.2⟩
    · intro x hx hxf y hy; simp at hy; subst hy; rfl


/-! Rewriting programs on explicit heaps. -/

theorem ld_mk {size base st0 e f me nal nfr cc : Nat} {m : Mem} {cb : Bool} {a : Nat} (ha : accessible size base st0 a = true) :
    (Heap.mk size base st0 m e f me nal nfr cb cc).ld a = .ok (load64 m a) := by
  unfold Heap.ld; rw [if_pos ha]
theorem st_mk {size base st0 e f me nal nfr cc : Nat} {m : Mem} {cb : Bool} {a v : Nat} (ha : accessible size base st0 a = true) :
    (Heap.mk size base st0 m e f me nal nfr cb cc).st a v = .ok (Heap.mk size base st0 (store64 m a v) e f me nal nfr cb cc) := by
  unfold Heap.st; rw [if_pos ha]
theorem offNext_add (a : Nat) : a + offNext = a := by unfold offNext; omega
theorem offSize_add (a : Nat) : a + offSize = a + 8 := by unfold offSize; omega


end Verif.Heap
