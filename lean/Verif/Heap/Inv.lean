import Verif.Heap.MemLemmas

/-!
The representation invariant of the heap: memory describes a list of blocks that tile the usable
area.  Everything in this file is proof machinery; no property statement uses it.
-/
namespace Verif.Heap

/-- A block of the heap: header address, size including the header, and whether it is free. -/
structure Blk where
  addr : Nat
  size : Nat
  free : Bool
  deriving Repr, DecidableEq

/-- The blocks `bs` tile `[lo, hi)` in address order. -/
def Tiles : Nat → List Blk → Nat → Prop
  | lo, [], hi => lo = hi
  | lo, b :: bs, hi => b.addr = lo ∧ 16 ≤ b.size ∧ b.size % 8 = 0 ∧ Tiles (lo + b.size) bs hi

/-- Address of the last free block, or `p` when there is none. -/
def last : Nat → List Blk → Nat
  | p, [] => p
  | p, b :: bs => if b.free then last b.addr bs else last p bs

/-- Headers of `bs` are right, reached from the pointer at `p`; the pointer that leaves the
segment is not constrained. -/
def Seg (m : Mem) : Nat → List Blk → Prop
  | _, [] => True
  | p, b :: bs =>
    if b.free then
      load64 m p = protect b.addr ∧ load64 m (b.addr + 8) = b.size ∧ Seg m b.addr bs
    else
      load64 m b.addr = protect 0 ∧ load64 m (b.addr + 8) = b.size + 2 ^ 63 ∧ Seg m p bs

/-- As `Seg`, and the pointer leaving the segment is `t`. -/
def Linked (m : Mem) : Nat → List Blk → Nat → Prop
  | p, [], t => load64 m p = protect t
  | p, b :: bs, t =>
    if b.free then
      load64 m p = protect b.addr ∧ load64 m (b.addr + 8) = b.size ∧ Linked m b.addr bs t
    else
      load64 m b.addr = protect 0 ∧ load64 m (b.addr + 8) = b.size + 2 ^ 63 ∧ Linked m p bs t

/-- No two neighbouring blocks are both free. -/
def NoAdj : List Blk → Prop
  | [] => True
  | b :: bs => (b.free = true → ∀ c ∈ bs.head?, c.free = false) ∧ NoAdj bs

/-- Total size of the free blocks. -/
def freeSum : List Blk → Nat
  | [] => 0
  | b :: bs => (if b.free then b.size else 0) + freeSum bs

theorem tiles_append {xs ys : List Blk} : ∀ {lo hi : Nat},
    Tiles lo (xs ++ ys) hi ↔ ∃ mid, Tiles lo xs mid ∧ Tiles mid ys hi := by
  induction xs with
  | nil => intro lo hi; simp [Tiles]
  | cons x xs ih =>
    intro lo hi
    simp only [List.cons_append, Tiles, ih]
    constructor
    · rintro ⟨h1, h2, h3, mid, h4, h5⟩; exact ⟨mid, ⟨h1, h2, h3, h4⟩, h5⟩
    · rintro ⟨mid, ⟨h1, h2, h3, h4⟩, h5⟩; exact ⟨h1, h2, h3, mid, h4, h5⟩

theorem tiles_le {bs : List Blk} : ∀ {lo hi : Nat}, Tiles lo bs hi → lo ≤ hi := by
  induction bs with
  | nil => intro lo hi h; simp only [Tiles] at h; omega
  | cons b bs ih => intro lo hi h; have := ih h.2.2.2; omega

theorem tiles_mem {bs : List Blk} : ∀ {lo hi : Nat}, Tiles lo bs hi → ∀ b ∈ bs,
    lo ≤ b.addr ∧ b.addr + b.size ≤ hi ∧ 16 ≤ b.size ∧ b.size % 8 = 0 ∧ b.addr % 8 = lo % 8 := by
  induction bs with
  | nil => intro lo hi h b hb; simp at hb
  | cons c bs ih =>
    intro lo hi h b hb
    obtain ⟨h1, h2, h3, h4⟩ := h
    have hle := tiles_le h4
    rcases List.mem_cons.mp hb with rfl | hb
    · omega
    · have := ih h4 b hb; omega

theorem tiles_length {bs : List Blk} : ∀ {lo hi : Nat}, Tiles lo bs hi → lo + 16 * bs.length ≤ hi := by
  induction bs with
  | nil => intro lo hi h; simp only [Tiles] at h; simp; omega
  | cons b bs ih =>
    intro lo hi h
    obtain ⟨h1, h2, h3, h4⟩ := h
    have := ih h4
    simp only [List.length_cons]; omega

theorem tiles_mod8 {bs : List Blk} : ∀ {lo hi : Nat}, Tiles lo bs hi → lo % 8 = hi % 8 := by
  induction bs with
  | nil => intro lo hi h; simp only [Tiles] at h; omega
  | cons b bs ih => intro lo hi h; have := ih h.2.2.2; have := h.2.2.1; omega

theorem last_append (p : Nat) (xs ys : List Blk) : last p (xs ++ ys) = last (last p xs) ys := by
  induction xs generalizing p with
  | nil => rfl
  | cons x xs ih => simp only [List.cons_append, last]; split <;> exact ih _

theorem last_eq_or (p : Nat) (bs : List Blk) :
    last p bs = p ∨ ∃ b ∈ bs, b.free = true ∧ last p bs = b.addr := by
  induction bs generalizing p with
  | nil => left; rfl
  | cons b bs ih =>
    simp only [last]
    split
    · rename_i hf
      rcases ih b.addr with h | ⟨c, hc, hcf, h⟩
      · right; exact ⟨b, by simp, hf, h⟩
      · right; exact ⟨c, by simp [hc], hcf, h⟩
    · rcases ih p with h | ⟨c, hc, hcf, h⟩
      · left; exact h
      · right; exact ⟨c, by simp [hc], hcf, h⟩

theorem seg_append {m : Mem} {xs ys : List Blk} : ∀ {p : Nat},
    Seg m p (xs ++ ys) ↔ Seg m p xs ∧ Seg m (last p xs) ys := by
  induction xs with
  | nil => intro p; simp [Seg, last]
  | cons x xs ih =>
    intro p
    simp only [List.cons_append, Seg, last]
    by_cases hf : x.free = true
    · simp only [hf, if_true, ih, and_assoc]
    · simp only [hf, Bool.false_eq_true, if_false, ih, and_assoc]

theorem linked_append {m : Mem} {xs ys : List Blk} {t : Nat} : ∀ {p : Nat},
    Linked m p (xs ++ ys) t ↔ Seg m p xs ∧ Linked m (last p xs) ys t := by
  induction xs with
  | nil => intro p; simp [Seg, last]
  | cons x xs ih =>
    intro p
    simp only [List.cons_append, Seg, last, Linked]
    by_cases hf : x.free = true
    · simp only [hf, if_true, ih, and_assoc]
    · simp only [hf, Bool.false_eq_true, if_false, ih, and_assoc]

/-- Moving the entry pointer of a linked segment to another location. -/
theorem linked_repoint {m m' : Mem} {bs : List Blk} {t : Nat} : ∀ {p q : Nat},
    Linked m p bs t → load64 m' q = load64 m p →
    (∀ b ∈ bs, load64 m' b.addr = load64 m b.addr ∧ load64 m' (b.addr + 8) = load64 m (b.addr + 8)) →
    Linked m' q bs t := by
  induction bs with
  | nil => intro p q h hq _; simp only [Linked] at *; rw [hq, h]
  | cons b bs ih =>
    intro p q h hq hb
    have hb0 := hb b (by simp)
    have hb' : ∀ c ∈ bs, _ := fun c hc => hb c (by simp [hc])
    simp only [Linked] at *
    split
    · rename_i hf
      simp only [hf, if_true] at h
      exact ⟨by rw [hq, h.1], by rw [hb0.2, h.2.1], ih h.2.2 hb0.1 hb'⟩
    · rename_i hf
      simp only [hf] at h
      exact ⟨by rw [hb0.1, h.1], by rw [hb0.2, h.2.1], ih h.2.2 hq hb'⟩

/-- Frame rule for segments: nothing read by the segment changed; the outgoing pointer may. -/
theorem seg_frame {m m' : Mem} {bs : List Blk} : ∀ {p lo hi : Nat},
    Seg m p bs → Tiles lo bs hi → (p < lo ∨ hi ≤ p) →
    (p ≠ last p bs → load64 m' p = load64 m p) →
    (∀ b ∈ bs, (b.addr ≠ last p bs → load64 m' b.addr = load64 m b.addr) ∧
      load64 m' (b.addr + 8) = load64 m (b.addr + 8)) →
    Seg m' p bs := by
  induction bs with
  | nil => intro p lo hi _ _ _ _ _; trivial
  | cons b bs ih =>
    intro p lo hi h ht hp hq hb
    have hb0 := hb b (by simp)
    obtain ⟨ha, h16, h8, ht'⟩ := ht
    have hle := tiles_le ht'
    simp only [Seg, last] at *
    split
    · rename_i hf
      simp only [hf, if_true] at *
      have hne : p ≠ last b.addr bs := by
        rcases last_eq_or b.addr bs with e | ⟨c, hc, _, e⟩
        · omega
        · have := tiles_mem ht' c hc; omega
      refine ⟨by rw [hq hne, h.1], by rw [hb0.2, h.2.1], ?_⟩
      refine ih h.2.2 ht' (by omega) (fun hn => hb0.1 hn) ?_
      intro c hc; exact hb c (by simp [hc])
    · rename_i hf
      simp only [hf] at *
      have hne : b.addr ≠ last p bs := by
        rcases last_eq_or p bs with e | ⟨c, hc, _, e⟩
        · omega
        · have := tiles_mem ht' c hc; omega
      refine ⟨by rw [hb0.1 hne, h.1], by rw [hb0.2, h.2.1], ?_⟩
      exact ih h.2.2 ht' (by omega) hq (fun c hc => hb c (by simp [hc]))

theorem freeSum_append (xs ys : List Blk) : freeSum (xs ++ ys) = freeSum xs + freeSum ys := by
  induction xs with
  | nil => simp [freeSum]
  | cons x xs ih => simp only [List.cons_append, freeSum, ih]; omega

theorem freeSum_le {bs : List Blk} : ∀ {lo hi : Nat}, Tiles lo bs hi → lo + freeSum bs ≤ hi := by
  induction bs with
  | nil => intro lo hi h; simp only [Tiles] at h; simp [freeSum]; omega
  | cons b bs ih =>
    intro lo hi h
    have := ih h.2.2.2
    simp only [freeSum]
    split <;> omega

theorem mem_freeSum {bs : List Blk} {b : Blk} (hb : b ∈ bs) (hf : b.free = true) :
    b.size ≤ freeSum bs := by
  induction bs with
  | nil => simp at hb
  | cons c bs ih =>
    simp only [freeSum]
    rcases List.mem_cons.mp hb with rfl | hb
    · simp [hf]
    · have := ih hb; omega

/-- Geometry of the object: where the buffer and `x_start_` are, and that everything fits in the
address space.  `s` and `h.pxEnd` delimit the usable area. -/
structure Geo (h : Heap) (s : Nat) : Prop where
  base_pos : 0 < h.base
  base_s : h.base ≤ s
  s_end : s ≤ h.pxEnd
  end_lim : h.pxEnd + 16 ≤ h.base + h.size
  lim : h.base + h.size < W
  size_lt : h.size < 2 ^ 63
  s8 : s % 8 = 0
  e8 : h.pxEnd % 8 = 0
  st8 : h.startAddr % 8 = 0
  st_pos : 0 < h.startAddr
  st_lim : h.startAddr + 16 ≤ W
  disj : h.startAddr + 16 ≤ h.base ∨ h.base + h.size ≤ h.startAddr

/-- The representation invariant. -/
structure Rep (h : Heap) (s : Nat) (bs : List Blk) : Prop where
  geo : Geo h s
  tiles : Tiles s bs h.pxEnd
  linked : Linked h.mem h.startAddr bs h.pxEnd
  start_size : load64 h.mem (h.startAddr + 8) = 0
  end_next : load64 h.mem h.pxEnd = protect 0
  end_size : load64 h.mem (h.pxEnd + 8) = 0
  noAdj : NoAdj bs
  free_eq : h.freeBytes = freeSum bs

theorem Geo.acc_buf {h : Heap} {s a : Nat} (_g : Geo h s) (h1 : h.base ≤ a) (h2 : a + 8 ≤ h.base + h.size)
    (h3 : a % 8 = 0) : accessible h.size h.base h.startAddr a = true := by
  unfold accessible; simp [h1, h2, h3]

theorem Geo.acc_start {h : Heap} {s : Nat} (g : Geo h s) :
    accessible h.size h.base h.startAddr h.startAddr = true := by
  have := g.st8
  unfold accessible sizeofLink; simp [this]

theorem Geo.acc_start8 {h : Heap} {s : Nat} (g : Geo h s) :
    accessible h.size h.base h.startAddr (h.startAddr + 8) = true := by
  have := g.st8
  unfold accessible sizeofLink; simp; omega

end Verif.Heap
