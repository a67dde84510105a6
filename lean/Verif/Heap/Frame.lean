import Verif.Heap.Sim

/-! Which bytes an operation may change, and other per-step facts (proof machinery). -/
namespace Verif.Heap

theorem fire_mem (h : Heap) (p : Nat) : (h.fireCallback p).mem = h.mem := (fire_same h p).2.2.2.2.1

theorem afterAlloc_mem {w : World} {h' : Heap} {p n : Nat} {z : Option Byte} :
    (w.afterAlloc h' p n z).heap.mem = h'.mem := by rw [afterAlloc_heap]

/-- A free block is inside the buffer and away from `x_start_`. -/
theorem blk_in {size base st : Nat} {w : World} {bs : List Blk} (i : WInv size base st w bs) {c : Blk} (hc : c ∈ bs) :
    base ≤ c.addr ∧ c.addr + c.size + 16 ≤ base + size ∧ 16 ≤ c.size := by
  have := tiles_mem i.rep.tiles c hc
  obtain ⟨g1, g2, g3, g4, g5, g6, g7, g8, g9, g10, g11, g12⟩ := i.rep.geo
  rw [i.size_eq] at *
  rw [i.base_eq] at *
  omega

/-- Bytes outside the heap object are never touched. -/
theorem step_outside {size base st : Nat} {w : World} {bs : List Blk} {op : Op} {w' : World} {p : Nat}
    (i : WInv size base st w bs) (hl : Legal w op) (hs : w.step op = .ok (w', p)) :
    ∀ x, (x < base ∨ base + size ≤ x) → (x < st ∨ st + 16 ≤ x) → w'.heap.mem x = w.heap.mem x := by
  intro x hx1 hx2
  have hx2' : x < w.heap.startAddr ∨ w.heap.startAddr + 16 ≤ x := by rw [i.st_eq]; exact hx2
  cases op with
  | alloc n =>
    rcases inv_alloc i (n := n) hl with ⟨pre, b, post, h', e, h1, h2, h3, h4, h5, h6, h7, h8, h9⟩ | ⟨h1, h2, h3⟩
    · rw [step_alloc h5] at hs
      have hs := Res.ok.inj hs
      simp only [Prod.mk.injEq] at hs
      rw [← hs.1, afterAlloc_mem]
      refine h8 x hx2' ?_
      intro c hc hcf
      have := blk_in i hc
      omega
    · rw [step_alloc h2] at hs
      have hs := Res.ok.inj hs
      simp only [Prod.mk.injEq] at hs
      rw [← hs.1, afterAlloc_mem, fire_mem]
  | calloc k n =>
    rcases inv_calloc i (k := k) (n := n) with
      ⟨pre, b, post, h', e, h1, h1', h2, h3, h4, h5, _, h6, h7, h8, h9⟩ | ⟨ho, h1, h2, h3⟩ | ⟨ho, h2, h3⟩
    · rw [step_calloc h5] at hs
      have hs := Res.ok.inj hs
      simp only [Prod.mk.injEq] at hs
      rw [← hs.1, afterAlloc_mem]
      have hb := blk_in i (c := b) (by rw [e]; simp)
      have := need_facts (k * n)
      show (if _ then _ else _) = _
      rw [if_neg (by omega)]
      refine h8 x hx2' ?_
      intro c hc hcf
      have := blk_in i hc
      omega
    · rw [step_calloc h2] at hs
      have hs := Res.ok.inj hs
      simp only [Prod.mk.injEq] at hs
      rw [← hs.1, afterAlloc_mem, fire_mem]
    · rw [step_calloc h2] at hs
      have hs := Res.ok.inj hs
      simp only [Prod.mk.injEq] at hs
      rw [← hs.1, afterAlloc_mem]
  | free q =>
    by_cases h0 : q = 0
    · subst h0
      rw [step_free (dealloc_null _)] at hs
      have hs := Res.ok.inj hs
      simp only [Prod.mk.injEq] at hs
      rw [← hs.1]
    · rcases hl with hl | ⟨l, hl, rfl⟩
      · exact absurd hl h0
      · obtain ⟨pre, post, h', e, h2, h3, h4, h5, h6⟩ := inv_free i hl
        rw [step_free h2] at hs
        have hs := Res.ok.inj hs
        simp only [Prod.mk.injEq] at hs
        rw [← hs.1]
        have hb := blk_in i (c := l.blk) (by rw [e]; simp)
        refine h5 x hx2' (by omega) ?_
        intro c hc hcf
        have := blk_in h6 hc
        omega
  | write a v =>
    obtain ⟨l, hl, h1, h2⟩ := hl
    have hs := Res.ok.inj hs
    simp only [Prod.mk.injEq] at hs
    rw [← hs.1]
    have hb := blk_in i (i.live_blk hl).1
    have := i.lives l hl
    simp only [Live.blk] at hb
    show (if _ then _ else _) = _
    rw [if_neg (by omega)]
  | resetMin =>
    have hs := Res.ok.inj hs
    simp only [Prod.mk.injEq] at hs
    rw [← hs.1]; rfl
  | onFail b =>
    have hs := Res.ok.inj hs
    simp only [Prod.mk.injEq] at hs
    rw [← hs.1]; rfl

/-- A byte of a live block is away from every free block and the object's `x_start_`. -/
theorem live_away {size base st : Nat} {w : World} {bs : List Blk} (i : WInv size base st w bs) {l : Live}
    (hl : l ∈ w.live) {a : Nat} (h1 : l.ptr ≤ a) (h2 : a < l.ptr + l.len) :
    (a < w.heap.startAddr ∨ w.heap.startAddr + 16 ≤ a) ∧
    ∀ c ∈ bs, c.free = true → a < c.addr ∨ c.addr + c.size ≤ a := by
  obtain ⟨hlb, hlf⟩ := i.live_blk hl
  have hll := i.lives l hl
  have hlm := tiles_mem i.rep.tiles _ hlb
  constructor
  · obtain ⟨g1, g2, g3, g4, g5, g6, g7, g8, g9, g10, g11, g12⟩ := i.rep.geo
    simp only [Live.blk] at hlm
    omega
  · intro c hc hcf
    rcases tiles_disj i.rep.tiles _ hlb c hc with he | he | he
    · rw [← he, hlf] at hcf; exact absurd hcf (by simp)
    · simp only [Live.blk] at he; omega
    · simp only [Live.blk] at he; omega

/-- Calls other than the client's own writes leave the bytes of live blocks alone. -/
theorem step_live {size base st : Nat} {w : World} {bs : List Blk} {op : Op} {w' : World} {p : Nat}
    (i : WInv size base st w bs) (hl : Legal w op) (hw : ∀ a v, op ≠ .write a v) (hs : w.step op = .ok (w', p)) :
    ∀ l ∈ w.live, l ∈ w'.live → ∀ a, l.ptr ≤ a → a < l.ptr + l.len → w'.heap.mem a = w.heap.mem a := by
  intro l hlive hlive' a ha1 ha2
  obtain ⟨v1, v2⟩ := live_away i hlive ha1 ha2
  cases op with
  | alloc n =>
    rcases inv_alloc i (n := n) hl with ⟨pre, b, post, h', e, h1, h2, h3, h4, h5, h6, h7, h8, h9⟩ | ⟨h1, h2, h3⟩
    · rw [step_alloc h5] at hs
      have hs := Res.ok.inj hs
      simp only [Prod.mk.injEq] at hs
      rw [← hs.1, afterAlloc_mem]
      exact h8 a v1 v2
    · rw [step_alloc h2] at hs
      have hs := Res.ok.inj hs
      simp only [Prod.mk.injEq] at hs
      rw [← hs.1, afterAlloc_mem, fire_mem]
  | calloc k n =>
    rcases inv_calloc i (k := k) (n := n) with
      ⟨pre, b, post, h', e, h1, h1', h2, h3, h4, h5, _, h6, h7, h8, h9⟩ | ⟨ho, h1, h2, h3⟩ | ⟨ho, h2, h3⟩
    · rw [step_calloc h5] at hs
      have hs := Res.ok.inj hs
      simp only [Prod.mk.injEq] at hs
      rw [← hs.1, afterAlloc_mem]
      have hb := v2 b (by rw [e]; simp) h2
      have := need_facts (k * n)
      show (if _ then _ else _) = _
      rw [if_neg (by omega)]
      exact h8 a v1 v2
    · rw [step_calloc h2] at hs
      have hs := Res.ok.inj hs
      simp only [Prod.mk.injEq] at hs
      rw [← hs.1, afterAlloc_mem, fire_mem]
    · rw [step_calloc h2] at hs
      have hs := Res.ok.inj hs
      simp only [Prod.mk.injEq] at hs
      rw [← hs.1, afterAlloc_mem]
  | free q =>
    by_cases h0 : q = 0
    · subst h0
      rw [step_free (dealloc_null _)] at hs
      have hs := Res.ok.inj hs
      simp only [Prod.mk.injEq] at hs
      rw [← hs.1]
    · rcases hl with hl | ⟨k, hl, rfl⟩
      · exact absurd hl h0
      · obtain ⟨pre, post, h', e, h2, h3, h4, h5, h6⟩ := inv_free i hl
        rw [step_free h2] at hs
        have hs := Res.ok.inj hs
        simp only [Prod.mk.injEq] at hs
        rw [← hs.1] at hlive' ⊢
        have hne : l.ptr ≠ k.ptr := by
          have := (List.mem_filter.mp hlive').2
          simpa using this
        refine h5 a v1 ?_ ?_
        · obtain ⟨hlb, hlf⟩ := i.live_blk hlive
          obtain ⟨hkb, hkf⟩ := i.live_blk hl
          have hll := i.lives l hlive
          have hkk := i.lives k hl
          rcases tiles_disj i.rep.tiles _ hlb _ hkb with he | he | he
          · have : l.blk.addr = k.blk.addr := by rw [he]
            simp only [Live.blk] at this; omega
          · simp only [Live.blk] at he ⊢; omega
          · simp only [Live.blk] at he ⊢; omega
        · intro c hc hcf
          have hv := (live_away h6 hlive' ha1 ha2).2 c hc hcf
          have := blk_in h6 hc
          omega
  | write a v => exact absurd rfl (hw a v)
  | resetMin =>
    have hs := Res.ok.inj hs
    simp only [Prod.mk.injEq] at hs
    rw [← hs.1]; rfl
  | onFail b =>
    have hs := Res.ok.inj hs
    simp only [Prod.mk.injEq] at hs
    rw [← hs.1]; rfl

theorem tiles_pairwise {bs : List Blk} : ∀ {lo hi : Nat}, Tiles lo bs hi →
    bs.Pairwise (fun b c => b.addr + b.size ≤ c.addr ∨ c.addr + c.size ≤ b.addr) := by
  induction bs with
  | nil => intro lo hi _; exact .nil
  | cons b bs ih =>
    intro lo hi h
    refine List.pairwise_cons.mpr ⟨?_, ih h.2.2.2⟩
    intro c hc
    have := tiles_mem h.2.2.2 c hc
    have := h.1
    left; omega

theorem live_pairwise {size base st : Nat} {w : World} {bs : List Blk} (i : WInv size base st w bs) :
    w.live.Pairwise (fun l k => l.stop ≤ k.start ∨ k.stop ≤ l.start) := by
  have h1 : (used bs).Pairwise (fun b c => b.addr + b.size ≤ c.addr ∨ c.addr + c.size ≤ b.addr) := by
    unfold used; exact (tiles_pairwise i.rep.tiles).filter _
  have h2 := (i.perm.pairwise_iff (fun {a b} h => h.symm)).mpr h1
  exact List.pairwise_map.mp h2

/-- Sum of the costs of the live blocks. -/
theorem live_sum {size base st : Nat} {w : World} {bs : List Blk} (i : WInv size base st w bs) :
    (w.live.map Live.cost).sum = sizes (used bs) := by
  have h1 : ((w.live.map Live.blk).map Blk.size).sum = ((used bs).map Blk.size).sum := (i.perm.map _).sum_nat
  rw [List.map_map] at h1
  exact h1

end Verif.Heap
