import Verif.Heap.WInv

/-! Every legal operation succeeds and preserves the invariant (proof machinery). -/
namespace Verif.Heap

theorem W_eq : W = 2 ^ 64 := rfl

theorem fire_same (h : Heap) (p : Nat) : (h.fireCallback p).size = h.size ∧ (h.fireCallback p).base = h.base ∧
    (h.fireCallback p).startAddr = h.startAddr ∧ (h.fireCallback p).pxEnd = h.pxEnd ∧
    (h.fireCallback p).mem = h.mem ∧ (h.fireCallback p).freeBytes = h.freeBytes ∧
    (h.fireCallback p).minEver = h.minEver ∧ (h.fireCallback p).nAlloc = h.nAlloc ∧
    (h.fireCallback p).nFree = h.nFree ∧ (h.fireCallback p).callback = h.callback := by
  unfold Heap.fireCallback
  split <;> simp

theorem inv_alloc {size base st : Nat} {w : World} {bs : List Blk} {n : Nat} (i : WInv size base st w bs)
    (hn : n < W) :
    (∃ pre b post h', bs = pre ++ b :: post ∧ 0 < n ∧ b.free = true ∧ need n ≤ b.size ∧
      (∀ c ∈ pre, c.free = true → c.size < need n) ∧
      w.heap.allocate n = .ok (h', b.addr + 16) ∧ Rep h' (areaLo base) (pre ++ cut b (need n) ++ post) ∧
      AllocEff w.heap h' (taken b (need n)) ∧ OnlyFree w.heap bs h'.mem ∧
      WInv size base st (w.afterAlloc h' (b.addr + 16) n none) (pre ++ cut b (need n) ++ post)) ∨
    ((n = 0 ∨ ∀ c ∈ bs, c.free = true → c.size < need n) ∧
      w.heap.allocate n = .ok (w.heap.fireCallback 0, 0) ∧
      ∀ z m, WInv size base st (w.afterAlloc (w.heap.fireCallback 0) 0 m z) bs) := by
  rcases allocate_spec i.rep hn with ⟨pre, b, post, rfl, h1, h2, h3, h4, h', h5, h6, h7, h8⟩ | ⟨h1, h2⟩
  · left
    refine ⟨pre, b, post, h', rfl, h1, h2, h3, h4, h5, h6, h7, h8, ?_⟩
    exact i.alloc (m'' := h'.mem) h2 h1 h3 h6 h7 h8 (fun _ _ => rfl) (fun _ _ _ _ h => by simp at h)
  · right
    refine ⟨h1, h2, fun z m => ?_⟩
    obtain ⟨e1, e2, e3, e4, e5, e6, e7, _⟩ := fire_same w.heap 0
    exact i.fail e1 e2 e3 e4 e5 e6 e7

theorem mulWillOverflow_eq {k n : Nat} : mulWillOverflow k n = decide (W ≤ k * n) := by
  unfold mulWillOverflow
  rw [sizeMax_eq]
  by_cases hk : k > 0
  · simp only [hk, decide_true, Bool.true_and]
    rw [decide_eq_decide]
    rw [gt_iff_lt, Nat.div_lt_iff_lt_mul hk, Nat.mul_comm n k]
    have : 0 < W := by unfold W; omega
    omega
  · have : k = 0 := by omega
    subst this
    simp [W]

theorem inv_calloc {size base st : Nat} {w : World} {bs : List Blk} {k n : Nat} (i : WInv size base st w bs) :
    (∃ pre b post h', bs = pre ++ b :: post ∧ 0 < k * n ∧ k * n < W ∧ b.free = true ∧ need (k * n) ≤ b.size ∧
      (∀ c ∈ pre, c.free = true → c.size < need (k * n)) ∧
      w.heap.callocate k n = .ok ({ h' with mem := fun x =>
        if b.addr + 16 ≤ x ∧ x < b.addr + 16 + k * n then 0 else h'.mem x }, b.addr + 16) ∧
      w.heap.allocate (k * n) = .ok (h', b.addr + 16) ∧
      Rep h' (areaLo base) (pre ++ cut b (need (k * n)) ++ post) ∧
      AllocEff w.heap h' (taken b (need (k * n))) ∧ OnlyFree w.heap bs h'.mem ∧
      WInv size base st (w.afterAlloc { h' with mem := fun x =>
        if b.addr + 16 ≤ x ∧ x < b.addr + 16 + k * n then 0 else h'.mem x } (b.addr + 16) (k * n) (some 0))
        (pre ++ cut b (need (k * n)) ++ post)) ∨
    (k * n < W ∧ (k * n = 0 ∨ ∀ c ∈ bs, c.free = true → c.size < need (k * n)) ∧
      w.heap.callocate k n = .ok (w.heap.fireCallback 0, 0) ∧
      WInv size base st (w.afterAlloc (w.heap.fireCallback 0) 0 (k * n) (some 0)) bs) ∨
    (W ≤ k * n ∧ w.heap.callocate k n = .ok (w.heap, 0) ∧
      WInv size base st (w.afterAlloc w.heap 0 (k * n) (some 0)) bs) := by
  by_cases hov : W ≤ k * n
  · right; right
    refine ⟨hov, ?_, i.fail rfl rfl rfl rfl rfl rfl rfl⟩
    unfold Heap.callocate
    rw [if_neg (by rw [mulWillOverflow_eq]; simpa using hov)]
  · have hlt : k * n < W := by omega
    have hw : wmul k n = k * n := Nat.mod_eq_of_lt hlt
    have hc : mulWillOverflow k n = false := by rw [mulWillOverflow_eq]; simpa using hlt
    rcases inv_alloc i hlt with ⟨pre, b, post, h', rfl, h1, h2, h3, h4, h5, h6, h7, h8, h9⟩ | ⟨h1, h2, h3⟩
    · left
      have hb := tiles_mem i.rep.tiles b (by simp)
      have htk := taken_facts h3 hb.2.2.2.1
      obtain ⟨g1, g2, g3, g4, g5, g6, g7, g8, g9, g10, g11, g12⟩ := i.rep.geo
      refine ⟨pre, b, post, h', rfl, h1, hlt, h2, h3, h4, ?_, h5, h6, h7, h8, ?_⟩
      · unfold Heap.callocate
        rw [if_pos hc, hw, h5]
        simp only [Res.ok_bind]
        rw [if_pos (by omega)]
        unfold Heap.memset0
        rw [if_pos]
        · rfl
        · rw [h7.base, h7.size]; omega
      · refine i.alloc h2 h1 h3 h6 h7 h8 ?_ ?_
        · intro x hx
          rw [if_neg (by omega)]
        · intro x v hx1 hx2 hv
          rw [if_pos ⟨hx1, hx2⟩]
          exact Option.some.inj hv
    · right; left
      refine ⟨hlt, h1, ?_, h3 _ _⟩
      unfold Heap.callocate
      rw [if_pos hc, hw, h2]
      simp only [Res.ok_bind]
      rw [if_neg (by simp)]

theorem inv_free {size base st : Nat} {w : World} {bs : List Blk} {l : Live} (i : WInv size base st w bs)
    (hl : l ∈ w.live) :
    ∃ pre post h', bs = pre ++ l.blk :: post ∧ w.heap.deallocate l.ptr = .ok h' ∧
      Rep h' (areaLo base) (release pre l.blk post) ∧ FreeEff w.heap h' l.cost ∧
      OnlyHdr w.heap (release pre l.blk post) l.blk h'.mem ∧
      WInv size base st
        { heap := h', live := w.live.filter (fun k => k.ptr ≠ l.ptr),
          frees := h'.freeHeapSize :: w.frees,
          freed := if l.ptr = 0 then w.freed else l.ptr :: w.freed, wrote := w.wrote }
        (release pre l.blk post) := by
  obtain ⟨hb, hbf⟩ := i.live_blk hl
  obtain ⟨pre, post, rfl⟩ := List.append_of_mem hb
  obtain ⟨h', h1, h2, h3, h4, h5⟩ := dealloc_spec i.rep hbf
  have hp : l.blk.addr + 16 = l.ptr := by
    have := i.lives l hl
    show l.ptr - 16 + 16 = l.ptr
    omega
  rw [hp] at h1
  exact ⟨pre, post, h', rfl, h1, h2, h3, h4, i.dealloc hl rfl h2 h3 h4 h5⟩

theorem dealloc_null (h : Heap) : h.deallocate 0 = .ok h := by
  unfold Heap.deallocate; rw [if_neg (by simp)]

theorem inv_null {size base st : Nat} {w : World} {bs : List Blk} (i : WInv size base st w bs) :
    WInv size base st
        { heap := w.heap, live := w.live.filter (fun k => k.ptr ≠ 0),
          frees := w.heap.freeHeapSize :: w.frees,
          freed := if (0 : Nat) = 0 then w.freed else 0 :: w.freed, wrote := w.wrote } bs := by
  have hlive : w.live.filter (fun k => k.ptr ≠ 0) = w.live := by
    refine List.filter_eq_self.mpr ?_
    intro k hk
    have := i.lives k hk
    simp; omega
  rw [hlive, if_pos rfl]
  have := WInv.fail (n := 0) (z := none) i rfl rfl rfl rfl rfl rfl rfl
  unfold World.afterAlloc at this
  rw [if_pos rfl] at this
  exact this

theorem inv_write {size base st : Nat} {w : World} {bs : List Blk} {l : Live} {a : Nat} {v : Byte}
    (i : WInv size base st w bs) (hl : l ∈ w.live) (h1 : l.ptr ≤ a) (h2 : a < l.ptr + l.len) :
    WInv size base st
      { w with heap := { w.heap with mem := fun x => if x = a then v else w.heap.mem x },
               wrote := fun x => if x = a then some v else w.wrote x } bs := by
  obtain ⟨hb, hbf⟩ := i.live_blk hl
  have hll := i.lives l hl
  have hbm := tiles_mem i.rep.tiles _ hb
  constructor
  · refine i.rep.payload hb ?_
    intro x hx
    simp only [Live.blk] at hx
    rw [if_neg (by omega)]
  · exact i.size_eq
  · exact i.base_eq
  · exact i.st_eq
  · exact i.end_eq
  · exact i.perm
  · exact i.lives
  · exact i.frees_head
  · exact i.min_mem
  · exact i.min_le
  · intro k hk x hx1 hx2 u hu
    simp only at hu ⊢
    by_cases hxa : x = a
    · rw [if_pos hxa] at hu ⊢; exact Option.some.inj hu
    · rw [if_neg hxa] at hu ⊢; exact i.wrote k hk x hx1 hx2 u hu
  · intro p hp
    obtain ⟨s1, s2, ⟨c, hc, hcf, hc1, hc2⟩, s4, s5⟩ := i.stale p hp
    refine ⟨s1, s2, ⟨c, hc, hcf, hc1, hc2⟩, s4, ?_⟩
    rw [load64_congr (m := w.heap.mem)]
    · exact s5
    · intro x hx1 hx2
      simp only
      rw [if_neg]
      rcases tiles_disj i.rep.tiles _ hb c hc with he | he | he
      · rw [← he, hbf] at hcf; exact absurd hcf (by simp)
      · simp only [Live.blk] at he; omega
      · simp only [Live.blk] at he; omega

theorem inv_reset {size base st : Nat} {w : World} {bs : List Blk} (i : WInv size base st w bs) :
    WInv size base st { w with heap := w.heap.resetMinimumEver, frees := [w.heap.freeBytes] } bs := by
  constructor
  · exact i.rep.congr rfl rfl rfl rfl rfl rfl
  · exact i.size_eq
  · exact i.base_eq
  · exact i.st_eq
  · exact i.end_eq
  · exact i.perm
  · exact i.lives
  · rfl
  · show w.heap.freeBytes ∈ [w.heap.freeBytes]
    simp
  · intro f hf
    show w.heap.freeBytes ≤ f
    simp at hf; omega
  · exact i.wrote
  · intro p hp
    obtain ⟨s1, s2, s3, s4, s5⟩ := i.stale p hp
    exact ⟨s1, s2, s3, s4, s5⟩

theorem inv_onFail {size base st : Nat} {w : World} {bs : List Blk} {b : Bool} (i : WInv size base st w bs) :
    WInv size base st { w with heap := w.heap.onFail b } bs := by
  constructor
  · exact i.rep.congr rfl rfl rfl rfl rfl rfl
  · exact i.size_eq
  · exact i.base_eq
  · exact i.st_eq
  · exact i.end_eq
  · exact i.perm
  · exact i.lives
  · exact i.frees_head
  · exact i.min_mem
  · exact i.min_le
  · exact i.wrote
  · intro p hp
    obtain ⟨s1, s2, s3, s4, s5⟩ := i.stale p hp
    exact ⟨s1, s2, s3, s4, s5⟩

theorem step_alloc {w : World} {n p : Nat} {h' : Heap} (h : w.heap.allocate n = .ok (h', p)) :
    w.step (.alloc n) = .ok (w.afterAlloc h' p n none, p) := by
  simp only [World.step, h, Res.ok_bind]

theorem step_calloc {w : World} {k n p : Nat} {h' : Heap} (h : w.heap.callocate k n = .ok (h', p)) :
    w.step (.calloc k n) = .ok (w.afterAlloc h' p (k * n) (some 0), p) := by
  simp only [World.step, h, Res.ok_bind]

theorem step_free {w : World} {p : Nat} {h' : Heap} (h : w.heap.deallocate p = .ok h') :
    w.step (.free p) = .ok (
         { heap := h', live := w.live.filter (fun l => l.ptr ≠ p),
           frees := h'.freeHeapSize :: w.frees,
           freed := if p = 0 then w.freed else p :: w.freed, wrote := w.wrote }, 0) := by
  simp only [World.step, h, Res.ok_bind]

theorem inv_step {size base st : Nat} {w : World} {bs : List Blk} {op : Op} (i : WInv size base st w bs)
    (hl : Legal w op) : ∃ w' p bs', w.step op = .ok (w', p) ∧ WInv size base st w' bs' := by
  cases op with
  | alloc n =>
    rcases inv_alloc i (n := n) hl with ⟨pre, b, post, h', rfl, h1, h2, h3, h4, h5, h6, h7, h8, h9⟩ | ⟨h1, h2, h3⟩
    · exact ⟨_, _, _, step_alloc h5, h9⟩
    · exact ⟨_, _, _, step_alloc h2, h3 _ _⟩
  | calloc k n =>
    rcases inv_calloc i (k := k) (n := n) with
      ⟨pre, b, post, h', rfl, h1, h1', h2, h3, h4, h5, _, h6, h7, h8, h9⟩ | ⟨_, h1, h2, h3⟩ | ⟨_, h1, h3⟩
    · exact ⟨_, _, _, step_calloc h5, h9⟩
    · exact ⟨_, _, _, step_calloc h2, h3⟩
    · exact ⟨_, _, _, step_calloc h1, h3⟩
  | free p =>
    by_cases h0 : p = 0
    · subst h0
      exact ⟨_, _, bs, step_free (dealloc_null _), inv_null i⟩
    · rcases hl with hl | ⟨l, hl, rfl⟩
      · exact absurd hl h0
      · obtain ⟨pre, post, h', _, h2, _, _, _, h3⟩ := inv_free i hl
        exact ⟨_, _, _, step_free h2, h3⟩
  | write a v =>
    obtain ⟨l, hl, h1, h2⟩ := hl
    exact ⟨_, _, _, rfl, inv_write i hl h1 h2⟩
  | resetMin => exact ⟨_, _, _, rfl, inv_reset i⟩
  | onFail b => exact ⟨_, _, _, rfl, inv_onFail i⟩

theorem construct_layout {size base st : Nat} {m : Mem} (hl : Layout size base st) (hr : Roomy size base) :
    ∃ hp, Heap.construct size base st m = .ok hp ∧
      Rep hp (areaLo base) [⟨areaLo base, areaHi size base - areaLo base, true⟩] ∧
      hp.size = size ∧ hp.base = base ∧ hp.startAddr = st ∧ hp.pxEnd = areaHi size base ∧
      hp.freeBytes = areaHi size base - areaLo base ∧ hp.minEver = hp.freeBytes ∧
      hp.nAlloc = 0 ∧ hp.nFree = 0 ∧ hp.callback = false ∧ hp.callbackCalls = 0 :=
  construct_rep hl.base_pos hl.fits hl.size_lt hr hl.start_aligned hl.start_pos hl.start_fits hl.disjoint

theorem inv_start {size base st : Nat} {m : Mem} {h : Heap} (hl : Layout size base st) (hr : Roomy size base)
    (hc : Heap.construct size base st m = .ok h) :
    WInv size base st (.start h) [⟨areaLo base, areaHi size base - areaLo base, true⟩] := by
  obtain ⟨hp, h1, h2, h3, h4, h5, h6, h7, h8, _⟩ := construct_layout (m := m) hl hr
  rw [hc] at h1
  have h1 := Res.ok.inj h1
  subst h1
  constructor
  · exact h2
  · exact h3
  · exact h4
  · exact h5
  · exact h6
  · exact List.Perm.refl _
  · intro l hl; simp [World.start] at hl
  · rfl
  · show h.minEver ∈ [h.freeHeapSize]
    rw [h8]; simp [Heap.freeHeapSize]
  · intro f hf
    show h.minEver ≤ f
    simp [World.start, Heap.freeHeapSize] at hf
    omega
  · intro l hl; simp [World.start] at hl
  · intro p hp; simp [World.start] at hp

theorem reach_inv {size base st : Nat} {w : World} (hl : Layout size base st) (hr : Roomy size base)
    (h : Reach size base st w) : ∃ bs, WInv size base st w bs := by
  induction h with
  | init hc => exact ⟨_, inv_start hl hr hc⟩
  | step _ hleg hs ih =>
    obtain ⟨bs, i⟩ := ih
    obtain ⟨w1, p1, bs', h1, h2⟩ := inv_step i hleg
    rw [hs] at h1
    have h1 := Res.ok.inj h1
    simp only [Prod.mk.injEq] at h1
    rw [h1.1]
    exact ⟨bs', h2⟩

end Verif.Heap
