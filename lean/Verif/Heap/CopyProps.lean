import Verif.Heap.Copy
import Verif.Heap.Frame
import Verif.Heap.Gaps
import Verif.Heap.Props

/-!
Property C159: a heap and its copy.
-/
namespace Verif.Heap.Copy

variable {size base st base2 st2 : Nat} {w : World}

theorem copy_buf {h : Heap} {x : Nat} (a : Away h.size h.base h.startAddr base2 st2) (h1 : h.base ≤ x)
    (h2 : x < h.base + h.size) : copyMem h base2 st2 x = h.mem x := by
  obtain ⟨a1, a2, a3, a4⟩ := a
  unfold copyMem sizeofLink
  rw [if_neg (by omega), if_neg (by omega)]

theorem copy_own {h : Heap} {x : Nat} (a : Away h.size h.base h.startAddr base2 st2) (h1 : h.startAddr ≤ x)
    (h2 : x < h.startAddr + 16) : copyMem h base2 st2 x = h.mem x := by
  obtain ⟨a1, a2, a3, a4⟩ := a
  unfold copyMem sizeofLink
  rw [if_neg (by omega), if_neg (by omega)]

theorem copy_start {h : Heap} {k : Nat} (hk : k = 0 ∨ k = 8) :
    load64 (copyMem h base2 st2) (st2 + k) = load64 h.mem (h.startAddr + k) := by
  have : ∀ j, j < 16 → copyMem h base2 st2 (st2 + j) = h.mem (h.startAddr + j) := by
    intro j hj
    unfold copyMem sizeofLink
    rw [if_pos (by omega), Nat.add_sub_cancel_left]
  unfold load64
  simp only [Nat.add_assoc]
  rcases hk with rfl | rfl
  · rw [this 0 (by omega), this (0 + 1) (by omega), this (0 + 2) (by omega), this (0 + 3) (by omega), this (0 + 4) (by omega),
      this (0 + 5) (by omega), this (0 + 6) (by omega), this (0 + 7) (by omega)]
  · rw [this 8 (by omega), this (8 + 1) (by omega), this (8 + 2) (by omega), this (8 + 3) (by omega), this (8 + 4) (by omega),
      this (8 + 5) (by omega), this (8 + 6) (by omega), this (8 + 7) (by omega)]

theorem linked_used {m : Mem} {bs : List Blk} {t : Nat} : ∀ {p : Nat}, Linked m p bs t → ∀ c ∈ bs,
    c.free = false → load64 m (c.addr + 8) = c.size + 2 ^ 63 ∧ load64 m c.addr = protect 0 := by
  induction bs with
  | nil => intro p _ c hc; simp at hc
  | cons b bs ih =>
    intro p h c hc hf
    simp only [Linked] at h
    split at h
    · rename_i hb
      rcases List.mem_cons.mp hc with rfl | hc
      · rw [hf] at hb; exact absurd hb (by simp)
      · exact ih h.2.2 c hc hf
    · rcases List.mem_cons.mp hc with rfl | hc
      · exact ⟨h.2.1, h.1⟩
      · exact ih h.2.2 c hc hf

/-- The original is what it was. -/
theorem inv_orig {bs : List Blk} (i : WInv size base st w bs) (a : Away size base st base2 st2) :
    WInv size base st { w with heap := (make w.heap base2 st2).orig } bs := by
  have a' : Away w.heap.size w.heap.base w.heap.startAddr base2 st2 := by
    rw [i.size_eq, i.base_eq, i.st_eq]; exact a
  obtain ⟨g1, g2, g3, g4, g5, g6, g7, g8, g9, g10, g11, g12⟩ := i.rep.geo
  refine ⟨i.rep.frame ?_, i.size_eq, i.base_eq, i.st_eq, i.end_eq, i.perm, i.lives, i.frees_head, i.min_mem, i.min_le, ?_, ?_⟩
  · rintro x (hx | hx | ⟨c, hc, hx⟩)
    · exact copy_own a' hx.1 hx.2
    · exact copy_buf a' (by omega) (by omega)
    · have := tiles_mem i.rep.tiles c hc
      exact copy_buf a' (by omega) (by omega)
  · intro l hl x h1 h2 v hv
    have hb := blk_in i (i.live_blk hl).1
    have h3 := i.lives l hl
    simp only [Live.blk] at hb
    show copyMem w.heap base2 st2 x = v
    rw [copy_buf a' (by rw [i.base_eq]; omega) (by rw [i.base_eq, i.size_eq]; omega)]
    exact i.wrote l hl x h1 h2 v hv
  · intro p hp
    obtain ⟨s1, s2, ⟨c, hc, hcf, s3, s4⟩, s5, s6⟩ := i.stale p hp
    refine ⟨s1, s2, ⟨c, hc, hcf, s3, s4⟩, s5, ?_⟩
    have hb := blk_in i hc
    show load64 (copyMem w.heap base2 st2) (p - 8) < 2 ^ 63
    rw [load64_congr (m := w.heap.mem) fun x h1 h2 => copy_buf a' (by rw [i.base_eq]; omega) (by rw [i.base_eq, i.size_eq]; omega)]
    exact s6

/-- The copy describes the same blocks. -/
theorem inv_copy {bs : List Blk} (i : WInv size base st w bs) (hl2 : Layout size base2 st2) (a : Away size base st base2 st2) :
    WInv size base st2 { w with heap := (make w.heap base2 st2).copy } bs := by
  have o := inv_orig i a
  obtain ⟨g1, g2, g3, g4, g5, g6, g7, g8, g9, g10, g11, g12⟩ := i.rep.geo
  have r := o.rep
  have a' : Away w.heap.size w.heap.base w.heap.startAddr base2 st2 := by
    rw [i.size_eq, i.base_eq, i.st_eq]; exact a
  refine ⟨⟨⟨g1, g2, g3, g4, g5, g6, g7, g8, hl2.start_aligned, hl2.start_pos, hl2.start_fits, ?_⟩, r.tiles, ?_, ?_, r.end_next,
    r.end_size, r.noAdj, r.free_eq⟩, i.size_eq, i.base_eq, rfl, i.end_eq, i.perm, i.lives, i.frees_head, i.min_mem, i.min_le,
    o.wrote, fun p hp => ⟨(o.stale p hp).ge, (o.stale p hp).al, (o.stale p hp).inFree, (o.stale p hp).starts, (o.stale p hp).clear⟩⟩
  · have := a'.buf_st
    show st2 + 16 ≤ w.heap.base ∨ w.heap.base + w.heap.size ≤ st2
    omega
  · show Linked (copyMem w.heap base2 st2) st2 bs w.heap.pxEnd
    refine linked_repoint r.linked ?_ (fun _ _ => ⟨rfl, rfl⟩)
    have h1 := copy_start (h := w.heap) (base2 := base2) (st2 := st2) (k := 0) (.inl rfl)
    simp only [Nat.add_zero] at h1
    rw [h1]
    exact (load64_congr fun x h1 h2 => copy_own a' h1 (by omega)).symm
  · show load64 (copyMem w.heap base2 st2) (st2 + 8) = 0
    rw [copy_start (.inr rfl)]
    exact i.rep.start_size

/-- A run touches nothing outside the object. -/
theorem run_outside (ops : List Op) : ∀ {w w' : World} {o : List Out} {bs : List Blk}, WInv size base st w bs → LegalRun w ops →
    w.run ops = .ok (w', o) →
    (∃ bs', WInv size base st w' bs') ∧ ∀ x, (x < base ∨ base + size ≤ x) → (x < st ∨ st + 16 ≤ x) → w'.heap.mem x = w.heap.mem x := by
  induction ops with
  | nil =>
    intro w w' o bs i _ hr
    simp only [World.run, Res.ok.injEq, Prod.mk.injEq] at hr
    obtain ⟨rfl, -⟩ := hr
    exact ⟨⟨bs, i⟩, fun _ _ _ => rfl⟩
  | cons op ops ih =>
    intro w w' o bs i hl hr
    obtain ⟨w1, p, bs1, hs, i1⟩ := inv_step i hl.1
    have h1 := step_outside i hl.1 hs
    simp only [World.run, hs, Res.ok_bind] at hr
    cases hr2 : w1.run ops with
    | ok r =>
      obtain ⟨w2, o2⟩ := r
      rw [hr2] at hr
      simp only [Res.ok_bind, Res.ok.injEq, Prod.mk.injEq] at hr
      obtain ⟨rfl, -⟩ := hr
      obtain ⟨h2, h3⟩ := ih i1 (hl.2 _ _ hs) hr2
      exact ⟨h2, fun x hx hy => (h3 x hx hy).trans (h1 x hx hy)⟩
    | ub => rw [hr2] at hr; exact absurd hr (by intro h; cases h)
    | hang => rw [hr2] at hr; exact absurd hr (by intro h; cases h)

theorem legal_zero {w1 w2 : World} (ops : List Op) (s : Sim 0 w1 w2) (hl : LegalRun w1 ops) : LegalRun w2 ops := by
  induction ops generalizing w1 w2 with
  | nil => trivial
  | cons op ops ih =>
    have h1 : Legal w2 op := by
      have := sim_legal s hl.1
      have e := op_move_zero [op]
      simp only [List.map_cons, List.map_nil, List.cons.injEq, and_true] at e
      rwa [e] at this
    refine ⟨h1, ?_⟩
    intro w2' p hs
    obtain ⟨w1', w2'', p', g1, g2, g3, _⟩ := sim_step s hl.1
    have e := op_move_zero [op]
    simp only [List.map_cons, List.map_nil, List.cons.injEq, and_true] at e
    rw [e, hs] at g2
    have g2 := Res.ok.inj g2
    simp only [Prod.mk.injEq] at g2
    obtain ⟨rfl, -⟩ := g2
    exact ih g3 (hl.2 _ _ g1)

theorem sim_live (ops : List Op) : ∀ {w1 w2 v1 v2 : World} {o1 o2 : List Out}, Sim 0 w1 w2 → LegalRun w1 ops →
    w1.run ops = .ok (v1, o1) → w2.run ops = .ok (v2, o2) → v2.live = v1.live := by
  induction ops with
  | nil =>
    intro w1 w2 v1 v2 o1 o2 s _ h1 h2
    simp only [World.run, Res.ok.injEq, Prod.mk.injEq] at h1 h2
    rw [← h1.1, ← h2.1, s.live, live_move_zero]
  | cons op ops ih =>
    intro w1 w2 v1 v2 o1 o2 s hl h1 h2
    obtain ⟨w1', w2', p, g1, g2, g3, _⟩ := sim_step s hl.1
    have e := op_move_zero [op]
    simp only [List.map_cons, List.map_nil, List.cons.injEq, and_true] at e
    rw [e] at g2
    simp only [World.run, g1, g2, Res.ok_bind] at h1 h2
    cases r1 : w1'.run ops with
    | ok x =>
      cases r2 : w2'.run ops with
      | ok y =>
        obtain ⟨x1, x2⟩ := x
        obtain ⟨y1, y2⟩ := y
        rw [r1] at h1
        rw [r2] at h2
        simp only [Res.ok_bind, Res.ok.injEq, Prod.mk.injEq] at h1 h2
        rw [← h1.1, ← h2.1]
        exact ih g3 (hl.2 _ _ g1) r1 r2
      | ub => rw [r2] at h2; exact absurd h2 (by intro h; cases h)
      | hang => rw [r2] at h2; exact absurd h2 (by intro h; cases h)
    | ub => rw [r1] at h1; exact absurd h1 (by intro h; cases h)
    | hang => rw [r1] at h1; exact absurd h1 (by intro h; cases h)

theorem out_move_zero (o : List Out) : o.map (Out.move 0) = o := by
  conv => rhs; rw [← List.map_id o]
  apply List.map_congr_left
  intro x _
  cases x with
  | mk p f m =>
    simp only [Out.move, movePtr, Nat.add_zero, id]
    split <;> simp_all

/-- **C159** (part that holds).  A copy of which the original stays in place and is not used any
more is a heap in the buffer of the original: every legal continuation gives the pointers and sizes the original
would have given, all blocks lie in the buffer of the original, and neither the buffer of the copy
nor `x_start_` of the original is touched. -/
theorem C159_alone_partial (hl : Layout size base st) (hr : Roomy size base) (hw : Reach size base st w)
    (hl2 : Layout size base2 st2) (a : Away size base st base2 st2) (ops : List Op) (hops : LegalRun w ops) :
    ∃ v v2 o, w.run ops = .ok (v, o) ∧ World.run { w with heap := (make w.heap base2 st2).copy } ops = .ok (v2, o) ∧
      v2.live = v.live ∧ (∀ l ∈ v2.live, base ≤ l.ptr ∧ l.ptr + l.len ≤ base + size) ∧
      (∀ k, k < size → v2.heap.mem (base2 + k) = w.heap.mem (base + k)) ∧
      ∀ k, k < 16 → v2.heap.mem (st + k) = w.heap.mem (st + k) := by
  obtain ⟨bs, i⟩ := reach_inv hl hr hw
  have i2 := inv_copy i hl2 a
  have sim : Sim 0 w { w with heap := (make w.heap base2 st2).copy } :=
    ⟨rfl, ⟨size, base, st, st2, bs, i, by rw [blk_move_zero]; exact i2⟩, by rw [live_move_zero]⟩
  obtain ⟨v, v2, o, o2, h1, h2, h3, h4⟩ := sim_run ops sim hops
  rw [op_move_zero] at h2
  have h4 := h4 rfl
  rw [out_move_zero] at h4
  subst h4
  obtain ⟨⟨bs', i3⟩, h5⟩ := run_outside ops i2 (legal_zero ops sim hops) h2
  have a' : Away w.heap.size w.heap.base w.heap.startAddr base2 st2 := by
    rw [i.size_eq, i.base_eq, i.st_eq]; exact a
  obtain ⟨a1, a2, a3, a4⟩ := id a
  refine ⟨v, v2, o2, h1, h2, ?_, ?_, ?_, ?_⟩
  · exact sim_live ops sim hops h1 h2
  · intro l hlv
    have hb := blk_in i3 (i3.live_blk hlv).1
    have h6 := i3.lives l hlv
    simp only [Live.blk] at hb
    omega
  · intro k hk
    have := hl2.disjoint
    rw [h5 (base2 + k) (by omega) (by omega)]
    show copyMem w.heap base2 st2 (base2 + k) = _
    unfold copyMem sizeofLink
    rw [if_neg (by omega), if_pos (by rw [i.size_eq]; omega), i.base_eq, Nat.add_sub_cancel_left]
  · intro k hk
    have := hl.disjoint
    rw [h5 (st + k) (by omega) (by omega)]
    exact copy_own a' (by rw [i.st_eq]; omega) (by rw [i.st_eq]; omega)

/-! ### The original and the copy both in use -/

/-- Taking `w` bytes off a block whose header is marked as allocated. -/
theorem take_marked {size base st0 e f me nal nfr cc : Nat} {m : Mem} {cb : Bool} {p a sz w : Nat}
    (ap : accessible size base st0 p = true) (aa : accessible size base st0 a = true)
    (aa8 : accessible size base st0 (a + 8) = true)
    (an : accessible size base st0 (a + w) = true) (an8 : accessible size base st0 (a + w + 8) = true)
    (hd : p + 16 ≤ a ∨ a + w + 16 ≤ p) (lp : load64 m p = protect a) (ls : load64 m (a + 8) = sz)
    (ha : a + w + 16 < W) (hW : sz < W) (hw : w + 32 < sz) (h16 : 16 ≤ w) :
    ∃ h', (Heap.mk size base st0 m e f me nal nfr cb cc).take p a w = .ok (h', a + 16) := by
  have e1 : wadd (protect (protect a)) structSize = a + 16 := by
    rw [protect_protect, structSize_eq]; exact wadd_eq (by omega)
  have e2 : load64 (store64 m p (load64 m a)) (a + 8) = sz := by
    rw [load64_store64_ne (by omega), ls]
  have e0 : wsub sz w = sz - w := wsub_eq (by omega) hW
  have e3 : sz - w > minBlock := by
    rw [minBlock_eq]; omega
  have e5 : wadd a w = a + w := wadd_eq (by omega)
  simp only [Heap.take, Heap.split, offNext_add, offSize_add, ld_mk ap, ld_mk aa, ld_mk aa8, st_mk ap,
    st_mk aa8, st_mk an, st_mk an8, Res.ok_bind, lp, e1, e2, e0, if_pos e3, e5]
  split
  · simp only [st_mk aa, st_mk aa8, Res.ok_bind]
    exact ⟨_, rfl⟩
  · simp only [st_mk aa, st_mk aa8, Res.ok_bind]
    exact ⟨_, rfl⟩

/-- `allocate` of an object whose first link leads to a block that is marked as allocated. -/
theorem allocate_marked {h : Heap} {a sz m : Nat} (hlim : h.base + h.size < W) (h0 : 0 < h.base) (hst8 : h.startAddr % 8 = 0)
    (hdis : h.startAddr + 16 ≤ h.base ∨ h.base + h.size ≤ h.startAddr)
    (ha : h.base ≤ a) (ha8 : a % 8 = 0) (he : a ≠ h.pxEnd) (hl : load64 h.mem h.startAddr = protect a)
    (hs : load64 h.mem (a + 8) = sz) (hz : 2 ^ 63 + 16 ≤ sz) (hm : 0 < m) (hfit : a + need m + 16 ≤ h.base + h.size)
    (hsz : h.size < 2 ^ 63) (hfree : need m ≤ h.freeBytes) : ∃ h', h.allocate m = .ok (h', a + 16) := by
  obtain ⟨size, base, st0, mm, e, f, me, nal, nfr, cb, cc⟩ := h
  dsimp only at *
  have hn := need_facts m
  have hacc : ∀ x, base ≤ x → x + 8 ≤ base + size → x % 8 = 0 → accessible size base st0 x = true := by
    intro x h1 h2 h3
    unfold accessible
    simp [h1, h2, h3]
  have aa := hacc a ha (by omega) ha8
  have aa8 := hacc (a + 8) (by omega) (by omega) (by omega)
  have an := hacc (a + need m) (by omega) (by omega) (by omega)
  have an8 := hacc (a + need m + 8) (by omega) (by omega) (by omega)
  have ap : accessible size base st0 st0 = true := by
    unfold accessible sizeofLink
    simp [hst8]
  have hr : Heap.roundWanted m = need m := by
    have := roundWanted_eq (n := m) (by unfold W at *; omega)
    rw [this, if_neg (by unfold W at *; omega)]
  have hv : sizeIsValid (need m) = true := by
    unfold sizeIsValid
    rw [(and_allocBit_eq_zero (by unfold W at *; omega)).mpr (by omega)]; rfl
  have hszW : sz < W := by rw [← hs]; exact load64_lt _ _
  obtain ⟨h', ht⟩ := take_marked (size := size) (base := base) (st0 := st0) (e := e) (f := f) (me := me) (nal := nal) (nfr := nfr)
    (cc := cc) (m := mm) (cb := cb) (p := st0) (a := a) (sz := sz) (w := need m) ap aa aa8 an an8 (by omega) hl hs
    (by omega) hszW (by omega) (by omega)
  refine ⟨h', ?_⟩
  unfold Heap.allocate Heap.allocCore
  rw [hr, if_pos hv]
  dsimp only
  rw [if_pos ⟨by omega, hfree⟩]
  simp only [offNext_add, ld_mk ap, Res.ok_bind, hl, protect_protect]
  rw [findFit_fit (sz := sz) (by rw [ld_mk aa8, hs]) (by omega)]
  simp only [Res.ok_bind]
  rw [if_pos he, ht]
  simp only [Res.ok_bind]
  rw [fireCallback_ne (by omega)]

/-- The common part: `h'` has just handed out the lowest free block, and `k` is another object with
the members `h` had before, whose `x_start_` still leads to that block. -/
theorem same_pointer {bs : List Blk} (i : WInv size base st w bs) {st' n m p : Nat} {h' k : Heap} (hn : n < 2 ^ 64)
    (ha : w.heap.allocate n = .ok (h', p)) (hp : p ≠ 0)
    (hlow : ∀ x y, Gap w.live (areaLo base) (areaHi size base) x y → p ≤ x + 16)
    (k1 : k.size = w.heap.size) (k2 : k.base = w.heap.base) (k3 : k.pxEnd = w.heap.pxEnd) (k4 : k.freeBytes = w.heap.freeBytes)
    (k5 : k.startAddr = st') (k6 : st' % 8 = 0) (k7 : st' + 16 ≤ base ∨ base + size ≤ st')
    (k8 : load64 k.mem st' = load64 w.heap.mem w.heap.startAddr)
    (k9 : ∀ x, base ≤ x → x < base + size → k.mem x = h'.mem x)
    (hm : 0 < m) (hfree : required m ≤ w.heap.freeHeapSize) : ∃ k', k.allocate m = .ok (k', p) := by
  have hreq : required m = need m := by unfold required need; omega
  rw [hreq] at hfree
  rcases inv_alloc i (n := n) hn with ⟨pre, b, post, h1', e, h1, h2, h3, h4, h5, h6, h7, h8, h9⟩ | ⟨h1, h2, h3⟩
  · rw [h5] at ha
    have ha := Res.ok.inj ha
    simp only [Prod.mk.injEq] at ha
    obtain ⟨rfl, rfl⟩ := ha
    subst e
    have hb := tiles_mem i.rep.tiles b (by simp)
    -- nothing before `b` is free
    have hpre : ∀ c ∈ pre, c.free = false := by
      intro c hc
      cases hcf : c.free with
      | false => rfl
      | true =>
        have := hlow _ _ ((gap_iff i).mpr ⟨c, by simp [hc], hcf, rfl, rfl⟩)
        obtain ⟨mid, t1, t2⟩ := tiles_append.mp i.rep.tiles
        have h10 := tiles_mem t1 c hc
        have h11 := t2.1
        omega
    have hlast : last w.heap.startAddr pre = w.heap.startAddr := by
      rcases last_eq_or w.heap.startAddr pre with h | ⟨c, hc, hcf, _⟩
      · exact h
      · rw [hpre c hc] at hcf; exact absurd hcf (by simp)
    have hlink : load64 w.heap.mem w.heap.startAddr = protect b.addr := by
      have := (linked_append.mp i.rep.linked).2
      rw [hlast] at this
      simp only [Linked, h2, if_true] at this
      exact this.1
    have hused : (⟨b.addr, taken b (need n), false⟩ : Blk) ∈ pre ++ cut b (need n) ++ post := by
      unfold cut taken; split <;> simp
    have hmark := (linked_used h6.linked _ hused rfl).1
    dsimp only at hmark
    have hfr : w.heap.freeBytes ≤ w.heap.pxEnd - b.addr := by
      rw [i.rep.free_eq]
      obtain ⟨mid, t1, t2⟩ := tiles_append.mp i.rep.tiles
      have h10 : freeSum (pre ++ b :: post) = freeSum (b :: post) := by
        clear h9 h8 h6 h5 h4 i hlast hlink hused hlow hb t1 t2 h7
        induction pre with
        | nil => rfl
        | cons c pre ih =>
          simp only [List.cons_append, freeSum]
          rw [hpre c (by simp)]
          simp only [Bool.false_eq_true, if_false, Nat.zero_add]
          exact ih (fun d hd => hpre d (by simp [hd]))
      rw [h10]
      have := freeSum_le t2
      have := t2.1
      omega
    obtain ⟨g1, g2, g3, g4, g5, g6, g7, g8, g9, g10, g11, g12⟩ := i.rep.geo
    have hfb : w.heap.freeHeapSize = w.heap.freeBytes := rfl
    have hbe := i.base_eq
    have hse := i.size_eq
    have hmn := need_facts m
    have htk := taken_facts h3 hb.2.2.2.1
    refine allocate_marked (sz := taken b (need n) + 2 ^ 63) (by omega) (by omega) (by omega) (by omega) (by omega) (by omega)
      (by omega) ?_ ?_ (by omega) hm (by omega) (by omega) (by omega)
    · rw [k5, k8, hlink]
    · rw [load64_congr (m := h1'.mem) fun x hx1 hx2 => k9 x (by omega) (by omega)]
      exact hmark
  · rw [h2] at ha
    have ha := Res.ok.inj ha
    simp only [Prod.mk.injEq] at ha
    exact absurd ha.2.symm hp

/-- **C159** (what is wrong).  After a heap was copied, let the original hand out a block of the
lowest gap.  Whatever is then asked of the copy, if the copy believes to have that much, it hands
out the same pointer; and the same the other way round. -/
theorem C159_same (hl : Layout size base st) (hr : Roomy size base) (hw : Reach size base st w)
    (hl2 : Layout size base2 st2) (a : Away size base st base2 st2) {n m p : Nat} {t : Two} (hn : n < 2 ^ 64) (hp : p ≠ 0)
    (hlow : ∀ x y, Gap w.live (areaLo base) (areaHi size base) x y → p ≤ x + 16)
    (hm : 0 < m) (hfree : required m ≤ w.heap.freeHeapSize) :
    ((make w.heap base2 st2).allocOrig n = .ok (t, p) → ∃ t', t.allocCopy m = .ok (t', p)) ∧
    ((make w.heap base2 st2).allocCopy n = .ok (t, p) → ∃ t', t.allocOrig m = .ok (t', p)) := by
  obtain ⟨bs, i⟩ := reach_inv hl hr hw
  have o := inv_orig i a
  have c := inv_copy i hl2 a
  have a' : Away w.heap.size w.heap.base w.heap.startAddr base2 st2 := by
    rw [i.size_eq, i.base_eq, i.st_eq]; exact a
  have hlink : load64 (copyMem w.heap base2 st2) st2 = load64 (copyMem w.heap base2 st2) w.heap.startAddr := by
    have h1 := copy_start (h := w.heap) (base2 := base2) (st2 := st2) (k := 0) (.inl rfl)
    simp only [Nat.add_zero] at h1
    rw [h1]
    exact (load64_congr fun x h1 h2 => copy_own a' h1 (by omega)).symm
  constructor
  · intro h
    unfold Two.allocOrig at h
    cases ha : (make w.heap base2 st2).orig.allocate n with
    | ok r =>
      obtain ⟨h', q⟩ := r
      rw [ha] at h
      simp only [Res.ok_bind, Res.ok.injEq, Prod.mk.injEq] at h
      obtain ⟨rfl, rfl⟩ := h
      have out := step_outside o (op := .alloc n) hn (w' := World.afterAlloc { w with heap := (make w.heap base2 st2).orig } h' q n none)
        (p := q) (by show (do let (h', p) ← (make w.heap base2 st2).orig.allocate n; _) = _; rw [ha]; rfl)
      obtain ⟨k', hk⟩ := same_pointer (w := { w with heap := (make w.heap base2 st2).orig }) o (st' := st2) (k := { (make w.heap base2 st2).copy with mem := h'.mem }) (m := m) (h' := h') hn ha hp hlow
        rfl rfl rfl rfl rfl hl2.start_aligned a.buf_st.symm
        (by
          show load64 h'.mem st2 = load64 (copyMem w.heap base2 st2) w.heap.startAddr
          rw [← hlink]
          refine load64_congr fun x h1 h2 => ?_
          have h3 := out x (by have := a.buf_st; omega) (by have := a.st_st; omega)
          rw [afterAlloc_heap] at h3
          exact h3)
        (fun _ _ _ => rfl) hm hfree
      refine ⟨{ copy := k', orig := { h' with mem := k'.mem } }, ?_⟩
      unfold Two.allocCopy
      dsimp only
      rw [hk]
      rfl
    | ub => rw [ha] at h; exact absurd h (by intro h; cases h)
    | hang => rw [ha] at h; exact absurd h (by intro h; cases h)
  · intro h
    unfold Two.allocCopy at h
    cases ha : (make w.heap base2 st2).copy.allocate n with
    | ok r =>
      obtain ⟨h', q⟩ := r
      rw [ha] at h
      simp only [Res.ok_bind, Res.ok.injEq, Prod.mk.injEq] at h
      obtain ⟨rfl, rfl⟩ := h
      have out := step_outside c (op := .alloc n) hn (w' := World.afterAlloc { w with heap := (make w.heap base2 st2).copy } h' q n none)
        (p := q) (by show (do let (h', p) ← (make w.heap base2 st2).copy.allocate n; _) = _; rw [ha]; rfl)
      obtain ⟨k', hk⟩ := same_pointer (w := { w with heap := (make w.heap base2 st2).copy }) c (st' := st) (k := { (make w.heap base2 st2).orig with mem := h'.mem }) (m := m) hn ha hp hlow
        rfl rfl rfl rfl i.st_eq hl.start_aligned hl.disjoint
        (by
          show load64 h'.mem st = load64 (copyMem w.heap base2 st2) st2
          rw [hlink, i.st_eq]
          refine load64_congr fun x h1 h2 => ?_
          have h3 := out x (by have := hl.disjoint; omega) (by have := a.st_st; omega)
          rw [afterAlloc_heap] at h3
          exact h3)
        (fun _ _ _ => rfl) hm hfree
      refine ⟨{ orig := k', copy := { h' with mem := k'.mem } }, ?_⟩
      unfold Two.allocOrig
      dsimp only
      rw [hk]
      rfl
    | ub => rw [ha] at h; exact absurd h (by intro h; cases h)
    | hang => rw [ha] at h; exact absurd h (by intro h; cases h)

/-- **C159**, as one would want it: a heap and a copy of it hand out different bytes. -/
def C159_Statement : Prop :=
  ∀ {size base st base2 st2 : Nat} {w : World} {n m p q : Nat} {t t' : Two}, Layout size base st → Roomy size base →
    Reach size base st w → Layout size base2 st2 → Away size base st base2 st2 → n < 2 ^ 64 → m < 2 ^ 64 →
    (make w.heap base2 st2).allocOrig n = .ok (t, p) → t.allocCopy m = .ok (t', q) → p ≠ 0 → q ≠ 0 →
    p + n ≤ q ∨ q + m ≤ p

namespace Ex

theorem layout2 : Layout 256 12291 16384 := by constructor <;> decide
theorem away : Away 256 4099 8192 12291 16384 := by constructor <;> decide

/-- The original and then the copy of the demo world are asked for a block. -/
theorem both : (demo demoOps).map (fun w => match (make w.heap 12291 16384).allocOrig 20 with
    | .ok (t, p) => (match t.allocCopy 8 with | .ok (_, q) => (p, q) | _ => (0, 0))
    | _ => (0, 0)) = some (4152, 4152) := by decide +kernel

theorem world : ∃ w t t', Reach 256 4099 8192 w ∧ w.live = [⟨4192, 17, 40⟩, ⟨4120, 10, 32⟩] ∧
    (make w.heap 12291 16384).allocOrig 20 = .ok (t, 4152) ∧ t.allocCopy 8 = .ok (t', 4152) := by
  obtain ⟨w, h1, h2, h3, h4, h5⟩ := demo_world
  have h := both
  rw [h2] at h
  simp only [Option.map_some, Option.some.injEq] at h
  split at h
  · rename_i t p ht
    split at h
    · rename_i t' q ht'
      simp only [Prod.mk.injEq] at h
      obtain ⟨rfl, rfl⟩ := h
      exact ⟨w, t, t', h1, h3, ht, ht'⟩
    · simp at h
  · simp at h

end Ex

/-- The property does not hold. -/
theorem C159_refuted : ¬ C159_Statement := by
  intro h
  obtain ⟨w, t, t', h1, h2, h3, h4⟩ := Ex.world
  have := h demo_layout demo_roomy h1 Ex.layout2 Ex.away (by decide) (by decide) h3 h4 (by decide) (by decide)
  omega

/-- The hypotheses of `C159_same` are met in the demo world, with two live blocks. -/
example : ∃ w t t', Reach 256 4099 8192 w ∧ w.live.length = 2 ∧
    (make w.heap 12291 16384).allocOrig 20 = .ok (t, 4152) ∧ t.allocCopy 8 = .ok (t', 4152) ∧
    ∀ x y, Gap w.live (areaLo 4099) (areaHi 256 4099) x y → 4152 ≤ x + 16 := by
  obtain ⟨w, t, t', h1, h2, h3, h4⟩ := Ex.world
  refine ⟨w, t, t', h1, by rw [h2]; rfl, h3, h4, ?_⟩
  rintro x y ⟨g1, g2, g3, g4⟩
  rw [h2] at g2 g4
  have e : areaLo 4099 = 4104 := by decide
  rw [e] at g2
  have g5 := g4 ⟨4120, 10, 32⟩ (by simp)
  simp only [Live.stop, Live.start] at g5
  rcases g2 with rfl | ⟨l, hl, rfl⟩
  · omega
  · simp only [List.mem_cons, List.not_mem_nil, or_false] at hl
    rcases hl with rfl | rfl <;> simp only [Live.stop] at * <;> omega

/-- And the continuation of `C159_alone_partial` may be any legal one. -/
example : ∃ w, Reach 256 4099 8192 w ∧ LegalRun w [.alloc 20, .free 4120, .alloc 50, .write 4192 7] := by
  obtain ⟨w, h1, h2, h3, h4, h5⟩ := demo_world
  have h : (play w [.alloc 20, .free 4120, .alloc 50, .write 4192 7]).isSome = true := by
    have : ((demo demoOps).map fun w => (play w [.alloc 20, .free 4120, .alloc 50, .write 4192 7]).isSome) = some true := by
      decide +kernel
    rw [h2] at this
    exact Option.some.inj this
  obtain ⟨v, hv⟩ := Option.isSome_iff_exists.mp h
  exact ⟨w, h1, legalRun_of_play _ hv⟩

end Verif.Heap.Copy
