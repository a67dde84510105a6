import Verif.Heap.Gaps

/-! Two heaps with the same block list up to translation behave alike (proof machinery). -/
namespace Verif.Heap

def Blk.move (d : Nat) (b : Blk) : Blk := { b with addr := b.addr + d }
def Live.move (d : Nat) (l : Live) : Live := { l with ptr := l.ptr + d }

theorem split_unique {α : Type} {P : α → Prop} {pre pre' post post' : List α} {b b' : α}
    (h : pre ++ b :: post = pre' ++ b' :: post') (hb : P b) (hb' : P b') (hn : ∀ c ∈ pre, ¬ P c)
    (hn' : ∀ c ∈ pre', ¬ P c) : pre = pre' ∧ b = b' ∧ post = post' := by
  induction pre generalizing pre' with
  | nil =>
    cases pre' with
    | nil => simp only [List.nil_append, List.cons.injEq] at h; exact ⟨rfl, h.1, h.2⟩
    | cons c cs =>
      simp only [List.nil_append, List.cons_append, List.cons.injEq] at h
      exact absurd (h.1 ▸ hb) (hn' c (by simp))
  | cons a as ih =>
    cases pre' with
    | nil =>
      simp only [List.nil_append, List.cons_append, List.cons.injEq] at h
      exact absurd (h.1 ▸ hb') (hn a (by simp))
    | cons c cs =>
      simp only [List.cons_append, List.cons.injEq] at h
      obtain ⟨h1, h2, h3⟩ := ih h.2 (fun x hx => hn x (by simp [hx])) (fun x hx => hn' x (by simp [hx]))
      exact ⟨by rw [h.1, h1], h2, h3⟩

theorem freeSum_move (d : Nat) (bs : List Blk) : freeSum (bs.map (Blk.move d)) = freeSum bs := by
  induction bs with
  | nil => rfl
  | cons b bs ih => simp only [List.map_cons, freeSum, Blk.move, ih]

theorem cut_move (d : Nat) (b : Blk) (w : Nat) : cut (b.move d) w = (cut b w).map (Blk.move d) := by
  obtain ⟨a, z, f⟩ := b
  unfold cut
  by_cases h : z - w > 32
  · rw [if_pos (by exact h), if_pos (by exact h)]
    simp only [List.map_cons, List.map_nil, Blk.move, List.cons.injEq, Blk.mk.injEq, and_true, true_and]
    omega
  · rw [if_neg (by exact h), if_neg (by exact h)]; rfl

theorem absorb_move (d sz : Nat) (bs : List Blk) :
    absorb sz (bs.map (Blk.move d)) = ((absorb sz bs).1, (absorb sz bs).2.map (Blk.move d)) := by
  cases bs with
  | nil => rfl
  | cons b bs =>
    simp only [List.map_cons, absorb]
    by_cases h : b.free = true
    · rw [if_pos (by exact h), if_pos h]; rfl
    · rw [if_neg (by exact h), if_neg h]; rfl

theorem release_move (d : Nat) (pre : List Blk) (b : Blk) (post : List Blk) :
    release (pre.map (Blk.move d)) (b.move d) (post.map (Blk.move d)) = (release pre b post).map (Blk.move d) := by
  rcases last_cases pre with ⟨pre', c, rfl, hc⟩ | hne
  · rw [release_concat hc, List.map_append, List.map_cons, List.map_nil, release_concat (by exact hc)]
    simp only [List.map_append, List.map_cons]
    congr 1
    simp only [Blk.move]
    have := absorb_move d (c.size + b.size) post
    rw [this]
  · rw [release_not hne, release_not]
    · simp only [List.map_append, List.map_cons]
      congr 1
      simp only [Blk.move]
      have := absorb_move d b.size post
      rw [this]
    · intro pre' c h
      obtain ⟨p1, p2, hp, h1, h2⟩ := List.map_eq_append_iff.mp h
      obtain ⟨x, h3, h4⟩ := List.map_eq_singleton_iff.mp h2
      subst h3
      have := hne p1 x hp
      rw [← h4]; exact this

theorem taken_move (d : Nat) (b : Blk) (w : Nat) : taken (b.move d) w = taken b w := rfl

/-- `w2` is `w1` moved by `d`, as far as a caller can tell. -/
structure Sim (d : Nat) (w1 w2 : World) : Prop where
  d8 : d % 8 = 0
  ex : ∃ size base st1 st2 bs, WInv size base st1 w1 bs ∧ WInv size (base + d) st2 w2 (bs.map (Blk.move d))
  live : w2.live = w1.live.map (Live.move d)

theorem Sim.free_eq {d : Nat} {w1 w2 : World} (s : Sim d w1 w2) : w2.heap.freeHeapSize = w1.heap.freeHeapSize := by
  obtain ⟨size, base, st1, st2, bs, i1, i2⟩ := s.ex
  show w2.heap.freeBytes = w1.heap.freeBytes
  rw [i1.rep.free_eq, i2.rep.free_eq, freeSum_move]

theorem sim_legal {d : Nat} {w1 w2 : World} {op : Op} (s : Sim d w1 w2) (h : Legal w1 op) : Legal w2 (op.move d) := by
  obtain ⟨size, base, st1, st2, bs, i1, i2⟩ := s.ex
  cases op with
  | alloc n => exact h
  | calloc k n => exact h
  | free p =>
    simp only [Op.move, Legal, movePtr]
    rcases h with h | ⟨l, hl, h⟩
    · left; rw [if_pos h]
    · right
      have := i1.lives l hl
      rw [if_neg (by omega), s.live]
      exact ⟨l.move d, List.mem_map_of_mem hl, by simp [Live.move, h]⟩
  | write a v =>
    obtain ⟨l, hl, h1, h2⟩ := h
    simp only [Op.move, Legal]
    rw [s.live]
    refine ⟨l.move d, List.mem_map_of_mem hl, ?_, ?_⟩
    · simp only [Live.move]; omega
    · simp only [Live.move]; omega
  | resetMin => trivial
  | onFail b => trivial

theorem afterAlloc_live {w : World} {h' : Heap} {p n : Nat} {z : Option Byte} (hp : p ≠ 0) :
    (w.afterAlloc h' p n z).live = ⟨p, n, w.heap.freeHeapSize - h'.freeHeapSize⟩ :: w.live := by
  unfold World.afterAlloc; rw [if_neg hp]

theorem afterAlloc_live0 {w : World} {h' : Heap} {n : Nat} {z : Option Byte} :
    (w.afterAlloc h' 0 n z).live = w.live := by
  unfold World.afterAlloc; rw [if_pos rfl]

theorem afterAlloc_heap {w : World} {h' : Heap} {p n : Nat} {z : Option Byte} :
    (w.afterAlloc h' p n z).heap = h' := by
  unfold World.afterAlloc; split <;> rfl

/-- First fit finds the same block on both sides. -/
theorem fit_same {d m : Nat} {bs pre post pre' post' : List Blk} {b b' : Blk} (e : bs = pre ++ b :: post)
    (e' : bs.map (Blk.move d) = pre' ++ b' :: post') (hf : b.free = true) (hf' : b'.free = true)
    (hs : m ≤ b.size) (hs' : m ≤ b'.size) (hp : ∀ c ∈ pre, c.free = true → c.size < m)
    (hp' : ∀ c ∈ pre', c.free = true → c.size < m) :
    pre' = pre.map (Blk.move d) ∧ b' = b.move d ∧ post' = post.map (Blk.move d) := by
  rw [e, List.map_append, List.map_cons] at e'
  have := split_unique (P := fun c => c.free = true ∧ m ≤ c.size) e' ⟨hf, hs⟩ ⟨hf', hs'⟩ ?_ ?_
  · exact ⟨this.1.symm, this.2.1.symm, this.2.2.symm⟩
  · intro c hc ⟨h1, h2⟩
    obtain ⟨x, hx, rfl⟩ := List.mem_map.mp hc
    have := hp x hx h1
    simp only [Blk.move] at h2
    omega
  · intro c hc ⟨h1, h2⟩
    have := hp' c hc h1
    omega

theorem sim_step {d : Nat} {w1 w2 : World} {op : Op} (s : Sim d w1 w2) (hl : Legal w1 op) :
    ∃ w1' w2' p, w1.step op = .ok (w1', p) ∧ w2.step (op.move d) = .ok (w2', movePtr d p) ∧ Sim d w1' w2' ∧
      (w2.heap.minEver = w1.heap.minEver → w2'.heap.minEver = w1'.heap.minEver) := by
  have hfe := s.free_eq
  obtain ⟨d8, ⟨size, base, st1, st2, bs, i1, i2⟩, hlive⟩ := s
  cases op with
  | alloc n =>
    simp only [Op.move]
    rcases inv_alloc i1 (n := n) hl with ⟨pre, b, post, h', e, h1, h2, h3, h4, h5, h6, h7, h8, h9⟩ | ⟨h1, h2, h3⟩
    · rcases inv_alloc i2 (n := n) hl with ⟨pre', b', post', k', e', k1, k2, k3, k4, k5, k6, k7, k8, k9⟩ | ⟨k1, k2, k3⟩
      · obtain ⟨rfl, rfl, rfl⟩ := fit_same e e' h2 k2 h3 k3 h4 k4
        refine ⟨_, w2.afterAlloc k' ((b.move d).addr + 16) n none, _, step_alloc h5, ?_, ⟨d8, ⟨size, base, st1, st2, _, h9, ?_⟩, ?_⟩, ?_⟩
        · rw [step_alloc k5]
          simp only [movePtr, Blk.move]
          rw [if_neg (by omega), show b.addr + d + 16 = b.addr + 16 + d by omega]
        · have : (pre ++ cut b (need n) ++ post).map (Blk.move d) =
            pre.map (Blk.move d) ++ cut (b.move d) (need n) ++ post.map (Blk.move d) := by
            rw [cut_move]; simp
          rw [this]
          exact k9
        · rw [afterAlloc_live (by omega), afterAlloc_live (by omega), List.map_cons, hlive]
          congr 1
          simp only [Live.move, Live.mk.injEq, true_and, Blk.move]
          refine ⟨by omega, ?_⟩
          show w2.heap.freeHeapSize - k'.freeBytes = w1.heap.freeHeapSize - h'.freeBytes
          rw [hfe, h7.freeBytes, k7.freeBytes, taken_move]
          have : w2.heap.freeBytes = w1.heap.freeBytes := hfe
          rw [this]
        · intro hm
          rw [afterAlloc_heap, afterAlloc_heap, h7.minEver, k7.minEver, hm, taken_move]
          have : w2.heap.freeBytes = w1.heap.freeBytes := hfe
          rw [this]
      · exfalso
        rcases k1 with k1 | k1
        · omega
        · have := k1 (b.move d) (by rw [e]; simp) h2
          simp only [Blk.move] at this
          omega
    · rcases inv_alloc i2 (n := n) hl with ⟨pre', b', post', k', e', k1, k2, k3, k4, k5, k6, k7, k8, k9⟩ | ⟨k1, k2, k3⟩
      · exfalso
        rcases h1 with h1 | h1
        · omega
        · have hb' : b' ∈ bs.map (Blk.move d) := by rw [e']; simp
          obtain ⟨c, hc, rfl⟩ := List.mem_map.mp hb'
          have := h1 c hc k2
          simp only [Blk.move] at k3
          omega
      · refine ⟨_, w2.afterAlloc (w2.heap.fireCallback 0) 0 n none, _, step_alloc h2, ?_, ⟨d8, ⟨size, base, st1, st2, _, h3 _ _, k3 none n⟩, ?_⟩, ?_⟩
        · rw [step_alloc k2]; rfl
        · rw [afterAlloc_live0, afterAlloc_live0, hlive]
        · intro hm
          rw [afterAlloc_heap, afterAlloc_heap, (fire_same _ _).2.2.2.2.2.2.1, (fire_same _ _).2.2.2.2.2.2.1, hm]
  | calloc k n =>
    simp only [Op.move]
    rcases inv_calloc i1 (k := k) (n := n) with
      ⟨pre, b, post, h', e, h1, h1', h2, h3, h4, h5, _, h6, h7, h8, h9⟩ | ⟨ho, h1, h2, h3⟩ | ⟨ho, h2, h3⟩
    · rcases inv_calloc i2 (k := k) (n := n) with
        ⟨pre', b', post', k', e', k1, k1', k2, k3, k4, k5, _, k6, k7, k8, k9⟩ | ⟨ko, k1, k2, k3⟩ | ⟨ko, k2, k3⟩
      · obtain ⟨rfl, rfl, rfl⟩ := fit_same e e' h2 k2 h3 k3 h4 k4
        refine ⟨_, w2.afterAlloc { k' with mem := fun x =>
            if (b.move d).addr + 16 ≤ x ∧ x < (b.move d).addr + 16 + k * n then 0 else k'.mem x }
            ((b.move d).addr + 16) (k * n) (some 0), _, step_calloc h5, ?_, ⟨d8, ⟨size, base, st1, st2, _, h9, ?_⟩, ?_⟩, ?_⟩
        · rw [step_calloc k5]
          have : (b.move d).addr + 16 = movePtr d (b.addr + 16) := by
            simp only [movePtr, Blk.move]
            rw [if_neg (by omega)]; omega
          exact congrArg (fun z => Res.ok (_, z)) this
        · have : (pre ++ cut b (need (k * n)) ++ post).map (Blk.move d) =
            pre.map (Blk.move d) ++ cut (b.move d) (need (k * n)) ++ post.map (Blk.move d) := by
            rw [cut_move]; simp
          rw [this]
          exact k9
        · rw [afterAlloc_live (by omega), afterAlloc_live (by omega), List.map_cons, hlive]
          congr 1
          simp only [Live.move, Live.mk.injEq, true_and, Blk.move]
          refine ⟨by omega, ?_⟩
          show w2.heap.freeHeapSize - k'.freeBytes = w1.heap.freeHeapSize - h'.freeBytes
          rw [hfe, h7.freeBytes, k7.freeBytes, taken_move]
          have : w2.heap.freeBytes = w1.heap.freeBytes := hfe
          rw [this]
        · intro hm
          rw [afterAlloc_heap, afterAlloc_heap]
          show k'.minEver = h'.minEver
          rw [h7.minEver, k7.minEver, hm, taken_move]
          have : w2.heap.freeBytes = w1.heap.freeBytes := hfe
          rw [this]
      · exfalso
        rcases k1 with k1 | k1
        · omega
        · have := k1 (b.move d) (by rw [e]; simp) h2
          simp only [Blk.move] at this
          omega
      · omega
    · rcases inv_calloc i2 (k := k) (n := n) with
        ⟨pre', b', post', k', e', k1, k1', k2, k3, k4, k5, _, k6, k7, k8, k9⟩ | ⟨ko, k1, k2, k3⟩ | ⟨ko, k2, k3⟩
      · exfalso
        rcases h1 with h1 | h1
        · omega
        · have hb' : b' ∈ bs.map (Blk.move d) := by rw [e']; simp
          obtain ⟨c, hc, rfl⟩ := List.mem_map.mp hb'
          have := h1 c hc k2
          simp only [Blk.move] at k3
          omega
      · refine ⟨_, w2.afterAlloc (w2.heap.fireCallback 0) 0 (k * n) (some 0), _, step_calloc h2, ?_, ⟨d8, ⟨size, base, st1, st2, _, h3, k3⟩, ?_⟩, ?_⟩
        · rw [step_calloc k2]; rfl
        · rw [afterAlloc_live0, afterAlloc_live0, hlive]
        · intro hm
          rw [afterAlloc_heap, afterAlloc_heap, (fire_same _ _).2.2.2.2.2.2.1, (fire_same _ _).2.2.2.2.2.2.1, hm]
      · omega
    · rcases inv_calloc i2 (k := k) (n := n) with
        ⟨pre', b', post', k', e', k1, k1', k2, k3, k4, k5, _, k6, k7, k8, k9⟩ | ⟨ko, k1, k2, k3⟩ | ⟨ko, k2, k3⟩
      · omega
      · omega
      · refine ⟨_, w2.afterAlloc w2.heap 0 (k * n) (some 0), _, step_calloc h2, ?_, ⟨d8, ⟨size, base, st1, st2, _, h3, k3⟩, ?_⟩, ?_⟩
        · rw [step_calloc k2]; rfl
        · rw [afterAlloc_live0, afterAlloc_live0, hlive]
        · intro hm
          rw [afterAlloc_heap, afterAlloc_heap, hm]
  | free p =>
    simp only [Op.move]
    by_cases h0 : p = 0
    · subst h0
      refine ⟨_, { heap := w2.heap, live := w2.live.filter (fun l => l.ptr ≠ 0), frees := w2.heap.freeHeapSize :: w2.frees, freed := if (0 : Nat) = 0 then w2.freed else 0 :: w2.freed, wrote := w2.wrote }, _, step_free (dealloc_null _), ?_, ⟨d8, ⟨size, base, st1, st2, bs, inv_null i1, inv_null i2⟩, ?_⟩, ?_⟩
      · rw [show movePtr d 0 = 0 from rfl, step_free (dealloc_null _)]
      · show w2.live.filter _ = (w1.live.filter _).map _
        rw [hlive, List.filter_map]
        congr 1
        apply List.filter_congr
        intro k hk
        have := i1.lives k hk
        show decide (k.ptr + d ≠ 0) = decide (k.ptr ≠ 0)
        rw [decide_eq_decide]; omega
      · exact fun h => h
    · rcases hl with hl | ⟨l, hl, rfl⟩
      · exact absurd hl h0
      · obtain ⟨pre, post, h', e, h2, h3, h4, h5, h6⟩ := inv_free i1 hl
        have hl2 : l.move d ∈ w2.live := by rw [hlive]; exact List.mem_map_of_mem hl
        obtain ⟨pre', post', k', e', k2, k3, k4, k5, k6⟩ := inv_free i2 hl2
        have hll := i1.lives l hl
        have hblk : (l.move d).blk = l.blk.move d := by
          simp only [Live.blk, Live.move, Blk.move, Blk.mk.injEq, and_true]; omega
        have hu := split_unique (P := fun c : Blk => c.addr = (l.blk.move d).addr)
          (pre := pre.map (Blk.move d)) (post := post.map (Blk.move d)) (b := l.blk.move d)
          (pre' := pre') (post' := post') (b' := (l.move d).blk)
          (by rw [← e', e]; simp) rfl (by rw [hblk]) ?_ ?_
        · obtain ⟨rfl, _, rfl⟩ := hu
          rw [hblk, release_move] at k6
          refine ⟨_, { heap := k', live := w2.live.filter (fun m => m.ptr ≠ (l.move d).ptr), frees := k'.freeHeapSize :: w2.frees, freed := if (l.move d).ptr = 0 then w2.freed else (l.move d).ptr :: w2.freed, wrote := w2.wrote }, _, step_free h2, ?_, ⟨d8, ⟨size, base, st1, st2, _, h6, k6⟩, ?_⟩, ?_⟩
          · rw [show movePtr d l.ptr = (l.move d).ptr by simp [movePtr, h0, Live.move], step_free k2]
            rfl
          · show w2.live.filter _ = (w1.live.filter _).map _
            rw [hlive, List.filter_map]
            congr 1
            apply List.filter_congr
            intro k hk
            show decide (k.ptr + d ≠ l.ptr + d) = decide (k.ptr ≠ l.ptr)
            rw [decide_eq_decide]; omega
          · intro hm
            show k'.minEver = h'.minEver
            rw [h4.minEver, k4.minEver, hm]
        · intro c hc hca
          obtain ⟨x, hx, rfl⟩ := List.mem_map.mp hc
          rw [e] at i1
          obtain ⟨mid, t1, e1, _⟩ := tiles_append.mp i1.rep.tiles
          have := tiles_mem t1 x hx
          simp only [Blk.move] at hca
          omega
        · intro c hc hca
          rw [e'] at i2
          obtain ⟨mid, t1, e1, _⟩ := tiles_append.mp i2.rep.tiles
          have := tiles_mem t1 c hc
          rw [← hblk] at hca
          omega
  | write a v =>
    have hl2 := sim_legal ⟨d8, ⟨size, base, st1, st2, bs, i1, i2⟩, hlive⟩ hl
    obtain ⟨l, hl, h1, h2⟩ := hl
    obtain ⟨l', hl', h1', h2'⟩ := hl2
    exact ⟨_, _, _, rfl, rfl, ⟨d8, ⟨size, base, st1, st2, bs, inv_write i1 hl h1 h2, inv_write i2 hl' h1' h2'⟩, hlive⟩,
      fun h => h⟩
  | resetMin =>
    refine ⟨_, _, _, rfl, rfl, ⟨d8, ⟨size, base, st1, st2, bs, inv_reset i1, inv_reset i2⟩, hlive⟩, ?_⟩
    intro _; exact hfe
  | onFail b =>
    exact ⟨_, _, _, rfl, rfl, ⟨d8, ⟨size, base, st1, st2, bs, inv_onFail i1, inv_onFail i2⟩, hlive⟩, fun h => h⟩

/-- Simulated runs produce the same pointers (moved) and sizes. -/
theorem sim_run {d : Nat} (ops : List Op) : ∀ {w1 w2 : World}, Sim d w1 w2 → LegalRun w1 ops →
    ∃ w1' w2' o1 o2, w1.run ops = .ok (w1', o1) ∧ w2.run (ops.map (Op.move d)) = .ok (w2', o2) ∧
      o2.map (fun o => (o.ptr, o.free)) = o1.map (fun o => (movePtr d o.ptr, o.free)) ∧
      (w2.heap.minEver = w1.heap.minEver → o2 = o1.map (Out.move d)) := by
  induction ops with
  | nil => intro w1 w2 s _; exact ⟨_, _, _, _, rfl, rfl, rfl, fun _ => rfl⟩
  | cons op ops ih =>
    intro w1 w2 s hl
    obtain ⟨w1', w2', p, h1, h2, h3, h4⟩ := sim_step s hl.1
    obtain ⟨v1, v2, o1, o2, g1, g2, g3, g4⟩ := ih h3 (hl.2 _ _ h1)
    refine ⟨v1, v2, ⟨p, w1'.heap.freeHeapSize, w1'.heap.minimumEverFreeHeapSize⟩ :: o1,
      ⟨movePtr d p, w2'.heap.freeHeapSize, w2'.heap.minimumEverFreeHeapSize⟩ :: o2, ?_, ?_, ?_, ?_⟩
    · simp only [World.run, h1, Res.ok_bind, g1]
    · simp only [World.run, List.map_cons, h2, Res.ok_bind, g2]
    · simp only [List.map_cons, g3, h3.free_eq]
    · intro hm
      have := g4 (h4 hm)
      simp only [List.map_cons, this, Out.move, h3.free_eq, Heap.minimumEverFreeHeapSize, h4 hm]

end Verif.Heap
