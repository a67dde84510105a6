import Verif.Heap.ListLemmas

/-! The invariant of client histories and its preservation (proof machinery). -/
namespace Verif.Heap

theorem Rep.congr {h h' : Heap} {s : Nat} {bs : List Blk} (r : Rep h s bs) (e1 : h'.size = h.size)
    (e2 : h'.base = h.base) (e3 : h'.startAddr = h.startAddr) (e4 : h'.pxEnd = h.pxEnd)
    (e5 : h'.mem = h.mem) (e6 : h'.freeBytes = h.freeBytes) : Rep h' s bs := by
  obtain ⟨g, t, l, ss, en, es, na, fe⟩ := r
  exact ⟨g.of_eq e1 e2 e3 e4, by rw [e4]; exact t, by rw [e3, e4, e5]; exact l, by rw [e3, e5]; exact ss,
    by rw [e4, e5]; exact en, by rw [e4, e5]; exact es, na, by rw [e6]; exact fe⟩

theorem Rep.frame {h : Heap} {s : Nat} {bs : List Blk} {m' : Mem} (r : Rep h s bs)
    (hm : ∀ x, (h.startAddr ≤ x ∧ x < h.startAddr + 16) ∨ (h.pxEnd ≤ x ∧ x < h.pxEnd + 16) ∨
      (∃ c ∈ bs, c.addr ≤ x ∧ x < c.addr + 16) → m' x = h.mem x) :
    Rep { h with mem := m' } s bs := by
  obtain ⟨g, t, l, ss, en, es, na, fe⟩ := r
  refine ⟨g.of_eq rfl rfl rfl rfl, t, ?_, ?_, ?_, ?_, na, fe⟩
  · show Linked m' h.startAddr bs h.pxEnd
    refine linked_repoint l (load64_congr fun i h1 h2 => hm i (.inl (by omega))) ?_
    intro c hc
    exact ⟨load64_congr fun i h1 h2 => hm i (.inr (.inr ⟨c, hc, by omega, by omega⟩)),
      load64_congr fun i h1 h2 => hm i (.inr (.inr ⟨c, hc, by omega, by omega⟩))⟩
  · show load64 m' (h.startAddr + 8) = 0
    rw [load64_congr (m := h.mem) fun i h1 h2 => hm i (.inl (by omega)), ss]
  · show load64 m' h.pxEnd = protect 0
    rw [load64_congr (m := h.mem) fun i h1 h2 => hm i (.inr (.inl (by omega))), en]
  · show load64 m' (h.pxEnd + 8) = 0
    rw [load64_congr (m := h.mem) fun i h1 h2 => hm i (.inr (.inl (by omega))), es]

/-- Writing into the payload of a block. -/
theorem Rep.payload {h : Heap} {s : Nat} {bs : List Blk} {m' : Mem} {c : Blk} (r : Rep h s bs) (hc : c ∈ bs)
    (hm : ∀ x, x < c.addr + 16 ∨ c.addr + c.size ≤ x → m' x = h.mem x) :
    Rep { h with mem := m' } s bs := by
  refine r.frame ?_
  intro x hx
  apply hm
  obtain ⟨g1, g2, g3, g4, g5, g6, g7, g8, g9, g10, g11, g12⟩ := r.geo
  have hcm := tiles_mem r.tiles c hc
  rcases hx with hx | hx | ⟨d, hd, hx⟩
  · omega
  · omega
  · have hdm := tiles_mem r.tiles d hd
    rcases tiles_disj r.tiles c hc d hd with rfl | hh | hh <;> omega

theorem linked_size {m : Mem} {bs : List Blk} {t : Nat} : ∀ {p : Nat}, Linked m p bs t → ∀ c ∈ bs,
    c.free = true → load64 m (c.addr + 8) = c.size := by
  induction bs with
  | nil => intro p _ c hc; simp at hc
  | cons b bs ih =>
    intro p h c hc hf
    simp only [Linked] at h
    split at h
    · rcases List.mem_cons.mp hc with rfl | hc
      · exact h.2.1
      · exact ih h.2.2 c hc hf
    · rename_i hnf
      rcases List.mem_cons.mp hc with rfl | hc
      · exact absurd hf hnf
      · exact ih h.2.2 c hc hf

/-- The block of a live allocation. -/
def Live.blk (l : Live) : Blk := ⟨l.ptr - 16, l.cost, false⟩

/-- A pointer freed earlier whose header has not been reused. -/
structure Stale (h : Heap) (bs : List Blk) (p : Nat) : Prop where
  ge : 16 ≤ p
  al : p % 8 = 0
  inFree : ∃ c ∈ bs, c.free = true ∧ c.addr ≤ p - 16 ∧ p ≤ c.addr + c.size
  starts : ∀ x ∈ bs, x.addr = p - 16 ∨ x.addr + 16 ≤ p - 16 ∨ p ≤ x.addr
  clear : load64 h.mem (p - 8) < 2 ^ 63

structure WInv (size base st : Nat) (w : World) (bs : List Blk) : Prop where
  rep : Rep w.heap (areaLo base) bs
  size_eq : w.heap.size = size
  base_eq : w.heap.base = base
  st_eq : w.heap.startAddr = st
  end_eq : w.heap.pxEnd = areaHi size base
  perm : (w.live.map Live.blk).Perm (used bs)
  lives : ∀ l ∈ w.live, 16 ≤ l.ptr ∧ 0 < l.len ∧ l.len + 16 ≤ l.cost ∧ l.cost ≤ l.len + 55
  frees_head : w.frees.head? = some w.heap.freeBytes
  min_mem : w.heap.minEver ∈ w.frees
  min_le : ∀ f ∈ w.frees, w.heap.minEver ≤ f
  wrote : ∀ l ∈ w.live, ∀ a, l.ptr ≤ a → a < l.ptr + l.len → ∀ v, w.wrote a = some v → w.heap.mem a = v
  stale : ∀ p ∈ w.freed, Stale w.heap bs p

theorem WInv.live_blk {size base st : Nat} {w : World} {bs : List Blk} (i : WInv size base st w bs) {l : Live}
    (hl : l ∈ w.live) : l.blk ∈ bs ∧ l.blk.free = false := by
  have : l.blk ∈ w.live.map Live.blk := List.mem_map_of_mem hl
  exact mem_used.mp ((i.perm.mem_iff).mp this)

theorem taken_facts {b : Blk} {n : Nat} (h : need n ≤ b.size) (h8 : b.size % 8 = 0) :
    n + 16 ≤ taken b (need n) ∧ taken b (need n) ≤ n + 55 ∧ taken b (need n) ≤ b.size ∧
      taken b (need n) % 8 = 0 := by
  have := need_facts n
  unfold taken
  split <;> omega

/-- After a successful allocation, with the payload possibly overwritten (`callocate`). -/
theorem WInv.alloc {size base st : Nat} {w : World} {pre post : List Blk} {b : Blk} {n : Nat} {h' : Heap} {m'' : Mem}
    {z : Option Byte}
    (i : WInv size base st w (pre ++ b :: post)) (hf : b.free = true) (hn : 0 < n) (hneed : need n ≤ b.size)
    (r : Rep h' (areaLo base) (pre ++ cut b (need n) ++ post)) (ef : AllocEff w.heap h' (taken b (need n)))
    (of : OnlyFree w.heap (pre ++ b :: post) h'.mem)
    (hm : ∀ x, x < b.addr + 16 ∨ b.addr + 16 + n ≤ x → m'' x = h'.mem x)
    (hz : ∀ x v, b.addr + 16 ≤ x → x < b.addr + 16 + n → z = some v → m'' x = v) :
    WInv size base st (w.afterAlloc { h' with mem := m'' } (b.addr + 16) n z)
      (pre ++ cut b (need n) ++ post) := by
  have hb := tiles_mem i.rep.tiles b (by simp)
  have htk := taken_facts hneed hb.2.2.2.1
  have hfree : taken b (need n) ≤ w.heap.freeBytes := by
    rw [i.rep.free_eq]
    have := mem_freeSum (bs := pre ++ b :: post) (b := b) (by simp) hf
    omega
  have hcost : w.heap.freeHeapSize - h'.freeBytes = taken b (need n) := by
    unfold Heap.freeHeapSize; rw [ef.freeBytes]; omega
  have hnew : (⟨b.addr, taken b (need n), false⟩ : Blk) ∈ pre ++ cut b (need n) ++ post := by
    unfold cut taken; split <;> simp
  have hp0 : b.addr + 16 ≠ 0 := by omega
  unfold World.afterAlloc
  rw [if_neg hp0]
  have hlive : (⟨b.addr + 16, n, w.heap.freeHeapSize - h'.freeBytes⟩ : Live).blk =
      ⟨b.addr, taken b (need n), false⟩ := by
    rw [hcost]; simp [Live.blk]
  -- bytes of other live blocks
  have hframe : ∀ l ∈ w.live, ∀ a, l.ptr ≤ a → a < l.ptr + l.len →
      (a < b.addr ∨ b.addr + b.size ≤ a) ∧ m'' a = w.heap.mem a := by
    intro l hl a h1 h2
    obtain ⟨hlb, hlf⟩ := i.live_blk hl
    have hll := i.lives l hl
    have hlm := tiles_mem i.rep.tiles _ hlb
    have hdis : ∀ c ∈ pre ++ b :: post, c.free = true → a < c.addr ∨ c.addr + c.size ≤ a := by
      intro c hc hcf
      rcases tiles_disj i.rep.tiles _ hlb c hc with he | he | he
      · rw [← he, hlf] at hcf; exact absurd hcf (by simp)
      · simp only [Live.blk] at he; omega
      · simp only [Live.blk] at he; omega
    have hab := hdis b (by simp) hf
    refine ⟨hab, ?_⟩
    rw [hm a (by omega)]
    obtain ⟨g1, g2, g3, g4, g5, g6, g7, g8, g9, g10, g11, g12⟩ := i.rep.geo
    simp only [Live.blk] at hlm
    exact of a (by omega) hdis
  constructor
  · refine r.payload hnew ?_
    intro x hx
    simp only at hx
    exact hm x (by omega)
  · show h'.size = size; rw [ef.size, i.size_eq]
  · show h'.base = base; rw [ef.base, i.base_eq]
  · show h'.startAddr = st; rw [ef.startAddr, i.st_eq]
  · show h'.pxEnd = _; rw [ef.pxEnd, i.end_eq]
  · simp only [List.map_cons]
    have hl2 : (⟨b.addr + 16, n, w.heap.freeHeapSize - (Heap.freeHeapSize { h' with mem := m'' })⟩ : Live).blk =
      ⟨b.addr, taken b (need n), false⟩ := hlive
    rw [hl2]
    obtain ⟨us, vs, hu1, hu2⟩ := used_cut (pre := pre) (post := post) (w := need n) hf
    rw [hu2]
    refine (List.Perm.trans ?_ List.perm_middle.symm)
    rw [← hu1]
    exact i.perm.cons _
  · intro l hl
    rcases List.mem_cons.mp hl with rfl | hl
    · simp only
      have hc2 : w.heap.freeHeapSize - (Heap.freeHeapSize { h' with mem := m'' }) = taken b (need n) := hcost
      rw [hc2]; omega
    · exact i.lives l hl
  · rfl
  · show h'.minEver ∈ h'.freeBytes :: w.frees
    rw [ef.minEver, ef.freeBytes]
    have := i.min_mem
    rcases Nat.le_total w.heap.minEver (w.heap.freeBytes - taken b (need n)) with h | h
    · rw [Nat.min_eq_left h]; exact List.mem_cons_of_mem _ this
    · rw [Nat.min_eq_right h]; simp
  · intro f hfm
    show h'.minEver ≤ f
    have hfm' : f ∈ h'.freeBytes :: w.frees := hfm
    rw [ef.minEver]
    rcases List.mem_cons.mp hfm' with rfl | hfm'
    · rw [ef.freeBytes]; omega
    · have := i.min_le f hfm'; omega
  · intro l hl a h1 h2 v hv
    simp only at hl hv
    show m'' a = v
    rcases List.mem_cons.mp hl with rfl | hl
    · simp only at h1 h2
      rw [if_pos ⟨h1, h2⟩] at hv
      exact hz a v h1 h2 hv
    · obtain ⟨h3, h4⟩ := hframe l hl a h1 h2
      rw [if_neg (by omega)] at hv
      rw [h4]
      exact i.wrote l hl a h1 h2 v hv
  · intro p hp; simp at hp

/-- After a failed allocation. -/
theorem WInv.fail {size base st : Nat} {w : World} {bs : List Blk} {n : Nat} {z : Option Byte}
    {h' : Heap} (i : WInv size base st w bs) (e1 : h'.size = w.heap.size)
    (e2 : h'.base = w.heap.base) (e3 : h'.startAddr = w.heap.startAddr) (e4 : h'.pxEnd = w.heap.pxEnd)
    (e5 : h'.mem = w.heap.mem) (e6 : h'.freeBytes = w.heap.freeBytes) (e7 : h'.minEver = w.heap.minEver) :
    WInv size base st (w.afterAlloc h' 0 n z) bs := by
  unfold World.afterAlloc
  rw [if_pos rfl]
  have hfree : h'.freeHeapSize = w.heap.freeBytes := e6
  rw [hfree]
  have hh : w.heap.freeBytes ∈ w.frees := List.mem_of_mem_head? i.frees_head
  constructor
  · exact i.rep.congr e1 e2 e3 e4 e5 e6
  · exact e1.trans i.size_eq
  · exact e2.trans i.base_eq
  · exact e3.trans i.st_eq
  · exact e4.trans i.end_eq
  · exact i.perm
  · exact i.lives
  · show some _ = some h'.freeBytes
    rw [e6]
  · show h'.minEver ∈ _ :: w.frees
    rw [e7]; exact List.mem_cons_of_mem _ i.min_mem
  · intro f hf
    show h'.minEver ≤ f
    rw [e7]
    rcases List.mem_cons.mp hf with rfl | hf
    · exact i.min_le _ hh
    · exact i.min_le f hf
  · intro l hl a h1 h2 v hv
    show h'.mem a = v
    rw [e5]; exact i.wrote l hl a h1 h2 v hv
  · intro p hp
    obtain ⟨s1, s2, s3, s4, s5⟩ := i.stale p hp
    exact ⟨s1, s2, s3, s4, by show load64 h'.mem _ < _; rw [e5]; exact s5⟩

/-- After freeing a live block. -/
theorem WInv.dealloc {size base st : Nat} {w : World} {pre post : List Blk} {b : Blk} {l : Live} {h' : Heap}
    (i : WInv size base st w (pre ++ b :: post)) (hl : l ∈ w.live) (hlb : l.blk = b)
    (r : Rep h' (areaLo base) (release pre b post)) (ef : FreeEff w.heap h' b.size)
    (oh : OnlyHdr w.heap (release pre b post) b h'.mem) (hcl : load64 h'.mem (b.addr + 8) < 2 ^ 63) :
    WInv size base st
      { heap := h', live := w.live.filter (fun k => k.ptr ≠ l.ptr),
        frees := h'.freeHeapSize :: w.frees,
        freed := if l.ptr = 0 then w.freed else l.ptr :: w.freed, wrote := w.wrote }
      (release pre b post) := by
  have hll := i.lives l hl
  have hbf : b.free = false := by rw [← hlb]; rfl
  have hba : b.addr = l.ptr - 16 := by rw [← hlb]; rfl
  have hbm : b ∈ pre ++ b :: post := by simp
  have hbt := tiles_mem i.rep.tiles b hbm
  obtain ⟨g1, g2, g3, g4, g5, g6, g7, g8, g9, g10, g11, g12⟩ := i.rep.geo
  -- stale headers keep their mark clear
  have hst : ∀ p ∈ w.freed, Stale h' (release pre b post) p := by
    intro p hp
    obtain ⟨s1, s2, ⟨c, hc, hcf, hc1, hc2⟩, s4, s5⟩ := i.stale p hp
    obtain ⟨c', hc', hcf', hc1', hc2'⟩ := release_sup i.rep.tiles hc (.inl hcf)
    have hstarts : ∀ x ∈ release pre b post, x.addr = p - 16 ∨ x.addr + 16 ≤ p - 16 ∨ p ≤ x.addr := by
      intro x hx
      obtain ⟨x', hx', hxa, _⟩ := release_sub hx
      have := s4 x' hx'
      omega
    have hcm := tiles_mem i.rep.tiles c hc
    refine ⟨s1, s2, ⟨c', hc', hcf', by omega, by omega⟩, hstarts, ?_⟩
    by_cases hex : c'.addr = p - 16
    · have := linked_size r.linked c' hc' hcf'
      have hcm' := tiles_mem r.tiles c' hc'
      rw [ef.pxEnd] at hcm'
      rw [show p - 8 = c'.addr + 8 by omega, this]
      omega
    · have hbne : b.addr + 16 ≤ p - 16 ∨ p ≤ b.addr := by
        rcases s4 b hbm with h | h | h
        · exfalso
          rcases tiles_disj i.rep.tiles b hbm c hc with he | he | he
          · rw [he, hcf] at hbf; exact absurd hbf (by simp)
          · omega
          · omega
        · exact .inl h
        · exact .inr h
      have : load64 h'.mem (p - 8) = load64 w.heap.mem (p - 8) := by
        refine load64_congr ?_
        intro x hx1 hx2
        refine oh x (by omega) (by omega) ?_
        intro d hd hdf
        rcases hstarts d hd with h | h | h
        · exfalso
          have hdm := tiles_mem r.tiles d hd
          have hcm' := tiles_mem r.tiles c' hc'
          rcases tiles_disj r.tiles d hd c' hc' with he | he | he
          · exact hex (by rw [← he]; exact h)
          · omega
          · omega
        · omega
        · omega
      rw [this]; exact s5
  have hnewstale : Stale h' (release pre b post) l.ptr := by
    obtain ⟨c', hc', hcf', hc1', hc2'⟩ := release_sup i.rep.tiles hbm (.inr rfl)
    refine ⟨hll.1, by omega, ⟨c', hc', hcf', by omega, by omega⟩, ?_, ?_⟩
    · intro x hx
      obtain ⟨x', hx', hxa, _⟩ := release_sub hx
      have hxm := tiles_mem i.rep.tiles x' hx'
      rcases tiles_disj i.rep.tiles b hbm x' hx' with he | he | he
      · left; rw [← hxa, ← he]; exact hba
      · omega
      · omega
    · rw [show l.ptr - 8 = b.addr + 8 by omega]; exact hcl
  have hframe : ∀ k ∈ w.live, k.ptr ≠ l.ptr → ∀ a, k.ptr ≤ a → a < k.ptr + k.len → h'.mem a = w.heap.mem a := by
    intro k hk hne a h1 h2
    obtain ⟨hkb, hkf⟩ := i.live_blk hk
    have hkl := i.lives k hk
    have hkm := tiles_mem i.rep.tiles _ hkb
    simp only [Live.blk] at hkm
    have hdis : ∀ c ∈ pre ++ b :: post, (c.free = true ∨ c = b) → a < c.addr ∨ c.addr + c.size ≤ a := by
      intro c hc hcf
      rcases tiles_disj i.rep.tiles _ hkb c hc with he | he | he
      · rcases hcf with hcf | rfl
        · rw [← he, hkf] at hcf; exact absurd hcf (by simp)
        · rw [← hlb] at he
          simp only [Live.blk, Blk.mk.injEq] at he
          omega
      · simp only [Live.blk] at he; omega
      · simp only [Live.blk] at he; omega
    have hbd := hdis b hbm (.inr rfl)
    refine oh a (by omega) (by omega) ?_
    intro c hc hcf
    obtain ⟨c', hc', hca, _, hcc⟩ := release_sub hc
    have := hdis c' hc' (hcc hcf)
    have hcm := tiles_mem i.rep.tiles c' hc'
    omega
  constructor
  · exact r
  · exact ef.size.trans i.size_eq
  · exact ef.base.trans i.base_eq
  · exact ef.startAddr.trans i.st_eq
  · exact ef.pxEnd.trans i.end_eq
  · rw [used_release]
    have hp := i.perm
    rw [used_append] at hp
    have hub : used (b :: post) = b :: used post := by simp [used, hbf]
    rw [hub] at hp
    have hp2 := hp.filter (fun c => decide (c.addr ≠ b.addr))
    have hnot : ∀ xs : List Blk, (∀ x ∈ xs, x.addr ≠ b.addr) →
        xs.filter (fun c => decide (c.addr ≠ b.addr)) = xs := by
      intro xs hxs
      exact List.filter_eq_self.mpr (fun x hx => by simpa using hxs x hx)
    obtain ⟨mid, t1, e1, e2, e3, e4⟩ := tiles_append.mp i.rep.tiles
    rw [List.filter_append, List.filter_cons_of_neg (by simp), hnot (used pre), hnot (used post)] at hp2
    · rw [List.filter_map] at hp2
      have hcg : List.filter ((fun c => decide (c.addr ≠ b.addr)) ∘ Live.blk) w.live =
          w.live.filter (fun k => k.ptr ≠ l.ptr) := by
        apply List.filter_congr
        intro k hk
        have := i.lives k hk
        have hiff : k.blk.addr ≠ b.addr ↔ k.ptr ≠ l.ptr := by
          show k.ptr - 16 ≠ b.addr ↔ _
          omega
        show decide (k.blk.addr ≠ b.addr) = decide (k.ptr ≠ l.ptr)
        exact decide_eq_decide.mpr hiff
      rw [hcg] at hp2
      exact hp2
    · intro x hx
      have := tiles_mem e4 x (mem_used.mp hx).1
      omega
    · intro x hx
      have := tiles_mem t1 x (mem_used.mp hx).1
      omega
  · intro k hk
    exact i.lives k (List.mem_filter.mp hk).1
  · rfl
  · show h'.minEver ∈ h'.freeBytes :: w.frees
    rw [ef.minEver]; exact List.mem_cons_of_mem _ i.min_mem
  · intro f hf
    show h'.minEver ≤ f
    have hf' : f ∈ h'.freeBytes :: w.frees := hf
    rw [ef.minEver]
    rcases List.mem_cons.mp hf' with rfl | hf'
    · rw [ef.freeBytes]
      have := i.min_le _ (List.mem_of_mem_head? i.frees_head)
      omega
    · exact i.min_le f hf'
  · intro k hk a h1 h2 v hv
    simp only at hk hv
    have hk' := List.mem_filter.mp hk
    show h'.mem a = v
    rw [hframe k hk'.1 (by simpa using hk'.2) a h1 h2]
    exact i.wrote k hk'.1 a h1 h2 v hv
  · intro p hp
    simp only at hp
    rw [if_neg (by omega)] at hp
    rcases List.mem_cons.mp hp with rfl | hp
    · exact hnewstale
    · exact hst p hp

end Verif.Heap
