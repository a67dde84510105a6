import Verif.Heap.Helpers
import Verif.Heap.Demo

/-!
Properties C01–C17: `static_heap`.

Vocabulary (`Verif.Heap.Client`): `Layout`/`Roomy` say where the heap object lives, `Reach` is
reachability by legal client calls, `World.live` the live allocations, `Gap` a maximal gap between
live blocks, `required n` the bytes a gap must offer for `n` bytes.
-/
namespace Verif.Heap

variable {size base st : Nat} {w w' : World}

/-- An address outside both the buffer and `x_start_`. -/
def Outside (size base st x : Nat) : Prop := (x < base ∨ base + size ≤ x) ∧ (x < st ∨ st + 16 ≤ x)

/-- **C01.** The constructor and every legal call return normally (no undefined behaviour, no
endless loop), and memory outside the heap object is not written. -/
theorem C01_safe_and_terminating (hl : Layout size base st) (hr : Roomy size base) :
    (∀ mem, ∃ h, Heap.construct size base st mem = .ok h ∧
      ∀ x, Outside size base st x → h.mem x = mem x) ∧
    ∀ w, Reach size base st w → ∀ op, Legal w op →
      ∃ w' p, w.step op = .ok (w', p) ∧ ∀ x, Outside size base st x → w'.heap.mem x = w.heap.mem x := by
  constructor
  · intro mem
    obtain ⟨h, h1, _, h2⟩ := construct_outside (m := mem) hl (by unfold Roomy at hr; omega)
    exact ⟨h, h1, fun x hx => h2 x hx.1 hx.2⟩
  · intro w hw op hop
    obtain ⟨bs, i⟩ := reach_inv hl hr hw
    obtain ⟨w', p, _, h, _⟩ := inv_step i hop
    exact ⟨w', p, h, fun x hx => step_outside i hop h x hx.1 hx.2⟩

example : ∃ w, Layout 256 4099 8192 ∧ Roomy 256 4099 ∧ Reach 256 4099 8192 w ∧ Legal w (.free 4192) ∧
    Legal w (.write 4200 1) ∧ Legal w (.alloc (2 ^ 64 - 1)) := by
  obtain ⟨w, h1, _, h2, _⟩ := demo_world
  exact ⟨w, demo_layout, demo_roomy, h1, .inr (by rw [h2]; decide), by rw [Legal, h2]; decide,
    by rw [Legal]; decide⟩

/-- **C02.** A non-null pointer returned for `n` bytes is 8-aligned and the `n` bytes lie in the
buffer; likewise for `callocate`. -/
theorem C02_inside_and_aligned (hl : Layout size base st) (hr : Roomy size base) (hw : Reach size base st w) :
    (∀ n h' p, n < 2 ^ 64 → w.heap.allocate n = .ok (h', p) → p ≠ 0 →
      p % 8 = 0 ∧ base ≤ p ∧ p + n ≤ base + size) ∧
    (∀ k n h' p, k < 2 ^ 64 → n < 2 ^ 64 → w.heap.callocate k n = .ok (h', p) → p ≠ 0 →
      p % 8 = 0 ∧ base ≤ p ∧ p + k * n ≤ base + size) := by
  obtain ⟨bs, i⟩ := reach_inv hl hr hw
  have key : ∀ b ∈ bs, ∀ n, need n ≤ b.size → (b.addr + 16) % 8 = 0 ∧ base ≤ b.addr + 16 ∧
      b.addr + 16 + n ≤ base + size := by
    intro b hb n hn
    have := blk_in i hb
    have := tiles_mem i.rep.tiles b hb
    have := need_facts n
    have := i.rep.geo.s8
    omega
  constructor
  · intro n h' p hn ha hp
    rcases inv_alloc i (n := n) hn with ⟨pre, b, post, h'', e, h1, h2, h3, h4, h5, _⟩ | ⟨_, h2, _⟩
    · rw [ha] at h5
      have h5 := Res.ok.inj h5
      simp only [Prod.mk.injEq] at h5
      rw [h5.2]
      exact key b (by rw [e]; simp) n h3
    · rw [ha] at h2
      have h2 := Res.ok.inj h2
      simp only [Prod.mk.injEq] at h2
      exact absurd h2.2 hp
  · intro k n h' p _ _ ha hp
    rcases inv_calloc i (k := k) (n := n) with
      ⟨pre, b, post, h'', e, h1, h1', h2, h3, h4, h5, _⟩ | ⟨_, _, h2, _⟩ | ⟨_, h2, _⟩
    · rw [ha] at h5
      have h5 := Res.ok.inj h5
      simp only [Prod.mk.injEq] at h5
      rw [h5.2]
      exact key b (by rw [e]; simp) _ h3
    · rw [ha] at h2
      have h2 := Res.ok.inj h2
      simp only [Prod.mk.injEq] at h2
      exact absurd h2.2 hp
    · rw [ha] at h2
      have h2 := Res.ok.inj h2
      simp only [Prod.mk.injEq] at h2
      exact absurd h2.2 hp

example : ∃ h h' p, Heap.construct 256 4099 8192 (fun _ => 0) = .ok h ∧ h.allocate 100 = .ok (h', p) ∧
    p ≠ 0 := by
  have : (match Heap.construct 256 4099 8192 (fun _ => 0) with
    | .ok h => (match h.allocate 100 with | .ok (_, p) => p | _ => 0) | _ => 0) ≠ 0 := by decide +kernel
  split at this
  · rename_i h hc
    split at this
    · rename_i h' p ha
      exact ⟨h, h', p, hc, ha, this⟩
    · exact absurd rfl this
  · exact absurd rfl this

/-- **C03.** Live blocks (even with their headers) never overlap, and their payloads lie inside
them. -/
theorem C03_disjoint (hl : Layout size base st) (hr : Roomy size base) (hw : Reach size base st w) :
    w.live.Pairwise (fun l k => l.ptr + l.len ≤ k.ptr ∨ k.ptr + k.len ≤ l.ptr) ∧
    w.live.Pairwise (fun l k => l.stop ≤ k.start ∨ k.stop ≤ l.start) ∧
    ∀ l ∈ w.live, 0 < l.len ∧ l.start + 16 = l.ptr ∧ l.ptr + l.len ≤ l.stop ∧ base ≤ l.start ∧
      l.stop ≤ base + size := by
  obtain ⟨bs, i⟩ := reach_inv hl hr hw
  have hp := live_pairwise i
  have hin : ∀ l ∈ w.live, 0 < l.len ∧ l.start + 16 = l.ptr ∧ l.ptr + l.len ≤ l.stop ∧ base ≤ l.start ∧
      l.stop ≤ base + size := by
    intro l hlv
    have := i.lives l hlv
    have := blk_in i (i.live_blk hlv).1
    simp only [Live.blk] at this
    unfold Live.start Live.stop
    omega
  refine ⟨?_, hp, hin⟩
  refine hp.imp_of_mem ?_
  intro l k h1 h2 h
  have := hin l h1
  have := hin k h2
  unfold Live.stop Live.start at *
  omega

example : ∃ w, Reach 256 4099 8192 w ∧ w.live = [⟨4192, 17, 40⟩, ⟨4120, 10, 32⟩] := by
  obtain ⟨w, h1, _, h2, _⟩ := demo_world
  exact ⟨w, h1, h2⟩

/-- **C04.** Calls other than the client's own writes do not change the bytes of blocks that are
live before and after, and a live byte the client has written (or `callocate` has zeroed) still
holds that value. -/
theorem C04_contents_preserved (hl : Layout size base st) (hr : Roomy size base) (hw : Reach size base st w) :
    (∀ op w' p, Legal w op → (∀ a v, op ≠ .write a v) → w.step op = .ok (w', p) →
      ∀ l ∈ w.live, l ∈ w'.live → ∀ a, l.ptr ≤ a → a < l.ptr + l.len → w'.heap.mem a = w.heap.mem a) ∧
    (∀ l ∈ w.live, ∀ a, l.ptr ≤ a → a < l.ptr + l.len → ∀ v, w.wrote a = some v → w.heap.mem a = v) := by
  obtain ⟨bs, i⟩ := reach_inv hl hr hw
  exact ⟨fun op w' p hop hne hs => step_live i hop hne hs, i.wrote⟩

example : (demo demoOps).bind (fun w => w.wrote 4125) = some 7 ∧
    (demo demoOps).map (fun w => w.heap.mem 4125) = some 7 := by decide +kernel

/-- **C05.** `free_heap_size()` plus the sizes of the blocks held is the initial free size; a block
held for `n` bytes is a multiple of 8 between `n+16` and `n+55`; freeing gives its size back. -/
theorem C05_free_size_exact (hl : Layout size base st) (hr : Roomy size base) (hw : Reach size base st w)
    {mem : Mem} {h0 : Heap} (h0c : Heap.construct size base st mem = .ok h0) :
    w.heap.freeHeapSize + (w.live.map Live.cost).sum = h0.freeHeapSize ∧
    (∀ l ∈ w.live, l.cost % 8 = 0 ∧ l.len + 16 ≤ l.cost ∧ l.cost ≤ l.len + 55) ∧
    (∀ l ∈ w.live, ∃ h', w.heap.deallocate l.ptr = .ok h' ∧
      h'.freeHeapSize = w.heap.freeHeapSize + l.cost) := by
  obtain ⟨bs, i⟩ := reach_inv hl hr hw
  refine ⟨?_, ?_, ?_⟩
  · obtain ⟨h, h1, h2, _⟩ := construct_outside (m := mem) hl (by unfold Roomy at hr; omega)
    rw [h0c] at h1
    have h1 := Res.ok.inj h1
    subst h1
    show w.heap.freeBytes + _ = h0.freeBytes
    rw [h2, live_sum i, i.rep.free_eq]
    have := tiles_sum i.rep.tiles
    rw [i.end_eq] at this
    omega
  · intro l hlv
    have := i.lives l hlv
    have := tiles_mem i.rep.tiles _ (i.live_blk hlv).1
    simp only [Live.blk] at this
    omega
  · intro l hlv
    obtain ⟨_, _, h', _, h2, _, h4, _⟩ := inv_free i hlv
    exact ⟨h', h2, h4.freeBytes⟩

/-- **C06.** When nothing is live, `free_heap_size()` is back at its initial value, and (unless
that is only 16) one allocation can have all of it. -/
theorem C06_all_freed_restores (hl : Layout size base st) (hr : Roomy size base) (hw : Reach size base st w)
    {mem : Mem} {h0 : Heap} (h0c : Heap.construct size base st mem = .ok h0) (hlive : w.live = []) :
    w.heap.freeHeapSize = h0.freeHeapSize ∧
    (16 < h0.freeHeapSize → ∃ h' p, w.heap.allocate (h0.freeHeapSize - 16) = .ok (h', p) ∧ p ≠ 0) := by
  have hfree : w.heap.freeHeapSize = h0.freeHeapSize := by
    have := (C05_free_size_exact hl hr hw h0c).1
    rw [hlive] at this; simpa using this
  refine ⟨hfree, ?_⟩
  intro h16
  obtain ⟨bs, i⟩ := reach_inv hl hr hw
  have haf := area_facts size base (by unfold Roomy at hr; omega)
  obtain ⟨h, h1, h2, _⟩ := construct_outside (m := mem) hl (by unfold Roomy at hr; omega)
  rw [h0c] at h1
  have h1 := Res.ok.inj h1
  subst h1
  have hu : used bs = [] := by
    have := i.perm
    rw [hlive] at this
    exact (List.nil_perm.mp this)
  have hpe := i.end_eq
  have hs : h0.freeHeapSize = areaHi size base - areaLo base := h2
  have hbs := tiles_no_used i.rep.tiles i.rep.noAdj hu (by omega)
  have hW := hl.fits
  have hne : need (h0.freeHeapSize - 16) = h0.freeHeapSize := by
    unfold need; omega
  rcases inv_alloc i (n := h0.freeHeapSize - 16) (by rw [W_eq]; omega) with
    ⟨pre, b, post, h', e, _, _, _, _, h5, _⟩ | ⟨h3, _⟩
  · exact ⟨h', _, h5, by omega⟩
  · exfalso
    rcases h3 with h3 | h3
    · omega
    · rw [hne] at h3
      have := h3 ⟨areaLo base, w.heap.pxEnd - areaLo base, true⟩ (by rw [hbs]; simp) rfl
      simp only at this
      omega

example : ∃ w, Reach 256 4099 8192 w ∧ w.live = [] ∧ w.freed = [4120, 4192, 4152] := by
  have h : (demo (demoOps ++ [.free 4192, .free 4120])).map (fun w => (w.live, w.freed)) =
    some ([], [4120, 4192, 4152]) := by decide +kernel
  cases hd : demo (demoOps ++ [.free 4192, .free 4120]) with
  | none => rw [hd] at h; simp at h
  | some w =>
    rw [hd] at h
    simp only [Option.map_some, Option.some.injEq, Prod.mk.injEq] at h
    exact ⟨w, demo_reach hd, h.1, h.2⟩

/-- **C07.** The low-water mark is the minimum of the values `free_heap_size()` has had since
construction or the last reset (`World.frees`, which ends with the current value). -/
theorem C07_low_water_mark (hl : Layout size base st) (hr : Roomy size base) (hw : Reach size base st w) :
    w.heap.minimumEverFreeHeapSize ∈ w.frees ∧ (∀ f ∈ w.frees, w.heap.minimumEverFreeHeapSize ≤ f) ∧
    w.frees.head? = some w.heap.freeHeapSize := by
  obtain ⟨bs, i⟩ := reach_inv hl hr hw
  exact ⟨i.min_mem, i.min_le, i.frees_head⟩

example : (demo demoOps).map (fun w => (w.frees, w.heap.minimumEverFreeHeapSize)) =
    some ([160, 160, 160, 120, 160, 200, 232], 120) := by decide +kernel

/-- **C08.** Requests of 0 bytes, and requests whose size with header and padding has bit 63 set
or does not fit 64 bits, return null and change nothing but the callback count. -/
theorem C08_bad_requests_fail (hl : Layout size base st) (hr : Roomy size base) (hw : Reach size base st w)
    {n : Nat} (hn : n < 2 ^ 64) (hbad : n = 0 ∨ 2 ^ 63 ≤ required n) :
    ∃ h', w.heap.allocate n = .ok (h', 0) ∧ h' = { w.heap with callbackCalls := h'.callbackCalls } := by
  obtain ⟨bs, i⟩ := reach_inv hl hr hw
  rcases inv_alloc i (n := n) hn with ⟨pre, b, post, h'', e, h1, h2, h3, h4, h5, _⟩ | ⟨_, h2, _⟩
  · exfalso
    have hb := blk_in i (c := b) (by rw [e]; simp)
    have := hl.size_lt
    have : required n = need n := by unfold required need; omega
    omega
  · refine ⟨_, h2, ?_⟩
    unfold Heap.fireCallback
    split <;> rfl

example : (0 = 0 ∨ 2 ^ 63 ≤ required 0) ∧ 2 ^ 63 ≤ required (2 ^ 63 - 20) ∧ 2 ^ 63 ≤ required (2 ^ 64 - 1) := by
  decide

/-- **C09.** The failure callback is invoked once by an `allocate` that returns null while a
callback is registered, and not otherwise. -/
theorem C09_callback (hl : Layout size base st) (hr : Roomy size base) (hw : Reach size base st w)
    {n p : Nat} {h' : Heap} (hn : n < 2 ^ 64) (ha : w.heap.allocate n = .ok (h', p)) :
    h'.callback = w.heap.callback ∧
    h'.callbackCalls = w.heap.callbackCalls + (if p = 0 ∧ w.heap.callback = true then 1 else 0) := by
  obtain ⟨bs, i⟩ := reach_inv hl hr hw
  rcases inv_alloc i (n := n) hn with ⟨pre, b, post, h'', e, h1, h2, h3, h4, h5, h6, h7, _⟩ | ⟨_, h2, _⟩
  · rw [ha] at h5
    have h5 := Res.ok.inj h5
    simp only [Prod.mk.injEq] at h5
    obtain ⟨rfl, rfl⟩ := h5
    rw [if_neg (by omega)]
    exact ⟨h7.callback, by rw [h7.callbackCalls]; rfl⟩
  · rw [ha] at h2
    have h2 := Res.ok.inj h2
    simp only [Prod.mk.injEq] at h2
    obtain ⟨rfl, rfl⟩ := h2
    unfold Heap.fireCallback
    split <;> simp_all

example : (demo demoOps).map (fun w => (w.heap.callback, w.heap.callbackCalls)) = some (true, 2) := by
  decide +kernel

/-- **C10.** `allocate n` succeeds exactly when `n > 0` and some maximal gap between live blocks
is large enough, and then it returns the lowest such gap. -/
theorem C10_first_fit (hl : Layout size base st) (hr : Roomy size base) (hw : Reach size base st w)
    {n p : Nat} {h' : Heap} (hn : n < 2 ^ 64) (ha : w.heap.allocate n = .ok (h', p)) :
    (p ≠ 0 ↔ 0 < n ∧ ∃ a b, Gap w.live (areaLo base) (areaHi size base) a b ∧ required n ≤ b - a) ∧
    (p ≠ 0 → ∃ a b, Gap w.live (areaLo base) (areaHi size base) a b ∧ required n ≤ b - a ∧ p = a + 16 ∧
      ∀ a' b', Gap w.live (areaLo base) (areaHi size base) a' b' → required n ≤ b' - a' → a ≤ a') := by
  obtain ⟨bs, i⟩ := reach_inv hl hr hw
  have hreq : required n = need n := by unfold required need; omega
  rcases inv_alloc i (n := n) hn with ⟨pre, b, post, h'', e, h1, h2, h3, h4, h5, h6, h7, _⟩ | ⟨h1, h2, _⟩
  · rw [ha] at h5
    have h5 := Res.ok.inj h5
    simp only [Prod.mk.injEq] at h5
    obtain ⟨rfl, rfl⟩ := h5
    have hgap : Gap w.live (areaLo base) (areaHi size base) b.addr (b.addr + b.size) :=
      (gap_iff i).mpr ⟨b, by rw [e]; simp, h2, rfl, rfl⟩
    have hp : b.addr + 16 ≠ 0 := by omega
    refine ⟨⟨fun _ => ⟨h1, _, _, hgap, by omega⟩, fun _ => hp⟩, fun _ => ⟨_, _, hgap, by omega, rfl, ?_⟩⟩
    intro a' b' hg hb
    obtain ⟨c, hc, hcf, rfl, rfl⟩ := (gap_iff i).mp hg
    have t := i.rep.tiles
    rw [e] at hc t
    obtain ⟨mid, t1, t2⟩ := tiles_append.mp t
    have hmid := t2.1
    rcases List.mem_append.mp hc with hc | hc
    · have := h4 c hc hcf
      omega
    · have := tiles_mem t2 c hc
      omega
  · rw [ha] at h2
    have h2 := Res.ok.inj h2
    simp only [Prod.mk.injEq] at h2
    obtain ⟨rfl, rfl⟩ := h2
    refine ⟨⟨fun h => absurd rfl h, ?_⟩, fun h => absurd rfl h⟩
    rintro ⟨h3, a, b, hg, hb⟩
    exfalso
    obtain ⟨c, hc, hcf, rfl, rfl⟩ := (gap_iff i).mp hg
    rcases h1 with h1 | h1
    · omega
    · have := h1 c hc hcf
      omega

/-- In the demo world there are two gaps; 20 bytes fit both, 60 bytes only the second. -/
example : ∃ w, Reach 256 4099 8192 w ∧ Gap w.live (areaLo 4099) (areaHi 256 4099) 4136 4176 ∧
    Gap w.live (areaLo 4099) (areaHi 256 4099) 4216 4336 ∧ required 20 ≤ 4176 - 4136 ∧
    ¬ required 60 ≤ 4176 - 4136 := by
  obtain ⟨w, h1, _, h2, _⟩ := demo_world
  refine ⟨w, h1, ?_, ?_, by decide, by decide⟩ <;> rw [h2] <;> unfold Gap <;> decide

/-- **C11.** `callocate` returns null or `k*n` zeroed bytes; on overflow of `k*n` it returns null
and leaves the heap unchanged. -/
theorem C11_callocate (hl : Layout size base st) (hr : Roomy size base) (hw : Reach size base st w)
    {k n : Nat} (_hk : k < 2 ^ 64) (_hn : n < 2 ^ 64) :
    ∃ h' p, w.heap.callocate k n = .ok (h', p) ∧
      (p ≠ 0 → p + k * n ≤ base + size ∧ ∀ a, p ≤ a → a < p + k * n → h'.mem a = 0) ∧
      (2 ^ 64 ≤ k * n → p = 0 ∧ h' = w.heap) ∧
      (k * n < 2 ^ 64 → ∃ h'', w.heap.allocate (k * n) = .ok (h'', p)) := by
  obtain ⟨bs, i⟩ := reach_inv hl hr hw
  rcases inv_calloc i (k := k) (n := n) with
    ⟨pre, b, post, h', e, h1, h1', h2, h3, h4, h5, h6, _⟩ | ⟨h0, h1, h2, _⟩ | ⟨h1, h2, _⟩
  · rw [W_eq] at h1'
    refine ⟨_, _, h5, ?_, fun h => by omega, fun _ => ⟨_, h6⟩⟩
    intro _
    have hb := blk_in i (c := b) (by rw [e]; simp)
    have := need_facts (k * n)
    refine ⟨by omega, ?_⟩
    intro a h7 h8
    show (if _ then _ else _) = _
    rw [if_pos ⟨h7, h8⟩]
  · rw [W_eq] at h0
    refine ⟨_, _, h2, fun h => absurd rfl h, fun h => by omega, fun h => ?_⟩
    rcases inv_alloc i (n := k * n) (by rw [W_eq]; exact h) with ⟨pre, b, post, h'', e, g1, g2, g3, _⟩ | ⟨_, g2, _⟩
    · exfalso
      rcases h1 with h1 | h1
      · omega
      · have := h1 b (by rw [e]; simp) g2
        omega
    · exact ⟨_, g2⟩
  · rw [W_eq] at h1
    exact ⟨_, _, h2, fun h => absurd rfl h, fun _ => ⟨rfl, rfl⟩, fun h => by omega⟩

example : (2 ^ 40 < 2 ^ 64 ∧ 2 ^ 64 ≤ 2 ^ 40 * 2 ^ 40) ∧
    ((demo [.calloc 4 5]).map (fun w => (w.live, w.heap.mem 4139))) = some ([⟨4120, 20, 40⟩], 0) := by
  decide +kernel

/-- **C12.** Freeing again a pointer freed since the last successful allocation changes nothing. -/
theorem C12_double_free (hl : Layout size base st) (hr : Roomy size base) (hw : Reach size base st w)
    {p : Nat} (hp : p ∈ w.freed) : w.heap.deallocate p = .ok w.heap := by
  obtain ⟨bs, i⟩ := reach_inv hl hr hw
  exact stale_free i hp

/-- All three pointers of the history can be freed again at its end. -/
example : ∃ w, Reach 256 4099 8192 w ∧ 4120 ∈ w.freed ∧ 4192 ∈ w.freed ∧ 4152 ∈ w.freed := by
  have h : (demo (demoOps ++ [.free 4120, .free 4192])).map (fun w => w.freed) =
    some [4192, 4120, 4152] := by decide +kernel
  cases hd : demo (demoOps ++ [.free 4120, .free 4192]) with
  | none => rw [hd] at h; simp at h
  | some w =>
    rw [hd] at h
    simp only [Option.map_some, Option.some.injEq] at h
    exact ⟨w, demo_reach hd, by rw [h]; decide⟩

/-- **C13.** Allocating and at once freeing the block leaves the same live blocks (hence the same
gaps) and free size, and every legal continuation returns the same pointers and sizes. -/
theorem C13_alloc_free_identity (hl : Layout size base st) (hr : Roomy size base) (hw : Reach size base st w)
    {n p : Nat} {w1 w2 : World} (hn : n < 2 ^ 64) (h1 : w.step (.alloc n) = .ok (w1, p)) (hp : p ≠ 0)
    (h2 : w1.step (.free p) = .ok (w2, 0)) :
    w2.live = w.live ∧ w2.heap.freeHeapSize = w.heap.freeHeapSize ∧
    ∀ ops, LegalRun w ops → ∃ v v2 o o2, w.run ops = .ok (v, o) ∧ w2.run ops = .ok (v2, o2) ∧
      o2.map (fun x => (x.ptr, x.free)) = o.map (fun x => (x.ptr, x.free)) := by
  obtain ⟨bs, i⟩ := reach_inv hl hr hw
  rcases inv_alloc i (n := n) hn with ⟨pre, b, post, h', e, a1, a2, a3, a4, a5, a6, a7, a8, a9⟩ | ⟨_, a2, _⟩
  · rw [step_alloc a5] at h1
    have h1 := Res.ok.inj h1
    simp only [Prod.mk.injEq] at h1
    obtain ⟨rfl, rfl⟩ := h1
    have hlv : (w.afterAlloc h' (b.addr + 16) n none).live =
        ⟨b.addr + 16, n, w.heap.freeHeapSize - h'.freeHeapSize⟩ :: w.live := afterAlloc_live hp
    obtain ⟨pre', post', k', e', f2, f3, f4, f5, f6⟩ := inv_free a9
      (l := ⟨b.addr + 16, n, w.heap.freeHeapSize - h'.freeHeapSize⟩) (by rw [hlv]; simp)
    rw [step_free f2] at h2
    have h2 := Res.ok.inj h2
    simp only [Prod.mk.injEq, and_true] at h2
    have hcost : w.heap.freeHeapSize - h'.freeHeapSize = taken b (need n) := by
      show w.heap.freeBytes - h'.freeBytes = _
      have hb := tiles_mem i.rep.tiles b (by rw [e]; simp)
      have := taken_facts a3 hb.2.2.2.1
      have : b.size ≤ w.heap.freeBytes := by
        rw [i.rep.free_eq]; exact mem_freeSum (by rw [e]; simp) a2
      rw [a7.freeBytes]; omega
    have na := i.rep.noAdj
    rw [e] at na
    obtain ⟨rest, r1, r2⟩ := release_cut a2 a3 na
    have hblk : (⟨b.addr + 16, n, w.heap.freeHeapSize - h'.freeHeapSize⟩ : Live).blk =
        ⟨b.addr, taken b (need n), false⟩ := by rw [hcost]; rfl
    rw [hblk] at e' f6
    have hrel : release pre' ⟨b.addr, taken b (need n), false⟩ post' = bs := by
      have hu := split_unique (P := fun c : Blk => c.addr = b.addr)
        (pre := pre) (b := ⟨b.addr, taken b (need n), false⟩) (post := rest ++ post)
        (pre' := pre') (b' := ⟨b.addr, taken b (need n), false⟩) (post' := post')
        (by rw [← e', r1]; simp) rfl rfl ?_ ?_
      · rw [← hu.1, ← hu.2.2, r2, e]
      · intro c hc hca
        have t := i.rep.tiles
        rw [e] at t
        obtain ⟨mid, t1, t2⟩ := tiles_append.mp t
        have := tiles_mem t1 c hc
        have := t2.1
        omega
      · intro c hc hca
        have t := a9.rep.tiles
        rw [e'] at t
        obtain ⟨mid, t1, t2⟩ := tiles_append.mp t
        have := tiles_mem t1 c hc
        have := t2.1
        simp only at this
        omega
    rw [hrel] at f6
    have hnotlive : ∀ l ∈ w.live, l.ptr ≠ b.addr + 16 := by
      intro l hl' he
      have h3 := i.lives l hl'
      have h4 := i.live_blk hl'
      have : l.blk = b := tiles_addr_inj i.rep.tiles h4.1 (by rw [e]; simp) (by simp only [Live.blk]; omega)
      rw [this, a2] at h4
      exact absurd h4.2 (by simp)
    have hlive2 : w2.live = w.live := by
      rw [← h2]
      show List.filter (fun l => decide (l.ptr ≠ b.addr + 16)) (w.afterAlloc h' (b.addr + 16) n none).live = w.live
      rw [hlv, List.filter_cons, if_neg (by simp)]
      refine List.filter_eq_self.mpr ?_
      intro l hl'
      simpa using hnotlive l hl'
    rw [h2] at f6
    have sim : Sim 0 w w2 := ⟨rfl, ⟨size, base, st, st, bs, i, by rw [blk_move_zero]; exact f6⟩,
      by rw [live_move_zero]; exact hlive2⟩
    refine ⟨hlive2, sim.free_eq, ?_⟩
    intro ops hops
    obtain ⟨v, v2, o, o2, g1, g2, g3, _⟩ := sim_run ops sim hops
    rw [op_move_zero] at g2
    refine ⟨v, v2, o, o2, g1, g2, ?_⟩
    rw [g3]
    apply List.map_congr_left
    intro x _
    simp only [movePtr, Nat.add_zero, Prod.mk.injEq, and_true]
    split <;> simp_all
  · rw [step_alloc a2] at h1
    have h1 := Res.ok.inj h1
    simp only [Prod.mk.injEq] at h1
    exact absurd h1.2.symm hp

/-- Such a pair exists in the demo world, and the continuation below is legal there. -/
example : (demo demoOps).map (fun w => match w.step (.alloc 20) with
    | .ok (w1, p) => (match w1.step (.free p) with | .ok (w2, _) => (p, w2.live == w.live) | _ => (0, false))
    | _ => (0, false)) = some (4152, true) := by decide +kernel

/-- **C14.** Freeing a live block never makes a request fail that succeeded before, and
`free_heap_size()` grows. -/
theorem C14_free_monotone (hl : Layout size base st) (hr : Roomy size base) (hw : Reach size base st w)
    {n p : Nat} {h' : Heap} (hn : n < 2 ^ 64) (ha : w.heap.allocate n = .ok (h', p)) (hp : p ≠ 0)
    {l : Live} (hlv : l ∈ w.live) :
    ∃ w', w.step (.free l.ptr) = .ok (w', 0) ∧ w.heap.freeHeapSize < w'.heap.freeHeapSize ∧
      ∃ h'' q, w'.heap.allocate n = .ok (h'', q) ∧ q ≠ 0 := by
  obtain ⟨bs, i⟩ := reach_inv hl hr hw
  obtain ⟨pre, post, k', e, f2, f3, f4, f5, f6⟩ := inv_free i hlv
  have hll := i.lives l hlv
  refine ⟨_, step_free f2, ?_, ?_⟩
  · show w.heap.freeBytes < k'.freeBytes
    rw [f4.freeBytes]; omega
  · rcases inv_alloc i (n := n) hn with ⟨pre2, b, post2, h'', e2, a1, a2, a3, a4, a5, _⟩ | ⟨_, a2, _⟩
    · have hb : b ∈ pre ++ l.blk :: post := by rw [← e, e2]; simp
      have t := i.rep.tiles
      rw [e] at t
      obtain ⟨c, c1, c2, c3, c4⟩ := release_sup t hb (.inl a2)
      rcases inv_alloc f6 (n := n) hn with ⟨pre3, b3, post3, h3, e3, g1, g2, g3, g4, g5, _⟩ | ⟨g1, _, _⟩
      · exact ⟨_, _, g5, by omega⟩
      · exfalso
        rcases g1 with g1 | g1
        · omega
        · have := g1 c c1 c2
          omega
    · rw [ha] at a2
      have a2 := Res.ok.inj a2
      simp only [Prod.mk.injEq] at a2
      exact absurd a2.2 hp

/-- In the demo world 90 bytes can be allocated, and there are live blocks to free. -/
example : (demo demoOps).map (fun w => (w.live.length, match w.heap.allocate 90 with | .ok (_, p) => p | _ => 0)) =
    some (2, 4232) := by decide +kernel

/-- **C15.** Two heaps of the same size whose addresses differ by a multiple of 8: every legal
history gives the same pointers up to that difference, and the same sizes. -/
theorem C15_address_independent {d st2 : Nat} (hl : Layout size base st) (hl2 : Layout size (base + d) st2)
    (hr : Roomy size base) (hd : d % 8 = 0) {mem mem2 : Mem} {h h2 : Heap}
    (hc : Heap.construct size base st mem = .ok h) (hc2 : Heap.construct size (base + d) st2 mem2 = .ok h2)
    (ops : List Op) (hops : LegalRun (.start h) ops) :
    ∃ w w2 o o2, (World.start h).run ops = .ok (w, o) ∧
      (World.start h2).run (ops.map (Op.move d)) = .ok (w2, o2) ∧ o2 = o.map (Out.move d) := by
  have hr2 : Roomy size (base + d) := by unfold Roomy areaLo at *; omega
  have i1 := inv_start hl hr hc
  have i2 := inv_start hl2 hr2 hc2
  have h1 := area_facts size base (by unfold Roomy at hr; omega)
  have h2' := area_facts size (base + d) (by unfold Roomy at hr2; omega)
  have hlo : areaLo (base + d) = areaLo base + d := by unfold areaLo; omega
  have hhi : areaHi size (base + d) = areaHi size base + d := by unfold areaHi at *; unfold areaLo at *; omega
  have hsz : areaHi size (base + d) - areaLo (base + d) = areaHi size base - areaLo base := by omega
  have sim : Sim d (.start h) (.start h2) := by
    refine ⟨hd, ⟨size, base, st, st2, _, i1, ?_⟩, rfl⟩
    simp only [List.map_cons, List.map_nil, Blk.move]
    rw [← hlo, ← hsz]
    exact i2
  obtain ⟨w, w2, o, o2, g1, g2, _, g4⟩ := sim_run ops sim hops
  refine ⟨w, w2, o, o2, g1, g2, g4 ?_⟩
  obtain ⟨p1, q1, _, _, _, _, _, q7, q8, _⟩ := construct_layout (m := mem) hl hr
  obtain ⟨p2, r1, _, _, _, _, _, r7, r8, _⟩ := construct_layout (m := mem2) hl2 hr2
  rw [hc] at q1
  rw [hc2] at r1
  have q1 := Res.ok.inj q1
  have r1 := Res.ok.inj r1
  subst q1
  subst r1
  show h2.minEver = h.minEver
  rw [q8, r8, q7, r7, hsz]

/-- The demo history is legal, and so is the layout 800 bytes higher. -/
example : ∃ h, Heap.construct 256 4099 8192 (fun _ => 0) = .ok h ∧ LegalRun (.start h) demoOps ∧
    Layout 256 (4099 + 800) 8192 := by
  have hd := demo_facts
  unfold demo at hd
  split at hd
  · rename_i h hc
    cases hp : play (.start h) demoOps with
    | none => rw [hp] at hd; simp at hd
    | some w => exact ⟨h, hc, legalRun_of_play _ hp, by constructor <;> decide⟩
  · simp at hd

/-- **C16.** A heap with only 16 to 31 usable bytes is constructed without touching memory outside
the object, every legal call returns normally, and every allocation returns null. -/
theorem C16_tiny_heap (hl : Layout size base st) (h16 : areaLo base + 16 ≤ base + size)
    (h31 : base + size < areaLo base + 32) :
    (∀ mem, ∃ h, Heap.construct size base st mem = .ok h ∧
      ∀ x, Outside size base st x → h.mem x = mem x) ∧
    ∀ w, Reach size base st w → w.live = [] ∧ ∀ op, Legal w op → ∃ w', w.step op = .ok (w', 0) ∧
      w'.heap.mem = w.heap.mem := by
  constructor
  · intro mem
    obtain ⟨h, h1, _, h2⟩ := construct_outside (m := mem) hl h16
    exact ⟨h, h1, fun x hx => h2 x hx.1 hx.2⟩
  · have key : ∀ w : World, w.live = [] → w.heap.freeBytes < 16 → ∀ op, Legal w op →
        ∃ w', w.step op = .ok (w', 0) ∧ w'.heap.mem = w.heap.mem ∧ w'.live = [] ∧ w'.heap.freeBytes < 16 := by
      intro w hlv hf op hop
      cases op with
      | alloc n =>
        have := allocate_tiny (h := w.heap) (n := n) hop hf
        refine ⟨_, step_alloc this, ?_, ?_, ?_⟩
        · rw [afterAlloc_mem, fire_mem]
        · rw [afterAlloc_live0, hlv]
        · rw [afterAlloc_heap, (fire_same _ _).2.2.2.2.2.1]; exact hf
      | calloc k n =>
        obtain ⟨h', h1, h2, h3⟩ := callocate_tiny (h := w.heap) (k := k) (n := n) hf
        refine ⟨_, step_calloc h1, ?_, ?_, ?_⟩
        · rw [afterAlloc_mem, h3]
        · rw [afterAlloc_live0, hlv]
        · rw [afterAlloc_heap, h2]; exact hf
      | free p =>
        rcases hop with rfl | ⟨l, hl', _⟩
        · refine ⟨_, step_free (dealloc_null _), rfl, ?_, hf⟩
          show List.filter _ w.live = []
          rw [hlv]; rfl
        · rw [hlv] at hl'; exact absurd hl' (by simp)
      | write a v =>
        obtain ⟨l, hl', _⟩ := hop
        rw [hlv] at hl'; exact absurd hl' (by simp)
      | resetMin => exact ⟨_, rfl, rfl, hlv, hf⟩
      | onFail b => exact ⟨_, rfl, rfl, hlv, hf⟩
    have inv : ∀ w, Reach size base st w → w.live = [] ∧ w.heap.freeBytes < 16 := by
      intro w hw
      induction hw with
      | @init mem h hc =>
        obtain ⟨h', h1, h2, _⟩ := construct_outside (m := mem) hl h16
        rw [hc] at h1
        have h1 := Res.ok.inj h1
        subst h1
        refine ⟨rfl, ?_⟩
        show h.freeBytes < 16
        have := area_facts size base h16
        omega
      | step _ hleg hs ih =>
        obtain ⟨w'', h1, _, h3, h4⟩ := key _ ih.1 ih.2 _ hleg
        rw [hs] at h1
        have h1 := Res.ok.inj h1
        simp only [Prod.mk.injEq] at h1
        rw [h1.1]; exact ⟨h3, h4⟩
    intro w hw
    obtain ⟨h1, h2⟩ := inv w hw
    refine ⟨h1, ?_⟩
    intro op hop
    obtain ⟨w', h3, h4, _⟩ := key w h1 h2 op hop
    exact ⟨w', h3, h4⟩

/-- A 24-byte heap at an odd address: 20 usable bytes. -/
example : Layout 24 4100 8192 ∧ areaLo 4100 + 16 ≤ 4100 + 24 ∧ 4100 + 24 < areaLo 4100 + 32 := by
  refine ⟨by constructor <;> decide, by decide, by decide⟩

/-- Below 16 usable bytes the constructor itself leaves the buffer: `static_heap<8>` at 4096. -/
theorem C16_below_16_is_ub : (Heap.construct 8 4096 8192 (fun _ => 0) matches .ub) = true := by decide +kernel

/-- Free gaps as the statistics function should see them. -/
def GapList (w : World) (size base : Nat) (gs : List (Nat × Nat)) : Prop :=
  gs.Nodup ∧ ∀ a b, (a, b) ∈ gs ↔ Gap w.live (areaLo base) (areaHi size base) a b

/-- **C17 (partial).** On every reachable heap the statistics call terminates and reports: the
number of free gaps, the size of the largest one (0 if none), the total free size, which is the sum
of the gaps, and the low-water mark.  The smallest size is right when some gap has at most
0xffffffff bytes; otherwise 0xffffffff is reported (see `C17_smallest_wrong`).
Missing: the smallest free block of heaps whose gaps all exceed 4 GiB, or that have no gap.
The function cannot be instantiated as written (`heapPROTECT_BLOCK_POINTER` is declared nowhere);
the model reads it as `heap_protect_block_pointer`. -/
theorem C17_statistics_partial (hl : Layout size base st) (hr : Roomy size base) (hw : Reach size base st w) :
    ∃ s gs, w.heap.getStats = .ok s ∧ GapList w size base gs ∧ s.nFreeBlocks = gs.length ∧
      s.available = w.heap.freeHeapSize ∧ s.available = (gs.map (fun g => g.2 - g.1)).sum ∧
      s.minEver = w.heap.minimumEverFreeHeapSize ∧
      (∀ g ∈ gs, g.2 - g.1 ≤ s.largest) ∧ (gs = [] ∧ s.largest = 0 ∨ ∃ g ∈ gs, s.largest = g.2 - g.1) ∧
      (∀ g ∈ gs, s.smallest ≤ g.2 - g.1) ∧
      ((∃ g ∈ gs, g.2 - g.1 ≤ 0xffffffff) → ∃ g ∈ gs, s.smallest = g.2 - g.1) := by
  obtain ⟨bs, i⟩ := reach_inv hl hr hw
  refine ⟨_, (bs.filter (fun b => b.free)).map (fun b => (b.addr, b.addr + b.size)), getStats_spec i, ?_⟩
  have hsz : ((bs.filter (fun b => b.free)).map (fun b => (b.addr, b.addr + b.size))).map (fun g => g.2 - g.1) =
      freeSizes bs := by
    rw [List.map_map]
    unfold freeSizes
    apply List.map_congr_left
    intro b _
    show b.addr + b.size - b.addr = b.size
    omega
  have hmem : ∀ g, g ∈ (bs.filter (fun b => b.free)).map (fun b => (b.addr, b.addr + b.size)) →
      g.2 - g.1 ∈ freeSizes bs := by
    intro g hg; rw [← hsz]; exact List.mem_map_of_mem hg
  have hmem2 : ∀ z, z ∈ freeSizes bs →
      ∃ g ∈ (bs.filter (fun b => b.free)).map (fun b => (b.addr, b.addr + b.size)), z = g.2 - g.1 := by
    intro z hz
    rw [← hsz] at hz
    obtain ⟨g, hg, he⟩ := List.mem_map.mp hz
    exact ⟨g, hg, he.symm⟩
  obtain ⟨m1, m2, m3⟩ := foldl_max_spec (freeSizes bs) 0
  obtain ⟨n1, n2, n3⟩ := foldl_min_spec (freeSizes bs) portMaxDelay
  refine ⟨⟨?_, ?_⟩, ?_, rfl, ?_, rfl, ?_, ?_, ?_, ?_⟩
  · have hpw := (tiles_pairwise i.rep.tiles).filter (fun b => b.free)
    refine List.pairwise_map.mpr ((List.Pairwise.imp_of_mem ?_ hpw))
    intro a b ha hb h he
    have h1 := tiles_mem i.rep.tiles a (List.mem_filter.mp ha).1
    have h2 := tiles_mem i.rep.tiles b (List.mem_filter.mp hb).1
    simp only [Prod.mk.injEq] at he
    omega
  · intro a b
    rw [gap_iff i, List.mem_map]
    constructor
    · rintro ⟨c, hc, he⟩
      simp only [Prod.mk.injEq] at he
      exact ⟨c, (List.mem_filter.mp hc).1, by simpa using (List.mem_filter.mp hc).2, he.1.symm, he.2.symm⟩
    · rintro ⟨c, hc, hf, rfl, rfl⟩
      exact ⟨c, List.mem_filter.mpr ⟨hc, by simpa using hf⟩, rfl⟩
  · simp [freeSizes]
  · show w.heap.freeBytes = _
    rw [hsz, i.rep.free_eq, freeSum_eq]
  · intro g hg; exact m1 _ (hmem g hg)
  · rcases m3 with m3 | m3
    · left
      refine ⟨?_, m3⟩
      have : freeSizes bs = [] := by
        cases hfs : freeSizes bs with
        | nil => rfl
        | cons z zs =>
          exfalso
          have hz : z ∈ freeSizes bs := by rw [hfs]; simp
          have h1 := m1 z hz
          unfold freeSizes at hz
          obtain ⟨b, hb, rfl⟩ := List.mem_map.mp hz
          have := tiles_mem i.rep.tiles b (List.mem_filter.mp hb).1
          omega
      unfold freeSizes at this
      simpa using this
    · right; exact hmem2 _ m3
  · intro g hg; exact n1 _ (hmem g hg)
  · rintro ⟨g, hg, hle⟩
    rcases n3 with n3 | n3
    · have h1 := n1 _ (hmem g hg)
      have h2 : portMaxDelay = 0xffffffff := rfl
      refine ⟨g, hg, ?_⟩
      show (freeSizes bs).foldl min portMaxDelay = _
      omega
    · exact hmem2 _ n3

example : (demo demoOps).bind (fun w => match w.heap.getStats with | .ok s => some s | _ => none) =
    some { available := 160, largest := 120, smallest := 40, nFreeBlocks := 2, minEver := 120, nAlloc := 3,
           nFree := 1 } := by decide +kernel

/-- With one free block of 5 GiB the statistics report 4 GiB - 1 as the smallest free block. -/
theorem C17_smallest_wrong : (match Heap.construct (5 * 2 ^ 30) 4096 (2 ^ 40) (fun _ => 0) with
    | .ok h => (match h.getStats with | .ok s => (s.nFreeBlocks, s.largest, s.smallest) | _ => (0, 0, 0))
    | _ => (0, 0, 0)) = (1, 5 * 2 ^ 30 - 16, 0xffffffff) := by decide +kernel

end Verif.Heap
