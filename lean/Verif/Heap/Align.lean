import Verif.Heap.Allocator
/-! When `static_heap_allocator` throws (C18), and alignment of what it returns (C123). -/
namespace Verif.Heap

variable {size base st : Nat} {w : World}

/-- **C18, when it throws.** With `b` the number of bytes asked for (`n * sizeof(T)` as a `size_t`), the call
throws exactly when `b` is zero or no gap between the live blocks has room for `b + 16` bytes rounded up
to a multiple of 8. -/
theorem C18_throws_iff (hl : Layout size base st) (hr : Roomy size base) (hw : Reach size base st w)
    (sizeofT n : Nat) :
    (∃ h', Allocator.allocate w.heap sizeofT n = .ok (.badAlloc h')) ↔
      n * sizeofT % 2 ^ 64 = 0 ∨
      ¬ ∃ a b, Gap w.live (areaLo base) (areaHi size base) a b ∧
        required (n * sizeofT % 2 ^ 64) ≤ b - a := by
  have hb : n * sizeofT % 2 ^ 64 < 2 ^ 64 := Nat.mod_lt _ (by decide)
  obtain ⟨w', p, hs, -⟩ := reach_step hl hr hw (op := .alloc (n * sizeofT % 2 ^ 64)) hb
  cases ha : w.heap.allocate (n * sizeofT % 2 ^ 64) with
  | ub => simp only [World.step, ha] at hs; cases hs
  | hang => simp only [World.step, ha] at hs; cases hs
  | ok r =>
    obtain ⟨h', q⟩ := r
    have hfit := (C10_first_fit hl hr hw hb ha).1
    have hal : Allocator.allocate w.heap sizeofT n =
        if q ≠ 0 then .ok (.ptr h' q) else .ok (.badAlloc h') := by
      unfold Allocator.allocate
      rw [show wmul n sizeofT = n * sizeofT % 2 ^ 64 from rfl, ha]
      rfl
    constructor
    · rintro ⟨h'', he⟩
      rw [hal] at he
      by_cases hq : q ≠ 0
      · rw [if_pos hq] at he; cases he
      · by_cases h0 : n * sizeofT % 2 ^ 64 = 0
        · exact .inl h0
        · exact .inr fun hg => hq (hfit.2 ⟨by omega, hg⟩)
    · intro h
      have hq : ¬ q ≠ 0 := by
        intro hq
        obtain ⟨h1, h2⟩ := hfit.1 hq
        rcases h with h | h
        · omega
        · exact h h2
      exact ⟨h', by rw [hal, if_neg hq]⟩

/-- Nothing is asked for: the call throws.  Also two objects of 2^63 bytes: the product wraps to zero. -/
example : ∃ w, Reach 256 4099 8192 w ∧ (∃ h', Allocator.allocate w.heap 8 0 = .ok (.badAlloc h')) ∧
    (∃ h', Allocator.allocate w.heap (2 ^ 63) 2 = .ok (.badAlloc h')) := by
  obtain ⟨w, h1, _⟩ := demo_world
  exact ⟨w, h1, (C18_throws_iff demo_layout demo_roomy h1 8 0).2 (.inl (by decide)),
    (C18_throws_iff demo_layout demo_roomy h1 (2 ^ 63) 2).2 (.inl (by decide))⟩

/-- **C123 (partial).** What `allocate` returns is aligned for every type whose alignment divides 8.
Missing: types with a stricter alignment, for which it is false (`C123_overaligned_refuted`). -/
theorem C123_aligned_partial (hl : Layout size base st) (hr : Roomy size base) (hw : Reach size base st w)
    {sizeofT alignofT n p : Nat} {h' : Heap} (h8 : alignofT ∣ 8)
    (ha : Allocator.allocate w.heap sizeofT n = .ok (.ptr h' p)) : p % alignofT = 0 := by
  have hb : wmul n sizeofT < 2 ^ 64 := Nat.mod_lt _ (by decide)
  unfold Allocator.allocate at ha
  cases hal : w.heap.allocate (wmul n sizeofT) with
  | ub => rw [hal] at ha; cases ha
  | hang => rw [hal] at ha; cases ha
  | ok r =>
    obtain ⟨h'', q⟩ := r
    rw [hal, Res.ok_bind] at ha
    simp only at ha
    split at ha
    · rename_i hq
      simp only [Res.ok.injEq, Allocator.Alloc.ptr.injEq] at ha
      obtain ⟨rfl, rfl⟩ := ha
      have := ((C02_inside_and_aligned hl hr hw).1 _ _ _ hb hal hq).1
      exact Nat.mod_eq_zero_of_dvd (Nat.dvd_trans h8 (Nat.dvd_of_mod_eq_zero this))
    · cases ha

/-- When the last block is the only free one, it is the one cut. -/
theorem alloc_tail {pre : List Blk} {a s n : Nat} (i : WInv size base st w (pre ++ [⟨a, s, true⟩]))
    (h0 : 0 < n) (hn : n < W) (hp : ∀ b ∈ pre, b.free = false) (hs : need n ≤ s) :
    ∃ h', w.heap.allocate n = .ok (h', a + 16) ∧
      WInv size base st (w.afterAlloc h' (a + 16) n none) (pre ++ cut ⟨a, s, true⟩ (need n)) := by
  rcases inv_alloc i hn with ⟨pre', b, post, h', e, -, h2, h3, -, h5, -, -, -, h9⟩ | ⟨h3, -⟩
  · have hb : b ∈ pre ++ [⟨a, s, true⟩] := by rw [e]; simp
    have hb : b = ⟨a, s, true⟩ := by
      rcases List.mem_append.1 hb with h | h
      · rw [hp b h] at h2; cases h2
      · exact List.mem_singleton.1 h
    have hpost : post = [] := by
      rcases List.eq_nil_or_concat post with h | ⟨l, x, rfl⟩
      · exact h
      · exfalso
        rw [List.concat_eq_append, ← List.cons_append, ← List.append_assoc] at e
        have := (List.append_inj' e rfl).1
        have hm : b ∈ pre := by rw [this]; simp
        rw [hp b hm] at h2; cases h2
    subst hb hpost
    obtain ⟨rfl, -⟩ := List.append_inj' e rfl
    rw [List.append_nil] at h9
    exact ⟨h', h5, h9⟩
  · rcases h3 with h | h
    · omega
    · have := h ⟨a, s, true⟩ (by simp) rfl
      simp only at this; omega

/-- **C123 is false for over-aligned types, on every heap with some room.** For every type whose alignment
is a multiple of 16 (`long double`, SSE vectors) and every number of objects there is a history after which
`allocate` returns a misaligned pointer: at the latest after somebody else has allocated 8 bytes. -/
theorem C123_overaligned_refuted (hl : Layout size base st) (sizeofT alignofT n : Nat)
    (h16 : 16 ∣ alignofT) (hpos : 0 < n * sizeofT)
    (hroom : areaLo base + required (n * sizeofT) + 80 ≤ base + size) :
    ∃ w, Reach size base st w ∧ ∃ h' p,
      Allocator.allocate w.heap sizeofT n = .ok (.ptr h' p) ∧ p % alignofT ≠ 0 := by
  have hr : Roomy size base := by unfold Roomy; omega
  have hreq : required (n * sizeofT) = need (n * sizeofT) := by unfold required need; omega
  have hnf := need_facts (n * sizeofT)
  have haf := area_facts size base (by omega)
  have hW := hl.fits
  have hfit : n * sizeofT < 2 ^ 64 := by omega
  have hmul : wmul n sizeofT = n * sizeofT := Nat.mod_eq_of_lt hfit
  obtain ⟨h0, hc, -⟩ := construct_outside (m := fun _ => 0) hl (by omega)
  have hw0 : Reach size base st (.start h0) := .init hc
  obtain ⟨bs, i⟩ := reach_inv hl hr hw0
  have hu : used bs = [] := by
    have := i.perm
    exact List.nil_perm.mp this
  have hpe := i.end_eq
  have hbs := tiles_no_used i.rep.tiles i.rep.noAdj hu (by omega)
  -- a pointer that is not a multiple of 16 is misaligned
  have mis : ∀ p : Nat, p % 16 ≠ 0 → p % alignofT ≠ 0 := fun p hp h =>
    hp (Nat.mod_eq_zero_of_dvd (Nat.dvd_trans h16 (Nat.dvd_of_mod_eq_zero h)))
  have call : ∀ (w : World) (h' : Heap) (p : Nat), w.heap.allocate (n * sizeofT) = .ok (h', p) → p ≠ 0 →
      Allocator.allocate w.heap sizeofT n = .ok (.ptr h' p) := by
    intro w h' p ha hp
    unfold Allocator.allocate
    rw [hmul, ha, Res.ok_bind]
    simp only
    rw [if_pos hp]
  rw [hbs] at i
  by_cases hlo : areaLo base % 16 = 0
  · -- somebody else takes 8 bytes, which cost 24, first
    obtain ⟨h1, ha1, i1⟩ := alloc_tail (pre := []) i (n := 8) (by decide) (by decide) (by simp)
      (by simp only [need]; omega)
    have hc : cut ⟨areaLo base, (World.start h0).heap.pxEnd - areaLo base, true⟩ (need 8) =
        [⟨areaLo base, 24, false⟩, ⟨areaLo base + 24, (World.start h0).heap.pxEnd - areaLo base - 24, true⟩] := by
      unfold cut
      rw [show need 8 = 24 from rfl, if_pos (by simp only; omega)]
    rw [hc, List.nil_append] at i1
    obtain ⟨h2, ha2, -⟩ := alloc_tail (pre := [⟨areaLo base, 24, false⟩]) i1 (n := n * sizeofT) hpos hfit
      (by simp) (by omega)
    refine ⟨_, hw0.step (op := .alloc 8) (show 8 < 2 ^ 64 by decide) (step_alloc ha1), h2, _,
      call _ _ _ ha2 (by omega), mis _ (by omega)⟩
  · obtain ⟨h1, ha1, -⟩ := alloc_tail (pre := []) i (n := n * sizeofT) hpos hfit (by simp) (by omega)
    exact ⟨_, hw0, h1, _, call _ _ _ ha1 (by omega), mis _ (by omega)⟩

/-- A heap of 256 bytes and one `long double`. -/
example : ∃ w, Reach 256 4099 8192 w ∧ ∃ h' p,
    Allocator.allocate w.heap 16 1 = .ok (.ptr h' p) ∧ p % 16 ≠ 0 :=
  C123_overaligned_refuted demo_layout 16 16 1 (by decide) (by decide) (by decide)

/-- The same pointer is aligned for a type with `alignof` 8. -/
example : ∃ w, Reach 256 4099 8192 w ∧ ∃ h' p,
    Allocator.allocate w.heap 16 1 = .ok (.ptr h' p) ∧ p % 8 = 0 ∧ p % 16 ≠ 0 := by
  obtain ⟨w, hw, h', p, ha, hm⟩ :=
    C123_overaligned_refuted demo_layout 16 16 1 (by decide) (by decide) (by decide)
  exact ⟨w, hw, h', p, ha, C123_aligned_partial demo_layout demo_roomy hw (by decide) ha, hm⟩

end Verif.Heap
