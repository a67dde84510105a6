import Verif.Packet.Props
/-!
C138: the pointers into the storage that `packet_accessor` returns (`include/xitren/func/packet.hpp`),
and what happens when they are used.

`deserialize_no_check` returns pointers to header, fields and elements, `deserialize` one to the elements.
They are made from positions in the storage by `reinterpret_cast`, so whether they may be used depends on
the address of the accessor and on the alignment of the types.  Left out: the rule that an object of the
type must live there (aliasing).
-/
namespace Verif.Packet
open Verif Verif.Data

/-- Using a pointer to position `pos` of the storage of an accessor at address `base`, as one to an object
of type `P` with alignment `al` (packet.hpp:187-189, 212): `storage_` is the first member
(packet.hpp:264), so it has the address of the accessor.  A misaligned pointer must not be used, nor one
to something that is not inside the storage. -/
def view {α : Type} (base al : Nat) (P : Pod α) (a : Accessor) (pos : Nat) : Res α :=
  if (base + pos) % al ≠ 0 then .ub
  else do
    let bs ← readAt a.storage pos P.size
    return P.dec bs

/-- Reading `n` elements from position `pos` on (packet.hpp:167, 189, 212). -/
def viewAll {α : Type} (base al : Nat) (P : Pod α) (a : Accessor) : Nat → Nat → Res (List α)
  | _, 0 => .ok []
  | pos, n + 1 => do
    let v ← view base al P a pos
    let vs ← viewAll base al P a (pos + P.size) n
    return v :: vs

/-- The bytes of elements that lie one after another (packet.hpp:227-231). -/
def bytesOf {α : Type} (P : Pod α) (vs : List α) : List Byte := vs.flatMap P.enc

theorem bytesOf_length {α : Type} (P : Pod α) (vs : List α) : (bytesOf P vs).length = vs.length * P.size := by
  induction vs with
  | nil => simp [bytesOf]
  | cons v vs ih =>
    simp only [bytesOf, List.flatMap_cons, List.length_append, P.enc_length, List.length_cons] at ih ⊢
    rw [ih, Nat.add_mul, Nat.one_mul, Nat.add_comm]

theorem view_ub_iff {α : Type} (base al : Nat) (P : Pod α) (a : Accessor) (pos : Nat)
    (hin : pos + P.size ≤ a.storage.length) : view base al P a pos = .ub ↔ ¬ al ∣ base + pos := by
  unfold view
  by_cases h : (base + pos) % al = 0
  · rw [if_neg (by simpa using h), readAt, if_pos hin]
    simp [Nat.dvd_iff_mod_eq_zero, h]
  · rw [if_pos h]
    simp [Nat.dvd_iff_mod_eq_zero, h]

theorem view_ok {α : Type} {base al : Nat} (P : Pod α) (a : Accessor) {pos : Nat} (v : α)
    (hal : al ∣ base + pos) (hr : readAt a.storage pos P.size = .ok (P.enc v)) :
    view base al P a pos = .ok v := by
  unfold view
  rw [if_neg (by simpa [Nat.dvd_iff_mod_eq_zero] using hal), hr]
  simp [P.dec_enc]

theorem readAt_split {buf x y : List Byte} {pos n m : Nat} (hx : x.length = n) (hy : y.length = m)
    (h : readAt buf pos (n + m) = .ok (x ++ y)) :
    readAt buf pos n = .ok x ∧ readAt buf (pos + n) m = .ok y := by
  unfold readAt at h ⊢
  split at h
  · rename_i hl
    simp only [Res.ok.injEq] at h
    rw [if_pos (by omega), if_pos (by omega)]
    constructor
    · have := congrArg (List.take n) h
      rw [List.take_take, Nat.min_eq_left (by omega), ← hx, List.take_left] at this
      rw [← hx] at *
      rw [this]
    · have := congrArg (List.drop n) h
      rw [List.drop_take, List.drop_drop, ← hx, List.drop_left, hx] at this
      rw [show m = n + m - n by omega, this]
  · cases h

theorem viewAll_ok {α : Type} {base al : Nat} (P : Pod α) (a : Accessor) (vs : List α) :
    ∀ {pos : Nat}, al ∣ base + pos → al ∣ P.size →
      readAt a.storage pos (vs.length * P.size) = .ok (bytesOf P vs) →
      viewAll base al P a pos vs.length = .ok vs := by
  induction vs with
  | nil => intros; rfl
  | cons v vs ih =>
    intro pos hal hsz hr
    have hr : readAt a.storage pos (P.size + vs.length * P.size) = .ok (P.enc v ++ bytesOf P vs) := by
      rw [List.length_cons, Nat.add_mul, Nat.one_mul, Nat.add_comm] at hr
      exact hr
    obtain ⟨h1, h2⟩ := readAt_split (P.enc_length v) (bytesOf_length P vs) hr
    simp only [List.length_cons, viewAll]
    rw [view_ok P a v hal h1, ih (by rw [← Nat.add_assoc]; exact Nat.dvd_add hal hsz) hsz h2]
    rfl

section
variable {η φ κ ε : Type} (T : Types η φ κ) (E : Pod ε)

/-- Exactly when the pointers of `deserialize_no_check` may be used: for an accessor at address `base`
whose size is between the fixed length and the capacity, header, fields and each of the elements are
inside the storage, and using the pointer to one of them is undefined iff that one is misaligned. -/
theorem C138_exact_partial (base alH alF alE : Nat) (a : Accessor) (hE : 0 < E.size)
    (hmin : T.length ≤ a.size) (hcap : a.size ≤ a.storage.length) (hmax : a.storage.length < wrap) :
    let r := a.deserializeNoCheck T E.size
    (view base alH T.H a r.header = .ub ↔ ¬ alH ∣ base) ∧
    (view base alF T.F a r.fields = .ub ↔ ¬ alF ∣ base + T.H.size) ∧
    (∀ i, i < r.size →
      (view base alE E a (r.data + i * E.size) = .ub ↔ ¬ alE ∣ base + (T.H.size + T.F.size + i * E.size))) ∧
    r.size * E.size ≤ a.size - T.length ∧ a.size - T.length < (r.size + 1) * E.size := by
  have hlen : T.length = T.H.size + T.F.size + T.C.pod.size := rfl
  have hv : a.variablePart T E.size = (a.size - T.length) / E.size := by
    unfold Accessor.variablePart
    rw [show a.size + wrap - T.length = (a.size - T.length) + wrap by omega, Nat.add_mod_right,
      Nat.mod_eq_of_lt (by omega)]
  have h1 : a.variablePart T E.size * E.size ≤ a.size - T.length := by
    rw [hv]
    exact Nat.div_mul_le_self _ _
  have h2 : a.size - T.length < (a.variablePart T E.size + 1) * E.size := by
    rw [hv, Nat.add_mul, Nat.one_mul]
    have := Nat.div_add_mod (a.size - T.length) E.size
    have h3 := Nat.mod_lt (a.size - T.length) hE
    rw [Nat.mul_comm] at this
    omega
  refine ⟨?_, ?_, fun i hi => ?_, h1, h2⟩
  · rw [view_ub_iff _ _ _ _ _ (by simp only [Accessor.deserializeNoCheck]; omega)]
    simp [Accessor.deserializeNoCheck]
  · exact view_ub_iff _ _ _ _ _ (by simp only [Accessor.deserializeNoCheck]; omega)
  · refine view_ub_iff _ _ _ _ _ ?_
    have hi : i + 1 ≤ a.variablePart T E.size := hi
    have h3 := Nat.mul_le_mul_right E.size hi
    rw [Nat.add_mul, Nat.one_mul] at h3
    simp only [Accessor.deserializeNoCheck]
    omega

/-- If no alignment is stricter than that of the accessor, and header and header plus fields are so long
that fields and elements come to lie aligned, then after a successful `serialize` the pointers give back
what was serialised, at every address at which an accessor can be. -/
theorem C138_aligned_partial (base alH alF alE : Nat) (a a' : Accessor) (h : η) (f : φ) (vs : List ε)
    (hbase : 8 ∣ base) (hE : 0 < E.size) (hmax : a.storage.length < wrap)
    (hstat : T.length ≤ a.storage.length)
    (hH8 : alH ∣ 8) (hF8 : alF ∣ 8) (hE8 : alE ∣ 8) (hF : alF ∣ T.H.size)
    (hD : alE ∣ T.H.size + T.F.size) (hEs : alE ∣ E.size)
    (hs : a.serialize T E.size ⟨h, f, vs.length, some (bytesOf E vs)⟩ = .ok (a', true)) :
    let r := a'.deserializeNoCheck T E.size
    view base alH T.H a' r.header = .ok h ∧ view base alF T.F a' r.fields = .ok f ∧
    r.size = vs.length ∧ viewAll base alE E a' r.data r.size = .ok vs ∧
    ∃ out, a'.deserialize T E.size = .ok out ∧ out.data = some r.data ∧ out.size = r.size := by
  have hlen : T.length = T.H.size + T.F.size + T.C.pod.size := rfl
  have hd : (some (bytesOf E vs) : Option (List Byte)) ≠ none ∨ vs.length = 0 := .inl (by simp)
  obtain ⟨hsz, hdes, hdat⟩ := C29_round_trip T a a' E.size _ hE hmax hstat hd hs
  have hbytes := (hdat _ rfl).1
  obtain ⟨hfit, hdata⟩ := serialize_true_fits T a a' E.size _ hmax hstat hd hs
  obtain ⟨payload, rest, hp, hpd, _, _, hs'⟩ := serialize_fit T a E.size ⟨h, f, vs.length, some (bytesOf E vs)⟩ hmax hfit hdata
  rw [hs'] at hs
  simp only [Res.ok.injEq, Prod.mk.injEq, and_true] at hs
  have hst : ∃ r1 r2, a'.storage = T.H.enc h ++ (T.F.enc f ++ r1) ∧ r2 = r1 := by
    rw [← hs]
    exact ⟨_, _, rfl, rfl⟩
  obtain ⟨r1, _, hst, _⟩ := hst
  have hb : ∀ {al : Nat}, al ∣ 8 → al ∣ base := fun h => Nat.dvd_trans h hbase
  have hsize : (a'.deserializeNoCheck T E.size).size = vs.length := by
    simp only at hsz
    simp only [Accessor.deserializeNoCheck, Accessor.variablePart, hsz]
    simp only at hfit
    rw [show T.length + vs.length * E.size + wrap - T.length = vs.length * E.size + wrap by omega, Nat.add_mod_right,
      Nat.mod_eq_of_lt (by omega), Nat.mul_div_cancel _ hE]
  refine ⟨?_, ?_, hsize, ?_, _, hdes, rfl, hsize.symm⟩
  · refine view_ok T.H a' h (by simpa [Accessor.deserializeNoCheck] using hb hH8) ?_
    rw [hst]
    exact readAt_mid (x := []) rfl (T.H.enc_length h)
  · refine view_ok T.F a' f (Nat.dvd_add (hb hF8) hF) ?_
    rw [hst]
    exact readAt_mid (T.H.enc_length h) (T.F.enc_length f)
  · rw [hsize]
    refine viewAll_ok E a' vs (Nat.dvd_add (hb hE8) hD) hEs ?_
    simp only at hbytes
    rw [← bytesOf_length E vs, List.take_length] at hbytes
    rw [← bytesOf_length E vs]
    exact hbytes

/-- If elements come to lie misaligned, because header and fields are not a multiple of their alignment
long, using any of them is undefined at every address at which an accessor can be. -/
theorem C138_elements_refuted (base alE : Nat) (a : Accessor) (hbase : 8 ∣ base) (hE8 : alE ∣ 8)
    (hEs : alE ∣ E.size) (hD : ¬ alE ∣ T.H.size + T.F.size) (i : Nat) :
    view base alE E a ((a.deserializeNoCheck T E.size).data + i * E.size) = .ub := by
  unfold view
  rw [if_pos]
  intro h
  have h1 : alE ∣ base + (T.H.size + T.F.size + i * E.size) := Nat.dvd_of_mod_eq_zero h
  have h2 := (Nat.dvd_add_right (Nat.dvd_trans hE8 hbase)).1 h1
  exact hD ((Nat.dvd_add_left (Nat.dvd_trans hEs (Nat.dvd_mul_left _ _))).1 h2)

/-- The same for fields. -/
theorem C138_fields_refuted (base alF elem : Nat) (a : Accessor) (hbase : 8 ∣ base) (hF8 : alF ∣ 8)
    (hF : ¬ alF ∣ T.H.size) : view base alF T.F a (a.deserializeNoCheck T elem).fields = .ub := by
  unfold view
  rw [if_pos]
  intro h
  exact hF ((Nat.dvd_add_right (Nat.dvd_trans hF8 hbase)).1 (Nat.dvd_of_mod_eq_zero h))

/-- For a header whose alignment is stricter than that of the accessor, there is always an address at
which the pointer must not be used. -/
theorem C138_overaligned_refuted (alH elem : Nat) (a : Accessor) (h16 : 16 ∣ alH) :
    ∃ base, 8 ∣ base ∧ view base alH T.H a (a.deserializeNoCheck T elem).header = .ub := by
  refine ⟨8, Nat.dvd_refl 8, ?_⟩
  unfold view
  rw [if_pos]
  intro h
  have := Nat.dvd_trans h16 (Nat.dvd_of_mod_eq_zero h)
  simp only [Accessor.deserializeNoCheck] at this
  omega
end

/-- A header and fields that leave the elements aligned: four bytes each. -/
def okT : Types (BitVec (8 * 4)) (BitVec (8 * 4)) (Lsb .w16) :=
  { H := intPod .little 4, F := intPod .little 4, C := lsbCrc .little .w16 demoSum }

example : ∃ a', (Accessor.new 16).serialize okT 2 ⟨1#32, 2#32, 2, some (bytesOf (intPod .little 2) [3#16, 0x405#16])⟩ =
      .ok (a', true) ∧
    view 1000 4 okT.H a' 0 = .ok 1#32 ∧ view 1000 4 okT.F a' 4 = .ok 2#32 ∧
    viewAll 1000 2 (intPod .little 2) a' 8 2 = .ok [3#16, 0x405#16] :=
  ⟨⟨[1, 0, 0, 0, 2, 0, 0, 0, 3, 0, 5, 4, 109, 211, 0, 0], 14⟩, by decide +kernel, by decide +kernel,
    by decide +kernel, by decide +kernel⟩

example (a : Accessor) : view 1000 2 (intPod .little 2) a ((a.deserializeNoCheck demoT 2).data + 0 * 2) = .ub :=
  C138_elements_refuted demoT (intPod .little 2) 1000 2 a (by decide) (by decide) (by decide) (by decide) 0

example (a : Accessor) :
    view 1000 4 (intPod .little 4) a (a.deserializeNoCheck (⟨intPod .little 2, intPod .little 4, okT.C⟩ : Types _ _ _) 1).fields =
      .ub :=
  C138_fields_refuted (⟨intPod .little 2, intPod .little 4, okT.C⟩ : Types _ _ _) 1000 4 1 a (by decide) (by decide)
    (by decide)

example (a : Accessor) : ∃ base, 8 ∣ base ∧
    view base 16 (intPod .little 16) a
      (a.deserializeNoCheck (⟨intPod .little 16, intPod .little 4, okT.C⟩ : Types _ _ _) 1).header = .ub :=
  C138_overaligned_refuted (⟨intPod .little 16, intPod .little 4, okT.C⟩ : Types _ _ _) 16 1 a (by decide)

end Verif.Packet
