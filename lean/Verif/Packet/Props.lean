import Verif.Packet.Lemmas
/-!
Properties C25-C31 of `packet.hpp`, for every header type, field type, CRC function and element size.
-/
namespace Verif.Packet
open Verif Verif.Data

variable {η φ κ : Type} (T : Types η φ κ)

/-! ### A concrete instantiation for the examples -/

/-- A 16-bit checksum (sum of position-weighted bytes). -/
def demoSum (bs : List Byte) : BitVec 16 :=
  bs.foldl (fun acc b => acc * 3#16 + b.setWidth 16 + 1#16) 0#16

/-- 2-byte header, 1-byte fields, `lsb_t<std::uint16_t>` checksum, little-endian host. -/
def demoT : Types (BitVec (8 * 2)) (BitVec (8 * 1)) (Lsb .w16) :=
  { H := intPod .little 2, F := intPod .little 1, C := lsbCrc .little .w16 demoSum }

/-- **C25.** A packet built from header and fields is valid, and a packet built from its bytes —
passed as an array or through an iterator into any buffer that holds them — is valid and has the same
header and fields. -/
theorem C25_round_trip (h : η) (f : φ) :
    valid T (make T h f) = true ∧
    header T (make T h f) = h ∧ fields T (make T h f) = f ∧
    (toArray (make T h f)).length = T.length ∧
    (let q := ofArray (toArray (make T h f))
     header T q = h ∧ fields T q = f ∧ valid T q = true) ∧
    (∀ pre post : List Byte, ∃ q, ofIter T (pre ++ toArray (make T h f) ++ post) pre.length = .ok q ∧
      header T q = h ∧ fields T q = f ∧ valid T q = true) := by
  have hv : valid T (make T h f) = true := by
    have e : make T h f = ⟨(make T h f).pure⟩ := rfl
    rw [e, make_pure, valid_mk T _ _ (by simp [T.H.enc_length, T.F.enc_length])
      (T.C.pod.enc_length _), T.C.pod.dec_enc]
    exact (T.C.eq_iff _ _).2 rfl
  have hh : header T (make T h f) = h := by
    have e : make T h f = ⟨(make T h f).pure⟩ := rfl
    rw [e, make_pure, List.append_assoc, header_mk]
  have hf : fields T (make T h f) = f := by
    have e : make T h f = ⟨(make T h f).pure⟩ := rfl
    rw [e, make_pure, List.append_assoc, fields_mk T _ _ _ (T.H.enc_length h)]
  refine ⟨hv, hh, hf, make_length T h f, ⟨hh, hf, hv⟩, ?_⟩
  intro pre post
  refine ⟨make T h f, ?_, hh, hf, hv⟩
  unfold ofIter
  rw [List.append_assoc, readAt_mid (y := toArray (make T h f)) rfl (make_length T h f)]
  rfl

example : (make demoT 0x1234#16 0x56#8).pure = [0x34, 0x12, 0x56, 0x6d, 0x02] ∧
    valid demoT (make demoT 0x1234#16 0x56#8) = true ∧
    valid demoT ⟨[0x34, 0x13, 0x56, 0x6d, 0x02]⟩ = false := by decide +kernel

/-- **C26.** A packet read from a byte array is valid exactly when the trailing bytes are the CRC of
the bytes before them.  Hence altering only the CRC bytes, or only the other bytes in a way that
changes their CRC, makes a valid packet invalid; in particular for assignments through `header()`
and `fields()`. -/
theorem C26_validity (hC : T.C.pod.Exact) (body tail : List Byte)
    (hb : body.length = T.H.size + T.F.size) (ht : tail.length = T.C.pod.size) :
    (valid T (ofArray (body ++ tail)) = true ↔ tail = T.C.pod.enc (T.C.calculate body)) ∧
    (valid T (ofArray (body ++ tail)) = true →
      (∀ tail' : List Byte, tail'.length = T.C.pod.size → tail' ≠ tail →
        valid T (ofArray (body ++ tail')) = false) ∧
      (∀ body' : List Byte, body'.length = body.length → T.C.calculate body' ≠ T.C.calculate body →
        valid T (ofArray (body' ++ tail)) = false) ∧
      (∀ h : η, T.C.calculate (T.H.enc h ++ body.drop T.H.size) ≠ T.C.calculate body →
        valid T (setHeader T (ofArray (body ++ tail)) h) = false) ∧
      (∀ f : φ, T.C.calculate (body.take T.H.size ++ T.F.enc f) ≠ T.C.calculate body →
        valid T (setFields T (ofArray (body ++ tail)) f) = false)) := by
  have key : ∀ b t : List Byte, b.length = T.H.size + T.F.size → t.length = T.C.pod.size →
      (valid T ⟨b ++ t⟩ = true ↔ t = T.C.pod.enc (T.C.calculate b)) := by
    intro b t hb ht
    rw [valid_mk T b t hb ht, T.C.eq_iff]
    constructor
    · intro h
      rw [← h, hC t ht]
    · intro h
      rw [h, T.C.pod.dec_enc]
  have neg : ∀ b t : List Byte, b.length = T.H.size + T.F.size → t.length = T.C.pod.size →
      t ≠ T.C.pod.enc (T.C.calculate b) → valid T ⟨b ++ t⟩ = false := by
    intro b t hb ht hn
    cases hv : valid T ⟨b ++ t⟩
    · rfl
    · exact absurd ((key b t hb ht).1 hv) hn
  have inj : ∀ a b, T.C.pod.enc a = T.C.pod.enc b → a = b := by
    intro a b h
    rw [← T.C.pod.dec_enc a, h, T.C.pod.dec_enc]
  refine ⟨key body tail hb ht, ?_⟩
  intro hv
  have hv := (key body tail hb ht).1 hv
  refine ⟨?_, ?_, ?_, ?_⟩
  · intro tail' ht' hne
    exact neg _ _ hb ht' (by rw [← hv]; exact hne)
  · intro body' hb' hne
    refine neg _ _ (by omega) ht ?_
    rw [hv]
    intro h
    exact hne (inj _ _ h).symm
  · intro h hne
    have hl := T.H.enc_length h
    have e : setHeader T (ofArray (body ++ tail)) h = ⟨(T.H.enc h ++ body.drop T.H.size) ++ tail⟩ := by
      simp only [setHeader, ofArray]
      rw [List.drop_append_of_le_length (by omega), List.append_assoc]
    rw [e]
    refine neg _ _ (by simp; omega) ht ?_
    rw [hv]
    intro h
    exact hne (inj _ _ h).symm
  · intro f hne
    have hl := T.F.enc_length f
    have e : setFields T (ofArray (body ++ tail)) f = ⟨(body.take T.H.size ++ T.F.enc f) ++ tail⟩ := by
      simp only [setFields, ofArray]
      rw [List.take_append_of_le_length (by omega), ← hb, List.drop_left, List.append_assoc]
    rw [e]
    refine neg _ _ (by simp; omega) ht ?_
    rw [hv]
    intro h
    exact hne (inj _ _ h).symm

example : demoT.C.pod.Exact := lsbPod_exact .little .w16
example : valid demoT (ofArray ([0x34, 0x12, 0x56] ++ [0x6d, 0x02])) = true ∧
    demoT.C.calculate (demoT.H.enc 0x1235#16 ++ [0x56]) ≠ demoT.C.calculate [0x34, 0x12, 0x56] := by
  decide +kernel

/-- **C27** (partial: header and fields without padding, see `Pad.C128_padding_refuted`).  The three encoders produce the same bytes, and `deserialize(it)` inverts
`serialize(packet, it)`; the write touches only the packet's bytes. -/
theorem C27_encoders_agree_partial (h : η) (f : φ) :
    serializeHF T h f = toArray (make T h f) ∧
    (∀ (p : Packet) (buf : List Byte) (pos : Nat), p.pure.length = T.length →
      pos + T.length ≤ buf.length →
      ∃ out, serializeIt p buf pos = .ok out ∧ out.length = buf.length ∧
        (∀ i, i < T.length → out[pos + i]? = (toArray p)[i]?) ∧
        (∀ i, i < pos ∨ pos + T.length ≤ i → out[i]? = buf[i]?) ∧
        deserializeIt T out pos = .ok p ∧ ofIter T out pos = .ok p) ∧
    (∀ (buf : List Byte) (pos : Nat), pos + T.length ≤ buf.length →
      serializeIt (make T h f) buf pos = serializeIt ⟨serializeHF T h f⟩ buf pos) := by
  have e : serializeHF T h f = toArray (make T h f) := by
    simp only [toArray, make_pure]
    rfl
  refine ⟨e, ?_, ?_⟩
  · intro p buf pos hp hb
    have hw : pos + p.pure.length ≤ buf.length := by omega
    refine ⟨_, writeAt_ok hw, written_length hw, ?_, ?_, ?_, ?_⟩
    · intro i hi
      exact written_getElem?_in hw i (by omega)
    · intro i hi
      exact written_getElem? hw i (by omega)
    · unfold deserializeIt
      rw [List.append_assoc, readAt_mid (by simp; omega) hp]
      rfl
    · unfold ofIter
      rw [List.append_assoc, readAt_mid (by simp; omega) hp]
      rfl
  · intro buf pos _
    rw [e]
    rfl

example : serializeHF demoT 0x1234#16 0x56#8 = [0x34, 0x12, 0x56, 0x6d, 0x02] ∧
    serializeIt (make demoT 0x1234#16 0x56#8) [1, 2, 3, 4, 5, 6, 7] 1
      = .ok [1, 0x34, 0x12, 0x56, 0x6d, 0x02, 7] := by decide +kernel

/-- **C28 (partial).** If `size * sizeof(Type)` plus the fixed part does not wrap `std::size_t` and
the data pointer is null or points to `size` elements, `serialize` is well defined, returns `true`
exactly when everything fits into the storage, leaves the accessor unchanged when it returns
`false`, and keeps every byte behind the frame.  Missing: counts for which the size computation wraps,
where the claim is false (`C28_wrap_refuted`). -/
theorem C28_capacity_partial (a : Accessor) (elem : Nat) (input : FieldsIn η φ)
    (hmax : a.storage.length < wrap)
    (hnowrap : input.size * elem + T.length < wrap)
    (hdata : ∀ d, input.data = some d → input.size * elem ≤ d.length) :
    ∃ a' ok, a.serialize T elem input = .ok (a', ok) ∧
      (ok = true ↔ T.length + input.size * elem ≤ a.storage.length) ∧
      (ok = false → a' = a) ∧
      a'.storage.length = a.storage.length ∧
      (ok = true → ∀ i, T.length + input.size * elem ≤ i → a'.storage[i]? = a.storage[i]?) := by
  by_cases hfit : input.size * elem + T.length ≤ a.storage.length
  · obtain ⟨payload, rest, hp, _, _, hr, hs⟩ := serialize_fit T a elem input hmax hfit hdata
    have hlen : T.length = T.H.size + T.F.size + T.C.pod.size := rfl
    refine ⟨_, true, hs, ⟨fun _ => by omega, fun _ => rfl⟩, (by simp), ?_, ?_⟩
    · simp [T.H.enc_length, T.F.enc_length, T.C.pod.enc_length, hp, hr]
      omega
    · intro _ i hi
      simp only [← List.append_assoc]
      rw [List.getElem?_append_right (by
        simp [T.H.enc_length, T.F.enc_length, T.C.pod.enc_length, hp]; omega), hr, List.getElem?_drop]
      congr 1
      simp [T.H.enc_length, T.F.enc_length, T.C.pod.enc_length, hp]
      omega
  · refine ⟨a, false, ?_, ?_, fun _ => rfl, rfl, (by simp)⟩
    · unfold Accessor.serialize
      rw [Nat.mod_eq_of_lt (show input.size * elem < wrap by omega),
        Nat.mod_eq_of_lt (show input.size * elem + T.length < wrap by omega), if_pos (by omega)]
    · constructor
      · intro h; cases h
      · intro h; omega

example : Accessor.serialize demoT (Accessor.new 10) 2 ⟨0x1234#16, 0x56#8, 2, some [1, 2, 3, 4, 9, 9]⟩
      = .ok (⟨[0x34, 0x12, 0x56, 1, 2, 3, 4, 0xdf, 0xc4, 0], 9⟩, true) ∧
    Accessor.serialize demoT (Accessor.new 10) 2 ⟨0x1234#16, 0x56#8, 3, some [1, 2, 3, 4, 9, 9]⟩
      = .ok (Accessor.new 10, false) := by decide +kernel

/-- **C28 is false when the product wraps**: with 8-byte elements and a null data pointer, a request for
`2^61` elements into a 16-byte accessor returns `true` and reports a size of 5. -/
theorem C28_wrap_refuted :
    ¬ (∀ (a : Accessor) (elem : Nat) (input : FieldsIn (BitVec (8 * 2)) (BitVec (8 * 1)))
        (a' : Accessor) (ok : Bool),
        a.storage.length < wrap → input.size < wrap → 0 < elem →
        a.serialize demoT elem input = .ok (a', ok) →
        (ok = true ↔ demoT.length + input.size * elem ≤ a.storage.length)) := by
  intro h
  have h1 : Accessor.serialize demoT (Accessor.new 16) 8 ⟨0x1234#16, 0x56#8, 2 ^ 61, none⟩
      = .ok (⟨[0x34, 0x12, 0x56, 0x6d, 0x02, 0, 0, 0, 0, 0, 0, 0, 0, 0, 0, 0], 5⟩, true) := by
    decide +kernel
  have := (h _ _ _ _ _ (by decide +kernel) (by decide +kernel) (by decide) h1).1 rfl
  revert this
  decide +kernel

/-- A successful run copied the payload inside the storage, so nothing wrapped. -/
theorem serialize_true_fits (a a' : Accessor) (elem : Nat) (input : FieldsIn η φ)
    (hmax : a.storage.length < wrap) (hstat : T.length ≤ a.storage.length)
    (hd : input.data ≠ none ∨ input.size = 0) (hs : a.serialize T elem input = .ok (a', true)) :
    input.size * elem + T.length ≤ a.storage.length ∧
      ∀ d, input.data = some d → input.size * elem ≤ d.length := by
  have hlen : T.length = T.H.size + T.F.size + T.C.pod.size := rfl
  by_cases h0 : input.size = 0
  · rw [h0, Nat.zero_mul]
    exact ⟨by omega, fun d _ => Nat.zero_le _⟩
  · cases hdat : input.data with
    | none => rcases hd with hd | hd
              · exact absurd hdat hd
              · exact absurd hd h0
    | some d =>
      unfold Accessor.serialize at hs
      split at hs
      · cases hs
      rename_i hchk
      have w1 : T.H.size ≤ a.storage.length := by omega
      simp only [serializeTo] at hs
      rw [writeAt_ok (by rw [T.H.enc_length]; omega), Res.ok_bind] at hs
      generalize hst1 : a.storage.take 0 ++ T.H.enc input.header
        ++ a.storage.drop (0 + (T.H.enc input.header).length) = st1 at hs
      have hl1 : st1.length = a.storage.length := by
        rw [← hst1]; exact written_length (by rw [T.H.enc_length]; omega)
      rw [writeAt_ok (by rw [T.F.enc_length]; omega), Res.ok_bind] at hs
      generalize hst2 : st1.take T.H.size ++ T.F.enc input.fields
        ++ st1.drop (T.H.size + (T.F.enc input.fields).length) = st2 at hs
      have hl2 : st2.length = a.storage.length := by
        rw [← hst2, ← hl1]; exact written_length (by rw [T.F.enc_length]; omega)
      simp only [storePayload, hdat] at hs
      rw [if_pos (by omega)] at hs
      unfold copyPayload readAt at hs
      split at hs
      · rename_i hrd
        simp only [Res.ok_bind] at hs
        unfold writeAt at hs
        split at hs
        · rename_i hwr
          simp only [List.length_take, List.length_drop] at hwr
          have hdl : input.size * elem ≤ d.length := by omega
          have hwr' : T.H.size + T.F.size + input.size * elem ≤ a.storage.length := by omega
          rw [Nat.mod_eq_of_lt (show input.size * elem < wrap by omega)] at hchk hs
          refine ⟨?_, fun d' h => by cases h; exact hdl⟩
          by_cases hbig : input.size * elem + T.length < wrap
          · rw [Nat.mod_eq_of_lt hbig] at hchk
            omega
          · -- the CRC would not fit either
            exfalso
            have hwr2 : T.H.size + T.F.size + (List.take (input.size * elem) (List.drop 0 d)).length
                ≤ st2.length := by simp; omega
            rw [Res.ok_bind] at hs
            generalize hst3 : st2.take (T.H.size + T.F.size) ++ List.take (input.size * elem) (List.drop 0 d)
              ++ st2.drop (T.H.size + T.F.size + (List.take (input.size * elem) (List.drop 0 d)).length)
              = st3 at hs
            have hl3 : st3.length = a.storage.length := by
              rw [← hst3, ← hl2]
              exact written_length hwr2
            rw [if_pos (by omega), Res.ok_bind, if_neg (by rw [T.C.pod.enc_length]; omega)] at hs
            cases hs
        · cases hs
      · cases hs

/-- **C29.** Whenever `serialize` returned `true` for a non-null data pointer (or zero elements), it
recorded the encoded length as size, and `deserialize` with the same types reports a valid frame
with the same header, fields and element count and a pointer to exactly the given elements. -/
theorem C29_round_trip (a a' : Accessor) (elem : Nat) (input : FieldsIn η φ) (he : 0 < elem)
    (hmax : a.storage.length < wrap) (hstat : T.length ≤ a.storage.length)
    (hd : input.data ≠ none ∨ input.size = 0)
    (hs : a.serialize T elem input = .ok (a', true)) :
    a'.size = T.length + input.size * elem ∧
    a'.deserialize T elem = .ok
      { header := input.header, fields := input.fields, valid := true, size := input.size,
        data := some (T.H.size + T.F.size) } ∧
    (∀ d, input.data = some d →
      readAt a'.storage (T.H.size + T.F.size) (input.size * elem) = .ok (d.take (input.size * elem)) ∧
      input.size * elem ≤ d.length) := by
  have hlen : T.length = T.H.size + T.F.size + T.C.pod.size := rfl
  obtain ⟨hfit, hdata⟩ := serialize_true_fits T a a' elem input hmax hstat hd hs
  obtain ⟨payload, rest, hp, hpd, _, _, hs'⟩ := serialize_fit T a elem input hmax hfit hdata
  rw [hs'] at hs
  simp only [Res.ok.injEq, Prod.mk.injEq, and_true] at hs
  subst hs
  have hHl := T.H.enc_length input.header
  have hFl := T.F.enc_length input.fields
  generalize hcrc : T.C.calculate (T.H.enc input.header ++ (T.F.enc input.fields ++ payload)) = crc
  have hCl := T.C.pod.enc_length crc
  refine ⟨rfl, ?_, ?_⟩
  · have esz : (T.length + input.size * elem + wrap - T.length) % wrap = input.size * elem := by
      have : T.length + input.size * elem + wrap - T.length = input.size * elem + wrap := by omega
      rw [this, Nat.add_mod_right, Nat.mod_eq_of_lt (by omega)]
    unfold Accessor.deserialize
    simp only [Accessor.variablePart, esz]
    rw [if_neg (by simp)]
    have d1 : Data.deserialize T.H (T.H.enc input.header ++ (T.F.enc input.fields ++ (payload ++
        (T.C.pod.enc crc ++ rest)))) 0 = .ok input.header := by
      unfold Data.deserialize
      rw [show readAt (T.H.enc input.header ++ _) 0 T.H.size = .ok (T.H.enc input.header) from
        readAt_mid (x := []) rfl hHl, Res.ok_bind, T.H.dec_enc]
      rfl
    have d2 : Data.deserialize T.F (T.H.enc input.header ++ (T.F.enc input.fields ++ (payload ++
        (T.C.pod.enc crc ++ rest)))) T.H.size = .ok input.fields := by
      unfold Data.deserialize
      rw [readAt_mid hHl hFl, Res.ok_bind, T.F.dec_enc]
      rfl
    have e1 : T.H.enc input.header ++ (T.F.enc input.fields ++ (payload ++ (T.C.pod.enc crc ++ rest)))
        = (T.H.enc input.header ++ (T.F.enc input.fields ++ payload)) ++ (T.C.pod.enc crc ++ rest) := by
      simp
    have d3 : Data.deserialize T.C.pod (T.H.enc input.header ++ (T.F.enc input.fields ++ (payload ++
        (T.C.pod.enc crc ++ rest)))) (T.length + input.size * elem - T.C.pod.size) = .ok crc := by
      unfold Data.deserialize
      rw [e1, readAt_mid (by simp; omega) hCl, Res.ok_bind, T.C.pod.dec_enc]
      rfl
    have d4 : readAt (T.H.enc input.header ++ (T.F.enc input.fields ++ (payload ++
        (T.C.pod.enc crc ++ rest)))) 0 (T.length + input.size * elem - T.C.pod.size)
        = .ok (T.H.enc input.header ++ (T.F.enc input.fields ++ payload)) := by
      rw [e1]
      exact readAt_mid (x := []) rfl (by simp; omega)
    rw [d1, Res.ok_bind, d2, Res.ok_bind, if_neg (by simp; omega), d3, Res.ok_bind, d4, Res.ok_bind, hcrc]
    rw [Nat.mul_div_cancel _ he, (T.C.eq_iff crc crc).2 rfl]
    rfl
  · intro d hd'
    refine ⟨?_, hdata d hd'⟩
    have e1 : T.H.enc input.header ++ (T.F.enc input.fields ++ (payload ++ (T.C.pod.enc crc ++ rest)))
        = (T.H.enc input.header ++ T.F.enc input.fields) ++ (payload ++ (T.C.pod.enc crc ++ rest)) := by
      simp
    simp only
    rw [e1, readAt_mid (by simp; omega) hp, hpd d hd']

example : Accessor.deserialize demoT ⟨[0x34, 0x12, 0x56, 1, 2, 3, 4, 0xdf, 0xc4, 0], 9⟩ 2
    = .ok ⟨0x1234#16, 0x56#8, true, 2, some 3⟩ := by decide +kernel

/-- **C30 (partial).** For every storage content and every size between the fixed length and the
capacity, `deserialize` is defined (reads only inside the storage), and a size that is not the fixed
length plus a whole number of elements is reported invalid with a null data pointer.  For sizes
outside that range the exact condition for undefined behaviour is given.  Missing: the claim for those
sizes, where it is false (`C30_short_refuted`, `C30_long_refuted`, `C30_short_valid_refuted`). -/
theorem C30_memory_safe_partial (a : Accessor) (elem : Nat) (hstat : T.length ≤ a.storage.length) (hsz : a.size < wrap) :
    (T.length ≤ a.size → a.size ≤ a.storage.length →
      (∃ out, a.deserialize T elem = .ok out) ∧
      ((a.size - T.length) % elem ≠ 0 → a.deserialize T elem
        = .ok { header := T.H.zero, fields := T.F.zero, valid := false, size := 0, data := none })) ∧
    (a.deserialize T elem = .ub ↔
      ((a.size + wrap - T.length) % wrap) % elem = 0 ∧
        (a.storage.length < a.size ∨ a.size < T.C.pod.size)) ∧
    a.deserialize T elem ≠ .hang := by
  have hlen : T.length = T.H.size + T.F.size + T.C.pod.size := rfl
  have hH : T.H.size ≤ a.storage.length := by omega
  have main : a.deserialize T elem =
      if ((a.size + wrap - T.length) % wrap) % elem ≠ 0 then
        .ok { header := T.H.zero, fields := T.F.zero, valid := false, size := 0, data := none }
      else if a.storage.length < a.size ∨ a.size < T.C.pod.size then .ub
      else .ok { header := T.H.dec (a.storage.take T.H.size),
                 fields := T.F.dec ((a.storage.drop T.H.size).take T.F.size),
                 valid := T.C.eq (T.C.pod.dec ((a.storage.drop (a.size - T.C.pod.size)).take T.C.pod.size))
                   (T.C.calculate (a.storage.take (a.size - T.C.pod.size))),
                 size := a.variablePart T elem, data := some (T.H.size + T.F.size) } := by
    unfold Accessor.deserialize
    split
    · rfl
    · unfold Data.deserialize
      rw [readAt_ok (by omega), readAt_ok (by omega)]
      simp only [Res.ok_bind, Res.pure_eq, List.drop_zero]
      split
      · rfl
      · rename_i h
        rw [readAt_ok (by omega), readAt_ok (by omega)]
        simp
  refine ⟨?_, ?_, ?_⟩
  · intro h1 h2
    have esz : (a.size + wrap - T.length) % wrap = a.size - T.length := by
      have : a.size + wrap - T.length = (a.size - T.length) + wrap := by omega
      rw [this, Nat.add_mod_right, Nat.mod_eq_of_lt (by omega)]
    rw [main, esz]
    constructor
    · split
      · exact ⟨_, rfl⟩
      · rw [if_neg (by omega)]
        exact ⟨_, rfl⟩
    · intro h
      rw [if_pos h]
  · rw [main]
    split
    · rename_i h
      constructor
      · intro h'; cases h'
      · intro h'; exact absurd h'.1 h
    · rename_i h
      split
      · rename_i h2
        exact ⟨fun _ => ⟨by omega, h2⟩, fun _ => rfl⟩
      · rename_i h2
        constructor
        · intro h'; cases h'
        · intro h'; exact absurd h'.2 h2
  · rw [main]
    split
    · intro h; cases h
    · split <;> (intro h; cases h)

example : Accessor.deserialize demoT ⟨[0x34, 0x12, 0x56, 1, 2, 3, 4, 0xdf, 0xc4, 0], 8⟩ 2
    = .ok ⟨0#16, 0#8, false, 0, none⟩ := by decide +kernel

/-- **C30 is false for short sizes**: on a new accessor (size 0), with one-byte elements,
`deserialize` reads before the storage. -/
theorem C30_short_refuted :
    Accessor.deserialize demoT (Accessor.new 16) 1 = .ub ∧
    Accessor.deserialize demoT ((Accessor.new 16).setSize 1) 4 = .ub := by decide +kernel

/-- **C30 is false for sizes beyond the capacity.** -/
theorem C30_long_refuted :
    Accessor.deserialize demoT ((Accessor.new 16).setSize 17) 1 = .ub := by decide +kernel

/-- **C30 is false for sizes below the fixed length even without undefined behaviour**: a 4-byte frame
(one byte shorter than header, fields and CRC) is reported valid, with `2^64 - 1` elements. -/
theorem C30_short_valid_refuted :
    Accessor.deserialize demoT ⟨[0x34, 0x12, 0xb2, 0x00, 0, 0, 0, 0], 4⟩ 1
      = .ok ⟨0x1234#16, 0xb2#8, true, 2 ^ 64 - 1, some 3⟩ := by decide +kernel

/-- **C31.** For a size that is the fixed length plus a whole number of elements and fits the
storage, `deserialize` reports valid exactly when the trailer is the CRC of everything before it, the
count is the number of elements, the data pointer is behind the fields, and `deserialize_no_check`
points to the same header, fields and data with the same count. -/
theorem C31_accessor_validity (hC : T.C.pod.Exact) (a : Accessor) (elem n : Nat) (he : 0 < elem)
    (hmax : a.storage.length < wrap) (hsz : a.size = T.length + n * elem)
    (hfit : a.size ≤ a.storage.length) :
    ∃ out, a.deserialize T elem = .ok out ∧
      (out.valid = true ↔
        (a.storage.drop (a.size - T.C.pod.size)).take T.C.pod.size
          = T.C.pod.enc (T.C.calculate (a.storage.take (a.size - T.C.pod.size)))) ∧
      out.size = n ∧ out.data = some (T.H.size + T.F.size) ∧
      (let p := a.deserializeNoCheck T elem
       p.size = n ∧ out.data = some p.data ∧
       Data.deserialize T.H a.storage p.header = .ok out.header ∧
       Data.deserialize T.F a.storage p.fields = .ok out.fields ∧
       p.data + n * elem + T.C.pod.size = a.size) := by
  have hlen : T.length = T.H.size + T.F.size + T.C.pod.size := rfl
  have esz : (a.size + wrap - T.length) % wrap = n * elem := by
    have : a.size + wrap - T.length = n * elem + wrap := by omega
    rw [this, Nat.add_mod_right, Nat.mod_eq_of_lt (by omega)]
  have evp : a.variablePart T elem = n := by
    unfold Accessor.variablePart
    rw [esz, Nat.mul_div_cancel _ he]
  have dH : Data.deserialize T.H a.storage 0 = .ok (T.H.dec (a.storage.take T.H.size)) := by
    unfold Data.deserialize
    rw [readAt_ok (by omega)]
    simp
  have dF : Data.deserialize T.F a.storage T.H.size
      = .ok (T.F.dec ((a.storage.drop T.H.size).take T.F.size)) := by
    unfold Data.deserialize
    rw [readAt_ok (by omega)]
    simp
  refine ⟨{ header := T.H.dec (a.storage.take T.H.size),
            fields := T.F.dec ((a.storage.drop T.H.size).take T.F.size),
            valid := T.C.eq (T.C.pod.dec ((a.storage.drop (a.size - T.C.pod.size)).take T.C.pod.size))
                   (T.C.calculate (a.storage.take (a.size - T.C.pod.size))),
            size := n, data := some (T.H.size + T.F.size) }, ?_, ?_, rfl, rfl, ?_⟩
  · unfold Accessor.deserialize
    rw [esz, if_neg (by simp), dH, dF]
    simp only [Res.ok_bind]
    rw [if_neg (by omega)]
    unfold Data.deserialize
    rw [readAt_ok (by omega), readAt_ok (by omega)]
    simp [evp]
  · simp only
    rw [T.C.eq_iff]
    have hl : ((a.storage.drop (a.size - T.C.pod.size)).take T.C.pod.size).length = T.C.pod.size := by
      simp; omega
    constructor
    · intro h
      rw [← h, hC _ hl]
    · intro h
      rw [h, T.C.pod.dec_enc]
  · refine ⟨evp, rfl, dH, dF, ?_⟩
    simp only [Accessor.deserializeNoCheck]
    omega

example : (⟨[0x34, 0x12, 0x56, 1, 2, 3, 4, 0xdf, 0xc4, 0], 9⟩ : Accessor).size = demoT.length + 2 * 2 ∧
    Accessor.deserialize demoT ⟨[0x34, 0x12, 0x56, 1, 2, 3, 5, 0xdf, 0xc4, 0], 9⟩ 2
      = .ok ⟨0x1234#16, 0x56#8, false, 2, some 3⟩ := by decide +kernel

/-- The same for a received frame: whatever was received into the storage, and whatever size was set before, after
`size(n)` the frame of `n` bytes is judged by its own trailer. -/
theorem C31_received (hC : T.C.pod.Exact) (a : Accessor) (elem n : Nat) (he : 0 < elem)
    (hmax : a.storage.length < wrap) (hfit : T.length + n * elem ≤ a.storage.length) :
    ∃ out, (a.setSize (T.length + n * elem)).deserialize T elem = .ok out ∧ out.size = n ∧
      (out.valid = true ↔
        (a.storage.drop (T.H.size + T.F.size + n * elem)).take T.C.pod.size
          = T.C.pod.enc (T.C.calculate (a.storage.take (T.H.size + T.F.size + n * elem)))) := by
  have hlen : T.length = T.H.size + T.F.size + T.C.pod.size := rfl
  have hs : (a.setSize (T.length + n * elem)).size = T.length + n * elem :=
    Nat.mod_eq_of_lt (by omega)
  obtain ⟨out, h1, h2, h3, _⟩ := C31_accessor_validity T hC (a.setSize (T.length + n * elem)) elem n he hmax hs
    (by rw [hs]; exact hfit)
  refine ⟨out, h1, h3, ?_⟩
  rw [hs, show T.length + n * elem - T.C.pod.size = T.H.size + T.F.size + n * elem by omega] at h2
  exact h2

example : Accessor.deserialize demoT
    (Accessor.setSize ⟨[0x34, 0x12, 0x56, 1, 2, 3, 4, 0xdf, 0xc4, 0], 300⟩ 9) 2
      = .ok ⟨0x1234#16, 0x56#8, true, 2, some 3⟩ := by decide +kernel

end Verif.Packet
