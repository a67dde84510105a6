import Verif.Packet.Props
/-! C94: the bytes of a serialized frame; C95: default-constructed packets and accessors. -/
namespace Verif.Packet
open Verif Verif.Data

variable {η φ κ : Type} (T : Types η φ κ)

/-- **C94 as far as it holds**: whatever the accessor contained before, after `serialize` returned `true` for a
non-null data pointer (or zero elements) the `size()` bytes of the frame are the bytes of the header, of the fields,
of the elements and of the CRC of all these, in this order; the bytes behind the frame are as before.

Missing: null data pointers with a count above zero, for which it is false (`C94_stale_refuted`); for these
`C94_null` says what the payload is. -/
theorem C94_frame_partial (a a' : Accessor) (elem : Nat) (input : FieldsIn η φ)
    (hmax : a.storage.length < wrap) (hstat : T.length ≤ a.storage.length)
    (hd : input.data ≠ none ∨ input.size = 0) (hs : a.serialize T elem input = .ok (a', true)) :
    ∃ payload, (input.data = none → payload = []) ∧
      (∀ d, input.data = some d → payload = d.take (input.size * elem) ∧ input.size * elem ≤ d.length) ∧
      a'.size = T.H.size + T.F.size + payload.length + T.C.pod.size ∧
      a'.storage = (T.H.enc input.header ++ T.F.enc input.fields ++ payload) ++
        T.C.pod.enc (T.C.calculate (T.H.enc input.header ++ T.F.enc input.fields ++ payload)) ++
        a.storage.drop a'.size := by
  have hlen : T.length = T.H.size + T.F.size + T.C.pod.size := rfl
  obtain ⟨hfit, hdata⟩ := serialize_true_fits T a a' elem input hmax hstat hd hs
  obtain ⟨payload, rest, hp, hpd, hpn, hrest, hs'⟩ := serialize_fit T a elem input hmax hfit hdata
  rw [hs'] at hs
  simp only [Res.ok.injEq, Prod.mk.injEq, and_true] at hs
  subst hs
  refine ⟨payload, ?_, fun d h => ⟨hpd d h, hdata d h⟩, by simp only; omega, ?_⟩
  · intro h
    rcases hd with h' | h'
    · exact absurd h h'
    · rw [h', Nat.zero_mul] at hp
      exact List.length_eq_zero_iff.1 hp
  · simp only [hrest, List.append_assoc]

/-- What null data pointers send: if `serialize` is given a null pointer and a count that fits, it returns `true` and
the payload is whatever the storage contained at its place. -/
theorem C94_null (a : Accessor) (elem : Nat) (input : FieldsIn η φ) (hmax : a.storage.length < wrap)
    (hfit : input.size * elem + T.length ≤ a.storage.length) (hd : input.data = none) :
    ∃ a', a.serialize T elem input = .ok (a', true) ∧ a'.size = T.length + input.size * elem ∧
      (a'.storage.drop (T.H.size + T.F.size)).take (input.size * elem) =
        (a.storage.drop (T.H.size + T.F.size)).take (input.size * elem) := by
  obtain ⟨payload, rest, hp, _, hpn, _, hs⟩ := serialize_fit T a elem input hmax hfit (by simp [hd])
  refine ⟨_, hs, rfl, ?_⟩
  rw [← hpn hd]
  simp only
  rw [← List.append_assoc, List.drop_left' (by simp [T.H.enc_length, T.F.enc_length])]
  exact List.take_left' hp

/-- Two accessors with different contents give the same frame. -/
example : ∃ a' b',
    Accessor.serialize demoT (Accessor.new 10) 2 ⟨0x1234#16, 0x56#8, 2, some [1, 2, 3, 4]⟩ = .ok (a', true) ∧
    Accessor.serialize demoT ⟨[9, 9, 9, 9, 9, 9, 9, 9, 9, 9], 7⟩ 2 ⟨0x1234#16, 0x56#8, 2, some [1, 2, 3, 4]⟩ =
      .ok (b', true) ∧
    a'.storage.take 9 = b'.storage.take 9 ∧ a'.storage ≠ b'.storage :=
  ⟨⟨[0x34, 0x12, 0x56, 1, 2, 3, 4, 0xdf, 0xc4, 0], 9⟩, ⟨[0x34, 0x12, 0x56, 1, 2, 3, 4, 0xdf, 0xc4, 9], 9⟩,
    by decide +kernel, by decide +kernel, by decide, by decide⟩

/-- **C94 is false for null data pointers**: the frame of a header, fields and two elements with a null pointer
contains the payload of the frame sent before. -/
theorem C94_stale_refuted : ∃ a1 a2 b2,
    Accessor.serialize demoT (Accessor.new 10) 2 ⟨0x1234#16, 0x56#8, 2, some [1, 2, 3, 4]⟩ = .ok (a1, true) ∧
    Accessor.serialize demoT a1 2 ⟨0x1234#16, 0x56#8, 2, none⟩ = .ok (a2, true) ∧
    Accessor.serialize demoT (Accessor.new 10) 2 ⟨0x1234#16, 0x56#8, 2, none⟩ = .ok (b2, true) ∧
    a2.size = b2.size ∧ a2.storage.take a2.size ≠ b2.storage.take b2.size ∧
    readAt a2.storage 3 4 = .ok [1, 2, 3, 4] := by
  have h1 : Accessor.serialize demoT (Accessor.new 10) 2 ⟨0x1234#16, 0x56#8, 2, some [1, 2, 3, 4]⟩ =
      .ok (⟨[0x34, 0x12, 0x56, 1, 2, 3, 4, 0xdf, 0xc4, 0], 9⟩, true) := by decide +kernel
  have h2 : Accessor.serialize demoT ⟨[0x34, 0x12, 0x56, 1, 2, 3, 4, 0xdf, 0xc4, 0], 9⟩ 2
      ⟨0x1234#16, 0x56#8, 2, none⟩ = .ok (⟨[0x34, 0x12, 0x56, 1, 2, 3, 4, 0xdf, 0xc4, 0], 9⟩, true) := by
    decide +kernel
  obtain ⟨b2, h3, h4, h5⟩ := C94_null demoT (Accessor.new 10) 2 ⟨0x1234#16, 0x56#8, 2, none⟩ (by decide +kernel)
    (by decide +kernel) rfl
  refine ⟨_, _, b2, h1, h2, h3, ?_, ?_, by decide +kernel⟩
  · rw [h4]
    decide +kernel
  · rw [h4]
    intro h
    have : (b2.storage.drop 3).take 4 = [0, 0, 0, 0] := h5.trans (by decide +kernel)
    have h6 : ((b2.storage.take 9).drop 3).take 4 = [0, 0, 0, 0] := by
      rw [List.drop_take, List.take_take]
      exact this
    rw [show demoT.length + 2 * 2 = 9 by decide +kernel] at h
    simp only at h
    rw [← h] at h6
    exact absurd h6 (by decide)

/-! ### C95 -/

/-- **C95 as far as it holds**: a default-constructed packet consists of zero bytes: these are what `to_array` gives
and `header()` and `fields()` read, and it is valid exactly if the CRC of zero bytes has only zero bytes.  A
default-constructed accessor has size zero and zero bytes in all its storage, and decoding it as a frame reports an
invalid, empty one unless the wrapped difference `0 - length` is a multiple of the size of the elements.

Missing: that decoding it is always defined, which is false (`C95_decode_refuted`): it is undefined in exactly the
excluded case. -/
theorem C95_default_partial (hC : T.C.pod.Exact) (hCpos : 0 < T.C.pod.size) :
    (toArray (empty T) = List.replicate (T.H.size + T.F.size + T.C.pod.size) 0 ∧
      header T (empty T) = T.H.dec (List.replicate T.H.size 0) ∧
      fields T (empty T) = T.F.dec (List.replicate T.F.size 0) ∧
      (valid T (empty T) = true ↔
        T.C.pod.enc (T.C.calculate (List.replicate (T.H.size + T.F.size) 0)) = List.replicate T.C.pod.size 0)) ∧
    ∀ max elem, T.length ≤ max → max < wrap →
      (Accessor.new max).size = 0 ∧ (Accessor.new max).storage = List.replicate max 0 ∧
      ((wrap - T.length) % elem ≠ 0 → (Accessor.new max).deserialize T elem =
        .ok { header := T.H.zero, fields := T.F.zero, valid := false, size := 0, data := none }) ∧
      ((wrap - T.length) % elem = 0 → (Accessor.new max).deserialize T elem = .ub) := by
  have hlen : T.length = T.H.size + T.F.size + T.C.pod.size := rfl
  refine ⟨⟨rfl, ?_, ?_, ?_⟩, ?_⟩
  · simp only [header, empty, List.take_replicate]
    rw [show min T.H.size T.length = T.H.size by omega]
  · simp only [fields, empty, List.drop_replicate, List.take_replicate]
    rw [show min T.F.size (T.length - T.H.size) = T.F.size by omega]
  · simp only [valid, crc, empty, List.drop_replicate, List.take_replicate, List.length_replicate]
    rw [show min T.C.pod.size (T.length - (T.H.size + T.F.size)) = T.C.pod.size by omega,
      show min (T.length - T.C.pod.size) T.length = T.H.size + T.F.size by omega, T.C.eq_iff]
    constructor
    · intro h
      rw [← h]
      exact hC _ (by simp)
    · intro h
      rw [← h, T.C.pod.dec_enc]
  · intro max elem h1 h2
    have hw : (0 + wrap - T.length) % wrap = wrap - T.length := by
      rw [Nat.zero_add]
      exact Nat.mod_eq_of_lt (by omega)
    refine ⟨rfl, rfl, ?_, ?_⟩
    · intro h
      unfold Accessor.deserialize
      rw [show (Accessor.new max).size = 0 from rfl, hw, if_pos h]
    · intro h
      rw [(C30_memory_safe_partial T (Accessor.new max) elem (by simpa [Accessor.new] using h1)
        (by show 0 < wrap; omega)).2.1]
      exact ⟨by rw [show (Accessor.new max).size = 0 from rfl, hw]; exact h, Or.inr hCpos⟩

/-- With the checksum of the examples the default packet is not valid: its checksum of zero bytes is 13. -/
example : demoT.C.pod.Exact ∧ 0 < demoT.C.pod.size ∧ demoSum [0, 0, 0] = 13 ∧ valid demoT (empty demoT) = false ∧
    (Accessor.new 16).deserialize demoT 4 = .ok ⟨0#16, 0#8, false, 0, none⟩ :=
  ⟨lsbPod_exact .little .w16, by decide, by decide +kernel, by decide +kernel, by decide +kernel⟩

/-- **C95 is false**: decoding a new accessor as a frame of bytes reads before its storage. -/
theorem C95_decode_refuted (max : Nat) (h1 : demoT.length ≤ max) (h2 : max < wrap) :
    (Accessor.new max).deserialize demoT 1 = .ub :=
  ((C95_default_partial demoT (lsbPod_exact .little .w16) (by decide)).2 max 1 h1 h2).2.2.2 (Nat.mod_one _)

end Verif.Packet
