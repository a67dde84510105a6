import Verif.Packet.Props
/-!
`data<T>`, `packet` and `packet_accessor` (`include/xitren/func/data.hpp`, `packet.hpp`) for types with padding and with bit
patterns that are no value.  An object is copied member by member, so that each copy may have other padding bytes; what a
function returns is then a relation.  Copying a union, or an array of bytes, copies all bytes.

Simplified: the padding bytes of a copy are some bytes that do not change until the copy is written to again, and storing the CRC
leaves the bytes of header and fields alone.
-/
namespace Verif.Packet.Pad
open Verif Verif.Data Verif.Packet
variable {α η φ κ : Type}

/-- A trivially copyable type: its size, and the value that an object with given bytes has, if any (the parameter `Type` of
data.hpp:37-51).  `zero` is `T{}`. -/
structure Layout (α : Type) where
  size : Nat
  dec : List Byte → Option α
  zero : α
  some_rep : ∀ a, ∃ bs, bs.length = size ∧ dec bs = some a

/-- The bytes `bs` may be those of an object with value `v` (data.hpp:47-51). -/
def Layout.Rep (L : Layout α) (v : α) (bs : List Byte) : Prop := bs.length = L.size ∧ L.dec bs = some v

/-- Reading a member with given bytes: undefined if they are no value (data.hpp:65, packet.hpp:61, 79). -/
def Layout.read (L : Layout α) (bs : List Byte) : Res α :=
  match L.dec bs with
  | some v => .ok v
  | none => .ub

/-- `data<T>::deserialize(begin)` (data.hpp:59-66). -/
def deserialize (L : Layout α) (buf : List Byte) (pos : Nat) : Res α := do
  let bs ← readAt buf pos L.size
  L.read bs

/-- `data<T>::serialize(fields)` may return `bs` (data.hpp:74-79). -/
def Serializes (L : Layout α) (v : α) (bs : List Byte) : Prop := L.Rep v bs

/-- `data<T>::serialize(type, begin)` may have the outcome `r` (data.hpp:87-93). -/
def SerializesTo (L : Layout α) (v : α) (buf : List Byte) (pos : Nat) (r : Res (List Byte)) : Prop :=
  ∃ bs, L.Rep v bs ∧ r = writeAt buf pos bs

/-- The types of a packet (the template parameters of packet.hpp:25-26); the CRC value has no padding. -/
structure Types (η φ κ : Type) where
  H : Layout η
  F : Layout φ
  C : CrcType κ

/-- `length` (packet.hpp:28). -/
def Types.length (T : Types η φ κ) : Nat := T.H.size + T.F.size + T.C.pod.size

/-- `packet(header, fields)` may give a packet with the bytes `p` (packet.hpp:53-56): the members are copied, and the CRC of these
copies' bytes is stored. -/
def Makes (T : Types η φ κ) (h : η) (f : φ) (p : List Byte) : Prop :=
  ∃ hb fb, T.H.Rep h hb ∧ T.F.Rep f fb ∧
    let bytes := hb ++ fb ++ T.C.pod.enc T.C.pod.zero
    p = hb ++ fb ++ T.C.pod.enc (T.C.calculate (bytes.take (bytes.length - T.C.pod.size)))

/-- Static `serialize(header, fields)` may return `out` (packet.hpp:106-112): the CRC is that of one copy of the members, what is
returned is another one. -/
def SerializesHF (T : Types η φ κ) (h : η) (f : φ) (out : List Byte) : Prop :=
  ∃ hb fb hb' fb', T.H.Rep h hb ∧ T.F.Rep f fb ∧ T.H.Rep h hb' ∧ T.F.Rep f fb' ∧
    out = hb' ++ fb' ++ T.C.pod.enc (T.C.calculate (hb ++ fb))

/-- Reading through `header()` of a packet with the bytes `p` (packet.hpp:58-62). -/
def header (T : Types η φ κ) (p : List Byte) : Res η := T.H.read (p.take T.H.size)

/-- Reading through `fields()` (packet.hpp:76-80). -/
def fields (T : Types η φ κ) (p : List Byte) : Res φ := T.F.read ((p.drop T.H.size).take T.F.size)

/-- `valid()` (packet.hpp:94-98). -/
def valid (T : Types η φ κ) (p : List Byte) : Bool :=
  T.C.eq (T.C.pod.dec ((p.drop (T.H.size + T.F.size)).take T.C.pod.size))
    (T.C.calculate (p.take (p.length - T.C.pod.size)))

/-- A way to fill the padding, as a codec without padding: for functions that copy an object once, like those of
`packet_accessor` (packet.hpp:202-204, 225-226). -/
def Layout.pod (L : Layout α) (pick : α → List Byte) (hp : ∀ a, L.Rep a (pick a)) : Pod α where
  size := L.size
  enc := pick
  dec bs := (L.dec bs).getD L.zero
  zero := L.zero
  enc_length a := (hp a).1
  dec_enc a := by rw [(hp a).2]; rfl

/-! ### `data<T>` -/

/-- **C24** for every trivially copyable type, with padding and with bit patterns that are no value: whatever bytes the padding
gets, the value survives `deserialize(serialize(v))`; `serialize(v, it)` is defined exactly when `sizeof(T)` bytes are available,
writes no others, and `deserialize` reads the value back; `deserialize` is defined exactly when `sizeof(T)` bytes are available and
are those of a value, and depends on these bytes only. -/
theorem C24_any_type (L : Layout α) (v : α) (buf : List Byte) (pos : Nat) :
    (∃ bs, Serializes L v bs) ∧
    (∀ bs, Serializes L v bs → bs.length = L.size ∧ deserialize L bs 0 = .ok v) ∧
    (∃ r, SerializesTo L v buf pos r) ∧
    (∀ r, SerializesTo L v buf pos r → ((∃ out, r = .ok out) ↔ pos + L.size ≤ buf.length) ∧
      ∀ out, r = .ok out → out.length = buf.length ∧ (∀ i, i < pos ∨ pos + L.size ≤ i → out[i]? = buf[i]?) ∧
        deserialize L out pos = .ok v) ∧
    ((∃ u, deserialize L buf pos = .ok u) ↔ pos + L.size ≤ buf.length ∧ ∃ u, L.Rep u ((buf.drop pos).take L.size)) ∧
    (∀ (buf' : List Byte) (pos' : Nat), pos + L.size ≤ buf.length → pos' + L.size ≤ buf'.length →
      (∀ i, i < L.size → buf[pos + i]? = buf'[pos' + i]?) → deserialize L buf pos = deserialize L buf' pos') := by
  obtain ⟨b0, hb0⟩ := L.some_rep v
  have hread : ∀ (buf : List Byte) (pos : Nat), pos + L.size ≤ buf.length →
      deserialize L buf pos = L.read ((buf.drop pos).take L.size) := by
    intro buf pos h
    unfold deserialize readAt
    rw [if_pos h]
    rfl
  refine ⟨⟨b0, hb0⟩, fun bs hbs => ⟨hbs.1, ?_⟩, ⟨_, b0, hb0, rfl⟩, ?_, ?_, ?_⟩
  · rw [hread _ _ (by have := hbs.1; omega), List.drop_zero, ← hbs.1, List.take_length, Layout.read, hbs.2]
  · rintro r ⟨bs, hbs, rfl⟩
    have hl := hbs.1
    unfold writeAt
    rw [hl]
    by_cases h : pos + L.size ≤ buf.length
    · rw [if_pos h]
      refine ⟨⟨fun _ => h, fun _ => ⟨_, rfl⟩⟩, ?_⟩
      rintro out e
      simp only [Res.ok.injEq] at e
      subst e
      have hlen : (buf.take pos ++ bs ++ buf.drop (pos + L.size)).length = buf.length := by
        simp [hl]; omega
      refine ⟨hlen, ?_, ?_⟩
      · rintro i (hi | hi)
        · rw [List.append_assoc, List.getElem?_append_left (by simp; omega), List.getElem?_take, if_pos hi]
        · rw [List.getElem?_append_right (by simp [hl]; omega), List.getElem?_drop]
          congr 1
          simp [hl]
          omega
      · rw [hread _ _ (by omega)]
        have : ((buf.take pos ++ bs ++ buf.drop (pos + L.size)).drop pos).take L.size = bs := by
          rw [List.append_assoc, List.drop_append_of_le_length (by simp; omega),
            List.drop_eq_nil_of_le (by simp; omega), List.nil_append, List.take_append_of_le_length (by omega),
            List.take_of_length_le (by omega)]
        rw [this, Layout.read, hbs.2]
    · rw [if_neg h]
      exact ⟨⟨fun ⟨_, e⟩ => (by cases e), fun h' => absurd h' h⟩, fun _ e => (by cases e)⟩
  · by_cases h : pos + L.size ≤ buf.length
    · rw [hread _ _ h, Layout.read]
      constructor
      · rintro ⟨u, hu⟩
        refine ⟨h, ?_⟩
        cases hd : L.dec ((buf.drop pos).take L.size) with
        | none => rw [hd] at hu; cases hu
        | some u => exact ⟨u, by simp; omega, hd⟩
      · rintro ⟨-, u, hu⟩
        exact ⟨u, by rw [hu.2]⟩
    · constructor
      · rintro ⟨u, hu⟩
        unfold deserialize readAt at hu
        rw [if_neg h] at hu
        cases hu
      · rintro ⟨h', -⟩
        exact absurd h' h
  · intro buf' pos' h h' hi
    rw [hread _ _ h, hread _ _ h']
    congr 1
    apply List.ext_getElem?
    intro i
    simp only [List.getElem?_take, List.getElem?_drop]
    split
    · next hlt => exact hi i hlt
    · rfl

/-! ### `packet` -/

theorem read_parts (T : Types η φ κ) {h : η} {f : φ} {hb fb : List Byte} (c : List Byte) (hh : T.H.Rep h hb)
    (hf : T.F.Rep f fb) : header T (hb ++ fb ++ c) = .ok h ∧ fields T (hb ++ fb ++ c) = .ok f := by
  constructor
  · unfold header
    rw [List.append_assoc, ← hh.1, List.take_left, Layout.read, hh.2]
  · unfold fields
    rw [List.append_assoc, ← hh.1, List.drop_left, ← hf.1, List.take_left, Layout.read, hf.2]

theorem valid_parts (T : Types η φ κ) {body : List Byte} (hl : body.length = T.H.size + T.F.size) (v : κ) :
    valid T (body ++ T.C.pod.enc v) = true ↔ v = T.C.calculate body := by
  have hc := T.C.pod.enc_length v
  unfold valid
  rw [← hl, List.drop_left, ← hc, List.take_length, T.C.pod.dec_enc, T.C.eq_iff, List.length_append, Nat.add_sub_cancel,
    List.take_left]

/-- **C25** for every header and fields type, with padding: whatever bytes the padding gets, the packet is valid and its header
and fields are those it was built from, also in a packet built from its bytes (which is the same packet). -/
theorem C25_any_type (T : Types η φ κ) (h : η) (f : φ) :
    (∃ p, Makes T h f p) ∧
    ∀ p, Makes T h f p → valid T p = true ∧ header T p = .ok h ∧ fields T p = .ok f ∧ p.length = T.length := by
  obtain ⟨hb0, hh0⟩ := T.H.some_rep h
  obtain ⟨fb0, hf0⟩ := T.F.some_rep f
  refine ⟨⟨_, hb0, fb0, hh0, hf0, rfl⟩, ?_⟩
  rintro p ⟨hb, fb, hh, hf, rfl⟩
  have hl : (hb ++ fb).length = T.H.size + T.F.size := by rw [List.length_append, hh.1, hf.1]
  have ht : (hb ++ fb ++ T.C.pod.enc T.C.pod.zero).take
      ((hb ++ fb ++ T.C.pod.enc T.C.pod.zero).length - T.C.pod.size) = hb ++ fb := by
    rw [List.length_append, T.C.pod.enc_length, Nat.add_sub_cancel, List.take_left]
  simp only [ht]
  obtain ⟨h1, h2⟩ := read_parts T (T.C.pod.enc (T.C.calculate (hb ++ fb))) hh hf
  exact ⟨(valid_parts T hl _).2 rfl, h1, h2, by rw [List.length_append, hl, T.C.pod.enc_length]; rfl⟩

/-- **C128**: what static `serialize(header, fields)` returns always has the length of a packet and holds the header and the
fields. -/
theorem C128_members (T : Types η φ κ) (h : η) (f : φ) :
    (∃ out, SerializesHF T h f out) ∧
    ∀ out, SerializesHF T h f out → out.length = T.length ∧ header T out = .ok h ∧ fields T out = .ok f := by
  obtain ⟨hb0, hh0⟩ := T.H.some_rep h
  obtain ⟨fb0, hf0⟩ := T.F.some_rep f
  refine ⟨⟨_, hb0, fb0, hb0, fb0, hh0, hf0, hh0, hf0, rfl⟩, ?_⟩
  rintro out ⟨hb, fb, hb', fb', -, -, hh, hf, rfl⟩
  obtain ⟨h1, h2⟩ := read_parts T (T.C.pod.enc (T.C.calculate (hb ++ fb))) hh hf
  exact ⟨by rw [List.length_append, List.length_append, hh.1, hf.1, T.C.pod.enc_length]; rfl, h1, h2⟩

/-- **C128** (partial: the exact condition): what static `serialize(header, fields)` returns is sure to be a valid packet exactly
if all bytes that header and fields may consist of have the same CRC. -/
theorem C128_valid_iff_partial (T : Types η φ κ) (h : η) (f : φ) :
    (∀ out, SerializesHF T h f out → valid T out = true) ↔
    ∀ hb fb hb' fb', T.H.Rep h hb → T.F.Rep f fb → T.H.Rep h hb' → T.F.Rep f fb' →
      T.C.calculate (hb ++ fb) = T.C.calculate (hb' ++ fb') := by
  have hl : ∀ {hb fb : List Byte}, T.H.Rep h hb → T.F.Rep f fb → (hb ++ fb).length = T.H.size + T.F.size := by
    intro hb fb hh hf
    rw [List.length_append, hh.1, hf.1]
  constructor
  · intro hv hb fb hb' fb' h1 h2 h3 h4
    exact (valid_parts T (hl h3 h4) _).1 (hv _ ⟨hb, fb, hb', fb', h1, h2, h3, h4, rfl⟩)
  · rintro he out ⟨hb, fb, hb', fb', h1, h2, h3, h4, rfl⟩
    exact (valid_parts T (hl h3 h4) _).2 (he hb fb hb' fb' h1 h2 h3 h4)

/-- **C27, C128** (partial: no padding in header and fields): then static `serialize(header, fields)` returns the bytes of
`packet(header, fields)`, a valid packet. -/
theorem C128_unpadded_partial (T : Types η φ κ) (h : η) (f : φ) (hH : ∀ b b', T.H.Rep h b → T.H.Rep h b' → b = b')
    (hF : ∀ b b', T.F.Rep f b → T.F.Rep f b' → b = b') {out p : List Byte} (ho : SerializesHF T h f out)
    (hp : Makes T h f p) : out = p ∧ valid T out = true := by
  have hv := ((C25_any_type T h f).2 p hp).1
  obtain ⟨hb, fb, hb', fb', h1, h2, h3, h4, rfl⟩ := ho
  obtain ⟨hb2, fb2, h5, h6, rfl⟩ := hp
  have ht : (hb2 ++ fb2 ++ T.C.pod.enc T.C.pod.zero).take
      ((hb2 ++ fb2 ++ T.C.pod.enc T.C.pod.zero).length - T.C.pod.size) = hb2 ++ fb2 := by
    rw [List.length_append, T.C.pod.enc_length, Nat.add_sub_cancel, List.take_left]
  simp only [ht] at hv ⊢
  rw [hH hb' hb2 h3 h5, hF fb' fb2 h4 h6, hH hb hb2 h1 h5, hF fb fb2 h2 h6]
  exact ⟨rfl, hv⟩

/-! ### `packet_accessor` -/

/-- **C29** for every header and fields type, with padding: whatever bytes the padding gets when the members are stored, and whatever
it gets in the copies that `deserialize` returns, the frame is valid and header, fields and count are those given. -/
theorem C29_any_type (H : Layout η) (F : Layout φ) (C : CrcType κ) (pickH : η → List Byte) (pickF : φ → List Byte)
    (hH : ∀ a, H.Rep a (pickH a)) (hF : ∀ a, F.Rep a (pickF a)) (pickH' : η → List Byte) (pickF' : φ → List Byte)
    (hH' : ∀ a, H.Rep a (pickH' a)) (hF' : ∀ a, F.Rep a (pickF' a)) (a a' : Accessor) (elem : Nat) (input : FieldsIn η φ)
    (he : 0 < elem) (hmax : a.storage.length < 2 ^ 64) (hstat : H.size + F.size + C.pod.size ≤ a.storage.length)
    (hd : input.data ≠ none ∨ input.size = 0)
    (hs : a.serialize ⟨H.pod pickH hH, F.pod pickF hF, C⟩ elem input = .ok (a', true)) :
    a'.size = H.size + F.size + C.pod.size + input.size * elem ∧
    a'.deserialize ⟨H.pod pickH' hH', F.pod pickF' hF', C⟩ elem = .ok
      { header := input.header, fields := input.fields, valid := true, size := input.size, data := some (H.size + F.size) } := by
  have := C29_round_trip ⟨H.pod pickH hH, F.pod pickF hF, C⟩ a a' elem input he hmax hstat hd hs
  exact ⟨this.1, this.2.1⟩

/-! ### Concrete types -/

/-- `struct alignas(2) { std::uint8_t x; }`: one byte and one byte of padding. -/
def padded : Layout Byte where
  size := 2
  dec
    | [x, _] => some x
    | _ => none
  zero := 0
  some_rep a := ⟨[a, 0], rfl, rfl⟩

/-- `bool`: two bit patterns are values. -/
def bool : Layout Bool where
  size := 1
  dec
    | [0] => some false
    | [1] => some true
    | _ => none
  zero := false
  some_rep a := by
    cases a
    · exact ⟨[0], rfl, by decide +kernel⟩
    · exact ⟨[1], rfl, by decide +kernel⟩

/-- A padded header, a `bool` and the checksum of `demoT`. -/
def demoP : Types Byte Bool (Lsb .w16) := ⟨padded, bool, lsbCrc .little .w16 demoSum⟩

/-- C24: two calls may give different bytes, both are read back; the byte 2 is no `bool`. -/
example : Serializes padded 7 [7, 0] ∧ Serializes padded 7 [7, 9] ∧ deserialize padded [1, 7, 9, 3] 1 = .ok 7 ∧
    deserialize bool [1, 0, 2] 0 = .ok true ∧ deserialize bool [1, 0, 2] 2 = .ub := by
  refine ⟨⟨rfl, rfl⟩, ⟨rfl, rfl⟩, rfl, ?_, ?_⟩ <;> decide +kernel

/-- C25: two packets that `packet(7, true)` may give; both are valid. -/
example : (∃ p, Makes demoP 7 true p ∧ p.take 3 = [7, 0, 1]) ∧ ∃ p, Makes demoP 7 true p ∧ p.take 3 = [7, 9, 1] :=
  ⟨⟨_, ⟨[7, 0], [1], ⟨rfl, rfl⟩, ⟨rfl, by decide +kernel⟩, rfl⟩, rfl⟩,
    ⟨_, ⟨[7, 9], [1], ⟨rfl, rfl⟩, ⟨rfl, by decide +kernel⟩, rfl⟩, rfl⟩⟩

/-- **C27, C128** (refuted for types with padding): static `serialize(header, fields)` may return a packet that is not valid, and so
one that `packet(header, fields)` never gives. -/
theorem C128_padding_refuted : ∃ out, SerializesHF demoP 7 true out ∧ valid demoP out = false ∧ ¬ Makes demoP 7 true out := by
  have h : valid demoP ([7, 9] ++ [1] ++ demoP.C.pod.enc (demoP.C.calculate ([7, 0] ++ [1]))) = false := by decide +kernel
  refine ⟨_, ⟨[7, 0], [1], [7, 9], [1], ⟨rfl, rfl⟩, ⟨rfl, by decide +kernel⟩, ⟨rfl, rfl⟩, ⟨rfl, by decide +kernel⟩, rfl⟩, h,
    fun hm => ?_⟩
  have := ((C25_any_type demoP 7 true).2 _ hm).1
  rw [h] at this
  cases this

/-- Header and fields without padding, for `C128_unpadded_partial`. -/
example : ∃ out, SerializesHF ⟨bool, bool, demoP.C⟩ true false out ∧ Makes ⟨bool, bool, demoP.C⟩ true false out ∧
    ∀ b b', bool.Rep true b → bool.Rep true b' → b = b' := by
  have h1 : bool.Rep true [1] := ⟨rfl, by decide +kernel⟩
  have h0 : bool.Rep false [0] := ⟨rfl, by decide +kernel⟩
  have hu : ∀ b, bool.Rep true b → b = [1] := by
    rintro b ⟨-, h⟩
    simp only [bool] at h
    split at h <;> simp_all
  exact ⟨_, ⟨[1], [0], [1], [0], h1, h0, h1, h0, rfl⟩, ⟨[1], [0], h1, h0, by decide +kernel⟩,
    fun b b' h h' => by rw [hu b h, hu b' h']⟩

/-- A frame whose header is stored with 9 in its padding, for `C29_any_type`. -/
example : (Accessor.new 10).serialize ⟨padded.pod (fun x => [x, 9]) (fun _ => ⟨rfl, rfl⟩),
      padded.pod (fun x => [x, 0]) (fun _ => ⟨rfl, rfl⟩), demoP.C⟩ 2 ⟨7, 8, 1, some [1, 2]⟩ =
    .ok (⟨[7, 9, 8, 0, 1, 2, 0xc7, 0x0b, 0, 0], 8⟩, true) := by
  decide +kernel

end Verif.Packet.Pad
