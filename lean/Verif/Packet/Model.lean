import Verif.Data.Pods
/-!
Model of `include/xitren/func/packet.hpp`.

A `packet` union is its bytes (`pure_`); the `fields_` view decodes them at the offsets of the packed
struct.  The CRC class is a parameter: a trivially copyable value type, an arbitrary function from
byte sequences to values, and the comparison used on those values.
-/
namespace Verif.Packet
open Verif Verif.Data

/-- The `Crc` template argument (packet.hpp:18-25): `Crc::value_type`, `Crc::calculate`, the
`operator==` used at packet.hpp:97 and the comparison of `.get()` used at packet.hpp:211. -/
structure CrcType (κ : Type) where
  pod : Pod κ
  calculate : List Byte → κ
  eq : κ → κ → Bool
  eq_iff : ∀ a b, eq a b = true ↔ a = b

/-- The types a packet is instantiated with (the template parameters of packet.hpp). -/
structure Types (η φ κ : Type) where
  H : Pod η
  F : Pod φ
  C : CrcType κ

/-- `length` / `sizeof(struct_type)` (packet.hpp:28, 40). -/
def Types.length {η φ κ : Type} (T : Types η φ κ) : Nat := T.H.size + T.F.size + T.C.pod.size

/-- A `packet` object: its bytes `pure_` (packet.hpp:141-143). -/
structure Packet where
  pure : List Byte
  deriving DecidableEq, Repr

section
variable {η φ κ : Type} (T : Types η φ κ)

/-- `packet(std::array const&&)` (packet.hpp:43). -/
def ofArray (a : List Byte) : Packet := ⟨a⟩

/-- `packet(InputIterator begin)` (packet.hpp:45-49). -/
def ofIter (buf : List Byte) (pos : Nat) : Res Packet := do
  let bs ← readAt buf pos T.length
  Pure.pure ⟨bs⟩

/-- `packet()` (packet.hpp:51). -/
def empty : Packet := ⟨List.replicate T.length 0⟩

/-- `packet(header, fields)` (packet.hpp:53-56): the members are stored with a value-initialised
CRC, then the CRC of all bytes but the trailing ones is stored over it. -/
def make (h : η) (f : φ) : Packet :=
  let bytes := T.H.enc h ++ T.F.enc f ++ T.C.pod.enc T.C.pod.zero
  let crc := T.C.calculate (bytes.take (bytes.length - T.C.pod.size))
  ⟨bytes.take (T.H.size + T.F.size) ++ T.C.pod.enc crc⟩

/-- Reading through `header()` (packet.hpp:58-62). -/
def header (p : Packet) : η := T.H.dec (p.pure.take T.H.size)

/-- Reading through `fields()` (packet.hpp:76-80). -/
def fields (p : Packet) : φ := T.F.dec ((p.pure.drop T.H.size).take T.F.size)

/-- `fields_.crc` (packet.hpp:33, 97). -/
def crc (p : Packet) : κ := T.C.pod.dec ((p.pure.drop (T.H.size + T.F.size)).take T.C.pod.size)

/-- Assigning through the reference returned by `header()` (packet.hpp:58-62). -/
def setHeader (p : Packet) (h : η) : Packet := ⟨T.H.enc h ++ p.pure.drop T.H.size⟩

/-- Assigning through the reference returned by `fields()` (packet.hpp:76-80). -/
def setFields (p : Packet) (f : φ) : Packet :=
  ⟨p.pure.take T.H.size ++ T.F.enc f ++ p.pure.drop (T.H.size + T.F.size)⟩

/-- `valid()` (packet.hpp:94-98). -/
def valid (p : Packet) : Bool :=
  T.C.eq (crc T p) (T.C.calculate (p.pure.take (p.pure.length - T.C.pod.size)))

/-- `to_array()` (packet.hpp:100-104). -/
def toArray (p : Packet) : List Byte := p.pure

/-- Static `serialize(header, fields)` (packet.hpp:106-112). -/
def serializeHF (h : η) (f : φ) : List Byte :=
  let dataTr := serialize (pairPod T.H T.F) (h, f)
  let crc := T.C.calculate dataTr
  serialize (pairPod (pairPod T.H T.F) T.C.pod) ((h, f), crc)

/-- Static `deserialize(begin)` (packet.hpp:124-131). -/
def deserializeIt (buf : List Byte) (pos : Nat) : Res Packet := do
  let bs ← readAt buf pos T.length
  Pure.pure ⟨bs⟩

/-- Static `serialize(packet, begin)` (packet.hpp:133-139). -/
def serializeIt (p : Packet) (buf : List Byte) (pos : Nat) : Res (List Byte) :=
  writeAt buf pos p.pure

end

/-! ### `packet_accessor<Max>` (packet.hpp:146-266) -/

/-- Values of `std::size_t` wrap at this number (the sizes of packet.hpp are `std::size_t`). -/
def wrap : Nat := 2 ^ 64

/-- A `packet_accessor<Max>` object (packet.hpp:263-265); `Max` is the length of the storage. -/
structure Accessor where
  storage : List Byte
  size : Nat
  deriving DecidableEq, Repr

/-- A new accessor (packet.hpp:264-265). -/
def Accessor.new (max : Nat) : Accessor := ⟨List.replicate max 0, 0⟩

/-- `size(n)` (packet.hpp:245-249). -/
def Accessor.setSize (a : Accessor) (n : Nat) : Accessor := { a with size := n % wrap }

/-- `fields_in` (packet.hpp:170-176).  `data` is `none` for a null pointer, otherwise the bytes
readable from the pointer on. -/
structure FieldsIn (η φ : Type) where
  header : η
  fields : φ
  size : Nat
  data : Option (List Byte)

/-- `fields_out` (packet.hpp:153-160).  `data` is the position in the storage the pointer points
to, `none` for a null pointer. -/
structure FieldsOut (η φ : Type) where
  header : η
  fields : φ
  valid : Bool
  size : Nat
  data : Option Nat
  deriving DecidableEq, Repr

/-- `fields_out_ptr` (packet.hpp:162-168): positions in the storage. -/
structure FieldsOutPtr where
  header : Nat
  fields : Nat
  size : Nat
  data : Nat
  deriving DecidableEq, Repr

section
variable {η φ κ : Type} (T : Types η φ κ)

/-- `(size_ - length) / sizeof(Type)` in `std::size_t` (packet.hpp:186, 201). -/
def Accessor.variablePart (a : Accessor) (elem : Nat) : Nat :=
  ((a.size + wrap - T.length) % wrap) / elem

/-- `deserialize_no_check<Header, Fields, Type, Crc>()` (packet.hpp:178-191); `elem` is
`sizeof(Type)`. -/
def Accessor.deserializeNoCheck (a : Accessor) (elem : Nat) : FieldsOutPtr :=
  { header := 0, fields := T.H.size, size := a.variablePart T elem, data := T.H.size + T.F.size }

/-- `deserialize<Header, Fields, Type, Crc>()` (packet.hpp:193-213).  Forming a pointer outside the
storage (`storage_.begin() + size_ - sizeof(value_type)`) or reading outside it is undefined
behaviour. -/
def Accessor.deserialize (a : Accessor) (elem : Nat) : Res (FieldsOut η φ) :=
  if ((a.size + wrap - T.length) % wrap) % elem ≠ 0 then
    .ok { header := T.H.zero, fields := T.F.zero, valid := false, size := 0, data := none }
  else do
    let headerConv ← Data.deserialize T.H a.storage 0
    let fieldsConv ← Data.deserialize T.F a.storage T.H.size
    if a.storage.length < a.size ∨ a.size < T.C.pod.size then .ub
    else do
      let crcConv ← Data.deserialize T.C.pod a.storage (a.size - T.C.pod.size)
      let bytes ← readAt a.storage 0 (a.size - T.C.pod.size)
      let crcCalc := T.C.calculate bytes
      Pure.pure { header := headerConv, fields := fieldsConv, valid := T.C.eq crcConv crcCalc,
                  size := a.variablePart T elem, data := some (T.H.size + T.F.size) }

/-- `std::copy` of the payload (packet.hpp:227-231): `n` bytes from the data pointer, to the
storage behind header and fields. -/
def copyPayload (storage : List Byte) (pos : Nat) (data : List Byte) (n : Nat) : Res (List Byte) := do
  let bs ← readAt data 0 n
  writeAt storage pos bs

/-- `if ((input.size > 0) && (input.data != nullptr)) std::copy(…)` (packet.hpp:227-231). -/
def storePayload (st : List Byte) (elem : Nat) (input : FieldsIn η φ) : Res (List Byte) :=
  match input.data with
  | some d => if input.size > 0 then
      copyPayload st (T.H.size + T.F.size) d (input.size * elem) else .ok st
  | none => .ok st

/-- `serialize<Header, Fields, Type, Crc>(input)` (packet.hpp:215-237).  The product
`input.size * sizeof(Type)` is computed in `std::size_t`; the payload copy uses pointer arithmetic on
`Type const*`, which does not wrap. -/
def Accessor.serialize (a : Accessor) (elem : Nat) (input : FieldsIn η φ) : Res (Accessor × Bool) :=
  if (input.size * elem % wrap + T.length) % wrap > a.storage.length then .ok (a, false)
  else do
    let st ← serializeTo T.H input.header a.storage 0
    let st ← serializeTo T.F input.fields st T.H.size
    let st ← storePayload T st elem input
    let crcPos := T.H.size + T.F.size + input.size * elem % wrap
    let bytes ← readAt st 0 crcPos
    let crc := T.C.calculate bytes
    let st ← serializeTo T.C.pod crc st crcPos
    Pure.pure ({ storage := st, size := (T.length + input.size * elem % wrap) % wrap }, true)

end

/-! ### CRC value types the library is used with -/

/-- A CRC class whose `value_type` is `lsb_t<T>` (as in tests/patterns_package_base_test.cpp:8-41):
`operator==` compares `get()` (data.hpp:233-237). -/
def lsbCrc (host : Host) (w : Width) (sum : List Byte → w.Val) : CrcType (Lsb w) where
  pod := lsbPod host w
  calculate bs := Lsb.ofRef host (sum bs)
  eq x y := x.eq host y
  eq_iff x y := by
    cases x; cases y
    simp [Lsb.eq, Lsb.get, isLsb_true]

/-- A CRC class whose `value_type` is `msb_t<T>` (data.hpp:386-390). -/
def msbCrc (host : Host) (w : Width) (sum : List Byte → w.Val) : CrcType (Msb w) where
  pod := msbPod host w
  calculate bs := Msb.ofRef host (sum bs)
  eq x y := x.eq host y
  eq_iff x y := by
    cases x with | mk a => ?_
    cases y with | mk b => ?_
    simp only [Msb.eq, Msb.get, isLsb_true, if_true, beq_iff_eq, Msb.mk.injEq]
    constructor
    · intro h
      rw [← swap_swap host w a, h, swap_swap]
    · intro h
      rw [h]

end Verif.Packet
