import Verif.Basic
/-!
Model of `include/xitren/func/data.hpp`: object representations on little- and big-endian hosts,
`data<T>`, `swap`, `lsb_t`, `msb_t`.

Integers are `BitVec (8*n)`; the memory of an object is the list of its bytes, lowest address
first.  The byte order of the host is a parameter of every definition that looks at memory.
-/
namespace Verif.Data
open Verif

/-- Byte order of the machine the code runs on (what data.hpp:29-35 tests). -/
inductive Host where
  | little
  | big
  deriving Repr, DecidableEq

/-- The bytes of a number, least significant first (object representations, data.hpp:47-51). -/
def digits : (n : Nat) → Nat → List Byte
  | 0, _ => []
  | n + 1, v => BitVec.ofNat 8 v :: digits n (v / 256)

/-- The number with the given bytes, least significant first (object representations, data.hpp:47-51). -/
def undigits : List Byte → Nat
  | [] => 0
  | b :: bs => b.toNat + 256 * undigits bs

/-- Object representation of an unsigned integer of `n` bytes (what `data<T>::pure` of
data.hpp:49-51 shows for an integer `T`). -/
def intBytes (host : Host) (n : Nat) (v : BitVec (8 * n)) : List Byte :=
  match host with
  | .little => digits n v.toNat
  | .big => (digits n v.toNat).reverse

/-- The integer held by an object with the given bytes (object representations, data.hpp:47-51). -/
def intOfBytes (host : Host) (n : Nat) (bs : List Byte) : BitVec (8 * n) :=
  match host with
  | .little => BitVec.ofNat (8 * n) (undigits bs)
  | .big => BitVec.ofNat (8 * n) (undigits bs.reverse)

/-- A trivially copyable type, with a fixed choice for its padding if it has any (`Packet.Pad` leaves the choice open): its size, its object representation and the value
an object with given bytes has.  Value-initialisation (`T{}`) is `zero` (the parameter `Type` of data.hpp:37-51). -/
structure Pod (α : Type) where
  size : Nat
  enc : α → List Byte
  dec : List Byte → α
  zero : α
  enc_length : ∀ a, (enc a).length = size
  dec_enc : ∀ a, dec (enc a) = a

/-! ### Byte buffers reached through iterators -/

/-- `std::copy(begin, begin + n, …)` with `begin` at position `pos` of `buf`: reading outside the
buffer is undefined behaviour (data.hpp:64). -/
def readAt (buf : List Byte) (pos n : Nat) : Res (List Byte) :=
  if pos + n ≤ buf.length then .ok ((buf.drop pos).take n) else .ub

/-- `std::copy(bs.begin(), bs.end(), begin)` with `begin` at position `pos` of `buf`: writing
outside the buffer is undefined behaviour (data.hpp:92). -/
def writeAt (buf : List Byte) (pos : Nat) (bs : List Byte) : Res (List Byte) :=
  if pos + bs.length ≤ buf.length then
    .ok (buf.take pos ++ bs ++ buf.drop (pos + bs.length))
  else .ub

/-! ### `data<T>` (data.hpp:47-94) -/

/-- `data<T>::deserialize(begin)` (data.hpp:59-66): the first `sizeof(T)` bytes from `begin` are
copied over the union's bytes, the `fields` member is returned. -/
def deserialize {α : Type} (P : Pod α) (buf : List Byte) (pos : Nat) : Res α := do
  let bs ← readAt buf pos P.size
  pure (P.dec bs)

/-- `data<T>::serialize(fields)` (data.hpp:74-79). -/
def serialize {α : Type} (P : Pod α) (v : α) : List Byte := P.enc v

/-- `data<T>::serialize(type, begin)` (data.hpp:87-93). -/
def serializeTo {α : Type} (P : Pod α) (v : α) (buf : List Byte) (pos : Nat) : Res (List Byte) :=
  writeAt buf pos (P.enc v)

/-! ### `swap` (data.hpp:101-137) -/

/-- `std::swap(l[i], l[j])` (data.hpp:105, 118-119, 132-135). -/
def swapAt (l : List Byte) (i j : Nat) : List Byte :=
  (l.set i (l.getD j 0)).set j (l.getD i 0)

/-- `swap(std::uint16_t)` (data.hpp:101-107). -/
def swap16 (host : Host) (v : BitVec (8 * 2)) : BitVec (8 * 2) :=
  let l := intBytes host 2 v
  let l := swapAt l 0 1
  intOfBytes host 2 l

/-- `swap(std::uint32_t)` (data.hpp:114-121). -/
def swap32 (host : Host) (v : BitVec (8 * 4)) : BitVec (8 * 4) :=
  let l := intBytes host 4 v
  let l := swapAt l 0 3
  let l := swapAt l 1 2
  intOfBytes host 4 l

/-- `swap(std::uint64_t)` (data.hpp:128-137). -/
def swap64 (host : Host) (v : BitVec (8 * 8)) : BitVec (8 * 8) :=
  let l := intBytes host 8 v
  let l := swapAt l 0 7
  let l := swapAt l 1 6
  let l := swapAt l 2 5
  let l := swapAt l 3 4
  intOfBytes host 8 l

/-- The `swappable` types (data.hpp:139-140), by width in bytes. -/
inductive Width where
  | w16
  | w32
  | w64
  deriving Repr, DecidableEq

/-- `sizeof(T)` (the overloads data.hpp:101-107, 114-121, 128-137). -/
abbrev Width.bytes : Width → Nat
  | .w16 => 2
  | .w32 => 4
  | .w64 => 8

/-- Values of the integer type (the overloads data.hpp:101-107, 114-121, 128-137). -/
abbrev Width.Val (w : Width) : Type := BitVec (8 * w.bytes)

/-- Overload resolution of `swap` (data.hpp:101-137). -/
def swap (host : Host) : (w : Width) → w.Val → w.Val
  | .w16, v => swap16 host v
  | .w32, v => swap32 host v
  | .w64, v => swap64 host v

/-! ### `is_lsb` (data.hpp:28-35) -/

/-- `is_lsb()`: `std::copy` moves **one** element of type `std::uint16_t` into the byte array, so
`arr[0]` is the value `0x3322` converted to `std::uint8_t`; the host's byte order is not
looked at (data.hpp:28-35). -/
def isLsb (_host : Host) : Bool :=
  let test : BitVec 16 := 0x3322
  let arr0 : Byte := test.setWidth 8
  arr0 == 0x22

/-! ### `lsb_t` (data.hpp:142-293) -/

/-- An `lsb_t<T>` object: its only member (data.hpp:292). -/
structure Lsb (w : Width) where
  value : w.Val
  deriving DecidableEq, Repr

namespace Lsb

/-- Default constructor (data.hpp:153, 292: `value_{}`). -/
def default (w : Width) : Lsb w := ⟨0⟩

/-- `lsb_t(data_type const&)` (data.hpp:163-170). -/
def ofRef (host : Host) {w : Width} (v : w.Val) : Lsb w :=
  if isLsb host then ⟨v⟩ else ⟨swap host w v⟩

/-- `lsb_t(data_type const&&)` (data.hpp:180-187). -/
def ofRvalue (host : Host) {w : Width} (v : w.Val) : Lsb w :=
  if isLsb host then ⟨v⟩ else ⟨swap host w v⟩

/-- `get()` (data.hpp:197-205). -/
def get (host : Host) {w : Width} (x : Lsb w) : w.Val :=
  if isLsb host then x.value else swap host w x.value

/-- `operator=(data_type)` (data.hpp:216-225). -/
def assign (host : Host) {w : Width} (_x : Lsb w) (v : w.Val) : Lsb w :=
  if isLsb host then ⟨v⟩ else ⟨swap host w v⟩

/-- `operator==` (data.hpp:233-237). -/
def eq (host : Host) {w : Width} (x y : Lsb w) : Bool := x.get host == y.get host
/-- `operator<` (data.hpp:245-249). -/
def lt (host : Host) {w : Width} (x y : Lsb w) : Bool := (x.get host).ult (y.get host)
/-- `operator>` (data.hpp:257-261). -/
def gt (host : Host) {w : Width} (x y : Lsb w) : Bool := (y.get host).ult (x.get host)
/-- `operator<=` (data.hpp:269-273). -/
def le (host : Host) {w : Width} (x y : Lsb w) : Bool := (x.get host).ule (y.get host)
/-- `operator>=` (data.hpp:282-286). -/
def ge (host : Host) {w : Width} (x y : Lsb w) : Bool := (y.get host).ule (x.get host)

/-- The object in memory (data.hpp:292). -/
def bytes (host : Host) {w : Width} (x : Lsb w) : List Byte := intBytes host w.bytes x.value

end Lsb

/-! ### `msb_t` (data.hpp:295-446) -/

/-- An `msb_t<T>` object: its only member (data.hpp:445). -/
structure Msb (w : Width) where
  value : w.Val
  deriving DecidableEq, Repr

namespace Msb

/-- Default constructor (data.hpp:306, 445). -/
def default (w : Width) : Msb w := ⟨0⟩

/-- `msb_t(data_type const&)` (data.hpp:316-323). -/
def ofRef (host : Host) {w : Width} (v : w.Val) : Msb w :=
  if isLsb host then ⟨swap host w v⟩ else ⟨v⟩

/-- `msb_t(data_type const&&)` (data.hpp:333-340). -/
def ofRvalue (host : Host) {w : Width} (v : w.Val) : Msb w :=
  if isLsb host then ⟨swap host w v⟩ else ⟨v⟩

/-- `get()` (data.hpp:350-358). -/
def get (host : Host) {w : Width} (x : Msb w) : w.Val :=
  if isLsb host then swap host w x.value else x.value

/-- `operator=(data_type)` (data.hpp:369-378). -/
def assign (host : Host) {w : Width} (_x : Msb w) (v : w.Val) : Msb w :=
  if isLsb host then ⟨swap host w v⟩ else ⟨v⟩

/-- `operator==` (data.hpp:386-390). -/
def eq (host : Host) {w : Width} (x y : Msb w) : Bool := x.get host == y.get host
/-- `operator<` (data.hpp:398-402). -/
def lt (host : Host) {w : Width} (x y : Msb w) : Bool := (x.get host).ult (y.get host)
/-- `operator>` (data.hpp:410-414). -/
def gt (host : Host) {w : Width} (x y : Msb w) : Bool := (y.get host).ult (x.get host)
/-- `operator<=` (data.hpp:422-426). -/
def le (host : Host) {w : Width} (x y : Msb w) : Bool := (x.get host).ule (y.get host)
/-- `operator>=` (data.hpp:435-439). -/
def ge (host : Host) {w : Width} (x y : Msb w) : Bool := (y.get host).ule (x.get host)

/-- The object in memory (data.hpp:445). -/
def bytes (host : Host) {w : Width} (x : Msb w) : List Byte := intBytes host w.bytes x.value

end Msb

end Verif.Data
