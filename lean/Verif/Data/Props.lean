import Verif.Data.Pods
/-!
Properties C20-C24 of `data.hpp`.

The statements use plain arithmetic: byte `i` of a number is `v / 256^i % 256`.
-/
namespace Verif.Data
open Verif

/-- Byte `i` (0 = least significant) of a number. -/
def byteOf {n : Nat} (v : BitVec n) (i : Nat) : Nat := v.toNat / 256 ^ i % 256

/-- `x` is an `lsb_t` object that was last given the value `v` (0 if never given one). -/
inductive LsbHolds (host : Host) {w : Width} : Lsb w → w.Val → Prop
  | default : LsbHolds host (Lsb.default w) 0
  | ref (v : w.Val) : LsbHolds host (Lsb.ofRef host v) v
  | rvalue (v : w.Val) : LsbHolds host (Lsb.ofRvalue host v) v
  | assign (x : Lsb w) (u v : w.Val) : LsbHolds host x u → LsbHolds host (x.assign host v) v

/-- `x` is an `msb_t` object that was last given the value `v` (0 if never given one). -/
inductive MsbHolds (host : Host) {w : Width} : Msb w → w.Val → Prop
  | default : MsbHolds host (Msb.default w) 0
  | ref (v : w.Val) : MsbHolds host (Msb.ofRef host v) v
  | rvalue (v : w.Val) : MsbHolds host (Msb.ofRvalue host v) v
  | assign (x : Msb w) (u v : w.Val) : MsbHolds host x u → MsbHolds host (x.assign host v) v

theorem byteOf_digits {n : Nat} (v : BitVec (8 * n)) (i : Nat) (h : i < n) :
    ((digits n v.toNat)[i]?.map BitVec.toNat) = some (byteOf v i) := by
  rw [digits_getElem? _ _ _ h]
  simp [byteOf]

theorem swap_digits (host : Host) (w : Width) (v : w.Val) :
    digits w.bytes (swap host w v).toNat = (digits w.bytes v.toNat).reverse := by
  have h := bytes_swap host w v
  cases host
  · exact h
  · simp only [intBytes] at h
    rw [List.reverse_inj] at h
    exact h

theorem swap_zero (host : Host) (w : Width) : swap host w 0#(8 * w.bytes) = 0#(8 * w.bytes) := by
  cases host <;> cases w <;> decide +kernel

/-- **C20.** `swap` reverses the order of the bytes of the value and is its own inverse, for every
width and on either kind of host. -/
theorem C20_swap (host : Host) (w : Width) (v : w.Val) :
    (∀ i, i < w.bytes → byteOf (swap host w v) i = byteOf v (w.bytes - 1 - i)) ∧
    swap host w (swap host w v) = v := by
  refine ⟨?_, swap_swap host w v⟩
  intro i hi
  have h1 := byteOf_digits (swap host w v) i hi
  rw [swap_digits, List.getElem?_reverse (by simpa [digits_length] using hi), digits_length,
    byteOf_digits v _ (by omega)] at h1
  exact (Option.some.inj h1).symm

example : swap .little .w32 0x12345678#32 = 0x78563412#32 ∧
    swap .big .w16 0xabcd#16 = 0xcdab#16 ∧
    swap .little .w64 0x0102030405060708#64 = 0x0807060504030201#64 := by decide +kernel

/-- **C21.** `get()` returns the value last given to the object, on every host. -/
theorem C21_read_back (host : Host) (w : Width) :
    (∀ (x : Lsb w) (v : w.Val), LsbHolds host x v → x.get host = v) ∧
    (∀ (x : Msb w) (v : w.Val), MsbHolds host x v → x.get host = v) := by
  constructor
  · intro x v h
    cases h <;>
      simp [Lsb.get, Lsb.ofRef, Lsb.ofRvalue, Lsb.assign, Lsb.default, isLsb_true]
  · intro x v h
    cases h <;>
      simp [Msb.get, Msb.ofRef, Msb.ofRvalue, Msb.assign, Msb.default, isLsb_true, swap_swap,
        swap_zero]

example : MsbHolds .little (w := .w16) (((Msb.ofRef .little (w := .w16) 0x1234#16)).assign .little 0xbeef#16) 0xbeef#16 ∧
    (((Msb.ofRef .little (w := .w16) 0x1234#16)).assign .little 0xbeef#16).value = 0xefbe#16 :=
  ⟨.assign _ _ _ (.ref _), by decide +kernel⟩

/-- **C22 (partial).** On a little-endian host the memory of an `lsb_t` holding `v` is the
little-endian and that of an `msb_t` the big-endian encoding of `v`.  Missing: big-endian hosts,
where the claim is false (`C22_refuted`, `C22_big_endian_reversed`). -/
theorem C22_layout_partial (w : Width) :
    (∀ (x : Lsb w) (v : w.Val), LsbHolds .little x v →
      (x.bytes .little).length = w.bytes ∧
      ∀ i, i < w.bytes → ((x.bytes .little)[i]?).map BitVec.toNat = some (byteOf v i)) ∧
    (∀ (x : Msb w) (v : w.Val), MsbHolds .little x v →
      (x.bytes .little).length = w.bytes ∧
      ∀ i, i < w.bytes → ((x.bytes .little)[i]?).map BitVec.toNat = some (byteOf v (w.bytes - 1 - i))) := by
  constructor
  · intro x v h
    have hx : x.value = v := by
      have := (C21_read_back .little w).1 x v h
      simpa [Lsb.get, isLsb_true] using this
    refine ⟨intBytes_length _ _ _, ?_⟩
    intro i hi
    subst hx
    exact byteOf_digits x.value i hi
  · intro x v h
    have hx : swap .little w x.value = v := by
      have := (C21_read_back .little w).2 x v h
      simpa [Msb.get, isLsb_true] using this
    refine ⟨intBytes_length _ _ _, ?_⟩
    intro i hi
    subst hx
    have h1 := byteOf_digits x.value i hi
    have h2 := (C20_swap .little w x.value).1 (w.bytes - 1 - i) (by omega)
    have h3 : w.bytes - 1 - (w.bytes - 1 - i) = i := by omega
    rw [h3] at h2
    rw [h2]
    exact h1

/-- **C22 is false as stated for every host**, for `lsb_t` and for `msb_t`. -/
theorem C22_refuted :
    ¬ (∀ (host : Host) (w : Width) (x : Lsb w) (v : w.Val), LsbHolds host x v →
        ∀ i, i < w.bytes → ((x.bytes host)[i]?).map BitVec.toNat = some (byteOf v i)) ∧
    ¬ (∀ (host : Host) (w : Width) (x : Msb w) (v : w.Val), MsbHolds host x v →
        ∀ i, i < w.bytes →
          ((x.bytes host)[i]?).map BitVec.toNat = some (byteOf v (w.bytes - 1 - i))) := by
  constructor
  · intro h
    exact absurd (h .big .w16 _ _ (.ref (w := .w16) 0x1234#16) 0 (by decide)) (by decide +kernel)
  · intro h
    exact absurd (h .big .w16 _ _ (.ref (w := .w16) 0x1234#16) 0 (by decide)) (by decide +kernel)

/-- What happens on big-endian hosts: `is_lsb()` is true there as well, so an `lsb_t` is stored
big-endian and an `msb_t` little-endian — for *every* value whose bytes are not symmetric. -/
theorem C22_big_endian_reversed (w : Width) (v : w.Val) :
    (∀ i, i < w.bytes →
      (((Lsb.ofRef .big v).bytes .big)[i]?).map BitVec.toNat = some (byteOf v (w.bytes - 1 - i))) ∧
    (∀ i, i < w.bytes →
      (((Msb.ofRef .big v).bytes .big)[i]?).map BitVec.toNat = some (byteOf v i)) := by
  constructor
  · intro i hi
    simp only [Lsb.ofRef, isLsb_true, if_true, Lsb.bytes, intBytes]
    rw [List.getElem?_reverse (by simpa [digits_length] using hi), digits_length]
    exact byteOf_digits v _ (by omega)
  · intro i hi
    simp only [Msb.ofRef, isLsb_true, if_true, Msb.bytes, intBytes]
    rw [swap_digits, List.reverse_reverse]
    exact byteOf_digits v i hi

example : (Lsb.ofRef .little (w := .w16) 0x1234#16).bytes .little = [0x34#8, 0x12#8] ∧
    (Msb.ofRef .little (w := .w16) 0x1234#16).bytes .little = [0x12#8, 0x34#8] ∧
    (Lsb.ofRef .big (w := .w16) 0x1234#16).bytes .big = [0x12#8, 0x34#8] ∧
    (Msb.ofRef .big (w := .w16) 0x1234#16).bytes .big = [0x34#8, 0x12#8] := by decide +kernel

/-- **C23.** Comparisons of `lsb_t` (and of `msb_t`) objects are comparisons of the numbers they
hold, on every host. -/
theorem C23_compare (host : Host) (w : Width) :
    (∀ (x y : Lsb w) (a b : w.Val), LsbHolds host x a → LsbHolds host y b →
      (x.eq host y = decide (a.toNat = b.toNat)) ∧
      (x.lt host y = decide (a.toNat < b.toNat)) ∧ (x.gt host y = decide (a.toNat > b.toNat)) ∧
      (x.le host y = decide (a.toNat ≤ b.toNat)) ∧ (x.ge host y = decide (a.toNat ≥ b.toNat))) ∧
    (∀ (x y : Msb w) (a b : w.Val), MsbHolds host x a → MsbHolds host y b →
      (x.eq host y = decide (a.toNat = b.toNat)) ∧
      (x.lt host y = decide (a.toNat < b.toNat)) ∧ (x.gt host y = decide (a.toNat > b.toNat)) ∧
      (x.le host y = decide (a.toNat ≤ b.toNat)) ∧ (x.ge host y = decide (a.toNat ≥ b.toNat))) := by
  have key : ∀ a b : w.Val, (a == b) = decide (a.toNat = b.toNat) := by
    intro a b
    rw [Bool.eq_iff_iff]
    simp [BitVec.toNat_inj]
  constructor
  · intro x y a b hx hy
    have h1 := (C21_read_back host w).1 x a hx
    have h2 := (C21_read_back host w).1 y b hy
    simp only [Lsb.eq, Lsb.lt, Lsb.gt, Lsb.le, Lsb.ge, h1, h2]
    exact ⟨key a b, rfl, rfl, rfl, rfl⟩
  · intro x y a b hx hy
    have h1 := (C21_read_back host w).2 x a hx
    have h2 := (C21_read_back host w).2 y b hy
    simp only [Msb.eq, Msb.lt, Msb.gt, Msb.le, Msb.ge, h1, h2]
    exact ⟨key a b, rfl, rfl, rfl, rfl⟩

example : (Msb.ofRef .little (w := .w16) 0x0102#16).lt .little (Msb.ofRef .little 0x0201#16) = true ∧
    (Msb.ofRef .little (w := .w16) 0x01ff#16).value.ult (Msb.ofRef .little (w := .w16) 0x0201#16).value = false := by
  decide +kernel

/-- **C24.** `data<T>` for a trivially copyable `T`: the value survives
`deserialize(serialize(v))`; `serialize(v, it)` is defined exactly when `sizeof(T)` bytes are
available at `it`, writes those bytes and no other, and `deserialize` reads the value back;
`deserialize` is defined exactly when `sizeof(T)` bytes are available and depends on those bytes
only. -/
theorem C24_data {α : Type} (P : Pod α) (v : α) (buf : List Byte) (pos : Nat) :
    (serialize P v).length = P.size ∧
    deserialize P (serialize P v) 0 = .ok v ∧
    ((∃ out, serializeTo P v buf pos = .ok out) ↔ pos + P.size ≤ buf.length) ∧
    (∀ out, serializeTo P v buf pos = .ok out →
      out.length = buf.length ∧
      (∀ i, i < P.size → out[pos + i]? = (serialize P v)[i]?) ∧
      (∀ i, i < pos ∨ pos + P.size ≤ i → out[i]? = buf[i]?) ∧
      deserialize P out pos = .ok v) ∧
    ((∃ u, deserialize P buf pos = .ok u) ↔ pos + P.size ≤ buf.length) ∧
    (∀ (buf' : List Byte) (pos' : Nat), pos + P.size ≤ buf.length → pos' + P.size ≤ buf'.length →
      (∀ i, i < P.size → buf[pos + i]? = buf'[pos' + i]?) →
      deserialize P buf pos = deserialize P buf' pos') := by
  have hl := P.enc_length v
  refine ⟨hl, ?_, ?_, ?_, ?_, ?_⟩
  · have := readAt_ok (buf := P.enc v) (pos := 0) (n := P.size) (by omega)
    unfold deserialize serialize
    rw [this, Res.ok_bind, List.drop_zero, ← hl, List.take_length, P.dec_enc, Res.pure_eq]
  · unfold serializeTo writeAt
    rw [hl]
    split
    · exact ⟨fun _ => by assumption, fun _ => ⟨_, rfl⟩⟩
    · rename_i h
      exact ⟨fun ⟨_, h⟩ => (by cases h), fun h' => absurd h' h⟩
  · intro out ho
    unfold serializeTo writeAt at ho
    split at ho
    · rename_i h
      cases ho
      refine ⟨written_length h, ?_, ?_, ?_⟩
      · intro i hi
        exact written_getElem?_in h i (by omega)
      · intro i hi
        exact written_getElem? h i (by omega)
      · unfold deserialize
        rw [readAt_ok (by rw [written_length h]; omega)]
        simp only [Res.ok_bind, Res.pure_eq]
        have : ((buf.take pos ++ P.enc v ++ buf.drop (pos + (P.enc v).length)).drop pos).take P.size
            = P.enc v := by
          rw [List.append_assoc, List.drop_append_of_le_length (by simp; omega)]
          simp [← hl]
        rw [this, P.dec_enc]
    · cases ho
  · unfold deserialize readAt
    split
    · exact ⟨fun _ => by assumption, fun _ => ⟨_, rfl⟩⟩
    · rename_i h
      exact ⟨fun ⟨_, h⟩ => (by cases h), fun h' => absurd h' h⟩
  · intro buf' pos' h h' hb
    unfold deserialize
    rw [readAt_ok h, readAt_ok h']
    simp only [Res.ok_bind]
    have : (buf.drop pos).take P.size = (buf'.drop pos').take P.size := by
      apply List.ext_getElem?
      intro i
      by_cases hi : i < P.size
      · simp [List.getElem?_take_of_lt hi, hb i hi]
      · rw [List.getElem?_eq_none (by simp; omega), List.getElem?_eq_none (by simp; omega)]
    rw [this]

example : serializeTo (pairPod (intPod .little 2) (lsbPod .little .w16)) (0x1234#16, ⟨0xabcd#16⟩)
      [1, 2, 3, 4, 5, 6, 7] 2 = .ok [1, 2, 0x34, 0x12, 0xcd, 0xab, 7] ∧
    deserialize (pairPod (intPod .little 2) (lsbPod .little .w16)) [1, 2, 0x34, 0x12, 0xcd, 0xab, 7] 2
      = .ok (0x1234#16, ⟨0xabcd#16⟩) ∧
    serializeTo (intPod .big 4) 0#32 [1, 2, 3] 0 = .ub := by decide +kernel

end Verif.Data
