import Verif.Data.Lemmas
/-! Concrete trivially copyable types: integers, `lsb_t`, `msb_t`, raw byte arrays and packed
structs of two members.  They show that `Pod` has the instances the code is used with. -/
namespace Verif.Data
open Verif

/-- Every bit pattern is a value, and equal values have equal bytes (no padding). -/
def Pod.Exact {α : Type} (P : Pod α) : Prop := ∀ bs : List Byte, bs.length = P.size → P.enc (P.dec bs) = bs

/-- An unsigned integer of `n` bytes. -/
def intPod (host : Host) (n : Nat) : Pod (BitVec (8 * n)) where
  size := n
  enc := intBytes host n
  dec := intOfBytes host n
  zero := 0
  enc_length := intBytes_length host n
  dec_enc := intOfBytes_intBytes host n

/-- `lsb_t<T>` as a trivially copyable, packed type (data.hpp:142-143, 292). -/
def lsbPod (host : Host) (w : Width) : Pod (Lsb w) where
  size := w.bytes
  enc x := x.bytes host
  dec bs := ⟨intOfBytes host w.bytes bs⟩
  zero := Lsb.default w
  enc_length x := intBytes_length host _ x.value
  dec_enc x := by cases x; simp [Lsb.bytes, intOfBytes_intBytes]

/-- `msb_t<T>` as a trivially copyable, packed type (data.hpp:295-296, 445). -/
def msbPod (host : Host) (w : Width) : Pod (Msb w) where
  size := w.bytes
  enc x := x.bytes host
  dec bs := ⟨intOfBytes host w.bytes bs⟩
  zero := Msb.default w
  enc_length x := intBytes_length host _ x.value
  dec_enc x := by cases x; simp [Msb.bytes, intOfBytes_intBytes]

/-- `struct __attribute__((__packed__)) { A a; B b; }`. -/
def pairPod {α β : Type} (P : Pod α) (Q : Pod β) : Pod (α × β) where
  size := P.size + Q.size
  enc x := P.enc x.1 ++ Q.enc x.2
  dec bs := (P.dec (bs.take P.size), Q.dec (bs.drop P.size))
  zero := (P.zero, Q.zero)
  enc_length x := by simp [P.enc_length, Q.enc_length]
  dec_enc x := by
    have h := P.enc_length x.1
    simp [← h, P.dec_enc, Q.dec_enc]

theorem intPod_exact (host : Host) (n : Nat) : (intPod host n).Exact :=
  fun bs h => intBytes_intOfBytes host n bs h

theorem lsbPod_exact (host : Host) (w : Width) : (lsbPod host w).Exact :=
  fun bs h => intBytes_intOfBytes host w.bytes bs h

theorem msbPod_exact (host : Host) (w : Width) : (msbPod host w).Exact :=
  fun bs h => intBytes_intOfBytes host w.bytes bs h

theorem pairPod_exact {α β : Type} {P : Pod α} {Q : Pod β} (hp : P.Exact) (hq : Q.Exact) :
    (pairPod P Q).Exact := by
  intro bs h
  simp only [pairPod] at h ⊢
  rw [hp _ (by simp; omega), hq _ (by simp; omega), List.take_append_drop]

end Verif.Data
