import Verif.Data.Model
/-! Lemmas about byte representations. -/
namespace Verif.Data
open Verif

theorem digits_length (n v : Nat) : (digits n v).length = n := by
  induction n generalizing v with
  | zero => rfl
  | succ n ih => simp [digits, ih]

theorem digits_getElem? (n v i : Nat) (h : i < n) :
    (digits n v)[i]? = some (BitVec.ofNat 8 (v / 256 ^ i)) := by
  induction n generalizing v i with
  | zero => omega
  | succ n ih =>
    cases i with
    | zero => simp [digits]
    | succ i =>
      simp only [digits, List.getElem?_cons_succ]
      rw [ih _ _ (by omega), Nat.div_div_eq_div_mul, Nat.pow_succ, Nat.mul_comm 256]

theorem undigits_digits (n v : Nat) (h : v < 256 ^ n) : undigits (digits n v) = v := by
  induction n generalizing v with
  | zero => simp at h; simp [digits, undigits, h]
  | succ n ih =>
    rw [Nat.pow_succ] at h
    simp only [digits, undigits]
    rw [ih (v / 256) (by omega)]
    simp
    omega

theorem undigits_lt (bs : List Byte) : undigits bs < 256 ^ bs.length := by
  induction bs with
  | nil => simp [undigits]
  | cons b bs ih =>
    have := b.isLt
    simp only [undigits, List.length_cons, Nat.pow_succ]
    omega

theorem digits_undigits (bs : List Byte) : digits bs.length (undigits bs) = bs := by
  induction bs with
  | nil => rfl
  | cons b bs ih =>
    have hb := b.isLt
    simp only [List.length_cons, digits, undigits]
    have h1 : (b.toNat + 256 * undigits bs) / 256 = undigits bs := by omega
    rw [h1, ih]
    congr 1
    apply BitVec.eq_of_toNat_eq
    simp
    omega

theorem pow_bytes (n : Nat) : 2 ^ (8 * n) = 256 ^ n := by
  rw [Nat.pow_mul]

theorem intBytes_length (host : Host) (n : Nat) (v : BitVec (8 * n)) :
    (intBytes host n v).length = n := by
  cases host <;> simp [intBytes, digits_length]

theorem intOfBytes_intBytes (host : Host) (n : Nat) (v : BitVec (8 * n)) :
    intOfBytes host n (intBytes host n v) = v := by
  have hv := v.isLt
  rw [pow_bytes] at hv
  cases host <;> simp [intBytes, intOfBytes, undigits_digits _ _ hv]

theorem intBytes_intOfBytes (host : Host) (n : Nat) (bs : List Byte) (h : bs.length = n) :
    intBytes host n (intOfBytes host n bs) = bs := by
  subst h
  cases host
  · have := undigits_lt bs
    rw [← pow_bytes] at this
    simp [intBytes, intOfBytes, Nat.mod_eq_of_lt this, digits_undigits]
  · have := undigits_lt bs.reverse
    rw [← pow_bytes] at this
    have h2 := digits_undigits bs.reverse
    simp only [List.length_reverse] at this h2
    simp [intBytes, intOfBytes, Nat.mod_eq_of_lt this, h2]

theorem intBytes_other (n : Nat) (v : BitVec (8 * n)) :
    intBytes .big n v = (intBytes .little n v).reverse := rfl

theorem intOfBytes_reverse (host : Host) (n : Nat) (v : BitVec (8 * n)) :
    intBytes host n (intOfBytes host n (intBytes host n v).reverse) = (intBytes host n v).reverse :=
  intBytes_intOfBytes host n _ (by simp [intBytes_length])

/-- A list of the width's length, written out. -/
theorem list2 {α : Type} (l : List α) (h : l.length = 2) : ∃ a b, l = [a, b] := by
  match l, h with
  | [a, b], _ => exact ⟨a, b, rfl⟩

theorem list4 {α : Type} (l : List α) (h : l.length = 4) : ∃ a b c d, l = [a, b, c, d] := by
  match l, h with
  | [a, b, c, d], _ => exact ⟨a, b, c, d, rfl⟩

theorem list8 {α : Type} (l : List α) (h : l.length = 8) :
    ∃ a b c d e f g i, l = [a, b, c, d, e, f, g, i] := by
  match l, h with
  | [a, b, c, d, e, f, g, i], _ => exact ⟨a, b, c, d, e, f, g, i, rfl⟩

/-- `swap` reverses the object representation. -/
theorem swap_eq (host : Host) (w : Width) (v : w.Val) :
    swap host w v = intOfBytes host w.bytes (intBytes host w.bytes v).reverse := by
  cases w
  · obtain ⟨a, b, h⟩ := list2 _ (intBytes_length host 2 v)
    simp [swap, swap16, h, swapAt]
  · obtain ⟨a, b, c, d, h⟩ := list4 _ (intBytes_length host 4 v)
    simp [swap, swap32, h, swapAt]
  · obtain ⟨a, b, c, d, e, f, g, i, h⟩ := list8 _ (intBytes_length host 8 v)
    simp [swap, swap64, h, swapAt]

theorem bytes_swap (host : Host) (w : Width) (v : w.Val) :
    intBytes host w.bytes (swap host w v) = (intBytes host w.bytes v).reverse := by
  rw [swap_eq, intBytes_intOfBytes _ _ _ (by simp [intBytes_length])]

theorem intBytes_inj (host : Host) (n : Nat) (a b : BitVec (8 * n))
    (h : intBytes host n a = intBytes host n b) : a = b := by
  rw [← intOfBytes_intBytes host n a, h, intOfBytes_intBytes]

theorem swap_swap (host : Host) (w : Width) (v : w.Val) : swap host w (swap host w v) = v := by
  apply intBytes_inj host
  rw [bytes_swap, bytes_swap, List.reverse_reverse]

theorem isLsb_true (host : Host) : isLsb host = true := by
  cases host <;> decide

/-! ### Buffers -/

theorem readAt_ok {buf : List Byte} {pos n : Nat} (h : pos + n ≤ buf.length) :
    readAt buf pos n = .ok ((buf.drop pos).take n) := if_pos h

theorem writeAt_ok {buf bs : List Byte} {pos : Nat} (h : pos + bs.length ≤ buf.length) :
    writeAt buf pos bs = .ok (buf.take pos ++ bs ++ buf.drop (pos + bs.length)) := if_pos h

theorem written_length {buf bs : List Byte} {pos : Nat} (h : pos + bs.length ≤ buf.length) :
    (buf.take pos ++ bs ++ buf.drop (pos + bs.length)).length = buf.length := by
  simp; omega

theorem written_getElem? {buf bs : List Byte} {pos : Nat} (h : pos + bs.length ≤ buf.length)
    (i : Nat) (hi : i < pos ∨ pos + bs.length ≤ i) :
    (buf.take pos ++ bs ++ buf.drop (pos + bs.length))[i]? = buf[i]? := by
  rcases hi with hi | hi
  · rw [List.append_assoc, List.getElem?_append_left (by simp; omega), List.getElem?_take_of_lt hi]
  · rw [List.getElem?_append_right (by simp; omega), List.getElem?_drop]
    congr 1
    simp
    omega

theorem written_getElem?_in {buf bs : List Byte} {pos : Nat} (h : pos + bs.length ≤ buf.length)
    (i : Nat) (hi : i < bs.length) :
    (buf.take pos ++ bs ++ buf.drop (pos + bs.length))[pos + i]? = bs[i]? := by
  rw [List.append_assoc, List.getElem?_append_right (by simp; omega),
    List.getElem?_append_left (by simp; omega)]
  congr 1
  simp
  omega

end Verif.Data
