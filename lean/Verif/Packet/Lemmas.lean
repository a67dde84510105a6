import Verif.Packet.Model
/-! Lemmas about packets and packet accessors. -/
namespace Verif.Packet
open Verif Verif.Data

theorem readAt_mid {x y r : List Byte} {pos n : Nat} (hp : x.length = pos) (hn : y.length = n) :
    readAt (x ++ (y ++ r)) pos n = .ok y := by
  subst hp hn
  rw [readAt_ok (by simp)]
  simp

theorem writeAt_mid {x y r bs : List Byte} {pos : Nat} (hp : x.length = pos)
    (hn : y.length = bs.length) : writeAt (x ++ (y ++ r)) pos bs = .ok (x ++ (bs ++ r)) := by
  subst hp
  rw [writeAt_ok (by simp; omega)]
  simp [List.drop_append, ← hn]

/-- A list cut at a position. -/
theorem cut (l : List Byte) (n : Nat) (h : n ≤ l.length) :
    ∃ a b, l = a ++ b ∧ a.length = n :=
  ⟨l.take n, l.drop n, (List.take_append_drop n l).symm, by simp; omega⟩

variable {η φ κ : Type} (T : Types η φ κ)

theorem make_pure (h : η) (f : φ) :
    (make T h f).pure = T.H.enc h ++ T.F.enc f ++ T.C.pod.enc (T.C.calculate (T.H.enc h ++ T.F.enc f)) := by
  have h1 := T.H.enc_length h
  have h2 := T.F.enc_length f
  have h3 := T.C.pod.enc_length T.C.pod.zero
  simp only [make]
  have e1 : (T.H.enc h ++ T.F.enc f ++ T.C.pod.enc T.C.pod.zero).length - T.C.pod.size
      = (T.H.enc h ++ T.F.enc f).length := by simp; omega
  have e2 : T.H.size + T.F.size = (T.H.enc h ++ T.F.enc f).length := by simp; omega
  rw [e1, e2, List.take_left]

theorem make_length (h : η) (f : φ) : (make T h f).pure.length = T.length := by
  rw [make_pure]
  simp [T.H.enc_length, T.F.enc_length, T.C.pod.enc_length, Types.length, Nat.add_assoc]

theorem header_mk (h : η) (r : List Byte) : header T ⟨T.H.enc h ++ r⟩ = h := by
  have h1 := T.H.enc_length h
  simp [header, ← h1, T.H.dec_enc]

theorem fields_mk (h : List Byte) (f : φ) (r : List Byte) (hh : h.length = T.H.size) :
    fields T ⟨h ++ (T.F.enc f ++ r)⟩ = f := by
  have h1 := T.F.enc_length f
  simp [fields, ← hh, ← h1, T.F.dec_enc]

/-- `valid()` in terms of the body and the trailer of the packet's bytes. -/
theorem valid_mk (body tail : List Byte) (hb : body.length = T.H.size + T.F.size)
    (ht : tail.length = T.C.pod.size) :
    valid T ⟨body ++ tail⟩ = T.C.eq (T.C.pod.dec tail) (T.C.calculate body) := by
  have e1 : (body ++ tail).length - T.C.pod.size = body.length := by simp; omega
  simp only [valid, crc]
  rw [e1, List.take_left, ← hb, List.drop_left, ← ht, List.take_length]

/-- The storage after a successful `serialize`. -/
theorem serialize_fit (a : Accessor) (elem : Nat) (input : FieldsIn η φ)
    (hmax : a.storage.length < wrap)
    (hfit : input.size * elem + T.length ≤ a.storage.length)
    (hdata : ∀ d, input.data = some d → input.size * elem ≤ d.length) :
    ∃ payload rest, payload.length = input.size * elem ∧
      (∀ d, input.data = some d → payload = d.take (input.size * elem)) ∧
      (input.data = none → payload = (a.storage.drop (T.H.size + T.F.size)).take (input.size * elem)) ∧
      rest = a.storage.drop (T.length + input.size * elem) ∧
      a.serialize T elem input = .ok
        ({ storage := T.H.enc input.header ++ (T.F.enc input.fields ++ (payload ++
              (T.C.pod.enc (T.C.calculate (T.H.enc input.header ++ (T.F.enc input.fields ++ payload)))
                ++ rest))),
           size := T.length + input.size * elem }, true) := by
  have hlen : T.length = T.H.size + T.F.size + T.C.pod.size := rfl
  obtain ⟨st, sz⟩ := a
  simp only at hmax hfit ⊢
  obtain ⟨x, r1, rfl, hx⟩ := cut st T.H.size (by omega)
  simp only [List.length_append] at hmax hfit
  obtain ⟨y, r2, rfl, hy⟩ := cut r1 T.F.size (by omega)
  simp only [List.length_append] at hmax hfit
  obtain ⟨z, r3, rfl, hz⟩ := cut r2 (input.size * elem) (by omega)
  simp only [List.length_append] at hmax hfit
  obtain ⟨c, r, rfl, hc⟩ := cut r3 T.C.pod.size (by omega)
  simp only [List.length_append] at hmax hfit
  have hw : input.size * elem % wrap = input.size * elem := Nat.mod_eq_of_lt (by omega)
  have hHl := T.H.enc_length input.header
  have hFl := T.F.enc_length input.fields
  have hbr : ∀ payload : List Byte, payload.length = input.size * elem →
      storePayload T (T.H.enc input.header ++ (T.F.enc input.fields ++ (z ++ (c ++ r)))) elem input
        = .ok (T.H.enc input.header ++ (T.F.enc input.fields ++ (payload ++ (c ++ r)))) →
      Accessor.serialize T ⟨x ++ (y ++ (z ++ (c ++ r))), sz⟩ elem input = .ok
        ({ storage := T.H.enc input.header ++ (T.F.enc input.fields ++ (payload ++
              (T.C.pod.enc (T.C.calculate (T.H.enc input.header ++ (T.F.enc input.fields ++ payload)))
                ++ r))),
           size := T.length + input.size * elem }, true) := by
    intro payload hp hm
    unfold Accessor.serialize
    simp only [hw]
    rw [if_neg (by
      simp only [List.length_append]
      rw [Nat.mod_eq_of_lt (by omega)]
      omega)]
    have w1 : serializeTo T.H input.header (x ++ (y ++ (z ++ (c ++ r)))) 0
        = .ok (T.H.enc input.header ++ (y ++ (z ++ (c ++ r)))) := by
      have := writeAt_mid (x := []) (y := x) (r := y ++ (z ++ (c ++ r)))
        (bs := T.H.enc input.header) (pos := 0) rfl (by omega)
      exact this
    have w2 : serializeTo T.F input.fields (T.H.enc input.header ++ (y ++ (z ++ (c ++ r)))) T.H.size
        = .ok (T.H.enc input.header ++ (T.F.enc input.fields ++ (z ++ (c ++ r)))) :=
      writeAt_mid hHl (by omega)
    rw [w1, Res.ok_bind, w2, Res.ok_bind, hm, Res.ok_bind]
    have e1 : T.H.enc input.header ++ (T.F.enc input.fields ++ (payload ++ (c ++ r)))
        = (T.H.enc input.header ++ (T.F.enc input.fields ++ payload)) ++ (c ++ r) := by
      simp
    have r1 : readAt (T.H.enc input.header ++ (T.F.enc input.fields ++ (payload ++ (c ++ r)))) 0
        (T.H.size + T.F.size + input.size * elem)
        = .ok (T.H.enc input.header ++ (T.F.enc input.fields ++ payload)) := by
      rw [e1]
      exact readAt_mid (x := []) rfl (by simp; omega)
    rw [r1, Res.ok_bind]
    have w3 : serializeTo T.C.pod
        (T.C.calculate (T.H.enc input.header ++ (T.F.enc input.fields ++ payload)))
        (T.H.enc input.header ++ (T.F.enc input.fields ++ (payload ++ (c ++ r))))
        (T.H.size + T.F.size + input.size * elem)
        = .ok ((T.H.enc input.header ++ (T.F.enc input.fields ++ payload)) ++
            (T.C.pod.enc (T.C.calculate (T.H.enc input.header ++ (T.F.enc input.fields ++ payload)))
              ++ r)) := by
      rw [e1]
      exact writeAt_mid (by simp; omega) (by rw [T.C.pod.enc_length]; omega)
    rw [w3, Res.ok_bind, Nat.mod_eq_of_lt (by omega)]
    simp
  have hrest : r = (x ++ (y ++ (z ++ (c ++ r)))).drop (T.length + input.size * elem) := by
    have : x ++ (y ++ (z ++ (c ++ r))) = (x ++ (y ++ (z ++ c))) ++ r := by simp
    rw [this]
    have : T.length + input.size * elem = (x ++ (y ++ (z ++ c))).length := by simp; omega
    rw [this, List.drop_left]
  have hold : z = ((x ++ (y ++ (z ++ (c ++ r)))).drop (T.H.size + T.F.size)).take (input.size * elem) := by
    have : x ++ (y ++ (z ++ (c ++ r))) = (x ++ y) ++ (z ++ (c ++ r)) := by simp
    rw [this]
    have : T.H.size + T.F.size = (x ++ y).length := by simp; omega
    rw [this, List.drop_left, ← hz, List.take_left]
  cases hd : input.data with
  | none =>
    refine ⟨z, r, hz, (by simp), fun _ => hold, hrest, ?_⟩
    exact hbr z hz (by simp [storePayload, hd])
  | some d =>
    have hdl := hdata d hd
    refine ⟨d.take (input.size * elem), r, by simp; omega, (by intro d' h; cases h; rfl), (by simp),
      hrest, ?_⟩
    apply hbr _ (by simp; omega)
    simp only [storePayload, hd]
    by_cases h0 : input.size > 0
    · rw [if_pos h0]
      unfold copyPayload
      rw [readAt_ok (by omega), Res.ok_bind, List.drop_zero]
      have e1 : T.H.enc input.header ++ (T.F.enc input.fields ++ (z ++ (c ++ r)))
        = (T.H.enc input.header ++ T.F.enc input.fields) ++ (z ++ (c ++ r)) := by
        simp
      rw [e1, writeAt_mid (by simp; omega) (by simp; omega)]
      simp
    · rw [if_neg h0]
      have h0 : input.size = 0 := by omega
      rw [h0, Nat.zero_mul] at hz ⊢
      have : z = [] := List.eq_nil_of_length_eq_zero hz
      simp [this]

end Verif.Packet
