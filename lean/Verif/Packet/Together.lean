import Verif.Packet.Props
/-!
Properties C171 to C173: packets in one buffer (packet.hpp:45-49, 124-139), packets and accessors that read each other's bytes
(packet.hpp:43-56, 193-237), and accessors that are read with another type of elements.
-/
namespace Verif.Packet
open Verif Verif.Data

variable {η φ κ : Type} (T : Types η φ κ)

/-! ### C171 -/

/-- Static `serialize(packet, begin)` for one packet after the other, each at its position (packet.hpp:133-139). -/
def writes : List (Packet × Nat) → List Byte → Res (List Byte)
  | [], buf => .ok buf
  | w :: ws, buf => do
    let buf ← serializeIt w.1 buf w.2
    writes ws buf

theorem writes_append (ws ws' : List (Packet × Nat)) (buf : List Byte) :
    writes (ws ++ ws') buf = (do let buf ← writes ws buf; writes ws' buf) := by
  induction ws generalizing buf with
  | nil => rfl
  | cons w ws ih =>
    simp only [List.cons_append, writes]
    cases serializeIt w.1 buf w.2 with
    | ok b => simp only [Res.ok_bind, ih]
    | ub => rfl
    | hang => rfl

theorem written {p : Packet} {q : Nat} {buf buf' : List Byte} (h : serializeIt p buf q = .ok buf') :
    q + p.pure.length ≤ buf.length ∧ buf'.length = buf.length ∧
      (∀ i, q ≤ i → i < q + p.pure.length → buf'[i]? = p.pure[i - q]?) ∧
      ∀ i, i < q ∨ q + p.pure.length ≤ i → buf'[i]? = buf[i]? := by
  unfold serializeIt writeAt at h
  split at h
  case isFalse => cases h
  case isTrue hl =>
    cases h
    have h1 : (buf.take q).length = q := by simp; omega
    refine ⟨hl, written_length hl, ?_, ?_⟩
    · intro i hi hi'
      rw [List.append_assoc, List.getElem?_append_right (by omega), h1, List.getElem?_append_left (by omega)]
    · intro i hi
      rcases hi with hi | hi
      · rw [List.append_assoc, List.getElem?_append_left (by omega), List.getElem?_take_of_lt hi]
      · rw [List.getElem?_append_right (by simp; omega), List.getElem?_drop]
        congr 1
        simp
        omega

/-- **C171.** Writing is defined exactly if every packet fits where it is written. -/
theorem C171_defined (ws : List (Packet × Nat)) (buf : List Byte) :
    (∃ buf', writes ws buf = .ok buf') ↔ ∀ w ∈ ws, w.2 + w.1.pure.length ≤ buf.length := by
  induction ws generalizing buf with
  | nil => simp [writes]
  | cons w ws ih =>
    rw [writes]
    constructor
    · intro ⟨buf', h⟩
      cases hw : serializeIt w.1 buf w.2 with
      | ok b =>
        rw [hw, Res.ok_bind] at h
        obtain ⟨h1, h2, _⟩ := written hw
        have := (ih b).mp ⟨buf', h⟩
        intro x hx
        rcases List.mem_cons.mp hx with rfl | hx
        · exact h1
        · exact h2 ▸ this x hx
      | ub => rw [hw] at h; cases h
      | hang => rw [hw] at h; cases h
    · intro h
      have hw : serializeIt w.1 buf w.2 = .ok _ := writeAt_ok (h w (by simp))
      rw [hw, Res.ok_bind]
      refine (ih _).mpr fun x hx => ?_
      rw [written_length (h w (by simp))]
      exact h x (by simp [hx])

/-- **C171.** The buffer stays as long as it is, and bytes where no packet was written stay what they were. -/
theorem C171_rest {ws : List (Packet × Nat)} {buf buf' : List Byte} (h : writes ws buf = .ok buf') :
    buf'.length = buf.length ∧ ∀ i, (∀ w ∈ ws, i < w.2 ∨ w.2 + w.1.pure.length ≤ i) → buf'[i]? = buf[i]? := by
  induction ws generalizing buf with
  | nil => cases h; exact ⟨rfl, fun _ _ => rfl⟩
  | cons w ws ih =>
    rw [writes] at h
    cases hw : serializeIt w.1 buf w.2 with
    | ok b =>
      rw [hw, Res.ok_bind] at h
      obtain ⟨_, h2, _, h4⟩ := written hw
      obtain ⟨k1, k2⟩ := ih h
      refine ⟨k1.trans h2, fun i hi => ?_⟩
      rw [k2 i fun x hx => hi x (by simp [hx]), h4 i (hi w (by simp))]
    | ub => rw [hw] at h; cases h
    | hang => rw [hw] at h; cases h

/-- **C171.** A packet that was written and not written over since is read back, by `deserialize(begin)` and by `packet(begin)`. -/
theorem C171_read_back {pre post : List (Packet × Nat)} {p : Packet} {q : Nat} {buf buf' : List Byte}
    (h : writes (pre ++ (p, q) :: post) buf = .ok buf') (hp : p.pure.length = T.length)
    (hpost : ∀ w ∈ post, w.2 + w.1.pure.length ≤ q ∨ q + T.length ≤ w.2) :
    deserializeIt T buf' q = .ok p ∧ ofIter T buf' q = .ok p := by
  rw [writes_append] at h
  cases h0 : writes pre buf with
  | ok b =>
    rw [h0, Res.ok_bind, writes] at h
    dsimp only at h
    cases hw : serializeIt p b q with
    | ok c =>
      rw [hw, Res.ok_bind] at h
      obtain ⟨h1, h2, h3, _⟩ := written hw
      obtain ⟨k1, k2⟩ := C171_rest h
      have hr : readAt buf' q T.length = .ok p.pure := by
        rw [readAt_ok (by omega)]
        congr 1
        refine List.ext_getElem? fun i => ?_
        by_cases hi : i < T.length
        · rw [List.getElem?_take_of_lt hi, List.getElem?_drop, k2 (q + i) ?_, h3 (q + i) (by omega) (by omega)]
          · congr 1
            omega
          · intro w hx
            rcases hpost w hx with h | h <;> omega
        · rw [List.getElem?_eq_none (by simp; omega), List.getElem?_eq_none (by omega)]
      simp only [deserializeIt, ofIter, hr, Res.ok_bind]
      exact ⟨rfl, rfl⟩
    | ub => rw [hw] at h; cases h
    | hang => rw [hw] at h; cases h
  | ub => rw [h0] at h; cases h
  | hang => rw [h0] at h; cases h

/-- Packets written one behind the other from the start of a buffer (packet.hpp:133-139). -/
def row (l : List (η × φ)) : List (Packet × Nat) :=
  (List.range l.length).zipWith (fun i x => (make T x.1 x.2, i * T.length)) l

theorem row_mem {l : List (η × φ)} {w : Packet × Nat} (hw : w ∈ row T l) :
    ∃ i x, l[i]? = some x ∧ w = (make T x.1 x.2, i * T.length) := by
  obtain ⟨i, hi⟩ := List.mem_iff_getElem?.mp hw
  simp only [row, List.getElem?_zipWith] at hi
  cases hx : l[i]? with
  | none => simp [hx] at hi
  | some x =>
    have hlt : i < l.length := (List.getElem?_eq_some_iff.mp hx).1
    simp only [hx, List.getElem?_range hlt, Option.some.injEq] at hi
    exact ⟨i, x, hx, hi.symm⟩

/-- **C171.** A row of packets that fits into the buffer is read back packet by packet: valid, with the headers and fields they were made of. -/
theorem C171_row (l : List (η × φ)) (buf : List Byte) (hfit : l.length * T.length ≤ buf.length) :
    ∃ buf', writes (row T l) buf = .ok buf' ∧ ∀ i x, l[i]? = some x → ∃ p, deserializeIt T buf' (i * T.length) = .ok p ∧
      valid T p = true ∧ header T p = x.1 ∧ fields T p = x.2 := by
  obtain ⟨buf', hb⟩ := (C171_defined (row T l) buf).mpr (by
    intro w hw
    obtain ⟨i, x, hi, rfl⟩ := row_mem T hw
    have hlt : i < l.length := (List.getElem?_eq_some_iff.mp hi).1
    dsimp only
    rw [make_length, ← Nat.succ_mul]
    exact Nat.le_trans (Nat.mul_le_mul_right _ hlt) hfit)
  refine ⟨buf', hb, fun i x hi => ⟨make T x.1 x.2, ?_, ?_, ?_, ?_⟩⟩
  · have hlt : i < l.length := (List.getElem?_eq_some_iff.mp hi).1
    have hrow : (row T l)[i]? = some (make T x.1 x.2, i * T.length) := by
      simp only [row, List.getElem?_zipWith, hi, List.getElem?_range hlt]
    have hlr : i < (row T l).length := (List.getElem?_eq_some_iff.mp hrow).1
    have hsplit : row T l = (row T l).take i ++ (make T x.1 x.2, i * T.length) :: (row T l).drop (i + 1) := by
      conv => lhs; rw [← List.take_append_drop i (row T l), List.drop_eq_getElem_cons hlr]
      rw [(List.getElem?_eq_some_iff.mp hrow).2]
    rw [hsplit] at hb
    refine (C171_read_back T hb (make_length T _ _) ?_).1
    intro w hw
    obtain ⟨j, hj⟩ := List.mem_iff_getElem?.mp hw
    rw [List.getElem?_drop] at hj
    have hlj : i + 1 + j < l.length := by
      have := (List.getElem?_eq_some_iff.mp hj).1
      simpa [row] using this
    simp only [row, List.getElem?_zipWith, List.getElem?_range hlj, List.getElem?_eq_getElem hlj, Option.some.injEq] at hj
    subst hj
    right
    dsimp only
    rw [← Nat.succ_mul]
    exact Nat.mul_le_mul_right _ (by omega)
  · exact (C25_round_trip T x.1 x.2).1
  · exact (C25_round_trip T x.1 x.2).2.1
  · exact (C25_round_trip T x.1 x.2).2.2.1

/-! ### C172 -/

/-- **C172, one way.** What an accessor writes without elements are the bytes of the packet. -/
theorem C172_packet_reads (a a' : Accessor) (elem : Nat) (h : η) (f : φ) (d : Option (List Byte))
    (hmax : a.storage.length < wrap) (hstat : T.length ≤ a.storage.length)
    (hs : a.serialize T elem ⟨h, f, 0, d⟩ = .ok (a', true)) :
    a'.size = T.length ∧ a'.storage = toArray (make T h f) ++ a.storage.drop T.length ∧ ofIter T a'.storage 0 = .ok (make T h f) := by
  obtain ⟨payload, rest, h1, _, _, h4, h5⟩ := serialize_fit T a elem ⟨h, f, 0, d⟩ hmax (by simpa using hstat) (by simp)
  have h1' : payload = [] := List.eq_nil_of_length_eq_zero (by simpa using h1)
  subst h1' h4
  rw [h5] at hs
  cases hs
  have hst : T.H.enc h ++ (T.F.enc f ++ ([] ++ (T.C.pod.enc (T.C.calculate (T.H.enc h ++ (T.F.enc f ++ []))) ++
      a.storage.drop (T.length + 0 * elem)))) = (make T h f).pure ++ a.storage.drop T.length := by
    rw [make_pure]
    simp
  refine ⟨by simp, hst, ?_⟩
  dsimp only
  rw [hst]
  have hl := make_length T h f
  unfold ofIter
  rw [readAt_ok (by simp; omega), Res.ok_bind, List.drop_zero, ← hl, List.take_left]
  rfl

/-- **C172, the other way.** The bytes of a packet, received by an accessor, are a valid frame without elements. -/
theorem C172_accessor_reads (a : Accessor) (elem : Nat) (h : η) (f : φ) (rest : List Byte) (he : 0 < elem)
    (hst : a.storage = toArray (make T h f) ++ rest) (hmax : a.storage.length < wrap) :
    (a.setSize T.length).deserialize T elem = .ok ⟨h, f, true, 0, some (T.H.size + T.F.size)⟩ := by
  have hl := make_length T h f
  have hstat : T.length ≤ a.storage.length := by rw [hst]; simp [toArray, hl]
  have hok : ∃ a', a.serialize T elem ⟨h, f, 0, none⟩ = .ok (a', true) := by
    obtain ⟨_, _, _, _, _, _, h5⟩ := serialize_fit T a elem ⟨h, f, 0, none⟩ hmax (by simpa using hstat) (by simp)
    exact ⟨_, h5⟩
  obtain ⟨a', h5⟩ := hok
  obtain ⟨k1, k2, _⟩ := C172_packet_reads T a a' elem h f none hmax hstat h5
  obtain ⟨_, h6, _⟩ := C29_round_trip T a a' elem ⟨h, f, 0, none⟩ he hmax hstat (.inr rfl) h5
  have : a.setSize T.length = a' := by
    have hs : a'.storage = a.storage := by
      rw [k2, hst]
      simp only [toArray]
      rw [← hl, List.drop_left]
    unfold Accessor.setSize
    cases a'
    dsimp only at k1 hs
    rw [k1, hs, Nat.mod_eq_of_lt (by omega)]
  rw [this]
  exact h6

/-! ### C173 -/

/-- **C173.** A frame that was written with elements of `elem` bytes, read with elements of `elem'` bytes. -/
theorem C173_elements (a a' : Accessor) (elem elem' : Nat) (input : FieldsIn η φ) (he : 0 < elem')
    (hmax : a.storage.length < wrap) (hstat : T.length ≤ a.storage.length) (hd : input.data ≠ none ∨ input.size = 0)
    (hs : a.serialize T elem input = .ok (a', true)) :
    a'.deserialize T elem' = .ok (if input.size * elem % elem' = 0 then
      ⟨input.header, input.fields, true, input.size * elem / elem', some (T.H.size + T.F.size)⟩
    else ⟨T.H.zero, T.F.zero, false, 0, none⟩) := by
  have hlen : T.length = T.H.size + T.F.size + T.C.pod.size := rfl
  obtain ⟨hfit, hdata⟩ := serialize_true_fits T a a' elem input hmax hstat hd hs
  obtain ⟨payload, rest, h1, h2, _, h4, h5⟩ := serialize_fit T a elem input hmax hfit hdata
  rw [h5] at hs
  cases hs
  by_cases hm : input.size * elem % elem' = 0
  · rw [if_pos hm]
    have hdiv : input.size * elem / elem' * elem' = input.size * elem := Nat.div_mul_cancel (Nat.dvd_of_mod_eq_zero hm)
    generalize hcrc : T.C.pod.enc (T.C.calculate (T.H.enc input.header ++ (T.F.enc input.fields ++ payload))) = crc at *
    have hcl : crc.length = T.C.pod.size := by rw [← hcrc, T.C.pod.enc_length]
    have hrl : rest.length = a.storage.length - (T.length + input.size * elem) := by rw [h4]; simp
    obtain ⟨st, hst⟩ : ∃ st, st = T.H.enc input.header ++ (T.F.enc input.fields ++ (payload ++ (crc ++ rest))) := ⟨_, rfl⟩
    have hstl : st.length = a.storage.length := by
      rw [hst]
      simp only [List.length_append, T.H.enc_length, T.F.enc_length, h1, hcl, hrl]
      omega
    rw [← hst]
    obtain ⟨payload', rest', k1, k2, _, k4, k5⟩ := serialize_fit T ⟨st, T.length + input.size * elem⟩ elem'
      ⟨input.header, input.fields, input.size * elem / elem', some payload⟩ (by dsimp only; omega) (by dsimp only; omega)
      (by intro d hd'; cases hd'; dsimp only; omega)
    dsimp only at k1 k2 k4 k5
    have kp : payload' = payload := by
      rw [k2 payload rfl, hdiv, ← h1, List.take_length]
    have kr : rest' = rest := by
      rw [k4, hdiv, hst]
      have hpre : T.length + input.size * elem = (T.H.enc input.header ++ (T.F.enc input.fields ++ (payload ++ crc))).length := by
        simp only [List.length_append, T.H.enc_length, T.F.enc_length, h1, hcl]
        omega
      rw [hpre, show T.H.enc input.header ++ (T.F.enc input.fields ++ (payload ++ (crc ++ rest)))
        = (T.H.enc input.header ++ (T.F.enc input.fields ++ (payload ++ crc))) ++ rest by simp, List.drop_left]
    rw [kp, kr, hcrc, hdiv, ← hst] at k5
    exact (C29_round_trip T _ _ elem' _ he (by dsimp only; omega) (by dsimp only; omega) (.inl (by simp)) k5).2.1
  · rw [if_neg hm]
    have esz : (T.length + input.size * elem + wrap - T.length) % wrap = input.size * elem := by
      have : T.length + input.size * elem + wrap - T.length = input.size * elem + wrap := by omega
      rw [this, Nat.add_mod_right, Nat.mod_eq_of_lt (by omega)]
    unfold Accessor.deserialize
    rw [esz, if_pos hm]

/-- **C173.** `deserialize_no_check` counts the whole elements between fields and CRC: they never reach into the CRC, and not one more fits. -/
theorem C173_no_check (a : Accessor) (elem : Nat) (he : 0 < elem) (hlo : T.length ≤ a.size) (hhi : a.size < wrap) :
    let p := a.deserializeNoCheck T elem
    p.header = 0 ∧ p.fields = T.H.size ∧ p.data = T.H.size + T.F.size ∧
      p.data + p.size * elem + T.C.pod.size ≤ a.size ∧ a.size < p.data + (p.size + 1) * elem + T.C.pod.size := by
  have hlen : T.length = T.H.size + T.F.size + T.C.pod.size := rfl
  have esz : (a.size + wrap - T.length) % wrap = a.size - T.length := by
    have : a.size + wrap - T.length = (a.size - T.length) + wrap := by omega
    rw [this, Nat.add_mod_right, Nat.mod_eq_of_lt (by omega)]
  simp only [Accessor.deserializeNoCheck, Accessor.variablePart, esz]
  have h1 := Nat.div_mul_le_self (a.size - T.length) elem
  have h2 := Nat.lt_mul_of_div_lt (Nat.lt_succ_self ((a.size - T.length) / elem)) he
  rw [Nat.succ_eq_add_one, Nat.mul_comm] at h2
  exact ⟨trivial, trivial, trivial, by omega, by rw [Nat.mul_comm] at h2; omega⟩

/-- Ten bytes, five of them header, fields and CRC: two elements of two bytes, and one byte is left over. -/
example : (Accessor.mk (List.replicate 12 0) 10).deserializeNoCheck demoT 2 = ⟨0, 2, 2, 3⟩ := by decide +kernel

/-- Three packets in a row and one over the second. -/
example : ∃ buf, writes (row demoT [(1, 2), (3, 4), (5, 6)] ++ [(make demoT 7 8, 5)]) (List.replicate 17 0xff) = .ok buf ∧
    deserializeIt demoT buf 0 = .ok (make demoT 1 2) ∧ deserializeIt demoT buf 5 = .ok (make demoT 7 8) ∧
    deserializeIt demoT buf 10 = .ok (make demoT 5 6) ∧ buf[15]? = some 0xff :=
  ⟨_, rfl, by decide +kernel, by decide +kernel, by decide +kernel, by decide +kernel⟩

/-- Two elements of two bytes are four of one byte or one of four; elements of three bytes are refused. -/
example : ∃ a, Accessor.serialize demoT (.new 12) 2 ⟨0x1234#16, 0x56#8, 2, some [1, 2, 3, 4]⟩ = .ok (a, true) ∧
    a.deserialize demoT 1 = .ok ⟨0x1234#16, 0x56#8, true, 4, some 3⟩ ∧
    a.deserialize demoT 4 = .ok ⟨0x1234#16, 0x56#8, true, 1, some 3⟩ ∧
    a.deserialize demoT 3 = .ok ⟨0, 0, false, 0, none⟩ :=
  ⟨_, rfl, by decide +kernel, by decide +kernel, by decide +kernel⟩

/-- A packet and the frame without elements. -/
example : ∃ a, Accessor.serialize demoT (.new 9) 2 ⟨0x1234#16, 0x56#8, 0, none⟩ = .ok (a, true) ∧
    a.storage = toArray (make demoT 0x1234#16 0x56#8) ++ [0, 0, 0, 0] :=
  ⟨_, rfl, by decide +kernel⟩

end Verif.Packet
