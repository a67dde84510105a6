import Verif.Packet.Props
/-!
Property C170: packets whose header and fields are changed through the references that `header()` and `fields()` return
(packet.hpp:58-62, 76-80).
-/
namespace Verif.Packet
open Verif Verif.Data

variable {η φ κ : Type} (T : Types η φ κ)

/-- A write through one of the references (packet.hpp:58-62, 76-80). -/
inductive Edit (η φ : Type)
  | header (h : η)
  | fields (f : φ)

/-- Several writes, one after the other (packet.hpp:58-62, 76-80). -/
def edits : List (Edit η φ) → Packet → Packet
  | [], p => p
  | .header h :: es, p => edits es (setHeader T p h)
  | .fields f :: es, p => edits es (setFields T p f)

/-- The header that was written last. -/
def lastHeader : List (Edit η φ) → η → η
  | [], h => h
  | .header h :: es, _ => lastHeader es h
  | .fields _ :: es, h => lastHeader es h

/-- The fields that were written last. -/
def lastFields : List (Edit η φ) → φ → φ
  | [], f => f
  | .header _ :: es, f => lastFields es f
  | .fields f :: es, _ => lastFields es f

theorem edits_shape (es : List (Edit η φ)) : ∀ (h : η) (f : φ) (c : List Byte),
    edits T es ⟨T.H.enc h ++ T.F.enc f ++ c⟩ = ⟨T.H.enc (lastHeader es h) ++ T.F.enc (lastFields es f) ++ c⟩ := by
  induction es with
  | nil => intro h f c; rfl
  | cons e es ih =>
    intro h f c
    cases e with
    | header h' =>
      have : setHeader T ⟨T.H.enc h ++ T.F.enc f ++ c⟩ h' = ⟨T.H.enc h' ++ T.F.enc f ++ c⟩ := by
        simp only [setHeader, List.append_assoc, ← T.H.enc_length h, List.drop_left]
      rw [edits, this, ih]
      rfl
    | fields f' =>
      have : setFields T ⟨T.H.enc h ++ T.F.enc f ++ c⟩ f' = ⟨T.H.enc h ++ T.F.enc f' ++ c⟩ := by
        have h1 : T.H.size + T.F.size = (T.H.enc h ++ T.F.enc f).length := by simp [T.H.enc_length, T.F.enc_length]
        simp only [setFields, h1, List.drop_left]
        rw [List.append_assoc (T.H.enc h), ← T.H.enc_length h, List.take_left]
      rw [edits, this, ih]
      rfl

/-- Full statement of C170: a packet that was built from a header and fields and is changed through the references stays valid. -/
def C170_Statement : Prop :=
  ∀ (h : η) (f : φ) (es : List (Edit η φ)), valid T (edits T es (make T h f)) = true

/-- **C170.** After any writes the packet has the header and the fields that were written last, as many bytes as before, and the CRC of the
header and fields it was built from. -/
theorem C170_holds (h : η) (f : φ) (es : List (Edit η φ)) :
    header T (edits T es (make T h f)) = lastHeader es h ∧ fields T (edits T es (make T h f)) = lastFields es f ∧
      (toArray (edits T es (make T h f))).length = T.length ∧
      crc T (edits T es (make T h f)) = T.C.calculate (T.H.enc h ++ T.F.enc f) := by
  have e : make T h f = ⟨(make T h f).pure⟩ := rfl
  rw [e, make_pure, edits_shape]
  refine ⟨?_, ?_, ?_, ?_⟩
  · rw [List.append_assoc, header_mk]
  · rw [List.append_assoc, fields_mk _ _ _ _ (T.H.enc_length _)]
  · simp [toArray, T.H.enc_length, T.F.enc_length, T.C.pod.enc_length, Types.length, Nat.add_assoc]
  · have h1 : T.H.size + T.F.size = (T.H.enc (lastHeader es h) ++ T.F.enc (lastFields es f)).length := by
      simp [T.H.enc_length, T.F.enc_length]
    simp only [crc, h1, List.drop_left]
    rw [← T.C.pod.enc_length (T.C.calculate (T.H.enc h ++ T.F.enc f)), List.take_length, T.C.pod.dec_enc]

/-- **C170.** It is valid exactly if header and fields have the CRC of those it was built from: nothing computes the CRC again. -/
theorem C170_valid_iff (h : η) (f : φ) (es : List (Edit η φ)) :
    valid T (edits T es (make T h f)) = true ↔
      T.C.calculate (T.H.enc (lastHeader es h) ++ T.F.enc (lastFields es f)) = T.C.calculate (T.H.enc h ++ T.F.enc f) := by
  have e : make T h f = ⟨(make T h f).pure⟩ := rfl
  rw [e, make_pure, edits_shape, valid_mk T _ _ (by simp [T.H.enc_length, T.F.enc_length]) (T.C.pod.enc_length _), T.C.eq_iff,
    T.C.pod.dec_enc]
  exact eq_comm

/-- **C170.** Writing back what it was built from makes it the packet it was. -/
theorem C170_restored (h : η) (f : φ) (es : List (Edit η φ)) (h1 : lastHeader es h = h) (h2 : lastFields es f = f) :
    edits T es (make T h f) = make T h f := by
  have e : make T h f = ⟨(make T h f).pure⟩ := rfl
  rw [e, make_pure, edits_shape, h1, h2]

/-- **C170.** The statement holds exactly for checks that cannot tell any two packets of the types apart. -/
theorem C170_only_if_blind : C170_Statement T ↔
    ∀ (h h' : η) (f f' : φ), T.C.calculate (T.H.enc h ++ T.F.enc f) = T.C.calculate (T.H.enc h' ++ T.F.enc f') := by
  constructor
  · intro hs h h' f f'
    exact ((C170_valid_iff T h f [.header h', .fields f']).mp (hs h f _)).symm
  · intro hb h f es
    exact (C170_valid_iff T h f es).mpr (hb _ _ _ _)

theorem C170_refuted : ¬ C170_Statement demoT := by
  intro h
  have := h 0x1234#16 0x56#8 [.header 0x1235#16]
  revert this
  decide +kernel

/-- A write, and the write that takes it back. -/
example : edits demoT [.header 0x1235#16, .fields 0x57#8] (make demoT 0x1234#16 0x56#8) = ⟨[0x35, 0x12, 0x57, 0x6d, 0x02]⟩ ∧
    edits demoT [.header 0x1235#16, .header 0x1234#16] (make demoT 0x1234#16 0x56#8) = make demoT 0x1234#16 0x56#8 := by
  decide +kernel

end Verif.Packet
