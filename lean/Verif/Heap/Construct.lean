import Verif.Heap.FreeSpec

/-! The constructor establishes the representation invariant (proof machinery). -/
namespace Verif.Heap

theorem alignedStart_eq {base : Nat} (h : base + 7 < W) : Heap.alignedStart base = (base + 7) / 8 * 8 := by
  unfold Heap.alignedStart
  rw [and_alignMask]
  split
  · rw [show alignment - 1 = 7 from rfl, wadd_eq h, and_not_alignMask h]; omega
  · omega

theorem usableSize_eq {size base : Nat} (h : base + size < W) (h7 : base + 7 < W)
    (hs : (base + 7) / 8 * 8 ≤ base + size) :
    Heap.usableSize size base = base + size - (base + 7) / 8 * 8 := by
  unfold Heap.usableSize
  rw [and_alignMask, alignedStart_eq h7]
  split
  · rw [wsub_eq (a := (base + 7) / 8 * 8) (by omega) (by omega), wsub_eq (by omega) (by omega)]
    omega
  · omega

theorem endAddress_eq {size base : Nat} (h : base + size < W)
    (hs : (base + 7) / 8 * 8 + 16 ≤ base + size) :
    Heap.endAddress size base = (base + size) / 8 * 8 - 16 := by
  unfold Heap.endAddress
  have h7 : base + 7 < W := by omega
  rw [alignedStart_eq h7, usableSize_eq h h7 (by omega), structSize_eq, wadd_eq (by omega),
    wsub_eq (by omega) (by omega), and_not_alignMask (by omega)]
  omega

/-- Memory written by the constructor. -/
def initMem (m : Mem) (st s e : Nat) : Mem :=
  store64 (store64 (store64 (store64 (store64 (store64 m st (protect s)) (st + 8) 0) (e + 8) 0) e
    (protect 0)) (s + 8) (e - s)) s (protect e)

theorem construct_eq {size base st : Nat} {m : Mem} (h0 : 0 < base) (h : base + size < W)
    (hs : (base + 7) / 8 * 8 + 16 ≤ base + size) (h8 : st % 8 = 0) :
    Heap.construct size base st m = .ok
      { size := size, base := base, startAddr := st,
        mem := initMem m st ((base + 7) / 8 * 8) ((base + size) / 8 * 8 - 16),
        pxEnd := (base + size) / 8 * 8 - 16,
        freeBytes := (base + size) / 8 * 8 - 16 - (base + 7) / 8 * 8,
        minEver := (base + size) / 8 * 8 - 16 - (base + 7) / 8 * 8,
        nAlloc := 0, nFree := 0, callback := false, callbackCalls := 0 } := by
  have hse := endAddress_eq h hs
  have hss := alignedStart_eq (base := base) (by omega)
  generalize hS : (base + 7) / 8 * 8 = s at *
  generalize hE : (base + size) / 8 * 8 - 16 = e at *
  have hacc : ∀ a, a % 8 = 0 → base ≤ a → a + 8 ≤ base + size → accessible size base st a = true := by
    intro a h1 h2 h3; unfold accessible; simp [h1, h2, h3]
  have a1 := hacc s (by omega) (by omega) (by omega)
  have a2 := hacc (s + 8) (by omega) (by omega) (by omega)
  have a3 := hacc e (by omega) (by omega) (by omega)
  have a4 := hacc (e + 8) (by omega) (by omega) (by omega)
  have a5 : accessible size base st st = true := by unfold accessible sizeofLink; simp [h8]
  have a6 : accessible size base st (st + 8) = true := by unfold accessible sizeofLink; simp; omega
  have e1 : wsub e s = e - s := wsub_eq (by omega) (by omega)
  have e2 : load64 (initMem m st s e) (s + 8) = e - s := by
    unfold initMem
    rw [load64_store64_ne (by omega), load64_store64_same (by omega)]
  unfold initMem at e2
  unfold Heap.construct
  simp only [hse, hss, offNext_add, offSize_add, st_mk a1, st_mk a2, st_mk a3, st_mk a4, st_mk a5, st_mk a6,
    ld_mk a2, Res.ok_bind, e1, e2]
  rfl

theorem construct_rep {size base st : Nat} {m : Mem} (h0 : 0 < base) (h : base + size < W) (h63 : size < 2 ^ 63)
    (hs : (base + 7) / 8 * 8 + 32 ≤ base + size) (h8 : st % 8 = 0) (hst : 0 < st) (hstW : st + 16 ≤ W)
    (hd : st + 16 ≤ base ∨ base + size ≤ st) :
    ∃ hp, Heap.construct size base st m = .ok hp ∧
      Rep hp ((base + 7) / 8 * 8)
        [⟨(base + 7) / 8 * 8, (base + size) / 8 * 8 - 16 - (base + 7) / 8 * 8, true⟩] ∧
      hp.size = size ∧ hp.base = base ∧ hp.startAddr = st ∧ hp.pxEnd = (base + size) / 8 * 8 - 16 ∧
      hp.freeBytes = (base + size) / 8 * 8 - 16 - (base + 7) / 8 * 8 ∧ hp.minEver = hp.freeBytes ∧
      hp.nAlloc = 0 ∧ hp.nFree = 0 ∧ hp.callback = false ∧ hp.callbackCalls = 0 := by
  refine ⟨_, construct_eq h0 h (by omega) h8, ?_, rfl, rfl, rfl, rfl, rfl, rfl, rfl, rfl, rfl, rfl⟩
  generalize hS : (base + 7) / 8 * 8 = s at *
  generalize hE : (base + size) / 8 * 8 - 16 = e at *
  constructor
  · constructor <;> (try simp only) <;> omega
  · simp only [Tiles]
    refine ⟨trivial, ?_, ?_, ?_⟩ <;> omega
  · simp only [Linked, if_true]
    unfold initMem
    refine ⟨?_, ?_, ?_⟩
    · rw [load64_store64_ne (by omega), load64_store64_ne (by omega), load64_store64_ne (by omega),
        load64_store64_ne (by omega), load64_store64_ne (by omega), load64_store64_same (protect_lt (by omega))]
    · rw [load64_store64_ne (by omega), load64_store64_same (by omega)]
    · rw [load64_store64_same (protect_lt (by omega))]
  · simp only
    unfold initMem
    rw [load64_store64_ne (by omega), load64_store64_ne (by omega), load64_store64_ne (by omega),
        load64_store64_ne (by omega), load64_store64_same (by omega)]
  · simp only
    unfold initMem
    rw [load64_store64_ne (by omega), load64_store64_ne (by omega),
      load64_store64_same (protect_lt (by omega))]
  · simp only
    unfold initMem
    rw [load64_store64_ne (by omega), load64_store64_ne (by omega), load64_store64_ne (by omega),
      load64_store64_same (by omega)]
  · simp [NoAdj]
  · simp [freeSum]

end Verif.Heap
