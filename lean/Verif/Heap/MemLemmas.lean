import Verif.Heap.Model

/-! Helper lemmas about machine words and byte memory. -/
namespace Verif.Heap

theorem load64_lt (m : Mem) (a : Nat) : load64 m a < W := by
  unfold load64 W
  have h0 := (m a).isLt
  have h1 := (m (a+1)).isLt
  have h2 := (m (a+2)).isLt
  have h3 := (m (a+3)).isLt
  have h4 := (m (a+4)).isLt
  have h5 := (m (a+5)).isLt
  have h6 := (m (a+6)).isLt
  have h7 := (m (a+7)).isLt
  omega

theorem load64_congr {m m' : Mem} {a : Nat} (h : ∀ i, a ≤ i → i < a + 8 → m' i = m i) :
    load64 m' a = load64 m a := by
  unfold load64
  rw [h a (by omega) (by omega), h (a+1) (by omega) (by omega), h (a+2) (by omega) (by omega),
    h (a+3) (by omega) (by omega), h (a+4) (by omega) (by omega), h (a+5) (by omega) (by omega),
    h (a+6) (by omega) (by omega), h (a+7) (by omega) (by omega)]

theorem store64_other {m : Mem} {a v x : Nat} (h : x < a ∨ a + 8 ≤ x) :
    store64 m a v x = m x := by
  unfold store64
  rw [if_neg (by omega)]

theorem store64_at {m : Mem} {a v i : Nat} (h : i < 8) :
    (store64 m a v (a + i)).toNat = v / 2 ^ (8 * i) % 256 := by
  unfold store64
  rw [if_pos (by omega)]
  simp [show a + i - a = i by omega]

theorem load64_store64_same {m : Mem} {a v : Nat} (hv : v < W) :
    load64 (store64 m a v) a = v := by
  unfold load64
  have h0 := @store64_at m a v 0 (by omega)
  rw [Nat.add_zero] at h0
  rw [h0, store64_at (by omega), store64_at (by omega), store64_at (by omega),
    store64_at (by omega), store64_at (by omega), store64_at (by omega), store64_at (by omega)]
  unfold W at hv
  simp only [Nat.reduceMul, Nat.reducePow] at *
  omega

theorem load64_store64_ne {m : Mem} {a b v : Nat} (h : b + 8 ≤ a ∨ a + 8 ≤ b) :
    load64 (store64 m a v) b = load64 m b :=
  load64_congr fun i h1 h2 => store64_other (by omega)

/-! ### Words -/

theorem structSize_eq : structSize = 16 := by decide
theorem minBlock_eq : minBlock = 32 := by decide
theorem allocBit_eq : allocBit = 2 ^ 63 := by decide
theorem sizeMax_eq : sizeMax = W - 1 := by decide

theorem protect_protect (p : Nat) : protect (protect p) = p := by
  unfold protect; rw [Nat.xor_assoc, Nat.xor_self, Nat.xor_zero]

theorem protect_lt {p : Nat} (h : p < W) : protect p < W := by
  unfold protect W at *
  exact Nat.xor_lt_two_pow h (by decide)

theorem protect_inj {p q : Nat} : protect p = protect q ↔ p = q :=
  ⟨fun h => by rw [← protect_protect p, h, protect_protect], fun h => by rw [h]⟩

theorem and_alignMask (a : Nat) : a &&& alignMask = a % 8 :=
  Nat.and_two_pow_sub_one_eq_mod a 3

theorem and_not_alignMask {a : Nat} (h : a < W) : a &&& not64 alignMask = a - a % 8 := by
  have e1 : not64 alignMask = (2 ^ 61 - 1) <<< 3 := by decide
  rw [e1]
  apply Nat.eq_of_testBit_eq
  intro i
  have e2 : a - a % 8 = (a / 8) * 2 ^ 3 := by omega
  rw [e2, ← Nat.shiftLeft_eq, Nat.testBit_and, Nat.testBit_shiftLeft, Nat.testBit_shiftLeft,
    Nat.testBit_two_pow_sub_one]
  by_cases hi : i ≥ 3
  · have e3 : a / 8 = a >>> 3 := by rw [Nat.shiftRight_eq_div_pow]
    rw [e3, Nat.testBit_shiftRight, show 3 + (i - 3) = i by omega]
    by_cases hi2 : i - 3 < 61
    · simp [hi, hi2]
    · have : a.testBit i = false :=
        Nat.testBit_lt_two_pow (Nat.lt_of_lt_of_le h (Nat.pow_le_pow_right (by decide) (by omega)))
      simp [this]
  · simp [hi]

theorem and_allocBit_eq_zero {a : Nat} (h : a < W) : a &&& allocBit = 0 ↔ a < 2 ^ 63 := by
  rw [allocBit_eq]
  constructor
  · intro h0
    by_cases hlt : a < 2 ^ 63
    · exact hlt
    · exfalso
      have h1 : a.testBit 63 = true := by
        rw [Nat.testBit_eq_decide_div_mod_eq]
        unfold W at h
        simp; omega
      have h2 : (a &&& 2 ^ 63).testBit 63 = true := by
        rw [Nat.testBit_and, h1, Nat.testBit_two_pow_self]; rfl
      rw [h0] at h2
      simp at h2
  · intro hlt
    apply Nat.eq_of_testBit_eq
    intro i
    rw [Nat.testBit_and, Nat.testBit_two_pow, Nat.zero_testBit]
    by_cases hi : 63 = i
    · subst hi
      rw [Nat.testBit_lt_two_pow hlt]; rfl
    · simp [hi]

theorem or_allocBit {a : Nat} (h : a < 2 ^ 63) : a ||| allocBit = a + 2 ^ 63 := by
  rw [allocBit_eq, Nat.or_comm, Nat.add_comm]
  have := Nat.two_pow_add_eq_or_of_lt h 1
  simpa using this.symm

theorem and_not_allocBit (a : Nat) : a &&& not64 allocBit = a % 2 ^ 63 := by
  have : not64 allocBit = 2 ^ 63 - 1 := by decide
  rw [this, Nat.and_two_pow_sub_one_eq_mod]

theorem wadd_eq {a b : Nat} (h : a + b < W) : wadd a b = a + b := Nat.mod_eq_of_lt h

theorem wsub_eq {a b : Nat} (h : b ≤ a) (ha : a < W) : wsub a b = a - b := by
  unfold wsub
  rw [Nat.mod_eq_of_lt (Nat.lt_of_le_of_lt h ha)]
  unfold W at *
  omega

end Verif.Heap
