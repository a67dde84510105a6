import Verif.Values.Model
/-! Specification of the registered observers and lemmas about the model of `values::observable`. -/
namespace Verif.Values
open Verif

/-! ### Arithmetic -/

namespace IntTy

theorem wrap_of_in {T : IntTy} (hT : T.Valid) {x : Int} (h : T.In x) : T.wrap x = x := by
  obtain ⟨sg, b⟩ := T
  simp only [Valid] at hT
  rcases hT with rfl | rfl | rfl | rfl <;> cases sg <;>
    simp [In, lo, hi, wrap, Int.bmod] at h ⊢ <;> omega

theorem wrap_in {T : IntTy} (hT : T.Valid) (x : Int) : T.In (T.wrap x) := by
  obtain ⟨sg, b⟩ := T
  simp only [Valid] at hT
  rcases hT with rfl | rfl | rfl | rfl <;> cases sg <;>
    simp [In, lo, hi, wrap, Int.bmod] <;> omega

theorem wrap_add_wrap {T : IntTy} (hT : T.Valid) (x y : Int) :
    T.wrap (x + T.wrap y) = T.wrap (x + y) := by
  obtain ⟨sg, b⟩ := T
  simp only [Valid] at hT
  rcases hT with rfl | rfl | rfl | rfl <;> cases sg <;>
    simp [wrap, Int.bmod] <;> omega

theorem wrap_sub_wrap {T : IntTy} (hT : T.Valid) (x y : Int) :
    T.wrap (x - T.wrap y) = T.wrap (x - y) := by
  obtain ⟨sg, b⟩ := T
  simp only [Valid] at hT
  rcases hT with rfl | rfl | rfl | rfl <;> cases sg <;>
    simp [wrap, Int.bmod] <;> omega

theorem common_valid {T : IntTy} (hT : T.Valid) : T.common.Valid := by
  unfold common
  split
  · exact .inr (.inr (.inl rfl))
  · exact hT

/-- When the computation of an operator is defined, converting its result to `T` gives the value the
atomic operation stored. -/
theorem arith_wrap {T : IntTy} (hT : T.Valid) {x y : Int} (h : T.common.arith x = .ok y) :
    T.wrap y = T.wrap x := by
  unfold arith at h
  split at h
  · split at h
    · cases h; rfl
    · cases h
  · rename_i hs
    have hc : T.common = T := by
      unfold common at hs ⊢
      split
      · rename_i hb
        rw [if_pos hb] at hs
        exact absurd rfl hs
      · rfl
    rw [hc] at h
    cases h
    exact wrap_of_in hT (wrap_in hT x)

/-- When the computation of an operator is undefined. -/
theorem arith_ub {T : IntTy} (x : Int) :
    T.common.arith x = .ub ↔ T.signed = true ∧ 32 ≤ T.bits ∧ ¬ T.In x ∨ T.bits < 32 ∧ ¬ int.In x := by
  unfold arith common
  by_cases hb : T.bits < 32
  · rw [if_pos hb]
    have hi : int.signed = true := rfl
    rw [if_pos hi]
    simp only [hb, true_and]
    by_cases hx : int.In x
    · rw [if_pos hx]
      simp only [hx, not_true_eq_false, or_false, reduceCtorEq, false_iff, not_and]
      intro _ h
      omega
    · rw [if_neg hx]
      simp [hx]
  · rw [if_neg hb]
    cases hs : T.signed
    · simp [hb]
    · by_cases hx : T.In x
      · simp [hx, hb]
      · simp [hx, hb]
        omega

theorem arith_ne_hang (e : IntTy) (x : Int) : e.arith x ≠ .hang := by
  unfold arith
  split
  · split <;> simp
  · simp

end IntTy

/-! ### Registered observers -/

/-- The registered observers after an operation, for capacity `cap` (`none`: unbounded). -/
def next (cap : Option Nat) (l : List Nat) : Op → List Nat
  | .add o => if (∃ m, cap = some m ∧ m ≤ l.length) ∨ o ∈ l then l else l ++ [o]
  | .remove o => l.filter (· != o)
  | .clear => []
  | _ => l

/-- What `add`/`remove` have to return. -/
def result (cap : Option Nat) (l : List Nat) : Op → Err
  | .add o => if ∃ m, cap = some m ∧ m ≤ l.length then .listIsFull
    else if o ∈ l then .alreadyContains else .ok
  | .remove o => if o ∈ l then .ok else .notFound
  | _ => .ok

/-- The registered observers after a history: added and not since removed or cleared. -/
def registered (cap : Option Nat) (ops : List Op) : List Nat := ops.foldl (next cap) []

/-- The container holds exactly the observers `l`. -/
def Holds (cap : Option Nat) (reg : Reg) (l : List Nat) : Prop :=
  l.Nodup ∧ match cap, reg with
  | some m, .fixed arr c => arr.length = m ∧ c = l.length ∧ c ≤ m ∧ arr.take c = l.map some
  | none, .dyn vec => vec = l
  | _, _ => False

/-- A new container of either kind. -/
def newReg : Option Nat → Reg
  | some m => .newFixed m
  | none => .newDyn

theorem holds_new (cap : Option Nat) : Holds cap (newReg cap) [] := by
  refine ⟨by simp, ?_⟩
  cases cap <;> simp [newReg, Reg.newFixed, Reg.newDyn]

/-! ### Notification -/

theorem deliver_all (v : Int) (l : List Nat) (s : St) :
    let s' := l.foldl (deliver v) s
    s'.value = s.value ∧ s'.reg = s.reg ∧ s'.fn = s.fn ∧
    (∀ p, s'.held p = if p ∈ l then v else s.held p) ∧
    s'.log = s.log ++ (l.filter s.fn).map (fun o => (o, v)) := by
  induction l generalizing s with
  | nil => simp
  | cons a l ih =>
    obtain ⟨h1, h2, h3, h4, h5⟩ := ih (deliver v s a)
    simp only [List.foldl_cons]
    refine ⟨h1, h2, h3, ?_, ?_⟩
    · intro p
      rw [h4]
      simp only [deliver, List.mem_cons]
      by_cases hp : p = a <;> by_cases hl : p ∈ l <;> simp [hp, hl]
    · rw [h5]
      simp only [deliver, List.filter_cons]
      cases s.fn a <;> simp

theorem take_get {l : List Nat} {arr : List (Option Nat)} {c : Nat} (hc : c = l.length)
    (h : arr.take c = l.map some) (i : Nat) (hi : i < c) : arr[i]? = (l[i]?).map some := by
  have := congrArg (fun x => x[i]?) h
  simpa [List.getElem?_take, hi] using this

theorem notifyArr_eq (v : Int) (arr : List (Option Nat)) (l : List Nat) (pre : List Nat) (s : St)
    (h : ∀ i, i < (pre ++ l).length → arr[i]? = ((pre ++ l)[i]?).map some) :
    notifyArr v arr l.length pre.length s = .ok (l.foldl (deliver v) s) := by
  induction l generalizing pre s with
  | nil => rfl
  | cons a l ih =>
    have h0 := h pre.length (by simp)
    simp only [List.length_cons, notifyArr]
    rw [h0]
    simp only [List.getElem?_append_right (Nat.le_refl _), Nat.sub_self, List.getElem?_cons_zero,
      Option.map_some, List.foldl_cons]
    have := ih (pre ++ [a]) (deliver v s a) (by simpa using h)
    simpa using this

theorem notifyVec_eq (v : Int) (l : List Nat) (s : St) : notifyVec v l s = l.foldl (deliver v) s := by
  induction l generalizing s with
  | nil => rfl
  | cons a l ih => exact ih _

theorem notify_eq {cap : Option Nat} {s : St} {l : List Nat} (h : Holds cap s.reg l) (v : Int) :
    notify s v = .ok (l.foldl (deliver v) s) := by
  obtain ⟨-, h⟩ := h
  unfold notify
  cases cap with
  | none =>
    cases hr : s.reg with
    | fixed arr c => rw [hr] at h; exact h.elim
    | dyn vec =>
      rw [hr] at h
      simp only at h ⊢
      rw [notifyVec_eq, h]
  | some m =>
    cases hr : s.reg with
    | dyn vec => rw [hr] at h; exact h.elim
    | fixed arr c =>
      rw [hr] at h
      obtain ⟨h1, h2, h3, h4⟩ := h
      simp only
      rw [if_neg (by omega)]
      subst h2
      exact notifyArr_eq v arr l [] s (fun i hi => take_get rfl h4 i hi)

/-! ### Registration -/

theorem containsArr_eq (o : Nat) (arr : List (Option Nat)) (l : List Nat) (pre : List Nat)
    (h : ∀ i, i < (pre ++ l).length → arr[i]? = ((pre ++ l)[i]?).map some) :
    containsArr o arr l.length pre.length = .ok (decide (o ∈ l)) := by
  induction l generalizing pre with
  | nil => simp [containsArr]
  | cons a l ih =>
    have h0 := h pre.length (by simp)
    simp only [List.length_cons, containsArr]
    rw [h0]
    simp only [List.getElem?_append_right (Nat.le_refl _), Nat.sub_self, List.getElem?_cons_zero,
      Option.map_some, Option.some.injEq]
    by_cases ha : a = o
    · simp [ha]
    · have := ih (pre ++ [a]) (by simpa using h)
      rw [if_neg ha]
      simp only [List.length_append, List.length_cons, List.length_nil] at this
      rw [this]
      have : ¬ o = a := fun h => ha h.symm
      simp [this]

theorem containsVec_eq (o : Nat) (l : List Nat) : containsVec o l = decide (o ∈ l) := by
  induction l with
  | nil => simp [containsVec]
  | cons a l ih =>
    simp only [containsVec, List.mem_cons]
    by_cases ha : a = o
    · simp [ha]
    · have : ¬ o = a := fun h => ha h.symm
      simp [ha, this, ih]

theorem clearArr_eq (arr : List (Option Nat)) (l : List Nat) (pre : List Nat)
    (h : ∀ i, i < (pre ++ l).length → arr[i]? = ((pre ++ l)[i]?).map some) :
    clearArr arr l.length pre.length = .ok () := by
  induction l generalizing pre with
  | nil => rfl
  | cons a l ih =>
    have h0 := h pre.length (by simp)
    simp only [List.length_cons, clearArr]
    rw [h0]
    simp only [List.getElem?_append_right (Nat.le_refl _), Nat.sub_self, List.getElem?_cons_zero,
      Option.map_some]
    have := ih (pre ++ [a]) (by simpa using h)
    simpa using this

theorem nodup_snoc {l : List Nat} {o : Nat} (h : l.Nodup) (ho : o ∉ l) : (l ++ [o]).Nodup := by
  rw [List.nodup_append]
  refine ⟨h, by simp, ?_⟩
  intro a ha b hb hab
  simp only [List.mem_singleton] at hb
  subst hb hab
  exact ho ha

theorem filter_map_some (o : Nat) (l : List Nat) :
    (l.map some).filter (fun y => decide (y ≠ some o)) = (l.filter (· != o)).map some := by
  induction l with
  | nil => rfl
  | cons a l ih =>
    simp only [List.map_cons, List.filter_cons, ih]
    by_cases ha : a = o <;> simp [ha]

theorem filter_len_lt {o : Nat} {l : List Nat} (h : o ∈ l) : (l.filter (· != o)).length < l.length := by
  induction l with
  | nil => simp at h
  | cons a l ih =>
    simp only [List.filter_cons, List.length_cons]
    have hle := List.length_filter_le (· != o) l
    by_cases ha : a = o
    · subst ha
      simp only [bne_self_eq_false, Bool.false_eq_true, if_false]
      omega
    · have : o ∈ l := by
        rcases List.mem_cons.1 h with h | h
        · exact absurd h.symm ha
        · exact h
      have := ih this
      simp [ha]
      omega

theorem filter_of_not_mem {o : Nat} {l : List Nat} (h : o ∉ l) : l.filter (· != o) = l := by
  rw [List.filter_eq_self]
  intro a ha
  simp only [bne_iff_ne, ne_eq]
  rintro rfl
  exact h ha

theorem add_spec {cap : Option Nat} {s : St} {l : List Nat} (h : Holds cap s.reg l) (o : Nat) :
    ∃ reg', Values.add s o = .ok ({ s with reg := reg' }, result cap l (.add o)) ∧
      Holds cap reg' (next cap l (.add o)) := by
  obtain ⟨hn, h⟩ := h
  unfold add
  cases cap with
  | none =>
    cases hr : s.reg with
    | fixed arr c => rw [hr] at h; exact h.elim
    | dyn vec =>
      rw [hr] at h
      simp only at h
      subst h
      simp only [containsVec_eq, result, next]
      by_cases ho : o ∈ vec
      · refine ⟨.dyn vec, ?_, ?_⟩
        · simp [ho, ← hr]
        · simp [ho, Holds, hn]
      · refine ⟨.dyn (vec ++ [o]), ?_, ?_⟩
        · simp [ho]
        · simp [ho, Holds, nodup_snoc hn ho]
  | some m =>
    cases hr : s.reg with
    | dyn vec => rw [hr] at h; exact h.elim
    | fixed arr c =>
      rw [hr] at h
      obtain ⟨h1, h2, h3, h4⟩ := h
      simp only
      by_cases hf : c ≥ arr.length
      · rw [if_pos hf]
        have hm : m ≤ l.length := by omega
        refine ⟨.fixed arr c, ?_, ?_⟩
        · simp [result, hm, ← hr]
        · simp only [next, Option.some.injEq, exists_eq_left', hm, true_or, if_true]
          exact ⟨hn, h1, h2, h3, h4⟩
      · rw [if_neg hf]
        have hm : ¬ m ≤ l.length := by omega
        have hc := containsArr_eq o arr l [] (fun i hi => take_get rfl (h2 ▸ h4) i hi)
        rw [← h2] at hc
        simp only [List.length_nil] at hc
        rw [hc]
        simp only [Res.ok_bind, result, next, Option.some.injEq, exists_eq_left', hm, false_or, if_false]
        by_cases ho : o ∈ l
        · refine ⟨.fixed arr c, ?_, ?_⟩
          · simp [ho, ← hr]
          · simp only [ho, if_true]
            exact ⟨hn, h1, h2, h3, h4⟩
        · refine ⟨.fixed (arr.set c (some o)) (c + 1), ?_, ?_⟩
          · simp [ho]
          · simp only [ho, if_false]
            refine ⟨nodup_snoc hn ho, by simpa using h1, by simp [h2], by omega, ?_⟩
            rw [List.map_append, ← h4]
            have hlt : c < arr.length := by omega
            rw [List.take_add_one]
            simp [hlt, List.take_set_of_le]

theorem remove_spec_fixed {m : Nat} {s : St} {l : List Nat} (h : Holds (some m) s.reg l) (o : Nat) :
    ∃ reg', Values.remove s o = .ok ({ s with reg := reg' }, result (some m) l (.remove o)) ∧
      Holds (some m) reg' (next (some m) l (.remove o)) := by
  obtain ⟨hn, h⟩ := h
  unfold remove
  cases hr : s.reg with
  | dyn vec => rw [hr] at h; exact h.elim
  | fixed arr c =>
    rw [hr] at h
    obtain ⟨h1, h2, h3, h4⟩ := h
    simp only
    rw [if_neg (by omega)]
    by_cases hz : c = 0
    · rw [if_pos hz]
      have hl : l = [] := List.length_eq_zero_iff.1 (by omega)
      subst hl
      refine ⟨.fixed arr c, ?_, ?_⟩
      · simp [result, ← hr]
      · exact ⟨by simp [next], h1, h2, h3, h4⟩
    · rw [if_neg hz]
      simp only [stdRemove, h4, filter_map_some, List.length_map]
      have hle : (l.filter (· != o)).length ≤ l.length := List.length_filter_le _ _
      have hlen : ((l.filter (· != o)).map some ++
          (l.map some).drop (l.filter (· != o)).length ++ arr.drop c).length = m := by
        simp only [List.length_append, List.length_map, List.length_drop]
        omega
      by_cases ho : o ∈ l
      · have := filter_len_lt ho
        rw [if_pos (by omega)]
        refine ⟨_, by rw [result, if_pos ho], ?_⟩
        refine ⟨hn.filter _, hlen, rfl, Nat.le_trans hle (h2 ▸ h3), ?_⟩
        simp only [next, List.append_assoc]
        rw [List.take_left' (by simp)]
      · have hf := filter_of_not_mem ho
        rw [if_neg (by rw [hf]; omega)]
        refine ⟨_, by rw [result, if_neg ho], ?_⟩
        simp only [next]
        rw [hf] at hlen ⊢
        refine ⟨hn, hlen, h2, h3, ?_⟩
        rw [List.append_assoc, List.take_left' (by simp [h2])]

theorem remove_absent_dyn {s : St} {l : List Nat} (h : Holds none s.reg l) {o : Nat} (ho : o ∉ l) :
    Values.remove s o = .ok (s, .notFound) := by
  obtain ⟨hn, h⟩ := h
  unfold remove
  cases hr : s.reg with
  | fixed arr c => rw [hr] at h; exact h.elim
  | dyn vec =>
    rw [hr] at h
    simp only at h
    subst h
    simp only
    have hf : vec.filter (fun y => decide (y ≠ o)) = vec := by
      rw [List.filter_eq_self]
      intro a ha
      simp only [decide_eq_true_eq]
      rintro rfl
      exact ho ha
    split
    · rfl
    · have hr2 : stdRemove o vec = (vec ++ List.drop vec.length vec, vec.length) := by
        simp only [stdRemove]
        rw [hf]
      rw [hr2]
      have : ({ s with reg := Reg.dyn (vec ++ List.drop vec.length vec) } : St) = s := by
        cases s
        simp only at hr
        simp [hr]
      simp only [ne_eq, not_true_eq_false, if_false, this]

theorem clear_spec {cap : Option Nat} {s : St} {l : List Nat} (h : Holds cap s.reg l) :
    ∃ reg', Values.clear s = .ok { s with reg := reg' } ∧ Holds cap reg' [] := by
  obtain ⟨hn, h⟩ := h
  unfold clear
  cases cap with
  | none =>
    cases hr : s.reg with
    | fixed arr c => rw [hr] at h; exact h.elim
    | dyn vec => exact ⟨_, rfl, by simp, rfl⟩
  | some m =>
    cases hr : s.reg with
    | dyn vec => rw [hr] at h; exact h.elim
    | fixed arr c =>
      rw [hr] at h
      obtain ⟨h1, h2, h3, h4⟩ := h
      have hc := clearArr_eq arr l [] (fun i hi => take_get rfl (h2 ▸ h4) i hi)
      rw [← h2] at hc
      simp only [List.length_nil] at hc
      simp only [hc, Res.ok_bind]
      exact ⟨_, rfl, by simp, by simpa using h1⟩

end Verif.Values
