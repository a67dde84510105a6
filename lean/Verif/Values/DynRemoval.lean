import Verif.Values.Props
/-!
C47 for all histories: what `remove_observer` of the dynamic `values::observable` (values/observable.hpp:438-450) leaves in the vector, also when
observers have been removed before.
-/
namespace Verif.Values
open Verif

/-- The entries of the vector after an operation.  Removal moves the others to the front and leaves as many entries at the end as there
were of the one removed. -/
def leaves (l : List Nat) : Op → List Nat
  | .add o => if o ∈ l then l else l ++ [o]
  | .remove o => l.filter (· != o) ++ l.drop (l.length - l.count o)
  | .clear => []
  | _ => l

/-- The entries of the vector after a history. -/
def entries (ops : List Op) : List Nat := ops.foldl leaves []

theorem filter_length (l : List Nat) (o : Nat) : (l.filter (· != o)).length = l.length - l.count o := by
  have h1 : l.count o = (l.filter (· == o)).length := by rw [List.count_eq_length_filter]
  have h2 : (l.filter (· == o)).length + (l.filter (· != o)).length = l.length := by
    induction l with
    | nil => rfl
    | cons a l ih =>
      have := ih (by rw [List.count_eq_length_filter])
      by_cases h : a = o <;> simp [h] <;> omega
  omega

theorem stdRemove_eq (l : List Nat) (o : Nat) :
    stdRemove o l = (l.filter (· != o) ++ l.drop (l.length - l.count o), l.length - l.count o) := by
  have hfil : l.filter (fun y => decide (y ≠ o)) = l.filter (· != o) := by
    congr 1
    funext y
    by_cases h : y = o <;> simp [h]
  simp only [stdRemove, hfil, filter_length]

theorem notify_dyn {s : St} {l : List Nat} (h : s.reg = .dyn l) (x v : Int) :
    notify { s with value := x } v = .ok (l.foldl (deliver v) { s with value := x }) := by
  simp only [notify, h, notifyVec_eq]

/-- What an update does to the observers. -/
def Told (s s' : St) (l : List Nat) (v : Int) : Prop :=
  s'.reg = s.reg ∧ s'.fn = s.fn ∧ (∀ p, s'.held p = if p ∈ l then v else s.held p) ∧
    s'.log = s.log ++ (l.filter s.fn).map fun o => (o, v)

theorem told {s : St} (l : List Nat) (x v : Int) : Told s (l.foldl (deliver v) { s with value := x }) l v := by
  obtain ⟨_, h2, h3, h4, h5⟩ := deliver_all v l { s with value := x }
  exact ⟨h2, h3, h4, h5⟩

theorem update_dyn {T : IntTy} {s s' : St} {l : List Nat} {op : Op} {r : Ret} (h : s.reg = .dyn l) (hu : op.IsUpdate)
    (he : exec T s op = .ok (s', r)) : ∃ v, r = .val v ∧ Told s s' l v := by
  have arith : ∀ (x : Int) (q : Res Int), (do
      let p ← (do
        let ret ← q
        let t ← notify { s with value := x } (T.wrap ret)
        .ok (t, T.wrap ret) : Res (St × Int))
      .ok (p.1, Ret.val p.2) : Res (St × Ret)) = .ok (s', r) → ∃ v, r = .val v ∧ Told s s' l v := by
    intro x q hq
    cases q with
    | ok y =>
      simp only [Res.ok_bind, notify_dyn h] at hq
      injection hq with hq
      injection hq with h1 h2
      subst h1 h2
      exact ⟨_, rfl, told l x _⟩
    | ub => cases hq
    | hang => cases hq
  have plain : ∀ (x v : Int), (do
      let p ← (do
        let t ← notify { s with value := x } v
        .ok (t, v) : Res (St × Int))
      .ok (p.1, Ret.val p.2) : Res (St × Ret)) = .ok (s', r) → ∃ v, r = .val v ∧ Told s s' l v := by
    intro x v hq
    simp only [Res.ok_bind, notify_dyn h] at hq
    injection hq with hq
    injection hq with h1 h2
    subst h1 h2
    exact ⟨_, rfl, told l x _⟩
  cases op with
  | assign v => exact plain v v he
  | addEq n => exact arith _ _ he
  | subEq n => exact arith _ _ he
  | preInc => exact arith _ _ he
  | preDec => exact arith _ _ he
  | postInc => exact plain _ _ he
  | postDec => exact plain _ _ he
  | add _ => exact hu.elim
  | remove _ => exact hu.elim
  | clear => exact hu.elim
  | onUpdate _ _ => exact hu.elim

theorem containsVec_iff (o : Nat) (l : List Nat) : containsVec o l = true ↔ o ∈ l := by
  induction l with
  | nil => simp [containsVec]
  | cons a l ih =>
    simp only [containsVec, List.mem_cons]
    by_cases h : a = o
    · simp [h]
    · simp [h, ih, Ne.symm h]

theorem remove_exact {s : St} {l : List Nat} (h : s.reg = .dyn l) (o : Nat) :
    Values.remove s o = .ok ({ s with reg := .dyn (leaves l (.remove o)) }, if o ∈ l then .ok else .notFound) := by
  unfold Values.remove
  rw [h]
  simp only []
  by_cases he : l = []
  · subst he
    simp only [List.isEmpty_nil, if_true, leaves, List.not_mem_nil, if_false]
    congr 2
    cases s
    simp only at h
    rw [h]
    rfl
  · rw [if_neg (by simpa using he)]
    simp only [stdRemove_eq, leaves]
    have hle := List.count_le_length (a := o) (l := l)
    by_cases ho : o ∈ l
    · have := List.count_pos_iff.mpr ho
      rw [if_pos (by omega), if_pos ho]
    · have := List.count_eq_zero.mpr ho
      rw [if_neg (by omega), if_neg ho]

theorem exec_dyn {T : IntTy} {s s' : St} {l : List Nat} {op : Op} {r : Ret} (h : s.reg = .dyn l) (he : exec T s op = .ok (s', r)) :
    s'.reg = .dyn (leaves l op) := by
  by_cases hu : op.IsUpdate
  · obtain ⟨v, _, h1, _⟩ := update_dyn h hu he
    rw [h1, h]
    cases op <;> first | rfl | exact hu.elim
  · cases op with
    | add o =>
      simp only [exec, errOf, Values.add, h] at he
      by_cases hc : o ∈ l
      · rw [(containsVec_iff o l).mpr hc] at he
        simp only [Bool.not_true, Bool.false_eq_true, if_false, Res.ok_bind] at he
        cases he
        rw [h, leaves, if_pos hc]
      · have : containsVec o l = false := by rw [← Bool.not_eq_true, containsVec_iff]; exact hc
        rw [this] at he
        simp only [Bool.not_false, if_true, Res.ok_bind] at he
        cases he
        rw [leaves, if_neg hc]
    | remove o =>
      simp only [exec, errOf, remove_exact h, Res.ok_bind] at he
      cases he
      rfl
    | clear =>
      simp only [exec, Values.clear, h, Res.ok_bind] at he
      cases he
      rfl
    | onUpdate o b =>
      simp only [exec, Values.onUpdate] at he
      cases he
      exact h
    | assign _ => exact absurd trivial hu
    | addEq _ => exact absurd trivial hu
    | subEq _ => exact absurd trivial hu
    | preInc => exact absurd trivial hu
    | preDec => exact absurd trivial hu
    | postInc => exact absurd trivial hu
    | postDec => exact absurd trivial hu

theorem run_dyn {T : IntTy} (ops : List Op) : ∀ {s s' : St} {l : List Nat}, s.reg = .dyn l → run T ops s = .ok s' →
    s'.reg = .dyn (ops.foldl leaves l) := by
  induction ops with
  | nil => intro s s' l h hr; cases hr; exact h
  | cons op ops ih =>
    intro s s' l h hr
    rw [run] at hr
    cases he : exec T s op with
    | ok p =>
      obtain ⟨t, r⟩ := p
      rw [he, Res.ok_bind] at hr
      exact ih (exec_dyn h he) hr
    | ub => rw [he] at hr; cases hr
    | hang => rw [he] at hr; cases hr

/-- **C47, all histories.** The vector has these entries, whatever was registered and removed before, and every update tells them one after
the other, those that are in it twice twice, and nobody else. -/
theorem C47_exact {T : IntTy} {ops : List Op} {s : St} (h : Reached T none ops s) :
    s.reg = .dyn (entries ops) ∧ ∀ op s' r, op.IsUpdate → exec T s op = .ok (s', r) →
      ∃ v, r = .val v ∧ (∀ p, s'.held p = if p ∈ entries ops then v else s.held p) ∧
        s'.log = s.log ++ ((entries ops).filter s.fn).map fun o => (o, v) := by
  obtain ⟨fn, hr⟩ := h.run
  have hreg : s.reg = .dyn (entries ops) := run_dyn ops (l := []) rfl hr
  refine ⟨hreg, ?_⟩
  intro op s' r hu he
  obtain ⟨v, h1, _, _, h3, h4⟩ := update_dyn hreg hu he
  exact ⟨v, h1, h3, h4⟩

/-- **C47, exactly when it fails.** A removal that reports success silences the observer exactly if it has no entry among the last ones, as
many as it has entries. -/
theorem C47_silent_iff {T : IntTy} {ops : List Op} {s : St} (h : Reached T none ops s) (o : Nat) (ho : o ∈ entries ops) (v : Int) :
    ∃ s1 s2, exec T s (.remove o) = .ok (s1, .err .ok) ∧ exec T s1 (.assign v) = .ok (s2, .val v) ∧
      s2.held o = if o ∈ (entries ops).drop ((entries ops).length - (entries ops).count o) then v else s.held o := by
  obtain ⟨hreg, _⟩ := C47_exact h
  obtain ⟨s1, hs1⟩ : ∃ s1 : St, s1 = { s with reg := .dyn (leaves (entries ops) (.remove o)) } := ⟨_, rfl⟩
  have hreg1 : s1.reg = .dyn (leaves (entries ops) (.remove o)) := by rw [hs1]
  obtain ⟨_, _, h4, _⟩ := told (s := s1) (leaves (entries ops) (.remove o)) v v
  refine ⟨s1, (leaves (entries ops) (.remove o)).foldl (deliver v) { s1 with value := v }, ?_, ?_, ?_⟩
  · simp only [exec, errOf, remove_exact hreg, if_pos ho, Res.ok_bind, hs1]
  · simp only [exec, valOf, assign, notify_dyn hreg1, Res.ok_bind]
  · have : o ∈ leaves (entries ops) (.remove o) ↔ o ∈ (entries ops).drop ((entries ops).length - (entries ops).count o) := by
      simp [leaves]
    rw [h4, hs1]
    simp only [this]

theorem entries_append (ops ops' : List Op) : entries (ops ++ ops') = ops'.foldl leaves (entries ops) := by
  simp [entries, List.foldl_append]

/-- **C47.** Removals never make the vector shorter: without `clear_observers` an update never makes fewer calls than before. -/
theorem C47_never_shorter (ops ops' : List Op) (h : .clear ∉ ops') : (entries ops).length ≤ (entries (ops ++ ops')).length := by
  rw [entries_append]
  generalize entries ops = l
  induction ops' generalizing l with
  | nil => exact Nat.le_refl _
  | cons op ops' ih =>
    rw [List.foldl_cons]
    refine Nat.le_trans ?_ (ih (fun hc => h (by simp [hc])) (leaves l op))
    cases op with
    | add o => simp only [leaves]; split <;> simp
    | remove o =>
      have := filter_length l o
      have := List.count_le_length (a := o) (l := l)
      simp only [leaves, List.length_append, List.length_drop]
      omega
    | clear => exact absurd (by simp) h
    | _ => exact Nat.le_refl _

/-- **C47.** The observer in the last place cannot be removed, however often one tries. -/
theorem C47_last_stays (ops : List Op) (l : List Nat) (o : Nat) (h : entries ops = l ++ [o]) (n : Nat) :
    ∃ l', entries (ops ++ List.replicate n (.remove o)) = l' ++ [o] := by
  induction n with
  | zero => exact ⟨l, by simpa using h⟩
  | succ n ih =>
    obtain ⟨l', ih⟩ := ih
    rw [List.replicate_succ', ← List.append_assoc, entries_append, ih]
    simp only [List.foldl_cons, List.foldl_nil, leaves]
    have h1 : (l' ++ [o]).length - (l' ++ [o]).count o ≤ l'.length := by
      simp only [List.length_append, List.length_cons, List.length_nil, List.count_append, List.count_singleton_self]
      omega
    rw [List.drop_append_of_le_length h1, ← List.append_assoc]
    exact ⟨_, rfl⟩

/-! ### C43 and C44 for the dynamic variant, all histories -/

/-- Whoever is registered has an entry: removals of others do not touch it. -/
theorem registered_entries (ops : List Op) : ∀ o ∈ registered none ops, o ∈ entries ops := by
  unfold registered entries
  suffices ∀ l l' : List Nat, (∀ o ∈ l, o ∈ l') → ∀ o ∈ ops.foldl (next none) l, o ∈ ops.foldl leaves l' from
    this [] [] (fun _ h => h)
  induction ops with
  | nil => exact fun _ _ h => h
  | cons op ops ih =>
    intro l l' h
    rw [List.foldl_cons, List.foldl_cons]
    refine ih _ _ ?_
    intro o ho
    cases op with
    | add p =>
      simp only [next, leaves] at ho ⊢
      have h1 : o ∈ l ∨ o = p := by
        split at ho
        · exact .inl ho
        · simpa using ho
      rcases h1 with h1 | h1
      · split
        · exact h o h1
        · exact List.mem_append_left _ (h o h1)
      · subst h1
        split
        · assumption
        · simp
    | remove p =>
      simp only [next, List.mem_filter] at ho
      simp only [leaves, List.mem_append, List.mem_filter]
      exact .inl ⟨h o ho.1, ho.2⟩
    | clear => cases ho
    | _ => exact h o ho

theorem update_eq_dyn {T : IntTy} (hT : T.Valid) {s : St} {l : List Nat} (h : s.reg = .dyn l) {op : Op} (hu : op.IsUpdate)
    (ht : op.Typed T) :
    exec T s op = (do
      let v ← sent T s.value op
      .ok (l.foldl (deliver v) { s with value := T.wrap (exact s.value op) }, .val v)) := by
  have hN := notify_dyn h
  cases op with
  | assign v =>
    have hw : T.wrap v = v := IntTy.wrap_of_in hT ht
    simp only [exec, valOf, assign, hN, sent, exact, Res.ok_bind, hw]
  | addEq n =>
    simp only [exec, valOf, addEq, sent, exact, IntTy.wrap_add_wrap hT]
    cases hr : T.common.arith (s.value + T.common.wrap n) with
    | ok r => simp only [Res.ok_bind, hN]
    | ub => simp only [Res.ub_bind]
    | hang => simp only [Res.hang_bind]
  | subEq n =>
    simp only [exec, valOf, subEq, sent, exact, IntTy.wrap_sub_wrap hT]
    cases hr : T.common.arith (s.value - T.common.wrap n) with
    | ok r => simp only [Res.ok_bind, hN]
    | ub => simp only [Res.ub_bind]
    | hang => simp only [Res.hang_bind]
  | preInc =>
    simp only [exec, valOf, preInc, sent, exact]
    cases hr : T.common.arith (s.value + 1) with
    | ok r => simp only [Res.ok_bind, hN]
    | ub => simp only [Res.ub_bind]
    | hang => simp only [Res.hang_bind]
  | preDec =>
    simp only [exec, valOf, preDec, sent, exact]
    cases hr : T.common.arith (s.value + 1) with
    | ok r => simp only [Res.ok_bind, hN]
    | ub => simp only [Res.ub_bind]
    | hang => simp only [Res.hang_bind]
  | postInc => simp only [exec, valOf, postInc, hN, sent, exact, Res.ok_bind]
  | postDec => simp only [exec, valOf, postDec, hN, sent, exact, Res.ok_bind]
  | add o => exact hu.elim
  | remove o => exact hu.elim
  | clear => exact hu.elim
  | onUpdate o b => exact hu.elim

/-- **C44 (and C43) for the dynamic variant, all histories.** Whatever was removed before, `=`, `+=`, `-=` and prefix `++` store and return
the exact value, every registered object holds it afterwards, and its function ran with it at least once. -/
theorem C44_dynamic {T : IntTy} {ops : List Op} {s : St} (h : Reached T none ops s) (op : Op) (ht : op.Typed T)
    (hop : (∃ v, op = .assign v) ∨ (∃ n, op = .addEq n) ∨ (∃ n, op = .subEq n) ∨ op = .preInc) (hin : T.In (exact s.value op)) :
    ∃ s' calls, exec T s op = .ok (s', .val (exact s.value op)) ∧ s'.value = exact s.value op ∧ s'.log = s.log ++ calls ∧
      ∀ o ∈ registered none ops, s'.held o = exact s.value op ∧
        calls.count (o, exact s.value op) = (if s.fn o then (entries ops).count o else 0) ∧ 0 < (entries ops).count o := by
  have hreg := (C47_exact h).1
  have hu : op.IsUpdate := by
    rcases hop with ⟨v, rfl⟩ | ⟨n, rfl⟩ | ⟨n, rfl⟩ | rfl <;> trivial
  have he := update_eq_dyn h.valid hreg hu ht
  rw [sent_exact h.valid ht hop hin, Res.ok_bind] at he
  obtain ⟨k1, k2, k3, k4, k5⟩ := deliver_all (exact s.value op) (entries ops) { s with value := T.wrap (exact s.value op) }
  refine ⟨_, _, he, ?_, k5, ?_⟩
  · rw [k1]
    exact IntTy.wrap_of_in h.valid hin
  · intro o ho
    have hm := registered_entries ops o ho
    refine ⟨by rw [k4, if_pos hm], ?_, List.count_pos_iff.mpr hm⟩
    generalize entries ops = l
    generalize exact s.value op = v
    dsimp only
    induction l with
    | nil => cases s.fn o <;> rfl
    | cons a l ih =>
      by_cases ha : a = o
      · subst ha
        cases hf : s.fn a
        · simpa [hf] using ih
        · simpa [hf] using ih
      · cases hf : s.fn a
        · simpa [hf, ha] using ih
        · simpa [hf, ha] using ih

/-- **C43 for the dynamic variant, all histories.** -/
theorem C43_dynamic {T : IntTy} {ops : List Op} {s : St} (h : Reached T none ops s) (v : Int) (hv : T.In v) :
    ∃ s' calls, exec T s (.assign v) = .ok (s', .val v) ∧ s'.value = v ∧ s'.log = s.log ++ calls ∧
      ∀ o ∈ registered none ops, s'.held o = v ∧ (s.fn o = true → (o, v) ∈ calls) := by
  obtain ⟨s', calls, h1, h2, h3, h4⟩ := C44_dynamic h (.assign v) hv (.inl ⟨v, rfl⟩) hv
  refine ⟨s', calls, h1, h2, h3, fun o ho => ?_⟩
  obtain ⟨h5, h6, h7⟩ := h4 o ho
  refine ⟨h5, fun hf => ?_⟩
  rw [if_pos hf] at h6
  exact List.count_pos_iff.mp (h6 ▸ h7)

/-- Three observers, of which the first is removed and then the second. -/
example : entries [.add 1, .add 2, .add 3, .remove 1] = [2, 3, 3] ∧ entries [.add 1, .add 2, .add 3, .remove 1, .remove 2] = [3, 3, 3] ∧
    entries [.add 1, .add 2, .add 3, .remove 1, .remove 3] = [2, 3, 3] := by
  decide +kernel

/-- A removal, another registration and another removal: the third object is told three times. -/
example : ∃ s s', Reached .int none [.add 1, .add 2, .add 3, .remove 1, .assign 4, .remove 2] s ∧
    exec .int s (.addEq 5) = .ok (s', .val 9) ∧ s'.log = [(2, 4), (3, 4), (3, 4), (3, 9), (3, 9), (3, 9)] ∧ s'.held 2 = 4 := by
  refine ⟨_, _, ⟨.inr (.inr (.inl rfl)), ?_, fun _ => true, rfl⟩, rfl, rfl, by decide +kernel⟩
  intro op hop
  simp only [List.mem_cons, List.not_mem_nil, or_false] at hop
  rcases hop with rfl | rfl | rfl | rfl | rfl | rfl <;> first | trivial | decide

end Verif.Values
