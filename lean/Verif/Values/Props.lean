import Verif.Values.Lemmas
/-! Properties C43 to C47 of `values::observable`. -/
namespace Verif.Values
open Verif

/-! ### The operators -/

/-- The update operators. -/
def Op.IsUpdate : Op → Prop
  | .assign _ | .addEq _ | .subEq _ | .preInc | .preDec | .postInc | .postDec => True
  | _ => False

/-- The mathematical new value after an update of a variable that holds `old`. -/
def exact (old : Int) : Op → Int
  | .assign v => v
  | .addEq n => old + n
  | .subEq n => old - n
  | .preInc => old + 1
  | .postInc => old + 1
  | .preDec => old - 1
  | .postDec => old - 1
  | _ => old

/-- The value the code computes to return and to send to the observers. -/
def sent (T : IntTy) (old : Int) : Op → Res Int
  | .assign v => .ok v
  | .addEq n => do let r ← T.common.arith (old + T.common.wrap n); .ok (T.wrap r)
  | .subEq n => do let r ← T.common.arith (old - T.common.wrap n); .ok (T.wrap r)
  | .preInc => do let r ← T.common.arith (old + 1); .ok (T.wrap r)
  | .preDec => do let r ← T.common.arith (old + 1); .ok (T.wrap r)
  | _ => .ok old

theorem int_common_wrap {T : IntTy} (hT : T.Valid) (old n : Int) :
    T.wrap (old + T.common.wrap n) = T.wrap (old + n) ∧
    T.wrap (old - T.common.wrap n) = T.wrap (old - n) := by
  obtain ⟨sg, b⟩ := T
  simp only [IntTy.Valid] at hT
  rcases hT with rfl | rfl | rfl | rfl <;> cases sg <;>
    simp [IntTy.wrap, IntTy.common, IntTy.int, Int.bmod] <;> omega

/-- Every update: the value it sends, the value it stores and the observers it reaches. -/
theorem update_eq {T : IntTy} (hT : T.Valid) {cap : Option Nat} {s : St} {l : List Nat}
    (h : Holds cap s.reg l) {op : Op} (hu : op.IsUpdate) (ht : op.Typed T) :
    exec T s op = (do
      let v ← sent T s.value op
      .ok (l.foldl (deliver v) { s with value := T.wrap (exact s.value op) }, .val v)) := by
  have hN : ∀ x v, notify { s with value := x } v = .ok (l.foldl (deliver v) { s with value := x }) :=
    fun x v => notify_eq (cap := cap) (s := { s with value := x }) h v
  cases op with
  | assign v =>
    have hw : T.wrap v = v := IntTy.wrap_of_in hT ht
    simp only [exec, valOf, assign, hN, sent, exact, Res.ok_bind, hw]
  | addEq n =>
    simp only [exec, valOf, addEq, sent, exact, IntTy.wrap_add_wrap hT]
    cases hr : T.common.arith (s.value + T.common.wrap n) with
    | ok r => simp only [Res.ok_bind, hN]
    | ub => simp only [Res.ub_bind]
    | hang => simp only [Res.hang_bind]
  | subEq n =>
    simp only [exec, valOf, subEq, sent, exact, IntTy.wrap_sub_wrap hT]
    cases hr : T.common.arith (s.value - T.common.wrap n) with
    | ok r => simp only [Res.ok_bind, hN]
    | ub => simp only [Res.ub_bind]
    | hang => simp only [Res.hang_bind]
  | preInc =>
    simp only [exec, valOf, preInc, sent, exact]
    cases hr : T.common.arith (s.value + 1) with
    | ok r => simp only [Res.ok_bind, hN]
    | ub => simp only [Res.ub_bind]
    | hang => simp only [Res.hang_bind]
  | preDec =>
    simp only [exec, valOf, preDec, sent, exact]
    cases hr : T.common.arith (s.value + 1) with
    | ok r => simp only [Res.ok_bind, hN]
    | ub => simp only [Res.ub_bind]
    | hang => simp only [Res.hang_bind]
  | postInc => simp only [exec, valOf, postInc, hN, sent, exact, Res.ok_bind]
  | postDec => simp only [exec, valOf, postDec, hN, sent, exact, Res.ok_bind]
  | add o => exact hu.elim
  | remove o => exact hu.elim
  | clear => exact hu.elim
  | onUpdate o b => exact hu.elim

/-! ### Histories -/

/-- The history never removes a registered observer from the dynamic container (there, removal is
broken: C47). -/
def RemovalsOk (cap : Option Nat) (ops : List Op) : Prop :=
  cap = none → ∀ pre o post, ops = pre ++ .remove o :: post → o ∉ registered none pre

theorem next_update {cap : Option Nat} {l : List Nat} {op : Op} (hu : op.IsUpdate) :
    next cap l op = l := by cases op <;> first | rfl | exact hu.elim

theorem exec_inv {T : IntTy} (hT : T.Valid) {cap : Option Nat} {s s' : St} {l : List Nat} {op : Op}
    {r : Ret} (h : Holds cap s.reg l) (hv : T.In s.value) (ht : op.Typed T)
    (hd : cap = none → ∀ o, op = .remove o → o ∉ l) (he : exec T s op = .ok (s', r)) :
    Holds cap s'.reg (next cap l op) ∧ T.In s'.value ∧
      (op.IsUpdate ∨ s'.value = s.value ∧ s'.held = s.held ∧ s'.log = s.log) := by
  by_cases hu : op.IsUpdate
  · rw [update_eq hT h hu ht] at he
    rw [next_update hu]
    cases hs : sent T s.value op with
    | ok v =>
      rw [hs, Res.ok_bind] at he
      cases he
      obtain ⟨h1, h2, h3, h4, h5⟩ := deliver_all v l { s with value := T.wrap (exact s.value op) }
      refine ⟨?_, ?_, .inl hu⟩
      · rw [h2]; exact h
      · rw [h1]; exact IntTy.wrap_in hT _
    | ub => rw [hs, Res.ub_bind] at he; cases he
    | hang => rw [hs, Res.hang_bind] at he; cases he
  · cases op with
    | add o =>
      obtain ⟨reg', h1, h2⟩ := add_spec h o
      simp only [exec, errOf, h1, Res.ok_bind] at he
      cases he
      exact ⟨h2, hv, .inr ⟨rfl, rfl, rfl⟩⟩
    | remove o =>
      cases cap with
      | some m =>
        obtain ⟨reg', h1, h2⟩ := remove_spec_fixed h o
        simp only [exec, errOf, h1, Res.ok_bind] at he
        cases he
        exact ⟨h2, hv, .inr ⟨rfl, rfl, rfl⟩⟩
      | none =>
        have ho := hd rfl o rfl
        simp only [exec, errOf, remove_absent_dyn h ho, Res.ok_bind] at he
        cases he
        refine ⟨?_, hv, .inr ⟨rfl, rfl, rfl⟩⟩
        simp only [next, filter_of_not_mem ho]
        exact h
    | clear =>
      obtain ⟨reg', h1, h2⟩ := clear_spec h
      simp only [exec, h1, Res.ok_bind] at he
      cases he
      exact ⟨h2, hv, .inr ⟨rfl, rfl, rfl⟩⟩
    | onUpdate o b =>
      simp only [exec] at he
      cases he
      exact ⟨h, hv, .inr ⟨rfl, rfl, rfl⟩⟩
    | assign v => exact absurd trivial hu
    | addEq n => exact absurd trivial hu
    | subEq n => exact absurd trivial hu
    | preInc => exact absurd trivial hu
    | preDec => exact absurd trivial hu
    | postInc => exact absurd trivial hu
    | postDec => exact absurd trivial hu

theorem run_append (T : IntTy) (a b : List Op) (s : St) :
    run T (a ++ b) s = (do let s ← run T a s; run T b s) := by
  induction a generalizing s with
  | nil => simp [run, Res.ok_bind]
  | cons op a ih =>
    simp only [List.cons_append, run]
    cases exec T s op with
    | ok r => simp only [Res.ok_bind, ih]
    | ub => simp only [Res.ub_bind]
    | hang => simp only [Res.hang_bind]

theorem run_inv_from {T : IntTy} (hT : T.Valid) {cap : Option Nat} (ops : List Op) {s s' : St}
    {l : List Nat} (h : Holds cap s.reg l) (hv : T.In s.value) (ht : ∀ op ∈ ops, op.Typed T)
    (hd : cap = none → ∀ pre o post, ops = pre ++ .remove o :: post → o ∉ pre.foldl (next none) l)
    (hr : run T ops s = .ok s') :
    Holds cap s'.reg (ops.foldl (next cap) l) ∧ T.In s'.value := by
  induction ops generalizing s l with
  | nil => simp only [run] at hr; cases hr; exact ⟨h, hv⟩
  | cons op ops ih =>
    simp only [run] at hr
    cases he : exec T s op with
    | ok p =>
      obtain ⟨s1, r⟩ := p
      rw [he, Res.ok_bind] at hr
      have h1 := exec_inv hT h hv (ht op (by simp))
        (fun hc o ho => hd hc [] o ops (by rw [ho]; rfl)) he
      refine ih h1.1 h1.2.1 (fun op' hop' => ht op' (by simp [hop'])) ?_ hr
      intro hc pre o post hpre
      have := hd hc (op :: pre) o post (by rw [hpre]; rfl)
      rw [hc]
      exact this
    | ub => rw [he, Res.ub_bind] at hr; cases hr
    | hang => rw [he, Res.hang_bind] at hr; cases hr

/-- A state reached by a history of well-typed operations on new objects. -/
structure Reached (T : IntTy) (cap : Option Nat) (ops : List Op) (s : St) : Prop where
  valid : T.Valid
  typed : ∀ op ∈ ops, op.Typed T
  run : ∃ fn, run T ops (St.new (newReg cap) fn) = .ok s

theorem zero_in {T : IntTy} (hT : T.Valid) : T.In 0 := by
  obtain ⟨sg, b⟩ := T
  simp only [IntTy.Valid] at hT
  rcases hT with rfl | rfl | rfl | rfl <;> cases sg <;> decide

theorem Reached.inv {T : IntTy} {cap : Option Nat} {ops : List Op} {s : St} (h : Reached T cap ops s)
    (hd : RemovalsOk cap ops) : Holds cap s.reg (registered cap ops) ∧ T.In s.value := by
  obtain ⟨fn, hr⟩ := h.run
  exact run_inv_from h.valid ops (holds_new cap) (zero_in h.valid) h.typed hd hr

/-! ### C43 -/

/-- **C43, for the fixed-capacity object after every history, and for the dynamic one after histories
in which no registered observer was removed.**  After `a = v` the value is `v`, the operator returns
`v`, every registered observed holds `v`, the others are unchanged, and the `on_update` functions that
ran are exactly those of the registered observed, each once, in order, with `v`. -/
theorem C43_assign_partial {T : IntTy} {cap : Option Nat} {ops : List Op} {s : St}
    (h : Reached T cap ops s) (hd : RemovalsOk cap ops) (v : Int) (hv : T.In v) :
    ∃ s', exec T s (.assign v) = .ok (s', .val v) ∧ s'.value = v ∧
      (∀ o ∈ registered cap ops, s'.held o = v) ∧
      (∀ o, o ∉ registered cap ops → s'.held o = s.held o) ∧
      (registered cap ops).Nodup ∧
      s'.log = s.log ++ ((registered cap ops).filter s.fn).map (fun o => (o, v)) := by
  obtain ⟨h1, -⟩ := h.inv hd
  have he := update_eq h.valid h1 (op := .assign v) trivial hv
  simp only [sent, Res.ok_bind] at he
  obtain ⟨k1, k2, k3, k4, k5⟩ := deliver_all v (registered cap ops)
    { s with value := T.wrap (exact s.value (.assign v)) }
  refine ⟨_, he, ?_, ?_, ?_, h1.1, k5⟩
  · rw [k1]
    exact IntTy.wrap_of_in h.valid hv
  · intro o ho
    rw [k4, if_pos ho]
  · intro o ho
    rw [k4, if_neg ho]

/-- What the calls of `on_update` in a history set for `o`, in order. -/
def settings (o : Nat) (ops : List Op) : List Bool :=
  ops.filterMap fun op => match op with
    | .onUpdate p b => if p = o then some b else none
    | _ => none

theorem notifyArr_fn (v : Int) (arr : List (Option Nat)) : ∀ (n i : Nat) (s s' : St),
    notifyArr v arr n i s = .ok s' → s'.fn = s.fn
  | 0, _, _, _, h => by simp only [notifyArr] at h; cases h; rfl
  | n + 1, i, s, s', h => by
    rw [notifyArr] at h
    split at h
    · exact (notifyArr_fn v arr n (i + 1) (deliver v s _) s' h).trans rfl
    · cases h

theorem notify_fn {s s' : St} {v : Int} (h : notify s v = .ok s') : s'.fn = s.fn := by
  cases hr : s.reg with
  | fixed arr count =>
    simp only [notify, hr] at h
    split at h
    · cases h; rfl
    · exact notifyArr_fn v arr _ _ _ _ h
  | dyn vec =>
    simp only [notify, hr] at h
    cases h
    clear hr
    induction vec generalizing s with
    | nil => rfl
    | cons o vec ih => exact ih (s := deliver v s o)

theorem exec_fn {T : IntTy} {s s' : St} {op : Op} {r : Ret} (h : exec T s op = .ok (s', r)) (o : Nat) :
    s'.fn o = (settings o [op]).getLast?.getD (s.fn o) := by
  have hval : ∀ (s0 : St) (v w : Int), s0.fn = s.fn →
      valOf (do let s ← notify s0 v; Res.ok (s, w)) = .ok (s', r) → s'.fn = s.fn := by
    intro s0 v w h0 hx
    cases hn : notify s0 v with
    | ok s1 =>
      rw [hn, Res.ok_bind, valOf, Res.ok_bind] at hx
      cases hx
      exact (notify_fn hn).trans h0
    | ub => rw [hn, Res.ub_bind, valOf, Res.ub_bind] at hx; cases hx
    | hang => rw [hn, Res.hang_bind, valOf, Res.hang_bind] at hx; cases hx
  have harith : ∀ (s0 : St) (e : IntTy) (x : Int) (f : Int → Int), s0.fn = s.fn →
      valOf (do let ret ← e.arith x; let s ← notify s0 (f ret); Res.ok (s, f ret)) = .ok (s', r) →
      s'.fn = s.fn := by
    intro s0 e x f h0 hx
    cases ha : e.arith x with
    | ok y => rw [ha, Res.ok_bind] at hx; exact hval s0 _ _ h0 hx
    | ub => rw [ha, Res.ub_bind, valOf, Res.ub_bind] at hx; cases hx
    | hang => rw [ha, Res.hang_bind, valOf, Res.hang_bind] at hx; cases hx
  cases op with
  | assign v => exact congrFun (hval { s with value := v } v v rfl h) o
  | addEq n => exact congrFun (harith { s with value := T.wrap (s.value + T.wrap n) } T.common (s.value + T.common.wrap n) T.wrap rfl h) o
  | subEq n => exact congrFun (harith { s with value := T.wrap (s.value - T.wrap n) } T.common (s.value - T.common.wrap n) T.wrap rfl h) o
  | preInc => exact congrFun (harith { s with value := T.wrap (s.value + 1) } T.common (s.value + 1) T.wrap rfl h) o
  | preDec => exact congrFun (harith { s with value := T.wrap (s.value - 1) } T.common (s.value + 1) T.wrap rfl h) o
  | postInc => exact congrFun (hval { s with value := T.wrap (s.value + 1) } s.value s.value rfl h) o
  | postDec => exact congrFun (hval { s with value := T.wrap (s.value - 1) } s.value s.value rfl h) o
  | add p =>
    simp only [exec, add] at h
    cases hr : s.reg with
    | fixed arr count =>
      simp only [hr] at h
      split at h
      · cases h; rfl
      · cases hc : containsArr p arr count 0 with
        | ok c => cases c <;> (simp [hc, errOf] at h; rw [← h.1]; rfl)
        | ub => simp [hc, errOf] at h
        | hang => simp [hc, errOf] at h
    | dyn vec =>
      simp only [hr] at h
      split at h <;> (cases h; rfl)
  | remove p =>
    simp only [exec, remove] at h
    cases hr : s.reg with
    | fixed arr count =>
      simp only [hr] at h
      (repeat' split at h) <;> (cases h; rfl)
    | dyn vec =>
      simp only [hr] at h
      (repeat' split at h) <;> (cases h; rfl)
  | clear =>
    simp only [exec, clear] at h
    cases hr : s.reg with
    | fixed arr count =>
      simp only [hr] at h
      cases hc : clearArr arr count 0 with
      | ok c => simp [hc] at h; rw [← h.1]; rfl
      | ub => simp [hc] at h
      | hang => simp [hc] at h
    | dyn vec =>
      simp only [hr] at h
      cases h
      rfl
  | onUpdate p b =>
    simp only [exec] at h
    cases h
    by_cases hp : o = p
    · simp [onUpdate, settings, hp]
    · simp [onUpdate, settings, hp, Ne.symm hp]

/-- **C43: which function is run.**  Whether an observed object has an `on_update` function is decided
by the last call of `on_update` on that object, or by its constructor if there was none; nothing else
changes it. -/
theorem C43_functions {T : IntTy} (ops : List Op) (reg : Reg) (fn : Nat → Bool) (s : St)
    (h : run T ops (St.new reg fn) = .ok s) (o : Nat) :
    s.fn o = (settings o ops).getLast?.getD (fn o) := by
  have key : ∀ (ops : List Op) (s0 : St), run T ops s0 = .ok s →
      s.fn o = (settings o ops).getLast?.getD (s0.fn o) := by
    intro ops
    induction ops with
    | nil => intro s0 h; simp only [run] at h; cases h; rfl
    | cons op ops ih =>
      intro s0 h
      simp only [run] at h
      cases he : exec T s0 op with
      | ok p =>
        obtain ⟨s1, r⟩ := p
        rw [he, Res.ok_bind] at h
        rw [ih s1 h, exec_fn he o]
        have : settings o (op :: ops) = settings o [op] ++ settings o ops := by
          rw [settings, settings, settings, ← List.filterMap_append]; rfl
        rw [this, List.getLast?_append]
        cases (settings o ops).getLast? <;> simp
      | ub => rw [he, Res.ub_bind] at h; cases h
      | hang => rw [he, Res.hang_bind] at h; cases h
  exact key ops _ h

/-- Object 3 gets a function, object 2 loses the one it was constructed with. -/
example : ∃ s, run .int [.onUpdate 3 true, .add 1, .onUpdate 2 false, .add 3, .assign 4]
    (St.new (newReg (some 4)) fun o => o == 2) = .ok s ∧ s.fn 3 = true ∧ s.fn 2 = false ∧
    s.fn 1 = false ∧ s.log = [(3, 4)] :=
  ⟨_, rfl, by decide +kernel, by decide +kernel, by decide +kernel, by decide +kernel⟩

/-- A history and the state it leads to, for the examples. -/
def demo : List Op := [.add 1, .add 2, .remove 1, .add 3, .onUpdate 3 true, .assign 5, .subEq 7]

/-- Example: capacity 4, `int`. -/
example : ∃ s, Reached .int (some 4) demo s ∧ RemovalsOk (some 4) demo ∧
    registered (some 4) demo = [2, 3] ∧ s.value = -2 ∧ s.log = [(3, 5), (3, -2)] :=
  ⟨_, ⟨.inr (.inr (.inl rfl)), by
      intro op hop
      simp only [demo, List.mem_cons, List.not_mem_nil, or_false] at hop
      rcases hop with rfl | rfl | rfl | rfl | rfl | rfl | rfl <;> first | trivial | decide,
    fun _ => false, rfl⟩, fun h => absurd h (by decide), by decide +kernel, by decide +kernel, by decide +kernel⟩

/-- **C43 is false for the dynamic object in general**: three observers subscribe, the first one is
removed, and the next assignment runs the function of the third twice. -/
theorem C43_dynamic_refuted : ∃ s s', Reached .int none [.add 1, .add 2, .add 3, .remove 1] s ∧
    registered none [.add 1, .add 2, .add 3, .remove 1] = [2, 3] ∧ (∀ o, s.fn o = true) ∧
    exec .int s (.assign 5) = .ok (s', .val 5) ∧ s'.log = s.log ++ [(2, 5), (3, 5), (3, 5)] :=
  ⟨_, _, ⟨.inr (.inr (.inl rfl)), by
      intro op hop
      simp only [List.mem_cons, List.not_mem_nil, or_false] at hop
      rcases hop with rfl | rfl | rfl | rfl <;> trivial,
    fun _ => true, rfl⟩, by decide +kernel, fun _ => rfl, rfl, rfl⟩

/-! ### C44 -/

theorem sent_exact {T : IntTy} (hT : T.Valid) {old : Int} {op : Op} (ht : op.Typed T)
    (hop : (∃ v, op = .assign v) ∨ (∃ n, op = .addEq n) ∨ (∃ n, op = .subEq n) ∨ op = .preInc)
    (hin : T.In (exact old op)) : sent T old op = .ok (exact old op) := by
  have key : ∀ x y : Int, T.In y → T.common.In y ∧ (T.common.signed = true → x = y) →
      T.wrap x = T.wrap y → (do let r ← T.common.arith x; Res.ok (T.wrap r)) = Res.ok y := by
    intro x y hy hc hw
    have hw' : T.wrap x = y := hw.trans (IntTy.wrap_of_in hT hy)
    cases ha : T.common.arith x with
    | ok r => rw [Res.ok_bind, IntTy.arith_wrap hT ha, hw']
    | ub =>
      unfold IntTy.arith at ha
      split at ha
      · rename_i hs
        rw [hc.2 hs, if_pos hc.1] at ha
        cases ha
      · cases ha
    | hang => exact absurd ha (IntTy.arith_ne_hang _ _)
  have hcin : ∀ y, T.In y → T.common.In y := by
    intro y hy
    obtain ⟨sg, b⟩ := T
    simp only [IntTy.Valid] at hT
    rcases hT with rfl | rfl | rfl | rfl <;> cases sg <;>
      simp [IntTy.In, IntTy.lo, IntTy.hi, IntTy.common, IntTy.int] at hy ⊢ <;> omega
  have hcw : ∀ n, IntTy.int.In n → T.common.signed = true → T.common.wrap n = n := by
    intro n hn
    obtain ⟨sg, b⟩ := T
    simp only [IntTy.Valid] at hT
    rcases hT with rfl | rfl | rfl | rfl <;> cases sg <;>
      simp [IntTy.In, IntTy.lo, IntTy.hi, IntTy.common, IntTy.int, IntTy.wrap, Int.bmod] at hn ⊢ <;> omega
  rcases hop with ⟨v, rfl⟩ | ⟨n, rfl⟩ | ⟨n, rfl⟩ | rfl
  · rfl
  · exact key _ _ hin ⟨hcin _ hin, fun hs => by rw [hcw n ht hs]; rfl⟩ (int_common_wrap hT old n).1
  · exact key _ _ hin ⟨hcin _ hin, fun hs => by rw [hcw n ht hs]; rfl⟩ (int_common_wrap hT old n).2
  · exact key _ _ hin ⟨hcin _ hin, fun _ => rfl⟩ rfl

/-- **C44 for `=`, `+=`, `-=` and prefix `++`**, for every integral type: if the mathematical result is
a value of the type, the operator is free of undefined behaviour, `value()` and the returned value are
that result, and every registered observed holds it and ran its function once with it. -/
theorem C44_track_partial {T : IntTy} {cap : Option Nat} {ops : List Op} {s : St}
    (h : Reached T cap ops s) (hd : RemovalsOk cap ops) (op : Op) (ht : op.Typed T)
    (hop : (∃ v, op = .assign v) ∨ (∃ n, op = .addEq n) ∨ (∃ n, op = .subEq n) ∨ op = .preInc)
    (hin : T.In (exact s.value op)) :
    ∃ s', exec T s op = .ok (s', .val (exact s.value op)) ∧ s'.value = exact s.value op ∧
      (∀ o ∈ registered cap ops, s'.held o = s'.value) ∧
      s'.log = s.log ++ ((registered cap ops).filter s.fn).map (fun o => (o, s'.value)) := by
  obtain ⟨h1, -⟩ := h.inv hd
  have hu : op.IsUpdate := by
    rcases hop with ⟨v, rfl⟩ | ⟨n, rfl⟩ | ⟨n, rfl⟩ | rfl <;> trivial
  have he := update_eq h.valid h1 hu ht
  rw [sent_exact h.valid ht hop hin, Res.ok_bind] at he
  obtain ⟨k1, k2, k3, k4, k5⟩ := deliver_all (exact s.value op) (registered cap ops)
    { s with value := T.wrap (exact s.value op) }
  have hval : (List.foldl (deliver (exact s.value op)) { s with value := T.wrap (exact s.value op) }
      (registered cap ops)).value = exact s.value op := by
    rw [k1]
    exact IntTy.wrap_of_in h.valid hin
  refine ⟨_, he, hval, ?_, ?_⟩
  · intro o ho
    rw [k4, if_pos ho, hval]
  · rw [hval]
    exact k5

/-- What the other three operators do, for every integral type: the value is updated as it should be,
but postfix `++` and `--` leave the registered observers at the old value, and prefix `--` returns and
sends the old value plus one. -/
theorem C44_others {T : IntTy} {cap : Option Nat} {ops : List Op} {s : St}
    (h : Reached T cap ops s) (hd : RemovalsOk cap ops) :
    (∃ s', exec T s .postInc = .ok (s', .val s.value) ∧ s'.value = T.wrap (s.value + 1) ∧
      ∀ o ∈ registered cap ops, s'.held o = s.value) ∧
    (∃ s', exec T s .postDec = .ok (s', .val s.value) ∧ s'.value = T.wrap (s.value - 1) ∧
      ∀ o ∈ registered cap ops, s'.held o = s.value) ∧
    (T.In (s.value + 1) → ∃ s', exec T s .preDec = .ok (s', .val (s.value + 1)) ∧
      s'.value = T.wrap (s.value - 1) ∧ ∀ o ∈ registered cap ops, s'.held o = s.value + 1) := by
  obtain ⟨h1, -⟩ := h.inv hd
  refine ⟨?_, ?_, ?_⟩
  · have he := update_eq h.valid h1 (op := .postInc) trivial trivial
    simp only [sent, Res.ok_bind] at he
    obtain ⟨k1, k2, k3, k4, k5⟩ := deliver_all s.value (registered cap ops)
      { s with value := T.wrap (exact s.value .postInc) }
    exact ⟨_, he, k1, fun o ho => by rw [k4, if_pos ho]⟩
  · have he := update_eq h.valid h1 (op := .postDec) trivial trivial
    simp only [sent, Res.ok_bind] at he
    obtain ⟨k1, k2, k3, k4, k5⟩ := deliver_all s.value (registered cap ops)
      { s with value := T.wrap (exact s.value .postDec) }
    exact ⟨_, he, k1, fun o ho => by rw [k4, if_pos ho]⟩
  · intro hin
    have he := update_eq h.valid h1 (op := .preDec) trivial trivial
    have hs : sent T s.value .preDec = .ok (s.value + 1) :=
      sent_exact h.valid (op := .preInc) trivial (.inr (.inr (.inr rfl))) hin
    rw [hs, Res.ok_bind] at he
    obtain ⟨k1, k2, k3, k4, k5⟩ := deliver_all (s.value + 1) (registered cap ops)
      { s with value := T.wrap (exact s.value .preDec) }
    exact ⟨_, he, k1, fun o ho => by rw [k4, if_pos ho]⟩

/-- **C44 is false for postfix `++`, postfix `--` and prefix `--`**: on a new object with one observer,
the observer ends up different from `value()`; and prefix `--` returns 1 instead of -1. -/
theorem C44_refuted :
    (∀ op ∈ [Op.postInc, Op.postDec, Op.preDec], ∃ s s' r, Reached .int (some 1) [.add 1] s ∧
      exec .int s op = .ok (s', r) ∧ s'.held 1 ≠ s'.value) ∧
    (∃ s s', Reached .int (some 1) [.add 1] s ∧ exec .int s .preDec = .ok (s', .val 1) ∧
      s.value = 0 ∧ s'.value = -1) := by
  have hr : ∀ s, run .int [.add 1] (St.new (newReg (some 1)) fun _ => false) = .ok s →
      Reached .int (some 1) [.add 1] s := by
    intro s h
    refine ⟨.inr (.inr (.inl rfl)), ?_, fun _ => false, h⟩
    intro op hop
    simp only [List.mem_cons, List.not_mem_nil, or_false] at hop
    subst hop
    trivial
  refine ⟨?_, _, _, hr _ rfl, rfl, rfl, by decide +kernel⟩
  intro op hop
  simp only [List.mem_cons, List.not_mem_nil, or_false] at hop
  rcases hop with rfl | rfl | rfl
  · exact ⟨_, _, _, hr _ rfl, rfl, by decide +kernel⟩
  · exact ⟨_, _, _, hr _ rfl, rfl, by decide +kernel⟩
  · exact ⟨_, _, _, hr _ rfl, rfl, by decide +kernel⟩

/-! ### C45 -/

/-- The mathematical value an operator computes in a plain expression after the atomic operation, if it
does. -/
def computed (old : Int) : Op → Option Int
  | .addEq n => some (old + n)
  | .subEq n => some (old - n)
  | .preInc => some (old + 1)
  | .preDec => some (old + 1)
  | _ => none

/-- **C45, exactly when the operators are undefined.**  For a signed type of 32 bits or more the update
operators have undefined behaviour exactly when the sum or difference they compute outside of the
atomic operation leaves the type (for prefix `--` this is the old value *plus* one); for unsigned types
never; for narrower types exactly when it leaves `int`.  They never hang. -/
theorem C45_undefined_iff_partial {T : IntTy} {cap : Option Nat} {ops : List Op} {s : St}
    (h : Reached T cap ops s) (hd : RemovalsOk cap ops) (op : Op) (hu : op.IsUpdate) (ht : op.Typed T) :
    (exec T s op = .ub ↔ ∃ x, computed s.value op = some x ∧
      (T.signed = true ∧ 32 ≤ T.bits ∧ ¬ T.In x ∨ T.bits < 32 ∧ ¬ IntTy.int.In x)) ∧
    exec T s op ≠ .hang := by
  obtain ⟨h1, hv⟩ := h.inv hd
  have hT := h.valid
  have he := update_eq h.valid h1 hu ht
  have bind_ub : ∀ (x : Res Int) (f : Int → St × Ret), (do let v ← x; Res.ok (f v)) = .ub ↔ x = .ub := by
    intro x f
    cases x <;> simp [Res.ok_bind, Res.ub_bind, Res.hang_bind]
  have bind_hang : ∀ (x : Res Int) (f : Int → St × Ret),
      (do let v ← x; Res.ok (f v)) = .hang ↔ x = .hang := by
    intro x f
    cases x <;> simp [Res.ok_bind, Res.ub_bind, Res.hang_bind]
  have bind_ub' : ∀ (x : Res Int) (f : Int → Int), (do let v ← x; Res.ok (f v)) = .ub ↔ x = .ub := by
    intro x f
    cases x <;> simp [Res.ok_bind, Res.ub_bind, Res.hang_bind]
  have bind_hang' : ∀ (x : Res Int) (f : Int → Int),
      (do let v ← x; Res.ok (f v)) = .hang ↔ x = .hang := by
    intro x f
    cases x <;> simp [Res.ok_bind, Res.ub_bind, Res.hang_bind]
  have hcw : ∀ n, IntTy.int.In n → T.common.signed = true → T.common.wrap n = n := by
    intro n hn
    obtain ⟨sg, b⟩ := T
    simp only [IntTy.Valid] at hT
    rcases hT with rfl | rfl | rfl | rfl <;> cases sg <;>
      simp [IntTy.In, IntTy.lo, IntTy.hi, IntTy.common, IntTy.int, IntTy.wrap, Int.bmod] at hn ⊢ <;> omega
  have hub : ∀ x y : Int, (T.common.signed = true → x = y) →
      (T.common.arith x = .ub ↔ T.common.arith y = .ub) := by
    intro x y hxy
    by_cases hs : T.common.signed = true
    · rw [hxy hs]
    · simp only [IntTy.arith, if_neg hs, reduceCtorEq]
  rw [he, ne_eq, bind_ub, bind_hang]
  cases op with
  | assign v => simp [sent, computed]
  | addEq n =>
    simp only [sent, bind_ub', bind_hang', computed, Option.some.injEq, exists_eq_left']
    rw [hub _ (s.value + n) (fun hs => by rw [hcw n ht hs]), IntTy.arith_ub]
    exact ⟨Iff.rfl, IntTy.arith_ne_hang _ _⟩
  | subEq n =>
    simp only [sent, bind_ub', bind_hang', computed, Option.some.injEq, exists_eq_left']
    rw [hub _ (s.value - n) (fun hs => by rw [hcw n ht hs]), IntTy.arith_ub]
    exact ⟨Iff.rfl, IntTy.arith_ne_hang _ _⟩
  | preInc =>
    simp only [sent, bind_ub', bind_hang', computed, Option.some.injEq, exists_eq_left']
    rw [IntTy.arith_ub]
    exact ⟨Iff.rfl, IntTy.arith_ne_hang _ _⟩
  | preDec =>
    simp only [sent, bind_ub', bind_hang', computed, Option.some.injEq, exists_eq_left']
    rw [IntTy.arith_ub]
    exact ⟨Iff.rfl, IntTy.arith_ne_hang _ _⟩
  | postInc => simp [sent, computed]
  | postDec => simp [sent, computed]
  | add o => exact hu.elim
  | remove o => exact hu.elim
  | clear => exact hu.elim
  | onUpdate o b => exact hu.elim

/-- **C45 is false**: `++`, `+=`, `-=` and, surprisingly, `--` are undefined on `INT_MAX` — although
the atomic operation itself wraps around, and for `--` nothing overflows mathematically. -/
theorem C45_refuted : ∃ s, Reached .int (some 1) [.assign 2147483647] s ∧
    exec .int s .preInc = .ub ∧ exec .int s (.addEq 1) = .ub ∧ exec .int s (.subEq (-1)) = .ub ∧
    exec .int s .preDec = .ub := by
  refine ⟨_, ⟨.inr (.inr (.inl rfl)), ?_, fun _ => false, rfl⟩, rfl, rfl, rfl, rfl⟩
  intro op hop
  simp only [List.mem_cons, List.not_mem_nil, or_false] at hop
  subst hop
  exact (by decide : IntTy.int.In 2147483647)

/-! ### C46 -/

theorem not_registered_stays {m o : Nat} (ops : List Op) {l : List Nat} (hl : o ∉ l)
    (hno : Op.add o ∉ ops) : o ∉ ops.foldl (next (some m)) l := by
  induction ops generalizing l with
  | nil => exact hl
  | cons op ops ih =>
    simp only [List.mem_cons, not_or] at hno
    refine ih ?_ hno.2
    cases op with
    | add p =>
      have : o ≠ p := fun h => hno.1 (by rw [h])
      simp only [next]
      split
      · exact hl
      · simp [hl, this]
    | remove p => simp [next, hl]
    | clear => simp [next]
    | assign v => exact hl
    | addEq n => exact hl
    | subEq n => exact hl
    | preInc => exact hl
    | preDec => exact hl
    | postInc => exact hl
    | postDec => exact hl
    | onUpdate p b => exact hl

theorem untouched {T : IntTy} (hT : T.Valid) {m o : Nat} (ops : List Op) {s s' : St} {l : List Nat}
    (h : Holds (some m) s.reg l) (hv : T.In s.value) (ht : ∀ op ∈ ops, op.Typed T) (hl : o ∉ l)
    (hno : Op.add o ∉ ops) (hr : run T ops s = .ok s') :
    s'.held o = s.held o ∧ ∃ new, s'.log = s.log ++ new ∧ ∀ e ∈ new, e.1 ≠ o := by
  induction ops generalizing s l with
  | nil => simp only [run] at hr; cases hr; exact ⟨rfl, [], by simp, by simp⟩
  | cons op ops ih =>
    simp only [run] at hr
    cases he : exec T s op with
    | ok p =>
      obtain ⟨s1, r⟩ := p
      rw [he, Res.ok_bind] at hr
      have hx := exec_inv hT h hv (ht op (by simp)) (fun hc => absurd hc (by simp)) he
      have hl' : o ∉ next (some m) l op :=
        not_registered_stays [op] hl (by simp only [List.mem_cons, not_or] at hno; simp [hno.1])
      obtain ⟨k1, new, k2, k3⟩ := ih hx.1 hx.2.1 (fun op' hop' => ht op' (by simp [hop'])) hl'
        (by simp only [List.mem_cons, not_or] at hno; exact hno.2) hr
      have hstep : s1.held o = s.held o ∧ ∃ new, s1.log = s.log ++ new ∧ ∀ e ∈ new, e.1 ≠ o := by
        rcases hx.2.2 with hu | ⟨-, hh, hlog⟩
        · rw [update_eq hT h hu (ht op (by simp))] at he
          cases hs : sent T s.value op with
          | ok v =>
            rw [hs, Res.ok_bind] at he
            cases he
            obtain ⟨_, _, _, j4, j5⟩ := deliver_all v l { s with value := T.wrap (exact s.value op) }
            refine ⟨by rw [j4, if_neg hl], _, j5, ?_⟩
            intro e he'
            simp only [List.mem_map, List.mem_filter] at he'
            obtain ⟨p, ⟨hp, _⟩, rfl⟩ := he'
            rintro rfl
            exact hl hp
          | ub => rw [hs, Res.ub_bind] at he; cases he
          | hang => rw [hs, Res.hang_bind] at he; cases he
        · exact ⟨by rw [hh], [], by simp [hlog], by simp⟩
      obtain ⟨j1, new0, j2, j3⟩ := hstep
      refine ⟨k1.trans j1, new0 ++ new, by rw [k2, j2, List.append_assoc], ?_⟩
      intro e he'
      rcases List.mem_append.1 he' with h' | h'
      · exact j3 e h'
      · exact k3 e h'
    | ub => rw [he, Res.ub_bind] at hr; cases hr
    | hang => rw [he, Res.hang_bind] at hr; cases hr

/-- **C46.** On the fixed-capacity object: after `remove_observer(o)` (which returns `ok` exactly when
`o` was registered), whatever operations follow, as long as they do not add `o` again, the value of `o`
stays what it was and its function does not run; and each update of these operations runs the function
of every other registered observer that has one exactly once, with the value that all of them then
hold. -/
theorem C46_stays_removed {T : IntTy} {m : Nat} {ops : List Op} {s : St} (h : Reached T (some m) ops s)
    (o : Nat) :
    ∃ s1, exec T s (.remove o) = .ok (s1, .err (if o ∈ registered (some m) ops then .ok else .notFound)) ∧
      ∀ later s2, (∀ op ∈ later, op.Typed T) → Op.add o ∉ later → run T later s1 = .ok s2 →
        s2.held o = s1.held o ∧ (∃ new, s2.log = s1.log ++ new ∧ ∀ e ∈ new, e.1 ≠ o) ∧
        ∀ op s3 r, op.IsUpdate → op.Typed T → exec T s2 op = .ok (s3, r) →
          let others := registered (some m) (ops ++ .remove o :: later)
          ∃ v, others.Nodup ∧ o ∉ others ∧ (∀ p ∈ others, s3.held p = v) ∧
            (∀ p, p ∉ others → s3.held p = s2.held p) ∧
            s3.log = s2.log ++ (others.filter s2.fn).map (fun p => (p, v)) := by
  have hT := h.valid
  obtain ⟨h1, hv⟩ := h.inv (fun hc => absurd hc (by simp))
  obtain ⟨reg', h2, h3⟩ := remove_spec_fixed h1 o
  have he : exec T s (.remove o) = .ok ({ s with reg := reg' },
      .err (if o ∈ registered (some m) ops then .ok else .notFound)) := by
    simp only [exec, errOf, h2, Res.ok_bind, result]
  refine ⟨_, he, ?_⟩
  intro later s2 ht hno hr
  have hnot : o ∉ next (some m) (registered (some m) ops) (.remove o) := by simp [next]
  obtain ⟨k1, k2⟩ := untouched hT later (o := o) (s := { s with reg := reg' }) h3 hv ht hnot hno hr
  refine ⟨k1, k2, ?_⟩
  intro op s3 r hu hto hex
  have hreg : registered (some m) (ops ++ .remove o :: later) =
      later.foldl (next (some m)) (next (some m) (registered (some m) ops) (.remove o)) := by
    simp [registered]
  obtain ⟨j1, j2⟩ := run_inv_from hT later (s := { s with reg := reg' }) h3 hv ht
    (fun hc => absurd hc (by simp)) hr
  rw [← hreg] at j1
  rw [update_eq hT j1 hu hto] at hex
  cases hs : sent T s2.value op with
  | ok v =>
    rw [hs, Res.ok_bind] at hex
    cases hex
    obtain ⟨_, _, _, i4, i5⟩ := deliver_all v (registered (some m) (ops ++ .remove o :: later))
      { s2 with value := T.wrap (exact s2.value op) }
    refine ⟨v, j1.1, ?_, fun p hp => by rw [i4, if_pos hp], fun p hp => by rw [i4, if_neg hp], i5⟩
    rw [hreg]
    exact not_registered_stays later hnot hno
  | ub => rw [hs, Res.ub_bind] at hex; cases hex
  | hang => rw [hs, Res.hang_bind] at hex; cases hex

/-- Example: 2 and 3 are registered after `demo`; 3 is removed and two updates follow. -/
example : ∃ s s1 s2, Reached .int (some 4) demo s ∧ exec .int s (.remove 3) = .ok (s1, .err .ok) ∧
    run .int [.assign 8, .preInc] s1 = .ok s2 ∧ s2.held 3 = -2 ∧ s2.held 2 = 9 ∧
    registered (some 4) (demo ++ .remove 3 :: [.assign 8, .preInc]) = [2] :=
  ⟨_, _, _, ⟨.inr (.inr (.inl rfl)), by
      intro op hop
      simp only [demo, List.mem_cons, List.not_mem_nil, or_false] at hop
      rcases hop with rfl | rfl | rfl | rfl | rfl | rfl | rfl <;> first | trivial | decide,
    fun _ => false, rfl⟩, rfl, rfl, by decide +kernel, by decide +kernel, by decide +kernel⟩

/-! ### C47 -/

/-- What `remove_observer` of the dynamic object does to its list when the observer is registered: it
reports success, but the list keeps its length and its last element. -/
theorem remove_dyn (s : St) (l : List Nat) (last o : Nat) (hn : (l ++ [last]).Nodup)
    (hreg : s.reg = .dyn (l ++ [last])) (ho : o ∈ l ++ [last]) :
    (o = last → Values.remove s o = .ok (s, .ok)) ∧
    (o ≠ last → Values.remove s o =
      .ok ({ s with reg := .dyn (l.filter (· != o) ++ [last, last]) }, .ok)) := by
  rw [List.nodup_append] at hn
  obtain ⟨hn1, -, hn2⟩ := hn
  have hne : (l ++ [last]).isEmpty = false := by simp
  have hfil : ∀ l : List Nat, l.filter (fun y => decide (y ≠ o)) = l.filter (· != o) := by
    intro l
    congr 1
    funext y
    by_cases h : y = o <;> simp [h]
  constructor
  · intro hl
    subst hl
    have hf : l.filter (· != o) = l := by
      apply filter_of_not_mem
      intro h
      exact hn2 o h o (by simp) rfl
    have hr : stdRemove o (l ++ [o]) = (l ++ [o], l.length) := by
      simp only [stdRemove, hfil, List.filter_append, hf]
      simp
    have hs : ({ s with reg := .dyn (l ++ [o]) } : St) = s := by
      cases s
      simp only at hreg
      rw [hreg]
    unfold remove
    rw [hreg]
    simp only [hne, Bool.false_eq_true, if_false, hr, hs]
    rw [if_pos (by simp)]
  · intro hl
    have hol : o ∈ l := by
      rcases List.mem_append.1 ho with h | h
      · exact h
      · simp at h; exact absurd h hl
    have hlen : (l.filter (· != o)).length + 1 = l.length := by
      clear hreg hn2 ho hne
      induction l with
      | nil => simp at hol
      | cons a l ih =>
        rw [List.nodup_cons] at hn1
        by_cases ha : a = o
        · subst ha
          simp [List.filter_cons, filter_of_not_mem hn1.1]
        · have : o ∈ l := by
            rcases List.mem_cons.1 hol with h | h
            · exact absurd h.symm ha
            · exact h
          have := ih hn1.2 this
          simp [List.filter_cons, ha, this]
    have hne' : ¬ last = o := fun h => hl h.symm
    have hr : stdRemove o (l ++ [last]) =
        (l.filter (· != o) ++ [last, last], (l.filter (· != o)).length + 1) := by
      simp only [stdRemove, hfil, List.filter_append]
      have h1 : [last].filter (· != o) = [last] := by simp [hne']
      rw [h1]
      simp only [List.length_append, List.length_cons, List.length_nil, hlen]
      have h2 : (l ++ [last]).drop (l.length + 0) = [last] := by simp
      simp [h2]
    unfold remove
    rw [hreg]
    simp only [hne, Bool.false_eq_true, if_false, hr]
    rw [if_pos (by simp; omega)]

/-- **The part of C47 that holds, and what happens otherwise.**  On a dynamic object from which no
registered observer was removed before, let `l ++ [last]` be registered and remove one of them; it
returns `ok`.  If it is not the last one, the next assignment leaves it alone, but the last one is
updated twice.  If it is the last one, nothing has changed at all and it is still updated. -/
theorem C47_removal_partial {T : IntTy} {ops : List Op} {s : St} (h : Reached T none ops s)
    (hd : RemovalsOk none ops) (l : List Nat) (last : Nat) (hl : registered none ops = l ++ [last])
    (o : Nat) (ho : o ∈ l ++ [last]) (v : Int) (hv : T.In v) :
    ∃ s1 s2, exec T s (.remove o) = .ok (s1, .err .ok) ∧ exec T s1 (.assign v) = .ok (s2, .val v) ∧
      (o ≠ last → s2.held o = s1.held o ∧
        s2.log = s1.log ++ ((l.filter (· != o) ++ [last, last]).filter s.fn).map (fun p => (p, v))) ∧
      (o = last → s2.held o = v ∧
        s2.log = s1.log ++ ((l ++ [last]).filter s.fn).map (fun p => (p, v))) := by
  obtain ⟨h1, -⟩ := h.inv hd
  rw [hl] at h1
  have hreg : s.reg = .dyn (l ++ [last]) := by
    have := h1.2
    cases hr : s.reg with
    | fixed arr c => rw [hr] at this; exact this.elim
    | dyn vec => rw [hr] at this; simp only at this; rw [this]
  obtain ⟨r1, r2⟩ := remove_dyn s l last o h1.1 hreg ho
  have hA : ∀ (s1 : St) (vec : List Nat), s1.reg = .dyn vec →
      exec T s1 (.assign v) = .ok (vec.foldl (deliver v) { s1 with value := v }, .val v) := by
    intro s1 vec hvec
    simp only [exec, valOf, assign, notify, hvec, notifyVec_eq, Res.ok_bind]
  by_cases hol : o = last
  · obtain ⟨_, _, _, k4, k5⟩ := deliver_all v (l ++ [last]) { s with value := v }
    refine ⟨s, _, by simp only [exec, errOf, r1 hol, Res.ok_bind], hA s _ hreg,
      fun hne => absurd hol hne, fun _ => ⟨by rw [k4, if_pos ho], k5⟩⟩
  · obtain ⟨_, _, _, k4, k5⟩ := deliver_all v (l.filter (· != o) ++ [last, last])
      { s with reg := .dyn (l.filter (· != o) ++ [last, last]), value := v }
    refine ⟨{ s with reg := .dyn (l.filter (· != o) ++ [last, last]) }, _,
      by simp only [exec, errOf, r2 hol, Res.ok_bind], hA _ _ rfl,
      fun _ => ⟨?_, k5⟩, fun he => absurd he hol⟩
    rw [k4, if_neg (by simp [hol])]

example : ∃ s, Reached .int none [.add 1, .add 2, .remove 7, .add 3] s ∧
    RemovalsOk none [.add 1, .add 2, .remove 7, .add 3] ∧
    registered none [.add 1, .add 2, .remove 7, .add 3] = [1, 2] ++ [3] := by
  refine ⟨_, ⟨.inr (.inr (.inl rfl)), ?_, fun _ => true, rfl⟩, ?_, by decide +kernel⟩
  · intro op hop
    simp only [List.mem_cons, List.not_mem_nil, or_false] at hop
    rcases hop with rfl | rfl | rfl | rfl <;> trivial
  · intro _ pre o post hp
    match pre, hp with
    | [], hp => simp at hp
    | [_], hp => simp at hp
    | [a, b], hp =>
      simp only [List.cons_append, List.nil_append, List.cons.injEq, Op.remove.injEq] at hp
      obtain ⟨rfl, rfl, rfl, -⟩ := hp
      decide +kernel
    | [_, _, _], hp => simp at hp
    | _ :: _ :: _ :: _ :: _, hp => simp at hp

/-- **C47 is false**: `remove_observer` of the only observer returns `ok`, and the next assignment
still changes that observer and runs its function; removing the first of three makes the third receive
each update twice. -/
theorem C47_refuted :
    (∃ s s1 s2, Reached .int none [.add 1] s ∧ exec .int s (.remove 1) = .ok (s1, .err .ok) ∧
      exec .int s1 (.assign 5) = .ok (s2, .val 5) ∧ s1.held 1 = 0 ∧ s2.held 1 = 5 ∧
      s2.log = s1.log ++ [(1, 5)]) ∧
    (∃ s s1 s2, Reached .int none [.add 1, .add 2, .add 3] s ∧
      exec .int s (.remove 1) = .ok (s1, .err .ok) ∧ exec .int s1 (.assign 5) = .ok (s2, .val 5) ∧
      s2.log = s1.log ++ [(2, 5), (3, 5), (3, 5)]) := by
  refine ⟨⟨_, _, _, ⟨.inr (.inr (.inl rfl)), ?_, fun _ => true, rfl⟩, rfl, rfl, by decide +kernel,
    by decide +kernel, rfl⟩, ⟨_, _, _, ⟨.inr (.inr (.inl rfl)), ?_, fun _ => true, rfl⟩, rfl, rfl, rfl⟩⟩
  · intro op hop
    simp only [List.mem_cons, List.not_mem_nil, or_false] at hop
    subst hop
    trivial
  · intro op hop
    simp only [List.mem_cons, List.not_mem_nil, or_false] at hop
    rcases hop with rfl | rfl | rfl <;> trivial

end Verif.Values
