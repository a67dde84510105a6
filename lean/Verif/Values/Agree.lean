import Verif.Values.Races
/-!
The models of `values::observable` agree: an update that one thread makes step by step, as in `Races`, with nobody else taking
steps and functions that do not call back, does what the update does as a whole in `Model`.
-/
namespace Verif.Values.HB
open Verif Verif.HB Verif.Values

/-- The pointers in the list. -/
def places : Reg → List (Option Nat)
  | .fixed arr _ => arr
  | .dyn vec => vec.map some

/-- The steps of `notify_observers` by thread `t` (values/observable.hpp:230-239, 472-479). -/
def notifies (t : Nat) : Lbl → Prop
  | .enter u | .deliver u _ | .back u | .leave u => u = t
  | _ => False

/-- Steps of `notify_observers` by thread `t`, one after the other. -/
inductive Solo (T : IntTy) (t : Nat) : State → State → Prop
  | refl (m : State) : Solo T t m m
  | step (m m' m'' : State) (l : Lbl) : notifies t l → HB.step T m l = some m' → Solo T t m' m'' → Solo T t m m''

/-- What is left to do for the innermost update of a thread. -/
def rest (st : St) : List Frame → Res St
  | [⟨v, .enter⟩] => notify st v
  | [⟨v, .loop i n⟩] => notifyArr v (places st.reg) (n - i) i st
  | [⟨v, .call i n⟩] => notifyArr v (places st.reg) (n - (i + 1)) (i + 1) st
  | _ => .ok st

theorem notifyVec_arr (v : Int) (l pre : List Nat) (st : St) :
    notifyArr v ((pre ++ l).map some) l.length pre.length st = .ok (notifyVec v l st) := by
  induction l generalizing pre st with
  | nil => rfl
  | cons o l ih =>
    have h1 : ((pre ++ o :: l).map some)[pre.length]? = some (some o) := by simp
    rw [List.length_cons, notifyArr, h1, notifyVec]
    have := ih (pre ++ [o]) (deliver v st o)
    simpa using this

theorem notify_eq (st : St) (v : Int) : notify st v = notifyArr v (places st.reg) (size st.reg) 0 st := by
  unfold notify size places
  cases st.reg with
  | fixed arr count =>
    simp only
    split <;> rfl
  | dyn vec => exact (notifyVec_arr v vec [] st).symm

theorem slotAt_places (r : Reg) (i : Nat) : slotAt r i = (places r)[i]?.join := by
  cases r with
  | fixed arr count => rfl
  | dyn vec => simp [slotAt, places]; cases vec[i]? <;> rfl

/-- Each step leaves the rest of the work to be done. -/
theorem rest_step {T : IntTy} {t : Nat} {m m' : State} {l : Lbl} (hl : notifies t l) (h : HB.step T m l = some m')
    (hp : (m.pc t).length ≤ 1) : rest m'.st (m'.pc t) = rest m.st (m.pc t) ∧ (m'.pc t).length ≤ 1 := by
  unfold HB.step at h
  cases he : effect T m l with
  | none => rw [he] at h; cases h
  | some r =>
    rw [he] at h
    cases h
    cases l with
    | enter u =>
      cases hl
      simp only [effect] at he
      split at he
      · next v fs hpc =>
        rw [hpc] at hp ⊢
        cases he
        cases fs with
        | nil => simp [Lbl.who, rest, notify_eq]
        | cons => simp at hp
      · cases he
    | deliver u o =>
      cases hl
      simp only [effect] at he
      split at he
      · next v i n fs hpc =>
        rw [hpc] at hp ⊢
        split at he
        · next hc =>
          cases he
          cases fs with
          | cons => simp at hp
          | nil =>
            have h1 : n - i = (n - (i + 1)) + 1 := by omega
            have h2 : (places m.st.reg)[i]? = some (some o) := by
              have := hc.2
              rw [slotAt_places] at this
              cases hx : (places m.st.reg)[i]? with
              | none => rw [hx] at this; cases this
              | some p => rw [hx] at this; simpa using this
            simp only [Lbl.who, put_same, rest]
            rw [h1, notifyArr, h2]
            by_cases hf : m.st.fn o = true
            · simp only [if_pos hf]; exact ⟨rfl, by simp⟩
            · simp only [if_neg hf]; exact ⟨rfl, by simp⟩
        · cases he
      · cases he
    | back u =>
      cases hl
      simp only [effect] at he
      split at he
      · next v i n fs hpc =>
        rw [hpc] at hp ⊢
        cases he
        cases fs with
        | nil => simp [Lbl.who, rest]
        | cons => simp at hp
      · cases he
    | leave u =>
      cases hl
      simp only [effect] at he
      split at he
      · next v i n fs hpc =>
        rw [hpc] at hp ⊢
        split at he
        · cases he
        · next hc =>
          cases he
          cases fs with
          | nil =>
            have : n - i = 0 := by omega
            simp [Lbl.who, rest, this, notifyArr]
          | cons => simp at hp
      · cases he
    | _ => exact hl.elim

theorem exec_eq {T : IntTy} (hT : T.Valid) (s : St) {op : Values.Op} (hu : isUpdate op = true) (ht : op.Typed T) :
    exec T s op = (do
      let v ← sent T s.value op
      let s' ← notify { s with value := T.wrap (exact s.value op) } v
      .ok (s', .val v)) := by
  cases op with
  | assign v =>
    have hw : T.wrap v = v := IntTy.wrap_of_in hT ht
    simp only [exec, valOf, assign, sent, exact, Res.ok_bind, hw]
    cases notify { s with value := v } v <;> rfl
  | addEq n =>
    simp only [exec, valOf, addEq, sent, exact, IntTy.wrap_add_wrap hT]
    cases hr : T.common.arith (s.value + T.common.wrap n) with
    | ok r => simp only [Res.ok_bind]; cases notify { s with value := T.wrap (s.value + n) } (T.wrap r) <;> rfl
    | ub => simp only [Res.ub_bind]
    | hang => simp only [Res.hang_bind]
  | subEq n =>
    simp only [exec, valOf, subEq, sent, exact, IntTy.wrap_sub_wrap hT]
    cases hr : T.common.arith (s.value - T.common.wrap n) with
    | ok r => simp only [Res.ok_bind]; cases notify { s with value := T.wrap (s.value - n) } (T.wrap r) <;> rfl
    | ub => simp only [Res.ub_bind]
    | hang => simp only [Res.hang_bind]
  | preInc =>
    simp only [exec, valOf, preInc, sent, exact]
    cases hr : T.common.arith (s.value + 1) with
    | ok r => simp only [Res.ok_bind]; cases notify { s with value := T.wrap (s.value + 1) } (T.wrap r) <;> rfl
    | ub => simp only [Res.ub_bind]
    | hang => simp only [Res.hang_bind]
  | preDec =>
    simp only [exec, valOf, preDec, sent, exact]
    cases hr : T.common.arith (s.value + 1) with
    | ok r => simp only [Res.ok_bind]; cases notify { s with value := T.wrap (s.value - 1) } (T.wrap r) <;> rfl
    | ub => simp only [Res.ub_bind]
    | hang => simp only [Res.hang_bind]
  | postInc =>
    simp only [exec, valOf, postInc, sent, exact, Res.ok_bind]
    cases notify { s with value := T.wrap (s.value + 1) } s.value <;> rfl
  | postDec =>
    simp only [exec, valOf, postDec, sent, exact, Res.ok_bind]
    cases notify { s with value := T.wrap (s.value - 1) } s.value <;> rfl
  | _ => cases hu

/-- The first step of an update. -/
theorem begin_step {T : IntTy} {t : Nat} {m m1 : State} {op : Values.Op} (hb : HB.step T m (.begin t op) = some m1) :
    isUpdate op = true ∧ ∃ v, sent T m.st.value op = .ok v ∧ m1.st = { m.st with value := T.wrap (exact m.st.value op) } ∧
      m1.pc t = ⟨v, .enter⟩ :: m.pc t := by
  unfold HB.step at hb
  cases he : effect T m (.begin t op) with
  | none => rw [he] at hb; cases hb
  | some r =>
    rw [he] at hb
    cases hb
    simp only [effect] at he
    split at he
    · next hc =>
      simp only [Bool.and_eq_true] at hc
      split at he
      · next v hv =>
        cases he
        exact ⟨hc.2, v, hv, rfl, by simp [Lbl.who]⟩
      · cases he
    · cases he

/-- An update made step by step by a thread that was doing nothing, and that is done with it, is the update. -/
theorem solo_exec {T : IntTy} (hT : T.Valid) {t : Nat} {m m1 m2 : State} {op : Values.Op} (ht : op.Typed T)
    (hp : m.pc t = []) (hb : HB.step T m (.begin t op) = some m1) (hs : Solo T t m1 m2) (hd : m2.pc t = []) :
    ∃ ret, exec T m.st op = .ok (m2.st, ret) := by
  obtain ⟨hu, v, hv, h1, h2⟩ := begin_step hb
  have key : ∀ {a b : State}, Solo T t a b → (a.pc t).length ≤ 1 → rest b.st (b.pc t) = rest a.st (a.pc t) := by
    intro a b h
    induction h with
    | refl => intro _; rfl
    | step m m' m'' l hl hst _ ih =>
      intro hlen
      obtain ⟨h3, h4⟩ := rest_step hl hst hlen
      rw [ih h4, h3]
  have h3 := key hs (by rw [h2, hp]; simp)
  rw [hd, h2, hp, h1] at h3
  simp only [rest] at h3
  refine ⟨.val v, ?_⟩
  rw [exec_eq hT m.st hu ht, hv, Res.ok_bind, ← h3]
  rfl

/-- An update that is defined can be made step by step. -/
theorem exec_solo {T : IntTy} (hT : T.Valid) {t : Nat} {m : State} {op : Values.Op} (ht : op.Typed T)
    (hu : isUpdate op = true) (hp : m.pc t = []) {st' : St} {ret : Ret} (he : exec T m.st op = .ok (st', ret)) :
    ∃ m1 m2, HB.step T m (.begin t op) = some m1 ∧ Solo T t m1 m2 ∧ m2.pc t = [] ∧ m2.st = st' := by
  rw [exec_eq hT m.st hu ht] at he
  cases hv : sent T m.st.value op with
  | ub => rw [hv] at he; cases he
  | hang => rw [hv] at he; cases he
  | ok v =>
    rw [hv, Res.ok_bind] at he
    cases hn : notify { m.st with value := T.wrap (exact m.st.value op) } v with
    | ub => rw [hn] at he; cases he
    | hang => rw [hn] at he; cases he
    | ok s' =>
      rw [hn] at he
      cases he
      -- the loop
      have loop : ∀ (k i : Nat) (m : State) (n : Nat), n - i = k → m.pc t = [⟨v, .loop i n⟩] →
          notifyArr v (places m.st.reg) (n - i) i m.st = .ok st' → ∃ m2, Solo T t m m2 ∧ m2.pc t = [] ∧ m2.st = st' := by
        intro k
        induction k with
        | zero =>
          intro i m n hk hpc h
          rw [hk] at h
          cases h
          refine ⟨⟨m.st, put m.pc t [], m.mem.run t [], m.updates⟩, .step _ _ _ (.leave t) rfl ?_ (.refl _), by simp, rfl⟩
          simp only [HB.step, effect, hpc, if_neg (show ¬ i < n by omega)]
          rfl
        | succ k ih =>
          intro i m n hk hpc h
          rw [hk, notifyArr] at h
          split at h
          · next o ho =>
            have hsl : slotAt m.st.reg i = some o := by rw [slotAt_places, ho]; rfl
            have hi : i < n := by omega
            by_cases hf : m.st.fn o = true
            · let m1 : State := ⟨deliver v m.st o, put m.pc t [⟨v, .call i n⟩], m.mem.run t (ops m (.deliver t o)), m.updates⟩
              let m2 : State := ⟨deliver v m.st o, put m1.pc t [⟨v, .loop (i + 1) n⟩], m1.mem.run t [], m.updates⟩
              have h1 : HB.step T m (.deliver t o) = some m1 := by
                simp only [HB.step, effect, hpc, hi, hsl, true_and, if_true, if_pos hf]
                rfl
              have h2 : HB.step T m1 (.back t) = some m2 := by
                have : m1.pc t = [⟨v, .call i n⟩] := by simp [m1]
                simp only [HB.step, effect, this]
                rfl
              obtain ⟨m3, h3, h4⟩ := ih (i + 1) m2 n (by omega) (by simp [m2]) (by
                rw [show n - (i + 1) = k by omega]; exact h)
              exact ⟨m3, .step _ _ _ (.deliver t o) rfl h1 (.step _ _ _ (.back t) rfl h2 h3), h4⟩
            · let m1 : State :=
                ⟨deliver v m.st o, put m.pc t [⟨v, .loop (i + 1) n⟩], m.mem.run t (ops m (.deliver t o)), m.updates⟩
              have h1 : HB.step T m (.deliver t o) = some m1 := by
                simp only [HB.step, effect, hpc, hi, hsl, true_and, if_true, if_neg hf]
                rfl
              obtain ⟨m3, h3, h4⟩ := ih (i + 1) m1 n (by omega) (by simp [m1]) (by
                rw [show n - (i + 1) = k by omega]; exact h)
              exact ⟨m3, .step _ _ _ (.deliver t o) rfl h1 h3, h4⟩
          · cases h
      let m1 : State := ⟨{ m.st with value := T.wrap (exact m.st.value op) }, put m.pc t [⟨v, .enter⟩],
        m.mem.run t (updateOps op), record T m (.begin t op)⟩
      let m2 : State := ⟨m1.st, put m1.pc t [⟨v, .loop 0 (size m1.st.reg)⟩], m1.mem.run t (ops m1 (.enter t)), m1.updates⟩
      have h1 : HB.step T m (.begin t op) = some m1 := by
        have hf : m.free t = true := by simp [State.free, hp]
        simp only [HB.step, effect, hp, hf, hu, hv, Bool.and_self, if_true]
        rfl
      have h2 : HB.step T m1 (.enter t) = some m2 := by
        have : m1.pc t = [⟨v, .enter⟩] := by simp [m1]
        simp only [HB.step, effect, this]
        rfl
      rw [notify_eq] at hn
      obtain ⟨m3, h3, h4⟩ := loop _ 0 m2 (size m1.st.reg) rfl (by simp only [m2, put_same]) hn
      exact ⟨m1, m3, h1, .step _ _ _ (.enter t) rfl h2 h3, h4⟩

/-- Three observers, one with a function, one no longer registered. -/
example : ∃ m1 m2, HB.step ⟨true, 32⟩ (State.start ⟨4, .fixed [some 1, some 2, some 3] 2, fun _ => 0, fun o => o = 2, []⟩)
    (.begin 0 (.addEq 3)) = some m1 ∧ Solo ⟨true, 32⟩ 0 m1 m2 ∧ m2.pc 0 = [] ∧
    m2.st.value = 7 ∧ m2.st.held 1 = 7 ∧ m2.st.held 2 = 7 ∧ m2.st.held 3 = 0 ∧ m2.st.log = [(2, 7)] := by
  have hx : ∃ st ret, exec ⟨true, 32⟩ ⟨4, .fixed [some 1, some 2, some 3] 2, fun _ => 0, fun o => o = 2, []⟩ (.addEq 3) =
      .ok (st, ret) ∧ st.value = 7 ∧ st.held 1 = 7 ∧ st.held 2 = 7 ∧ st.held 3 = 0 ∧ st.log = [(2, 7)] :=
    ⟨_, _, rfl, by decide +kernel, by decide +kernel, by decide +kernel, by decide +kernel, by decide +kernel⟩
  obtain ⟨st, ret, h1, h2⟩ := hx
  obtain ⟨m1, m2, h3, h4, h5, h6⟩ := exec_solo (T := ⟨true, 32⟩) (.inr (.inr (.inl rfl))) (t := 0)
    (m := State.start ⟨4, .fixed [some 1, some 2, some 3] 2, fun _ => 0, fun o => o = 2, []⟩) (op := .addEq 3)
    (by simp only [Op.Typed, IntTy.In]; decide) rfl rfl h1
  exact ⟨m1, m2, h3, h4, h5, by rw [h6]; exact h2⟩

end Verif.Values.HB
