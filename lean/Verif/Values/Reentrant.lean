import Verif.Values.Props
/-!
`values::observable<T, Max>` (`include/xitren/comm/values/observable.hpp:22-267`) with `on_update`
functions and overridden `disconnect` functions that call back into the observable (one thread).

The user's functions are arbitrary programs of calls (`Prog`) that read and write a user state `U`.  There is
no protection against recursion, so the interpreter takes fuel; running out of it is the outcome `hang`.
Not modelled: `on_update` called while the function it replaces is running.
-/
namespace Verif.Values.Re
open Verif

/-- The update operators (observable.hpp:36-146). -/
inductive Upd where
  | assign (v : Int)
  | addEq (n : Int)
  | subEq (n : Int)
  | preInc
  | preDec
  | postInc
  | postDec
  deriving DecidableEq, Repr

/-- The public member functions that change something (observable.hpp:36-220). -/
inductive Op where
  | upd (u : Upd)
  | add (o : Nat)
  | remove (o : Nat)
  | clear
  deriving DecidableEq, Repr

/-- What a function does: it changes the user state, and makes calls, each followed by what depends on its result and the user state (a function of observed.hpp:35-39, 69-71). -/
inductive Prog (U : Type) where
  | ret (u : U)
  | set (u : U) (k : Prog U)
  | call (op : Op) (k : Ret → U → Prog U)

/-- The `on_update` function (observed.hpp:35-39, 84) and `disconnect` (observed.hpp:69-71) of each observed
object.  An empty function is `Prog.ret`. -/
structure Handlers (U : Type) where
  update : U → Nat → Int → Prog U
  disconnect : U → Nat → Prog U

/-- The observable (observable.hpp:245-249), the values of the observed objects, the user state and the log of
the values delivered. -/
structure St (U : Type) where
  value : Int
  arr : List (Option Nat)
  count : Nat
  held : Nat → Int
  user : U
  log : List (Nat × Int)

/-- A new observable with `max` places and new observed objects (observable.hpp:158). -/
def St.new {U : Type} (max : Nat) (u : U) : St U := ⟨0, List.replicate max none, 0, fun _ => 0, u, []⟩

variable {U : Type}

/-- What a call returns (observable.hpp:36-220). -/
abbrev Ex (U : Type) := St U → Op → Res (St U × Ret)

/-- The value an operator stores (`store`, `fetch_add`, `fetch_sub`: observable.hpp:47, 63, 79, 95, 111, 127,
143). -/
def stored (T : IntTy) (old : Int) : Upd → Int
  | .assign v => v
  | .addEq n => T.wrap (old + T.wrap n)
  | .subEq n => T.wrap (old - T.wrap n)
  | .preInc => T.wrap (old + 1)
  | .preDec => T.wrap (old - 1)
  | .postInc => T.wrap (old + 1)
  | .postDec => T.wrap (old - 1)

/-- The value an operator sends and returns (the same lines) (observable.hpp:47, 63, 79, 95, 111, 127, 143). -/
def result (T : IntTy) (old : Int) : Upd → Res Int
  | .assign v => .ok v
  | .addEq n => do let r ← T.common.arith (old + T.common.wrap n); .ok (T.wrap r)
  | .subEq n => do let r ← T.common.arith (old - T.common.wrap n); .ok (T.wrap r)
  | .preInc => do let r ← T.common.arith (old + 1); .ok (T.wrap r)
  | .preDec => do let r ← T.common.arith (old + 1); .ok (T.wrap r)
  | .postInc => .ok old
  | .postDec => .ok old

/-- Running a function of the user; `ex` runs a call (observed.hpp:79). -/
def runProg (ex : Ex U) : Prog U → St U → Res (St U)
  | .ret u, s => .ok { s with user := u }
  | .set u k, s => runProg ex k { s with user := u }
  | .call op k, s => do
    let r ← ex s op
    runProg ex (k r.2 r.1.user) r.1

/-- Calling through `observers_[i]` (observable.hpp:217, 236). -/
def deref (s : St U) (i : Nat) : Res Nat :=
  match s.arr[i]? with
  | some (some o) => .ok o
  | _ => .ub

/-- `observed::notification` and `data` (observed.hpp:58-62, 74-81). -/
def deliver (ex : Ex U) (H : Handlers U) (v : Int) (o : Nat) (s : St U) : Res (St U) :=
  runProg ex (H.update s.user o v)
    { s with held := fun p => if p = o then v else s.held p, log := s.log ++ [(o, v)] }

/-- The loop of `notify_observers` (observable.hpp:235-237): the number of elements is fixed when it starts, the
elements are read when they are reached. -/
def notifyLoop (ex : Ex U) (H : Handlers U) (v : Int) (i : Nat) : Nat → St U → Res (St U)
  | 0, s => .ok s
  | left + 1, s => do
    let o ← deref s i
    let s ← deliver ex H v o s
    notifyLoop ex H v (i + 1) left s

/-- `notify_observers` (observable.hpp:230-239). -/
def notify (ex : Ex U) (H : Handlers U) (s : St U) (v : Int) : Res (St U) :=
  if s.count > s.arr.length then .ok s else notifyLoop ex H v 0 s.count s

/-- An update operator (observable.hpp:36-146). -/
def update (ex : Ex U) (H : Handlers U) (T : IntTy) (s : St U) (u : Upd) : Res (St U × Ret) := do
  let v ← result T s.value u
  let s ← notify ex H { s with value := stored T s.value u } v
  .ok (s, .val v)

/-- `contains` (observable.hpp:258-266). -/
def contains (s : St U) (o : Nat) : Bool := (s.arr.take s.count).contains (some o)

/-- `add_observer` (observable.hpp:173-184). -/
def add (s : St U) (o : Nat) : Res (St U × Ret) :=
  if s.count ≥ s.arr.length then .ok (s, .err .listIsFull)
  else if !contains s o then
    .ok ({ s with arr := s.arr.set s.count (some o), count := s.count + 1 }, .err .ok)
  else .ok (s, .err .alreadyContains)

/-- `remove_observer` (observable.hpp:194-208). -/
def remove (s : St U) (o : Nat) : Res (St U × Ret) :=
  if s.count > s.arr.length then .ok (s, .err .internalDataBroken)
  else if s.count = 0 then .ok (s, .err .notFound)
  else
    let r := stdRemove (some o) (s.arr.take s.count)
    let arr' := r.1 ++ s.arr.drop s.count
    if s.count - r.2 ≠ 0 then .ok ({ s with arr := arr', count := r.2 }, .err .ok)
    else .ok ({ s with arr := arr' }, .err .notFound)

/-- The loop of `clear_observers` (observable.hpp:216-218). -/
def clearLoop (ex : Ex U) (H : Handlers U) (i : Nat) : Nat → St U → Res (St U)
  | 0, s => .ok s
  | left + 1, s => do
    let o ← deref s i
    let s ← runProg ex (H.disconnect s.user o) s
    clearLoop ex H (i + 1) left s

/-- `clear_observers` (observable.hpp:213-220). -/
def clear (ex : Ex U) (H : Handlers U) (s : St U) : Res (St U × Ret) := do
  let s ← clearLoop ex H 0 s.count s
  .ok ({ s with count := 0 }, .unit)

/-- One call (observable.hpp:36-220). -/
def execStep (ex : Ex U) (H : Handlers U) (T : IntTy) (s : St U) : Op → Res (St U × Ret)
  | .upd u => update ex H T s u
  | .add o => Re.add s o
  | .remove o => Re.remove s o
  | .clear => Re.clear ex H s

/-- A call with fewer than `n` levels of nested calls (observable.hpp:36-220). -/
def exec (H : Handlers U) (T : IntTy) : Nat → Ex U
  | 0, _, _ => .hang
  | n + 1, s, op => execStep (exec H T n) H T s op

/-- States reachable from a new object by calls from outside, between which the user state may change. -/
inductive Reach (H : Handlers U) (T : IntTy) (max : Nat) : St U → Prop
  | new (u : U) : Reach H T max (St.new max u)
  | call (s s' : St U) (n : Nat) (op : Op) (r : Ret) :
      Reach H T max s → exec H T n s op = .ok (s', r) → Reach H T max s'
  | user (s : St U) (u : U) : Reach H T max s → Reach H T max { s with user := u }

/-! ### Invariant -/

/-- The registered observers. -/
def regs (s : St U) : List Nat := (s.arr.take s.count).filterMap id

structure Inv (max : Nat) (s : St U) : Prop where
  len : s.arr.length = max
  le : s.count ≤ max
  lst : s.arr.take s.count = (regs s).map some
  nodup : (regs s).Nodup

theorem Inv.cnt {max : Nat} {s : St U} (h : Inv max s) : (regs s).length = s.count := by
  have h1 := congrArg List.length h.lst
  rw [List.length_take, List.length_map, h.len] at h1
  have := h.le
  omega

/-- Slots of the array never become null again. -/
def Keeps (s s' : St U) : Prop := ∀ i o : Nat, s.arr[i]? = some (some o) → ∃ o', s'.arr[i]? = some (some o')

theorem Keeps.refl (s : St U) : Keeps s s := fun _ o h => ⟨o, h⟩

theorem Keeps.trans {s t u : St U} (h1 : Keeps s t) (h2 : Keeps t u) : Keeps s u := fun i o h =>
  let ⟨o', h'⟩ := h1 i o h
  h2 i o' h'

/-- The arithmetic of an operator cannot overflow: it is done in an unsigned type, or there is none. -/
def Op.Safe (T : IntTy) : Op → Prop
  | .upd (.addEq _) => T.common.signed = false
  | .upd (.subEq _) => T.common.signed = false
  | .upd .preInc => T.common.signed = false
  | .upd .preDec => T.common.signed = false
  | _ => True

/-- All calls of a program satisfy `P`. -/
def Prog.Only (P : Op → Prop) : Prog U → Prop
  | .ret _ => True
  | .set _ k => k.Only P
  | .call op k => P op ∧ ∀ r u, (k r u).Only P

/-- All calls of all functions satisfy `P`. -/
def Handlers.Only (P : Op → Prop) (H : Handlers U) : Prop :=
  (∀ u o v, (H.update u o v).Only P) ∧ ∀ u o, (H.disconnect u o).Only P

/-- A way of running calls that respects the invariant; `P` tells which calls are defined. -/
def Good (P : Op → Prop) (max : Nat) (ex : Ex U) : Prop :=
  ∀ s op, Inv max s → (P op → ex s op ≠ .ub) ∧ ∀ s' r, ex s op = .ok (s', r) → Inv max s' ∧ Keeps s s'

theorem Inv.congr {max : Nat} {s t : St U} (h : Inv max s) (h1 : t.arr = s.arr) (h2 : t.count = s.count) :
    Inv max t := by
  have hr : regs t = regs s := by rw [regs, regs, h1, h2]
  exact ⟨by rw [h1]; exact h.len, by rw [h2]; exact h.le, by rw [h1, h2, hr]; exact h.lst, by rw [hr]; exact h.nodup⟩

theorem Keeps.congr {s t : St U} (h : t.arr = s.arr) : Keeps s t := fun i o hi => ⟨o, by rw [h]; exact hi⟩

theorem runProg_good {P : Op → Prop} {max : Nat} {ex : Ex U} (hex : Good P max ex) (p : Prog U) (s : St U)
    (h : Inv max s) : (p.Only P → runProg ex p s ≠ .ub) ∧
      ∀ s', runProg ex p s = .ok s' → Inv max s' ∧ Keeps s s' := by
  induction p generalizing s with
  | ret u =>
    refine ⟨fun _ => by simp [runProg], fun s' hs => ?_⟩
    simp only [runProg, Res.ok.injEq] at hs
    subst hs
    exact ⟨h.congr rfl rfl, Keeps.congr rfl⟩
  | set u k ih => exact ih { s with user := u } (h.congr rfl rfl)
  | call op k ih =>
    obtain ⟨h1, h2⟩ := hex s op h
    simp only [runProg]
    cases hr : ex s op with
    | ub => exact ⟨fun hp => absurd hr (h1 hp.1), by simp⟩
    | hang => exact ⟨fun _ => by simp, by simp⟩
    | ok r =>
      obtain ⟨t, e⟩ := r
      obtain ⟨i1, k1⟩ := h2 t e hr
      simp only [Res.ok_bind]
      obtain ⟨h3, h4⟩ := ih e t.user t i1
      exact ⟨fun hp => h3 (hp.2 e t.user), fun s' hs => ⟨(h4 s' hs).1, k1.trans (h4 s' hs).2⟩⟩

theorem Inv.slots {max : Nat} {s : St U} (h : Inv max s) (j : Nat) (hj : j < s.count) :
    s.arr[j]? = some (regs s)[j]? := by
  have h1 := congrArg (fun l => l[j]?) h.lst
  simp only [List.getElem?_take_of_lt hj, List.getElem?_map] at h1
  rw [h1]
  have : j < (regs s).length := by rw [h.cnt]; exact hj
  rw [List.getElem?_eq_getElem this]
  rfl

theorem Inv.slot {max : Nat} {s : St U} (h : Inv max s) (j : Nat) (hj : j < s.count) :
    ∃ o, s.arr[j]? = some (some o) := by
  have h1 := h.slots j hj
  have : j < (regs s).length := by rw [h.cnt]; exact hj
  rw [List.getElem?_eq_getElem this] at h1
  exact ⟨_, h1⟩

theorem deref_some {s : St U} {i o : Nat} (h : s.arr[i]? = some (some o)) : deref s i = .ok o := by
  simp [deref, h]

theorem notifyLoop_good {P : Op → Prop} {max : Nat} {ex : Ex U} (hex : Good P max ex) (H : Handlers U) (v : Int)
    (left i : Nat) (s : St U) (h : Inv max s)
    (hsl : ∀ j, i ≤ j → j < i + left → ∃ o, s.arr[j]? = some (some o)) :
    (H.Only P → notifyLoop ex H v i left s ≠ .ub) ∧
      ∀ s', notifyLoop ex H v i left s = .ok s' → Inv max s' ∧ Keeps s s' := by
  induction left generalizing i s with
  | zero =>
    refine ⟨fun _ => by simp [notifyLoop], fun s' hs => ?_⟩
    simp only [notifyLoop, Res.ok.injEq] at hs
    subst hs
    exact ⟨h, Keeps.refl s⟩
  | succ left ih =>
    obtain ⟨o, ho⟩ := hsl i (Nat.le_refl _) (by omega)
    simp only [notifyLoop, deref_some ho, Res.ok_bind, deliver]
    obtain ⟨h1, h2⟩ := runProg_good hex (H.update s.user o v)
      { s with held := fun p => if p = o then v else s.held p, log := s.log ++ [(o, v)] } (h.congr rfl rfl)
    cases hr : runProg ex (H.update s.user o v)
      { s with held := fun p => if p = o then v else s.held p, log := s.log ++ [(o, v)] } with
    | ub => exact ⟨fun hp => absurd hr (h1 (hp.1 _ _ _)), by simp⟩
    | hang => exact ⟨fun _ => by simp, by simp⟩
    | ok t =>
      obtain ⟨b1, k1⟩ := h2 t hr
      have k1 : Keeps s t := fun i o hi => k1 i o hi
      simp only [Res.ok_bind]
      obtain ⟨h3, h4⟩ := ih (i + 1) t b1 (by
        intro j hj1 hj2
        obtain ⟨o', ho'⟩ := hsl j (by omega) (by omega)
        exact k1 j o' ho')
      exact ⟨h3, fun s' hs => ⟨(h4 s' hs).1, k1.trans (h4 s' hs).2⟩⟩

theorem clearLoop_good {P : Op → Prop} {max : Nat} {ex : Ex U} (hex : Good P max ex) (H : Handlers U)
    (left i : Nat) (s : St U) (h : Inv max s)
    (hsl : ∀ j, i ≤ j → j < i + left → ∃ o, s.arr[j]? = some (some o)) :
    (H.Only P → clearLoop ex H i left s ≠ .ub) ∧
      ∀ s', clearLoop ex H i left s = .ok s' → Inv max s' ∧ Keeps s s' := by
  induction left generalizing i s with
  | zero =>
    refine ⟨fun _ => by simp [clearLoop], fun s' hs => ?_⟩
    simp only [clearLoop, Res.ok.injEq] at hs
    subst hs
    exact ⟨h, Keeps.refl s⟩
  | succ left ih =>
    obtain ⟨o, ho⟩ := hsl i (Nat.le_refl _) (by omega)
    simp only [clearLoop, deref_some ho, Res.ok_bind]
    obtain ⟨h1, h2⟩ := runProg_good hex (H.disconnect s.user o) s h
    cases hr : runProg ex (H.disconnect s.user o) s with
    | ub => exact ⟨fun hp => absurd hr (h1 (hp.2 _ _)), by simp⟩
    | hang => exact ⟨fun _ => by simp, by simp⟩
    | ok t =>
      obtain ⟨b1, k1⟩ := h2 t hr
      simp only [Res.ok_bind]
      obtain ⟨h3, h4⟩ := ih (i + 1) t b1 (by
        intro j hj1 hj2
        obtain ⟨o', ho'⟩ := hsl j (by omega) (by omega)
        exact k1 j o' ho')
      exact ⟨h3, fun s' hs => ⟨(h4 s' hs).1, k1.trans (h4 s' hs).2⟩⟩

theorem contains_iff {max : Nat} {s : St U} (h : Inv max s) (o : Nat) :
    contains s o = true ↔ o ∈ regs s := by
  unfold contains
  rw [h.lst]
  simp

theorem filterMap_some (l : List Nat) : (l.map some).filterMap id = l := by
  induction l with
  | nil => rfl
  | cons a l ih => simp

/-- `add_observer` on the registered list. -/
theorem add_spec {max : Nat} {s s' : St U} {r : Ret} (h : Inv max s) {o : Nat} (hr : add s o = .ok (s', r)) :
    Inv max s' ∧ Keeps s s' ∧
    (regs s' = if s.count < max ∧ o ∉ regs s then regs s ++ [o] else regs s) ∧
    s'.held = s.held ∧ s'.value = s.value ∧ s'.user = s.user := by
  have hl := h.len
  unfold add at hr
  by_cases hf : s.count ≥ s.arr.length
  · rw [if_pos hf] at hr
    cases hr
    exact ⟨h, Keeps.refl _, by rw [if_neg (by omega)], rfl, rfl, rfl⟩
  · rw [if_neg hf] at hr
    by_cases hc : o ∈ regs s
    · have := (contains_iff h o).2 hc
      simp only [this, Bool.not_true, Bool.false_eq_true, if_false, Res.ok.injEq, Prod.mk.injEq] at hr
      obtain ⟨rfl, -⟩ := hr
      exact ⟨h, Keeps.refl _, by rw [if_neg (by simp [hc])], rfl, rfl, rfl⟩
    · have hcf : contains s o = false := by
        cases hx : contains s o
        · rfl
        · exact absurd ((contains_iff h o).1 hx) hc
      simp only [hcf, Bool.not_false, if_true, Res.ok.injEq, Prod.mk.injEq] at hr
      obtain ⟨rfl, -⟩ := hr
      have hlt : s.count < s.arr.length := by omega
      have htake : (s.arr.set s.count (some o)).take (s.count + 1) = (regs s ++ [o]).map some := by
        rw [List.take_add_one, List.take_set, List.set_eq_of_length_le (by rw [List.length_take]; omega), h.lst]
        simp [hlt]
      have hregs : regs { s with arr := s.arr.set s.count (some o), count := s.count + 1 } = regs s ++ [o] := by
        show ((s.arr.set s.count (some o)).take (s.count + 1)).filterMap id = _
        rw [htake, filterMap_some]
      refine ⟨⟨by simp [hl], by simp only; omega, ?_, ?_⟩, ?_, ?_, rfl, rfl, rfl⟩
      · rw [hregs]; exact htake
      · rw [hregs]; exact nodup_snoc h.nodup hc
      · intro i o' hi
        simp only [List.getElem?_set]
        by_cases hi' : s.count = i
        · subst hi'
          exact ⟨o, by simp [hlt]⟩
        · exact ⟨o', by simp [hi', hi]⟩
      · rw [hregs, if_pos ⟨by omega, hc⟩]

/-- `remove_observer` on the registered list. -/
theorem remove_spec {max : Nat} {s s' : St U} {r : Ret} (h : Inv max s) {o : Nat}
    (hr : remove s o = .ok (s', r)) :
    Inv max s' ∧ Keeps s s' ∧ regs s' = (regs s).filter (· != o) ∧
    s'.held = s.held ∧ s'.value = s.value ∧ s'.user = s.user := by
  have hl := h.len
  have hle := h.le
  have hcnt := h.cnt
  unfold remove at hr
  rw [if_neg (by omega)] at hr
  by_cases h0 : s.count = 0
  · rw [if_pos h0] at hr
    cases hr
    have : regs s = [] := List.length_eq_zero_iff.1 (by omega)
    exact ⟨h, Keeps.refl _, by rw [this]; rfl, rfl, rfl, rfl⟩
  · rw [if_neg h0] at hr
    simp only [stdRemove, h.lst] at hr
    have hkept : List.filter (fun y => decide (y ≠ some o)) ((regs s).map some) =
        ((regs s).filter (· != o)).map some := filter_map_some o (regs s)
    rw [hkept] at hr
    simp only [List.length_map] at hr
    have hlen : ((regs s).filter (· != o)).length ≤ (regs s).length := List.length_filter_le _ _
    -- the array afterwards
    have harr : ∀ (c : Nat), c = ((regs s).filter (· != o)).length →
        Inv max { s with
          arr := (((regs s).filter (· != o)).map some ++ ((regs s).map some).drop ((regs s).filter (· != o)).length) ++
            s.arr.drop s.count
          count := c } ∧
        Keeps s { s with
          arr := (((regs s).filter (· != o)).map some ++ ((regs s).map some).drop ((regs s).filter (· != o)).length) ++
            s.arr.drop s.count
          count := c } ∧
        regs { s with
          arr := (((regs s).filter (· != o)).map some ++ ((regs s).map some).drop ((regs s).filter (· != o)).length) ++
            s.arr.drop s.count
          count := c } = (regs s).filter (· != o) := by
      intro c hc
      have htake : ((((regs s).filter (· != o)).map some ++
          ((regs s).map some).drop ((regs s).filter (· != o)).length) ++ s.arr.drop s.count).take c =
          ((regs s).filter (· != o)).map some := by
        rw [List.append_assoc, List.take_append_of_le_length (by simp [hc]), List.take_of_length_le (by simp [hc])]
      have hregs : regs { s with
          arr := (((regs s).filter (· != o)).map some ++ ((regs s).map some).drop ((regs s).filter (· != o)).length) ++
            s.arr.drop s.count
          count := c } = (regs s).filter (· != o) := by
        show List.filterMap id (List.take c _) = _
        rw [htake, filterMap_some]
      refine ⟨⟨?_, ?_, ?_, ?_⟩, ?_, hregs⟩
      · simp only [List.length_append, List.length_map, List.length_drop]
        omega
      · simp only; omega
      · rw [hregs]; exact htake
      · rw [hregs]; exact h.nodup.filter _
      · intro i o' hi
        by_cases hi1 : i < ((regs s).filter (· != o)).length
        · refine ⟨((regs s).filter (· != o))[i], ?_⟩
          show (_ ++ _ ++ _ : List (Option Nat))[i]? = _
          rw [List.append_assoc, List.getElem?_append_left (by simpa using hi1), List.getElem?_map,
            List.getElem?_eq_getElem hi1]
          rfl
        · refine ⟨o', ?_⟩
          show (_ ++ _ ++ _ : List (Option Nat))[i]? = _
          rw [List.append_assoc, List.getElem?_append_right (by simpa using hi1), ← h.lst, List.length_map]
          have hd : (s.arr.take s.count).drop ((regs s).filter (· != o)).length ++ s.arr.drop s.count =
              s.arr.drop ((regs s).filter (· != o)).length := by
            conv => rhs; rw [← List.take_append_drop s.count s.arr]
            rw [List.drop_append_of_le_length (by rw [List.length_take]; omega)]
          rw [hd, List.getElem?_drop]
          rw [show ((regs s).filter (· != o)).length + (i - ((regs s).filter (· != o)).length) = i by omega]
          exact hi
    split at hr
    · cases hr
      obtain ⟨k1, k2, k3⟩ := harr _ rfl
      exact ⟨k1, k2, k3, rfl, rfl, rfl⟩
    · rename_i hc
      cases hr
      obtain ⟨k1, k2, k3⟩ := harr s.count (by omega)
      exact ⟨k1, k2, k3, rfl, rfl, rfl⟩

theorem add_ne_ub (s : St U) (o : Nat) : add s o ≠ .ub := by
  unfold add
  split
  · simp
  · split <;> simp

theorem remove_ne_ub (s : St U) (o : Nat) : remove s o ≠ .ub := by
  unfold remove
  split
  · simp
  · split
    · simp
    · simp only; split <;> simp

theorem result_safe {T : IntTy} (old : Int) {u : Upd} (h : (Op.upd u).Safe T) : result T old u ≠ .ub := by
  have ha : ∀ x, T.common.signed = false → ∃ y, T.common.arith x = .ok y := fun x hs =>
    ⟨_, by rw [IntTy.arith, hs]; rfl⟩
  cases u <;> simp only [Op.Safe] at h <;> simp only [result] <;>
    first
      | (intro hc; cases hc; done)
      | (obtain ⟨y, hy⟩ := ha _ h
         rw [hy]
         simp)

theorem execStep_good {T : IntTy} {P : Op → Prop} (hP : ∀ op, P op → op.Safe T) {max : Nat} {ex : Ex U}
    (hex : Good P max ex) (H : Handlers U) (hH : ¬ H.Only P → ∀ op, ¬ P op) :
    Good P max (execStep ex H T) := by
  intro s op h
  have hH' : ∀ {op}, P op → H.Only P := fun hp => Classical.byContradiction fun hn => hH hn _ hp
  cases op with
  | add o =>
    exact ⟨fun _ => add_ne_ub s o, fun s' r hr => let k := add_spec h hr; ⟨k.1, k.2.1⟩⟩
  | remove o =>
    exact ⟨fun _ => remove_ne_ub s o, fun s' r hr => let k := remove_spec h hr; ⟨k.1, k.2.1⟩⟩
  | clear =>
    obtain ⟨h1, h2⟩ := clearLoop_good hex H s.count 0 s h (fun j _ hj => h.slot j (by omega))
    simp only [execStep, Re.clear]
    cases hr : clearLoop ex H 0 s.count s with
    | ub => exact ⟨fun hp => absurd hr (h1 (hH' hp)), by simp⟩
    | hang => exact ⟨fun _ => by simp, by simp⟩
    | ok t =>
      obtain ⟨i1, k1⟩ := h2 t hr
      refine ⟨fun _ => by simp, fun s' r hs => ?_⟩
      simp only [Res.ok_bind, Res.ok.injEq, Prod.mk.injEq] at hs
      obtain ⟨rfl, -⟩ := hs
      refine ⟨⟨i1.len, by simp, ?_, ?_⟩, fun i o hi => k1 i o hi⟩
      · simp [regs]
      · simp [regs]
  | upd u =>
    simp only [execStep, update]
    cases hv : result T s.value u with
    | ub => exact ⟨fun hp => absurd hv (result_safe _ (hP _ hp)), by simp⟩
    | hang => exact ⟨fun _ => by simp, by simp⟩
    | ok v =>
      simp only [Res.ok_bind, notify]
      have h' : Inv max { s with value := stored T s.value u } := h.congr rfl rfl
      rw [if_neg (by have := h'.len; have := h'.le; simp only at *; omega)]
      obtain ⟨h1, h2⟩ := notifyLoop_good hex H v s.count 0 { s with value := stored T s.value u } h'
        (fun j _ hj => h'.slot j (by simpa using hj))
      cases hr : notifyLoop ex H v 0 s.count { s with value := stored T s.value u } with
      | ub => exact ⟨fun hp => absurd hr (h1 (hH' hp)), by simp⟩
      | hang => exact ⟨fun _ => by simp, by simp⟩
      | ok t =>
        obtain ⟨i1, k1⟩ := h2 t hr
        refine ⟨fun _ => by simp, fun s' r hs => ?_⟩
        simp only [Res.ok_bind, Res.ok.injEq, Prod.mk.injEq] at hs
        obtain ⟨rfl, -⟩ := hs
        exact ⟨i1, fun i o hi => k1 i o hi⟩

theorem exec_good {T : IntTy} {P : Op → Prop} (hP : ∀ op, P op → op.Safe T) (H : Handlers U)
    (hH : ¬ H.Only P → ∀ op, ¬ P op) (max n : Nat) : Good P max (exec H T n) := by
  induction n with
  | zero => exact fun s op _ => ⟨fun _ => by simp [exec], by simp [exec]⟩
  | succ n ih => exact execStep_good hP ih H hH

theorem new_inv (max : Nat) (u : U) : Inv max (St.new max u) :=
  ⟨by simp [St.new], by simp [St.new], by simp [St.new, regs], by simp [St.new, regs]⟩

theorem Reach.inv {H : Handlers U} {T : IntTy} {max : Nat} {s : St U} (h : Reach H T max s) : Inv max s := by
  induction h with
  | new u => exact new_inv max u
  | call s s' n op r _ hs ih =>
    exact ((exec_good (P := fun _ => False) (fun _ h => h.elim) H (fun _ _ h => h) max n s op ih).2 s' r hs).1
  | user s u _ ih => exact ih.congr rfl rfl

end Verif.Values.Re
