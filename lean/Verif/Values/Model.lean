import Verif.Basic
/-!
Model of `values::observable<T, Max>`, `values::observable<T, 0>`
(`include/xitren/comm/values/observable.hpp`) and `values::observed<T>`
(`include/xitren/comm/values/observed.hpp`), used by one thread.  Threads are in `Threads.lean`.

`T` is an integral type, given by its width and signedness.  Observers are numbers.  The `on_update`
functions only record that they ran; functions that call back into the observable are in `Reentrant.lean`.
The `volatile` overloads call a non-`volatile` function and do not compile when used; an
object that is not `volatile` never selects them.
-/
namespace Verif.Values
open Verif

/-- An integral type (the parameter `T` of values/observable.hpp:22). -/
structure IntTy where
  signed : Bool
  bits : Nat
  deriving DecidableEq, Repr

namespace IntTy
/-- The integral types of the platforms in question (the parameter `T` of values/observable.hpp:22). -/
def Valid (T : IntTy) : Prop := T.bits = 8 ∨ T.bits = 16 ∨ T.bits = 32 ∨ T.bits = 64
/-- Smallest value (no code). -/
def lo (T : IntTy) : Int := if T.signed then -2 ^ (T.bits - 1) else 0
/-- Largest value (no code). -/
def hi (T : IntTy) : Int := if T.signed then 2 ^ (T.bits - 1) - 1 else 2 ^ T.bits - 1
/-- `x` is a value of the type (no code). -/
def In (T : IntTy) (x : Int) : Prop := T.lo ≤ x ∧ x ≤ T.hi
instance (T : IntTy) (x : Int) : Decidable (T.In x) := inferInstanceAs (Decidable (_ ∧ _))
/-- Conversion to the type (modular since C++20), and what atomic arithmetic does (`fetch_add`, `fetch_sub` and the conversions of values/observable.hpp:36-146). -/
def wrap (T : IntTy) (x : Int) : Int := if T.signed then x.bmod (2 ^ T.bits) else x % 2 ^ T.bits
/-- `int` (the operand of values/observable.hpp:108, 124). -/
def int : IntTy := ⟨true, 32⟩
/-- The type of `t + i` for `t` of the type and `i` an `int`: the usual arithmetic conversions (values/observable.hpp:79, 95, 111, 127). -/
def common (T : IntTy) : IntTy := if T.bits < 32 then int else T
/-- Evaluation of an addition or subtraction of that type whose mathematical result is `x`: overflow
of a signed type is undefined behaviour (values/observable.hpp:79, 95, 111, 127). -/
def arith (e : IntTy) (x : Int) : Res Int :=
  if e.signed then (if e.In x then .ok x else .ub) else .ok (e.wrap x)
end IntTy

/-- `observer_errors` (observer_errors.hpp:24-54), those that occur here. -/
inductive Err where
  | ok
  | listIsFull
  | alreadyContains
  | notFound
  | internalDataBroken
  deriving DecidableEq, Repr

/-- The container of observers: the array and `count_` (observable.hpp:245-249) or the vector
(observable.hpp:485). -/
inductive Reg where
  | fixed (arr : List (Option Nat)) (count : Nat)
  | dyn (vec : List Nat)
  deriving DecidableEq, Repr

/-- The observable (its atomic value and its container), the observed objects (value of each and
whether it has an `on_update` function) and the log of the runs of these functions (values/observable.hpp:245-249, 485, values/observed.hpp:84). -/
structure St where
  value : Int
  reg : Reg
  held : Nat → Int
  fn : Nat → Bool
  log : List (Nat × Int)

/-- A new observable and new observed objects (observable.hpp:158, 404; observed.hpp:27-28), `fn`
telling which were given a function. -/
def St.new (reg : Reg) (fn : Nat → Bool) : St := ⟨0, reg, fun _ => 0, fn, []⟩

/-- An empty container with `Max` places (observable.hpp:245-249). -/
def Reg.newFixed (max : Nat) : Reg := .fixed (List.replicate max none) 0
/-- An empty vector (observable.hpp:485). -/
def Reg.newDyn : Reg := .dyn []

/-- `observed::notification` and `data` (observed.hpp:58-62, 74-81). -/
def deliver (v : Int) (s : St) (o : Nat) : St :=
  { s with
    held := fun p => if p = o then v else s.held p
    log := if s.fn o then s.log ++ [(o, v)] else s.log }

/-- The loop over `std::views::counted(observers_.begin(), count_)` (observable.hpp:235-237): `n` to
go from index `i`. -/
def notifyArr (v : Int) (arr : List (Option Nat)) : Nat → Nat → St → Res St
  | 0, _, s => .ok s
  | n + 1, i, s =>
    match arr[i]? with
    | some (some o) => notifyArr v arr n (i + 1) (deliver v s o)
    | _ => .ub

/-- The loop over the vector (observable.hpp:475-477). -/
def notifyVec (v : Int) : List Nat → St → St
  | [], s => s
  | o :: rest, s => notifyVec v rest (deliver v s o)

/-- `notify_observers` (observable.hpp:230-239, 472-479); its result is not used by the operators. -/
def notify (s : St) (v : Int) : Res St :=
  match s.reg with
  | .fixed arr count => if count > arr.length then .ok s else notifyArr v arr count 0 s
  | .dyn vec => .ok (notifyVec v vec s)

/-- `operator=(T)` (observable.hpp:140-146, 386-392). -/
def assign (s : St) (v : Int) : Res (St × Int) := do
  let s ← notify { s with value := v } v
  .ok (s, v)

/-- `operator+=` (observable.hpp:108-114, 354-360). -/
def addEq (T : IntTy) (s : St) (op : Int) : Res (St × Int) := do
  let old := s.value
  let s := { s with value := T.wrap (old + T.wrap op) }
  let ret ← T.common.arith (old + T.common.wrap op)
  let s ← notify s (T.wrap ret)
  .ok (s, T.wrap ret)

/-- `operator-=` (observable.hpp:124-130, 370-376). -/
def subEq (T : IntTy) (s : St) (op : Int) : Res (St × Int) := do
  let old := s.value
  let s := { s with value := T.wrap (old - T.wrap op) }
  let ret ← T.common.arith (old - T.common.wrap op)
  let s ← notify s (T.wrap ret)
  .ok (s, T.wrap ret)

/-- Prefix `operator++` (observable.hpp:76-82, 322-328). -/
def preInc (T : IntTy) (s : St) : Res (St × Int) := do
  let old := s.value
  let s := { s with value := T.wrap (old + 1) }
  let ret ← T.common.arith (old + 1)
  let s ← notify s (T.wrap ret)
  .ok (s, T.wrap ret)

/-- Prefix `operator--` (observable.hpp:92-98, 338-344): `fetch_sub(1) + 1`. -/
def preDec (T : IntTy) (s : St) : Res (St × Int) := do
  let old := s.value
  let s := { s with value := T.wrap (old - 1) }
  let ret ← T.common.arith (old + 1)
  let s ← notify s (T.wrap ret)
  .ok (s, T.wrap ret)

/-- Postfix `operator++` (observable.hpp:44-50, 290-296). -/
def postInc (T : IntTy) (s : St) : Res (St × Int) := do
  let ret := s.value
  let s := { s with value := T.wrap (ret + 1) }
  let s ← notify s ret
  .ok (s, ret)

/-- Postfix `operator--` (observable.hpp:60-66, 306-312). -/
def postDec (T : IntTy) (s : St) : Res (St × Int) := do
  let ret := s.value
  let s := { s with value := T.wrap (ret - 1) }
  let s ← notify s ret
  .ok (s, ret)

/-- `contains` over the array (observable.hpp:258-266). -/
def containsArr (o : Nat) (arr : List (Option Nat)) : Nat → Nat → Res Bool
  | 0, _ => .ok false
  | n + 1, i =>
    match arr[i]? with
    | some p => if p = some o then .ok true else containsArr o arr n (i + 1)
    | none => .ub

/-- `contains` over the vector: `std::find` (observable.hpp:494-499). -/
def containsVec (o : Nat) : List Nat → Bool
  | [] => false
  | p :: rest => if p = o then true else containsVec o rest

/-- `add_observer` (observable.hpp:173-184, 419-428). -/
def add (s : St) (o : Nat) : Res (St × Err) :=
  match s.reg with
  | .fixed arr count =>
    if count ≥ arr.length then .ok (s, .listIsFull)
    else do
      let c ← containsArr o arr count 0
      if !c then .ok ({ s with reg := .fixed (arr.set count (some o)) (count + 1) }, .ok)
      else .ok (s, .alreadyContains)
  | .dyn vec =>
    if !containsVec o vec then .ok ({ s with reg := .dyn (vec ++ [o]) }, .ok)
    else .ok (s, .alreadyContains)

/-- `std::remove` on a range of pointers: the range afterwards and the position of the new end.  The
kept elements are moved to the front; the places behind the new end are not written (values/observable.hpp:201, 442). -/
def stdRemove {α : Type} [DecidableEq α] (x : α) (l : List α) : List α × Nat :=
  let kept := l.filter (fun y => y ≠ x)
  (kept ++ l.drop kept.length, kept.length)

/-- `remove_observer` (observable.hpp:194-208, 438-450). -/
def remove (s : St) (o : Nat) : Res (St × Err) :=
  match s.reg with
  | .fixed arr count =>
    if count > arr.length then .ok (s, .internalDataBroken)
    else if count = 0 then .ok (s, .notFound)
    else
      let r := stdRemove (some o) (arr.take count)
      let arr' := r.1 ++ arr.drop count
      if count - r.2 ≠ 0 then .ok ({ s with reg := .fixed arr' r.2 }, .ok)
      else .ok ({ s with reg := .fixed arr' count }, .notFound)
  | .dyn vec =>
    if vec.isEmpty then .ok (s, .notFound)
    else
      let r := stdRemove o vec
      if r.2 ≠ vec.length then .ok ({ s with reg := .dyn r.1 }, .ok)
      else .ok ({ s with reg := .dyn r.1 }, .notFound)

/-- The loop of `clear_observers` over the array (observable.hpp:216-218): only reads the pointers;
`observed::disconnect` (observed.hpp:69-71) does nothing. -/
def clearArr (arr : List (Option Nat)) : Nat → Nat → Res Unit
  | 0, _ => .ok ()
  | n + 1, i =>
    match arr[i]? with
    | some (some _) => clearArr arr n (i + 1)
    | _ => .ub

/-- `clear_observers` (observable.hpp:213-220, 455-462). -/
def clear (s : St) : Res St :=
  match s.reg with
  | .fixed arr count => do
    clearArr arr count 0
    .ok { s with reg := .fixed arr 0 }
  | .dyn _ => .ok { s with reg := .dyn [] }

/-- Set the `on_update` function of an observed object (observed.hpp:35-39). -/
def onUpdate (s : St) (o : Nat) (b : Bool) : St := { s with fn := fun p => if p = o then b else s.fn p }

/-- The operations of a client (values/observable.hpp:36-220). -/
inductive Op where
  | assign (v : Int)
  | addEq (op : Int)
  | subEq (op : Int)
  | preInc
  | preDec
  | postInc
  | postDec
  | add (o : Nat)
  | remove (o : Nat)
  | clear
  | onUpdate (o : Nat) (b : Bool)
  deriving DecidableEq, Repr

/-- What an operation returns (values/observable.hpp:36-220). -/
inductive Ret where
  | val (v : Int)
  | err (e : Err)
  | unit
  deriving DecidableEq, Repr

/-- The operands have the parameter types: `T` for `=` and `int` for `+=` and `-=` (values/observable.hpp:108, 124, 140). -/
def Op.Typed (T : IntTy) : Op → Prop
  | .assign v => T.In v
  | .addEq n => IntTy.int.In n
  | .subEq n => IntTy.int.In n
  | _ => True

/-- Wrap a result (no code). -/
def valOf (r : Res (St × Int)) : Res (St × Ret) := do
  let p ← r
  .ok (p.1, .val p.2)

/-- Wrap a result (no code). -/
def errOf (r : Res (St × Err)) : Res (St × Ret) := do
  let p ← r
  .ok (p.1, .err p.2)

/-- One operation (values/observable.hpp:36-220, 282-462). -/
def exec (T : IntTy) (s : St) : Op → Res (St × Ret)
  | .assign v => valOf (Values.assign s v)
  | .addEq n => valOf (Values.addEq T s n)
  | .subEq n => valOf (Values.subEq T s n)
  | .preInc => valOf (Values.preInc T s)
  | .preDec => valOf (Values.preDec T s)
  | .postInc => valOf (Values.postInc T s)
  | .postDec => valOf (Values.postDec T s)
  | .add o => errOf (Values.add s o)
  | .remove o => errOf (Values.remove s o)
  | .clear => do
    let s ← Values.clear s
    .ok (s, .unit)
  | .onUpdate o b => .ok (Values.onUpdate s o b, .unit)

/-- A history (no code). -/
def run (T : IntTy) : List Op → St → Res St
  | [], s => .ok s
  | op :: ops, s => do
    let r ← exec T s op
    run T ops r.1

end Verif.Values
