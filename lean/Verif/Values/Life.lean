import Verif.Values.Props
/-!
Lifetimes of `values::observable` and `values::observed`: several observables and observed objects are constructed, used and
destroyed by one thread.  An object is known by its address, so that a new object may get the number of a destroyed one.
The destructor of an observed does nothing (values/observed.hpp:50), so that the observables it is registered with keep
its address; the destructor of an observable calls `disconnect` of those registered (values/observable.hpp:163, 409).
Calling a function of an observed that does not exist is undefined behaviour; comparing its address is not.
The `on_update` functions only record that they ran.  Objects of both classes cannot be copied or assigned
(values/observable.hpp:148-153, values/observed.hpp:29-33).
-/
namespace Verif.Values.Life
open Verif Verif.Values

/-- The observables that exist, with their value and container; the values of the observed objects that exist; which have a
function; the runs of the functions (values/observable.hpp:245-249, 485, values/observed.hpp:84). -/
structure World where
  obj : Nat → Option (Int × Reg)
  held : Nat → Option Int
  fn : Nat → Bool
  log : List (Nat × Int)

/-- Nothing exists. -/
def World.new : World := ⟨fun _ => none, fun _ => none, fun _ => false, []⟩

/-- What the client does: construct an observed (with a function or without) or an observable of a given kind (a capacity, or
`none` for the dynamic one) at an address where there is none; destroy one; use an observable or set a function with an
operation of `Values.Op`. -/
inductive Cmd where
  | make (o : Nat) (f : Bool)
  | destroy (o : Nat)
  | makeObs (a : Nat) (cap : Option Nat)
  | destroyObs (a : Nat)
  | use (a : Nat) (op : Op)
  deriving DecidableEq

/-- A function changed in one place (no code). -/
def set {β : Type} (f : Nat → β) (i : Nat) (v : β) : Nat → β := fun j => if j = i then v else f j

/-- One observable and all observed objects, as in `Values.Model` (no code). -/
def World.view (w : World) (x : Int × Reg) : St := ⟨x.1, x.2, fun o => (w.held o).getD 0, w.fn, w.log⟩

/-- Back again (no code): observed objects that do not exist have no value. -/
def World.back (w : World) (a : Nat) (s : St) : World :=
  ⟨set w.obj a (some (s.value, s.reg)), fun o => (w.held o).map fun _ => s.held o, s.fn, s.log⟩

/-- The pointers that the loops of `notify_observers` and `clear_observers` follow (values/observable.hpp:216, 235, 458,
475). -/
def targets : Reg → List Nat
  | .fixed arr count => (arr.take count).filterMap id
  | .dyn vec => vec

/-- The operation runs through the observers (values/observable.hpp:36-146, 213-220, 282-392, 455-462). -/
def visits : Op → Bool
  | .add _ | .remove _ | .onUpdate _ _ => false
  | _ => true

/-- The observed object that the client passes or calls (values/observable.hpp:173-174, 194-195, values/observed.hpp:35-36). -/
def Op.operand : Op → Option Nat
  | .add o | .remove o | .onUpdate o _ => some o
  | _ => none

/-- One command.  Results are those of `Values.exec`; constructors and destructors return nothing.  Undefined: using or
destroying an object that does not exist, and a loop that comes to an observed that does not exist (a loop that is
undefined somewhere is undefined as a whole). -/
def exec (T : IntTy) (w : World) : Cmd → Res (World × Ret)
  | .make o f =>
    match w.held o with
    | some _ => .ok (w, .unit)
    | none => .ok ({ w with held := set w.held o (some 0), fn := set w.fn o f }, .unit)
  | .destroy o =>
    match w.held o with
    | some _ => .ok ({ w with held := set w.held o none }, .unit)
    | none => .ub
  | .makeObs a cap =>
    match w.obj a with
    | some _ => .ok (w, .unit)
    | none => .ok ({ w with obj := set w.obj a (some (0, newReg cap)) }, .unit)
  | .destroyObs a =>
    match w.obj a with
    | some x =>
      if (targets x.2).all fun o => (w.held o).isSome then
        match Values.clear (w.view x) with
        | .ok _ => .ok ({ w with obj := set w.obj a none }, .unit)
        | .ub => .ub
        | .hang => .hang
      else .ub
    | none => .ub
  | .use a op =>
    match w.obj a with
    | some x =>
      if ((Op.operand op).all fun o => (w.held o).isSome) &&
          (!visits op || (targets x.2).all fun o => (w.held o).isSome) then
        match Values.exec T (w.view x) op with
        | .ok r => .ok (w.back a r.1, r.2)
        | .ub => .ub
        | .hang => .hang
      else .ub
    | none => .ub

/-- A history (no code). -/
def run (T : IntTy) : List Cmd → World → Res World
  | [], w => .ok w
  | c :: cs, w => do
    let r ← exec T w c
    run T cs r.1

end Verif.Values.Life
