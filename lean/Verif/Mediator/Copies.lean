import Verif.Mediator.Model
/-!
Lifetimes and copies of mediators and their modules (`include/xitren/comm/mediator.hpp`): any number of managers and modules are constructed,
copied and destroyed by one thread.

No copy constructor is declared or deleted, so that both classes have the implicit ones.  The copy of a module (mediator.hpp:22-59, 124-262)
has the same `id_` and the same `mediator_`, but only the other constructor registers (mediator.hpp:135); its destructor calls
`remove_module` all the same (mediator.hpp:140).  There is no move constructor, so that moving a module copies it.  Modules cannot be
assigned to (`id_` is `const`, mediator.hpp:31).  The copy of a manager has the same pointers (mediator.hpp:375-380); the modules know only
the manager they were constructed with.  Managers can be assigned to.

An object is known by its address, and addresses may be used again; a stale pointer to an address where there is another module now leads to
that one.  The callbacks only record that `receive` was called: what `receive` does with a message is in `Model.lean`, callbacks that do
more are in `Dynamic.lean`.  The places of `modules_` that were never written hold null here (the array is zero if the manager is made with
`{}`); they are never used but for being copied.
-/
namespace Verif.Mediator.Copies
open Verif Verif.Mediator

/-- The members of `base::module`: `id_` and `mediator_` (mediator.hpp:31-36). -/
structure Mod where
  id : Nat
  mgr : Nat
  deriving DecidableEq, Repr

/-- The members of `manager<Sources>`: `modules_`, which has `Sources` places, and `modules_cnt_` (mediator.hpp:375-380). -/
structure Mgr where
  arr : List (Option Nat)
  cnt : Nat
  deriving DecidableEq, Repr

/-- What is called: the hook `data` of a manager (mediator.hpp:342) and `receive` of a module (mediator.hpp:316, 345). -/
inductive Ev where
  | hook (a id : Nat) (bytes : List Byte)
  | got (m id : Nat) (bytes : List Byte)
  deriving DecidableEq, Repr

/-- All managers and modules that exist, and what was called. -/
structure St where
  mgrs : Nat → Option Mgr
  mods : Nat → Option Mod
  log : List Ev

/-- What the program does. -/
inductive Op where
  /-- Construct `manager<n>` at `a` (mediator.hpp:264-270, 375-380). -/
  | makeMgr (a n : Nat)
  /-- Construct a manager at `b` as a copy of the one at `a` (implicit, mediator.hpp:264-265). -/
  | copyMgr (a b : Nat)
  /-- Assign the manager at `a` to the one at `b`, which has as many places (implicit, mediator.hpp:264-265). -/
  | assignMgr (a b : Nat)
  /-- Destroy a manager (mediator.hpp:270). -/
  | dropMgr (a : Nat)
  /-- Construct a module at `m`, of a type with this id, with the manager at `a` (mediator.hpp:24, 135). -/
  | make (m id a : Nat)
  /-- Construct a module at `k` as a copy of the one at `m`, or by moving it (implicit, mediator.hpp:124-125). -/
  | copy (m k : Nat)
  /-- Destroy a module (mediator.hpp:140). -/
  | drop (m : Nat)
  /-- The module at `m` sends (mediator.hpp:147-153, 177-181). -/
  | send (m : Nat) (bytes : List Byte)
  /-- The manager at `a` sends (mediator.hpp:308-319). -/
  | cast (a id : Nat) (bytes : List Byte)
  deriving DecidableEq, Repr

/-- A function changed in one place (no code). -/
def set {β : Type} (f : Nat → β) (i : Nat) (x : β) : Nat → β := fun j => if j = i then x else f j

/-- `add_module` (mediator.hpp:277-281). -/
def Mgr.add (g : Mgr) (m : Nat) : Res Mgr :=
  if g.cnt < g.arr.length then .ok ⟨g.arr.set g.cnt (some m), g.cnt + 1⟩ else .ub

/-- The outer loop of `remove_module` (mediator.hpp:291-300): `n` places left from `i`. -/
def Mgr.search (g : Mgr) (m : Nat) : Nat → Nat → Res Mgr
  | 0, _ => .ok g
  | n + 1, i =>
    match g.arr[i]? with
    | none => .ub
    | some p =>
      if p = some m then do
        let arr ← shift (g.cnt - 1 - i) i g.arr
        if g.cnt < arr.length then .ok ⟨arr.set g.cnt none, g.cnt - 1⟩ else .ub
      else g.search m n (i + 1)

/-- `remove_module` (mediator.hpp:288-301). -/
def Mgr.remove (g : Mgr) (m : Nat) : Res Mgr := g.search m g.cnt 0

/-- The loops of `send` and `distribute` (mediator.hpp:312-318, 343-347): `n` places left from `i`.  Following a pointer to a module that
does not exist is undefined. -/
def deliver (s : St) (g : Mgr) (id : Nat) (bytes : List Byte) : Nat → Nat → List Ev → Res (List Ev)
  | 0, _, log => .ok log
  | n + 1, i, log =>
    match g.arr[i]? with
    | some (some m) =>
      match s.mods m with
      | some x => deliver s g id bytes n (i + 1) (if x.id ≠ id then log ++ [.got m id bytes] else log)
      | none => .ub
    | _ => .ub

/-- One operation.  Undefined: using an object that does not exist, and constructing one where there is one already. -/
def exec (s : St) : Op → Res St
  | .makeMgr a n =>
    match s.mgrs a with
    | none => .ok { s with mgrs := set s.mgrs a (some ⟨List.replicate n none, 0⟩) }
    | some _ => .ub
  | .copyMgr a b =>
    match s.mgrs a, s.mgrs b with
    | some g, none => .ok { s with mgrs := set s.mgrs b (some g) }
    | _, _ => .ub
  | .assignMgr a b =>
    match s.mgrs a, s.mgrs b with
    | some g, some h => if g.arr.length = h.arr.length then .ok { s with mgrs := set s.mgrs b (some g) } else .ub
    | _, _ => .ub
  | .dropMgr a =>
    match s.mgrs a with
    | some _ => .ok { s with mgrs := set s.mgrs a none }
    | none => .ub
  | .make m id a =>
    match s.mods m, s.mgrs a with
    | none, some g => do
      let g' ← g.add m
      .ok { s with mods := set s.mods m (some ⟨id, a⟩), mgrs := set s.mgrs a (some g') }
    | _, _ => .ub
  | .copy m k =>
    match s.mods m, s.mods k with
    | some x, none => .ok { s with mods := set s.mods k (some x) }
    | _, _ => .ub
  | .drop m =>
    match s.mods m with
    | some x =>
      match s.mgrs x.mgr with
      | some g => do
        let g' ← g.remove m
        .ok { s with mods := set s.mods m none, mgrs := set s.mgrs x.mgr (some g') }
      | none => .ub
    | none => .ub
  | .send m bytes =>
    match s.mods m with
    | some x =>
      match s.mgrs x.mgr with
      | some g => do
        let log ← deliver s g x.id bytes g.cnt 0 (s.log ++ [.hook x.mgr x.id bytes])
        .ok { s with log := log }
      | none => .ub
    | none => .ub
  | .cast a id bytes =>
    match s.mgrs a with
    | some g => do
      let log ← deliver s g id bytes g.cnt 0 s.log
      .ok { s with log := log }
    | none => .ub

/-- A history (no code). -/
def run : List Op → St → Res St
  | [], s => .ok s
  | op :: ops, s => do
    let s ← exec s op
    run ops s

/-- Nothing exists (no code). -/
def St.start : St := ⟨fun _ => none, fun _ => none, []⟩

end Verif.Mediator.Copies
