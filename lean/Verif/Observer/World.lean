import Verif.Observer.Model
/-!
Model of many `observable<T, true, Max>` objects and many observers that are constructed, copied,
assigned to and destroyed (`include/xitren/comm/observer.hpp:24-198`).

`Model.lean` follows one observable and takes the observers for alive.  Here objects have lifetimes:
an observable holds bare pointers, `~observer` (observer.hpp:31) does not deregister, and a call
through a pointer to an observer that no longer exists, or an access to an observable that no longer
exists, is undefined behaviour.  The copy constructor and the copy assignment of the observable are
the implicit ones: they copy `observers_`, `count_` and `inside` (observer.hpp:169-177); the declared
destructor (observer.hpp:83) suppresses the move operations, so a move copies.

Callbacks are arbitrary programs that may do anything the client can do, to any of the objects.
A *rule* says what a client may do, given what has happened so far; a program that breaks the rule
ends in the outcome `foul`, and nothing is said about it.  Addresses are numbers and can be used
again.  All observables have the same `Max`.

Not modelled: exceptions from callbacks (`notification`, `clear_observers` and the destructor are
`noexcept`: they terminate the program), threads, the storage behind the addresses.
-/
namespace Verif.Observer.World
open Verif Verif.Observer

/-- What a run gives: a result, undefined behaviour, too many nested calls for the fuel, or a step that
the rule does not allow (no code). -/
inductive Out (α : Type) where
  | ok (a : α)
  | ub
  | deep
  | foul
  deriving Repr, DecidableEq

namespace Out
/-- Sequencing (no code). -/
def bind {α β : Type} (x : Out α) (f : α → Out β) : Out β :=
  match x with
  | ok a => f a
  | ub => ub
  | deep => deep
  | foul => foul

instance : Monad Out where
  pure := ok
  bind := bind

@[simp] theorem ok_bind {α β : Type} (a : α) (f : α → Out β) : (Out.ok a >>= f) = f a := id rfl
@[simp] theorem ub_bind {α β : Type} (f : α → Out β) : ((Out.ub : Out α) >>= f) = Out.ub := id rfl
@[simp] theorem deep_bind {α β : Type} (f : α → Out β) : ((Out.deep : Out α) >>= f) = Out.deep := id rfl
@[simp] theorem foul_bind {α β : Type} (f : α → Out β) : ((Out.foul : Out α) >>= f) = Out.foul := id rfl
@[simp] theorem pure_eq {α : Type} (a : α) : (pure a : Out α) = Out.ok a := id rfl
end Out

/-- What a client can do with observables `a`, `b` and observers `o` (observer.hpp:31, 78, 83, 93-163 and the implicit copy operations). -/
inductive Op (V : Type) where
  /-- Construct an observable (observer.hpp:78). -/
  | make (a : Nat)
  /-- Construct the observable `a` as a copy of `b` (implicit). -/
  | copy (a b : Nat)
  /-- `a = b` (implicit). -/
  | assign (a b : Nat)
  /-- Destroy an observable (observer.hpp:83). -/
  | destroy (a : Nat)
  /-- Construct an observer. -/
  | born (o : Nat)
  /-- Destroy an observer (observer.hpp:31). -/
  | die (o : Nat)
  /-- `a.add_observer(o)` (observer.hpp:93). -/
  | add (a o : Nat)
  /-- `a.remove_observer(o)` (observer.hpp:114). -/
  | remove (a o : Nat)
  /-- `a.clear_observers()` (observer.hpp:133). -/
  | clear (a : Nat)
  /-- `a.notify_observers(v)` (observer.hpp:150). -/
  | notify (a : Nat) (v : V)
  deriving DecidableEq, Repr

/-- What a callback does: it ends, changes the user state, or does something with the objects (overrides of
observer.hpp:50-52, 61-63). -/
inductive Prog (V U : Type) where
  | ret (u : U)
  | set (u : U) (k : Prog V U)
  | call (op : Op V) (k : Err → U → Prog V U)

/-- The user's virtual functions: `data(a, v)` and `disconnect(a)` of the observer `o`
(observer.hpp:50-52, 61-63). -/
structure Handlers (V U : Type) where
  data : U → (a o : Nat) → V → Prog V U
  disconnect : U → (a o : Nat) → Prog V U

/-- Events (observer.hpp:39-43, 50-52, 93-163). -/
inductive Ev (V : Type) where
  /-- An operation starts. -/
  | began (op : Op V)
  /-- An operation returns. -/
  | ret (op : Op V) (e : Err)
  /-- `data(a, v)` of the observer `o` starts. -/
  | data (a o : Nat) (v : V)
  /-- `disconnect(a)` of the observer `o` starts. -/
  | disc (a o : Nat)
  /-- The callback of `o` returns. -/
  | leave (o : Nat)
  deriving DecidableEq, Repr

/-- The members of an observable (observer.hpp:169-177). -/
structure Obj where
  arr : List (Option Nat)
  count : Nat
  inside : Bool
  deriving DecidableEq, Repr

namespace Obj
/-- A new observable (observer.hpp:78, 169-177). -/
def new (mx : Nat) : Obj := ⟨List.replicate mx none, 0, false⟩

/-- `contains` (observer.hpp:186-194). -/
def contains (x : Obj) (o : Nat) : Bool := (x.arr.take x.count).contains (some o)

/-- `add_observer` (observer.hpp:93-104). -/
def add (x : Obj) (o : Nat) : Obj × Err :=
  if x.count ≥ x.arr.length then (x, .listIsFull)
  else if !x.contains o then ({ x with arr := x.arr.set x.count (some o), count := x.count + 1 }, .ok)
  else (x, .alreadyContains)

/-- The elements that `std::remove` keeps (observer.hpp:121). -/
def kept (x : Obj) (o : Nat) : List (Option Nat) := (x.arr.take x.count).filter (· != some o)

/-- `remove_observer` (observer.hpp:114-128): the elements behind the kept ones stay as they were. -/
def remove (x : Obj) (o : Nat) : Obj × Err :=
  if x.count > x.arr.length then (x, .internalDataBroken)
  else if x.count = 0 then (x, .notFound)
  else
    let it := (x.kept o).length
    let arr := x.kept o ++ x.arr.drop it
    if x.count - it ≠ 0 then ({ x with arr := arr, count := it }, .ok)
    else ({ x with arr := arr }, .notFound)

/-- Reading `observers_[i]`; outside the array or a null pointer cannot be called
(observer.hpp:136-137, 158-159). -/
def deref (x : Obj) (i : Nat) : Out Nat :=
  match x.arr[i]? with
  | some (some o) => .ok o
  | _ => .ub
end Obj

/-- `f` with the value `x` at `a` (no code). -/
def upd {α : Type} (f : Nat → α) (a : Nat) (x : α) : Nat → α := fun b => if b = a then x else f b

/-- All objects: the observables that exist with their members, the observers that exist, the user
state and the log (observer.hpp:24-198). -/
structure St (V U : Type) where
  objs : Nat → Option Obj
  alive : List Nat
  user : U
  log : List (Ev V)

/-- Nothing exists yet (no code). -/
def St.new {V U : Type} (u : U) : St V U := ⟨fun _ => none, [], u, []⟩

variable {V U : Type}

namespace St
/-- Record an event (no code). -/
def emit (s : St V U) (e : Ev V) : St V U := { s with log := s.log ++ [e] }

/-- Access to the members of the observable `a` (observer.hpp:93-163); undefined if it does not exist. -/
def get (s : St V U) (a : Nat) : Out Obj :=
  match s.objs a with
  | some x => .ok x
  | none => .ub

/-- New members of `a` (observer.hpp:93-163). -/
def put (s : St V U) (a : Nat) (x : Obj) : St V U := { s with objs := upd s.objs a (some x) }

/-- `a` ceases to exist (observer.hpp:83). -/
def drop (s : St V U) (a : Nat) : St V U := { s with objs := upd s.objs a none }

/-- Call a virtual function of `o` (observer.hpp:42, 137); undefined if it does not exist. -/
def enter (s : St V U) (o : Nat) (e : Ev V) : Out (St V U) :=
  if o ∈ s.alive then .ok (s.emit e) else .ub
end St

/-! ### What a client knows -/

/-- What can be told from the log: which objects exist, who is registered where (`reg`), how many
`notify`, `clear` and destructor calls of each observable are running (`run`), how many accepted
`notify` calls (`noting`), who was registered at some time since the outermost running call began
(`held`), how many at once at most (`peak`), and whether the flag `inside` is set (specification, no
code). -/
structure View where
  objs : List Nat
  alive : List Nat
  reg : Nat → List Nat
  run : Nat → Nat
  noting : Nat → Nat
  held : Nat → List Nat
  peak : Nat → Nat
  inside : Nat → Bool

namespace View
/-- Before everything (no code). -/
def new : View := ⟨[], [], fun _ => [], fun _ => 0, fun _ => 0, fun _ => [], fun _ => 0, fun _ => false⟩

/-- A call that visits the observers of `a` begins (no code). -/
def start (v : View) (a : Nat) : View :=
  { v with
    run := upd v.run a (v.run a + 1)
    held := if v.run a = 0 then upd v.held a (v.reg a) else v.held
    peak := if v.run a = 0 then upd v.peak a (v.reg a).length else v.peak }

/-- A call that visits the observers of `a` returns (no code). -/
def stop (v : View) (a : Nat) : View := { v with run := upd v.run a (v.run a - 1) }

/-- An operation begins (no code). -/
def began {V : Type} (v : View) : Op V → View
  | .notify a _ =>
    { v.start a with
      noting := if v.inside a then v.noting else upd v.noting a (v.noting a + 1)
      inside := upd v.inside a true }
  | .clear a => v.start a
  | .destroy a => v.start a
  | _ => v

/-- An operation returns (no code). -/
def ended {V : Type} (v : View) : Op V → Err → View
  | .make a, _ =>
    { v with objs := a :: v.objs, reg := upd v.reg a [], inside := upd v.inside a false }
  | .copy a b, _ =>
    { v with objs := a :: v.objs, reg := upd v.reg a (v.reg b), inside := upd v.inside a (v.inside b) }
  | .assign a b, _ =>
    { v with reg := upd v.reg a (v.reg b), inside := upd v.inside a (v.inside b) }
  | .destroy a, _ =>
    { v.stop a with objs := v.objs.filter (· != a), reg := upd v.reg a [] }
  | .born o, _ => { v with alive := o :: v.alive }
  | .die o, _ => { v with alive := v.alive.filter (· != o) }
  | .add a o, .ok =>
    { v with
      reg := upd v.reg a (v.reg a ++ [o])
      held := upd v.held a (v.held a ++ [o])
      peak := upd v.peak a (max (v.peak a) ((v.reg a).length + 1)) }
  | .remove a o, .ok => { v with reg := upd v.reg a ((v.reg a).filter (· != o)) }
  | .clear a, _ => { v.stop a with reg := upd v.reg a [] }
  | .notify a _, .ok =>
    { v.stop a with noting := upd v.noting a (v.noting a - 1), inside := upd v.inside a false }
  | .notify a _, _ => v.stop a
  | _, _ => v

/-- An event (no code). -/
def see {V : Type} (v : View) : Ev V → View
  | .began op => v.began op
  | .ret op e => v.ended op e
  | _ => v
end View

/-- What the log tells (no code). -/
def view (log : List (Ev V)) : View := log.foldl View.see View.new

/-- A rule for clients (no code). -/
abbrev Rule (V : Type) := View → Op V → Bool

/-- Only objects that exist are used and only addresses that are free are constructed on: what every
C++ program has to observe (no code). -/
def sane : Rule V := fun v op =>
  match op with
  | .make a => a ∉ v.objs
  | .copy a b => a ∉ v.objs ∧ b ∈ v.objs
  | .assign a b => a ∈ v.objs ∧ b ∈ v.objs
  | .destroy a => decide (a ∈ v.objs)
  | .born o => o ∉ v.alive
  | .die o => decide (o ∈ v.alive)
  | .add a o => a ∈ v.objs ∧ o ∈ v.alive
  | .remove a _ => decide (a ∈ v.objs)
  | .clear a => decide (a ∈ v.objs)
  | .notify a _ => decide (a ∈ v.objs)

/-- An observable is not destroyed and not assigned to while one of its functions visits its
observers (no code). -/
def steady : Rule V := fun v op =>
  match op with
  | .destroy a => v.run a = 0
  | .assign a _ => v.run a = 0
  | _ => true

/-- An observer that is destroyed is registered nowhere (no code). -/
def apart : Rule V := fun v op =>
  match op with
  | .die o => v.objs.all fun a => o ∉ v.reg a
  | _ => true

/-- An observer that is destroyed has not been registered, since the outermost running call began,
with an observable that is visiting its observers (no code). -/
def patient : Rule V := fun v op =>
  match op with
  | .die o => v.objs.all fun a => v.run a = 0 ∨ o ∉ v.held a
  | _ => true

/-- All four (no code). -/
def careful : Rule V := fun v op => sane v op && steady v op && apart v op && patient v op

/-! ### Running -/

/-- Run an operation (no code). -/
abbrev Ex (V U : Type) := St V U → Op V → Out (St V U × Err)

/-- Running a callback (overrides of observer.hpp:50-52, 61-63). -/
def runProg (ex : Ex V U) : Prog V U → St V U → Out (St V U)
  | .ret u, s => .ok { s with user := u }
  | .set u k, s => runProg ex k { s with user := u }
  | .call op k, s => do
    let r ← ex s op
    runProg ex (k r.2 r.1.user) r.1

/-- The loops of `notify_observers` and `clear_observers` (observer.hpp:158-160, 136-138): `left`
elements from index `i`; the number is fixed when the loop starts, the elements are read when they are
reached. -/
def loop (ex : Ex V U) (ev : Nat → Ev V) (p : U → Nat → Prog V U) (a i : Nat) :
    Nat → St V U → Out (St V U)
  | 0, s => .ok s
  | left + 1, s => do
    let x ← s.get a
    let o ← x.deref i
    let s ← s.enter o (ev o)
    let s ← runProg ex (p s.user o) s
    loop ex ev p a (i + 1) left (s.emit (.leave o))

/-- `notify_observers` (observer.hpp:150-163). -/
def notifyObs (ex : Ex V U) (H : Handlers V U) (a : Nat) (v : V) (s : St V U) : Out (St V U × Err) := do
  let x ← s.get a
  if x.count > x.arr.length then .ok (s, .internalDataBroken)
  else if x.inside then .ok (s, .notifyRecursionDetected)
  else do
    let s := s.put a { x with inside := true }
    let s ← loop ex (fun o => .data a o v) (fun u o => H.data u a o v) a 0 x.count s
    let x ← s.get a
    .ok (s.put a { x with inside := false }, .ok)

/-- `clear_observers` (observer.hpp:133-140). -/
def clearObs (ex : Ex V U) (H : Handlers V U) (a : Nat) (s : St V U) : Out (St V U) := do
  let x ← s.get a
  let s ← loop ex (fun o => .disc a o) (fun u o => H.disconnect u a o) a 0 x.count s
  let x ← s.get a
  .ok (s.put a { x with count := 0 })

/-- One operation (observer.hpp:31, 78, 83, 93-163 and the implicit copy operations). -/
def body (mx : Nat) (ex : Ex V U) (H : Handlers V U) (s : St V U) : Op V → Out (St V U × Err)
  | .make a => .ok (s.put a (Obj.new mx), .ok)
  | .copy a b => do
    let x ← s.get b
    .ok (s.put a x, .ok)
  | .assign a b => do
    let x ← s.get b
    let _ ← s.get a
    .ok (s.put a x, .ok)
  | .destroy a => do
    let s ← clearObs ex H a s
    .ok (s.drop a, .ok)
  | .born o => .ok ({ s with alive := o :: s.alive }, .ok)
  | .die o => .ok ({ s with alive := s.alive.filter (· != o) }, .ok)
  | .add a o => do
    let x ← s.get a
    .ok (s.put a (x.add o).1, (x.add o).2)
  | .remove a o => do
    let x ← s.get a
    .ok (s.put a (x.remove o).1, (x.remove o).2)
  | .clear a => do
    let s ← clearObs ex H a s
    .ok (s, .ok)
  | .notify a v => notifyObs ex H a v s

/-- One operation of a client that keeps to the rule (observer.hpp:31, 78, 83, 93-163). -/
def execStep (rule : Rule V) (mx : Nat) (ex : Ex V U) (H : Handlers V U) (s : St V U) (op : Op V) :
    Out (St V U × Err) :=
  if rule (view s.log) op then do
    let r ← body mx ex H (s.emit (.began op)) op
    .ok (r.1.emit (.ret op r.2), r.2)
  else .foul

/-- With at most `n` levels of nested operations (observer.hpp:31, 78, 83, 93-163). -/
def exec (rule : Rule V) (mx : Nat) (H : Handlers V U) : Nat → Ex V U
  | 0, _, _ => .deep
  | n + 1, s, op => execStep rule mx (exec rule mx H n) H s op

/-- States between operations of a client that keeps to the rule (no code). -/
inductive Reach (rule : Rule V) (mx : Nat) (H : Handlers V U) : St V U → Prop
  | new (u : U) : Reach rule mx H (St.new u)
  | call (s s' : St V U) (n : Nat) (op : Op V) (e : Err) :
      Reach rule mx H s → exec rule mx H n s op = .ok (s', e) → Reach rule mx H s'
  | user (s : St V U) (u : U) : Reach rule mx H s → Reach rule mx H { s with user := u }

end Verif.Observer.World
