import Verif.Values.Reentrant
import Verif.Observer.World
/-!
Model of many `values::observable` objects of both kinds and many `values::observed` objects that are constructed and destroyed
(`include/xitren/comm/values/observable.hpp`, `include/xitren/comm/values/observed.hpp`), where the `on_update` functions and the
overridden `disconnect` functions are arbitrary programs that may update, register with, construct and destroy any of the
objects.  `Life.lean` has many objects whose functions only record that they ran, `Reentrant.lean` and `DynReentrant.lean` have one
observable that always exists; here both are together, so that chains and nets of values that depend on each other are covered.

An observable holds bare pointers and `~observed` (observed.hpp:50) does not deregister: a call through a pointer to an observed that
no longer exists is undefined, and so is an access to an observable that no longer exists.  `Max = 0` is the specialisation with the
`std::vector` (observable.hpp:269-500).  Every observable carries a `stamp` that is new when it is constructed and, for
`Max = 0`, after every operation that invalidates the past-the-end iterator of the vector (`emplace_back` and `clear`; `std::remove`
invalidates nothing); a loop that goes on over an object with another stamp is undefined.  The loop over the array
(`std::views::counted`) does not touch the object any more after the last element; the loop over the vector compares
iterators.  `function_` is a member of the observed, so that destroying an observed while its function runs is
undefined.

Rules, logs and outcomes are as in `Observer/World.lean`: a program that breaks the rule ends in `foul`, and nothing is said about it.
All observables have the same `T`.  Replacing a function with `on_update` is a change of the user state, on which all functions depend;
replacing it while it runs is in `Replace.lean`.  Not modelled are exceptions (`notify_observers`, `clear_observers` and `notification` are
`noexcept`), exhausted memory, threads (`Races.lean`), and more than `2^32 - 1` places.
-/
namespace Verif.Values.World
open Verif Verif.Values
open Verif.Values.Re (Upd stored)
open Verif.Observer.World (Out upd)

/-- What a client can do with observables `a` and observed objects `o` (observable.hpp:30-220, 276-462, observed.hpp:27-50). -/
inductive Op where
  /-- Construct an observable with `Max = max` (observable.hpp:158, 404). -/
  | make (a max : Nat)
  /-- Destroy an observable (observable.hpp:163, 409). -/
  | destroy (a : Nat)
  /-- Construct an observed (observed.hpp:27-28). -/
  | born (o : Nat)
  /-- Destroy an observed (observed.hpp:50). -/
  | die (o : Nat)
  /-- An update operator of `a` (observable.hpp:36-146, 282-392). -/
  | upd (a : Nat) (u : Upd)
  /-- `a.add_observer(o)` (observable.hpp:173-184, 419-428). -/
  | add (a o : Nat)
  /-- `a.remove_observer(o)` (observable.hpp:194-208, 438-450). -/
  | remove (a o : Nat)
  /-- `a.clear_observers()` (observable.hpp:213-220, 455-462). -/
  | clear (a : Nat)
  /-- `a.value()` (observable.hpp:30-34, 276-280). -/
  | read (a : Nat)
  /-- `o.value()` (observed.hpp:41-45). -/
  | look (o : Nat)
  deriving DecidableEq, Repr

/-- What a function does: it ends, changes the user state, or does something with the objects (functions of observed.hpp:35-39, 69-71). -/
inductive Prog (U : Type) where
  | ret (u : U)
  | set (u : U) (k : Prog U)
  | call (op : Op) (k : Ret → U → Prog U)

/-- The `on_update` function of the observed `o` with the value (`data` does not pass the source on, observed.hpp:75-79) and
`disconnect(a)` of `o` (observed.hpp:69-71). -/
structure Handlers (U : Type) where
  update : U → (o : Nat) → Int → Prog U
  disconnect : U → (a o : Nat) → Prog U

/-- Events (observed.hpp:58-81, observable.hpp:30-220, 276-462). -/
inductive Ev where
  /-- An operation starts. -/
  | began (op : Op)
  /-- An operation returns. -/
  | ret (op : Op) (r : Ret)
  /-- `notification(a, v)` of the observed `o` starts. -/
  | told (a o : Nat) (v : Int)
  /-- `disconnect(a)` of the observed `o` starts. -/
  | disc (a o : Nat)
  /-- One of these two returns. -/
  | leave (o : Nat)
  deriving DecidableEq, Repr

/-- The members of an observable: the value, the array or the elements of the vector, the number of registered observers (the size
of the vector), and what tells whether the loops may go on (observable.hpp:23, 245-249, 485). -/
structure Obj where
  value : Int
  max : Nat
  arr : List (Option Nat)
  count : Nat
  stamp : Nat
  deriving DecidableEq, Repr

namespace Obj
/-- A new observable (observable.hpp:158, 404); the value is zero (`std::atomic` initialises it since C++20). -/
def new (max stamp : Nat) : Obj := ⟨0, max, List.replicate max none, 0, stamp⟩

/-- `contains` (observable.hpp:258-266, 494-499). -/
def contains (x : Obj) (o : Nat) : Bool := (x.arr.take x.count).contains (some o)

/-- `add_observer` (observable.hpp:173-184; 419-428 for the vector, whose `emplace_back` invalidates the past-the-end
iterator). -/
def add (x : Obj) (fresh o : Nat) : Obj × Err :=
  if x.max = 0 then
    if !x.contains o then ({ x with arr := x.arr ++ [some o], count := x.count + 1, stamp := fresh }, .ok)
    else (x, .alreadyContains)
  else if x.count ≥ x.max then (x, .listIsFull)
  else if !x.contains o then ({ x with arr := x.arr.set x.count (some o), count := x.count + 1 }, .ok)
  else (x, .alreadyContains)

/-- `remove_observer` (observable.hpp:194-208; 438-450 for the vector, from which nothing is erased). -/
def remove (x : Obj) (o : Nat) : Obj × Err :=
  if x.max = 0 then
    if x.arr = [] then (x, .notFound)
    else
      let r := stdRemove (some o) x.arr
      if r.2 ≠ x.arr.length then ({ x with arr := r.1 }, .ok) else ({ x with arr := r.1 }, .notFound)
  else if x.count > x.max then (x, .internalDataBroken)
  else if x.count = 0 then (x, .notFound)
  else
    let r := stdRemove (some o) (x.arr.take x.count)
    let arr := r.1 ++ x.arr.drop x.count
    if x.count - r.2 ≠ 0 then ({ x with arr := arr, count := r.2 }, .ok)
    else ({ x with arr := arr }, .notFound)

/-- `count_ = 0` (observable.hpp:219) and `observers_.clear()` (observable.hpp:461). -/
def empty (x : Obj) (fresh : Nat) : Obj :=
  if x.max = 0 then { x with arr := [], count := 0, stamp := fresh } else { x with count := 0 }

/-- Reading an element; outside the array or a null pointer cannot be called (observable.hpp:216-217, 235-236, 458-459,
475-476). -/
def deref (x : Obj) (i : Nat) : Out Nat :=
  match x.arr[i]? with
  | some (some o) => .ok o
  | _ => .ub
end Obj

/-- All objects: the observables that exist with their members, the observed objects that exist, the values they hold (observed.hpp:23), how
often the function of each is running, the next stamp, the user state and the log. -/
structure St (U : Type) where
  objs : Nat → Option Obj
  alive : List Nat
  held : Nat → Int
  busy : Nat → Nat
  fresh : Nat
  user : U
  log : List Ev

/-- Nothing exists yet (no code). -/
def St.new {U : Type} (u : U) : St U := ⟨fun _ => none, [], fun _ => 0, fun _ => 0, 0, u, []⟩

variable {U : Type}

namespace St
/-- Record an event (no code). -/
def emit (s : St U) (e : Ev) : St U := { s with log := s.log ++ [e] }

/-- Access to the members of the observable `a` (observable.hpp:30-239, 276-479); undefined if it does not exist. -/
def get (s : St U) (a : Nat) : Out Obj :=
  match s.objs a with
  | some x => .ok x
  | none => .ub

/-- New members of `a`; a stamp may have been used (observable.hpp:30-239, 276-479). -/
def put (s : St U) (a : Nat) (x : Obj) : St U := { s with objs := Observer.World.upd s.objs a (some x), fresh := s.fresh + 1 }

/-- `a` ceases to exist (observable.hpp:163, 409). -/
def drop (s : St U) (a : Nat) : St U := { s with objs := Observer.World.upd s.objs a none }
end St

/-! ### What a client knows -/

/-- What can be told from the log: which observables exist and with which `Max`, which observed objects exist, whom each observable has in its
list, how many update, `clear` and destructor calls of each observable are running, the value of each observable, and the value of each observed
(specification, no code). -/
structure View where
  objs : List Nat
  max : Nat → Nat
  alive : List Nat
  reg : Nat → List Nat
  run : Nat → Nat
  val : Nat → Int
  held : Nat → Int

namespace View
/-- Before everything (no code). -/
def new : View := ⟨[], fun _ => 0, [], fun _ => [], fun _ => 0, fun _ => 0, fun _ => 0⟩

/-- An operation begins (no code). -/
def began (T : IntTy) (v : View) : Op → View
  | .upd a u => { v with run := upd v.run a (v.run a + 1), val := upd v.val a (stored T (v.val a) u) }
  | .clear a | .destroy a => { v with run := upd v.run a (v.run a + 1) }
  | _ => v

/-- What is left of a list after a removal: without a capacity as many as before, the last ones twice (no code). -/
def without (dyn : Bool) (l : List Nat) (o : Nat) : List Nat :=
  l.filter (· != o) ++ if dyn then l.drop (l.filter (· != o)).length else []

/-- An operation returns (no code). -/
def ended (v : View) : Op → Ret → View
  | .make a m, _ =>
    { v with objs := a :: v.objs, max := upd v.max a m, reg := upd v.reg a [], val := upd v.val a 0 }
  | .destroy a, _ =>
    { v with objs := v.objs.filter (· != a), reg := upd v.reg a [], run := upd v.run a (v.run a - 1) }
  | .born o, _ => { v with alive := o :: v.alive, held := upd v.held o 0 }
  | .die o, _ => { v with alive := v.alive.filter (· != o) }
  | .add a o, .err .ok => { v with reg := upd v.reg a (v.reg a ++ [o]) }
  | .remove a o, .err .ok => { v with reg := upd v.reg a (without (v.max a == 0) (v.reg a) o) }
  | .clear a, _ => { v with reg := upd v.reg a [], run := upd v.run a (v.run a - 1) }
  | .upd a _, _ => { v with run := upd v.run a (v.run a - 1) }
  | _, _ => v

/-- An event (no code). -/
def see (T : IntTy) (v : View) : Ev → View
  | .began op => v.began T op
  | .ret op r => v.ended op r
  | .told _ o x => { v with held := upd v.held o x }
  | _ => v
end View

/-- What the log tells (no code). -/
def view (T : IntTy) (log : List Ev) : View := log.foldl (View.see T) View.new

/-- What an operator sends and returns; undefined if signed arithmetic overflows (observable.hpp:36-146, 282-392). -/
def resultOut (T : IntTy) (old : Int) (u : Upd) : Out Int :=
  match Re.result T old u with
  | .ok v => .ok v
  | .ub => .ub
  | .hang => .deep

/-- A rule for clients (no code). -/
abbrev Rule := View → Op → Bool

/-- Only objects that exist are used, only addresses that are free are constructed on, and signed arithmetic does not overflow: what every
C++ program has to observe (no code). -/
def sane (T : IntTy) : Rule := fun v op =>
  match op with
  | .make a _ => a ∉ v.objs
  | .destroy a => decide (a ∈ v.objs)
  | .born o => o ∉ v.alive
  | .die o => decide (o ∈ v.alive)
  | .upd a u => a ∈ v.objs ∧ resultOut T (v.val a) u ≠ .ub
  | .add a o => a ∈ v.objs ∧ o ∈ v.alive
  | .remove a _ => decide (a ∈ v.objs)
  | .clear a => decide (a ∈ v.objs)
  | .read a => decide (a ∈ v.objs)
  | .look o => decide (o ∈ v.alive)

/-- While one of its functions visits its observers, an observable is neither destroyed nor cleared, nobody is removed from it, and if it has no
capacity nobody is added (no code). -/
def steady : Rule := fun v op =>
  match op with
  | .add a o => v.run a = 0 ∨ v.max a ≠ 0 ∨ o ∈ v.reg a
  | .remove a o => v.run a = 0 ∨ o ∉ v.reg a
  | .clear a => v.run a = 0
  | .destroy a => v.run a = 0
  | _ => true

/-- An observed that is destroyed is in no list (no code). -/
def apart : Rule := fun v op =>
  match op with
  | .die o => v.objs.all fun a => o ∉ v.reg a
  | _ => true

/-- All three (no code). -/
def careful (T : IntTy) : Rule := fun v op => sane T v op && steady v op && apart v op

/-! ### Running -/

/-- Run an operation (no code). -/
abbrev Ex (U : Type) := St U → Op → Out (St U × Ret)

/-- Running a function of the user (functions of observed.hpp:35-39, 69-71). -/
def runProg (ex : Ex U) : Prog U → St U → Out (St U)
  | .ret u, s => .ok { s with user := u }
  | .set u k, s => runProg ex k { s with user := u }
  | .call op k, s => do
    let r ← ex s op
    runProg ex (k r.2 r.1.user) r.1

/-- `observed::notification` and `data` (observed.hpp:58-62, 74-81); undefined if the observed does not exist. -/
def tell (ex : Ex U) (H : Handlers U) (a : Nat) (v : Int) (o : Nat) (s : St U) : Out (St U) :=
  if o ∈ s.alive then do
    let s ← runProg ex (H.update s.user o v)
      ({ s with held := upd s.held o v, busy := upd s.busy o (s.busy o + 1) }.emit (.told a o v))
    .ok ({ s with busy := upd s.busy o (s.busy o - 1) }.emit (.leave o))
  else .ub

/-- `disconnect` (observed.hpp:69-71); undefined if the observed does not exist. -/
def part (ex : Ex U) (H : Handlers U) (a : Nat) (o : Nat) (s : St U) : Out (St U) :=
  if o ∈ s.alive then do
    let s ← runProg ex (H.disconnect s.user a o) (s.emit (.disc a o))
    .ok (s.emit (.leave o))
  else .ub

/-- Going on with the loops: the observable has to exist, and the iterators have to be valid (observable.hpp:216, 235, 458, 475). -/
def valid (s : St U) (a g : Nat) : Out Obj := do
  let x ← s.get a
  if x.stamp = g then .ok x else .ub

/-- The loops of `notify_observers` and `clear_observers` (observable.hpp:216-218, 235-237, 458-460, 475-477) over an object with the stamp `g`:
at position `i`, with so many elements left; `f` is the body.  The number of elements is fixed when the loop starts, they are read when they are
reached. -/
def loop (f : Nat → St U → Out (St U)) (dyn : Bool) (a g i : Nat) : Nat → St U → Out (St U)
  | 0, s => if dyn then do
      let _ ← valid s a g
      .ok s
    else .ok s
  | left + 1, s => do
    let x ← valid s a g
    let o ← x.deref i
    let s ← f o s
    loop f dyn a g (i + 1) left s

/-- An update operator and `notify_observers` (observable.hpp:36-146, 230-239, 282-392, 472-479). -/
def update (ex : Ex U) (H : Handlers U) (T : IntTy) (a : Nat) (u : Upd) (s : St U) : Out (St U × Ret) := do
  let x ← s.get a
  let v ← resultOut T x.value u
  let s := s.put a { x with value := stored T x.value u }
  if x.max ≠ 0 ∧ x.count > x.max then .ok (s, .val v)
  else do
    let s ← loop (tell ex H a v) (x.max == 0) a x.stamp 0 x.count s
    .ok (s, .val v)

/-- `clear_observers` (observable.hpp:213-220, 455-462). -/
def clearObs (ex : Ex U) (H : Handlers U) (a : Nat) (s : St U) : Out (St U) := do
  let x ← s.get a
  let s ← loop (part ex H a) (x.max == 0) a x.stamp 0 x.count s
  let y ← s.get a
  .ok (s.put a (y.empty s.fresh))

/-- One operation (observable.hpp:30-239, 276-479, observed.hpp:27-50). -/
def body (T : IntTy) (ex : Ex U) (H : Handlers U) (s : St U) : Op → Out (St U × Ret)
  | .make a m => .ok (s.put a (Obj.new m s.fresh), .unit)
  | .destroy a => do
    let s ← clearObs ex H a s
    .ok (s.drop a, .unit)
  | .born o => .ok ({ s with alive := o :: s.alive, held := upd s.held o 0 }, .unit)
  | .die o => if 0 < s.busy o then .ub else .ok ({ s with alive := s.alive.filter (· != o) }, .unit)
  | .upd a u => update ex H T a u s
  | .add a o => do
    let x ← s.get a
    .ok (s.put a (x.add s.fresh o).1, .err (x.add s.fresh o).2)
  | .remove a o => do
    let x ← s.get a
    .ok (s.put a (x.remove o).1, .err (x.remove o).2)
  | .clear a => do
    let s ← clearObs ex H a s
    .ok (s, .unit)
  | .read a => do
    let x ← s.get a
    .ok (s, .val x.value)
  | .look o => .ok (s, .val (s.held o))

/-- One operation of a client that keeps to the rule (observable.hpp:30-239, 276-479, observed.hpp:27-50). -/
def execStep (rule : Rule) (T : IntTy) (ex : Ex U) (H : Handlers U) (s : St U) (op : Op) : Out (St U × Ret) :=
  if rule (view T s.log) op then do
    let r ← body T ex H (s.emit (.began op)) op
    .ok (r.1.emit (.ret op r.2), r.2)
  else .foul

/-- With fewer than `n` levels of nested operations (observable.hpp:30-239, 276-479, observed.hpp:27-50). -/
def exec (rule : Rule) (T : IntTy) (H : Handlers U) : Nat → Ex U
  | 0, _, _ => .deep
  | n + 1, s, op => execStep rule T (exec rule T H n) H s op

/-- States between operations of a client that keeps to the rule (no code). -/
inductive Reach (rule : Rule) (T : IntTy) (H : Handlers U) : St U → Prop
  | new (u : U) : Reach rule T H (St.new u)
  | call (s s' : St U) (n : Nat) (op : Op) (r : Ret) :
      Reach rule T H s → exec rule T H n s op = .ok (s', r) → Reach rule T H s'
  | user (s : St U) (u : U) : Reach rule T H s → Reach rule T H { s with user := u }

end Verif.Values.World
