import Verif.Observer.Callbacks
import Verif.Observer.WorldProps
/-!
Model of many `observable<T, false>` objects and many observers that are constructed, copied, assigned to and destroyed
(`include/xitren/comm/observer.hpp:24-63, 200-344`); the counterpart of `World.lean` for the variant without a capacity.

`observers_` is a `std::vector` of bare pointers that `notify_observers` and `clear_observers` walk with iterators taken
when the loop starts.  Each vector carries a `stamp` that is new after every operation that invalidates the past-the-end iterator (a
`push_back`, an `erase` that erases something, `clear`, an assignment); a loop that goes on over a vector with another stamp,
or over one that no longer exists, is undefined.  So is a call on an observer that no longer exists (`~observer`,
observer.hpp:31, does not deregister).

There are two builds (`lock`).  Without `PTHREAD_MUTEX_DEFAULT` there is no mutex, and copies are the implicit ones (the declared
destructor suppresses moves).  With it every member function locks `access_`, which is undefined for a thread that holds it
already, and a `std::mutex` makes the object neither copyable nor assignable.

Callbacks, rules and logs are those of `World.lean`; an exception of a member function is a result that the calling program
sees.  Not modelled: exceptions that leave callbacks (`Throws.lean` has them for one object), exhausted memory, threads.
-/
namespace Verif.Observer.World.Unb
open Verif Verif.Observer

/-- The members of an observable: the vector, what tells whether iterators are still valid, and whether `access_` is locked
(observer.hpp:321-324). -/
structure Obj where
  obs : List Nat
  stamp : Nat
  locked : Bool
  deriving DecidableEq, Repr

/-- All objects: the observables that exist, the observers that exist, the next stamp, the user state and the log
(observer.hpp:24-63, 200-344). -/
structure St (V U : Type) where
  objs : Nat → Option Obj
  alive : List Nat
  fresh : Nat
  user : U
  log : List (Ev V)

/-- Nothing exists yet (no code). -/
def St.new {V U : Type} (u : U) : St V U := ⟨fun _ => none, [], 0, u, []⟩

variable {V U : Type}

namespace St
/-- Record an event (no code). -/
def emit (s : St V U) (e : Ev V) : St V U := { s with log := s.log ++ [e] }

/-- Access to the members of the observable `a` (observer.hpp:254-318); undefined if it does not exist. -/
def get (s : St V U) (a : Nat) : Out Obj :=
  match s.objs a with
  | some x => .ok x
  | none => .ub

/-- The vector of `a` gets other elements, iterators become invalid (observer.hpp:261, 281, 298 and the implicit copy operations). -/
def fill (s : St V U) (a : Nat) (obs : List Nat) (locked : Bool) : St V U :=
  { s with objs := upd s.objs a (some ⟨obs, s.fresh, locked⟩), fresh := s.fresh + 1 }

/-- `access_` of `a` is locked or unlocked (observer.hpp:292-293, 312-313). -/
def hold (s : St V U) (a : Nat) (x : Obj) (b : Bool) : St V U := { s with objs := upd s.objs a (some { x with locked := b }) }

/-- `a` ceases to exist (observer.hpp:244). -/
def drop (s : St V U) (a : Nat) : St V U := { s with objs := upd s.objs a none }

/-- Call a virtual function of `o` (observer.hpp:42, 296); undefined if it does not exist. -/
def enter (s : St V U) (o : Nat) (e : Ev V) : Out (St V U) :=
  if o ∈ s.alive then .ok (s.emit e) else .ub
end St

/-! ### What a client knows -/

/-- What can be told from the log: which objects exist, who is registered where, and how many `notify`, `clear` and destructor
calls of each observable are running (specification, no code). -/
structure View where
  objs : List Nat
  alive : List Nat
  reg : Nat → List Nat
  run : Nat → Nat

namespace View
/-- Before everything (no code). -/
def new : View := ⟨[], [], fun _ => [], fun _ => 0⟩

/-- An operation begins (no code). -/
def began (v : View) : Op V → View
  | .notify a _ | .clear a | .destroy a => { v with run := upd v.run a (v.run a + 1) }
  | _ => v

/-- An operation returns (no code). -/
def ended (v : View) : Op V → Err → View
  | .make a, _ => { v with objs := a :: v.objs, reg := upd v.reg a [] }
  | .copy a b, _ => { v with objs := a :: v.objs, reg := upd v.reg a (v.reg b) }
  | .assign a b, _ => { v with reg := upd v.reg a (v.reg b) }
  | .destroy a, _ =>
    { v with objs := v.objs.filter (· != a), reg := upd v.reg a [], run := upd v.run a (v.run a - 1) }
  | .born o, _ => { v with alive := o :: v.alive }
  | .die o, _ => { v with alive := v.alive.filter (· != o) }
  | .add a o, .ok => { v with reg := upd v.reg a (v.reg a ++ [o]) }
  | .remove a o, .ok => { v with reg := upd v.reg a ((v.reg a).filter (· != o)) }
  | .clear a, _ => { v with reg := upd v.reg a [], run := upd v.run a (v.run a - 1) }
  | .notify a _, _ => { v with run := upd v.run a (v.run a - 1) }
  | _, _ => v

/-- An event (no code). -/
def see (v : View) : Ev V → View
  | .began op => v.began op
  | .ret op e => v.ended op e
  | _ => v
end View

/-- What the log tells (no code). -/
def view (log : List (Ev V)) : View := log.foldl View.see View.new

/-- A rule for clients (no code). -/
abbrev Rule (V : Type) := View → Op V → Bool

/-- Only objects that exist are used, only addresses that are free are constructed on, and what cannot be copied is not: what
every C++ program has to observe (no code). -/
def sane (lock : Bool) : Rule V := fun v op =>
  match op with
  | .make a => a ∉ v.objs
  | .copy a b => lock = false ∧ a ∉ v.objs ∧ b ∈ v.objs
  | .assign a b => lock = false ∧ a ∈ v.objs ∧ b ∈ v.objs
  | .destroy a => decide (a ∈ v.objs)
  | .born o => o ∉ v.alive
  | .die o => decide (o ∈ v.alive)
  | .add a o => a ∈ v.objs ∧ o ∈ v.alive
  | .remove a _ => decide (a ∈ v.objs)
  | .clear a => decide (a ∈ v.objs)
  | .notify a _ => decide (a ∈ v.objs)

/-- An observable is not changed while one of its functions visits its observers; with a mutex it is not used at all (no
code). -/
def steady (lock : Bool) : Rule V := fun v op =>
  match op with
  | .add a o => v.run a = 0 ∨ lock = false ∧ o ∈ v.reg a
  | .remove a o => v.run a = 0 ∨ lock = false ∧ o ∉ v.reg a
  | .clear a => v.run a = 0
  | .destroy a => v.run a = 0
  | .assign a _ => v.run a = 0
  | .notify a _ => v.run a = 0 ∨ lock = false
  | _ => true

/-- An observer that is destroyed is registered nowhere (no code). -/
def apart : Rule V := fun v op =>
  match op with
  | .die o => v.objs.all fun a => o ∉ v.reg a
  | _ => true

/-- All three (no code). -/
def careful (lock : Bool) : Rule V := fun v op => sane lock v op && steady lock v op && apart v op

/-! ### Running -/

/-- Run an operation (no code). -/
abbrev Ex (V U : Type) := St V U → Op V → Out (St V U × Err)

/-- Running a callback (overrides of observer.hpp:50-52, 61-63). -/
def runProg (ex : Ex V U) : Prog V U → St V U → Out (St V U)
  | .ret u, s => .ok { s with user := u }
  | .set u k, s => runProg ex k { s with user := u }
  | .call op k, s => do
    let r ← ex s op
    runProg ex (k r.2 r.1.user) r.1

/-- Going on with the loops: the iterators have to be valid (observer.hpp:295, 315). -/
def valid (s : St V U) (a g : Nat) : Out Obj := do
  let x ← s.get a
  if x.stamp = g then .ok x else .ub

/-- Reading through the iterator (observer.hpp:296, 316). -/
def deref (x : Obj) (i : Nat) : Out Nat :=
  match x.obs[i]? with
  | some o => .ok o
  | none => .ub

/-- The loops of `notify_observers` and `clear_observers` (observer.hpp:315-317, 295-297) with iterators of the stamp `g`: at
position `i`, `left` before the end. -/
def loop (ex : Ex V U) (ev : Nat → Ev V) (p : U → Nat → Prog V U) (a g i : Nat) : Nat → St V U → Out (St V U)
  | 0, s => do
    let _ ← valid s a g
    .ok s
  | left + 1, s => do
    let x ← valid s a g
    let o ← deref x i
    let s ← s.enter o (ev o)
    let s ← runProg ex (p s.user o) s
    loop ex ev p a g (i + 1) left (s.emit (.leave o))

/-- Locking `access_`, if there is one (observer.hpp:257-259, 278-280, 292-294, 312-314). -/
def acquire (lock : Bool) (x : Obj) : Out Unit := if lock && x.locked then .ub else .ok ()

/-- `notify_observers` (observer.hpp:309-318). -/
def notifyObs (lock : Bool) (ex : Ex V U) (H : Handlers V U) (a : Nat) (v : V) (s : St V U) : Out (St V U) := do
  let x ← s.get a
  acquire lock x
  let s ← loop ex (fun o => .data a o v) (fun u o => H.data u a o v) a x.stamp 0 x.obs.length (s.hold a x lock)
  let y ← s.get a
  .ok (s.hold a y x.locked)

/-- `clear_observers` (observer.hpp:289-299). -/
def clearObs (lock : Bool) (ex : Ex V U) (H : Handlers V U) (a : Nat) (s : St V U) : Out (St V U) := do
  let x ← s.get a
  acquire lock x
  let s ← loop ex (fun o => .disc a o) (fun u o => H.disconnect u a o) a x.stamp 0 x.obs.length (s.hold a x lock)
  .ok (s.fill a [] x.locked)

/-- `add_observer` (observer.hpp:254-265). -/
def addObs (lock : Bool) (a o : Nat) (s : St V U) : Out (St V U × Err) := do
  let x ← s.get a
  acquire lock x
  if !Dyn.scan o x.obs then .ok (s.fill a (x.obs ++ [o]) x.locked, .ok) else .ok (s, .alreadyContains)

/-- `remove_observer` (observer.hpp:275-284). -/
def removeObs (lock : Bool) (a o : Nat) (s : St V U) : Out (St V U × Err) := do
  let x ← s.get a
  acquire lock x
  if x.obs.length - (Dyn.erase o x.obs).length = 0 then .ok (s, .notFound)
  else .ok (s.fill a (Dyn.erase o x.obs) x.locked, .ok)

/-- One operation (observer.hpp:31, 239, 244, 254-318 and the implicit copy operations). -/
def body (lock : Bool) (ex : Ex V U) (H : Handlers V U) (s : St V U) : Op V → Out (St V U × Err)
  | .make a => .ok (s.fill a [] false, .ok)
  | .copy a b => do
    let x ← s.get b
    .ok (s.fill a x.obs false, .ok)
  | .assign a b => do
    let x ← s.get b
    let _ ← s.get a
    .ok (s.fill a x.obs false, .ok)
  | .destroy a => do
    let s ← clearObs lock ex H a s
    .ok (s.drop a, .ok)
  | .born o => .ok ({ s with alive := o :: s.alive }, .ok)
  | .die o => .ok ({ s with alive := s.alive.filter (· != o) }, .ok)
  | .add a o => addObs lock a o s
  | .remove a o => removeObs lock a o s
  | .clear a => do
    let s ← clearObs lock ex H a s
    .ok (s, .ok)
  | .notify a v => do
    let s ← notifyObs lock ex H a v s
    .ok (s, .ok)

/-- One operation of a client that keeps to the rule (observer.hpp:31, 239, 244, 254-318). -/
def execStep (rule : Rule V) (lock : Bool) (ex : Ex V U) (H : Handlers V U) (s : St V U) (op : Op V) :
    Out (St V U × Err) :=
  if rule (view s.log) op then do
    let r ← body lock ex H (s.emit (.began op)) op
    .ok (r.1.emit (.ret op r.2), r.2)
  else .foul

/-- With fewer than `n` levels of nested operations (observer.hpp:31, 239, 244, 254-318). -/
def exec (rule : Rule V) (lock : Bool) (H : Handlers V U) : Nat → Ex V U
  | 0, _, _ => .deep
  | n + 1, s, op => execStep rule lock (exec rule lock H n) H s op

/-- States between operations of a client that keeps to the rule (no code). -/
inductive Reach (rule : Rule V) (lock : Bool) (H : Handlers V U) : St V U → Prop
  | new (u : U) : Reach rule lock H (St.new u)
  | call (s s' : St V U) (n : Nat) (op : Op V) (e : Err) :
      Reach rule lock H s → exec rule lock H n s op = .ok (s', e) → Reach rule lock H s'
  | user (s : St V U) (u : U) : Reach rule lock H s → Reach rule lock H { s with user := u }

end Verif.Observer.World.Unb
