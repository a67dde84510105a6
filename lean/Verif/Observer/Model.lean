import Verif.Basic
/-!
Model of `observable<T, true, Max>` (`include/xitren/comm/observer.hpp:66-198`).

Observers are numbers (their addresses).  The user's virtual functions `data` and `disconnect` are
arbitrary programs that may call back into the observable (`Prog`), reading and writing a user state
`U`.  Calls nest, so the interpreter takes fuel; running out of fuel is the outcome `hang`.  A log
records every callback and the result of every call.

Not modelled: lifetime of observers (a registered observer is assumed to be alive), exceptions thrown
by callbacks (`notification` is `noexcept`: they terminate the program, see `Fatal`), threads.
-/
namespace Verif.Observer
open Verif

/-- `observer_errors` (observer_errors.hpp:24-54). -/
inductive Err where
  | ok
  | listIsFull
  | alreadyContains
  | notFound
  | internalDataBroken
  | notifyRecursionDetected
  deriving DecidableEq, Repr

/-- The public member functions of the observable (observer.hpp:93-163). -/
inductive Op (V : Type) where
  | add (o : Nat)
  | remove (o : Nat)
  | clear
  | notify (v : V)
  deriving DecidableEq, Repr

/-- What a user callback does: a finite program that changes the user state and calls the observable, and
ends by leaving a user state.  What follows a call sees its result and the user state after it (overrides of
observer.hpp:50-52, 61-63). -/
inductive Prog (V U : Type) where
  | ret (u : U)
  | set (u : U) (k : Prog V U)
  | call (op : Op V) (k : Err → U → Prog V U)

/-- The user's virtual functions: `data` (observer.hpp:61-63) and `disconnect` (observer.hpp:50-52),
for each observer. -/
structure Handlers (V U : Type) where
  data : U → Nat → V → Prog V U
  disconnect : U → Nat → Prog V U

/-- Observable events (observer.hpp:39-43, 50-52). -/
inductive Ev (V : Type) where
  /-- `data(src, v)` of observer `o` starts. -/
  | enter (src o : Nat) (v : V)
  /-- `data` of observer `o` returns. -/
  | leave (o : Nat)
  /-- `disconnect(src)` of observer `o` starts. -/
  | disc (src o : Nat)
  /-- A member function returns. -/
  | ret (op : Op V) (e : Err)
  deriving DecidableEq, Repr

/-- The object (observer.hpp:165-177), its address, the user state and the log. -/
structure St (V U : Type) where
  self : Nat
  arr : List (Option Nat)
  count : Nat
  inside : Bool
  user : U
  log : List (Ev V)
  deriving DecidableEq, Repr

/-- A new object (observer.hpp:78, 169-177); `Max` is the length of the array. -/
def St.new {V U : Type} (self max : Nat) (u : U) : St V U :=
  { self := self, arr := List.replicate max none, count := 0, inside := false, user := u, log := [] }

variable {V U : Type}

/-- Record an event (no code). -/
def St.emit (s : St V U) (e : Ev V) : St V U := { s with log := s.log ++ [e] }

/-- Reading `observers_[i]` and calling through it: outside the array or through a null pointer is
undefined behaviour (observer.hpp:136-137, 158-159). -/
def deref (s : St V U) (i : Nat) : Res Nat :=
  match s.arr[i]? with
  | some (some o) => .ok o
  | _ => .ub

/-- `contains` (observer.hpp:186-194). -/
def contains (s : St V U) (o : Nat) : Bool := (s.arr.take s.count).contains (some o)

/-- `add_observer` (observer.hpp:93-104). -/
def addObserver (s : St V U) (o : Nat) : Res (St V U × Err) :=
  if s.count ≥ s.arr.length then .ok (s, .listIsFull)
  else if !contains s o then
    .ok ({ s with arr := s.arr.set s.count (some o), count := s.count + 1 }, .ok)
  else .ok (s, .alreadyContains)

/-- The kept elements of `std::remove(begin, begin + count_, &observer)` (observer.hpp:121). -/
def kept (s : St V U) (o : Nat) : List (Option Nat) := (s.arr.take s.count).filter (· != some o)

/-- `remove_observer` (observer.hpp:114-128).  `std::remove` assigns the kept elements to the front
and leaves the elements behind them as they were. -/
def removeObserver (s : St V U) (o : Nat) : Res (St V U × Err) :=
  if s.count > s.arr.length then .ok (s, .internalDataBroken)
  else if s.count = 0 then .ok (s, .notFound)
  else
    let it := (kept s o).length
    let arr := kept s o ++ s.arr.drop it
    if s.count - it ≠ 0 then .ok ({ s with arr := arr, count := it }, .ok)
    else .ok ({ s with arr := arr }, .notFound)

/-- Running a user program; `ex` runs a call into the observable (overrides of observer.hpp:50-52, 61-63). -/
def runProg (ex : St V U → Op V → Res (St V U × Err)) : Prog V U → St V U → Res (St V U)
  | .ret u, s => .ok { s with user := u }
  | .set u k, s => runProg ex k { s with user := u }
  | .call op k, s => do
    let r ← ex s op
    runProg ex (k r.2 r.1.user) r.1

/-- `item->notification(this, n)` (observer.hpp:39-43, 159). -/
def callData (ex : St V U → Op V → Res (St V U × Err)) (H : Handlers V U) (v : V) (o : Nat)
    (s : St V U) : Res (St V U) := do
  let s := s.emit (.enter s.self o v)
  let s ← runProg ex (H.data s.user o v) s
  pure (s.emit (.leave o))

/-- The loop of `notify_observers` (observer.hpp:158-160): `std::views::counted` fixes the number of
elements when the loop starts; the elements are read when they are reached.  `i` is the position,
the `Nat` argument the number of elements left. -/
def notifyLoop (ex : St V U → Op V → Res (St V U × Err)) (H : Handlers V U) (v : V) (i : Nat) :
    Nat → St V U → Res (St V U)
  | 0, s => .ok s
  | left + 1, s => do
    let o ← deref s i
    let s ← callData ex H v o s
    notifyLoop ex H v (i + 1) left s

/-- `notify_observers` (observer.hpp:150-163). -/
def notifyObservers (ex : St V U → Op V → Res (St V U × Err)) (H : Handlers V U) (s : St V U)
    (v : V) : Res (St V U × Err) :=
  if s.count > s.arr.length then .ok (s, .internalDataBroken)
  else if s.inside then .ok (s, .notifyRecursionDetected)
  else do
    let s := { s with inside := true }
    let s ← notifyLoop ex H v 0 s.count s
    pure ({ s with inside := false }, .ok)

/-- The loop of `clear_observers` (observer.hpp:136-138). -/
def clearLoop (ex : St V U → Op V → Res (St V U × Err)) (H : Handlers V U) (i : Nat) :
    Nat → St V U → Res (St V U)
  | 0, s => .ok s
  | left + 1, s => do
    let o ← deref s i
    let s := s.emit (.disc s.self o)
    let s ← runProg ex (H.disconnect s.user o) s
    clearLoop ex H (i + 1) left s

/-- `clear_observers` (observer.hpp:133-140); the destructor (observer.hpp:83) is the same. -/
def clearObservers (ex : St V U → Op V → Res (St V U × Err)) (H : Handlers V U) (s : St V U) :
    Res (St V U × Err) := do
  let s ← clearLoop ex H 0 s.count s
  pure ({ s with count := 0 }, .ok)

/-- One member function call (observer.hpp:93-163). -/
def execStep (ex : St V U → Op V → Res (St V U × Err)) (H : Handlers V U) (s : St V U) (op : Op V) :
    Res (St V U × Err) := do
  let r ← (match op with
    | .add o => addObserver s o
    | .remove o => removeObserver s o
    | .clear => clearObservers ex H s
    | .notify v => notifyObservers ex H s v)
  pure (r.1.emit (.ret op r.2), r.2)

/-- A call with at most `n` levels of nested calls (observer.hpp:93-163). -/
def exec (H : Handlers V U) : Nat → St V U → Op V → Res (St V U × Err)
  | 0, _, _ => .hang
  | n + 1, s, op => execStep (exec H n) H s op

/-- States reachable from a new object by calls from outside, between which the user state may change
arbitrarily. -/
inductive Reach (H : Handlers V U) (max : Nat) : St V U → Prop
  | new (self : Nat) (u : U) : Reach H max (St.new self max u)
  | call (s s' : St V U) (n : Nat) (op : Op V) (e : Err) :
      Reach H max s → exec H n s op = .ok (s', e) → Reach H max s'
  | user (s : St V U) (u : U) : Reach H max s → Reach H max { s with user := u }

end Verif.Observer
