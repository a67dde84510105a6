import Verif.Observer.Dynamic
/-!
Model of `observable<T, false>` (observer.hpp:200-344) with callbacks that throw (one thread), with or without the
mutex.

A callback is an arbitrary program of calls that reads and writes a user state; it may return or throw, and it may
catch what the calls it makes throw or let it pass (`Prog`).  `notification` is `noexcept` (observer.hpp:40), and so is
the destructor (observer.hpp:244): an exception that reaches one of them ends the program (`std::terminate`).
`clear_observers` is not `noexcept`, so that an exception from `disconnect` leaves it half way.  The lock is a
`std::unique_lock` and is released then.  A thread that locks the mutex a second time blocks (`stuck`).

`gen` counts the operations that invalidate the iterators of the vector, as in `Callbacks.lean`.  Running out of fuel
is the outcome `deep`.

The fixed observable (observer.hpp:79-197), the compile-time observable (observer_static.hpp:50-55) and both variants of
`values::observable` are not here: each of their functions that runs a callback is `noexcept`, so that every exception
that leaves a callback ends the program.
-/
namespace Verif.Observer.Throw
open Verif

/-- What is thrown: the `exception` of the class with one of its two codes (observer.hpp:221-231, 263, 282) or something of
the user's. -/
inductive Exc where
  | alreadyContains
  | notFound
  | user
  deriving DecidableEq, Repr

/-- The member functions and the destructor (observer.hpp:244-318). -/
inductive Op (V : Type) where
  | add (o : Nat)
  | remove (o : Nat)
  | clear
  | notify (v : V)
  | destroy
  deriving DecidableEq, Repr

/-- What a callback does: it returns, throws, changes the user state, or makes a call and goes on with what depends on the outcome of the call
(`none` if it returned, `some x` if it threw `x`) and the user state (overrides of observer.hpp:50-52, 61-63). -/
inductive Prog (V U : Type) where
  | ret (u : U)
  | set (u : U) (k : Prog V U)
  | throw (x : Exc) (u : U)
  | call (op : Op V) (k : Option Exc → U → Prog V U)

/-- The user's virtual functions `data` and `disconnect` for each observer (observer.hpp:50-52, 61-63). -/
structure Handlers (V U : Type) where
  data : U → Nat → V → Prog V U
  disconnect : U → Nat → Prog V U

/-- Observable events (observer.hpp:39-43, 50-52, 244-318). -/
inductive Ev (V : Type) where
  /-- A call begins. -/
  | begin (op : Op V)
  /-- `data(src, v)` of observer `o` begins. -/
  | enter (src o : Nat) (v : V)
  /-- `disconnect(src)` of observer `o` begins. -/
  | disc (src o : Nat)
  /-- The callback of observer `o` returns. -/
  | leave (o : Nat)
  /-- The callback of observer `o` throws `x`. -/
  | threw (o : Nat) (x : Exc)
  /-- A call returns (`none`) or throws. -/
  | ret (op : Op V) (r : Option Exc)
  deriving DecidableEq, Repr

/-- What running something comes to: it returns, is undefined, needs more levels of calls than allowed, blocks forever,
or the program has ended with this log. -/
inductive Out (V α : Type) where
  | ok (a : α)
  | ub
  | deep
  | stuck
  | term (log : List (Ev V))

variable {V U α β : Type}

/-- Sequencing (no code). -/
def Out.bind (m : Out V α) (f : α → Out V β) : Out V β :=
  match m with
  | .ok a => f a
  | .ub => .ub
  | .deep => .deep
  | .stuck => .stuck
  | .term l => .term l

/-- The object (observer.hpp:321-324), its address, the number of invalidations, whether it is alive, the user state and
the log. -/
structure St (V U : Type) where
  self : Nat
  obs : List Nat
  gen : Nat
  locked : Bool
  alive : Bool
  user : U
  log : List (Ev V)

/-- A new object (observer.hpp:239). -/
def St.new (self : Nat) (u : U) : St V U := ⟨self, [], 0, false, true, u, []⟩

/-- Record an event (no code). -/
def St.emit (s : St V U) (e : Ev V) : St V U := { s with log := s.log ++ [e] }

/-- How a call ends (observer.hpp:244-318). -/
abbrev End (V U : Type) := Out V (St V U × Option Exc)

/-- A way of running calls (observer.hpp:244-318). -/
abbrev Ex (V U : Type) := St V U → Op V → End V U

/-- `add_observer` (observer.hpp:254-265). -/
def add (s : St V U) (o : Nat) : St V U × Option Exc :=
  if !Dyn.scan o s.obs then ({ s with obs := s.obs ++ [o], gen := s.gen + 1 }, none) else (s, some .alreadyContains)

/-- `remove_observer` (observer.hpp:275-284). -/
def remove (s : St V U) (o : Nat) : St V U × Option Exc :=
  let rest := Dyn.erase o s.obs
  if s.obs.length - rest.length = 0 then (s, some .notFound)
  else ({ s with obs := rest, gen := s.gen + 1 }, none)

/-- Running a user program; `ex` runs a call (overrides of observer.hpp:50-52, 61-63). -/
def runProg (ex : Ex V U) : Prog V U → St V U → End V U
  | .ret u, s => .ok ({ s with user := u }, none)
  | .set u k, s => runProg ex k { s with user := u }
  | .throw x u, s => .ok ({ s with user := u }, some x)
  | .call op k, s => (ex s op).bind fun r => runProg ex (k r.2 r.1.user) r.1

/-- The end of a callback that is called through a `noexcept` function or not (observer.hpp:39-43, 50-52). -/
def finish (noex : Bool) (o : Nat) (r : St V U × Option Exc) : End V U :=
  match r.2 with
  | none => .ok (r.1.emit (.leave o), none)
  | some x => if noex then .term (r.1.emit (.threw o x)).log else .ok (r.1.emit (.threw o x), some x)

/-- A callback from its start to its end (observer.hpp:39-43, 50-52). -/
def callback (ex : Ex V U) (noex : Bool) (e : Ev V) (p : U → Prog V U) (o : Nat) (s : St V U) : End V U :=
  (runProg ex (p s.user) (s.emit e)).bind (finish noex o)

/-- Reading through an iterator of the loop (observer.hpp:295-296, 315-316). -/
def deref (s : St V U) (i : Nat) : Out V Nat :=
  match s.obs[i]? with
  | some o => .ok o
  | none => .ub

/-- After a callback: the loop goes on (`k`) unless the callback has thrown (observer.hpp:295-297, 315-317). -/
def onward (k : St V U → End V U) (r : St V U × Option Exc) : End V U :=
  match r.2 with
  | none => k r.1
  | some x => .ok (r.1, some x)

/-- The loop of `notify_observers` (observer.hpp:315-317) and that of `clear_observers` (observer.hpp:295-297) with
iterators taken when `gen` was `g`.  `i` is the position, the `Nat` argument the distance to the end. -/
def loop (ex : Ex V U) (noex : Bool) (e : St V U → Nat → Ev V) (p : Nat → U → Prog V U) (g i : Nat) :
    Nat → St V U → End V U
  | 0, s => if s.gen = g then .ok (s, none) else .ub
  | left + 1, s =>
    if s.gen = g then
      (deref s i).bind fun o =>
        (callback ex noex (e s o) (p o) o s).bind (onward (loop ex noex e p g (i + 1) left))
    else .ub

/-- `notify_observers` (observer.hpp:309-318); the callbacks run inside `notification`, which is `noexcept`. -/
def notify (ex : Ex V U) (H : Handlers V U) (s : St V U) (v : V) : End V U :=
  loop ex true (fun s o => .enter s.self o v) (fun o u => H.data u o v) s.gen 0 s.obs.length s

/-- `observers_.clear()` if the loop has not thrown (observer.hpp:298). -/
def emptied (r : St V U × Option Exc) : End V U :=
  match r.2 with
  | none => .ok ({ r.1 with obs := [], gen := r.1.gen + 1 }, none)
  | some x => .ok (r.1, some x)

/-- `clear_observers` (observer.hpp:289-299). -/
def clear (ex : Ex V U) (H : Handlers V U) (s : St V U) : End V U :=
  (loop ex false (fun s o => .disc s.self o) (fun o u => H.disconnect u o) s.gen 0 s.obs.length s).bind emptied

/-- The end of the destructor, which is `noexcept` (observer.hpp:244). -/
def buried (r : St V U × Option Exc) : End V U :=
  match r.2 with
  | none => .ok ({ r.1 with alive := false }, none)
  | some _ => .term r.1.log

/-- The member functions (observer.hpp:244-318). -/
def body (ex : Ex V U) (H : Handlers V U) (s : St V U) : Op V → End V U
  | .add o => .ok (add s o)
  | .remove o => .ok (remove s o)
  | .clear => clear ex H s
  | .notify v => notify ex H s v
  | .destroy => (clear ex H s).bind buried

/-- The lock is taken; the call is recorded (observer.hpp:256-258, 277-279, 291-293, 311-313). -/
def lockOn (mtx : Bool) (s : St V U) (op : Op V) : St V U := { s.emit (.begin op) with locked := mtx }

/-- The lock is released, whether the function returns or throws (the `std::unique_lock` of observer.hpp:257, 278, 292,
312). -/
def lockOff (op : Op V) (r : St V U × Option Exc) : End V U :=
  .ok ({ r.1.emit (.ret op r.2) with locked := false }, r.2)

/-- One call; `mtx` says whether the mutex is compiled in (observer.hpp:244-318). -/
def execStep (mtx : Bool) (ex : Ex V U) (H : Handlers V U) (s : St V U) (op : Op V) : End V U :=
  if s.alive then
    if s.locked then .stuck else (body ex H (lockOn mtx s op) op).bind (lockOff op)
  else .ub

/-- A call with fewer than `n` levels of nested calls (observer.hpp:244-318). -/
def exec (mtx : Bool) (H : Handlers V U) : Nat → Ex V U
  | 0, _, _ => .deep
  | n + 1, s, op => execStep mtx (exec mtx H n) H s op

/-- States reachable from a new object by calls from outside that return or throw something that is caught, between which
the user state may change arbitrarily. -/
inductive Reach (mtx : Bool) (H : Handlers V U) : St V U → Prop
  | new (self : Nat) (u : U) : Reach mtx H (St.new self u)
  | call (s s' : St V U) (n : Nat) (op : Op V) (r : Option Exc) :
      Reach mtx H s → exec mtx H n s op = .ok (s', r) → Reach mtx H s'
  | user (s : St V U) (u : U) : Reach mtx H s → Reach mtx H { s with user := u }

/-! ### Specification vocabulary: functions of the log -/

/-- The registered observers after a call that returned. -/
def next (l : List Nat) : Op V → List Nat
  | .add o => if o ∈ l then l else l ++ [o]
  | .remove o => l.filter (· != o)
  | .clear => []
  | .notify _ => l
  | .destroy => []

/-- Effect of an event on the registered observers: only a call that returns has one. -/
def regEv (l : List Nat) : Ev V → List Nat
  | .ret op none => next l op
  | _ => l

/-- The observers registered after a log. -/
def regs (log : List (Ev V)) : List Nat := log.foldl regEv []

/-- A function that is running: a call into the observable, `data` or `disconnect` of an observer. -/
inductive Frame (V : Type) where
  | op (op : Op V)
  | data (o : Nat)
  | disc (o : Nat)
  deriving DecidableEq, Repr

/-- Effect of an event on the functions that are running, the innermost first. -/
def frameEv (st : List (Frame V)) : Ev V → List (Frame V)
  | .begin op => .op op :: st
  | .enter _ o _ => .data o :: st
  | .disc _ o => .disc o :: st
  | .leave _ => st.tail
  | .threw _ _ => st.tail
  | .ret _ _ => st.tail

/-- The functions that are running after a log that began when `st` were running. -/
def running (st : List (Frame V)) (log : List (Ev V)) : List (Frame V) := log.foldl frameEv st

/-- An exception that leaves the innermost running function has to end the program: the function is a `data`, or a
`disconnect` that the destructor has called. -/
def Fatal : List (Frame V) → Prop
  | .data _ :: _ => True
  | .disc _ :: .op .destroy :: _ => True
  | _ => False

/-- The callbacks begun in a log outside of any callback, in order; `d` callbacks are running at its start. -/
def top : Nat → List (Ev V) → List (Ev V)
  | _, [] => []
  | d, .enter s o v :: es => if d = 0 then .enter s o v :: top (d + 1) es else top (d + 1) es
  | d, .disc s o :: es => if d = 0 then .disc s o :: top (d + 1) es else top (d + 1) es
  | d, .leave _ :: es => top (d - 1) es
  | d, .threw _ _ :: es => top (d - 1) es
  | d, .begin _ :: es => top d es
  | d, .ret _ _ :: es => top d es

/-- No call changed the registered observers. -/
def Still (l : List Nat) (new : List (Ev V)) : Prop :=
  ∀ op, .ret op none ∈ new → next l op = l

/-- How often `disconnect` of `o` was called. -/
def discs (o : Nat) (log : List (Ev V)) : Nat :=
  log.countP fun e => match e with
    | .disc _ p => p == o
    | _ => false

/-- How often `o` was subscribed with success. -/
def adds (o : Nat) (log : List (Ev V)) : Nat :=
  log.countP fun e => match e with
    | .ret (.add p) none => p == o
    | _ => false

/-- No `clear_observers` was left by an exception. -/
def ClearsReturn (log : List (Ev V)) : Prop := ∀ x, .ret .clear (some x) ∉ log

/-! ### Lemmas about logs -/

theorem regs_append (a b : List (Ev V)) : regs (a ++ b) = b.foldl regEv (regs a) := by
  simp [regs, List.foldl_append]

theorem running_append (st : List (Frame V)) (a b : List (Ev V)) :
    running st (a ++ b) = running (running st a) b := by
  simp [running, List.foldl_append]

theorem regEv_still {l : List Nat} {e : Ev V} (h : ∀ op, e = .ret op none → next l op = l) : regEv l e = l := by
  cases e with
  | ret op r =>
    cases r with
    | none => exact h op rfl
    | some x => rfl
  | _ => rfl

theorem Still.regs {l : List Nat} {new : List (Ev V)} (h : Still l new) : new.foldl regEv l = l := by
  induction new with
  | nil => rfl
  | cons e new ih =>
    have he : regEv l e = l := regEv_still fun op ho => h op (by rw [ho]; simp)
    rw [List.foldl_cons, he]
    exact ih fun op ho => h op (by simp [ho])

theorem Still.append {l : List Nat} {a b : List (Ev V)} (ha : Still l a) (hb : Still l b) : Still l (a ++ b) := by
  intro op h
  rcases List.mem_append.1 h with h | h
  · exact ha op h
  · exact hb op h

theorem Still.single {l : List Nat} {e : Ev V} (h : ∀ op, e = .ret op none → next l op = l) : Still l [e] := by
  intro op ho
  simp only [List.mem_singleton] at ho
  exact h op ho.symm

theorem discs_append (o : Nat) (a b : List (Ev V)) : discs o (a ++ b) = discs o a + discs o b := by
  simp [discs, List.countP_append]

theorem adds_append (o : Nat) (a b : List (Ev V)) : adds o (a ++ b) = adds o a + adds o b := by
  simp [adds, List.countP_append]

theorem ClearsReturn.left {a b : List (Ev V)} (h : ClearsReturn (a ++ b)) : ClearsReturn a :=
  fun x hx => h x (by simp [hx])

theorem ClearsReturn.right {a b : List (Ev V)} (h : ClearsReturn (a ++ b)) : ClearsReturn b :=
  fun x hx => h x (by simp [hx])

end Verif.Observer.Throw
