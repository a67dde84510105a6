import Verif.HappensBefore
import Verif.Observer.Spec
/-!
The fixed-capacity observable used by several threads (include/xitren/comm/observer.hpp; all line numbers refer to it).  Each call
is a program whose steps are the single accesses to the members, in the order in which the code makes them; threads take turns
between any two.  Nothing in the class keeps threads apart; users may synchronise by objects of their own.

Callbacks may do anything: while one runs, its thread may begin further calls, and it returns when it likes.  An access outside
the array is not followed further, nor is a call through a null pointer.  `count_` is a number without bound.
-/
namespace Verif.Observer.Fixed
open Verif Verif.HB

variable {V : Type}

/-- What is left to do of a call: it returns, reads or writes `count_`, a place of `observers_` or `inside`, notifies or disconnects
an observer, takes note that the notification is over, or is undefined. -/
inductive Prog (V : Type) where
  | ret (e : Err)
  | cnt (k : Nat → Prog V)
  | setCnt (n : Nat) (k : Prog V)
  | at (i : Nat) (k : Option Nat → Prog V)
  | setAt (i : Nat) (p : Option Nat) (k : Prog V)
  | ins (k : Bool → Prog V)
  | setIns (b : Bool) (k : Prog V)
  | data (o : Nat) (v : V) (k : Prog V)
  | disc (o : Nat) (k : Prog V)
  | left (o : Nat) (k : Prog V)
  | undef

/-- The loop of `contains` (lines 189-193), then `yes` or `no`. -/
def contains (o : Nat) (yes no : Prog V) : Nat → Nat → Prog V
  | 0, _ => no
  | left + 1, i => .at i fun p => if p = some o then yes else contains o yes no left (i + 1)

/-- `add_observer` (lines 93-104); `count_` is increased before the place is written (line 99). -/
def add (max o : Nat) : Prog V :=
  .cnt fun n => if n ≥ max then .ret .listIsFull else
    .cnt fun n => contains o (.ret .alreadyContains)
      (.cnt fun n => .setCnt (n + 1) <| .setAt n (some o) <| .ret .ok) n 0

/-- Lines 122-127; `j` is where `it` points to. -/
def cut (j : Nat) : Prog V := .cnt fun n => if n ≠ j then .setCnt j (.ret .ok) else .ret .notFound

/-- The loop of `std::remove` from place `i` on, after the first element that is removed (line 121). -/
def shift (o : Nat) : Nat → Nat → Nat → Prog V
  | 0, _, j => cut j
  | left + 1, i, j => .at i fun p =>
      if p = some o then shift o left (i + 1) j else .at i fun p => .setAt j p (shift o left (i + 1) (j + 1))

/-- `std::remove` looks for the first element that is removed (line 121). -/
def find (o : Nat) : Nat → Nat → Prog V
  | 0, i => cut i
  | left + 1, i => .at i fun p => if p = some o then shift o left (i + 1) i else find o left (i + 1)

/-- `remove_observer` (lines 114-128). -/
def remove (max o : Nat) : Prog V :=
  .cnt fun n => if n > max then .ret .internalDataBroken else
    .cnt fun n => if n = 0 then .ret .notFound else .cnt fun n => find o n 0

/-- `clear_observers` after the count has been read (lines 136-139). -/
def clearLoop : Nat → Nat → Prog V
  | 0, _ => .setCnt 0 (.ret .ok)
  | left + 1, i => .at i fun p => match p with
    | some o => .disc o (clearLoop left (i + 1))
    | none => .undef

/-- The loop of `notify_observers` and what follows it (lines 158-162). -/
def notifyLoop (v : V) : Nat → Nat → Prog V
  | 0, _ => .setIns false (.ret .ok)
  | left + 1, i => .at i fun p => match p with
    | some o => .data o v (.left o (notifyLoop v left (i + 1)))
    | none => .undef

/-- `notify_observers` (lines 150-163). -/
def notify (max : Nat) (v : V) : Prog V :=
  .cnt fun n => if n > max then .ret .internalDataBroken else
    .ins fun b => if b then .ret .notifyRecursionDetected else
      .setIns true <| .cnt fun n => notifyLoop v n 0

/-- The code of a call; `max` is the size of the array (lines 93-163). -/
def prog (max : Nat) : Op V → Prog V
  | .add o => add max o
  | .remove o => remove max o
  | .clear => .cnt fun n => clearLoop n 0
  | .notify v => notify max v

/-- A call in progress: the call, what is left of it, and whether a callback is running. -/
structure Frame (V : Type) where
  op : Op V
  prog : Prog V
  busy : Bool

/-- Places in memory (lines 169-177). -/
inductive Loc where
  | cnt
  | ins
  | slot (i : Nat)
  deriving DecidableEq

/-- What threads share (lines 169-177). -/
structure Sh where
  arr : List (Option Nat)
  cnt : Nat
  ins : Bool
  deriving DecidableEq

/-- The address of the object, what threads share, the calls that each thread is in, the innermost first, the record of accesses and
the events with their threads, the oldest first (the last two are no code). -/
structure State (V : Type) where
  self : Nat
  sh : Sh
  stack : Nat → List (Frame V)
  mem : HB.Mem Nat Loc Nat
  log : List (Nat × Ev V)

/-- A new object (lines 78, 169-177). -/
def State.new (self max : Nat) : State V := ⟨self, ⟨List.replicate max none, 0, false⟩, fun _ => [], Mem.new, []⟩

/-- Steps: a call begins, makes one access (or begins a callback, or returns), a callback returns, a thread releases or acquires an
object of the user's. -/
inductive Lbl (V : Type) where
  | call (t : Nat) (op : Op V)
  | act (t : Nat)
  | back (t : Nat)
  | rel (t : Nat) (n : Nat)
  | acq (t : Nat) (n : Nat)

/-- Who takes the step. -/
def Lbl.who : Lbl V → Nat
  | .call t _ | .act t | .back t | .rel t _ | .acq t _ => t

/-- The thread runs code of the user's: it is in no call, or in a callback. -/
def State.user (m : State V) (t : Nat) : Bool :=
  match m.stack t with
  | [] => true
  | f :: _ => f.busy

/-- The memory that one step of a call touches (lines 93-194). -/
def Prog.ops : Prog V → List (HB.Op Loc Nat)
  | .cnt _ => [.acc .cnt false 0]
  | .setCnt _ _ => [.acc .cnt true 0]
  | .at i _ => [.acc (.slot i) false 0]
  | .setAt i _ _ => [.acc (.slot i) true 0]
  | .ins _ => [.acc .ins false 0]
  | .setIns _ _ => [.acc .ins true 0]
  | .ret _ | .data _ _ _ | .disc _ _ | .left _ _ | .undef => []

/-- One step of a call that is an access: what threads share then, and what is left; `none` if it is undefined or no access
(lines 93-194). -/
def Prog.next (s : Sh) : Prog V → Option (Sh × Prog V)
  | .cnt k => some (s, k s.cnt)
  | .setCnt n k => some ({ s with cnt := n }, k)
  | .at i k => match s.arr[i]? with
    | some p => some (s, k p)
    | none => none
  | .setAt i p k => if i < s.arr.length then some ({ s with arr := s.arr.set i p }, k) else none
  | .ins k => some (s, k s.ins)
  | .setIns b k => some ({ s with ins := b }, k)
  | .ret _ | .data _ _ _ | .disc _ _ | .left _ _ | .undef => none

/-- The accesses and synchronisations of a step (lines 93-194). -/
def ops (m : State V) : Lbl V → List (HB.Op Loc Nat)
  | .act t => match m.stack t with
    | f :: _ => f.prog.ops
    | [] => []
  | .rel _ n => [.rel n]
  | .acq _ n => [.acq n]
  | .call _ _ | .back _ => []

/-- A step of a call in progress (lines 93-194). -/
def act (m : State V) (t : Nat) (f : Frame V) (fs : List (Frame V)) : Option (State V) :=
  let mem := m.mem.run t f.prog.ops
  match f.prog with
  | .ret e => some { m with stack := HB.put m.stack t fs, log := m.log ++ [(t, .ret f.op e)] }
  | .data o v k => some { m with stack := HB.put m.stack t ({ f with prog := k, busy := true } :: fs),
                                 log := m.log ++ [(t, .enter m.self o v)] }
  | .disc o k => some { m with stack := HB.put m.stack t ({ f with prog := k, busy := true } :: fs),
                               log := m.log ++ [(t, .disc m.self o)] }
  | .left o k => some { m with stack := HB.put m.stack t ({ f with prog := k } :: fs), log := m.log ++ [(t, .leave o)] }
  | p => (p.next m.sh).map fun r => { m with mem, sh := r.1, stack := HB.put m.stack t ({ f with prog := r.2 } :: fs) }

/-- A step; `none` if it is not possible. -/
def step (m : State V) : Lbl V → Option (State V)
  | .call t op => if m.user t then
      some { m with stack := HB.put m.stack t (⟨op, prog m.sh.arr.length op, false⟩ :: m.stack t) }
    else none
  | .act t => match m.stack t with
    | f :: fs => if f.busy then none else act m t f fs
    | [] => none
  | .back t => match m.stack t with
    | f :: fs => if f.busy then some { m with stack := HB.put m.stack t ({ f with busy := false } :: fs) } else none
    | [] => none
  | .rel t n => if m.user t then some { m with mem := m.mem.run t [.rel n] } else none
  | .acq t n => if m.user t then some { m with mem := m.mem.run t [.acq n] } else none

/-- An access of the step is a data race. -/
def Race (m : State V) (l : Lbl V) : Prop := m.mem.Races (fun _ => True) l.who (ops m l)

/-- Executions with an observable at `self` with `max` places, whose steps satisfy `G`. -/
inductive Run (self max : Nat) (G : State V → Lbl V → Prop) : State V → Prop
  | start : Run self max G (State.new self max)
  | step (m m' : State V) (l : Lbl V) : Run self max G m → G m l → Fixed.step m l = some m' → Run self max G m'

/-- The events without the threads. -/
def State.events (m : State V) : List (Ev V) := m.log.map (·.2)

/-- The thread comes after all that has been done with the observable. -/
def State.KnowsAll (m : State V) (t : Nat) : Prop := ∀ a ∈ m.mem.log, a.time ≤ m.mem.clk t a.who

/-- Threads use the observable one after another: a call is made while no other thread is in one, and the first of its thread by a
thread that comes after all calls so far. -/
def InTurn (m : State V) : Lbl V → Prop
  | .call t _ => (∀ u, u ≠ t → m.stack u = []) ∧ (m.stack t = [] → m.KnowsAll t)
  | _ => True

/-- Callbacks make calls in `P` only. -/
def Nested (P : Op V → Prop) (m : State V) : Lbl V → Prop
  | .call t op => m.stack t = [] ∨ P op
  | _ => True

/-- Threads use the observable one after another, and callbacks make calls in `P` only. -/
def Turns (P : Op V → Prop) (m : State V) (l : Lbl V) : Prop := InTurn m l ∧ Nested P m l

/-- What is reached from `m0` by steps of any threads in the course of a call of `op` that thread `t` makes there from outside
callbacks, until it returns. -/
inductive Course (G : State V → Lbl V → Prop) (t : Nat) (op : Op V) (m0 : State V) : State V → Prop
  | begin (m : State V) : m0.stack t = [] → G m0 (.call t op) → Fixed.step m0 (.call t op) = some m → Course G t op m0 m
  | step (m m' : State V) (l : Lbl V) : Course G t op m0 m → m.stack t ≠ [] → G m l → Fixed.step m l = some m' → Course G t op m0 m'

/-- The step is not one by which threads synchronise outside the observable. -/
def Lbl.Plain : Lbl V → Prop
  | .rel _ _ | .acq _ _ => False
  | _ => True

end Verif.Observer.Fixed
