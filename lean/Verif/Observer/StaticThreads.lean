import Verif.HappensBefore
/-!
The compile-time observable used by several threads (include/xitren/comm/observer_static.hpp; all line numbers refer to it).  An
object of type `observable<D, Observers...>` with `n + 1` observers consists of layers 0 to `n`; each has the reference `obs_`, all
but the innermost one the reference `root`, and the innermost one the object `root`, which is empty.  The constructor and `notify`
are programs whose steps are the single accesses to these references, in the order in which the code makes them; threads take turns between any
two.  Users may synchronise by objects of their own.

The functions `notification_impl` may do anything: while one runs, its thread may notify again, construct and destroy, and it
returns when it likes (it cannot throw, `notification` is `noexcept`, line 25).  Observers are constructed and destroyed by the users; calling
one that does not exist is not followed further, nor is the use of a reference that has not been initialised.  That the type fixes
the number of the observers is in `n`; that it fixes their types does not matter here.
-/
namespace Verif.Observer.Static
open Verif Verif.HB

variable {V : Type}

/-- What is left to do of a call: it returns, reads or initialises one of the references, calls an observer, or takes note that the observer has
returned. -/
inductive Prog (V : Type) where
  | ret
  | obs (i : Nat) (k : Nat → Prog V)
  | root (i : Nat) (k : Nat → Prog V)
  | setObs (i o : Nat) (k : Prog V)
  | setRoot (i r : Nat) (k : Prog V)
  | tell (o src : Nat) (v : V) (k : Prog V)
  | left (o : Nat) (k : Prog V)

/-- `notify` from layer `i` on, with so many layers further inside (lines 52-57; 73-77 for the innermost one, whose `root` is at
`self`). -/
def notifyFrom (self : Nat) (v : V) : Nat → Nat → Prog V
  | 0, i => .obs i fun o => .tell o self v (.left o .ret)
  | left + 1, i => .obs i fun o => .root i fun r => .tell o r v (.left o (notifyFrom self v left (i + 1)))

/-- The constructor of layer `i` (lines 43-44, 65), then `k`: `next_` first, then `obs_`, then `root`, which refers to what the `root` of the
next layer is or refers to. -/
def make (self : Nat) : List Nat → Nat → Prog V → Prog V
  | [], _, k => k
  | [o], i, k => .setObs i o k
  | [o, o'], i, k => make self [o'] (i + 1) (.setObs i o (.setRoot i self k))
  | o :: o' :: o'' :: os, i, k => make self (o' :: o'' :: os) (i + 1) (.setObs i o (.root (i + 1) fun r => .setRoot i r k))

/-- Calls. -/
inductive Op (V : Type) where
  | make (os : List Nat)
  | notify (v : V)

/-- A call in progress: its number, the call, what is left of it, and whether a function of the user's is running. -/
structure Frame (V : Type) where
  id : Nat
  op : Op V
  prog : Prog V
  busy : Bool

/-- Places in memory: the references (lines 39-43, 62) and the observers. -/
inductive Loc where
  | obs (i : Nat)
  | root (i : Nat)
  | observer (o : Nat)
  deriving DecidableEq

/-- The place belongs to the observable. -/
def Loc.Member : Loc → Prop
  | .observer _ => False
  | _ => True

/-- What threads share: the references, as far as they have been initialised (lines 39-43, 62), and which observers exist. -/
structure Sh where
  obs : Nat → Option Nat
  root : Nat → Option Nat
  alive : Nat → Bool

/-- Events: the observable has been constructed or destroyed, a notification begins, it calls an observer, the observer returns, it ends. -/
inductive Ev (V : Type) where
  | made (os : List Nat)
  | gone
  | began (id : Nat) (v : V)
  | told (id src o : Nat) (v : V)
  | left (id o : Nat)
  | ret (id : Nat)
  deriving DecidableEq

/-- Where the innermost `root` is, how many layers there are besides the innermost one, what threads share, the calls that each thread is in, the innermost
first, the next number of a call, for which observers the observable is or has been constructed, whether it is ready, the record of accesses, and the
events with their threads, the oldest first (the last five are no code). -/
structure State (V : Type) where
  self : Nat
  n : Nat
  sh : Sh
  stack : Nat → List (Frame V)
  fresh : Nat
  list : Option (List Nat)
  ready : Bool
  mem : HB.Mem Nat Loc Nat
  log : List (Nat × Ev V)

/-- Nothing exists yet. -/
def State.new (self n : Nat) : State V :=
  ⟨self, n, ⟨fun _ => none, fun _ => none, fun _ => false⟩, fun _ => [], 0, none, false, Mem.new, []⟩

/-- Steps: a thread constructs the observable for these observers (lines 43-44, 65), notifies (lines 52-57, 73-77), a call makes one step, a function of the
user's returns, the observable is destroyed (lines 50, 71), an observer is constructed or destroyed, a thread releases or acquires an object of the
user's. -/
inductive Lbl (V : Type) where
  | make (t : Nat) (os : List Nat)
  | notify (t : Nat) (v : V)
  | act (t : Nat)
  | back (t : Nat)
  | destroy (t : Nat)
  | born (t o : Nat)
  | die (t o : Nat)
  | rel (t : Nat) (s : Nat)
  | acq (t : Nat) (s : Nat)

/-- Who takes the step. -/
def Lbl.who : Lbl V → Nat
  | .make t _ | .notify t _ | .act t | .back t | .destroy t | .born t _ | .die t _ | .rel t _ | .acq t _ => t

/-- The thread runs code of the user's: it is in no call, or in a function of an observer. -/
def State.user (m : State V) (t : Nat) : Bool :=
  match m.stack t with
  | [] => true
  | f :: _ => f.busy

/-- The memory that one step of a call touches (lines 43-44, 54, 65, 75; line 28 for the observer). -/
def Prog.ops : Prog V → List (HB.Op Loc Nat)
  | .obs i _ => [.acc (.obs i) false 0]
  | .root i _ => [.acc (.root i) false 0]
  | .setObs i _ _ => [.acc (.obs i) true 0]
  | .setRoot i _ _ => [.acc (.root i) true 0]
  | .tell o _ _ _ => [.acc (.observer o) false 0]
  | .ret | .left _ _ => []

/-- Destroying the observable counts as writing all its references (lines 50, 71). -/
def wipe : Nat → List (HB.Op Loc Nat)
  | 0 => [.acc (.obs 0) true 0]
  | n + 1 => .acc (.obs (n + 1)) true 0 :: .acc (.root n) true 0 :: wipe n

/-- The accesses and synchronisations of a step; constructing and destroying an observer counts as writing it (lines 22-31). -/
def ops (m : State V) : Lbl V → List (HB.Op Loc Nat)
  | .act t => match m.stack t with
    | f :: _ => f.prog.ops
    | [] => []
  | .destroy _ => wipe m.n
  | .born _ o | .die _ o => [.acc (.observer o) true 0]
  | .rel _ s => [.rel s]
  | .acq _ s => [.acq s]
  | .make _ _ | .notify _ _ | .back _ => []

/-- A step of a call in progress (lines 43-44, 52-57, 65, 73-77). -/
def act (m : State V) (t : Nat) (f : Frame V) (fs : List (Frame V)) : Option (State V) :=
  let mem := m.mem.run t f.prog.ops
  match f.prog with
  | .ret => match f.op with
    | .make os => some { m with stack := HB.put m.stack t fs, ready := true, log := m.log ++ [(t, .made os)] }
    | .notify _ => some { m with stack := HB.put m.stack t fs, log := m.log ++ [(t, .ret f.id)] }
  | .obs i k => (m.sh.obs i).map fun o => { m with mem, stack := HB.put m.stack t ({ f with prog := k o } :: fs) }
  | .root i k => (m.sh.root i).map fun r => { m with mem, stack := HB.put m.stack t ({ f with prog := k r } :: fs) }
  | .setObs i o k => some { m with mem, sh := { m.sh with obs := HB.put m.sh.obs i (some o) },
                                   stack := HB.put m.stack t ({ f with prog := k } :: fs) }
  | .setRoot i r k => some { m with mem, sh := { m.sh with root := HB.put m.sh.root i (some r) },
                                    stack := HB.put m.stack t ({ f with prog := k } :: fs) }
  | .tell o src v k => if m.sh.alive o then
      some { m with mem, stack := HB.put m.stack t ({ f with prog := k, busy := true } :: fs),
                    log := m.log ++ [(t, .told f.id src o v)] }
    else none
  | .left o k => some { m with stack := HB.put m.stack t ({ f with prog := k } :: fs), log := m.log ++ [(t, .left f.id o)] }

/-- A step; `none` if it is not possible or undefined. -/
def step (m : State V) : Lbl V → Option (State V)
  | .make t os => if m.user t ∧ os.length = m.n + 1 then
      some { m with stack := HB.put m.stack t (⟨m.fresh, .make os, make m.self os 0 .ret, false⟩ :: m.stack t),
                    fresh := m.fresh + 1, list := some os, ready := false }
    else none
  | .notify t v => if m.user t then
      some { m with stack := HB.put m.stack t (⟨m.fresh, .notify v, notifyFrom m.self v m.n 0, false⟩ :: m.stack t),
                    fresh := m.fresh + 1, log := m.log ++ [(t, .began m.fresh v)] }
    else none
  | .act t => match m.stack t with
    | f :: fs => if f.busy then none else act m t f fs
    | [] => none
  | .back t => match m.stack t with
    | f :: fs => if f.busy then some { m with stack := HB.put m.stack t ({ f with busy := false } :: fs) } else none
    | [] => none
  | .destroy t => if m.user t then
      some { m with mem := m.mem.run t (wipe m.n), sh := { m.sh with obs := fun _ => none, root := fun _ => none },
                    list := none, ready := false, log := m.log ++ [(t, .gone)] }
    else none
  | .born t o => if m.user t then
      some { m with mem := m.mem.run t [.acc (.observer o) true 0], sh := { m.sh with alive := HB.put m.sh.alive o true } }
    else none
  | .die t o => if m.user t then
      some { m with mem := m.mem.run t [.acc (.observer o) true 0], sh := { m.sh with alive := HB.put m.sh.alive o false } }
    else none
  | .rel t s => if m.user t then some { m with mem := m.mem.run t [.rel s] } else none
  | .acq t s => if m.user t then some { m with mem := m.mem.run t [.acq s] } else none

/-- An access of the step is a data race. -/
def Race (m : State V) (l : Lbl V) : Prop := m.mem.Races (fun _ => True) l.who (ops m l)

/-- Executions whose steps satisfy `G`. -/
inductive Run (self n : Nat) (G : State V → Lbl V → Prop) : State V → Prop
  | start : Run self n G (State.new self n)
  | step (m m' : State V) (l : Lbl V) : Run self n G m → G m l → Static.step m l = some m' → Run self n G m'

/-- The thread comes after all accesses of this kind. -/
def State.Knows (m : State V) (t : Nat) (P : Loc → Bool → Prop) : Prop := ∀ a ∈ m.mem.log, P a.loc a.wr → a.time ≤ m.mem.clk t a.who

/-- Writing the observable or one of its observers. -/
def State.Writes (m : State V) (loc : Loc) (wr : Bool) : Prop :=
  wr = true ∧ (loc.Member ∨ ∃ o os, loc = .observer o ∧ m.list = some os ∧ o ∈ os)

/-- What users have to observe: the observable is constructed where there is none, of observers that exist; it is used by threads that come after its
construction and that of its observers; it is destroyed when no thread is in a call, by a thread that comes after all its uses; its
observers live longer; and observers are constructed and destroyed by threads that come after all uses of them. -/
def Careful (m : State V) : Lbl V → Prop
  | .make t os => m.list = none ∧ (∀ o ∈ os, m.sh.alive o = true) ∧ m.Knows t fun loc _ => loc.Member
  | .notify t _ => m.ready = true ∧ m.Knows t m.Writes
  | .destroy t => m.ready = true ∧ (∀ u, m.stack u = []) ∧ m.Knows t fun loc _ => loc.Member
  | .born t o => m.sh.alive o = false ∧ m.Knows t fun loc _ => loc = .observer o
  | .die t o => m.sh.alive o = true ∧ (∀ os, m.list = some os → o ∉ os) ∧ m.Knows t fun loc _ => loc = .observer o
  | _ => True

/-- The observers of the observable that exists then. -/
def listed (l : List (Nat × Ev V)) : Option (List Nat) :=
  l.foldl (fun x e => match e.2 with
    | .made os => some os
    | .gone => none
    | _ => x) none

/-- The event belongs to this notification. -/
def Ev.Of (id : Nat) : Ev V → Bool
  | .told i _ _ _ | .left i _ | .ret i => i == id
  | _ => false

/-- What a notification of these observers does. -/
def visits (id src : Nat) (v : V) (os : List Nat) : List (Ev V) := os.flatMap fun o => [.told id src o v, .left id o]

end Verif.Observer.Static
