import Verif.Pipeline.Props
import Verif.HappensBefore
/-!
`pipeline_stage` (`include/xitren/comm/pipeline_stage.hpp`) with happens-before: which accesses to the slots and to the
deque of samples are data races.  The steps of the stage are those of `Stage`; in addition threads outside call
`time_for_unit()` and `buffer_utilization()`, and the handler and threads outside synchronise with each other through
objects of their own (mutexes, promises, atomics), in any way they like.

The worker synchronises only by what it does to `queue_.tail` and `closed_` (its own counter `tail_` is used by nobody
else), and by what the handler does.  The constructor initialises everything before it starts the worker
(pipeline_stage.hpp:96-103), and whoever uses the stage comes after the constructor, so that initialisation is not an
access here.
-/
namespace Verif.Pipeline.HB
open Verif Verif.HB Verif.Pipeline
variable {α : Type}

/-- Memory that is not atomic: the slots and the deque of samples (pipeline_stage.hpp:40, 101). -/
inductive Loc where
  | slot (k : Nat)
  | stat
  deriving DecidableEq

/-- What threads synchronise with: `queue_.tail`, `closed_`, and objects of the user's (pipeline_stage.hpp:41, 98). -/
inductive Obj where
  | tail
  | closed
  | user (n : Nat)
  deriving DecidableEq

/-- A thread: the worker is `none`, the others are `some p`. -/
abbrev Thr := Option Nat

/-- A stage and what its accesses are (pipeline_stage.hpp:34-140). -/
structure State (α : Type) where
  st : Stage α
  mem : Mem Thr Loc Obj

/-- A new stage with `b` slots (pipeline_stage.hpp:46, 97-103). -/
def State.new (b : Nat) : State α := ⟨Stage.new b, Mem.new⟩

/-- The steps: thread `p` enters `push`, stores and returns, runs the destructor; the worker takes a step; thread `p` calls
`time_for_unit()` or `buffer_utilization()`; the handler does so; somebody releases or acquires an object of the user's
(the worker only in the handler). -/
inductive Lbl (α : Type) where
  | begin (p : Nat) (x : α)
  | store (p : Nat)
  | close (p : Nat)
  | work (e : Int)
  | ask (p : Nat)
  | self
  | rel (t : Thr) (n : Nat)
  | acq (t : Thr) (n : Nat)

/-- The step of the stage, if it is one. -/
def Lbl.stage : Lbl α → Option (Label α)
  | .begin p x => some (.begin p x)
  | .store p => some (.store p)
  | .close _ => some .close
  | .work e => some (.work e)
  | _ => none

/-- The thread that does it. -/
def Lbl.who : Lbl α → Thr
  | .begin p _ => some p
  | .store p => some p
  | .close p => some p
  | .work _ => none
  | .ask p => some p
  | .self => none
  | .rel t _ => t
  | .acq t _ => t

/-- When the other steps are possible: the handler runs between the step in which the worker calls it and the step in
which the worker records the sample; nobody calls member functions once destruction has begun. -/
def State.allows (m : State α) : Lbl α → Prop
  | .ask _ => m.st.closed = false
  | .self => m.st.q.pc = .stat
  | .rel t _ => t = none → m.st.q.pc = .stat
  | .acq t _ => t = none → m.st.q.pc = .stat
  | _ => True

/-- What the worker's next step does to memory (pipeline_stage.hpp:108-130): the loops read `closed_` and `queue_.tail`;
then the slot is looked at, later it is copied for the handler, whose other argument is computed from the deque; the new
sample contains `queue_.tail` and is written to the deque. -/
def workOps (m : State α) : List (Op Loc Obj) :=
  match m.st.q.pc with
  | .outer => if m.st.closed then [.acq .closed] else []
  | .drain => [.acq .tail]
  | .inner => [.acq .tail]
  | .check => [.acc (.slot (m.st.q.head % m.st.q.slots.length)) false m.st.q.head]
  | .take => []
  | .call i => [.acc (.slot (i % m.st.q.slots.length)) false i, .acc .stat false 0]
  | .stat => [.acq .tail, .acc .stat true 0]
  | .ended => []

/-- What the store of a push does to memory (pipeline_stage.hpp:60, 70). -/
def storeOps (m : State α) (p : Nat) : List (Op Loc Obj) :=
  match m.st.pend p with
  | some (i, _) => [.acc (.slot (i % m.st.q.slots.length)) true i]
  | none => []

/-- What a step does to memory: `tail++` is a read-modify-write operation, `closed_ = true` a store (the only one, so that there
is no release before that it could cut off), the statistics read the deque (pipeline_stage.hpp:50, 59-60, 69-70, 79-80, 89-90). -/
def ops (m : State α) : Lbl α → List (Op Loc Obj)
  | .begin _ _ => [.acq .tail, .rel .tail]
  | .store p => storeOps m p
  | .close _ => [.rel .closed]
  | .work _ => workOps m
  | .ask _ => [.acc .stat false 0]
  | .self => [.acc .stat false 0]
  | .rel _ n => [.rel (.user n)]
  | .acq _ n => [.acq (.user n)]

/-- What a step does to the stage (pipeline_stage.hpp:48-133). -/
def StageStep (m : State α) (l : Lbl α) (st' : Stage α) : Prop :=
  match l.stage with
  | some sl => Stage.Step m.st sl (.ok st')
  | none => m.allows l ∧ st' = m.st

/-- A step (pipeline_stage.hpp:48-133). -/
def Step (m : State α) (l : Lbl α) (m' : State α) : Prop :=
  StageStep m l m'.st ∧ m'.mem = m.mem.run l.who (ops m l)

/-- The step `l` makes an access to a place in `R` that is a data race. -/
def Race (R : Loc → Prop) (m : State α) (l : Lbl α) : Prop := m.mem.Races R l.who (ops m l)

/-- The states reached by steps that satisfy `G` and do not race on places in `R`; `ls` are the steps, the newest first. -/
inductive Run (b : Nat) (R : Loc → Prop) (G : List (Lbl α) → State α → Lbl α → Prop) : List (Lbl α) → State α → Prop
  | new : Run b R G [] (State.new b)
  | step (ls : List (Lbl α)) (m m' : State α) (l : Lbl α) : Run b R G ls m → G ls m l → Step m l m' → ¬ Race R m l →
      Run b R G (l :: ls) m'

/-- No restriction on the steps. -/
def anyLbl : List (Lbl α) → State α → Lbl α → Prop := fun _ _ _ => True

/-- No place, the slots, the deque. -/
def noLoc : Loc → Prop := fun _ => False
def slots : Loc → Prop := fun l => ∃ k, l = .slot k
def deque : Loc → Prop := fun l => l = .stat

end Verif.Pipeline.HB
