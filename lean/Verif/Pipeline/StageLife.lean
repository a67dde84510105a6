import Verif.Pipeline.Races
/-!
`pipeline_stage` (`include/xitren/comm/pipeline_stage.hpp`) from its construction to the end of its destructor, with
happens-before: the steps are those of `Races`, what they do to memory is the same; in addition the destructor waits for
the worker, and handlers and threads outside use data of their own, which may have been handed over with an item.

A thread does one thing at a time: it does not use its data while it is in `push` or in the destructor.  (Copying an item
into a slot, and copying it for the handler, is not code of the user's here.)
-/
namespace Verif.Pipeline.Life
open Verif Verif.HB Verif.Pipeline
variable {α : Type}

/-- Memory that is not atomic: that of the stage (pipeline_stage.hpp:40, 101), and data of the user's. -/
inductive Loc where
  | own (l : HB.Loc)
  | data (d : Nat)
  deriving DecidableEq

/-- What threads synchronise with: `queue_.tail`, `closed_` and objects of the user's, and the end of the worker
(pipeline_stage.hpp:41, 98, 52). -/
inductive Obj where
  | own (o : HB.Obj)
  | done
  deriving DecidableEq

/-- An operation on the memory of the stage. -/
def lift : Op HB.Loc HB.Obj → Op Loc Obj
  | .acq o => .acq (.own o)
  | .rel o => .rel (.own o)
  | .sto o => .sto (.own o)
  | .acc l w i => .acc (.own l) w i

/-- A push that has incremented the counter: its number, the item, and what the pushing thread came after (a record, no
code). -/
structure Claim (α : Type) where
  i : Nat
  item : α
  know : HB.Thr → Nat

/-- A stage, what its accesses are, who runs the destructor and whether it has joined the worker, and the pushes, the
newest first (pipeline_stage.hpp:34-140). -/
structure State (α : Type) where
  st : Stage α
  mem : Mem HB.Thr Loc Obj
  dtor : Option (Nat × Bool)
  claims : List (Claim α)

/-- A new stage with `b` slots (pipeline_stage.hpp:46, 97-103). -/
def State.new (b : Nat) : State α := ⟨Stage.new b, Mem.new, none, []⟩

/-- The steps: those of `Races`; the destructor, run by `p`, joins the worker; somebody uses data of the user's. -/
inductive Lbl (α : Type) where
  | base (l : HB.Lbl α)
  | join (p : Nat)
  | touch (t : HB.Thr) (d : Nat) (wr : Bool)

/-- The step of the stage, if it is one. -/
def Lbl.stage : Lbl α → Option (Label α)
  | .base l => l.stage
  | _ => none

/-- The thread that does it. -/
def Lbl.who : Lbl α → HB.Thr
  | .base l => l.who
  | .join p => some p
  | .touch t _ _ => t

/-- The thread runs code of the user's: the worker in the handler, between the step in which it calls the handler and the
step in which it records the sample (pipeline_stage.hpp:122-126); another thread if it is neither in `push` nor in the
destructor. -/
def State.free (m : State α) : HB.Thr → Prop
  | none => m.st.q.pc = .stat
  | some p => m.st.pend p = none ∧ m.dtor ≠ some (p, false)

/-- When the other steps are possible: nobody calls member functions once destruction has begun; the destructor waits for
the worker (pipeline_stage.hpp:50-53). -/
def State.allows (m : State α) : Lbl α → Prop
  | .base (.ask p) => m.st.closed = false ∧ m.free (some p)
  | .base .self => m.free none
  | .base (.rel t _) => m.free t
  | .base (.acq t _) => m.free t
  | .join p => m.dtor = some (p, false) ∧ m.st.q.pc = .ended
  | .touch t _ _ => m.free t
  | _ => True

/-- The worker ends when it has seen `closed_` and then nothing left to do (pipeline_stage.hpp:108, 135). -/
def ending (m : State α) : HB.Lbl α → List (Op Loc Obj)
  | .work _ => if m.st.q.pc = .drain ∧ (m.st.q.tail + word - m.st.q.head) % word = 0 then [.rel .done] else []
  | _ => []

/-- What a step does to memory (pipeline_stage.hpp:48-133). -/
def ops (m : State α) : Lbl α → List (Op Loc Obj)
  | .base l => (HB.ops ⟨m.st, Mem.new⟩ l).map lift ++ ending m l
  | .join _ => [.acq .done]
  | .touch _ d wr => [.acc (.data d) wr 0]

/-- The destructor begins, and joins the worker (pipeline_stage.hpp:48-54). -/
def dtorAfter (m : State α) : Lbl α → Option (Nat × Bool)
  | .base (.close p) => some (p, false)
  | .join p => some (p, true)
  | _ => m.dtor

/-- The record of a push (no code). -/
def record (m : State α) : Lbl α → List (Claim α)
  | .base (.begin p x) => ⟨m.st.q.tail, x, m.mem.clk (some p)⟩ :: m.claims
  | _ => m.claims

/-- What a step does to the stage (pipeline_stage.hpp:48-133). -/
def StageStep (m : State α) (l : Lbl α) (st' : Stage α) : Prop :=
  match l.stage with
  | some sl => Stage.Step m.st sl (.ok st')
  | none => m.allows l ∧ st' = m.st

/-- A step (pipeline_stage.hpp:48-133). -/
def Step (m : State α) (l : Lbl α) (m' : State α) : Prop :=
  StageStep m l m'.st ∧ m'.mem = m.mem.run l.who (ops m l) ∧ m'.dtor = dtorAfter m l ∧ m'.claims = record m l

/-- The step `l` makes an access to a place in `R` that is a data race. -/
def Race (R : Loc → Prop) (m : State α) (l : Lbl α) : Prop := m.mem.Races R l.who (ops m l)

/-- The states reached by steps that satisfy `G`; `ls` are the steps, the newest first. -/
inductive Run (b : Nat) (G : State α → Lbl α → Prop) : List (Lbl α) → State α → Prop
  | new : Run b G [] (State.new b)
  | step (ls : List (Lbl α)) (m m' : State α) (l : Lbl α) : Run b G ls m → G m l → Step m l m' → Run b G (l :: ls) m'

/-- No restriction on the steps. -/
def anyLbl : State α → Lbl α → Prop := fun _ _ => True

/-- Later steps, whatever they are. -/
inductive Later (m : State α) : State α → Prop
  | refl : Later m m
  | step (m1 m2 : State α) (l : Lbl α) : Later m m1 → Step m1 l m2 → Later m m2

end Verif.Pipeline.Life
