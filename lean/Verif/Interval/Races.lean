import Verif.Interval.Props
import Verif.HappensBefore
/-!
`interval_event` (`include/xitren/func/interval_event.hpp`) with happens-before: which accesses to its members, and to data
of the user's that the periodic function shares with others, are data races.  The steps of the object are those of
`Interval.Step`; in addition the function and threads outside read the members, touch data of the user's, and synchronise
with each other through objects of the user's (mutexes, atomics), in any way they like.

`function_` and `keep_running_` are initialised before the thread is started (interval_event.hpp:130-132) and `function_`
is never written again; the other members are initialised after it (interval_event.hpp:133-135).  The members are trivially
destructible but for `function_`, so that the end of the destructor is not an access here (C65 is about it).
-/
namespace Verif.Interval.HB
open Verif Verif.HB Verif.Interval

/-- Memory that is not atomic: `period_`, `period_between_checks_`, `stop_` (interval_event.hpp:133-135) and data of the
user's. -/
inductive Loc where
  | period
  | between
  | stopped
  | data (n : Nat)
  deriving DecidableEq

/-- What threads synchronise with: `keep_running_` (interval_event.hpp:131) and objects of the user's. -/
inductive Obj where
  | flag
  | user (n : Nat)
  deriving DecidableEq

/-- A thread: the worker is `none`, the others are `some p`. -/
abbrev Thr := Option Nat

/-- An event and what its accesses are (interval_event.hpp:18-136). -/
structure State where
  st : Interval.State
  mem : Mem Thr Loc Obj

/-- The thread has just been started (interval_event.hpp:43-55). -/
def State.new : State := ⟨Interval.State.new, Mem.new⟩

/-- Not the code: the same with a constructor that initialises all members, `period_` with `P`, before it starts the thread
(as if `thread_` were declared last, interval_event.hpp:130-135). -/
def State.built (P : Int) : State := ⟨{ Interval.State.new with period := some P }, Mem.new⟩

/-- The steps: those of `Interval.Label`, where needed with the thread that takes them (`none` for the function, called by
the worker); a call of `period_between_checks(val)`; a look at what `period()` or `period_between_checks()` refers to;
an access to data of the user's; the release and the acquisition of an object of the user's
(interval_event.hpp:41-127). -/
inductive Lbl where
  | build (p : Nat) (P : Int)
  | setPeriod (t : Thr) (P : Int)
  | setBetween (t : Thr)
  | get (t : Thr) (between : Bool)
  | work (now : Int)
  | selfStop
  | notify (k : Option Nat)
  | begin (k : Nat)
  | again (k : Nat)
  | clear (k : Nat)
  | look (k : Nat)
  | wake (k : Nat)
  | leave (k : Nat)
  | destroy (p : Nat)
  | touch (t : Thr) (n : Nat) (wr : Bool)
  | rel (t : Thr) (n : Nat)
  | acq (t : Thr) (n : Nat)
  deriving DecidableEq

/-- The step of `Interval.Step`, if it is one. -/
def Lbl.base : Lbl → Option Label
  | .build _ P => some (.build P)
  | .setPeriod _ P => some (.setPeriod P)
  | .work now => some (.work now)
  | .selfStop => some .selfStop
  | .notify k => some (.notify k)
  | .begin k => some (.begin k)
  | .again k => some (.again k)
  | .clear k => some (.clear k)
  | .look k => some (.look k)
  | .wake k => some (.wake k)
  | .leave k => some (.leave k)
  | .destroy _ => some .destroy
  | _ => none

/-- The thread that takes it. -/
def Lbl.who : Lbl → Thr
  | .build p _ => some p
  | .setPeriod t _ => t
  | .setBetween t => t
  | .get t _ => t
  | .work _ => none
  | .selfStop => none
  | .notify _ => none
  | .begin k => some k
  | .again k => some k
  | .clear k => some k
  | .look k => some k
  | .wake k => some k
  | .leave k => some k
  | .destroy p => some p
  | .touch t _ _ => t
  | .rel t _ => t
  | .acq t _ => t

/-- The thread runs code of the user's: the worker in the function, another one outside `stop()`. -/
def State.free (m : State) : Thr → Prop
  | none => m.st.worker = .calling
  | some p => m.st.who p = .idle

/-- When the steps are possible, as far as `Interval.Step` does not say: code of the user's takes them; member functions are
called after the constructor and before the destructor has finished. -/
def State.allows (m : State) : Lbl → Prop
  | .build p _ => m.free (some p)
  | .setPeriod t _ => m.free t
  | .setBetween t => m.free t ∧ m.st.period ≠ none ∧ m.st.destroyed = false
  | .get t _ => m.free t ∧ m.st.period ≠ none ∧ m.st.destroyed = false
  | .touch t _ _ => m.free t
  | .rel t _ => m.free t
  | .acq t _ => m.free t
  | _ => True

/-- What the worker's next step does to memory (interval_event.hpp:45-55): `test_and_set()` is a read-modify-write
operation, the comparison and `last_time += period_` read `period_`, `sleep_for` reads `period_between_checks_`.  In a
`stop()` called by the function, `wait(false)` reads the flag, and `stop_` is written if the flag is found true. -/
def workOps (m : State) : List (Op Loc Obj) :=
  match m.st.worker with
  | .test => [.acq .flag, .rel .flag]
  | .check => [.acc .period false 0]
  | .pause => [.acc .between false 0]
  | .selfWait => if m.st.flag then [.acq .flag, .acc .stopped true 1] else [.acq .flag]
  | _ => []

/-- What a step does to memory (interval_event.hpp:41-127): the constructor initialises three members; `stop()` reads
`stop_`, stores `false` to the flag, reads the flag, and writes `stop_`.  Notifying and waking up order nothing. -/
def ops (m : State) : Lbl → List (Op Loc Obj)
  | .build _ _ => [.acc .period true 0, .acc .between true 0, .acc .stopped true 0]
  | .setPeriod _ _ => [.acc .period true 1]
  | .setBetween _ => [.acc .between true 1]
  | .get _ b => [.acc (if b then .between else .period) false 0]
  | .work _ => workOps m
  | .selfStop => [.acc .stopped false 0, .sto .flag]
  | .notify _ => []
  | .begin _ => [.acc .stopped false 0]
  | .again _ => [.acc .stopped false 0]
  | .clear _ => [.sto .flag]
  | .look _ => [.acq .flag]
  | .wake _ => []
  | .leave _ => [.acc .stopped true 1]
  | .destroy _ => []
  | .touch _ n wr => [.acc (.data n) wr 0]
  | .rel _ n => [.rel (.user n)]
  | .acq _ n => [.acq (.user n)]

/-- What a step does to the object (interval_event.hpp:41-127). -/
def BaseStep (m : State) (l : Lbl) (st' : Interval.State) : Prop :=
  match l.base with
  | some bl => Interval.Step m.st bl (.ok st')
  | none => st' = m.st

/-- A step (interval_event.hpp:41-127). -/
def Step (m : State) (l : Lbl) (m' : State) : Prop :=
  m.allows l ∧ BaseStep m l m'.st ∧ m'.mem = m.mem.run l.who (ops m l)

/-- The step `l` makes an access to a place in `R` that is a data race. -/
def Race (R : Loc → Prop) (m : State) (l : Lbl) : Prop := m.mem.Races R l.who (ops m l)

/-- The states reached from `i` by steps that satisfy `G` and do not race on places in `R`; `ls` are the steps, the newest
first. -/
inductive Run (i : State) (R : Loc → Prop) (G : List Lbl → State → Lbl → Prop) : List Lbl → State → Prop
  | new : Run i R G [] i
  | step (ls : List Lbl) (m m' : State) (l : Lbl) : Run i R G ls m → G ls m l → Step m l m' → ¬ Race R m l →
      Run i R G (l :: ls) m'

/-- No restriction on the steps. -/
def anyLbl : List Lbl → State → Lbl → Prop := fun _ _ _ => True

/-- No place, one place. -/
def noLoc : Loc → Prop := fun _ => False
def only (l : Loc) : Loc → Prop := fun x => x = l

/-- The two beginnings: as in the code, or with all members initialised before the thread is started. -/
def Start (i : State) : Prop := i = State.new ∨ ∃ P, i = State.built P

end Verif.Interval.HB
