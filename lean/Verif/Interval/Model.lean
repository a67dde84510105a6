import Verif.Basic
/-! `interval_event`: the worker thread, the threads that call `stop()` and the owner, step by step.
Times are nanoseconds of `system_clock`, whose readings are arbitrary (the clock may jump). -/
namespace Verif.Interval
open Verif

/-- Where the worker is (interval_event.hpp:44-55).  `nap` is the first sleep, `start` the first reading
of the clock, `test` the loop condition, `check` the comparison, `calling` inside `function_()`, `pause`
the sleep, `notify` the call after the loop.  `selfWait` and `selfAsleep`: the callback itself has called
`stop()`. -/
inductive WPc
  | nap | start | test | check | calling | pause | notify | ended | selfWait | selfAsleep
deriving DecidableEq

/-- The worker has left its loop (interval_event.hpp:54). -/
def WPc.out : WPc → Bool
  | .notify | .ended => true
  | _ => false

/-- Where a thread is that calls `stop()` (interval_event.hpp:70-78). -/
inductive SPc
  | idle | clearing | waiting | asleep | leaving
deriving DecidableEq

/-- The object and its threads.  `period` is `none` until the constructor has initialised it (members are
initialised in the order of their declaration, hence after the thread has been started,
interval_event.hpp:130-135).  `t0` records the worker's first reading of the clock and `calls` the reading
at which each call of the function was decided. -/
structure State where
  flag : Bool
  stopped : Bool
  period : Option Int
  worker : WPc
  last : Int
  t0 : Int
  calls : List Int
  who : Nat → SPc
  destroyed : Bool

/-- The thread has just been started (interval_event.hpp:43-55, 131, 135). -/
def State.new : State := ⟨true, false, none, .nap, 0, 0, [], fun _ => .idle, false⟩

/-- A value of `system_clock::rep` (interval_event.hpp:46-49). -/
def inRep (x : Int) : Prop := -2 ^ 63 ≤ x ∧ x < 2 ^ 63

instance (x : Int) : Decidable (inRep x) := inferInstanceAs (Decidable (_ ∧ _))

/-- `last_time += period_`: milliseconds to nanoseconds (interval_event.hpp:49). -/
def advance (last P : Int) : Res Int :=
  if inRep (P * 1000000) ∧ inRep (last + P * 1000000) then .ok (last + P * 1000000) else .ub

/-- The comparison and its consequences (interval_event.hpp:48-51): a number of nanoseconds is compared
with a number of milliseconds. -/
def check (s : State) (P now : Int) : Res State :=
  if inRep (now - s.last) then
    if now - s.last ≥ P then do
      let last ← advance s.last P
      return { s with last := last, calls := s.calls ++ [now], worker := .calling }
    else return { s with worker := .pause }
  else .ub

/-- Replace one value of a function (no code). -/
def upd (f : Nat → SPc) (k : Nat) (v : SPc) : Nat → SPc := fun j => if j = k then v else f j

/-- A step of the worker other than `notify` (interval_event.hpp:45-53).  `now` is the reading of the
clock if the step reads it.  Every step but the first uses the object. -/
def workerStep (s : State) (now : Int) : Res State :=
  match s.worker with
  | .nap => .ok { s with worker := .start }
  | .start => .ok { s with last := now, t0 := now, worker := .test }
  | .test =>
    if s.destroyed then .ub
    else .ok { s with flag := true, worker := if s.flag then .check else .notify }
  | .check =>
    if s.destroyed then .ub
    else
      match s.period with
      | none => .ub
      | some P => check s P now
  | .calling => .ok { s with worker := .pause }
  | .pause =>
    if s.destroyed then .ub
    else
      match s.period with
      | none => .ub
      | some _ => .ok { s with worker := .test }
  | .selfWait =>
    if s.flag then .ok { s with stopped := true, worker := .calling } else .ok { s with worker := .selfAsleep }
  | .selfAsleep => .ok { s with worker := .selfWait }
  | _ => .hang

/-- The steps (interval_event.hpp:41-127). -/
inductive Label
  | build (P : Int)
  | setPeriod (P : Int)
  | work (now : Int)
  | selfStop
  | notify (k : Option Nat)
  | begin (k : Nat)
  | again (k : Nat)
  | clear (k : Nat)
  | look (k : Nat)
  | wake (k : Nat)
  | leave (k : Nat)
  | destroy

/-- One step of some thread (interval_event.hpp:41-127). -/
inductive Step : State → Label → Res State → Prop
  /-- The rest of the constructor (interval_event.hpp:56-60). -/
  | build (s : State) (P : Int) : s.period = none → Step s (.build P) (.ok { s with period := some P })
  /-- `period(val)` (interval_event.hpp:112-116). -/
  | setPeriod (s : State) (P Q : Int) : s.period = some Q → s.destroyed = false →
      Step s (.setPeriod P) (.ok { s with period := some P })
  /-- A step of the worker. -/
  | work (s : State) (now : Int) : s.worker.out = false → Step s (.work now) (workerStep s now)
  /-- The callback calls `stop()` (interval_event.hpp:73-75). -/
  | selfStop (s : State) : s.worker = .calling → s.stopped = false →
      Step s .selfStop (.ok { s with flag := false, worker := .selfWait })
  /-- `notify_one()` with a sleeping thread, which one is open (interval_event.hpp:54). -/
  | notify (s : State) (k : Nat) : s.worker = .notify → s.who k = .asleep →
      Step s (.notify (some k))
        (if s.destroyed then .ub else .ok { s with who := upd s.who k .waiting, worker := .ended })
  /-- `notify_one()` without one. -/
  | notifyNone (s : State) : s.worker = .notify → (∀ k, s.who k ≠ .asleep) →
      Step s (.notify none) (if s.destroyed then .ub else .ok { s with worker := .ended })
  /-- `stop()` is called and finds `stop_` false (interval_event.hpp:73). -/
  | begin (s : State) (k : Nat) (Q : Int) : s.period = some Q → s.destroyed = false → s.who k = .idle →
      s.stopped = false → Step s (.begin k) (.ok { s with who := upd s.who k .clearing })
  /-- `stop()` is called, finds `stop_` true and returns (interval_event.hpp:73). -/
  | again (s : State) (k : Nat) (Q : Int) : s.period = some Q → s.destroyed = false → s.who k = .idle →
      s.stopped = true → Step s (.again k) (.ok s)
  /-- `keep_running_.clear()` (interval_event.hpp:74). -/
  | clear (s : State) (k : Nat) : s.who k = .clearing →
      Step s (.clear k) (.ok { s with flag := false, who := upd s.who k .waiting })
  /-- `keep_running_.wait(false)` looks at the flag and goes to sleep if it is false
  (interval_event.hpp:75). -/
  | look (s : State) (k : Nat) : s.who k = .waiting →
      Step s (.look k) (.ok { s with who := upd s.who k (if s.flag then .leaving else .asleep) })
  /-- A spurious wake-up. -/
  | wake (s : State) (k : Nat) : s.who k = .asleep →
      Step s (.wake k) (.ok { s with who := upd s.who k .waiting })
  /-- `stop_ = true` and return (interval_event.hpp:76-78). -/
  | leave (s : State) (k : Nat) : s.who k = .leaving →
      Step s (.leave k) (.ok { s with stopped := true, who := upd s.who k .idle })
  /-- The rest of the destructor, after its `stop()` (interval_event.hpp:65). -/
  | destroy (s : State) : s.stopped = true → (∀ k, s.who k = .idle) → s.destroyed = false →
      Step s .destroy (.ok { s with destroyed := true })

/-- The states that can be reached by steps that satisfy `G`. -/
inductive Reach (G : State → Label → Prop) : State → Prop
  | new : Reach G State.new
  | step (s s' : State) (l : Label) : Reach G s → G s l → Step s l (.ok s') → Reach G s'

/-- A sequence of steps that satisfy `G`. -/
inductive Run (G : State → Label → Prop) : State → List Label → State → Prop
  | nil (s : State) : Run G s [] s
  | cons (s s1 s2 : State) (l : Label) (ls : List Label) : G s l → Step s l (.ok s1) → Run G s1 ls s2 →
      Run G s (l :: ls) s2

/-- No restriction. -/
def anyStep : State → Label → Prop := fun _ _ => True

/-- Calls of `stop()` do not overlap and none comes from the callback. -/
def orderly : State → Label → Prop := fun s l =>
  match l with
  | .begin _ => ∀ j, s.who j = .idle
  | .selfStop => False
  | _ => True

/-- The period is `P` throughout. -/
def constant (P : Int) : State → Label → Prop := fun _ l =>
  match l with
  | .build Q => Q = P
  | .setPeriod _ => False
  | _ => True

theorem upd_same (f : Nat → SPc) (k : Nat) (v : SPc) : upd f k v k = v := if_pos rfl

theorem upd_other (f : Nat → SPc) {k j : Nat} (v : SPc) (h : j ≠ k) : upd f k v j = f j := if_neg h

end Verif.Interval
