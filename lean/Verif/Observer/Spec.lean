import Verif.Observer.Model
/-!
Specification vocabulary for the fixed-capacity observable: everything is a function of the log of
callbacks and call results; nothing here mentions the array, the counter or the `inside` flag.
-/
namespace Verif.Observer
open Verif

variable {V : Type}

/-- The list of registered observers after a call, as an ordered set of at most `max` elements. -/
def specNext (max : Nat) (l : List Nat) : Op V → List Nat
  | .add o => if l.length < max ∧ o ∉ l then l ++ [o] else l
  | .remove o => l.filter (· != o)
  | .clear => []
  | .notify _ => l

/-- Effect of an event on the registered observers: only returning calls have one. -/
def specEv (max : Nat) (l : List Nat) : Ev V → List Nat
  | .ret op _ => specNext max l op
  | _ => l

/-- The observers registered after a log. -/
def regs (max : Nat) (log : List (Ev V)) : List Nat := log.foldl (specEv max) []

/-- Effect of an event on the number of notification callbacks in progress. -/
def depthEv (d : Int) : Ev V → Int
  | .enter _ _ _ => d + 1
  | .leave _ => d - 1
  | _ => d

/-- Number of notification callbacks in progress after a log. -/
def depth (log : List (Ev V)) : Int := log.foldl depthEv 0

/-- The result a call has to give when `l` is registered and `d` notification callbacks are in
progress. -/
def specErr (max : Nat) (l : List Nat) (d : Int) : Op V → Err
  | .add o => if max ≤ l.length then .listIsFull else if o ∈ l then .alreadyContains else .ok
  | .remove o => if o ∈ l then .ok else .notFound
  | .clear => .ok
  | .notify _ => if d = 0 then .ok else .notifyRecursionDetected

/-- The notifications in a log: source, observer, value. -/
def entered : List (Ev V) → List (Nat × Nat × V)
  | [] => []
  | .enter s o v :: es => (s, o, v) :: entered es
  | .leave _ :: es => entered es
  | .disc _ _ :: es => entered es
  | .ret _ _ :: es => entered es

/-- The disconnections in a log: source, observer. -/
def disconnected : List (Ev V) → List (Nat × Nat)
  | [] => []
  | .enter _ _ _ :: es => disconnected es
  | .leave _ :: es => disconnected es
  | .disc s o :: es => (s, o) :: disconnected es
  | .ret _ _ :: es => disconnected es

/-- All calls a user program can ever make satisfy `P`. -/
def Prog.Only {U : Type} (P : Op V → Prop) : Prog V U → Prop
  | .ret _ => True
  | .set _ k => k.Only P
  | .call op k => P op ∧ ∀ e u, (k e u).Only P

/-- The call can only add a subscription or notify. -/
def Op.AddOrNotify : Op V → Prop
  | .add _ => True
  | .notify _ => True
  | _ => False

/-- The call can only notify. -/
def Op.IsNotify : Op V → Prop
  | .notify _ => True
  | _ => False

end Verif.Observer
