import Verif.Values.Reentrant
/-!
`values::observable<T, 0>` (`include/xitren/comm/values/observable.hpp:269-502`) with `on_update` functions and
overridden `disconnect` functions that call back into the observable (one thread).

`observers_` is a `std::vector` that `notify_observers` and `clear_observers` walk with a range-based `for`.  As in
`Observer/Callbacks.lean`, `gen` counts the operations that invalidate its past-the-end iterator - `emplace_back` and
`clear` - and a loop that goes on with iterators taken before is undefined.  `std::remove` overwrites elements and
invalidates nothing.
-/
namespace Verif.Values.Re.Vec
open Verif

/-- Observable events (observed.hpp:58-62, 69-81). -/
inductive Ev where
  /-- `notification` of object `o` with value `v` starts. -/
  | told (o : Nat) (v : Int)
  /-- `disconnect` of object `o` starts. -/
  | disc (o : Nat)
  /-- `notification` or `disconnect` of object `o` returns. -/
  | leave (o : Nat)
  /-- A member function returns. -/
  | ret (op : Op) (r : Ret)
  deriving DecidableEq, Repr

/-- The observable (observable.hpp:485), the number of invalidations, the values of the observed objects, the user
state and the log. -/
structure St (U : Type) where
  value : Int
  vec : List Nat
  gen : Nat
  held : Nat → Int
  user : U
  log : List Ev

variable {U : Type}

/-- A new observable and new observed objects (observable.hpp:404). -/
def St.new (u : U) : St U := ⟨0, [], 0, fun _ => 0, u, []⟩

/-- Record an event (no code). -/
def St.emit (s : St U) (e : Ev) : St U := { s with log := s.log ++ [e] }

/-- What a call returns (observable.hpp:282-480). -/
abbrev Ex (U : Type) := St U → Op → Res (St U × Ret)

/-- `add_observer` (observable.hpp:419-428). -/
def add (s : St U) (o : Nat) : St U × Ret :=
  if !containsVec o s.vec then ({ s with vec := s.vec ++ [o], gen := s.gen + 1 }, .err .ok)
  else (s, .err .alreadyContains)

/-- `remove_observer` (observable.hpp:438-450). -/
def remove (s : St U) (o : Nat) : St U × Ret :=
  if s.vec = [] then (s, .err .notFound)
  else
    let r := stdRemove o s.vec
    if r.2 ≠ s.vec.length then ({ s with vec := r.1 }, .err .ok)
    else ({ s with vec := r.1 }, .err .notFound)

/-- Running a function of the user; `ex` runs a call (observed.hpp:69-71, 79). -/
def runProg (ex : Ex U) : Prog U → St U → Res (St U)
  | .ret u, s => .ok { s with user := u }
  | .set u k, s => runProg ex k { s with user := u }
  | .call op k, s => do
    let r ← ex s op
    runProg ex (k r.2 r.1.user) r.1

/-- Reading through an iterator of a loop (observable.hpp:458-459, 475-476). -/
def deref (s : St U) (i : Nat) : Res Nat :=
  match s.vec[i]? with
  | some o => .ok o
  | none => .ub

/-- `observed::notification` and `data` (observed.hpp:58-62, 74-81). -/
def tell (ex : Ex U) (H : Handlers U) (v : Int) (o : Nat) (s : St U) : Res (St U) := do
  let s ← runProg ex (H.update s.user o v)
    ({ s with held := fun p => if p = o then v else s.held p }.emit (.told o v))
  .ok (s.emit (.leave o))

/-- `disconnect` (observed.hpp:69-71). -/
def disconnect (ex : Ex U) (H : Handlers U) (o : Nat) (s : St U) : Res (St U) := do
  let s ← runProg ex (H.disconnect s.user o) (s.emit (.disc o))
  .ok (s.emit (.leave o))

/-- A loop over the vector (observable.hpp:458-460, 475-477) with iterators taken when `gen` was `g`; `f` is its
body, `i` the position, the `Nat` argument the distance to the end. -/
def loop (f : Nat → St U → Res (St U)) (g i : Nat) : Nat → St U → Res (St U)
  | 0, s => if s.gen = g then .ok s else .ub
  | left + 1, s =>
    if s.gen = g then do
      let o ← deref s i
      let s ← f o s
      loop f g (i + 1) left s
    else .ub

/-- An update operator (observable.hpp:282-392) and `notify_observers` (observable.hpp:472-479). -/
def update (ex : Ex U) (H : Handlers U) (T : IntTy) (s : St U) (u : Upd) : Res (St U × Ret) := do
  let v ← result T s.value u
  let s ← loop (tell ex H v) s.gen 0 s.vec.length { s with value := stored T s.value u }
  .ok (s, .val v)

/-- `clear_observers` (observable.hpp:455-462). -/
def clear (ex : Ex U) (H : Handlers U) (s : St U) : Res (St U × Ret) := do
  let s ← loop (disconnect ex H) s.gen 0 s.vec.length s
  .ok ({ s with vec := [], gen := s.gen + 1 }, .unit)

/-- The member functions (observable.hpp:282-479). -/
def body (ex : Ex U) (H : Handlers U) (T : IntTy) (s : St U) : Op → Res (St U × Ret)
  | .upd u => update ex H T s u
  | .add o => .ok (Vec.add s o)
  | .remove o => .ok (Vec.remove s o)
  | .clear => Vec.clear ex H s

/-- One call and the record of its result (observable.hpp:282-479). -/
def execStep (ex : Ex U) (H : Handlers U) (T : IntTy) (s : St U) (op : Op) : Res (St U × Ret) := do
  let r ← body ex H T s op
  .ok (r.1.emit (.ret op r.2), r.2)

/-- A call with fewer than `n` levels of nested calls (observable.hpp:282-479). -/
def exec (H : Handlers U) (T : IntTy) : Nat → Ex U
  | 0, _, _ => .hang
  | n + 1, s, op => execStep (exec H T n) H T s op

/-- States reachable from a new object by calls from outside, between which the user state may change. -/
inductive Reach (H : Handlers U) (T : IntTy) : St U → Prop
  | new (u : U) : Reach H T (St.new u)
  | call (s s' : St U) (n : Nat) (op : Op) (r : Ret) :
      Reach H T s → exec H T n s op = .ok (s', r) → Reach H T s'
  | user (s : St U) (u : U) : Reach H T s → Reach H T { s with user := u }

/-! ### Specification vocabulary: functions of the log -/

/-- Effect of an event on the number of functions in progress. -/
def depthEv (d : Int) : Ev → Int
  | .told _ _ => d + 1
  | .disc _ => d + 1
  | .leave _ => d - 1
  | .ret _ _ => d

/-- Number of functions in progress after a log. -/
def depth (log : List Ev) : Int := log.foldl depthEv 0

/-- What a call of outside tells, in order: the deliveries of a log outside of any function; `d` functions are
running at its start. -/
def top : Nat → List Ev → List Ev
  | _, [] => []
  | d, .told o v :: es => if d = 0 then .told o v :: top (d + 1) es else top (d + 1) es
  | d, .disc o :: es => if d = 0 then .disc o :: top (d + 1) es else top (d + 1) es
  | d, .leave _ :: es => top (d - 1) es
  | d, .ret _ _ :: es => top d es

/-- Effect of an event on the registered objects, if nothing is removed. -/
def regEv (l : List Nat) : Ev → List Nat
  | .ret (.add o) _ => if o ∈ l then l else l ++ [o]
  | .ret .clear _ => []
  | _ => l

/-- The objects registered after a log without removals. -/
def regs (log : List Ev) : List Nat := log.foldl regEv []

/-- The event is the end of a removal. -/
def Ev.Removal : Ev → Prop
  | .ret (.remove _) _ => True
  | _ => False

/-- The event is the end of a registration that took place, or of a `clear_observers`. -/
def Ev.Invalidates : Ev → Prop
  | .ret (.add _) r => r ≠ .err .alreadyContains
  | .ret .clear _ => True
  | _ => False

end Verif.Values.Re.Vec
