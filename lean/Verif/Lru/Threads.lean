import Verif.HappensBefore
import Verif.Lru.Model
/-!
`cache::lru` used by several threads (include/xitren/cache/lru.hpp), read as in `Model.lean`.  Each step of a call is one
operation on a container, on the mutex or on the clock; threads take turns between any two.  The mutex is declared and locked
only `#ifdef PTHREAD_MUTEX_DEFAULT` (lru.hpp:37-39, 66-68, 92-94), so there is a parameter `mtx` that says whether that name is a
macro; with glibc it is an enumerator.

A container is one place in memory: functions that do not change it read it, the others write it, and so does
`map_[key]` (the standard does not count `operator[]` of an unordered container among the functions that may be called at the
same time).  After a data race the program is undefined; the model then goes on as if single operations were atomic.
Left out: user code that runs in copies, comparisons and hashes of keys and values.
-/
namespace Verif.Lru.Conc
open Verif Verif.HB

variable {K V : Type} [DecidableEq K]

/-- Calls that threads make (lru.hpp:34-80). -/
inductive Call (K V : Type) where
  | put (k : K) (v : V)
  | get (k : K)

/-- What calls return or throw (lru.hpp:34-80). -/
inductive Ret (K V : Type) where
  | put (o : Out Unit)
  | get (o : Out (Option (Item K V)))

/-- The parameters: whether there is a mutex, `Size`, `Exception` and `expired_after_` (lru.hpp:22, 32, 37). -/
structure Par where
  mtx : Bool
  size : Nat
  exc : Bool
  expiry : Int

/-- What a call does next. -/
inductive Pc (K V : Type) where
  /-- The constructor of `unique_lock` (lru.hpp:38, 67). -/
  | enter
  /-- `map_.contains(key)` (lru.hpp:40, 69). -/
  | look
  /-- `find_if` and the copy `*it` (lru.hpp:42-44). -/
  | find
  /-- `list_.erase(it)` (lru.hpp:45). -/
  | erase (obj : Item K V)
  /-- `list_.size()` (lru.hpp:54). -/
  | size
  /-- `list_.pop_back()` (lru.hpp:55). -/
  | pop
  /-- `get_time()` in `put` (lru.hpp:57). -/
  | clock
  /-- `list_.push_front(obj)` (lru.hpp:46, 58). -/
  | front (obj : Item K V)
  /-- `map_[key] = obj` (lru.hpp:47, 59). -/
  | store (obj : Item K V)
  /-- `map_[key]` in `get` (lru.hpp:70). -/
  | fetch
  /-- `get_time()` in `get`, and the comparison (lru.hpp:71). -/
  | age (time : Int)
  /-- The destructor of `unique_lock`, and the call returns or throws (lru.hpp:61, 80). -/
  | leave (r : Ret K V)

/-- A call in progress, with the reading of the clock if there has been one (lru.hpp:34-80). -/
structure Frame (K V : Type) where
  call : Call K V
  pc : Pc K V
  now : Option Int

/-- Places in memory (lru.hpp:90-91). -/
inductive Loc where
  | list
  | map
  deriving DecidableEq

/-- What threads synchronise with: the mutex (lru.hpp:93), and objects of the user's. -/
inductive Obj where
  | mutex
  | other (n : Nat)
  deriving DecidableEq

/-- A call that has returned: the thread, the call, the reading of the clock if there was one, and the result. -/
structure Event (K V : Type) where
  who : Nat
  call : Call K V
  now : Option Int
  ret : Ret K V

/-- The members (lru.hpp:90-93), what each thread is doing, the record of accesses, and the calls that have returned, the newest
first (the latter two are no code). -/
structure State (K V : Type) where
  cache : Cache K V
  pc : Nat → Option (Frame K V)
  holder : Option Nat
  mem : HB.Mem Nat Loc Obj
  hist : List (Event K V)

/-- A new cache (lru.hpp:32). -/
def State.new : State K V := ⟨.new, fun _ => none, none, Mem.new, []⟩

/-- Steps: a call begins; it makes its next step, for which `now` is the reading of the clock; a thread releases or acquires an
object of the user's. -/
inductive Lbl (K V : Type) where
  | call (t : Nat) (c : Call K V)
  | act (t : Nat) (now : Int)
  | rel (t : Nat) (n : Nat)
  | acq (t : Nat) (n : Nat)

/-- Who takes the step. -/
def Lbl.who : Lbl K V → Nat
  | .call t _ | .act t _ | .rel t _ | .acq t _ => t

/-- What is next when `map_.contains(key)` is `b` (lru.hpp:40, 69). -/
def branch (b : Bool) : Call K V → Pc K V
  | .put _ _ => if b then .find else .size
  | .get _ => if b then .fetch else .leave (.get (.value none))

/-- A step of a call on the containers: the new contents and what is next; `none` if it is undefined (lru.hpp:40-59, 69-78). -/
def body (p : Par) (c : Cache K V) (now : Int) : Call K V → Pc K V → Option (Cache K V × Pc K V)
  | .put k v, .look => some (c, branch (c.contains k) (.put k v))
  | .put k _, .find =>
    match c.list.find? fun i => i.key = k with
    | some obj => some (c, .erase obj)
    | none => some (c, .leave (.put (if p.exc then .missed else .value ())))
  | .put k _, .erase obj => some (⟨c.list.eraseP fun i => i.key = k, c.map⟩, .front obj)
  | .put _ _, .size => some (c, if c.list.length ≥ p.size then .pop else .clock)
  | .put _ _, .pop => if c.list = [] then none else some (⟨c.list.dropLast, c.map⟩, .clock)
  | .put k v, .clock => some (c, .front ⟨k, v, now⟩)
  | .put _ _, .front obj => some (⟨obj :: c.list, c.map⟩, .store obj)
  | .put k _, .store obj => some (⟨c.list, setMap c.map k obj⟩, .leave (.put (.value ())))
  | .get k, .look => some (c, branch (c.contains k) (.get k))
  | .get k, .fetch =>
    match findMap c.map k with
    | some o => some (c, .age o.time)
    | none => none
  | .get _, .age time =>
    if now - time ≥ p.expiry then some (c, .leave (.get (if p.exc then .timeout else .value none))) else none
  | _, _ => none

/-- The step reads the clock (lru.hpp:57, 71). -/
def Pc.timed : Pc K V → Bool
  | .clock | .age _ => true
  | _ => false

/-- The accesses and synchronisations of a step of a call (lru.hpp:34-80). -/
def Pc.ops (mtx : Bool) : Pc K V → List (HB.Op Loc Obj)
  | .enter => if mtx then [.acq .mutex] else []
  | .look => [.acc .map false 0]
  | .find => [.acc .list false 0]
  | .erase _ => [.acc .list true 0]
  | .size => [.acc .list false 0]
  | .pop => [.acc .list true 0]
  | .clock => []
  | .front _ => [.acc .list true 0]
  | .store _ => [.acc .map true 0]
  | .fetch => [.acc .map true 0]
  | .age _ => []
  | .leave _ => if mtx then [.rel .mutex] else []

/-- The accesses and synchronisations of a step (lru.hpp:34-80). -/
def ops (p : Par) (m : State K V) : Lbl K V → List (HB.Op Loc Obj)
  | .call _ _ => []
  | .act t _ => match m.pc t with
    | some f => f.pc.ops p.mtx
    | none => []
  | .rel _ n => [.rel (.other n)]
  | .acq _ n => [.acq (.other n)]

/-- A step of a call in progress (lru.hpp:34-80); `none` if it has to wait or is undefined. -/
def act (p : Par) (m : State K V) (t : Nat) (now : Int) (f : Frame K V) : Option (State K V) :=
  let mem := m.mem.run t (f.pc.ops p.mtx)
  match f.pc with
  | .enter => if p.mtx = true ∧ m.holder ≠ none then none else
      some { m with mem, pc := HB.put m.pc t (some ⟨f.call, .look, f.now⟩), holder := if p.mtx then some t else m.holder }
  | .leave r =>
      some { m with mem, pc := HB.put m.pc t none, holder := if p.mtx then none else m.holder,
                    hist := ⟨t, f.call, f.now, r⟩ :: m.hist }
  | pc => (body p m.cache now f.call pc).map fun r =>
      { m with mem, cache := r.1, pc := HB.put m.pc t (some ⟨f.call, r.2, if pc.timed then some now else f.now⟩) }

/-- A step; `none` if it is not possible (lru.hpp:34-80). -/
def step (p : Par) (m : State K V) : Lbl K V → Option (State K V)
  | .call t c => if (m.pc t).isSome then none else some { m with pc := HB.put m.pc t (some ⟨c, .enter, none⟩) }
  | .act t now => (m.pc t).bind (act p m t now)
  | .rel t n => if (m.pc t).isSome then none else some { m with mem := m.mem.run t [.rel (.other n)] }
  | .acq t n => if (m.pc t).isSome then none else some { m with mem := m.mem.run t [.acq (.other n)] }

/-- An access of the step is a data race. -/
def Race (p : Par) (m : State K V) (l : Lbl K V) : Prop := m.mem.Races (fun _ => True) l.who (ops p m l)

/-- Executions of steps that satisfy `G`. -/
inductive Run (p : Par) (G : State K V → Lbl K V → Prop) : State K V → Prop
  | start : Run p G State.new
  | step (m m' : State K V) (l : Lbl K V) : Run p G m → G m l → Conc.step p m l = some m' → Run p G m'

/-- No restriction. -/
def anyStep : State K V → Lbl K V → Prop := fun _ _ => True

/-- The step is not one by which threads synchronise outside the cache. -/
def Lbl.Plain : Lbl K V → Prop
  | .rel _ _ | .acq _ _ => False
  | _ => True

/-! ### One client -/

/-- A call made alone, with `now` as the reading of the clock (lru.hpp:34-80, as in `Model.lean`). -/
def Call.alone (p : Par) (c : Cache K V) (now : Int) : Call K V → Res (Cache K V × Ret K V)
  | .put k v => do
    let r ← Lru.put p.size p.exc c k v now
    .ok (r.1, .put r.2)
  | .get k => do
    let r ← Lru.get p.exc p.expiry c k now
    .ok (c, .get r)

/-- One client alone can have this history, the newest call first, and the cache is then `c`. -/
inductive Explains (p : Par) : List (Event K V) → Cache K V → Prop
  | new : Explains p [] .new
  | call {es : List (Event K V)} {c c' : Cache K V} (e : Event K V) : Explains p es c →
      (∀ now, e.now = none ∨ e.now = some now → e.call.alone p c now = .ok (c', e.ret)) → Explains p (e :: es) c'

end Verif.Lru.Conc
