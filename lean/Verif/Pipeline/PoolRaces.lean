import Verif.Pipeline.PoolProps
import Verif.HappensBefore
/-!
`pipeline_stage_pool` (`include/xitren/comm/pipeline_stage_pool.hpp`) with happens-before: the steps are those of `Pool`,
together with what they do to memory, the end of the destructor, and what handlers and threads outside do to data of their
own and to objects with which they synchronise (mutexes, promises, atomics), in any way they like.

The worker of a queue synchronises by `tail` and `head` of this queue and by `closed_`; a push reads `tail` and `head` of all
queues.  The constructor initialises everything before it starts the workers (pipeline_stage_pool.hpp:54, 96-98, 154-159), and
whoever uses the pool comes after the constructor, so that initialisation is not an access here.
-/
namespace Verif.Pipeline.Pool.HB
open Verif Verif.HB Verif.Pipeline Verif.Pipeline.Pool
variable {α : Type}

/-- Memory that is not atomic: the slots and the deque of samples of each queue (pipeline_stage_pool.hpp:44-45), and data of
the user's. -/
inductive Loc where
  | slot (n k : Nat)
  | stat (n : Nat)
  | data (d : Nat)
  deriving DecidableEq

/-- What threads synchronise with: the counters of each queue, `closed_`, the end of each worker, objects of the user's
(pipeline_stage_pool.hpp:46-47, 106, 154). -/
inductive Obj where
  | tail (n : Nat)
  | head (n : Nat)
  | closed
  | done (n : Nat)
  | user (u : Nat)
  deriving DecidableEq

/-- Threads: the workers of the pool, and all others. -/
inductive Thr where
  | worker (n : Nat)
  | out (p : Nat)
  deriving DecidableEq

/-- A push that has incremented the counter: into which queue, with which number, the item, and what the pushing thread came
after (a record, no code). -/
structure Claim (α : Type) where
  q : Nat
  i : Nat
  item : α
  know : Thr → Nat

/-- A pool, what its accesses are, who runs the destructor and how many workers it has joined, and the pushes, the newest
first (pipeline_stage_pool.hpp:101-109, 153-159). -/
structure State (α : Type) where
  st : Pool.State α
  mem : Mem Thr Loc Obj
  dtor : Option (Nat × Nat)
  claims : List (Claim α)

/-- A new pool with `b` slots in each queue (pipeline_stage_pool.hpp:54-99). -/
def State.new (b : Nat) : State α := ⟨Pool.State.new b, Mem.new, none, []⟩

/-- The steps: those of the pool; the destructor, run by `p`, joins the next worker; somebody uses data of the user's, releases
or acquires an object of the user's. -/
inductive Lbl (α : Type) where
  | start (p : Nat) (x : α)
  | scan (p : Nat)
  | claim (p : Nat)
  | store (p : Nat)
  | close (p : Nat)
  | work (n : Nat) (e : Int)
  | join (p : Nat)
  | touch (t : Thr) (d : Nat) (wr : Bool)
  | rel (t : Thr) (u : Nat)
  | acq (t : Thr) (u : Nat)

/-- The step of the pool, if it is one. -/
def Lbl.pool : Lbl α → Option (Pool.Label α)
  | .start p x => some (.start p x)
  | .scan p => some (.scan p)
  | .claim p => some (.claim p)
  | .store p => some (.store p)
  | .close _ => some .close
  | .work n e => some (.work n e)
  | _ => none

/-- The thread that does it. -/
def Lbl.who : Lbl α → Thr
  | .start p _ | .scan p | .claim p | .store p | .close p | .join p => .out p
  | .work n _ => .worker n
  | .touch t _ _ | .rel t _ | .acq t _ => t

/-- The thread runs code of the user's: a worker in the handler, which runs between the step in which the worker calls it and
the step in which the worker records the sample (pipeline_stage_pool.hpp:78-81); another thread if it is neither in `push` nor
in the destructor. -/
def State.free (size : Nat) (m : State α) : Thr → Prop
  | .worker n => (m.st.qs n).pc = .stat
  | .out p => m.st.prod p = .idle ∧ ∀ k, m.dtor = some (p, k) → k = size

/-- When the other steps are possible: the destructor waits for the workers in their order (pipeline_stage_pool.hpp:104-107). -/
def State.allows (size : Nat) (m : State α) : Lbl α → Prop
  | .join p => ∃ k, m.dtor = some (p, k) ∧ k < size ∧ (m.st.qs k).pc = .ended
  | .touch t _ _ | .rel t _ | .acq t _ => m.free size t
  | _ => True

/-- `item.tail - item.head` reads two counters (pipeline_stage_pool.hpp:168). -/
def scanOps (tailFirst : Bool) (m : State α) (p : Nat) : List (Op Loc Obj) :=
  match m.st.prod p with
  | .scan _ k _ _ => [.acq (if tailFirst then .tail k else .head k)]
  | .read _ k _ _ _ => [.acq (if tailFirst then .head k else .tail k)]
  | _ => []

/-- `tail++` (pipeline_stage_pool.hpp:115, 126). -/
def claimOps (m : State α) (p : Nat) : List (Op Loc Obj) :=
  match m.st.prod p with
  | .chosen _ id _ => [.acq (.tail id), .rel (.tail id)]
  | _ => []

/-- The store (pipeline_stage_pool.hpp:116, 127). -/
def storeOps (m : State α) (p : Nat) : List (Op Loc Obj) :=
  match m.st.prod p with
  | .claimed _ id i => [.acc (.slot id (i % (m.st.qs id).slots.length)) true i]
  | _ => []

/-- What the next step of worker `n` does to memory (pipeline_stage_pool.hpp:63-90): the loops read `closed_` and the counters,
and if there is nothing left the thread ends; then the slot is looked at, the own counter is incremented, the item is copied
for the handler, whose other argument is computed from the deque; the new sample contains both counters and is written to the
deque. -/
def workOps (m : State α) (n : Nat) : List (Op Loc Obj) :=
  let q := m.st.qs n
  match q.pc with
  | .outer => if m.st.closed then [.acq .closed] else []
  | .drain => [.acq (.tail n), .acq (.head n)] ++
      if (q.tail + word - q.head) % word > 0 then [] else [.rel (.done n)]
  | .inner => [.acq (.head n), .acq (.tail n)]
  | .check => [.acq (.head n), .acc (.slot n (q.head % q.slots.length)) false q.head]
  | .take => [.acq (.head n), .rel (.head n)]
  | .call i => [.acc (.slot n (i % q.slots.length)) false i, .acc (.stat n) false 0]
  | .stat => [.acq (.tail n), .acq (.head n), .acc (.stat n) true 0]
  | .ended => []

/-- `join` (pipeline_stage_pool.hpp:106). -/
def joinOps (m : State α) : List (Op Loc Obj) :=
  match m.dtor with
  | some (_, k) => [.acq (.done k)]
  | none => []

/-- What a step does to memory; `closed_ = true` is the only store to `closed_`, so that there is no release before that it
could cut off (pipeline_stage_pool.hpp:54-176). -/
def ops (tailFirst : Bool) (m : State α) : Lbl α → List (Op Loc Obj)
  | .start _ _ => []
  | .scan p => scanOps tailFirst m p
  | .claim p => claimOps m p
  | .store p => storeOps m p
  | .close _ => [.rel .closed]
  | .work n _ => workOps m n
  | .join _ => joinOps m
  | .touch _ d wr => [.acc (.data d) wr 0]
  | .rel _ u => [.rel (.user u)]
  | .acq _ u => [.acq (.user u)]

/-- The destructor begins, and joins one worker after the other (pipeline_stage_pool.hpp:103-108). -/
def dtorAfter (m : State α) : Lbl α → Option (Nat × Nat)
  | .close p => some (p, 0)
  | .join _ => m.dtor.map fun d => (d.1, d.2 + 1)
  | _ => m.dtor

/-- The record of a push (no code). -/
def record (m : State α) : Lbl α → List (Claim α)
  | .claim p =>
    match m.st.prod p with
    | .chosen x id _ => ⟨id, (m.st.qs id).tail, x, m.mem.clk (.out p)⟩ :: m.claims
    | _ => m.claims
  | _ => m.claims

/-- What a step does to the pool (pipeline_stage_pool.hpp:54-176). -/
def PoolStep (size : Nat) (tailFirst : Bool) (m : State α) (l : Lbl α) (st' : Pool.State α) : Prop :=
  match l.pool with
  | some pl => Pool.Step size tailFirst m.st pl (.ok st')
  | none => m.allows size l ∧ st' = m.st

/-- A step (pipeline_stage_pool.hpp:54-176). -/
def Step (size : Nat) (tailFirst : Bool) (m : State α) (l : Lbl α) (m' : State α) : Prop :=
  PoolStep size tailFirst m l m'.st ∧ m'.mem = m.mem.run l.who (ops tailFirst m l) ∧
    m'.dtor = dtorAfter m l ∧ m'.claims = record m l

/-- The step `l` makes an access to a place in `R` that is a data race. -/
def Race (R : Loc → Prop) (tailFirst : Bool) (m : State α) (l : Lbl α) : Prop :=
  m.mem.Races R l.who (ops tailFirst m l)

/-- The states of a pool with `size` workers that are reached by steps that satisfy `G` and do not race on places in `R`; `ls`
are the steps, the newest first. -/
inductive Run (b size : Nat) (tailFirst : Bool) (R : Loc → Prop) (G : State α → Lbl α → Prop) :
    List (Lbl α) → State α → Prop
  | new : Run b size tailFirst R G [] (State.new b)
  | step (ls : List (Lbl α)) (m m' : State α) (l : Lbl α) : Run b size tailFirst R G ls m → G m l →
      Step size tailFirst m l m' → ¬ Race R tailFirst m l → Run b size tailFirst R G (l :: ls) m'

/-- No restriction on the steps. -/
def anyLbl : State α → Lbl α → Prop := fun _ _ => True

/-- No place; the slots; the deques of samples. -/
def noLoc : Loc → Prop := fun _ => False
def slots : Loc → Prop := fun l => ∃ n k, l = .slot n k
def deques : Loc → Prop := fun l => ∃ n, l = .stat n

end Verif.Pipeline.Pool.HB
