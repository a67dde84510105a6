import Verif.HappensBefore
/-!
How `pipeline_stage` (include/xitren/comm/pipeline_stage.hpp) and `pipeline_stage_pool` (include/xitren/comm/pipeline_stage_pool.hpp)
are constructed and destroyed, member by member, while their workers run; with happens-before, and with thread starts that fail.

Workers use members in any order and leave when they like, which is more than they do.  What the members hold is not modelled here.
Only the start of a thread and putting the thread into the vector may fail; copying the function into `func_`, which may as well,
comes before any thread is started.
-/
namespace Verif.Pipeline.Start
open Verif Verif.HB

/-- The members (pipeline_stage.hpp:97-103, pipeline_stage_pool.hpp:154-159). -/
inductive Member where
  | tail
  | closed
  | queue
  | func
  | stat
  | worker
  | size
  | pool
  | threads
  deriving DecidableEq

/-- What a constructor does: it initialises a member, starts worker `n`, and moves it into the vector of threads. -/
inductive Act where
  | init (x : Member)
  | spawn (n : Nat)
  | keep (n : Nat)
  deriving DecidableEq

/-- What a destructor does: its body uses a member or joins worker `n`, then members are destroyed. -/
inductive Fin where
  | use (x : Member)
  | join (n : Nat)
  | destroy (x : Member)
  deriving DecidableEq

/-- A class: what its constructor and its destructor do, and the members that its workers use. -/
structure Shape where
  ctor : List Act
  dtor : List Fin
  uses : Member → Bool

/-- `pipeline_stage`: members in the order of declaration, the last of them is the thread (pipeline_stage.hpp:46, 97-103); the
destructor (lines 48-54); what the worker uses (lines 108-133). -/
def stage : Shape where
  ctor := [.init .tail, .init .closed, .init .queue, .init .func, .init .stat, .spawn 0, .init .worker]
  dtor := [.use .closed, .use .worker, .join 0, .destroy .worker, .destroy .stat, .destroy .func, .destroy .queue, .destroy .closed,
    .destroy .tail]
  uses x := x = .tail ∨ x = .closed ∨ x = .queue ∨ x = .func ∨ x = .stat

/-- `pipeline_stage_pool`: members in the order of declaration (pipeline_stage_pool.hpp:154-159), then the body starts the threads
(lines 96-98); the destructor (lines 101-109); what the workers use (lines 61-89). -/
def pool (size : Nat) : Shape where
  ctor := [.init .closed, .init .func, .init .stat, .init .size, .init .pool, .init .threads] ++
    (List.range size).flatMap fun n => [.spawn n, .keep n]
  dtor := [.use .closed, .use .threads] ++ (List.range size).map .join ++
    [.destroy .threads, .destroy .pool, .destroy .size, .destroy .stat, .destroy .func, .destroy .closed]
  uses x := x = .closed ∨ x = .func ∨ x = .pool

/-- Threads: those outside, and the workers. -/
inductive Who where
  | user (p : Nat)
  | worker (n : Nat)
  deriving DecidableEq

/-- Places in memory: the members, and data of the user's. -/
inductive Loc where
  | member (x : Member)
  | data (d : Nat)
  deriving DecidableEq

/-- What threads synchronise with: the start and the end of a worker, and objects of the user's. -/
inductive Obj where
  | begun (n : Nat)
  | done (n : Nat)
  | own (k : Nat)
  deriving DecidableEq

/-- A worker: not started, started, running, ended, joined. -/
inductive Wk where
  | none
  | started
  | running
  | ended
  | joined
  deriving DecidableEq

/-- A member before its lifetime, in it, after it. -/
inductive Span where
  | raw
  | alive
  | dead
  deriving DecidableEq

/-- The object: not yet begun; in the constructor, which has initialised `done` (the newest first) and has `rest` to do; constructed;
in the destructor, run by `p`; constructor left by an exception, which destroys what has been initialised; left; destroyed; the program
has been ended by `std::terminate`. -/
inductive Phase where
  | fresh
  | building (done : List Member) (rest : List Act)
  | up
  | closing (p : Nat) (rest : List Fin)
  | unwinding (rest : List Member)
  | thrown
  | gone
  | aborted
  deriving DecidableEq

/-- All there is: `maker` is the thread that constructs, `knew` what it came after when it began (a record, no code), `joinable` the
number of threads that have been started and not joined. -/
structure State where
  phase : Phase
  maker : Nat
  life : Member → Span
  wk : Nat → Wk
  joinable : Nat
  mem : Mem Who Loc Obj
  knew : Who → Nat

/-- Before. -/
def State.start : State := ⟨.fresh, 0, fun _ => .raw, fun _ => .none, 0, Mem.new, fun _ => 0⟩

/-- A thread outside is in the constructor or in the destructor. -/
def State.busy (m : State) (p : Nat) : Bool :=
  match m.phase with
  | .building _ _ => m.maker = p
  | .unwinding _ => m.maker = p
  | .closing q _ => q = p
  | .aborted => true
  | _ => false

/-- The steps: a thread outside uses its data, synchronises, begins to construct, uses a member of the object, begins to destroy;
the constructor goes on, fails, is unwound; the destructor goes on; a worker enters its function, uses a member, uses data in the
handler, ends. -/
inductive Lbl where
  | touch (p d : Nat) (wr : Bool)
  | rel (p k : Nat)
  | acq (p k : Nat)
  | make (p : Nat)
  | build
  | fail
  | unwind
  | call (p : Nat) (x : Member)
  | close (p : Nat)
  | shut
  | enter (n : Nat)
  | use (n : Nat) (x : Member)
  | handler (n d : Nat) (wr : Bool)
  | leave (n : Nat)

/-- Destroying a thread that is joinable, or a vector that has some, ends the program ([thread.thread.destr]). -/
def State.holds (m : State) (x : Member) : Bool := (x = .worker ∨ x = .threads) ∧ m.joinable ≠ 0

/-- A step of class `S`; `none` if it is not possible (pipeline_stage.hpp:46-54, 97-140; pipeline_stage_pool.hpp:54-109, 154-159). -/
def step (S : Shape) (m : State) : Lbl → Option State
  | .touch p d wr => if m.busy p then none else some { m with mem := m.mem.run (.user p) [.acc (.data d) wr 0] }
  | .rel p k => if m.busy p then none else some { m with mem := m.mem.run (.user p) [.rel (.own k)] }
  | .acq p k => if m.busy p then none else some { m with mem := m.mem.run (.user p) [.acq (.own k)] }
  | .make p => if m.phase = .fresh then
      some { m with phase := .building [] S.ctor, maker := p, knew := m.mem.clk (.user p) } else none
  | .build =>
    match m.phase with
    | .building _ [] => some { m with phase := .up }
    | .building done (.init x :: rest) =>
      some { m with phase := .building (x :: done) rest, life := put m.life x .alive,
                    mem := m.mem.run (.user m.maker) [.acc (.member x) true 0] }
    | .building done (.spawn n :: rest) =>
      some { m with phase := .building done rest, wk := put m.wk n .started, joinable := m.joinable + 1,
                    mem := m.mem.run (.user m.maker) [.rel (.begun n)] }
    | .building done (.keep _ :: rest) =>
      some { m with phase := .building done rest, mem := m.mem.run (.user m.maker) [.acc (.member .threads) true 0] }
    | _ => none
  | .fail =>
    match m.phase with
    | .building done (.spawn _ :: _) => some { m with phase := .unwinding done }
    | .building _ (.keep _ :: _) => some { m with phase := .aborted }
    | _ => none
  | .unwind =>
    match m.phase with
    | .unwinding [] => some { m with phase := .thrown }
    | .unwinding (x :: rest) =>
      if m.holds x then some { m with phase := .aborted }
      else some { m with phase := .unwinding rest, life := put m.life x .dead,
                         mem := m.mem.run (.user m.maker) [.acc (.member x) true 0] }
    | _ => none
  | .call p x => if m.phase = .up then some { m with mem := m.mem.run (.user p) [.acc (.member x) false 0] } else none
  | .close p => if m.phase = .up then some { m with phase := .closing p S.dtor } else none
  | .shut =>
    match m.phase with
    | .closing _ [] => some { m with phase := .gone }
    | .closing p (.use x :: rest) =>
      some { m with phase := .closing p rest, mem := m.mem.run (.user p) [.acc (.member x) false 0] }
    | .closing p (.join n :: rest) =>
      if m.wk n = .ended then
        some { m with phase := .closing p rest, wk := put m.wk n .joined, joinable := m.joinable - 1,
                      mem := m.mem.run (.user p) [.acq (.done n)] }
      else none
    | .closing p (.destroy x :: rest) =>
      if m.holds x then some { m with phase := .aborted }
      else some { m with phase := .closing p rest, life := put m.life x .dead,
                         mem := m.mem.run (.user p) [.acc (.member x) true 0] }
    | _ => none
  | .enter n => if m.wk n = .started ∧ m.phase ≠ .aborted then
      some { m with wk := put m.wk n .running, mem := m.mem.run (.worker n) [.acq (.begun n)] } else none
  | .use n x => if m.wk n = .running ∧ S.uses x = true ∧ m.phase ≠ .aborted then
      some { m with mem := m.mem.run (.worker n) [.acc (.member x) false 0] } else none
  | .handler n d wr => if m.wk n = .running ∧ m.phase ≠ .aborted then
      some { m with mem := m.mem.run (.worker n) [.acc (.data d) wr 0] } else none
  | .leave n => if m.wk n = .running ∧ m.phase ≠ .aborted then
      some { m with wk := put m.wk n .ended, mem := m.mem.run (.worker n) [.rel (.done n)] } else none

/-- The states that are reached. -/
inductive Run (S : Shape) : State → Prop
  | start : Run S .start
  | step {m m' : State} {l : Lbl} : Run S m → step S m l = some m' → Run S m'

end Verif.Pipeline.Start
