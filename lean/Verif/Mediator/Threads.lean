import Verif.HappensBefore
import Verif.Mediator.Lemmas
/-!
The mediator used by several threads (include/xitren/comm/mediator.hpp; all line numbers refer to it).  Each call is a program
whose steps are the single accesses to the members of the manager and to the modules, in the order in which the code makes
them; threads take turns between any two.  Nothing in the classes keeps threads apart; users may synchronise by objects of
their own.

Callbacks and the manager's hook may do anything: while one runs, its thread may begin further calls, and it returns when it
likes.  They do not write to the message.  Modules are numbers that stand for their addresses; constructing a module at the
address of an existing one, and destroying one that does not exist, are not possible.  An index out of range is not followed
further, be it undefined (lines 280, 292-296) or an exception of `at` (lines 315, 316, 344, 345).
-/
namespace Verif.Mediator.Conc
open Verif Verif.HB Verif.Data

variable {W : World}

/-- What is left to do of a call: it returns, reads or writes `modules_cnt_` or a place of `modules_`, reads a module object
(`id_` or the pointer to its virtual functions), constructs or destroys it, runs a callback, or is undefined. -/
inductive Prog (W : World) where
  | ret
  | cnt (k : Nat → Prog W)
  | setCnt (n : Nat) (k : Prog W)
  | at (i : Nat) (k : Option Nat → Prog W)
  | setAt (i : Nat) (p : Option Nat) (k : Prog W)
  | obj (p : Nat) (k : Prog W)
  | setObj (p : Nat) (live : Bool) (k : Prog W)
  | call (e : Ev W) (k : Prog W)
  | undef

/-- Calls that threads make: they construct or destroy a module, a module sends bytes, the manager sends a value
(lines 135, 140, 147-153, 177-181, 308-319). -/
inductive Call (W : World) where
  | make (m : Nat)
  | drop (m : Nat)
  | send (m : Nat) (bytes : List Byte)
  | cast (t : Nat) (v : W.Val t)

/-- The constructor of a module and `add_module` (lines 135, 277-281). -/
def make (m : Nat) : Prog W :=
  .setObj m true <| .cnt fun n => .setCnt (n + 1) <| .setAt n (some m) .ret

/-- One less, as `std::size_t` (lines 293, 297). -/
def less (n : Nat) : Nat := if n = 0 then 2 ^ 64 - 1 else n - 1

/-- Lines 293-298, then `k`. -/
def shift (k : Prog W) : Nat → Nat → Prog W
  | 0, _ => .undef
  | fuel + 1, i =>
    .cnt fun n =>
      if i < less n then .at (i + 1) fun p => .setAt i p (shift k fuel (i + 1))
      else .cnt fun n => .setAt n none <| .cnt fun n => .setCnt (less n) k

/-- `remove_module` (lines 288-301), then `k`. -/
def remove (m : Nat) (k : Prog W) : Nat → Nat → Prog W
  | 0, _ => .undef
  | fuel + 1, i =>
    .cnt fun n =>
      if i < n then .at i fun p => if p = some m then shift k (fuel + 1) i else remove m k fuel (i + 1)
      else k

/-- `receive` of module `p` (lines 162-168, 191-250), then `k`. -/
def receive (n p id : Nat) (bytes : List Byte) (k : Prog W) : Prog W :=
  match matchType W id (W.recvs p) with
  | none => k
  | some t =>
    match convertField W t bytes with
    | none => k
    | some v => .call (.recv n p t v) k

/-- The id of the sender is read (lines 342, 344, 345), then `k`; what the manager sends has none. -/
def ownId (src : Option Nat) (k : Prog W) : Prog W :=
  match src with
  | some m => .obj m k
  | none => k

/-- A place of the array is read and a module is there (lines 315, 316, 344, 345). -/
def module (i : Nat) (k : Nat → Prog W) : Prog W :=
  .at i fun p => match p with
    | some p => k p
    | none => .undef

/-- The loops of `distribute` and of `manager::send` (lines 312-318, 343-347). -/
def deliver (n : Nat) (src : Option Nat) (id : Nat) (bytes : List Byte) : Nat → Nat → Prog W
  | 0, _ => .undef
  | fuel + 1, i =>
    .cnt fun c =>
      if i < c then
        module i fun p => .obj p <| ownId src <|
          if W.hash (W.sends p) ≠ id then
            module i fun p => ownId src <| .obj p <|
              receive n p id bytes (deliver n src id bytes fuel (i + 1))
          else deliver n src id bytes fuel (i + 1)
      else .ret

/-- The code of a call; `n` is the number of the message, `sources` the size of the array (lines 135, 140, 147-153, 177-181,
308-319, 339-348). -/
def Call.prog (sources n : Nat) : Call W → Prog W
  | .make m => Conc.make m
  | .drop m => remove m (.setObj m false .ret) (sources + 1) 0
  | .send m bytes => .obj m <| .call (.hook n (W.hash (W.sends m)) bytes) <|
      deliver n (some m) (W.hash (W.sends m)) bytes (sources + 1) 0
  | .cast t v => deliver n none (W.hash t) ((W.pod t).enc v) (sources + 1) 0

/-- The beginning of a message (no code). -/
def Call.starts (n : Nat) : Call W → List (Ev W)
  | .make _ | .drop _ => []
  | .send m bytes => [.start n (some m) (W.sends m) bytes]
  | .cast t v => [.start n none t ((W.pod t).enc v)]

/-- The call constructs or destroys a module. -/
def Call.changes : Call W → Bool
  | .make _ | .drop _ => true
  | _ => false

/-- A call in progress: its number, the call, what is left of it, and whether a callback is running. -/
structure Frame (W : World) where
  num : Nat
  call : Call W
  prog : Prog W
  busy : Bool

/-- Places in memory (lines 32, 375-380). -/
inductive Loc where
  | cnt
  | slot (i : Nat)
  | obj (m : Nat)
  deriving DecidableEq

/-- What threads share: the array, the count (lines 375-380), and which modules exist. -/
structure Sh where
  arr : List (Option Nat)
  cnt : Nat
  live : Nat → Bool

/-- A call that has returned: the thread, its number, the call, and how many calls had begun when it returned. -/
structure Done (W : World) where
  who : Nat
  num : Nat
  call : Call W
  upto : Nat

/-- What threads share, the calls that each thread is in, the innermost first, the record of accesses, how many calls have
begun, the events with their threads and the calls that have returned, the newest first (the last four are no code). -/
structure State (W : World) where
  sh : Sh
  stack : Nat → List (Frame W)
  mem : HB.Mem Nat Loc Nat
  count : Nat
  log : List (Nat × Ev W)
  hist : List (Done W)

/-- A new manager (lines 372-380). -/
def State.new (sources : Nat) : State W := ⟨⟨List.replicate sources none, 0, fun _ => false⟩, fun _ => [], Mem.new, 0, [], []⟩

/-- Steps: a call begins, makes one access (or begins a callback, or returns), a callback returns, a thread releases or acquires an
object of the user's. -/
inductive Lbl (W : World) where
  | call (t : Nat) (c : Call W)
  | act (t : Nat)
  | back (t : Nat)
  | rel (t : Nat) (n : Nat)
  | acq (t : Nat) (n : Nat)

/-- Who takes the step. -/
def Lbl.who : Lbl W → Nat
  | .call t _ | .act t | .back t | .rel t _ | .acq t _ => t

/-- The thread runs code of the user's: it is in no call, or in a callback. -/
def State.user (m : State W) (t : Nat) : Bool :=
  match m.stack t with
  | [] => true
  | f :: _ => f.busy

/-- The memory that one step of a call touches (lines 277-348). -/
def Prog.ops : Prog W → List (HB.Op Loc Nat)
  | .cnt _ => [.acc .cnt false 0]
  | .setCnt _ _ => [.acc .cnt true 0]
  | .at i _ => [.acc (.slot i) false 0]
  | .setAt i _ _ => [.acc (.slot i) true 0]
  | .obj p _ => [.acc (.obj p) false 0]
  | .setObj p _ _ => [.acc (.obj p) true 0]
  | .ret | .call _ _ | .undef => []

/-- One step of a call other than a callback and the return: what threads share then, and what is left; `none` if it is undefined
(lines 277-348). -/
def Prog.next (s : Sh) : Prog W → Option (Sh × Prog W)
  | .cnt k => some (s, k s.cnt)
  | .setCnt n k => some ({ s with cnt := n }, k)
  | .at i k => match s.arr[i]? with
    | some p => some (s, k p)
    | none => none
  | .setAt i p k => if i < s.arr.length then some ({ s with arr := s.arr.set i p }, k) else none
  | .obj p k => if s.live p then some (s, k) else none
  | .setObj p b k => some ({ s with live := HB.put s.live p b }, k)
  | .ret | .call _ _ | .undef => none

/-- The accesses and synchronisations of a step (lines 277-348). -/
def ops (m : State W) : Lbl W → List (HB.Op Loc Nat)
  | .act t => match m.stack t with
    | f :: _ => f.prog.ops
    | [] => []
  | .rel _ n => [.rel n]
  | .acq _ n => [.acq n]
  | .call _ _ | .back _ => []

/-- The call is one that a program can make: see the head of the file. -/
def Call.possible (s : Sh) : Call W → Bool
  | .make m => !s.live m
  | .drop m | .send m _ => s.live m
  | .cast _ _ => true

/-- A step of a call in progress (lines 277-348). -/
def act (m : State W) (t : Nat) (f : Frame W) (fs : List (Frame W)) : Option (State W) :=
  let mem := m.mem.run t f.prog.ops
  match f.prog with
  | .ret => some { m with mem, stack := HB.put m.stack t fs, hist := ⟨t, f.num, f.call, m.count⟩ :: m.hist }
  | .call e k => some { m with mem, stack := HB.put m.stack t ({ f with prog := k, busy := true } :: fs), log := (t, e) :: m.log }
  | p => (p.next m.sh).map fun r => { m with mem, sh := r.1, stack := HB.put m.stack t ({ f with prog := r.2 } :: fs) }

/-- A step; `none` if it is not possible. -/
def step (m : State W) : Lbl W → Option (State W)
  | .call t c => if m.user t = true ∧ c.possible m.sh = true then
      some { m with stack := HB.put m.stack t (⟨m.count, c, c.prog m.sh.arr.length m.count, false⟩ :: m.stack t),
                    count := m.count + 1, log := (c.starts m.count).map (fun e => (t, e)) ++ m.log }
    else none
  | .act t => match m.stack t with
    | f :: fs => if f.busy then none else act m t f fs
    | [] => none
  | .back t => match m.stack t with
    | f :: fs => if f.busy then some { m with stack := HB.put m.stack t ({ f with busy := false } :: fs) } else none
    | [] => none
  | .rel t n => if m.user t then some { m with mem := m.mem.run t [.rel n] } else none
  | .acq t n => if m.user t then some { m with mem := m.mem.run t [.acq n] } else none

/-- An access of the step is a data race. -/
def Race (m : State W) (l : Lbl W) : Prop := m.mem.Races (fun _ => True) l.who (ops m l)

/-- Executions of a manager with `sources` places whose steps satisfy `G`. -/
inductive Run (sources : Nat) (G : State W → Lbl W → Prop) : State W → Prop
  | start : Run sources G (State.new sources)
  | step (m m' : State W) (l : Lbl W) : Run sources G m → G m l → Conc.step m l = some m' → Run sources G m'

/-! ### What is registered, and users who take care -/

/-- The modules that have been constructed and not destroyed, in the order of construction, computed from the calls that have
returned, the newest first. -/
def registered : List (Done W) → List Nat
  | [] => []
  | d :: ds => match d.call with
    | .make m => registered ds ++ [m]
    | .drop m => (registered ds).filter (· != m)
    | _ => registered ds

/-- The thread comes after all that has been done with the manager and the modules. -/
def State.KnowsAll (m : State W) (t : Nat) : Prop := ∀ a ∈ m.mem.log, a.time ≤ m.mem.clk t a.who

/-- The thread comes after all changes of the manager and the modules. -/
def State.KnowsChanges (m : State W) (t : Nat) : Prop := ∀ a ∈ m.mem.log, a.wr = true → a.time ≤ m.mem.clk t a.who

/-- Users take care: modules are constructed and destroyed while no other call is going on, by a thread that comes after all calls
so far; there is room for one that is constructed, and a place is free when one is destroyed (see C52); calls that send are
made by threads that come after all construction and destruction, while none is going on, and only by modules that are
registered. -/
def Careful (sources : Nat) (m : State W) : Lbl W → Prop
  | .call t c =>
    if c.changes then (∀ u, m.stack u = []) ∧ m.KnowsAll t ∧ (registered m.hist).length < sources
    else (∀ u, ∀ f ∈ m.stack u, f.call.changes = false) ∧ m.KnowsChanges t
  | _ => True

/-- The step is not one by which threads synchronise outside the mediator. -/
def Lbl.Plain : Lbl W → Prop
  | .rel _ _ | .acq _ _ => False
  | _ => True

/-- What happened under number `n`, with the threads, the oldest first. -/
def State.about (m : State W) (n : Nat) : List (Nat × Ev W) := (m.log.filter fun e => e.2.num == n).reverse

end Verif.Mediator.Conc
