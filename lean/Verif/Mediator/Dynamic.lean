import Verif.Mediator.Model
/-!
The mediator (`include/xitren/comm/mediator.hpp`) with callbacks that construct and destroy modules and throw, and with
a hook that writes to the messages.

As `Mediator/Model.lean`, with these differences: programs, that is the callbacks `data` of the modules, the hook
`data` of the manager and the code around them, may also construct and destroy modules, throw exceptions and catch
them; `live` are the module objects that exist, and reading `id_` of a module that does not exist is undefined.
Constructing a module that exists, destroying one that does not, and sending from one that does not have no meaning for
a C++ program; here they do nothing.  The hook gets a pointer to the message and may write through it; what it has
written when it returns is what the modules get.  Not modelled: callbacks of modules that write to the memory from which
a module sends with `send(ptr, sz)`, and what a hook has written to that memory when it throws.
-/
namespace Verif.Mediator.Dyn
open Verif Verif.Data

variable {W : World} {U : Type}

/-- What a callback, or the program that uses the modules, does.  (`attempt (.ret u) k` changes the user's state and goes
on with `k`.) -/
inductive Prog (W : World) (U : Type) where
  | ret (u : U)
  /-- `send(field)` of module `m` (mediator.hpp:147-153). -/
  | send (m : Nat) (v : W.Val (W.sends m)) (k : U → Prog W U)
  /-- The protected `send(ptr, sz)` of module `m` (mediator.hpp:177-181) with any bytes; the program then sees its bytes
  as the hook of the manager left them. -/
  | raw (m : Nat) (bytes : List Byte) (k : U → List Byte → Prog W U)
  /-- `send(data)` of the manager (mediator.hpp:308-319). -/
  | cast (t : Nat) (v : W.Val t) (k : U → Prog W U)
  /-- The constructor of module `m` (mediator.hpp:135). -/
  | make (m : Nat) (k : U → Prog W U)
  /-- The destructor of module `m` (mediator.hpp:140). -/
  | drop (m : Nat) (k : U → Prog W U)
  /-- `throw`. -/
  | throw (u : U)
  /-- `try { p } catch (...) {}`; the program then knows whether there was an exception. -/
  | attempt (p : Prog W U) (k : U → Bool → Prog W U)

/-- Events.  `n` is the number of the message (mediator.hpp:135, 140, 201, 342). -/
inductive Ev (W : World) where
  /-- A module (or the manager) starts to send bytes under the name of type `t`. -/
  | start (n : Nat) (src : Option Nat) (t : Nat) (bytes : List Byte)
  /-- The manager's hook `data(id, ptr, sz)`. -/
  | hook (n id : Nat) (bytes : List Byte)
  /-- The hook has returned and left these bytes. -/
  | left (n : Nat) (bytes : List Byte)
  /-- The callback `data(v)` of module `m`, in its version for type `t`. -/
  | recv (n m t : Nat) (v : W.Val t)
  /-- Module `m` has been constructed. -/
  | made (m : Nat)
  /-- Module `m` has been destroyed. -/
  | gone (m : Nat)
  /-- The callback of module `m`, or the hook, has thrown an exception. -/
  | threw (n : Nat) (m : Option Nat)

/-- A message that has ended: its number, sender, type and bytes, the bytes that modules were told, whether it ended by
an exception, what was in the log before it, and what was logged during it (history variable; no code). -/
structure Msg (W : World) where
  num : Nat
  src : Option Nat
  t : Nat
  bytes : List Byte
  told : List Byte
  cut : Bool
  before : List (Ev W)
  during : List (Ev W)

/-- The manager's array and count (mediator.hpp:375-380), the modules that exist, the user state, the log, the number
of messages so far, those that have ended, and whether an exception is on its way. -/
structure St (W : World) (U : Type) where
  arr : List (Option Nat)
  cnt : Nat
  live : List Nat
  user : U
  log : List (Ev W)
  count : Nat
  sent : List (Msg W)
  thrown : Bool

/-- A new `manager<Sources>` (mediator.hpp:372-380). -/
def St.new (sources : Nat) (u : U) : St W U := ⟨List.replicate sources none, 0, [], u, [], 0, [], false⟩

/-- Record an event (no code). -/
def St.emit (s : St W U) (e : Ev W) : St W U := { s with log := s.log ++ [e] }

/-- The manager's part of the state, as in `Mediator/Model.lean` (mediator.hpp:375-380). -/
def St.reg (s : St W U) : Mediator.St W U := ⟨s.arr, s.cnt, s.user, [], 0⟩

/-- The constructor of a module, with `add_module` (mediator.hpp:135, 277-281). -/
def make (s : St W U) (c : Nat) : Res (St W U) :=
  if c ∈ s.live then .ok s
  else do
    let r ← addModule s.reg c
    .ok ⟨r.arr, r.cnt, s.live ++ [c], s.user, s.log ++ [Ev.made c], s.count, s.sent, s.thrown⟩

/-- The destructor of a module, with `remove_module` (mediator.hpp:140, 288-301). -/
def drop (s : St W U) (c : Nat) : Res (St W U) :=
  if c ∈ s.live then do
    let r ← removeModule s.reg c
    .ok ⟨r.arr, r.cnt, s.live.filter (· != c), s.user, s.log ++ [Ev.gone c], s.count, s.sent, s.thrown⟩
  else .ok s

/-- Running a callback of a module. -/
abbrev Call (W : World) (U : Type) := U → (m t : Nat) → W.Val t → St W U → Res (St W U)

/-- `receive` of module `m` (mediator.hpp:162-168, 201); `call` runs the callback. -/
def receive (call : Call W U) (n m id : Nat) (bytes : List Byte) (s : St W U) : Res (St W U) :=
  match matchType W id (W.recvs m) with
  | none => .ok s
  | some t =>
    match convertField W t bytes with
    | none => .ok s
    | some v => call s.user m t v (s.emit (.recv n m t v))

/-- The sender of a message exists; the manager always does (`sender.id_` is read in mediator.hpp:344). -/
def senderLives (src : Option Nat) (s : St W U) : Bool :=
  match src with
  | none => true
  | some m => decide (m ∈ s.live)

/-- The loops of `distribute` and of `manager::send` (mediator.hpp:312-318, 343-347) from index `i`, with `n` places
up to the end of the array.  There `modules_.at(i)` would throw, which never happens as the count does not exceed the
number of places. -/
def deliver (call : Call W U) (k id : Nat) (src : Option Nat) (bytes : List Byte) : Nat → Nat → St W U → Res (St W U)
  | 0, i, s => if i < s.cnt then .ub else .ok s
  | n + 1, i, s =>
    if i < s.cnt then
      match s.arr[i]? with
      | some (some m) =>
        if m ∈ s.live ∧ senderLives src s = true then
          if W.hash (W.sends m) ≠ id then do
            let s ← receive call k m id bytes s
            if s.thrown = true then .ok (s.emit (.threw k (some m)))
            else deliver call k id src bytes n (i + 1) s
          else deliver call k id src bytes n (i + 1) s
        else .ub
      | _ => .ub
    else .ok s

/-- Note that the message has ended (history variable; no code). -/
def St.finish (s : St W U) (k : Nat) (src : Option Nat) (t : Nat) (bytes told : List Byte) (s0 : St W U) : St W U :=
  { s with sent := s.sent ++ [⟨k, src, t, bytes, told, s.thrown, s0.log, s.log.drop s0.log.length⟩] }

/-- The call of the manager's hook (mediator.hpp:342). -/
def callHook (hook : U → Nat → List Byte → St W U → Res (St W U)) (k id : Nat) (bytes : List Byte) (s : St W U) :
    Res (St W U) :=
  hook s.user id bytes (s.emit (.hook k id bytes))

/-- What the hook of the manager writes to the message: the byte for each place (mediator.hpp:328-330). -/
abbrev Edit (U : Type) := U → Nat → List Byte → Nat → Byte

/-- The message after the hook: as long as before (`ptr` and `sz` are passed by value, mediator.hpp:342). -/
def overwrite (g : Nat → Byte) (bytes : List Byte) : List Byte := (List.range bytes.length).map g

/-- `distribute` once the hook has ended (mediator.hpp:343-348): the new state and the bytes at `ptr`. -/
def afterHook (call : Call W U) (edit : Edit U) (m : Nat) (bytes : List Byte) (s0 s : St W U) :
    Res (St W U × List Byte) :=
  if s.thrown = true then
    .ok ((s.emit (.threw s0.count none)).finish s0.count (some m) (W.sends m) bytes bytes s0, bytes)
  else do
    let told := overwrite (edit s.user (W.hash (W.sends m)) bytes) bytes
    let s := s.emit (.left s0.count told)
    let s ← deliver call s0.count (W.hash (W.sends m)) (some m) told s.arr.length 0 s
    .ok (s.finish s0.count (some m) (W.sends m) bytes told s0, told)

/-- `distribute` (mediator.hpp:339-348) for sender `m`; `hook` runs the hook of the manager. -/
def distribute (call : Call W U) (hook : U → Nat → List Byte → St W U → Res (St W U)) (edit : Edit U) (m : Nat)
    (bytes : List Byte) (s0 : St W U) : Res (St W U × List Byte) := do
  let s := { s0 with count := s0.count + 1 }
  let s := s.emit (.start s0.count (some m) (W.sends m) bytes)
  let s ← callHook hook s0.count (W.hash (W.sends m)) bytes s
  afterHook call edit m bytes s0 s

/-- `manager::send` (mediator.hpp:308-319). -/
def castAll (call : Call W U) (t : Nat) (v : W.Val t) (s0 : St W U) : Res (St W U) := do
  let s := { s0 with count := s0.count + 1 }
  let s := s.emit (.start s0.count none t ((W.pod t).enc v))
  let s ← deliver call s0.count (W.hash t) none ((W.pod t).enc v) s.arr.length 0 s
  .ok (s.finish s0.count none t ((W.pod t).enc v) ((W.pod t).enc v) s0)

/-- What comes next, unless an exception is on its way (no code: the rule of the language). -/
def onward (g : St W U → Res (St W U)) (s : St W U) : Res (St W U) := if s.thrown = true then .ok s else g s

/-- The callbacks `data` of the modules (mediator.hpp:114-116) and the hook of the manager (mediator.hpp:328-330). -/
structure Handlers (W : World) (U : Type) where
  data : U → (m t : Nat) → W.Val t → Prog W U
  hook : U → Nat → List Byte → Prog W U
  edit : Edit U

/-- Run a program; out of fuel is `hang` (calls of mediator.hpp:135-181, 308-319 by a program). -/
def exec (H : Handlers W U) : Nat → Prog W U → St W U → Res (St W U)
  | 0, _, _ => .hang
  | _ + 1, .ret u, s => .ok { s with user := u }
  | f + 1, .send m v k, s =>
    if m ∈ s.live then do
      let r ← distribute (fun u m t v => exec H f (H.data u m t v)) (fun u id b => exec H f (H.hook u id b)) H.edit m
        ((W.pod (W.sends m)).enc v) s
      onward (fun s => exec H f (k s.user) s) r.1
    else exec H f (k s.user) s
  | f + 1, .raw m bytes k, s =>
    if m ∈ s.live then do
      let r ← distribute (fun u m t v => exec H f (H.data u m t v)) (fun u id b => exec H f (H.hook u id b)) H.edit m
        bytes s
      onward (fun s => exec H f (k s.user r.2) s) r.1
    else exec H f (k s.user bytes) s
  | f + 1, .cast t v k, s => do
    let s ← castAll (fun u m t v => exec H f (H.data u m t v)) t v s
    onward (fun s => exec H f (k s.user) s) s
  | f + 1, .make m k, s => do
    let s ← make s m
    exec H f (k s.user) s
  | f + 1, .drop m k, s => do
    let s ← drop s m
    exec H f (k s.user) s
  | _ + 1, .throw u, s => .ok { s with user := u, thrown := true }
  | f + 1, .attempt p k, s => do
    let s ← exec H f p s
    exec H f (k s.user s.thrown) { s with thrown := false }

/-- States reachable from a new manager by running programs that end, with no exception left uncaught. -/
inductive Reach (H : Handlers W U) (sources : Nat) : St W U → Prop
  | new (u : U) : Reach H sources (St.new sources u)
  | run (s s' : St W U) (f : Nat) (p : Prog W U) : Reach H sources s → exec H f p s = .ok s' →
      s'.thrown = false → Reach H sources s'

/-! ### Specification vocabulary: functions of the log -/

/-- Effect of an event on the living modules, in order of construction. -/
def liveEv (l : List Nat) : Ev W → List Nat
  | .made m => l ++ [m]
  | .gone m => l.filter (· != m)
  | _ => l

/-- The modules alive after a log, in order of construction. -/
def living (log : List (Ev W)) : List Nat := log.foldl liveEv []

/-- The deliveries of message `k`: to whom, and which value of which type. -/
def deliveries (k : Nat) : List (Ev W) → List (Nat × (t : Nat) × W.Val t)
  | [] => []
  | .recv n m t v :: es => if n = k then (m, ⟨t, v⟩) :: deliveries k es else deliveries k es
  | _ :: es => deliveries k es

/-- How often a module was constructed at `p`. -/
def built (p : Nat) : List (Ev W) → Nat
  | [] => 0
  | .made q :: es => (if q = p then 1 else 0) + built p es
  | _ :: es => built p es

/-- Module `p` is one that gets messages of type `t` with these bytes: it lists the type and does not send it itself,
and the number of bytes is the size of the type. -/
def Wants (W : World) (t : Nat) (bytes : List Byte) (p : Nat) : Prop :=
  t ∈ W.recvs p ∧ W.sends p ≠ t ∧ bytes.length = (W.pod t).size

end Verif.Mediator.Dyn
