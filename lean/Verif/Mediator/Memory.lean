import Verif.Mediator.Model
/-!
The mediator (`include/xitren/comm/mediator.hpp`) with the memory in which messages lie.

`distribute`, `receive` and the hook of the manager get a pointer and a size, and the pointer is not one to const.  In this
model programs, that is the callbacks `data` and `receive` of the modules, the hook and the code around them, have
pointers: they read and write bytes through them, send from memory of their own with `send(ptr, sz)`, acquire and release
memory, and may keep the pointers they were given.  Modules may override `receive` (mediator.hpp:162-164 is virtual and
public); `inherited` is the call of `module<…>::receive` that the others are.  Using memory outside an object or after its
end is undefined.

The modules are the same during a run (`mods`, in the order of registration); `Mediator/Dynamic.lean` is about those that
come and go and about exceptions.  Addresses are pairs of an object and an offset, and objects are numbered in the order in
which they come into being.
-/
namespace Verif.Mediator.Memory
open Verif Verif.Data

variable {W : World} {U : Type}

/-- A `std::uint8_t*`: the object it points into and the offset there (mediator.hpp:48, 95, 162). -/
structure Ptr where
  buf : Nat
  off : Nat
  deriving DecidableEq, Repr

/-- The objects that messages may lie in, by number: the bytes of those that exist, `none` for those whose life has ended
(the unions of mediator.hpp:150, 314 and memory of the user's). -/
abbrev Mem := List (Option (List Byte))

/-- What a callback, an override of `receive`, the hook or the program that uses the modules does. -/
inductive Prog (W : World) (U : Type) where
  | ret (u : U)
  /-- The user's state changes before what follows. -/
  | set (u : U) (k : Prog W U)
  /-- `send(field)` of module `m` (mediator.hpp:147-153). -/
  | send (m : Nat) (v : W.Val (W.sends m)) (k : U → Prog W U)
  /-- The protected `send(ptr, sz)` of module `m` (mediator.hpp:177-181). -/
  | raw (m : Nat) (p : Ptr) (sz : Nat) (k : U → Prog W U)
  /-- `send(data)` of the manager (mediator.hpp:308-319). -/
  | cast (t : Nat) (v : W.Val t) (k : U → Prog W U)
  /-- Memory of the user's comes into being (no code of the library). -/
  | alloc (bytes : List Byte) (k : U → Nat → Prog W U)
  /-- Memory of the user's goes away. -/
  | free (b : Nat) (k : U → Prog W U)
  /-- `*p = x`. -/
  | write (p : Ptr) (x : Byte) (k : U → Prog W U)
  /-- `*p` is read. -/
  | read (p : Ptr) (k : U → Byte → Prog W U)
  /-- `module<…>::receive(id, ptr, sz)` of module `m`, which overrides may call (mediator.hpp:162-168). -/
  | inherited (m id : Nat) (p : Ptr) (sz : Nat) (k : U → Prog W U)

/-- Events; `n` is the number of the message. -/
inductive Ev (W : World) where
  /-- Memory of the user's comes into being, and goes away. -/
  | made (b : Nat) (bytes : List Byte)
  | freed (b : Nat)
  /-- The union of `send` (mediator.hpp:150, 314) comes into being, and goes away. -/
  | enter (b : Nat) (bytes : List Byte)
  | leave (b : Nat)
  /-- A byte is written. -/
  | wrote (p : Ptr) (x : Byte)
  /-- `distribute` is called for module `m` (mediator.hpp:339-340). -/
  | start (n m : Nat) (p : Ptr) (sz : Nat)
  /-- `send` of the manager is called (mediator.hpp:308-310). -/
  | cast (n t : Nat) (v : W.Val t)
  /-- The hook of the manager is called (mediator.hpp:342). -/
  | hook (n id : Nat) (p : Ptr) (sz : Nat)
  /-- `receive` of module `m` is called (mediator.hpp:316, 345). -/
  | told (n m id : Nat) (p : Ptr) (sz : Nat)
  /-- The callback `data(v)` of module `m` is called, with the value read at `p` (mediator.hpp:196-201). -/
  | data (m t : Nat) (v : W.Val t) (p : Ptr)

/-- The memory after an event (the rule of the language). -/
def after (M : Mem) : Ev W → Mem
  | .made _ bytes => M ++ [some bytes]
  | .enter _ bytes => M ++ [some bytes]
  | .freed b => M.set b none
  | .leave b => M.set b none
  | .wrote p x => M.modify p.buf (Option.map fun l => l.set p.off x)
  | _ => M

/-- The memory after the events of a log. -/
def replay : Mem → List (Ev W) → Mem
  | M, [] => M
  | M, e :: es => replay (after M e) es

/-- The bytes of object `b`, if it exists. -/
def object (M : Mem) (b : Nat) : Option (List Byte) := (M[b]?).join

/-- The `sz` bytes at `p`, if they lie in an object that exists. -/
def region (M : Mem) (p : Ptr) (sz : Nat) : Option (List Byte) :=
  match object M p.buf with
  | none => none
  | some l => if p.off + sz ≤ l.length then some ((l.drop p.off).take sz) else none

/-- Memory, the user's state, the log and the number of messages so far. -/
structure St (W : World) (U : Type) where
  mem : Mem
  user : U
  log : List (Ev W)
  count : Nat

/-- Before anything has happened. -/
def St.new (u : U) : St W U := ⟨[], u, [], 0⟩

/-- An event happens. -/
def St.emit (s : St W U) (e : Ev W) : St W U := { s with mem := after s.mem e, log := s.log ++ [e] }

/-- The life of object `b` ends; `e` says whose it was (the end of mediator.hpp:153 and of each round of mediator.hpp:318,
and `delete` by the user). -/
def St.close (s : St W U) (b : Nat) (e : Ev W) : Res (St W U) :=
  match object s.mem b with
  | none => .ub
  | some _ => .ok (s.emit e)

/-- Bytes are read (mediator.hpp:198-200). -/
def St.load (s : St W U) (p : Ptr) (sz : Nat) : Res (List Byte) :=
  match region s.mem p sz with
  | none => .ub
  | some bytes => .ok bytes

/-- The callbacks `data` (mediator.hpp:114-116) and `receive` (mediator.hpp:48, 162) of the modules, and the hook of the
manager (mediator.hpp:328-330). -/
structure Handlers (W : World) (U : Type) where
  data : U → (m t : Nat) → W.Val t → Prog W U
  receive : U → (m id : Nat) → Ptr → Nat → Prog W U
  hook : U → (id : Nat) → Ptr → Nat → Prog W U

/-- `receive` of a module that does not override it (mediator.hpp:162-168). -/
def plain (m id : Nat) (p : Ptr) (sz : Nat) : Prog W U := .inherited m id p sz fun u => .ret u

/-- Running `receive` of a module. -/
abbrev Recv (W : World) (U : Type) := U → (m id : Nat) → Ptr → Nat → St W U → Res (St W U)

/-- The loop of `distribute` (mediator.hpp:343-347) over the modules that are left. -/
def deliver (recv : Recv W U) (n id : Nat) (p : Ptr) (sz : Nat) : List Nat → St W U → Res (St W U)
  | [], s => .ok s
  | m :: ms, s =>
    if W.hash (W.sends m) ≠ id then do
      let s ← recv s.user m id p sz (s.emit (.told n m id p sz))
      deliver recv n id p sz ms s
    else deliver recv n id p sz ms s

/-- `distribute` (mediator.hpp:339-348) for sender `m`. -/
def distribute (recv : Recv W U) (hook : U → Nat → Ptr → Nat → St W U → Res (St W U)) (mods : List Nat) (m : Nat) (p : Ptr)
    (sz : Nat) (s0 : St W U) : Res (St W U) := do
  let s := { s0 with count := s0.count + 1 }
  let s := s.emit (.start s0.count m p sz)
  let s ← hook s.user (W.hash (W.sends m)) p sz (s.emit (.hook s0.count (W.hash (W.sends m)) p sz))
  deliver recv s0.count (W.hash (W.sends m)) p sz mods s

/-- What module `m` is told in a round of the loop of `manager::send` (mediator.hpp:315-317). -/
def castTell (recv : Recv W U) (n t m b : Nat) (s : St W U) : Res (St W U) :=
  if W.hash (W.sends m) ≠ W.hash t then
    recv s.user m (W.hash t) ⟨b, 0⟩ (W.pod t).size (s.emit (.told n m (W.hash t) ⟨b, 0⟩ (W.pod t).size))
  else .ok s

/-- A round of the loop of `manager::send` for module `m` (mediator.hpp:313-318), with a union of its own. -/
def castOne (recv : Recv W U) (n t : Nat) (v : W.Val t) (m : Nat) (s0 : St W U) : Res (St W U) := do
  let s ← castTell recv n t m s0.mem.length (s0.emit (.enter s0.mem.length ((W.pod t).enc v)))
  s.close s0.mem.length (.leave s0.mem.length)

/-- The loop of `manager::send` (mediator.hpp:312-318) over the modules that are left. -/
def castTo (recv : Recv W U) (n t : Nat) (v : W.Val t) : List Nat → St W U → Res (St W U)
  | [], s => .ok s
  | m :: ms, s => do
    let s ← castOne recv n t v m s
    castTo recv n t v ms s

/-- `send(field)` of a module (mediator.hpp:147-153). -/
def sendField (recv : Recv W U) (hook : U → Nat → Ptr → Nat → St W U → Res (St W U)) (mods : List Nat) (m : Nat)
    (v : W.Val (W.sends m)) (s0 : St W U) : Res (St W U) := do
  let s := s0.emit (.enter s0.mem.length ((W.pod (W.sends m)).enc v))
  let s ← distribute recv hook mods m ⟨s0.mem.length, 0⟩ (W.pod (W.sends m)).size s
  s.close s0.mem.length (.leave s0.mem.length)

/-- The type under which `module::receive` passes on a message with this id and size (mediator.hpp:166-167, 194-195,
214-250). -/
def accepts (W : World) (m id sz : Nat) : Option Nat :=
  match matchType W id (W.recvs m) with
  | none => none
  | some t => if (W.pod t).size ≠ sz then none else some t

/-- `module::receive` (mediator.hpp:162-168, 191-203); `call` runs the callback `data`. -/
def receive (call : U → (m t : Nat) → W.Val t → St W U → Res (St W U)) (m id : Nat) (p : Ptr) (sz : Nat) (s : St W U) :
    Res (St W U) :=
  match accepts W m id sz with
  | none => .ok s
  | some t => do
    let bytes ← s.load p sz
    call s.user m t ((W.pod t).dec bytes) (s.emit (.data m t ((W.pod t).dec bytes) p))

/-- Run a program; out of fuel is `hang` (calls of mediator.hpp:147-181, 308-319 by a program). -/
def exec (H : Handlers W U) (mods : List Nat) : Nat → Prog W U → St W U → Res (St W U)
  | 0, _, _ => .hang
  | _ + 1, .ret u, s => .ok { s with user := u }
  | f + 1, .set u k, s => exec H mods f k { s with user := u }
  | f + 1, .send m v k, s => do
    let s ← sendField (fun u m id p sz => exec H mods f (H.receive u m id p sz))
      (fun u id p sz => exec H mods f (H.hook u id p sz)) mods m v s
    exec H mods f (k s.user) s
  | f + 1, .raw m p sz k, s => do
    let s ← distribute (fun u m id p sz => exec H mods f (H.receive u m id p sz))
      (fun u id p sz => exec H mods f (H.hook u id p sz)) mods m p sz s
    exec H mods f (k s.user) s
  | f + 1, .cast t v k, s => do
    let s ← castTo (fun u m id p sz => exec H mods f (H.receive u m id p sz)) s.count t v mods
      ({ s with count := s.count + 1 }.emit (.cast s.count t v))
    exec H mods f (k s.user) s
  | f + 1, .alloc bytes k, s => exec H mods f (k s.user s.mem.length) (s.emit (.made s.mem.length bytes))
  | f + 1, .free b k, s => do
    let s ← s.close b (.freed b)
    exec H mods f (k s.user) s
  | f + 1, .write p x k, s => do
    let _ ← s.load p 1
    exec H mods f (k s.user) (s.emit (.wrote p x))
  | f + 1, .read p k, s => do
    let bytes ← s.load p 1
    exec H mods f (k s.user (bytes.headD 0)) s
  | f + 1, .inherited m id p sz k, s => do
    let s ← receive (fun u m t v => exec H mods f (H.data u m t v)) m id p sz s
    exec H mods f (k s.user) s

/-- States reachable from the beginning by running programs that end. -/
inductive Reach (H : Handlers W U) (mods : List Nat) : St W U → Prop
  | new (u : U) : Reach H mods (St.new u)
  | run (s s' : St W U) (f : Nat) (p : Prog W U) : Reach H mods s → exec H mods f p s = .ok s' → Reach H mods s'

/-! ### Specification vocabulary: functions of the log -/

/-- What message `n` makes the manager call: the hook (`none`) or `receive` of a module, with the arguments. -/
def calls (n : Nat) : List (Ev W) → List (Option Nat × Nat × Ptr × Nat)
  | [] => []
  | .hook k id p sz :: es => if k = n then (none, id, p, sz) :: calls n es else calls n es
  | .told k m id p sz :: es => if k = n then (some m, id, p, sz) :: calls n es else calls n es
  | _ :: es => calls n es

/-- Bytes at `p` after the writes of a log through any pointer into the same object. -/
def patched (p : Ptr) : List (Ev W) → List Byte → List Byte
  | [], bytes => bytes
  | .wrote q x :: es, bytes =>
    patched p es (if q.buf = p.buf ∧ p.off ≤ q.off then bytes.set (q.off - p.off) x else bytes)
  | _ :: es, bytes => patched p es bytes

end Verif.Mediator.Memory
