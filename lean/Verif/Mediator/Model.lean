import Verif.Data.Model
/-!
Model of the mediator (`include/xitren/comm/mediator.hpp`).

Message types and modules are numbers; a module's address determines its class, that is, the type it
sends and the types it receives.  Message types are trivially copyable (`Data.Pod`).  The `data`
callbacks of the modules are arbitrary programs that read and write a user state and may send further
messages from any module or from the manager; they do not create or destroy modules.  The manager's own
`data` hook is recorded in the log and otherwise does nothing (in particular it does not write through
the pointer it gets).  Messages are numbered in the order in which their sending starts, and the log
says to which message an event belongs.
-/
namespace Verif.Mediator
open Verif Verif.Data

/-- The classes in play: the values of each message type and their representation, the hash of each
type's name (`std::hash<std::string>{}(typeid(T).name())`), and for each module its `Sends` and
`Recvs...` (mediator.hpp:124-125). -/
structure World where
  Val : Nat → Type
  pod : (t : Nat) → Pod (Val t)
  hash : Nat → Nat
  sends : Nat → Nat
  recvs : Nat → List Nat

variable {W : World} {U : Type}

/-- What a callback (or the program that uses the modules) does (`data` of mediator.hpp:114-116 and callers of mediator.hpp:147-153, 308-319). -/
inductive Prog (W : World) (U : Type) where
  | ret (u : U)
  /-- The user's state changes before what follows. -/
  | set (u : U) (k : Prog W U)
  /-- `send(field)` of module `m` (mediator.hpp:147-153). -/
  | send (m : Nat) (v : W.Val (W.sends m)) (k : U → Prog W U)
  /-- The protected `send(ptr, sz)` of module `m` (mediator.hpp:177-181) with any bytes. -/
  | raw (m : Nat) (bytes : List Byte) (k : U → Prog W U)
  /-- `send(data)` of the manager (mediator.hpp:308-319). -/
  | cast (t : Nat) (v : W.Val t) (k : U → Prog W U)

/-- Events.  `n` is the number of the message (mediator.hpp:201, 342). -/
inductive Ev (W : World) where
  /-- A module (or the manager) starts to send bytes under the name of type `t`. -/
  | start (n : Nat) (src : Option Nat) (t : Nat) (bytes : List Byte)
  /-- The manager's hook `data(id, ptr, sz)`. -/
  | hook (n id : Nat) (bytes : List Byte)
  /-- The callback `data(v)` of module `m`, in its version for type `t`. -/
  | recv (n m t : Nat) (v : W.Val t)

/-- The number of the message an event belongs to (no code). -/
def Ev.num : Ev W → Nat
  | .start n _ _ _ => n
  | .hook n _ _ => n
  | .recv n _ _ _ => n

/-- The manager's array and count (mediator.hpp:375-380), the user state, the log and the number of
messages so far.  A place of the array that holds no module is `none` (null or never written). -/
structure St (W : World) (U : Type) where
  arr : List (Option Nat)
  cnt : Nat
  user : U
  log : List (Ev W)
  count : Nat

/-- A new `manager<Sources>` (mediator.hpp:372-380). -/
def St.new (sources : Nat) (u : U) : St W U := ⟨List.replicate sources none, 0, u, [], 0⟩

/-- Record an event (no code). -/
def St.emit (s : St W U) (e : Ev W) : St W U := { s with log := s.log ++ [e] }

/-! ### Registration -/

/-- `add_module` (mediator.hpp:277-281). -/
def addModule (s : St W U) (c : Nat) : Res (St W U) :=
  if s.cnt < s.arr.length then .ok { s with arr := s.arr.set s.cnt (some c), cnt := s.cnt + 1 }
  else .ub

/-- The inner loop of `remove_module` (mediator.hpp:293-295), `n` rounds from `i`. -/
def shift : Nat → Nat → List (Option Nat) → Res (List (Option Nat))
  | 0, _, arr => .ok arr
  | n + 1, i, arr =>
    match arr[i + 1]? with
    | some p => if i < arr.length then shift n (i + 1) (arr.set i p) else .ub
    | none => .ub

/-- The outer loop of `remove_module` (mediator.hpp:291-300): `n` places left from `i`. -/
def findRemove (c : Nat) : Nat → Nat → St W U → Res (St W U)
  | 0, _, s => .ok s
  | n + 1, i, s =>
    match s.arr[i]? with
    | none => .ub
    | some p =>
      if p = some c then do
        let arr ← shift (s.cnt - 1 - i) i s.arr
        if s.cnt < arr.length then
          .ok { s with arr := arr.set s.cnt none, cnt := s.cnt - 1 }
        else .ub
      else findRemove c n (i + 1) s

/-- `remove_module` (mediator.hpp:288-301). -/
def removeModule (s : St W U) (c : Nat) : Res (St W U) := findRemove c s.cnt 0 s

/-! ### Messages -/

/-- `receiver_converter_helper` (mediator.hpp:214-250): the type of the pack under which a message with
this id is received. -/
def matchType (W : World) (id : Nat) : List Nat → Option Nat
  | [] => none
  | t :: ts => if id = W.hash t then some t else matchType W id ts

/-- `module::convert_field` up to the call of `data` (mediator.hpp:191-200). -/
def convertField (W : World) (t : Nat) (bytes : List Byte) : Option (W.Val t) :=
  if (W.pod t).size ≠ bytes.length then none else some ((W.pod t).dec bytes)

/-- `manager::convert_field` (mediator.hpp:357-369); `none` is the exception. -/
def managerConvert {α : Type} (P : Pod α) (bytes : List Byte) : Option α :=
  if P.size ≠ bytes.length then none else some (P.dec bytes)

/-- `receive` of module `m` (mediator.hpp:162-168, 201); `call` runs the callback. -/
def receive (call : U → (m t : Nat) → W.Val t → St W U → Res (St W U)) (n m id : Nat)
    (bytes : List Byte) (s : St W U) : Res (St W U) :=
  match matchType W id (W.recvs m) with
  | none => .ok s
  | some t =>
    match convertField W t bytes with
    | none => .ok s
    | some v => call s.user m t v (s.emit (.recv n m t v))

/-- The loops of `distribute` and of `manager::send` (mediator.hpp:312-318, 343-347): `n` places left
from `i`.  (Callbacks do not change the number of modules.) -/
def deliver (call : U → (m t : Nat) → W.Val t → St W U → Res (St W U)) (k id : Nat)
    (bytes : List Byte) : Nat → Nat → St W U → Res (St W U)
  | 0, _, s => .ok s
  | n + 1, i, s =>
    match s.arr[i]? with
    | some (some m) =>
      if W.hash (W.sends m) ≠ id then do
        let s ← receive call k m id bytes s
        deliver call k id bytes n (i + 1) s
      else deliver call k id bytes n (i + 1) s
    | _ => .ub

/-- `distribute` (mediator.hpp:339-348) for sender `m`. -/
def distribute (call : U → (m t : Nat) → W.Val t → St W U → Res (St W U)) (m : Nat)
    (bytes : List Byte) (s : St W U) : Res (St W U) :=
  let k := s.count
  let s := { s with count := s.count + 1 }
  let s := s.emit (.start k (some m) (W.sends m) bytes)
  let s := s.emit (.hook k (W.hash (W.sends m)) bytes)
  deliver call k (W.hash (W.sends m)) bytes s.cnt 0 s

/-- `manager::send` (mediator.hpp:308-319). -/
def castAll (call : U → (m t : Nat) → W.Val t → St W U → Res (St W U)) (t : Nat) (v : W.Val t)
    (s : St W U) : Res (St W U) :=
  let k := s.count
  let s := { s with count := s.count + 1 }
  let s := s.emit (.start k none t ((W.pod t).enc v))
  deliver call k (W.hash t) ((W.pod t).enc v) s.cnt 0 s

/-- The callbacks `data` of the modules (mediator.hpp:114-116). -/
abbrev Handlers (W : World) (U : Type) := U → (m t : Nat) → W.Val t → Prog W U

/-- Run a program; out of fuel is `hang` (calls of mediator.hpp:147-153, 308-319 by a program). -/
def exec (H : Handlers W U) : Nat → Prog W U → St W U → Res (St W U)
  | 0, _, _ => .hang
  | _ + 1, .ret u, s => .ok { s with user := u }
  | f + 1, .set u k, s => exec H f k { s with user := u }
  | f + 1, .send m v k, s => do
    let s ← distribute (fun u m t v => exec H f (H u m t v)) m ((W.pod (W.sends m)).enc v) s
    exec H f (k s.user) s
  | f + 1, .raw m bytes k, s => do
    let s ← distribute (fun u m t v => exec H f (H u m t v)) m bytes s
    exec H f (k s.user) s
  | f + 1, .cast t v k, s => do
    let s ← castAll (fun u m t v => exec H f (H u m t v)) t v s
    exec H f (k s.user) s

/-! ### Clients -/

/-- What the program around the manager does: construct a module (mediator.hpp:135), destroy one
(mediator.hpp:140), run code that sends. -/
inductive Op (W : World) (U : Type) where
  | construct (m : Nat)
  | destroy (m : Nat)
  | run (p : Prog W U)

/-- One operation (mediator.hpp:135, 140, 147-153, 308-319). -/
def step (H : Handlers W U) (f : Nat) (s : St W U) : Op W U → Res (St W U)
  | .construct m => addModule s m
  | .destroy m => removeModule s m
  | .run p => exec H f p s

/-- A history: every operation terminates, modules are constructed at free addresses, only living
modules are destroyed, and at most `sources` are alive.  The list is that of the living modules. -/
inductive Reach (H : Handlers W U) (sources : Nat) : List Nat → St W U → Prop
  | new (u : U) : Reach H sources [] (St.new sources u)
  | construct (l : List Nat) (s s' : St W U) (m : Nat) : Reach H sources l s → m ∉ l →
      l.length < sources → addModule s m = .ok s' → Reach H sources (l ++ [m]) s'
  | destroy (l : List Nat) (s s' : St W U) (m : Nat) : Reach H sources l s → m ∈ l →
      removeModule s m = .ok s' → Reach H sources (l.filter (· != m)) s'
  | run (l : List Nat) (s s' : St W U) (f : Nat) (p : Prog W U) : Reach H sources l s →
      exec H f p s = .ok s' → Reach H sources l s'

end Verif.Mediator
