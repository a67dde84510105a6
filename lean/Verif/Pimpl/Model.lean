import Verif.Basic
/-! `fast_pimpl`: the layout of the storage and the life of the objects in it. -/
namespace Verif.Pimpl
open Verif

/-! ### Layout -/

/-- `Size`, `Alignment` and `Strict` (fast_pimpl.hpp:16) with `sizeof(T)` and `alignof(T)`. -/
structure Layout where
  size : Nat
  align : Nat
  strict : Bool
  tSize : Nat
  tAlign : Nat

/-- The conditions of `validate` (fast_pimpl.hpp:162-171). -/
def validated (l : Layout) : Bool :=
  decide (l.size ≥ l.tSize) && (l.size == l.tSize || !l.strict) && l.align % l.tAlign == 0

/-- `sizeof(std::aligned_storage_t<Size, Alignment>)`, the size of the wrapper (fast_pimpl.hpp:199): the size rounded
up to a multiple of the alignment, as for every type. -/
def storageSize (l : Layout) : Nat := (l.size + l.align - 1) / l.align * l.align

/-- `get` of the wrapper at an address (fast_pimpl.hpp:179-194); `storage_` is the only member. -/
def getAddr (w : Nat) : Nat := w

/-! ### Life of the objects -/

/-- The type `T`: what its operations do to values.  An operation may throw (`error`, `some e`).  The numbers of the
`noexcept` fields are the values of the `noexcept` operators in the declarations of the wrapper (the parameter `T` of fast_pimpl.hpp:16, 22). -/
structure Ty where
  V : Type
  Args : Type
  E : Type
  Use : Type
  O : Type
  /-- `T(args...)` -/
  ctor : Args → Except E V
  /-- `noexcept(T{args...})` -/
  ctorNoexcept : Args → Bool
  copy : V → Except E V
  copyNoexcept : Bool
  /-- The new object, or an exception, and what becomes of the source. -/
  move : V → Except E V × V
  moveNoexcept : Bool
  /-- `a = b` for different objects: an exception or none, and what becomes of `a`. -/
  assign : V → V → Option E × V
  /-- `a = a` -/
  selfAssign : V → Option E × V
  assignNoexcept : Bool
  moveAssign : V → V → Option E × V × V
  selfMove : V → Option E × V
  moveAssignNoexcept : Bool
  /-- Any use of the object through `*` or `->`: the new value and what is observed. -/
  use : Use → V → V × O
  /-- `T(w)` for a wrapper `w` around a value, if there is such a constructor. -/
  fromWrapper : V → Except E V
  /-- `noexcept(T{w})` -/
  fromWrapperNoexcept : Bool

/-- What an operation of fast_pimpl.hpp:52-151 does: return, show something, throw or end the program. -/
inductive Out (T : Ty)
  | done
  | saw (o : T.O)
  | threw (e : T.E)
  | terminated

/-- An object is constructed (fast_pimpl.hpp:55) or destroyed (fast_pimpl.hpp:78). -/
inductive Ev
  | ctor (n : Nat)
  | dtor (n : Nat)
deriving DecidableEq

/-- The storages; every object in one has a number, in the order of construction (fast_pimpl.hpp:199). -/
structure St (T : Ty) where
  mem : Nat → Option (Nat × T.V) := fun _ => none
  next : Nat := 0
  log : List Ev := []

/-- Replace one value of a function (no code). -/
def upd {β : Type} (f : Nat → β) (k : Nat) (v : β) : Nat → β := fun j => if j = k then v else f j

variable {T : Ty}

/-- An exception that leaves a `noexcept` function ends the program (fast_pimpl.hpp:53, 63, 70, 89, 103). -/
def sealed (ne : Bool) (r : St T × Out T) : St T × Out T :=
  match r.2 with
  | .threw e => if ne then (r.1, .terminated) else (r.1, .threw e)
  | _ => r

/-- `new (get()) type(…)`, given the result of the constructor (fast_pimpl.hpp:55). -/
def newAt (s : St T) (x : Nat) (r : Except T.E T.V) : St T × Out T :=
  match r with
  | .ok v => ({ mem := upd s.mem x (some (s.next, v)), next := s.next + 1, log := s.log ++ [.ctor s.next] }, .done)
  | .error e => (s, .threw e)

/-- `*get()`; there has to be an object (fast_pimpl.hpp:136-151). -/
def deref (s : St T) (x : Nat) : Res (Nat × T.V) :=
  match s.mem x with
  | some o => .ok o
  | none => .ub

/-- The value of the object in a storage changes (fast_pimpl.hpp:63, 91, 105). -/
def put (s : St T) (x : Nat) (n : Nat) (v : T.V) : St T := { s with mem := upd s.mem x (some (n, v)) }

/-- An exception leaves fast_pimpl.hpp:91 or 105. -/
def outOf (e : Option T.E) : Out T :=
  match e with
  | some e => .threw e
  | none => .done

/-- `fast_pimpl(Args&&...)` (fast_pimpl.hpp:52-56). -/
def forward (s : St T) (x : Nat) (a : T.Args) : St T × Out T := sealed (T.ctorNoexcept a) (newAt s x (T.ctor a))

/-- `fast_pimpl(fast_pimpl const&)` (fast_pimpl.hpp:70); it delegates to the forwarding constructor, which has the
same `noexcept`. -/
def copyCtor (s : St T) (x y : Nat) : Res (St T × Out T) := do
  let o ← deref s y
  .ok (sealed T.copyNoexcept (newAt s x (T.copy o.2)))

/-- `fast_pimpl b(a)` for an `a` that is not const: the forwarding constructor, with `Args = fast_pimpl&`, is the better
match (fast_pimpl.hpp:52-56). -/
def lvalueCtor (s : St T) (x y : Nat) : Res (St T × Out T) := do
  let o ← deref s y
  .ok (sealed T.fromWrapperNoexcept (newAt s x (T.fromWrapper o.2)))

/-- `fast_pimpl(fast_pimpl&&)` (fast_pimpl.hpp:63). -/
def moveCtor (s : St T) (x y : Nat) : Res (St T × Out T) := do
  let o ← deref s y
  .ok (sealed T.moveNoexcept (newAt (put s y o.1 (T.move o.2).2) x (T.move o.2).1))

/-- `operator=(fast_pimpl const&)` (fast_pimpl.hpp:88-93). -/
def copyAssign (s : St T) (x y : Nat) : Res (St T × Out T) := do
  let o ← deref s x
  let p ← deref s y
  let r := if x = y then T.selfAssign o.2 else T.assign o.2 p.2
  .ok (sealed T.assignNoexcept (put s x o.1 r.2, outOf r.1))

/-- `operator=(fast_pimpl&&)` (fast_pimpl.hpp:102-107). -/
def moveAssign (s : St T) (x y : Nat) : Res (St T × Out T) := do
  let o ← deref s x
  let p ← deref s y
  if x = y then
    let r := T.selfMove o.2
    .ok (sealed T.moveAssignNoexcept (put s x o.1 r.2, outOf r.1))
  else
    let r := T.moveAssign o.2 p.2
    .ok (sealed T.moveAssignNoexcept (put (put s y p.1 r.2.2) x o.1 r.2.1, outOf r.1))

/-- `operator->` and `operator*` (fast_pimpl.hpp:114-151) followed by a use of the object. -/
def access (s : St T) (x : Nat) (u : T.Use) : Res (St T × Out T) := do
  let o ← deref s x
  .ok (put s x o.1 (T.use u o.2).1, .saw (T.use u o.2).2)

/-- `~fast_pimpl` (fast_pimpl.hpp:75-79). -/
def dtor (s : St T) (x : Nat) : Res (St T × Out T) := do
  let o ← deref s x
  .ok ({ s with mem := upd s.mem x none, log := s.log ++ [.dtor o.1] }, .done)

/-! ### Histories -/

/-- What a program does with variables of the type `T`, or of the wrapper (fast_pimpl.hpp:52-151). -/
inductive Op (T : Ty)
  | construct (x : Nat) (a : T.Args)
  /-- A copy of a const object, or with `=`. -/
  | copy (x y : Nat)
  /-- `T x(y);` for a `y` that is not const. -/
  | copyLvalue (x y : Nat)
  | move (x y : Nat)
  | assign (x y : Nat)
  | moveAssign (x y : Nat)
  | access (x : Nat) (u : T.Use)
  | destroy (x : Nat)

/-- A program with wrappers.  A constructor needs a variable that does not exist yet, and everything else one that
does; `up` are the variables that exist (fast_pimpl.hpp:52-151). -/
def step (s : St T) (up : Nat → Bool) : Op T → Res (St T × Out T)
  | .construct x a => if up x then .ub else .ok (forward s x a)
  | .copy x y => if up x || !up y then .ub else copyCtor s x y
  | .copyLvalue x y => if up x || !up y then .ub else lvalueCtor s x y
  | .move x y => if up x || !up y then .ub else moveCtor s x y
  | .assign x y => if !up x || !up y then .ub else copyAssign s x y
  | .moveAssign x y => if !up x || !up y then .ub else moveAssign s x y
  | .access x u => if !up x then .ub else access s x u
  | .destroy x => if !up x then .ub else dtor s x

/-- The variables that exist after an operation: a constructor that throws leaves no variable (no code). -/
def upAfter (up : Nat → Bool) (op : Op T) (o : Out T) : Nat → Bool :=
  match o with
  | .terminated => up
  | .threw _ => up
  | _ =>
    match op with
    | .construct x _ | .copy x _ | .copyLvalue x _ | .move x _ => upd up x true
    | .destroy x => upd up x false
    | _ => up

/-- The program has ended (no code). -/
def Out.ended : Out T → Bool
  | .terminated => true
  | _ => false

/-- A history; nothing happens after the program has ended (no code). -/
def run (s : St T) (up : Nat → Bool) : List (Op T) → Res (St T × List (Out T))
  | [] => .ok (s, [])
  | op :: h => do
    let r ← step s up op
    if r.2.ended then .ok (r.1, [r.2])
    else do
      let q ← run r.1 (upAfter up op r.2) h
      .ok (q.1, r.2 :: q.2)

/-! ### The same history with plain objects -/

/-- What happens to variables of type `T` (no code of /repo: what the language does with `T`). -/
def plainStep (P : Nat → Option T.V) : Op T → Res ((Nat → Option T.V) × Out T)
  | .construct x a =>
    match P x with
    | some _ => .ub
    | none =>
      match T.ctor a with
      | .ok v => .ok (upd P x (some v), .done)
      | .error e => .ok (P, .threw e)
  | .copy x y | .copyLvalue x y =>
    match P x, P y with
    | none, some v =>
      match T.copy v with
      | .ok w => .ok (upd P x (some w), .done)
      | .error e => .ok (P, .threw e)
    | _, _ => .ub
  | .move x y =>
    match P x, P y with
    | none, some v =>
      match T.move v with
      | (.ok w, v') => .ok (upd (upd P y (some v')) x (some w), .done)
      | (.error e, v') => .ok (upd P y (some v'), .threw e)
    | _, _ => .ub
  | .assign x y =>
    match P x, P y with
    | some a, some b =>
      if x = y then .ok (upd P x (some (T.selfAssign a).2), outOf (T.selfAssign a).1)
      else .ok (upd P x (some (T.assign a b).2), outOf (T.assign a b).1)
    | _, _ => .ub
  | .moveAssign x y =>
    match P x, P y with
    | some a, some b =>
      if x = y then .ok (upd P x (some (T.selfMove a).2), outOf (T.selfMove a).1)
      else .ok (upd (upd P y (some (T.moveAssign a b).2.2)) x (some (T.moveAssign a b).2.1), outOf (T.moveAssign a b).1)
    | _, _ => .ub
  | .access x u =>
    match P x with
    | some a => .ok (upd P x (some (T.use u a).1), .saw (T.use u a).2)
    | none => .ub
  | .destroy x =>
    match P x with
    | some _ => .ok (upd P x none, .done)
    | none => .ub

/-- A history with plain objects (no code of /repo). -/
def plainRun (P : Nat → Option T.V) : List (Op T) → Res ((Nat → Option T.V) × List (Out T))
  | [] => .ok (P, [])
  | op :: h => do
    let r ← plainStep P op
    let q ← plainRun r.1 h
    .ok (q.1, r.2 :: q.2)

end Verif.Pimpl
