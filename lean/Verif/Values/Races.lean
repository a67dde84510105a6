import Verif.Values.Props
import Verif.HappensBefore
/-!
`values::observable` and `values::observed` used by several threads, with happens-before: which accesses to the list of
observers, to the `on_update` functions and to data of the user's are data races, and what a thread that reads a value may
rely on.  Unlike in `Threads.lean`, observers may be added and removed while updates are running, and the `on_update`
functions may do anything: call the objects again, touch data, synchronise with other threads.

A call of `add_observer`, `remove_observer`, `clear_observers` or `on_update` is one step: it does not synchronise, so that
where another thread intervenes the two race anyhow.  An iterator of a vector that no longer points to an element is not
followed (that is undefined, C92).  A vector that grows also moves its elements; these accesses are left out.
-/
namespace Verif.Values.HB
open Verif Verif.HB Verif.Values

/-- Memory that is not atomic: `count_` or the vector object, the places of the list (values/observable.hpp:245-249, 485),
`function_` of an observed (values/observed.hpp:84), and data of the user's. -/
inductive Loc where
  | count
  | slot (i : Nat)
  | fn (o : Nat)
  | data (n : Nat)
  deriving DecidableEq

/-- What threads synchronise with: the value of the observable (values/observable.hpp:23), that of an observed
(values/observed.hpp:23), and objects of the user's. -/
inductive Obj where
  | value
  | held (o : Nat)
  | user (n : Nat)
  deriving DecidableEq

/-- Operations on memory. -/
abbrev MOp := Verif.HB.Op Loc Obj

/-- Where in `notify_observers` an update is (values/observable.hpp:230-239, 472-479): before it; in the loop, before
place `i` of `n`; in the `on_update` function of the observer in place `i`. -/
inductive Stage where
  | enter
  | loop (i n : Nat)
  | call (i n : Nat)
  deriving DecidableEq

/-- An update that is running: what it sends, and where it is. -/
structure Frame where
  sends : Int
  stage : Stage
  deriving DecidableEq

/-- A record of an update: the operation, the value it left in the observable, the value it sends, and what happens before
it (what its thread knew at that time). -/
structure Update where
  op : Values.Op
  result : Int
  sends : Int
  before : Nat → Nat

/-- The objects, what each thread is doing (updates inside of functions inside of updates), the accesses, and all updates
so far, the newest first, as a record. -/
structure State where
  st : St
  pc : Nat → List Frame
  mem : Mem Nat Loc Obj
  updates : List Update

/-- Objects that were made, and registered in any way, before the threads were started. -/
def State.start (st : St) : State := ⟨st, fun _ => [], Mem.new, []⟩

/-- The steps of thread `t`: the atomic operation of an update; the reading of the number of observers; the delivery to the
next observer `o`; the end of its function; the end of the loop; `value()` of the observable and of an observed;
`add_observer`, `remove_observer`, `clear_observers` or `on_update`; an access to data of the user's; the release and the
acquisition of an object of the user's (values/observable.hpp:30-239, values/observed.hpp:34-81). -/
inductive Lbl where
  | begin (t : Nat) (op : Values.Op)
  | enter (t : Nat)
  | deliver (t : Nat) (o : Nat)
  | back (t : Nat)
  | leave (t : Nat)
  | value (t : Nat)
  | held (t : Nat) (o : Nat)
  | config (t : Nat) (op : Values.Op)
  | touch (t : Nat) (n : Nat) (wr : Bool)
  | rel (t : Nat) (n : Nat)
  | acq (t : Nat) (n : Nat)
  deriving DecidableEq

/-- The thread that takes the step. -/
def Lbl.who : Lbl → Nat
  | .begin t _ | .enter t | .deliver t _ | .back t | .leave t | .value t | .held t _ | .config t _ | .touch t _ _
  | .rel t _ | .acq t _ => t

/-- The pointer in place `i` (values/observable.hpp:245, 485). -/
def slotAt : Reg → Nat → Option Nat
  | .fixed arr _, i => arr[i]?.join
  | .dyn vec, i => vec[i]?

/-- The number of places that the loop of `notify_observers` goes through (values/observable.hpp:233-235, 475). -/
def size : Reg → Nat
  | .fixed arr count => if count > arr.length then 0 else count
  | .dyn vec => vec.length

/-- The reads of `contains` from place `i` on: up to the observer, if it is there (values/observable.hpp:258-266,
494-499). -/
def findOps (o : Nat) : List (Option Nat) → Nat → List MOp
  | [], _ => []
  | p :: l, i => .acc (.slot i) false 0 :: if p = some o then [] else findOps o l (i + 1)

/-- The accesses of `std::remove` from place `i` on, the next place to write being `w` (values/observable.hpp:201, 442). -/
def removeOps (o : Nat) : List (Option Nat) → Nat → Nat → List MOp
  | [], _, _ => []
  | p :: l, i, w =>
    .acc (.slot i) false 0 ::
      if p = some o then removeOps o l (i + 1) w
      else (if w < i then [.acc (.slot w) true 1] else []) ++ removeOps o l (i + 1) (w + 1)

/-- The reads of places `i`, `i + 1`, ... (values/observable.hpp:216, 458). -/
def readOps : Nat → Nat → List MOp
  | _, 0 => []
  | i, n + 1 => .acc (.slot i) false 0 :: readOps (i + 1) n

/-- What `add_observer` does to memory (values/observable.hpp:173-184, 419-428). -/
def addOps (o : Nat) : Reg → List MOp
  | .fixed arr count =>
    .acc .count false 0 ::
      if count ≥ arr.length then []
      else .acc .count false 0 :: findOps o (arr.take count) 0 ++
        if some o ∈ arr.take count then [] else [.acc .count false 0, .acc .count true 1, .acc (.slot count) true 1]
  | .dyn vec =>
    .acc .count false 0 :: findOps o (vec.map some) 0 ++
      if o ∈ vec then [] else [.acc .count false 0, .acc (.slot vec.length) true 1, .acc .count true 1]

/-- What `remove_observer` does to memory (values/observable.hpp:194-208, 438-450): the fixed-capacity variant writes
`count_` if it has found the observer. -/
def rmOps (o : Nat) : Reg → List MOp
  | .fixed arr count =>
    .acc .count false 0 ::
      if count > arr.length then []
      else .acc .count false 0 ::
        if count = 0 then []
        else .acc .count false 0 :: removeOps o (arr.take count) 0 0 ++
          .acc .count false 0 :: if some o ∈ arr.take count then [.acc .count true 1] else []
  | .dyn vec =>
    .acc .count false 0 :: if vec.isEmpty then [] else removeOps o (vec.map some) 0 0

/-- What `clear_observers` does to memory (values/observable.hpp:213-220, 455-462). -/
def clearOps : Reg → List MOp
  | .fixed _ count => .acc .count false 0 :: readOps 0 count ++ [.acc .count true 1]
  | .dyn vec => .acc .count false 0 :: readOps 0 vec.length ++ [.acc .count true 1]

/-- What these operations do to memory (values/observable.hpp:173-220, 419-462, values/observed.hpp:34-38). -/
def configOps (r : Reg) : Values.Op → List MOp
  | .add o => addOps o r
  | .remove o => rmOps o r
  | .clear => clearOps r
  | .onUpdate o _ => [.acc (.fn o) true 1]
  | _ => []

/-- What the atomic operation of an update does: `=` stores, the others are read-modify-write operations
(values/observable.hpp:46, 62, 78, 94, 110, 126, 142). -/
def updateOps : Values.Op → List MOp
  | .assign _ => [.sto .value]
  | _ => [.acq .value, .rel .value]

/-- What a delivery does: read the pointer, store the value, read `function_` to test it, and once more to call it
(values/observable.hpp:236, 476, values/observed.hpp:74-81). -/
def deliverOps (st : St) (i o : Nat) : List MOp :=
  [.acc (.slot i) false 0, .sto (.held o), .acc (.fn o) false 0] ++ if st.fn o then [.acc (.fn o) false 0] else []

/-- What a step does to memory (values/observable.hpp:30-239, 276-479, values/observed.hpp:34-81). -/
def ops (m : State) : Lbl → List MOp
  | .begin _ op => updateOps op
  | .enter _ =>
    match m.st.reg with
    | .fixed _ _ => [.acc .count false 0, .acc .count false 0]
    | .dyn _ => [.acc .count false 0]
  | .deliver t o =>
    match m.pc t with
    | ⟨_, .loop i _⟩ :: _ => deliverOps m.st i o
    | _ => []
  | .back _ => []
  | .leave _ => []
  | .value _ => [.acq .value]
  | .held _ o => [.acq (.held o)]
  | .config _ op => configOps m.st.reg op
  | .touch _ n wr => [.acc (.data n) wr 0]
  | .rel _ n => [.rel (.user n)]
  | .acq _ n => [.acq (.user n)]

/-- The thread runs code of the user's: it is outside of updates, or in an `on_update` function. -/
def State.free (m : State) (t : Nat) : Bool :=
  match m.pc t with
  | [] => true
  | ⟨_, .call _ _⟩ :: _ => true
  | _ => false

/-- The operation is an update (values/observable.hpp:36-146). -/
def isUpdate : Values.Op → Bool
  | .assign _ | .addEq _ | .subEq _ | .preInc | .preDec | .postInc | .postDec => true
  | _ => false

/-- What a step does to the objects and to the thread (values/observable.hpp:36-239, 282-479, values/observed.hpp:34-81);
`none` if it is not possible. -/
def effect (T : IntTy) (m : State) : Lbl → Option (St × List Frame)
  | .begin t op =>
    if m.free t && isUpdate op then
      match sent T m.st.value op with
      | .ok v => some ({ m.st with value := T.wrap (exact m.st.value op) }, ⟨v, .enter⟩ :: m.pc t)
      | _ => none
    else none
  | .enter t =>
    match m.pc t with
    | ⟨v, .enter⟩ :: fs => some (m.st, ⟨v, .loop 0 (size m.st.reg)⟩ :: fs)
    | _ => none
  | .deliver t o =>
    match m.pc t with
    | ⟨v, .loop i n⟩ :: fs =>
      if i < n ∧ slotAt m.st.reg i = some o then
        some (Values.deliver v m.st o, ⟨v, if m.st.fn o then .call i n else .loop (i + 1) n⟩ :: fs)
      else none
    | _ => none
  | .back t =>
    match m.pc t with
    | ⟨v, .call i n⟩ :: fs => some (m.st, ⟨v, .loop (i + 1) n⟩ :: fs)
    | _ => none
  | .leave t =>
    match m.pc t with
    | ⟨_, .loop i n⟩ :: fs => if i < n then none else some (m.st, fs)
    | _ => none
  | .config t op =>
    if m.free t && !isUpdate op then
      match exec T m.st op with
      | .ok r => some (r.1, m.pc t)
      | _ => none
    else none
  | .value t => if m.free t then some (m.st, m.pc t) else none
  | .held t _ => if m.free t then some (m.st, m.pc t) else none
  | .touch t _ _ => if m.free t then some (m.st, m.pc t) else none
  | .rel t _ => if m.free t then some (m.st, m.pc t) else none
  | .acq t _ => if m.free t then some (m.st, m.pc t) else none

/-- The record of an update (no code). -/
def record (T : IntTy) (m : State) : Lbl → List Update
  | .begin t op =>
    match sent T m.st.value op with
    | .ok v => ⟨op, T.wrap (exact m.st.value op), v, m.mem.clk t⟩ :: m.updates
    | _ => m.updates
  | _ => m.updates

/-- A step (values/observable.hpp:30-239, 276-479, values/observed.hpp:34-81). -/
def step (T : IntTy) (m : State) (l : Lbl) : Option State :=
  match effect T m l with
  | some r => some ⟨r.1, put m.pc l.who r.2, m.mem.run l.who (ops m l), record T m l⟩
  | none => none

/-- The step `l` makes an access to a place in `R` that is a data race. -/
def Race (R : Loc → Prop) (m : State) (l : Lbl) : Prop := m.mem.Races R l.who (ops m l)

/-- Executions from `i` of steps that satisfy `G`; `ls` are the steps, the newest first. -/
inductive Run (T : IntTy) (i : State) (G : State → Lbl → Prop) : List Lbl → State → Prop
  | start : Run T i G [] i
  | step (ls : List Lbl) (m m' : State) (l : Lbl) : Run T i G ls m → G m l → HB.step T m l = some m' →
      Run T i G (l :: ls) m'

/-- No restriction. -/
def anyLbl : State → Lbl → Prop := fun _ _ => True

/-- Neither a registration nor a change of a function. -/
def noConfig : State → Lbl → Prop
  | _, .config _ _ => False
  | _, _ => True

/-- The step reads an atomic or acquires an object of the user's. -/
def Lbl.acquires : Lbl → Prop
  | .begin _ (.assign _) => False
  | .begin _ _ | .value _ | .held _ _ | .acq _ _ => True
  | _ => False

/-- The step writes an atomic or releases an object of the user's. -/
def Lbl.releases : Lbl → Prop
  | .begin _ _ | .deliver _ _ | .rel _ _ => True
  | _ => False

/-- Among steps that satisfy `G`, nothing is passed on from `t` to `u`: `u` does not acquire, or `t` does not release. -/
def Apart (G : State → Lbl → Prop) (t u : Nat) : Prop :=
  (∀ m l, G m l → l.who = u → ¬ l.acquires) ∨ (∀ m l, G m l → l.who = t → ¬ l.releases)

/-- The memory of the library's: not data of the user's. -/
def lib : Loc → Prop
  | .data _ => False
  | _ => True

end Verif.Values.HB
