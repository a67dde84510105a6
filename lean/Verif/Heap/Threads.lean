import Verif.HappensBefore
import Verif.Heap.Client
/-!
`static_heap` used by several threads.  Each call is a program whose steps are the single accesses to memory that the code
makes, in the order in which it makes them (all line numbers refer to include/xitren/allocators/static_heap.hpp); threads
take turns between any two steps.  `v_task_suspend_all` and `x_task_resume_all` have empty bodies (lines 70-76), so nothing
in the class keeps threads apart; the user may have a lock.  Accesses are recorded with what happens before what
(`Verif.HappensBefore`).

Left out: the reads in arguments of `config_assert` (lines 240, 319, 320), which only repeat others, and what the failure
callback does.  `px_end_` is only written by the constructor, and the address of `x_start_` never changes.
-/
namespace Verif.Heap.Conc
open Verif Verif.HB

/-- The data members that calls write (static_heap.hpp:534-546). -/
inductive Var where
  | free
  | minEver
  | nAlloc
  | nFree
  | callback
  deriving DecidableEq

/-- What is left to do of a call: it returns, reads or writes a word of a header, reads or writes a data member, clears
memory, runs the failure callback, or does not come to an end. -/
inductive Prog where
  | ret (p : Nat)
  | ld (a : Nat) (k : Nat → Prog)
  | st (a v : Nat) (k : Prog)
  | get (x : Var) (k : Nat → Prog)
  | set (x : Var) (v : Nat) (k : Prog)
  | zero (p n : Nat) (k : Prog)
  | call (k : Prog)
  | hang

/-- The members that never change after construction (static_heap.hpp:535-539): how many bytes `uc_heap_` has, where
`x_start_` is, and `px_end_`. -/
structure Fixed where
  size : Nat
  startAddr : Nat
  pxEnd : Nat

/-- The loop of static_heap.hpp:217-222, then `k px_previous_block px_block`. -/
def findFit (w : Nat) (k : Nat → Nat → Prog) : Nat → Nat → Nat → Prog
  | 0, _, _ => .hang
  | fuel + 1, prev, blk =>
    .ld (blk + offSize) fun sz =>
      if sz < w then
        .ld (blk + offNext) fun nx =>
          if nx ≠ protect 0 then .ld (blk + offNext) fun nx => findFit w k fuel blk (protect nx)
          else k prev blk
      else k prev blk

/-- static_heap.hpp:242-261. -/
def split (prev blk w : Nat) (k : Prog) : Prog :=
  .ld (blk + offSize) fun bs =>
    if wsub bs w > minBlock then
      .ld (blk + offSize) fun bs =>
        .st (wadd blk w + offSize) (wsub bs w) <|
        .st (blk + offSize) w <|
        .ld (prev + offNext) fun pn =>
        .st (wadd blk w + offNext) pn <|
        .st (prev + offNext) (protect (wadd blk w)) k
    else k

/-- static_heap.hpp:271-277: mark the block and count it. -/
def mark (blk : Nat) (k : Prog) : Prog :=
  .ld (blk + offSize) fun _ =>
  .ld (blk + offSize) fun bs =>
  .st (blk + offSize) (bs ||| allocBit) <|
  .st (blk + offNext) (protect 0) <|
  .get .nAlloc fun n =>
  .set .nAlloc (wadd n 1) k

/-- static_heap.hpp:263-269: the free bytes and the low-water mark. -/
def account (blk : Nat) (k : Prog) : Prog :=
  .ld (blk + offSize) fun bs =>
  .get .free fun f =>
  .set .free (wsub f bs) <|
  .get .free fun f =>
  .get .minEver fun mn =>
    if f < mn then .get .free fun f => .set .minEver f k else k

/-- static_heap.hpp:229-277, then `k pv_return`. -/
def take (prev blk w : Nat) (k : Nat → Prog) : Prog :=
  .ld (prev + offNext) fun pn =>
  .ld (blk + offNext) fun bn =>
  .st (prev + offNext) bn <|
  split prev blk w <|
  account blk <|
  mark blk <|
  k (wadd (protect pn) structSize)

/-- static_heap.hpp:203-291, then `k pv_return`. -/
def allocCore (c : Fixed) (w : Nat) (k : Nat → Prog) : Prog :=
  if sizeIsValid w then
    if w > 0 then
      .get .free fun f =>
        if w ≤ f then
          .ld (c.startAddr + offNext) fun first =>
            findFit w (fun prev blk => if blk ≠ c.pxEnd then take prev blk w k else k 0) (c.size + 2) c.startAddr
              (protect first)
        else k 0
    else k 0
  else k 0

/-- `allocate`, static_heap.hpp:166-301, then `k` with the pointer it returns. -/
def allocate (c : Fixed) (wanted : Nat) (k : Nat → Prog) : Prog :=
  allocCore c (Heap.roundWanted wanted) fun pv =>
    if pv = 0 then .get .callback fun cb => if cb ≠ 0 then .call (k pv) else k pv
    else k pv

/-- The loop of static_heap.hpp:433-436, then `k px_iterator`. -/
def findPos (blk : Nat) (k : Nat → Prog) : Nat → Nat → Prog
  | 0, _ => .hang
  | fuel + 1, it =>
    .ld (it + offNext) fun nx =>
      if protect nx < blk then .ld (it + offNext) fun nx => findPos blk k fuel (protect nx) else k it

/-- static_heap.hpp:444-451, then `k px_block_to_insert`. -/
def mergeBefore (it blk : Nat) (k : Nat → Prog) : Prog :=
  .ld (it + offSize) fun isz =>
    if wadd it isz = blk then
      .ld (blk + offSize) fun bsz =>
      .ld (it + offSize) fun isz =>
      .st (it + offSize) (wadd isz bsz) (k it)
    else k blk

/-- static_heap.hpp:455-470. -/
def mergeAfter (c : Fixed) (it ins : Nat) (k : Prog) : Prog :=
  .ld (ins + offSize) fun sz =>
  .ld (it + offNext) fun nx =>
    if wadd ins sz = protect nx then
      .ld (it + offNext) fun nx =>
        if protect nx ≠ c.pxEnd then
          .ld (it + offNext) fun nx =>
          .ld (protect nx + offSize) fun nsz =>
          .ld (ins + offSize) fun sz =>
          .st (ins + offSize) (wadd sz nsz) <|
          .ld (it + offNext) fun nx =>
          .ld (protect nx + offNext) fun nn =>
          .st (ins + offNext) nn k
        else .st (ins + offNext) (protect c.pxEnd) k
    else .ld (it + offNext) fun nx => .st (ins + offNext) nx k

/-- `prv_insert_block_into_free_list`, static_heap.hpp:425-481. -/
def insertFree (c : Fixed) (blk : Nat) (k : Prog) : Prog :=
  findPos blk (fun it =>
    mergeBefore it blk fun ins =>
    mergeAfter c it ins <|
    if it ≠ ins then .st (it + offNext) (protect ins) k else k) (c.size + 2) c.startAddr

/-- `deallocate`, static_heap.hpp:304-343. -/
def deallocate (c : Fixed) (pv : Nat) (k : Prog) : Prog :=
  if pv ≠ 0 then
    .ld (wsub pv structSize + offSize) fun sz =>
      if (sz &&& allocBit) ≠ 0 then
        .ld (wsub pv structSize + offNext) fun nx =>
          if nx = protect 0 then
            .ld (wsub pv structSize + offSize) fun sz =>
            .st (wsub pv structSize + offSize) (sz &&& not64 allocBit) <|
            .ld (wsub pv structSize + offSize) fun sz =>
            .get .free fun f =>
            .set .free (wadd f sz) <|
            insertFree c (wsub pv structSize) <|
            .get .nFree fun n =>
            .set .nFree (wadd n 1) k
          else k
      else k
  else k

/-- `callocate`, static_heap.hpp:367-381, then `k` with the pointer it returns. -/
def callocate (c : Fixed) (num sz : Nat) (k : Nat → Prog) : Prog :=
  if mulWillOverflow num sz = false then
    allocate c (wmul num sz) fun pv => if pv ≠ 0 then .zero pv (wmul num sz) (k pv) else k pv
  else k 0

/-- Calls that threads make (static_heap.hpp:160-381). -/
inductive Call where
  | alloc (n : Nat)
  | calloc (num sz : Nat)
  | free (p : Nat)
  | resetMin
  | onFail (set : Bool)
  | freeSize
  | minEver
  deriving DecidableEq

/-- The code of a call (static_heap.hpp:160-381). -/
def Call.prog (c : Fixed) : Call → Prog
  | .alloc n => allocate c n .ret
  | .calloc num sz => callocate c num sz .ret
  | .free p => deallocate c p (.ret 0)
  | .resetMin => .get .free fun f => .set .minEver f (.ret 0)
  | .onFail set => .set .callback (if set then 1 else 0) (.ret 0)
  | .freeSize => .get .free .ret
  | .minEver => .get .minEver .ret

/-! ### Threads -/

/-- Places in memory: bytes of the buffer and of `x_start_`, and the other data members (static_heap.hpp:534-546). -/
inductive Loc where
  | byte (a : Nat)
  | var (x : Var)
  deriving DecidableEq

/-- What threads synchronise with: a lock of the user's, and other objects of theirs. -/
inductive Obj where
  | lock
  | other (n : Nat)
  deriving DecidableEq

/-- A block in use: the pointer and the length asked for, a number of its own, and what the thread that got it came after
when it got it. -/
structure Block where
  ptr : Nat
  len : Nat
  id : Nat
  birth : Nat → Nat

/-- The block contains the byte. -/
def Block.has (b : Block) (x : Nat) : Bool := decide (b.ptr ≤ x ∧ x < b.ptr + b.len)

/-- Something that has happened: a call that has returned with its result, or a byte that was written. -/
inductive Event where
  | done (who : Nat) (c : Call) (ret : Nat)
  | wrote (who : Nat) (x : Nat) (v : Byte)
  deriving DecidableEq

/-- The heap, what each thread is doing in it, the record of accesses, who has the lock; the blocks in use, how many
there have been, and what has happened, the newest first (these three are no code). -/
structure State where
  heap : Heap
  pc : Nat → Option (Call × Prog)
  mem : HB.Mem Nat Loc Obj
  holder : Option Nat
  blocks : List Block
  ids : Nat
  hist : List Event

/-- Steps: a call begins, makes one access, returns; a thread reads or writes a byte, locks, unlocks, or synchronises in
some other way. -/
inductive Lbl where
  | call (t : Nat) (c : Call)
  | act (t : Nat)
  | ret (t : Nat)
  | read (t : Nat) (x : Nat)
  | write (t : Nat) (x : Nat) (v : Byte)
  | lock (t : Nat)
  | unlock (t : Nat)
  | rel (t : Nat) (n : Nat)
  | acq (t : Nat) (n : Nat)

/-- Who takes the step. -/
def Lbl.who : Lbl → Nat
  | .call t _ | .act t | .ret t | .read t _ | .write t _ _ | .lock t | .unlock t | .rel t _ | .acq t _ => t

/-- The value of a data member (static_heap.hpp:534-546). -/
def var (h : Heap) : Var → Nat
  | .free => h.freeBytes
  | .minEver => h.minEver
  | .nAlloc => h.nAlloc
  | .nFree => h.nFree
  | .callback => if h.callback then 1 else 0

/-- Assign to a data member (static_heap.hpp:534-546). -/
def setVar (h : Heap) : Var → Nat → Heap
  | .free, v => { h with freeBytes := v }
  | .minEver, v => { h with minEver := v }
  | .nAlloc, v => { h with nAlloc := v }
  | .nFree, v => { h with nFree := v }
  | .callback, v => { h with callback := decide (v ≠ 0) }

/-- Accesses to `n` bytes from `a` on. -/
def bytes (a n : Nat) (wr : Bool) : List (HB.Op Loc Obj) := (List.range n).map fun i => .acc (.byte (a + i)) wr 0

/-- An access to a header is allowed (see `accessible`). -/
def ok (h : Heap) (a : Nat) : Bool := accessible h.size h.base h.startAddr a

/-- `memset` stays inside `uc_heap_` (static_heap.hpp:376). -/
def inBuf (h : Heap) (p n : Nat) : Bool := decide (h.base ≤ p ∧ p + n ≤ h.base + h.size)

/-- Bytes set to zero (static_heap.hpp:376). -/
def clear (h : Heap) (p n : Nat) : Heap := { h with mem := fun x => if p ≤ x ∧ x < p + n then 0 else h.mem x }

/-- One access of a call; `none` if it is undefined, or if there is nothing to do (static_heap.hpp:160-381). -/
def Prog.next (h : Heap) : Prog → Option (Heap × Prog)
  | .ld a k => if ok h a then some (h, k (load64 h.mem a)) else none
  | .st a v k => if ok h a then some ({ h with mem := store64 h.mem a v }, k) else none
  | .get x k => some (h, k (var h x))
  | .set x v k => some (setVar h x v, k)
  | .zero p n k => if inBuf h p n then some (clear h p n, k) else none
  | .call k => some ({ h with callbackCalls := h.callbackCalls + 1 }, k)
  | .ret _ | .hang => none

/-- The memory that one access of a call touches (static_heap.hpp:160-381). -/
def Prog.ops : Prog → List (HB.Op Loc Obj)
  | .ld a _ => bytes a 8 false
  | .st a _ _ => bytes a 8 true
  | .get x _ => [.acc (.var x) false 0]
  | .set x _ _ => [.acc (.var x) true 0]
  | .zero p n _ => bytes p n true
  | .call _ | .ret _ | .hang => []

/-- What a call that is over returns. -/
def Prog.result : Prog → Option Nat
  | .ret p => some p
  | _ => none

/-- The number of the block that contains the byte, 0 if there is none (no code). -/
def State.idAt (m : State) (x : Nat) : Nat :=
  match m.blocks.find? fun b => b.has x with
  | some b => b.id
  | none => 0

/-- The members that do not change. -/
def State.fixed (m : State) : Fixed := ⟨m.heap.size, m.heap.startAddr, m.heap.pxEnd⟩

/-- The accesses and synchronisations of a step (static_heap.hpp:160-381). -/
def ops (m : State) : Lbl → List (HB.Op Loc Obj)
  | .act t => match m.pc t with
    | some (_, p) => p.ops
    | none => []
  | .read _ x => [.acc (.byte x) false (m.idAt x)]
  | .write _ x _ => [.acc (.byte x) true (m.idAt x)]
  | .lock _ => [.acq .lock]
  | .unlock _ => [.rel .lock]
  | .rel _ n => [.rel (.other n)]
  | .acq _ n => [.acq (.other n)]
  | .call _ _ | .ret _ => []

/-- How many bytes were asked for (no code). -/
def Call.wants : Call → Option Nat
  | .alloc n => some n
  | .calloc k n => some (k * n)
  | _ => none

/-- The blocks in use after a step (no code): a block comes into use when the call that gets it returns, and goes out of
use when the call that gives it back begins. -/
def blocksAfter (m : State) : Lbl → List Block
  | .call _ (.free p) => m.blocks.filter fun b => b.ptr ≠ p
  | .ret t => match m.pc t with
    | some (c, .ret p) => match c.wants with
      | some n => if p = 0 then m.blocks else ⟨p, n, m.ids + 1, m.mem.clk t⟩ :: m.blocks
      | none => m.blocks
    | _ => m.blocks
  | _ => m.blocks

/-- A step (static_heap.hpp:160-381); `none` if it is not possible. -/
def step (m : State) (l : Lbl) : Option State :=
  let mem := m.mem.run l.who (ops m l)
  let blocks := blocksAfter m l
  match l with
  | .call t c => if (m.pc t).isSome then none else
      some { m with mem, blocks, pc := put m.pc t (some (c, c.prog m.fixed)) }
  | .act t => match m.pc t with
    | some (c, p) => (p.next m.heap).map fun r => { m with mem, blocks, heap := r.1, pc := put m.pc t (some (c, r.2)) }
    | none => none
  | .ret t => match m.pc t with
    | some (c, .ret p) =>
      some { m with mem, blocks, pc := put m.pc t none, ids := m.ids + 1, hist := .done t c p :: m.hist }
    | _ => none
  | .read t _ => if (m.pc t).isSome then none else some { m with mem, blocks }
  | .write t x v => if (m.pc t).isSome then none else
      some { m with mem, blocks, heap := { m.heap with mem := fun y => if y = x then v else m.heap.mem y },
                    hist := .wrote t x v :: m.hist }
  | .lock t => if (m.pc t).isSome ∨ m.holder ≠ none then none else some { m with mem, blocks, holder := some t }
  | .unlock t => if (m.pc t).isSome ∨ m.holder ≠ some t then none else some { m with mem, blocks, holder := none }
  | .rel t _ => if (m.pc t).isSome then none else some { m with mem, blocks }
  | .acq t _ => if (m.pc t).isSome then none else some { m with mem, blocks }

/-- Nobody is using the heap yet. -/
def State.start (h : Heap) : State := ⟨h, fun _ => none, Mem.new, none, [], 0, []⟩

/-- An access of the step is a data race. -/
def Race (m : State) (l : Lbl) : Prop := m.mem.Races (fun _ => True) l.who (ops m l)

/-- Executions from `i` of steps that satisfy `G`; `ls` are the steps, the newest first. -/
inductive Run (i : State) (G : State → Lbl → Prop) : List Lbl → State → Prop
  | start : Run i G [] i
  | step (ls : List Lbl) (m m' : State) (l : Lbl) : Run i G ls m → G m l → Conc.step m l = some m' → Run i G (l :: ls) m'

/-! ### Users who take care -/

/-- The operation of the sequential client that corresponds to a call; asking for a size is none. -/
def Call.op : Call → Option Op
  | .alloc n => some (.alloc n)
  | .calloc k n => some (.calloc k n)
  | .free p => some (.free p)
  | .resetMin => some .resetMin
  | .onFail set => some (.onFail set)
  | .freeSize | .minEver => none

/-- The thread comes after all that has been done with the block. -/
def State.Done (m : State) (t : Nat) (b : Block) : Prop := ∀ a ∈ m.mem.log, a.tag = b.id → a.time ≤ m.mem.clk t a.who

/-- The thread may access the byte: it is in a block in use, the thread comes after the block's having been handed out,
and what others have done with the block does not race with it. -/
def State.May (m : State) (t x : Nat) (wr : Bool) : Prop :=
  ∃ b ∈ m.blocks, b.has x = true ∧ (∀ u, b.birth u ≤ m.mem.clk t u) ∧
    ¬ ∃ a ∈ m.mem.log, a.loc = .byte x ∧ a.tag = b.id ∧ (a.wr = true ∨ wr = true) ∧ m.mem.clk t a.who < a.time

/-- The arguments are 64-bit, and what is given back is null or a block in use that nobody uses any more. -/
def State.Fair (m : State) (t : Nat) : Call → Prop
  | .alloc n => n < 2 ^ 64
  | .calloc k n => k < 2 ^ 64 ∧ n < 2 ^ 64
  | .free p => p = 0 ∨ ∃ b ∈ m.blocks, b.ptr = p ∧ m.Done t b
  | _ => True

/-- The users take care: they call the heap only when they have the lock, and access only blocks in use. -/
def Careful (m : State) : Lbl → Prop
  | .call t c => m.holder = some t ∧ m.Fair t c
  | .read t x => m.May t x false
  | .write t x _ => m.May t x true
  | _ => True

/-- One client alone can have this history: the calls and writes, the newest first, are legal operations with these
results, and end in this world. -/
inductive Explains (h : Heap) : List Event → World → Prop
  | start : Explains h [] (.start h)
  | done {es : List Event} {w w' : World} {op : Op} {r : Nat} (t : Nat) (c : Call) : Explains h es w → c.op = some op →
      Legal w op → w.step op = .ok (w', r) → Explains h (.done t c r :: es) w'
  | free {es : List Event} {w : World} (t : Nat) : Explains h es w →
      Explains h (.done t .freeSize w.heap.freeHeapSize :: es) w
  | least {es : List Event} {w : World} (t : Nat) : Explains h es w →
      Explains h (.done t .minEver w.heap.minimumEverFreeHeapSize :: es) w
  | wrote {es : List Event} {w w' : World} {r : Nat} (t x : Nat) (v : Byte) : Explains h es w → Legal w (.write x v) →
      w.step (.write x v) = .ok (w', r) → Explains h (.wrote t x v :: es) w'

/-! ### One thread alone -/

/-- The rest of a call, made without interruption. -/
def Prog.run (h : Heap) : Prog → Res (Heap × Nat)
  | .ret p => .ok (h, p)
  | .ld a k => if ok h a then (k (load64 h.mem a)).run h else .ub
  | .st a v k => if ok h a then k.run { h with mem := store64 h.mem a v } else .ub
  | .get x k => (k (var h x)).run h
  | .set x v k => k.run (setVar h x v)
  | .zero p n k => if inBuf h p n then k.run (clear h p n) else .ub
  | .call k => k.run { h with callbackCalls := h.callbackCalls + 1 }
  | .hang => .hang

end Verif.Heap.Conc
