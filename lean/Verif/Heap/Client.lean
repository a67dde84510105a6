import Verif.Heap.Model

/-!
What a client of the heap can do, and the vocabulary in which the heap properties are stated.
Nothing in this file mentions headers, the free list or any other internal of the heap, except
that it calls the functions of `Verif.Heap.Model`.
-/
namespace Verif.Heap

/-- Where a heap object may live: the buffer `[base, base+size)` and the object's `x_start_`
member (16 bytes at `startAddr`, 8-aligned by its type) are disjoint, do not contain the null
address and do not wrap around the address space; an object is smaller than 2^63 bytes. -/
structure Layout (size base startAddr : Nat) : Prop where
  base_pos : 0 < base
  fits : base + size < 2 ^ 64
  size_lt : size < 2 ^ 63
  start_aligned : startAddr % 8 = 0
  start_pos : 0 < startAddr
  start_fits : startAddr + 16 ≤ 2 ^ 64
  disjoint : startAddr + 16 ≤ base ∨ base + size ≤ startAddr

/-- First usable address: `base` rounded up to a multiple of 8. -/
def areaLo (base : Nat) : Nat := (base + 7) / 8 * 8
/-- End of the usable area: 16 bytes for the end marker, rounded down to a multiple of 8. -/
def areaHi (size base : Nat) : Nat := (base + size) / 8 * 8 - 16

/-- The buffer has room for at least one block: 32 bytes after alignment padding. -/
def Roomy (size base : Nat) : Prop := areaLo base + 32 ≤ base + size

/-- A live allocation as the client knows it: the pointer it was given, the size it asked for, and
by how much `free_heap_size()` dropped when it was allocated. -/
structure Live where
  ptr : Nat
  len : Nat
  cost : Nat
  deriving DecidableEq, Repr

/-- The bytes the block occupies including its 16-byte header. -/
def Live.start (l : Live) : Nat := l.ptr - 16
def Live.stop (l : Live) : Nat := l.ptr - 16 + l.cost

/-- A heap together with what its clients remember. `frees` lists the values `free_heap_size()`
has had since construction or the last reset of the low-water mark; `freed` the pointers
deallocated since the last successful allocation; `wrote` the bytes the clients last wrote (or got
zeroed by `callocate`). -/
structure World where
  heap : Heap
  live : List Live
  frees : List Nat
  freed : List Nat
  wrote : Nat → Option Byte

/-- Client operations. -/
inductive Op where
  | alloc (n : Nat)
  | calloc (k n : Nat)
  | free (p : Nat)
  | write (a : Nat) (v : Byte)
  | resetMin
  | onFail (set : Bool)
  deriving DecidableEq, Repr

/-- The client plays by the rules: arguments are 64-bit, it frees only live pointers or null and
writes only inside live blocks. -/
def Legal (w : World) : Op → Prop
  | .alloc n => n < 2 ^ 64
  | .calloc k n => k < 2 ^ 64 ∧ n < 2 ^ 64
  | .free p => p = 0 ∨ ∃ l ∈ w.live, l.ptr = p
  | .write a _ => ∃ l ∈ w.live, l.ptr ≤ a ∧ a < l.ptr + l.len
  | .resetMin => True
  | .onFail _ => True

/-- What the client remembers after an allocation of `n` bytes returned `p`. -/
def World.afterAlloc (w : World) (h' : Heap) (p n : Nat) (z : Option Byte) : World :=
  if p = 0 then { w with heap := h', frees := h'.freeHeapSize :: w.frees }
  else
    { heap := h', live := ⟨p, n, w.heap.freeHeapSize - h'.freeHeapSize⟩ :: w.live,
      frees := h'.freeHeapSize :: w.frees, freed := [],
      wrote := fun a => if p ≤ a ∧ a < p + n then z else w.wrote a }

/-- Run one operation; the second component is the pointer returned (0 when nothing is returned). -/
def World.step (w : World) : Op → Res (World × Nat)
  | .alloc n => do
    let (h', p) ← w.heap.allocate n
    .ok (w.afterAlloc h' p n none, p)
  | .calloc k n => do
    let (h', p) ← w.heap.callocate k n
    .ok (w.afterAlloc h' p (k * n) (some 0), p)
  | .free p => do
    let h' ← w.heap.deallocate p
    .ok ({ heap := h', live := w.live.filter (fun l => l.ptr ≠ p),
           frees := h'.freeHeapSize :: w.frees,
           freed := if p = 0 then w.freed else p :: w.freed, wrote := w.wrote }, 0)
  | .write a v =>
    .ok ({ w with heap := { w.heap with mem := fun x => if x = a then v else w.heap.mem x },
                  wrote := fun x => if x = a then some v else w.wrote x }, 0)
  | .resetMin =>
    let h' := w.heap.resetMinimumEver
    .ok ({ w with heap := h', frees := [h'.freeHeapSize] }, 0)
  | .onFail set => .ok ({ w with heap := w.heap.onFail set }, 0)

/-- The world right after construction. -/
def World.start (h : Heap) : World :=
  { heap := h, live := [], frees := [h.freeHeapSize], freed := [], wrote := fun _ => none }

/-- Worlds reachable from the constructor of a heap of `size` bytes at `base`, by legal
operations. -/
inductive Reach (size base startAddr : Nat) : World → Prop where
  | init {mem : Mem} {h : Heap} :
      Heap.construct size base startAddr mem = .ok h → Reach size base startAddr (.start h)
  | step {w w' : World} {op : Op} {p : Nat} :
      Reach size base startAddr w → Legal w op → w.step op = .ok (w', p) →
      Reach size base startAddr w'

/-- A maximal gap `[a, b)` between live blocks in the area `[lo, hi)`. -/
def Gap (live : List Live) (lo hi a b : Nat) : Prop :=
  a < b ∧ (a = lo ∨ ∃ l ∈ live, a = l.stop) ∧ (b = hi ∨ ∃ l ∈ live, b = l.start) ∧
    ∀ l ∈ live, l.stop ≤ a ∨ b ≤ l.start

/-- Bytes a gap must offer for a request of `n` bytes: 16 more, rounded up to a multiple of 8. -/
def required (n : Nat) : Nat := (n + 16 + 7) / 8 * 8

/-- What the caller sees of one operation: the pointer returned and the sizes reported afterwards. -/
structure Out where
  ptr : Nat
  free : Nat
  min : Nat
  deriving DecidableEq, Repr

/-- Run a list of operations and collect what the caller sees. -/
def World.run : World → List Op → Res (World × List Out)
  | w, [] => .ok (w, [])
  | w, op :: ops => do
    let (w', p) ← w.step op
    let (w'', outs) ← w'.run ops
    .ok (w'', ⟨p, w'.heap.freeHeapSize, w'.heap.minimumEverFreeHeapSize⟩ :: outs)

/-- Every operation of the list is legal when its turn comes. -/
def LegalRun : World → List Op → Prop
  | _, [] => True
  | w, op :: ops => Legal w op ∧ ∀ w' p, w.step op = .ok (w', p) → LegalRun w' ops

/-- Move a pointer by `d`; null stays null. -/
def movePtr (d p : Nat) : Nat := if p = 0 then 0 else p + d

/-- The same operation on a heap that lives `d` bytes higher. -/
def Op.move (d : Nat) : Op → Op
  | .free p => .free (movePtr d p)
  | .write a v => .write (a + d) v
  | op => op

/-- The same observation on a heap that lives `d` bytes higher. -/
def Out.move (d : Nat) (o : Out) : Out := { o with ptr := movePtr d o.ptr }

end Verif.Heap
