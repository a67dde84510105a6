import Verif.Basic

/-!
Model of `include/xitren/allocators/static_heap.hpp` (all line numbers refer to that file).

Platform: 64-bit `size_t` and pointers, 8-bit bytes, little-endian header words (the byte order
of the header words is not observable).  Addresses and `size_t` values are `Nat`; every
addition or subtraction that C++ performs modulo 2^64 is written `wadd` / `wsub`.

The whole memory is one function `Nat → Byte`.  Every header access is checked: it has to be
8-aligned and to lie inside `uc_heap_` or inside `x_start_`, otherwise the outcome is `Res.ub`.
`config_assert`, `heap_validate_block_pointer`, `mt_coverage_test_marker`, `v_task_suspend_all`
and `x_task_resume_all` have empty bodies (lines 66-78, 152-157) and are left out.
-/
namespace Verif.Heap

/-- Memory; the code of static_heap.hpp reads and writes `uc_heap_` through pointers. -/
abbrev Mem := Nat → Byte

/-- 2^64, the modulus of `size_t` (`size_t`, static_heap.hpp). -/
def W : Nat := 2 ^ 64

/-- `size_t` addition (the `+` of static_heap.hpp). -/
def wadd (a b : Nat) : Nat := (a + b) % W
/-- `size_t` subtraction (the `-` of static_heap.hpp). -/
def wsub (a b : Nat) : Nat := (a + W - b % W) % W
/-- `size_t` multiplication (the `*` of static_heap.hpp:373, 376). -/
def wmul (a b : Nat) : Nat := (a * b) % W
/-- bitwise complement of a `size_t` (the `~` of static_heap.hpp:88, 99). -/
def not64 (a : Nat) : Nat := W - 1 - a

/-- `port_byte_alignment`, static_heap.hpp:42. -/
def alignment : Nat := 8
/-- `port_byte_alignment_mask`, static_heap.hpp:64. -/
def alignMask : Nat := 7
/-- `x_heap_canary`, static_heap.hpp:81. -/
def canary : Nat := 0x655556
/-- `port_max_delay`, static_heap.hpp:83. -/
def portMaxDelay : Nat := 0xffffffff
/-- `sizeof(block_link_t)`, static_heap.hpp:26-29: a pointer followed by a `size_t`. -/
def sizeofLink : Nat := 16
/-- Offset of `px_next_free_block` in `block_link_t`, static_heap.hpp:27. -/
def offNext : Nat := 0
/-- Offset of `x_block_size` in `block_link_t`, static_heap.hpp:28. -/
def offSize : Nat := 8
/-- `x_heap_struct_size`, static_heap.hpp:87-88. -/
def structSize : Nat := (sizeofLink + (alignment - 1)) &&& not64 alignMask
/-- `heap_minimum_block_size`, static_heap.hpp:93. -/
def minBlock : Nat := structSize <<< 1
/-- `heap_size_max`, static_heap.hpp:99. -/
def sizeMax : Nat := not64 0
/-- `heap_block_allocated_bitmask`, static_heap.hpp:122-123. -/
def allocBit : Nat := 1 <<< (8 * 8 - 1)

/-- `heap_multiply_will_overflow`, static_heap.hpp:102-106. -/
def mulWillOverflow (a b : Nat) : Bool := decide (a > 0) && decide (b > sizeMax / a)
/-- `heap_add_will_overflow`, static_heap.hpp:109-113. -/
def addWillOverflow (a b : Nat) : Bool := decide (a > sizeMax - b)
/-- `heap_block_size_is_valid`, static_heap.hpp:125-129. -/
def sizeIsValid (a : Nat) : Bool := (a &&& allocBit) == 0
/-- `heap_protect_block_pointer`, static_heap.hpp:146-150: xor with the canary, in both directions. -/
def protect (p : Nat) : Nat := p ^^^ canary

/-- An 8-byte little-endian word of memory (reading a member of `block_link_t`, static_heap.hpp:26-29). -/
def load64 (m : Mem) (a : Nat) : Nat :=
  (m a).toNat + (m (a + 1)).toNat * 2 ^ 8 + (m (a + 2)).toNat * 2 ^ 16 + (m (a + 3)).toNat * 2 ^ 24
    + (m (a + 4)).toNat * 2 ^ 32 + (m (a + 5)).toNat * 2 ^ 40 + (m (a + 6)).toNat * 2 ^ 48
    + (m (a + 7)).toNat * 2 ^ 56

/-- Overwrite the 8 bytes at `a` by the little-endian encoding of `v` (writing a member of `block_link_t`, static_heap.hpp:26-29). -/
def store64 (m : Mem) (a v : Nat) : Mem := fun x =>
  if a ≤ x ∧ x < a + 8 then BitVec.ofNat 8 (v / 2 ^ (8 * (x - a))) else m x

/-- An aligned 8-byte access inside `uc_heap_` (static_heap.hpp:535, at `base`) or inside `x_start_`
(static_heap.hpp:538, at `startAddr`). -/
def accessible (size base startAddr a : Nat) : Bool :=
  a % 8 == 0 &&
    ((decide (base ≤ a) && decide (a + 8 ≤ base + size)) ||
     (decide (startAddr ≤ a) && decide (a + 8 ≤ startAddr + sizeofLink)))

/-- The object `static_heap<size>`: its data members (static_heap.hpp:534-546), the addresses of `uc_heap_`
and `x_start_`, the memory, and how often the failure callback has been invoked.
`callback` records whether `callback_` holds a function. -/
structure Heap where
  size : Nat
  base : Nat
  startAddr : Nat
  mem : Mem
  pxEnd : Nat
  freeBytes : Nat
  minEver : Nat
  nAlloc : Nat
  nFree : Nat
  callback : Bool
  callbackCalls : Nat

namespace Heap

/-- Checked read of a header word (a member of `block_link_t` of static_heap.hpp:26-29). -/
def ld (h : Heap) (a : Nat) : Res Nat :=
  if accessible h.size h.base h.startAddr a then .ok (load64 h.mem a) else .ub

/-- Checked write of a header word (a member of `block_link_t` of static_heap.hpp:26-29). -/
def st (h : Heap) (a v : Nat) : Res Heap :=
  if accessible h.size h.base h.startAddr a then .ok { h with mem := store64 h.mem a v } else .ub

/-- `on_fail`, static_heap.hpp:160-164. -/
def onFail (h : Heap) (set : Bool) : Heap := { h with callback := set }

/-- static_heap.hpp:176-201 of `allocate`: add the header size and round up to the alignment; 0 when the
request is 0 or an addition would overflow. -/
def roundWanted (wanted : Nat) : Nat :=
  if wanted > 0 then
    if addWillOverflow wanted structSize = false then
      let w := wadd wanted structSize
      if (w &&& alignMask) ≠ 0 then
        let additional := alignment - (w &&& alignMask)
        if addWillOverflow w additional = false then wadd w additional else 0
      else w
    else 0
  else wanted

/-- The loop of static_heap.hpp:217-222: walk the free list until a block of at least `w` bytes or the end
marker is reached.  Returns (`px_previous_block`, `px_block`). -/
def findFit (h : Heap) (w : Nat) : Nat → Nat → Nat → Res (Nat × Nat)
  | 0, _, _ => .hang
  | fuel + 1, prev, blk => do
    let sz ← h.ld (blk + offSize)
    if sz < w then
      let nx ← h.ld (blk + offNext)
      if nx ≠ protect 0 then findFit h w fuel blk (protect nx)
      else .ok (prev, blk)
    else .ok (prev, blk)

/-- static_heap.hpp:242-261: split the block when what remains is larger than the minimum block size. -/
def split (h : Heap) (prev blk w : Nat) : Res Heap := do
  let bs ← h.ld (blk + offSize)
  if wsub bs w > minBlock then
    let nw := wadd blk w
    let h ← h.st (nw + offSize) (wsub bs w)
    let h ← h.st (blk + offSize) w
    let pn ← h.ld (prev + offNext)
    let h ← h.st (nw + offNext) pn
    h.st (prev + offNext) (protect nw)
  else .ok h

/-- static_heap.hpp:226-277: take the block out of the free list, split it, account for it and mark it. -/
def take (h : Heap) (prev blk w : Nat) : Res (Heap × Nat) := do
  let pn ← h.ld (prev + offNext)
  let pv := wadd (protect pn) structSize
  let bn ← h.ld (blk + offNext)
  let h ← h.st (prev + offNext) bn
  let h ← h.split prev blk w
  let bs ← h.ld (blk + offSize)
  let h := { h with freeBytes := wsub h.freeBytes bs }
  let h := if h.freeBytes < h.minEver then { h with minEver := h.freeBytes } else h
  let h ← h.st (blk + offSize) (bs ||| allocBit)
  let h ← h.st (blk + offNext) (protect 0)
  .ok ({ h with nAlloc := wadd h.nAlloc 1 }, pv)

/-- static_heap.hpp:203-291 of `allocate`, after the size has been adjusted to `w`. -/
def allocCore (h : Heap) (w : Nat) : Res (Heap × Nat) :=
  if sizeIsValid w then
    if w > 0 ∧ w ≤ h.freeBytes then do
      let first ← h.ld (h.startAddr + offNext)
      let (prev, blk) ← h.findFit w (h.size + 2) h.startAddr (protect first)
      if blk ≠ h.pxEnd then h.take prev blk w
      else .ok (h, 0)
    else .ok (h, 0)
  else .ok (h, 0)

/-- static_heap.hpp:293-297: invoke the failure callback when nothing was allocated. -/
def fireCallback (h : Heap) (pv : Nat) : Heap :=
  if pv = 0 ∧ h.callback = true then { h with callbackCalls := h.callbackCalls + 1 } else h

/-- `allocate`, static_heap.hpp:166-301.  Returns the new heap and the pointer (0 is `nullptr`). -/
def allocate (h : Heap) (wanted : Nat) : Res (Heap × Nat) := do
  let (h, pv) ← h.allocCore (roundWanted wanted)
  .ok (h.fireCallback pv, pv)

/-- The loop of static_heap.hpp:433-436. -/
def findPos (h : Heap) (blk : Nat) : Nat → Nat → Res Nat
  | 0, _ => .hang
  | fuel + 1, it => do
    let nx ← h.ld (it + offNext)
    if protect nx < blk then findPos h blk fuel (protect nx) else .ok it

/-- static_heap.hpp:444-451: merge the block into the free block before it.  Returns the heap and
`px_block_to_insert`. -/
def mergeBefore (h : Heap) (it blk : Nat) : Res (Heap × Nat) := do
  let isz ← h.ld (it + offSize)
  if wadd it isz = blk then
    let bsz ← h.ld (blk + offSize)
    let h ← h.st (it + offSize) (wadd isz bsz)
    .ok (h, it)
  else .ok (h, blk)

/-- static_heap.hpp:455-470: merge with the free block after it, and set the block's next pointer. -/
def mergeAfter (h : Heap) (it ins : Nat) : Res Heap := do
  let sz ← h.ld (ins + offSize)
  let nx ← h.ld (it + offNext)
  if wadd ins sz = protect nx then
    if protect nx ≠ h.pxEnd then
      let nsz ← h.ld (protect nx + offSize)
      let h ← h.st (ins + offSize) (wadd sz nsz)
      let nx ← h.ld (it + offNext)
      let nn ← h.ld (protect nx + offNext)
      h.st (ins + offNext) nn
    else h.st (ins + offNext) (protect h.pxEnd)
  else h.st (ins + offNext) nx

/-- `prv_insert_block_into_free_list`, static_heap.hpp:425-481. -/
def insertFree (h : Heap) (blk : Nat) : Res Heap := do
  let it ← h.findPos blk (h.size + 2) h.startAddr
  let (h, ins) ← h.mergeBefore it blk
  let h ← h.mergeAfter it ins
  if it ≠ ins then h.st (it + offNext) (protect ins) else .ok h

/-- `deallocate`, static_heap.hpp:304-343. -/
def deallocate (h : Heap) (pv : Nat) : Res Heap :=
  if pv ≠ 0 then do
    let link := wsub pv structSize
    let sz ← h.ld (link + offSize)
    if (sz &&& allocBit) ≠ 0 then
      let nx ← h.ld (link + offNext)
      if nx = protect 0 then
        let h ← h.st (link + offSize) (sz &&& not64 allocBit)
        let sz ← h.ld (link + offSize)
        let h := { h with freeBytes := wadd h.freeBytes sz }
        let h ← h.insertFree link
        .ok { h with nFree := wadd h.nFree 1 }
      else .ok h
    else .ok h
  else .ok h

/-- `free_heap_size`, static_heap.hpp:346-350. -/
def freeHeapSize (h : Heap) : Nat := h.freeBytes
/-- `minimum_ever_free_heap_size`, static_heap.hpp:353-357. -/
def minimumEverFreeHeapSize (h : Heap) : Nat := h.minEver
/-- `reset_minimum_ever_free_heap_size`, static_heap.hpp:360-364. -/
def resetMinimumEver (h : Heap) : Heap := { h with minEver := h.freeBytes }

/-- `memset(p, 0, n)` (static_heap.hpp:376); writing outside `uc_heap_` is undefined behaviour. -/
def memset0 (h : Heap) (p n : Nat) : Res Heap :=
  if h.base ≤ p ∧ p + n ≤ h.base + h.size then
    .ok { h with mem := fun x => if p ≤ x ∧ x < p + n then 0 else h.mem x }
  else .ub

/-- `callocate`, static_heap.hpp:367-381. -/
def callocate (h : Heap) (num sz : Nat) : Res (Heap × Nat) :=
  if mulWillOverflow num sz = false then do
    let (h, pv) ← h.allocate (wmul num sz)
    if pv ≠ 0 then
      let h ← h.memset0 pv (wmul num sz)
      .ok (h, pv)
    else .ok (h, pv)
  else .ok (h, 0)

/-- static_heap.hpp:391-397: `ux_start_address`. -/
def alignedStart (base : Nat) : Nat :=
  if (base &&& alignMask) ≠ 0 then wadd base (alignment - 1) &&& not64 alignMask else base

/-- static_heap.hpp:388, 393-397: `x_total_heap_size`. -/
def usableSize (size base : Nat) : Nat :=
  if (base &&& alignMask) ≠ 0 then wsub size (wsub (alignedStart base) base) else size

/-- static_heap.hpp:406-408: `ux_end_address`. -/
def endAddress (size base : Nat) : Nat :=
  wsub (wadd (alignedStart base) (usableSize size base)) structSize &&& not64 alignMask

/-- The constructor, static_heap.hpp:384-422, run on an object whose `uc_heap_` is at `base` and whose
`x_start_` is at `startAddr`.  The initial memory is arbitrary (in C++ the buffer is
zero-initialised, static_heap.hpp:535; the theorems hold for any contents). -/
def construct (size base startAddr : Nat) (mem : Mem) : Res Heap := do
  let s := alignedStart base
  let e := endAddress size base
  let h : Heap := { size, base, startAddr, mem, pxEnd := 0, freeBytes := 0, minEver := 0,
                    nAlloc := 0, nFree := 0, callback := false, callbackCalls := 0 }
  let h ← h.st (startAddr + offNext) (protect s)
  let h ← h.st (startAddr + offSize) 0
  let h := { h with pxEnd := e }
  let h ← h.st (e + offSize) 0
  let h ← h.st (e + offNext) (protect 0)
  let h ← h.st (s + offSize) (wsub e s)
  let h ← h.st (s + offNext) (protect e)
  let sz ← h.ld (s + offSize)
  .ok { h with minEver := sz, freeBytes := sz }

/-- `heap_stats_t`, static_heap.hpp:32-40. -/
structure Stats where
  available : Nat
  largest : Nat
  smallest : Nat
  nFreeBlocks : Nat
  minEver : Nat
  nAlloc : Nat
  nFree : Nat
  deriving DecidableEq, Repr

/-- The loop of static_heap.hpp:497-513.  The last three arguments are `x_blocks`, `x_max_size` and
`x_min_size`. -/
def statsLoop (h : Heap) : Nat → Nat → Nat → Nat → Nat → Res (Nat × Nat × Nat)
  | 0, _, _, _, _ => .hang
  | fuel + 1, blk, n, mx, mn =>
    if blk ≠ h.pxEnd then do
      let sz ← h.ld (blk + offSize)
      let mx := if sz > mx then sz else mx
      let mn := if sz < mn then sz else mn
      let nx ← h.ld (blk + offNext)
      statsLoop h fuel (protect nx) (wadd n 1) mx mn
    else .ok (n, mx, mn)

/-- `v_port_get_heap_stats`, static_heap.hpp:484-530, as if `heapPROTECT_BLOCK_POINTER` (static_heap.hpp:492 and 512,
declared nowhere, so the function cannot be instantiated) were `heap_protect_block_pointer`. -/
def getStats (h : Heap) : Res Stats := do
  let first ← h.ld (h.startAddr + offNext)
  let (n, mx, mn) ←
    if protect first ≠ 0 then h.statsLoop (h.size + 2) (protect first) 0 0 portMaxDelay
    else .ok (0, 0, portMaxDelay)
  .ok { available := h.freeBytes, largest := mx, smallest := mn, nFreeBlocks := n,
        minEver := h.minEver, nAlloc := h.nAlloc, nFree := h.nFree }

end Heap
end Verif.Heap
