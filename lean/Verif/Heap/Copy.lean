import Verif.Heap.Client

/-!
Copying a `static_heap` (static_heap.hpp:16-547).

The class declares a constructor (static_heap.hpp:384) and neither copy constructor, assignment nor
destructor, and none of its members forbids copying, so the compiler provides the memberwise ones:
the bytes of `uc_heap_` (static_heap.hpp:535), the two words of `x_start_` (538), `px_end_` (539), the counters
(543-546) and `callback_` (534) are copied.  The links are not adjusted: `x_start_` of the copy, `px_end_` of the
copy and the headers in the copied bytes lead into the buffer of the original.

After construction the functions of the class reach memory only through `&x_start_` (213, 433, 438),
`px_end_` and the links; `uc_heap_` is named only in the constructor and in an argument of
`config_assert`, whose body is empty (78, 155).  A `Heap` of the model keeps `size` and `base` to say
which bytes may be accessed, so for the copy they stay those of the buffer its links lead into: the model
of the copy faults where it would touch anything but its own `x_start_` and the buffer of the
original, in particular where it would touch its own buffer.

Simplified: the original is not destroyed while the copy is used (every link of the copy
dangles then); what `callback_` does is left out (`Verif.Heap.Fail`).
-/
namespace Verif.Heap.Copy

/-- Memory after the bytes of the object `h` have been copied to an object whose `uc_heap_`
(static_heap.hpp:535) is at `base2` and whose `x_start_` (538) is at `st2`. -/
def copyMem (h : Heap) (base2 st2 : Nat) : Mem := fun x =>
  if st2 ≤ x ∧ x < st2 + sizeofLink then h.mem (h.startAddr + (x - st2))
  else if base2 ≤ x ∧ x < base2 + h.size then h.mem (h.base + (x - base2))
  else h.mem x

/-- Two objects in one memory: both fields `mem` are kept equal. -/
structure Two where
  orig : Heap
  copy : Heap

/-- The implicit copy constructor of `static_heap` (static_heap.hpp:16-547); the implicit copy
assignment leaves the same behind. -/
def make (h : Heap) (base2 st2 : Nat) : Two :=
  { orig := { h with mem := copyMem h base2 st2 },
    copy := { h with startAddr := st2, mem := copyMem h base2 st2, callbackCalls := 0 } }

/-- `allocate` (static_heap.hpp:166-301) of the original. -/
def Two.allocOrig (t : Two) (n : Nat) : Res (Two × Nat) := do
  let (h, p) ← t.orig.allocate n
  .ok ({ orig := h, copy := { t.copy with mem := h.mem } }, p)

/-- `allocate` (static_heap.hpp:166-301) of the copy. -/
def Two.allocCopy (t : Two) (n : Nat) : Res (Two × Nat) := do
  let (h, p) ← t.copy.allocate n
  .ok ({ copy := h, orig := { t.orig with mem := h.mem } }, p)

/-- The second object does not overlap the first. -/
structure Away (size base st base2 st2 : Nat) : Prop where
  buf_buf : base + size ≤ base2 ∨ base2 + size ≤ base
  buf_st : base + size ≤ st2 ∨ st2 + 16 ≤ base
  st_buf : st + 16 ≤ base2 ∨ base2 + size ≤ st
  st_st : st + 16 ≤ st2 ∨ st2 + 16 ≤ st

end Verif.Heap.Copy
