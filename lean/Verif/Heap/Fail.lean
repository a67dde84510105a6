import Verif.Heap.Props

/-!
The failure callback of the heap, with its body.  `Verif.Heap.Model` only counts how often
`callback_` is invoked; here the function stored there is code of the client, run inside `allocate`
(static_heap.hpp:293-295), that may itself use the heap: allocate (and fail, and so be called
again), release, write, reset the low-water mark, store another function with `on_fail`
(static_heap.hpp:160-164) or throw.

All line numbers refer to `include/xitren/allocators/static_heap.hpp`.

`callback_` is a `std::function` member (static_heap.hpp:22, 534) and is invoked in place, not
copied.  `on_fail` destroys the function object stored so far, even while it runs; a body that
uses what it captured after that uses a destroyed object.  Every call of `on_fail` therefore makes a
new function object, numbered by `St.inst`, and `Prog.look` is the step "the body uses something it
captured".
-/
namespace Verif.Heap.Fail

/-- What a client calls: `allocate` (static_heap.hpp:166-301), `callocate` (static_heap.hpp:367-381),
`deallocate` (static_heap.hpp:304-343), a write into memory it was given, and
`reset_minimum_ever_free_heap_size` (static_heap.hpp:360-364). -/
inductive Act where
  | alloc (n : Nat)
  | calloc (k n : Nat)
  | free (p : Nat)
  | write (a : Nat) (v : Byte)
  | resetMin
  deriving DecidableEq, Repr

/-- The same call in the vocabulary of `Verif.Heap.Client` (static_heap.hpp:166-381). -/
def Act.op : Act → Op
  | .alloc n => .alloc n
  | .calloc k n => .calloc k n
  | .free p => .free p
  | .write a v => .write a v
  | .resetMin => .resetMin

/-- How a call comes back to its caller: with a pointer (0 is `nullptr`, and stands for "nothing"
where nothing is returned), or with the exception thrown by the failure callback. -/
inductive Ret where
  | ptr (p : Nat)
  | thrown
  deriving DecidableEq, Repr

/-- Code of the client: the program, or the body of a failure callback.  What follows a call may
depend on how the call came back; after `Ret.thrown` it goes on (the exception is caught) or ends with
`throw` (it is passed on). -/
inductive Prog where
  | done
  | throw
  | look (k : Prog)
  | set (f : Option Nat) (k : Prog)
  | act (a : Act) (k : Ret → Prog)

/-- What happens, in order: a call begins, when these blocks are live; a call comes back; the
failure callback begins and ends (with an exception or without); `on_fail` is called. -/
inductive Ev where
  | call (a : Act) (live : List Live)
  | ret (r : Ret)
  | enter (f : Nat)
  | leave (threw : Bool)
  | set (f : Option Nat)
  deriving DecidableEq, Repr

/-- The heap and its clients; the number of the function in `callback_` (static_heap.hpp:534), which
function object it is, and what happened so far. -/
structure St where
  w : World
  stored : Option Nat
  inst : Nat
  log : List Ev

/-- How a piece of code ends; `illegal` means that the client broke a rule of `Legal` (it released
or wrote memory it does not own), and nothing is said about what follows. -/
inductive End where
  | done
  | threw
  | illegal
  deriving DecidableEq, Repr

/-- Does the call reach `allocate`?  `callocate` does so unless the product overflows
(static_heap.hpp:371-373). -/
def Act.allocates : Act → Bool
  | .alloc _ => true
  | .calloc k n => !mulWillOverflow k n
  | _ => false

/-- `on_fail`, static_heap.hpp:160-164: the function object stored so far is destroyed. -/
def St.setFail (s : St) (f : Option Nat) : St :=
  { w := { s.w with heap := s.w.heap.onFail f.isSome }, stored := f, inst := s.inst + 1,
    log := s.log ++ [.set f] }

/-- The function that a call that came to `p` invokes before it returns, static_heap.hpp:293. -/
def St.failing (s : St) (a : Act) (p : Nat) : Option Nat :=
  if a.allocates = true ∧ p = 0 then s.stored else none

/-- The state once the work of a call is done, before static_heap.hpp:293. -/
def St.worked (s : St) (a : Act) (w : World) : St :=
  { s with w := w, log := s.log ++ [.call a s.w.live] }

/-- The state with one more event in the log; no code of static_heap.hpp:166-301 belongs to it. -/
def St.note (s : St) (e : Ev) : St := { s with log := s.log ++ [e] }

/-- A read of something the running body captured: it lies in the function object `callback_`
(static_heap.hpp:534), which must not have been replaced. -/
def St.holds (s : St) : Option Nat → Bool
  | none => true
  | some i => i == s.inst

/-- Run code.  `fns` gives the body of each function, which may depend on all that happened; `me` is
the function object whose body this is (none: the program).  A call does its work; if it comes to
nothing and a function is stored, that is run (static_heap.hpp:293-295); after it `nullptr` is
returned (static_heap.hpp:300), by `callocate` too (static_heap.hpp:374-380), unless it has
thrown. -/
def exec (fns : Nat → List Ev → Prog) : Nat → Option Nat → Prog → St → Res (St × End)
  | 0, _, _, _ => .hang
  | _ + 1, _, .done, s => .ok (s, .done)
  | _ + 1, _, .throw, s => .ok (s, .threw)
  | fuel + 1, me, .look k, s => if s.holds me then exec fns fuel me k s else .ub
  | fuel + 1, me, .set f k, s => exec fns fuel me k (s.setFail f)
  | fuel + 1, me, .act a k, s =>
    if Legal s.w a.op then do
      let (w1, p) ← s.w.step a.op
      match s.failing a p with
      | none => exec fns fuel me (k (.ptr p)) ((s.worked a w1).note (.ret (.ptr p)))
      | some f => do
        let s1 := (s.worked a w1).note (.enter f)
        let (s2, e) ← exec fns fuel (some s1.inst) (fns f s1.log) s1
        match e with
        | .done => exec fns fuel me (k (.ptr p)) ((s2.note (.leave false)).note (.ret (.ptr p)))
        | .threw => exec fns fuel me (k .thrown) ((s2.note (.leave true)).note (.ret .thrown))
        | .illegal => .ok (s2, .illegal)
    else .ok (s, .illegal)

/-- The heap just constructed: `callback_` is empty (static_heap.hpp:534). -/
def St.start (h : Heap) : St := { w := .start h, stored := none, inst := 0, log := [] }

end Verif.Heap.Fail
