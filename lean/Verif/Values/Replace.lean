/-!
Functions of `values::observed` that are replaced while they run (`include/xitren/comm/values/observed.hpp`).

`function_` is a `std::function` member (observed.hpp:24, 84) and is invoked in place, not copied (observed.hpp:78-80).  `on_update`
(observed.hpp:35-39) destroys the function object stored so far, even while it runs; a function that uses what it captured after that
uses a destroyed object.  Every call of `on_update` therefore makes a new function object, numbered by `St.inst`, and `Prog.look` is the
step "the running function uses something it captured".

The functions are arbitrary programs that may update any observable (so that functions run inside functions, and the same function
inside itself), call `on_update` of any observed and read any observed.  Which observed objects are registered with which observable does
not change, all objects exist throughout and updates are made with `operator=` (observable.hpp:132-146, 378-392): registrations,
lifetimes and the other operators are in `World.lean`.  That `std::function` touches nothing of itself after the function has returned is
assumed of the library.
-/
namespace Verif.Values.Replace

/-- What the program and the functions do: they end, use something captured, call `o.on_update(f)` (observed.hpp:35-39; none: an empty
function), assign to an observable (observable.hpp:132-146, 378-392), or read an observed (observed.hpp:41-45). -/
inductive Prog where
  | done
  | look (k : Prog)
  | set (o : Nat) (f : Option Nat) (k : Prog)
  | upd (a : Nat) (v : Int) (k : Prog)
  | read (o : Nat) (k : Int → Prog)

/-- What happens, in order (observed.hpp:35-81, observable.hpp:132-146, 378-392). -/
inductive Ev where
  /-- `a = v` starts. -/
  | upd (a : Nat) (v : Int)
  /-- It returns. -/
  | ret (a : Nat)
  /-- `notification` of `o` with the value `v` starts. -/
  | told (o : Nat) (v : Int)
  /-- The function `f`, stored in `o`, is called with `v`. -/
  | enter (o f : Nat) (v : Int)
  /-- The function called last among those that run returns. -/
  | leave
  /-- `o.on_update(f)`. -/
  | set (o : Nat) (f : Option Nat)
  /-- The code that runs uses something it captured. -/
  | look
  /-- `o.value()` returns `v`. -/
  | read (o : Nat) (v : Int)
  deriving DecidableEq, Repr

/-- A function changed in one place (no code). -/
def put {β : Type} (f : Nat → β) (i : Nat) (x : β) : Nat → β := fun j => if j = i then x else f j

/-- The value of each observed (observed.hpp:23), the number of the function in its `function_` (observed.hpp:84), which function
object that is, and what happened so far. -/
structure St where
  held : Nat → Int
  stored : Nat → Option Nat
  inst : Nat → Nat
  log : List Ev

/-- How it ends: it comes to an end, a destroyed function object is used (at this point), or the fuel was too little. -/
inductive Out where
  | ok (s : St)
  | bad (s : St)
  | deep

/-- Go on if it came to an end (no code). -/
def Out.andThen (x : Out) (k : St → Out) : Out :=
  match x with
  | .ok s => k s
  | .bad s => .bad s
  | .deep => .deep

/-- One more event (no code). -/
def St.note (s : St) (e : Ev) : St := { s with log := s.log ++ [e] }

/-- `on_update` (observed.hpp:35-39). -/
def St.onUpdate (s : St) (o : Nat) (f : Option Nat) : St :=
  { s with stored := put s.stored o f, inst := put s.inst o (s.inst o + 1), log := s.log ++ [.set o f] }

/-- The store in `data` (observed.hpp:77). -/
def St.store (s : St) (o : Nat) (v : Int) : St :=
  { s with held := put s.held o v, log := s.log ++ [.told o v] }

/-- Is the function object that runs (none: the program, whose variables stay) still there (observed.hpp:38, 79)? -/
def St.there (s : St) : Option (Nat × Nat) → Bool
  | none => true
  | some (o, i) => s.inst o == i

mutual
/-- Run code; `fns` gives the body of each function for the value it is called with and may depend on all that happened; `regs` says who is
registered with each observable, `me` which function object the code belongs to. -/
def exec (fns : Nat → Int → List Ev → Prog) (regs : Nat → List Nat) : Nat → Option (Nat × Nat) → Prog → St → Out
  | 0, _, _, _ => .deep
  | _ + 1, _, .done, s => .ok s
  | n + 1, me, .look k, s => if s.there me then exec fns regs n me k (s.note .look) else .bad (s.note .look)
  | n + 1, me, .set o f k, s => exec fns regs n me k (s.onUpdate o f)
  | n + 1, me, .upd a v k, s =>
    (round fns regs n v (regs a) (s.note (.upd a v))).andThen fun t => exec fns regs n me k (t.note (.ret a))
  | n + 1, me, .read o k, s => exec fns regs n me (k (s.held o)) (s.note (.read o (s.held o)))

/-- The loop of `notify_observers` (observable.hpp:235-237, 475-477) with `notification` and `data` (observed.hpp:58-62, 74-81). -/
def round (fns : Nat → Int → List Ev → Prog) (regs : Nat → List Nat) : Nat → Int → List Nat → St → Out
  | 0, _, _, _ => .deep
  | _ + 1, _, [], s => .ok s
  | n + 1, v, o :: os, s =>
    let s1 := s.store o v
    match s1.stored o with
    | none => round fns regs n v os s1
    | some f =>
      let s2 := s1.note (.enter o f v)
      (exec fns regs n (some (o, s2.inst o)) (fns f v s2.log) s2).andThen fun t => round fns regs n v os (t.note .leave)
end

/-- All objects are new: the values are zero and no function is stored (observed.hpp:27, 84). -/
def St.start : St := ⟨fun _ => 0, fun _ => none, fun _ => 0, []⟩

end Verif.Values.Replace
