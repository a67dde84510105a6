import Verif.Observer.Dynamic
/-!
Model of `observable<T, false>` (observer.hpp:200-344) where the mutex is compiled out, with callbacks that call
back into the object (one thread).  This is the build with glibc, where `PTHREAD_MUTEX_DEFAULT` is an enumerator and
no macro.

`observers_` is a `std::vector` that `notify_observers` and `clear_observers` walk with a range-based `for`: the
iterators `begin()` and `end()` are taken when the loop starts.  `gen` counts the operations that invalidate the
past-the-end iterator of the vector: a `push_back`, an `erase` that erases something, `clear`.  A loop that goes on
with iterators taken before such an operation is undefined.  The model follows the standard here; a `push_back` that
does not reallocate happens to work in practice.

The user's functions are arbitrary programs of calls that read and write a user state.  Exceptions thrown by the
member functions are results that the program sees; a program that does not catch them (`std::terminate`, as
`notification` is `noexcept`) is outside the model, as are exceptions of its own.  There is no protection against
recursion, so the interpreter takes fuel; running out of it is the outcome `hang`.
-/
namespace Verif.Observer.Cb
open Verif

/-- Observable events (observer.hpp:39-43, 50-52). -/
inductive Ev (V : Type) where
  /-- `data(src, v)` of observer `o` starts. -/
  | enter (src o : Nat) (v : V)
  /-- `disconnect(src)` of observer `o` starts. -/
  | disc (src o : Nat)
  /-- `data` or `disconnect` of observer `o` returns. -/
  | leave (o : Nat)
  /-- A member function returns or throws. -/
  | ret (op : Op V) (e : Err)
  deriving DecidableEq, Repr

/-- The object (observer.hpp:321), its address, the number of invalidations, the user state and the log. -/
structure St (V U : Type) where
  self : Nat
  obs : List Nat
  gen : Nat
  user : U
  log : List (Ev V)
  deriving DecidableEq, Repr

variable {V U : Type}

/-- A new object (observer.hpp:239). -/
def St.new (self : Nat) (u : U) : St V U := ⟨self, [], 0, u, []⟩

/-- Record an event (no code). -/
def St.emit (s : St V U) (e : Ev V) : St V U := { s with log := s.log ++ [e] }

/-- What a call returns (observer.hpp:254-318). -/
abbrev Ex (V U : Type) := St V U → Op V → Res (St V U × Err)

/-- `add_observer` (observer.hpp:254-265). -/
def add (s : St V U) (o : Nat) : St V U × Err :=
  if !Dyn.scan o s.obs then ({ s with obs := s.obs ++ [o], gen := s.gen + 1 }, .ok) else (s, .alreadyContains)

/-- `remove_observer` (observer.hpp:275-284). -/
def remove (s : St V U) (o : Nat) : St V U × Err :=
  let rest := Dyn.erase o s.obs
  if s.obs.length - rest.length = 0 then (s, .notFound)
  else ({ s with obs := rest, gen := s.gen + 1 }, .ok)

/-- Running a user program; `ex` runs a call into the observable (overrides of observer.hpp:50-52, 61-63). -/
def runProg (ex : Ex V U) : Prog V U → St V U → Res (St V U)
  | .ret u, s => .ok { s with user := u }
  | .set u k, s => runProg ex k { s with user := u }
  | .call op k, s => do
    let r ← ex s op
    runProg ex (k r.2 r.1.user) r.1

/-- A callback from its start to its end (observer.hpp:39-43, 50-52). -/
def callback (ex : Ex V U) (e : Ev V) (p : U → Prog V U) (o : Nat) (s : St V U) : Res (St V U) := do
  let s ← runProg ex (p s.user) (s.emit e)
  .ok (s.emit (.leave o))

/-- Reading through an iterator of the loop (observer.hpp:295-296, 315-316). -/
def deref (s : St V U) (i : Nat) : Res Nat :=
  match s.obs[i]? with
  | some o => .ok o
  | none => .ub

/-- The loop of `notify_observers` (observer.hpp:315-317) and that of `clear_observers` (observer.hpp:295-297) with
iterators taken when `gen` was `g`.  `i` is the position, the `Nat` argument the distance to the end. -/
def loop (ex : Ex V U) (e : St V U → Nat → Ev V) (p : Nat → U → Prog V U) (g i : Nat) : Nat → St V U → Res (St V U)
  | 0, s => if s.gen = g then .ok s else .ub
  | left + 1, s =>
    if s.gen = g then do
      let o ← deref s i
      let s ← callback ex (e s o) (p o) o s
      loop ex e p g (i + 1) left s
    else .ub

/-- `notify_observers` (observer.hpp:309-318). -/
def notify (ex : Ex V U) (H : Handlers V U) (s : St V U) (v : V) : Res (St V U × Err) := do
  let s ← loop ex (fun s o => .enter s.self o v) (fun o u => H.data u o v) s.gen 0 s.obs.length s
  .ok (s, .ok)

/-- `clear_observers` (observer.hpp:289-299); the destructor (observer.hpp:244) is the same. -/
def clear (ex : Ex V U) (H : Handlers V U) (s : St V U) : Res (St V U × Err) := do
  let s ← loop ex (fun s o => .disc s.self o) (fun o u => H.disconnect u o) s.gen 0 s.obs.length s
  .ok ({ s with obs := [], gen := s.gen + 1 }, .ok)

/-- The member functions (observer.hpp:254-318). -/
def body (ex : Ex V U) (H : Handlers V U) (s : St V U) : Op V → Res (St V U × Err)
  | .add o => .ok (Cb.add s o)
  | .remove o => .ok (Cb.remove s o)
  | .clear => Cb.clear ex H s
  | .notify v => Cb.notify ex H s v

/-- One call and the record of its result (observer.hpp:254-318). -/
def execStep (ex : Ex V U) (H : Handlers V U) (s : St V U) (op : Op V) : Res (St V U × Err) := do
  let r ← body ex H s op
  .ok (r.1.emit (.ret op r.2), r.2)

/-- A call with fewer than `n` levels of nested calls (observer.hpp:254-318). -/
def exec (H : Handlers V U) : Nat → Ex V U
  | 0, _, _ => .hang
  | n + 1, s, op => execStep (exec H n) H s op

/-- States reachable from a new object by calls from outside, between which the user state may change
arbitrarily. -/
inductive Reach (H : Handlers V U) : St V U → Prop
  | new (self : Nat) (u : U) : Reach H (St.new self u)
  | call (s s' : St V U) (n : Nat) (op : Op V) (e : Err) :
      Reach H s → exec H n s op = .ok (s', e) → Reach H s'
  | user (s : St V U) (u : U) : Reach H s → Reach H { s with user := u }

/-! ### Specification vocabulary: functions of the log -/

/-- Effect of an event on the registered observers. -/
def regEv (l : List Nat) : Ev V → List Nat
  | .ret op _ => Dyn.next l op
  | _ => l

/-- The observers registered after a log. -/
def regs (log : List (Ev V)) : List Nat := log.foldl regEv []

/-- Effect of an event on the number of callbacks in progress. -/
def depthEv (d : Int) : Ev V → Int
  | .enter _ _ _ => d + 1
  | .disc _ _ => d + 1
  | .leave _ => d - 1
  | .ret _ _ => d

/-- Number of callbacks in progress after a log. -/
def depth (log : List (Ev V)) : Int := log.foldl depthEv 0

/-- The callbacks begun in a log outside of any callback, in order; `d` callbacks are running at its start. -/
def top : Nat → List (Ev V) → List (Ev V)
  | _, [] => []
  | d, .enter s o v :: es => if d = 0 then .enter s o v :: top (d + 1) es else top (d + 1) es
  | d, .disc s o :: es => if d = 0 then .disc s o :: top (d + 1) es else top (d + 1) es
  | d, .leave _ :: es => top (d - 1) es
  | d, .ret _ _ :: es => top d es

/-! ### Lemmas about logs -/

theorem regs_append (a b : List (Ev V)) : regs (a ++ b) = b.foldl regEv (regs a) := by
  simp [regs, List.foldl_append]

theorem depth_from (b : List (Ev V)) (d : Int) : b.foldl depthEv d = d + b.foldl depthEv 0 := by
  induction b generalizing d with
  | nil => simp
  | cons e b ih =>
    simp only [List.foldl_cons]
    rw [ih (depthEv d e), ih (depthEv 0 e)]
    cases e <;> simp only [depthEv] <;> omega

theorem depth_append (a b : List (Ev V)) : depth (a ++ b) = depth a + depth b := by
  simp only [depth, List.foldl_append]
  exact depth_from b _

/-- The calls that returned while at least one callback begun in `new` was running left the registered observers as
they were; `l` is registered before. -/
def Quiet (l : List Nat) (new : List (Ev V)) : Prop :=
  ∀ pre op e post, new = pre ++ .ret op e :: post → 0 < depth pre →
    Dyn.next (pre.foldl regEv l) op = pre.foldl regEv l

/-- No call changed the registered observers. -/
def Still (l : List Nat) (new : List (Ev V)) : Prop :=
  ∀ pre op e post, new = pre ++ .ret op e :: post → Dyn.next (pre.foldl regEv l) op = pre.foldl regEv l

theorem Still.regs {l : List Nat} {new : List (Ev V)} (h : Still l new) : new.foldl regEv l = l := by
  induction new generalizing l with
  | nil => rfl
  | cons e new ih =>
    have he : regEv l e = l := by
      cases e with
      | ret op r => exact h [] op r new rfl
      | _ => rfl
    rw [List.foldl_cons, he]
    refine ih fun pre op r post hp => ?_
    have := h (e :: pre) op r post (by rw [hp]; rfl)
    rwa [List.foldl_cons, he] at this

theorem Still.append {l : List Nat} {a b : List (Ev V)} (ha : Still l a) (hb : Still l b) : Still l (a ++ b) := by
  intro pre op e post h
  rcases List.append_eq_append_iff.1 h with ⟨c, h1, h2⟩ | ⟨c, h1, h2⟩
  · rw [h1, List.foldl_append, ha.regs]
    exact hb c op e post h2
  · cases c with
    | nil =>
      simp only [List.append_nil, List.nil_append] at h1 h2
      rw [← h1, ha.regs]
      exact hb [] op e post h2.symm
    | cons x c =>
      simp only [List.cons_append, List.cons.injEq] at h2
      obtain ⟨rfl, _⟩ := h2
      exact ha pre op e c h1

theorem Still.quiet {l : List Nat} {a : List (Ev V)} (h : Still l a) : Quiet l a :=
  fun pre op e post hp _ => h pre op e post hp

theorem Still.single {l : List Nat} {e : Ev V} (h : regEv l e = l) : Still l [e] := by
  intro pre op r post hp
  cases pre with
  | nil =>
    simp only [List.nil_append, List.cons.injEq] at hp
    obtain ⟨rfl, _⟩ := hp
    exact h
  | cons x pre => simp at hp

/-- A call that returns at depth 0 may change the registered observers. -/
theorem Quiet.ret {l : List Nat} {a : List (Ev V)} (h : Quiet l a) (hd : depth a = 0) (op : Op V) (e : Err) :
    Quiet l (a ++ [.ret op e]) := by
  intro pre op' e' post hp hpos
  rcases List.append_eq_append_iff.1 hp with ⟨c, h1, h2⟩ | ⟨c, h1, h2⟩
  · cases c with
    | nil =>
      rw [h1, List.append_nil] at hpos
      omega
    | cons x c => simp at h2
  · cases c with
    | nil =>
      rw [List.append_nil] at h1
      rw [← h1] at hpos
      omega
    | cons x c =>
      simp only [List.cons_append, List.cons.injEq] at h2
      obtain ⟨rfl, _⟩ := h2
      exact h pre op' e' c h1 hpos

theorem Quiet.append {l : List Nat} {a b : List (Ev V)} (ha : Quiet l a) (hd : depth a = 0)
    (hb : Quiet (a.foldl regEv l) b) : Quiet l (a ++ b) := by
  intro pre op e post hp hpos
  rcases List.append_eq_append_iff.1 hp with ⟨c, h1, h2⟩ | ⟨c, h1, h2⟩
  · rw [h1, depth_append, hd] at hpos
    rw [h1, List.foldl_append]
    exact hb c op e post h2 (by omega)
  · cases c with
    | nil =>
      rw [List.append_nil] at h1
      rw [← h1] at hpos
      omega
    | cons x c =>
      simp only [List.cons_append, List.cons.injEq] at h2
      obtain ⟨rfl, _⟩ := h2
      exact ha pre op e c h1 hpos

end Verif.Observer.Cb
