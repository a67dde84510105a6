import Verif.Observer.Dynamic
/-!
`observable<T, false>` (observer.hpp:200-344) used by any number of threads: small-step model and
properties C40 and C41.

The mutex is declared and locked only `#ifdef PTHREAD_MUTEX_DEFAULT` (observer.hpp:257-259, 278-280,
292-294, 312-314, 322-324), so the model has a parameter `lk` that says whether that name is a macro.
On Linux with glibc it is an enumerator of `<pthread.h>`, not a macro, and the code has no mutex.

Any thread may call any function at any time and any callback may call any function, so the runs of
the system include those of every program.  A thread is a stack of calls; there is more than one only
inside callbacks.  `std::mutex` is not recursive: locking it again is modelled as waiting for it to
become free.

Without the mutex, concurrent accesses of the vector are data races; the model then lets the steps
interleave, which is enough to refute C40 and C41 for that configuration.
-/
namespace Verif.Observer.Conc
open Verif Verif.Observer

variable {V : Type}

/-- Where a call is (observer.hpp:254-318). -/
inductive Pc where
  /-- At the construction of `unique_lock`. -/
  | enter
  /-- After it, before reading the vector. -/
  | check
  /-- Before `push_back` (observer.hpp:261). -/
  | push
  /-- At the test of the range-for loop, `i` elements done. -/
  | scan (i : Nat)
  /-- Inside the callback of element `i`, which is observer `o`. -/
  | inside (i o : Nat)
  /-- About to leave (unlock, then return or throw) with this result. -/
  | finish (r : Err)
  deriving DecidableEq, Repr

/-- A call in progress (observer.hpp:254-318). -/
structure Frame (V : Type) where
  op : Op V
  pc : Pc
  deriving DecidableEq, Repr

/-- The object, its mutex (the thread holding it), the threads' stacks, the log of callbacks and
results with the thread that made them, and for each thread the calls it has seen return (observer.hpp:320-343). -/
structure Sys (V : Type) where
  self : Nat
  obs : List Nat
  lock : Option Nat
  stk : Nat → List (Frame V)
  log : List (Nat × Ev V)
  done : Nat → List (Op V × Err)

/-- A new object; every thread is idle (observer.hpp:239). -/
def Sys.new (self : Nat) : Sys V := ⟨self, [], none, fun _ => [], [], fun _ => []⟩

/-- Replace the entry of `t` (no code). -/
def upd {α : Type} (f : Nat → α) (t : Nat) (x : α) : Nat → α := fun u => if u = t then x else f u

/-- The first step of a body (observer.hpp:254-318). -/
def start : Op V → Pc
  | .add _ => .check
  | .remove _ => .check
  | .clear => .scan 0
  | .notify _ => .scan 0

/-- One step of thread `t` (observer.hpp:254-318). -/
inductive Step (lk : Bool) (t : Nat) : Sys V → Sys V → Prop
  /-- An idle thread calls a member function. -/
  | invoke (s : Sys V) (op : Op V) : s.stk t = [] →
      Step lk t s { s with stk := upd s.stk t [⟨op, .enter⟩] }
  /-- A running callback calls a member function. -/
  | nested (s : Sys V) (op f : Op V) (i o : Nat) (rest : List (Frame V)) :
      s.stk t = ⟨f, .inside i o⟩ :: rest →
      Step lk t s { s with stk := upd s.stk t (⟨op, .enter⟩ :: ⟨f, .inside i o⟩ :: rest) }
  /-- `std::unique_lock<std::mutex> lock(access_)`, if it is there. -/
  | acquire (s : Sys V) (op : Op V) (rest : List (Frame V)) :
      s.stk t = ⟨op, .enter⟩ :: rest → (lk = true → s.lock = none) →
      Step lk t s { s with
        stk := upd s.stk t (⟨op, start op⟩ :: rest)
        lock := if lk then some t else s.lock }
  /-- `if (!contains(observer))` (observer.hpp:260). -/
  | check (s : Sys V) (o : Nat) (rest : List (Frame V)) : s.stk t = ⟨.add o, .check⟩ :: rest →
      Step lk t s { s with
        stk := upd s.stk t
          (⟨.add o, if !Dyn.scan o s.obs then .push else .finish .alreadyContains⟩ :: rest) }
  /-- `observers_.push_back(&observer)` (observer.hpp:261). -/
  | push (s : Sys V) (o : Nat) (rest : List (Frame V)) : s.stk t = ⟨.add o, .push⟩ :: rest →
      Step lk t s { s with
        stk := upd s.stk t (⟨.add o, .finish .ok⟩ :: rest)
        obs := s.obs ++ [o] }
  /-- `if (!std::erase(observers_, &observer)) throw` (observer.hpp:281-283). -/
  | erase (s : Sys V) (o : Nat) (rest : List (Frame V)) : s.stk t = ⟨.remove o, .check⟩ :: rest →
      Step lk t s { s with
        stk := upd s.stk t (⟨.remove o,
          .finish (if s.obs.length - (Dyn.erase o s.obs).length = 0 then .notFound else .ok)⟩ :: rest)
        obs := Dyn.erase o s.obs }
  /-- `item->notification(this, n)` starts (observer.hpp:316). -/
  | visit (s : Sys V) (v : V) (i o : Nat) (rest : List (Frame V)) :
      s.stk t = ⟨.notify v, .scan i⟩ :: rest → s.obs[i]? = some o →
      Step lk t s { s with
        stk := upd s.stk t (⟨.notify v, .inside i o⟩ :: rest)
        log := s.log ++ [(t, .enter s.self o v)] }
  /-- It returns. -/
  | leave (s : Sys V) (v : V) (i o : Nat) (rest : List (Frame V)) :
      s.stk t = ⟨.notify v, .inside i o⟩ :: rest →
      Step lk t s { s with
        stk := upd s.stk t (⟨.notify v, .scan (i + 1)⟩ :: rest)
        log := s.log ++ [(t, .leave o)] }
  /-- The loop of `notify_observers` ends. -/
  | last (s : Sys V) (v : V) (i : Nat) (rest : List (Frame V)) :
      s.stk t = ⟨.notify v, .scan i⟩ :: rest → s.obs.length ≤ i →
      Step lk t s { s with stk := upd s.stk t (⟨.notify v, .finish .ok⟩ :: rest) }
  /-- `item->disconnect(this)` starts (observer.hpp:296). -/
  | disc (s : Sys V) (i o : Nat) (rest : List (Frame V)) :
      s.stk t = ⟨.clear, .scan i⟩ :: rest → s.obs[i]? = some o →
      Step lk t s { s with
        stk := upd s.stk t (⟨.clear, .inside i o⟩ :: rest)
        log := s.log ++ [(t, .disc s.self o)] }
  /-- It returns. -/
  | discEnd (s : Sys V) (i o : Nat) (rest : List (Frame V)) :
      s.stk t = ⟨.clear, .inside i o⟩ :: rest →
      Step lk t s { s with stk := upd s.stk t (⟨.clear, .scan (i + 1)⟩ :: rest) }
  /-- The loop of `clear_observers` ends, and `observers_.clear()` (observer.hpp:298). -/
  | empty (s : Sys V) (i : Nat) (rest : List (Frame V)) :
      s.stk t = ⟨.clear, .scan i⟩ :: rest → s.obs.length ≤ i →
      Step lk t s { s with
        stk := upd s.stk t (⟨.clear, .finish .ok⟩ :: rest)
        obs := [] }
  /-- The destructor of `unique_lock`, and the call returns or throws. -/
  | finish (s : Sys V) (op : Op V) (r : Err) (rest : List (Frame V)) :
      s.stk t = ⟨op, .finish r⟩ :: rest →
      Step lk t s { s with
        stk := upd s.stk t rest
        lock := if lk then none else s.lock
        log := s.log ++ [(t, .ret op r)]
        done := upd s.done t (s.done t ++ [(op, r)]) }

/-- `s'` can be reached from `s` by steps of any threads in any order. -/
inductive Steps (lk : Bool) : Sys V → Sys V → Prop
  | refl (s : Sys V) : Steps lk s s
  | step (s s' s'' : Sys V) (t : Nat) : Steps lk s s' → Step lk t s' s'' → Steps lk s s''

/-- Reachable from a new object. -/
def Reach (lk : Bool) (s : Sys V) : Prop := Steps lk (Sys.new s.self) s

/-! ### Serial execution -/

/-- The calls that have returned, in order, with their threads. -/
def calls (log : List (Nat × Ev V)) : List (Nat × Op V) :=
  log.filterMap fun e => match e.2 with
    | .ret op _ => some (e.1, op)
    | _ => none

/-- What thread `t` has seen returning. -/
def returns (t : Nat) (log : List (Nat × Ev V)) : List (Op V × Err) :=
  log.filterMap fun e => match e.2 with
    | .ret op r => if e.1 = t then some (op, r) else none
    | _ => none

/-- One call of the sequential object; the events it adds to the log are tagged with the thread. -/
def serialStep (d : Dyn V × List (Nat × Ev V)) (c : Nat × Op V) : Dyn V × List (Nat × Ev V) :=
  let d' := (d.1.call c.2).1
  (d', d.2 ++ (d'.log.drop d.1.log.length).map fun e => (c.1, e))

/-- The calls of a list executed one at a time on a new object: the object and the tagged log. -/
def serial (self : Nat) (cs : List (Nat × Op V)) : Dyn V × List (Nat × Ev V) :=
  cs.foldl serialStep (Dyn.new self, [])

/-! ### Invariant -/

theorem serial_snoc (self : Nat) (cs : List (Nat × Op V)) (t : Nat) (op : Op V) :
    (serial self (cs ++ [(t, op)])).1.obs = Dyn.next (serial self cs).1.obs op ∧
    (serial self (cs ++ [(t, op)])).1.self = (serial self cs).1.self ∧
    (serial self (cs ++ [(t, op)])).2 = (serial self cs).2 ++
      (Dyn.callbacks (serial self cs).1.self (serial self cs).1.obs op ++
        [Ev.ret op (Dyn.result (serial self cs).1.obs op)]).map (fun e => (t, e)) := by
  simp only [serial, List.foldl_append, List.foldl_cons, List.foldl_nil]
  generalize List.foldl serialStep (Dyn.new self, []) cs = d
  simp only [serialStep, Dyn.call_eq, List.drop_left, and_self]

theorem serial_self (self : Nat) (cs : List (Nat × Op V)) : (serial self cs).1.self = self := by
  suffices h : ∀ d : Dyn V × List (Nat × Ev V), (cs.foldl serialStep d).1.self = d.1.self from
    h (Dyn.new self, [])
  induction cs with
  | nil => intro d; rfl
  | cons c cs ih =>
    intro d
    rw [List.foldl_cons, ih]
    simp only [serialStep, Dyn.call_eq]

/-- How far the running call is: `l` is the list when it started, `ext` what it has logged. -/
def Running (self : Nat) (l obs : List Nat) (ext : List (Ev V)) : Op V → Pc → Prop
  | .add _, .check => obs = l ∧ ext = []
  | .add o, .push => obs = l ∧ ext = [] ∧ o ∉ l
  | .remove _, .check => obs = l ∧ ext = []
  | .notify v, .scan i => obs = l ∧ ext = Dyn.callbacks self (l.take i) (.notify v)
  | .notify v, .inside i o => obs = l ∧ l[i]? = some o ∧
      ext = Dyn.callbacks self (l.take i) (.notify v) ++ [.enter self o v]
  | .clear, .scan i => obs = l ∧ ext = Dyn.callbacks self (l.take i) (.clear : Op V)
  | .clear, .inside i o => obs = l ∧ l[i]? = some o ∧
      ext = Dyn.callbacks self (l.take i) (.clear : Op V) ++ [.disc self o]
  | op, .finish r => obs = Dyn.next l op ∧ ext = Dyn.callbacks self l op ∧ r = Dyn.result l op
  | _, _ => False

/-- A thread that is not inside a body. -/
def Outside (st : List (Frame V)) : Prop := st = [] ∨ ∃ op, st = [⟨op, .enter⟩]

/-- The thread inside a body: possibly waiting in a nested call. -/
def Within (self : Nat) (l obs : List Nat) (ext : List (Ev V)) (st : List (Frame V)) : Prop :=
  ∃ op pc, Running self l obs ext op pc ∧
    (st = [⟨op, pc⟩] ∨ ∃ op' i o, pc = .inside i o ∧ st = [⟨op', .enter⟩, ⟨op, pc⟩])

structure Inv (s : Sys V) : Prop where
  done : ∀ t, returns t s.log = s.done t
  free : s.lock = none → s.obs = (serial s.self (calls s.log)).1.obs ∧
    s.log = (serial s.self (calls s.log)).2 ∧ ∀ t, Outside (s.stk t)
  held : ∀ t, s.lock = some t → (∀ u, u ≠ t → Outside (s.stk u)) ∧
    ∃ ext, s.log = (serial s.self (calls s.log)).2 ++ ext.map (fun e => (t, e)) ∧
      Within s.self (serial s.self (calls s.log)).1.obs s.obs ext (s.stk t)

theorem returns_append (t : Nat) (l m : List (Nat × Ev V)) :
    returns t (l ++ m) = returns t l ++ returns t m := by simp [returns]

theorem calls_append (l m : List (Nat × Ev V)) : calls (l ++ m) = calls l ++ calls m := by
  simp [calls]

theorem upd_same {α : Type} (f : Nat → α) (t : Nat) (x : α) : upd f t x t = x := by simp [upd]

theorem upd_other {α : Type} (f : Nat → α) {t u : Nat} (x : α) (h : u ≠ t) : upd f t x u = f u := by
  simp [upd, h]

/-- A thread whose stack starts with a frame that is not waiting holds the lock. -/
theorem Inv.holds {s : Sys V} (h : Inv s) {t : Nat} {op : Op V} {pc : Pc} {rest : List (Frame V)}
    (hs : s.stk t = ⟨op, pc⟩ :: rest) (hpc : pc ≠ .enter) :
    s.lock = some t ∧ rest = [] ∧ (∀ u, u ≠ t → Outside (s.stk u)) ∧
    ∃ ext, s.log = (serial s.self (calls s.log)).2 ++ ext.map (fun e => (t, e)) ∧
      Running s.self (serial s.self (calls s.log)).1.obs s.obs ext op pc := by
  have hno : ¬ Outside (s.stk t) := by
    rw [hs]
    rintro (h | ⟨op', h⟩)
    · exact absurd h (by simp)
    · simp only [List.cons.injEq, Frame.mk.injEq] at h
      exact hpc h.1.2
  cases hl : s.lock with
  | none => exact absurd ((h.free hl).2.2 t) hno
  | some u =>
    have hh := h.held u hl
    by_cases hu : t = u
    · subst hu
      obtain ⟨h1, ext, h2, op', pc', h3, h4⟩ := hh
      rw [hs] at h4
      rcases h4 with h4 | ⟨op'', i, o, h5, h4⟩
      · simp only [List.cons.injEq, Frame.mk.injEq] at h4
        obtain ⟨⟨rfl, rfl⟩, rfl⟩ := h4
        exact ⟨rfl, rfl, h1, ext, h2, h3⟩
      · simp only [List.cons.injEq, Frame.mk.injEq] at h4
        exact absurd h4.1.2 hpc
    · exact absurd (hh.1 t hu) hno

/-- A step of the running call that neither returns nor changes the lock. -/
theorem Inv.advance {s : Sys V} (h : Inv s) {t : Nat} {op : Op V} {pc pc' : Pc}
    {rest : List (Frame V)} (hs : s.stk t = ⟨op, pc⟩ :: rest) (hpc : pc ≠ .enter)
    (obs' : List Nat) (new : List (Ev V)) (hnew : calls (new.map fun e => (t, e)) = [])
    (hret : ∀ u, returns u (new.map fun e => (t, e)) = [])
    (hrun : ∀ l ext, Running s.self l s.obs ext op pc → Running s.self l obs' (ext ++ new) op pc') :
    Inv { s with
      stk := upd s.stk t (⟨op, pc'⟩ :: rest)
      obs := obs'
      log := s.log ++ new.map fun e => (t, e) } := by
  obtain ⟨h1, h2, h3, ext, h4, h5⟩ := h.holds hs hpc
  subst h2
  refine ⟨?_, ?_, ?_⟩
  · intro u
    show returns u (s.log ++ _) = s.done u
    rw [returns_append, hret, List.append_nil, h.done]
  · intro hl
    exact absurd (hl.symm.trans h1) (by simp)
  · intro u hl
    have hu : u = t := by
      have : some u = some t := hl.symm.trans h1
      exact Option.some.inj this
    subst hu
    refine ⟨?_, ext ++ new, ?_, op, pc', ?_, ?_⟩
    · intro w hw
      show Outside (upd s.stk u _ w)
      rw [upd_other _ _ hw]
      exact h3 w hw
    · show s.log ++ _ = (serial s.self (calls (s.log ++ _))).2 ++ _
      rw [calls_append, hnew, List.append_nil, List.map_append, ← List.append_assoc, ← h4]
    · show Running s.self (serial s.self (calls (s.log ++ _))).1.obs obs' _ op pc'
      rw [calls_append, hnew, List.append_nil]
      exact hrun _ _ h5
    · left
      show upd s.stk u _ u = _
      rw [upd_same]

theorem take_callbacks_notify (self : Nat) (l : List Nat) (v : V) {i o : Nat} (h : l[i]? = some o) :
    Dyn.callbacks self (l.take (i + 1)) (.notify v) =
      Dyn.callbacks self (l.take i) (.notify v) ++ [.enter self o v, .leave o] := by
  rw [List.take_add_one, h]
  simp [Dyn.callbacks]

theorem take_callbacks_clear (self : Nat) (l : List Nat) {i o : Nat} (h : l[i]? = some o) :
    Dyn.callbacks self (l.take (i + 1)) (.clear : Op V) =
      Dyn.callbacks self (l.take i) (.clear : Op V) ++ [.disc self o] := by
  rw [List.take_add_one, h]
  simp [Dyn.callbacks]

theorem inv_step {s s' : Sys V} {t : Nat} (h : Inv s) (hs : Step true t s s') : Inv s' := by
  cases hs with
  | invoke op hst =>
    have hout : ∀ u, Outside (s.stk u) → Outside (upd s.stk t [⟨op, .enter⟩] u) := by
      intro u hu
      by_cases hut : u = t
      · subst hut
        rw [upd_same]
        exact .inr ⟨op, rfl⟩
      · rw [upd_other _ _ hut]
        exact hu
    refine ⟨h.done, ?_, ?_⟩
    · intro hl
      obtain ⟨h1, h2, h3⟩ := h.free hl
      exact ⟨h1, h2, fun u => hout u (h3 u)⟩
    · intro u hl
      obtain ⟨h1, ext, h2, h3⟩ := h.held u hl
      refine ⟨fun w hw => hout w (h1 w hw), ext, h2, ?_⟩
      have hut : u ≠ t := by
        intro hut
        subst hut
        rw [hst] at h3
        obtain ⟨_, _, _, h4 | ⟨_, _, _, _, h4⟩⟩ := h3 <;> exact absurd h4 (by simp)
      show Within _ _ _ _ (upd s.stk t _ u)
      rw [upd_other _ _ hut]
      exact h3
  | nested op f i o rest hst =>
    obtain ⟨h1, h2, h3, ext, h4, h5⟩ := h.holds hst (by simp)
    subst h2
    refine ⟨h.done, ?_, ?_⟩
    · intro hl
      exact absurd (hl.symm.trans h1) (by simp)
    · intro u hl
      have hu : u = t := Option.some.inj (hl.symm.trans h1)
      subst hu
      refine ⟨?_, ext, h4, f, .inside i o, h5, .inr ⟨op, i, o, rfl, ?_⟩⟩
      · intro w hw
        show Outside (upd s.stk u _ w)
        rw [upd_other _ _ hw]
        exact h3 w hw
      · show upd s.stk u _ u = _
        rw [upd_same]
  | acquire op rest hst hl =>
    obtain ⟨h1, h2, h3⟩ := h.free (hl rfl)
    have hrest : rest = [] := by
      have := h3 t
      rw [hst] at this
      rcases this with h | ⟨op', h⟩
      · exact absurd h (by simp)
      · simp only [List.cons.injEq] at h
        exact h.2
    subst hrest
    refine ⟨h.done, ?_, ?_⟩
    · intro h'
      exact absurd h' (by simp)
    · intro u h'
      have hu : t = u := by simpa using h'
      subst hu
      refine ⟨?_, [], ?_, op, start op, ?_, ?_⟩
      · intro w hw
        show Outside (upd s.stk t _ w)
        rw [upd_other _ _ hw]
        exact h3 w
      · show s.log = (serial s.self (calls s.log)).2 ++ _
        rw [← h2]
        simp
      · show Running s.self (serial s.self (calls s.log)).1.obs s.obs [] op (start op)
        rw [← h1]
        cases op <;> simp [start, Running, Dyn.callbacks]
      · left
        show upd s.stk t _ t = _
        rw [upd_same]
  | check o rest hst =>
    have := h.advance hst (by simp) s.obs [] rfl (fun _ => rfl)
      (pc' := if !Dyn.scan o s.obs then .push else .finish .alreadyContains) (by
        intro l ext hr
        obtain ⟨hr1, hr2⟩ := hr
        subst hr1 hr2
        by_cases ho : o ∈ s.obs
        · rw [(Dyn.scan_iff o s.obs).2 ho]
          simp [Running, Dyn.next, Dyn.result, Dyn.callbacks, ho]
        · have : Dyn.scan o s.obs = false := by
            cases hsc : Dyn.scan o s.obs
            · rfl
            · exact absurd ((Dyn.scan_iff o s.obs).1 hsc) ho
          rw [this]
          simp [Running, ho])
    simpa using this
  | push o rest hst =>
    have := h.advance hst (by simp) (s.obs ++ [o]) [] rfl (fun _ => rfl) (pc' := .finish .ok) (by
        intro l ext hr
        obtain ⟨hr1, hr2, hr3⟩ := hr
        subst hr1 hr2
        simp [Running, Dyn.next, Dyn.result, Dyn.callbacks, hr3])
    simpa using this
  | erase o rest hst =>
    have := h.advance hst (by simp) (Dyn.erase o s.obs) [] rfl (fun _ => rfl)
      (pc' := .finish (if s.obs.length - (Dyn.erase o s.obs).length = 0 then .notFound else .ok)) (by
        intro l ext hr
        obtain ⟨hr1, hr2⟩ := hr
        subst hr1 hr2
        have hre := Dyn.remove_eq (V := V) ⟨0, s.obs, []⟩ o
        unfold Dyn.remove at hre
        simp only at hre
        refine ⟨?_, rfl, ?_⟩
        · exact Dyn.erase_eq o s.obs
        · split
          · rename_i hz
            rw [if_pos hz] at hre
            exact (Prod.mk.inj hre).2
          · rename_i hz
            rw [if_neg hz] at hre
            exact (Prod.mk.inj hre).2)
    simpa using this
  | visit v i o rest hst ho =>
    exact h.advance hst (by simp) s.obs [.enter s.self o v] rfl (fun _ => rfl)
      (pc' := .inside i o) (by
        intro l ext hr
        obtain ⟨hr1, hr2⟩ := hr
        subst hr1 hr2
        exact ⟨rfl, ho, rfl⟩)
  | leave v i o rest hst =>
    exact h.advance hst (by simp) s.obs [.leave o] rfl (fun _ => rfl)
      (pc' := .scan (i + 1)) (by
        intro l ext hr
        obtain ⟨hr1, hr2, hr3⟩ := hr
        subst hr1 hr3
        refine ⟨rfl, ?_⟩
        rw [take_callbacks_notify _ _ _ hr2]
        simp)
  | last v i rest hst hi =>
    have := h.advance hst (by simp) s.obs [] rfl (fun _ => rfl) (pc' := .finish .ok) (by
        intro l ext hr
        obtain ⟨hr1, hr2⟩ := hr
        subst hr1 hr2
        refine ⟨rfl, ?_, rfl⟩
        rw [List.take_of_length_le hi, List.append_nil])
    simpa using this
  | disc i o rest hst ho =>
    exact h.advance hst (by simp) s.obs [.disc s.self o] rfl (fun _ => rfl)
      (pc' := .inside i o) (by
        intro l ext hr
        obtain ⟨hr1, hr2⟩ := hr
        subst hr1 hr2
        exact ⟨rfl, ho, rfl⟩)
  | discEnd i o rest hst =>
    have := h.advance hst (by simp) s.obs [] rfl (fun _ => rfl)
      (pc' := .scan (i + 1)) (by
        intro l ext hr
        obtain ⟨hr1, hr2, hr3⟩ := hr
        subst hr1 hr3
        refine ⟨rfl, ?_⟩
        rw [take_callbacks_clear _ _ hr2]
        simp)
    simpa using this
  | empty i rest hst hi =>
    have := h.advance hst (by simp) [] [] rfl (fun _ => rfl) (pc' := .finish .ok) (by
        intro l ext hr
        obtain ⟨hr1, hr2⟩ := hr
        subst hr1 hr2
        refine ⟨rfl, ?_, rfl⟩
        rw [List.take_of_length_le hi, List.append_nil])
    simpa using this
  | finish op r rest hst =>
    obtain ⟨h1, h2, h3, ext, h4, h5⟩ := h.holds hst (by simp)
    subst h2
    have hrun : s.obs = Dyn.next (serial s.self (calls s.log)).1.obs op ∧
        ext = Dyn.callbacks s.self (serial s.self (calls s.log)).1.obs op ∧
        r = Dyn.result (serial s.self (calls s.log)).1.obs op := by
      cases op <;> exact h5
    obtain ⟨hr1, hr2, hr3⟩ := hrun
    have hcalls : calls (s.log ++ [(t, Ev.ret op r)]) = calls s.log ++ [(t, op)] := by
      simp [calls]
    obtain ⟨k1, k2, k3⟩ := serial_snoc s.self (calls s.log) t op
    refine ⟨?_, ?_, ?_⟩
    · intro u
      show returns u (s.log ++ _) = upd s.done t _ u
      rw [returns_append, h.done]
      by_cases hut : u = t
      · subst hut
        rw [upd_same]
        simp [returns]
      · rw [upd_other _ _ hut]
        have : ¬ t = u := fun h => hut h.symm
        simp [returns, this]
    · intro _
      refine ⟨?_, ?_, ?_⟩
      · show s.obs = (serial s.self (calls (s.log ++ _))).1.obs
        rw [hcalls, k1]
        exact hr1
      · show s.log ++ _ = (serial s.self (calls (s.log ++ _))).2
        rw [hcalls, k3, serial_self, ← hr2, ← hr3, List.map_append, ← List.append_assoc, ← h4]
        rfl
      · intro u
        show Outside (upd s.stk t _ u)
        by_cases hut : u = t
        · subst hut
          rw [upd_same]
          exact .inl rfl
        · rw [upd_other _ _ hut]
          exact h3 u hut
    · intro u hl
      exact absurd hl (by simp)

theorem step_self {lk : Bool} {s s' : Sys V} {t : Nat} (hs : Step lk t s s') : s'.self = s.self := by
  cases hs <;> rfl

theorem steps_self {lk : Bool} {s s' : Sys V} (hs : Steps lk s s') : s'.self = s.self := by
  induction hs with
  | refl => rfl
  | step _ _ _ _ h2 ih => exact (step_self h2).trans ih

theorem inv_steps {s s' : Sys V} (h : Inv s) (hs : Steps true s s') : Inv s' := by
  induction hs with
  | refl => exact h
  | step _ _ _ _ h2 ih => exact inv_step ih h2

theorem inv_new (self : Nat) : Inv (Sys.new self : Sys V) :=
  ⟨fun _ => rfl, fun _ => ⟨rfl, rfl, fun _ => .inl rfl⟩, fun t h => absurd h (by simp [Sys.new])⟩

theorem reach_inv {s : Sys V} (h : Reach true s) : Inv s := inv_steps (inv_new _) h

theorem steps_trans {lk : Bool} {s s' s'' : Sys V} (h1 : Steps lk s s') (h2 : Steps lk s' s'') :
    Steps lk s s'' := by
  induction h2 with
  | refl => exact h1
  | step a b t _ h ih => exact .step _ _ _ t ih h

/-! ### Executable steps, for the examples -/

/-- What a thread is asked to do. -/
inductive Choice (V : Type) where
  | call (op : Op V)
  | go

/-- The step of thread `t` that the choice asks for, if there is one. -/
def fire (lk : Bool) (t : Nat) (c : Choice V) (s : Sys V) : Option (Sys V) :=
  match c, s.stk t with
  | .call op, [] => some { s with stk := upd s.stk t [⟨op, .enter⟩] }
  | .call op, ⟨f, .inside i o⟩ :: rest =>
    some { s with stk := upd s.stk t (⟨op, .enter⟩ :: ⟨f, .inside i o⟩ :: rest) }
  | .go, ⟨op, .enter⟩ :: rest =>
    if lk = true ∧ s.lock ≠ none then none
    else some { s with
      stk := upd s.stk t (⟨op, start op⟩ :: rest)
      lock := if lk then some t else s.lock }
  | .go, ⟨.add o, .check⟩ :: rest => some { s with
        stk := upd s.stk t
          (⟨.add o, if !Dyn.scan o s.obs then .push else .finish .alreadyContains⟩ :: rest) }
  | .go, ⟨.add o, .push⟩ :: rest => some { s with
        stk := upd s.stk t (⟨.add o, .finish .ok⟩ :: rest)
        obs := s.obs ++ [o] }
  | .go, ⟨.remove o, .check⟩ :: rest => some { s with
        stk := upd s.stk t (⟨.remove o,
          .finish (if s.obs.length - (Dyn.erase o s.obs).length = 0 then .notFound else .ok)⟩ :: rest)
        obs := Dyn.erase o s.obs }
  | .go, ⟨.notify v, .scan i⟩ :: rest =>
    match s.obs[i]? with
    | some o => some { s with
        stk := upd s.stk t (⟨.notify v, .inside i o⟩ :: rest)
        log := s.log ++ [(t, .enter s.self o v)] }
    | none => some { s with stk := upd s.stk t (⟨.notify v, .finish .ok⟩ :: rest) }
  | .go, ⟨.notify v, .inside i o⟩ :: rest => some { s with
        stk := upd s.stk t (⟨.notify v, .scan (i + 1)⟩ :: rest)
        log := s.log ++ [(t, .leave o)] }
  | .go, ⟨op, .finish r⟩ :: rest => some { s with
        stk := upd s.stk t rest
        lock := if lk then none else s.lock
        log := s.log ++ [(t, .ret op r)]
        done := upd s.done t (s.done t ++ [(op, r)]) }
  | _, _ => none

theorem fire_step {lk : Bool} {t : Nat} {c : Choice V} {s s' : Sys V} (h : fire lk t c s = some s') :
    Step lk t s s' := by
  unfold fire at h
  split at h
  · rename_i op hst
    cases h; exact .invoke s op hst
  · rename_i op f i o rest hst
    cases h; exact .nested s op f i o rest hst
  · rename_i op rest hst
    split at h
    · cases h
    · rename_i hl
      cases h
      refine .acquire s op rest hst ?_
      intro hk
      exact Classical.byContradiction fun hne => hl ⟨hk, hne⟩
  · rename_i o rest hst
    cases h; exact .check s o rest hst
  · rename_i o rest hst
    cases h; exact .push s o rest hst
  · rename_i o rest hst
    cases h; exact .erase s o rest hst
  · rename_i v i rest hst
    split at h
    · rename_i o ho
      cases h; exact .visit s v i o rest hst ho
    · rename_i ho
      cases h; exact .last s v i rest hst (List.getElem?_eq_none_iff.1 ho)
  · rename_i v i o rest hst
    cases h; exact .leave s v i o rest hst
  · rename_i op r rest hst
    cases h; exact .finish s op r rest hst
  · cases h

/-- Follow a schedule. -/
def follow (lk : Bool) : List (Nat × Choice V) → Sys V → Option (Sys V)
  | [], s => some s
  | (t, c) :: rest, s => (fire lk t c s).bind (follow lk rest)

theorem step_other {lk : Bool} {t u : Nat} {s s' : Sys V} (hs : Step lk t s s') (h : u ≠ t) :
    s'.stk u = s.stk u := by
  cases hs <;> exact upd_other _ _ h

theorem follow_steps {lk : Bool} (sched : List (Nat × Choice V)) {s s' : Sys V}
    (h : follow lk sched s = some s') :
    Steps lk s s' ∧ ∀ u, u ∉ sched.map Prod.fst → s'.stk u = s.stk u := by
  induction sched generalizing s with
  | nil => cases h; exact ⟨.refl _, fun _ _ => rfl⟩
  | cons a sched ih =>
    obtain ⟨t, c⟩ := a
    simp only [follow, Option.bind_eq_some_iff] at h
    obtain ⟨s1, h1, h2⟩ := h
    obtain ⟨k1, k2⟩ := ih h2
    refine ⟨steps_trans (.step _ _ _ t (.refl _) (fire_step h1)) k1, ?_⟩
    intro u hu
    simp only [List.map_cons, List.mem_cons, not_or] at hu
    rw [k2 u hu.2, step_other (fire_step h1) hu.1]

/-- A schedule that can be followed leads to a reachable state with the properties tested. -/
theorem follow_reach {lk : Bool} {self : Nat} (sched : List (Nat × Choice V)) (P : Sys V → Bool)
    (h : (follow lk sched (Sys.new self)).any P = true) :
    ∃ s, Reach lk s ∧ s.self = self ∧ follow lk sched (Sys.new self) = some s ∧ P s = true := by
  cases hf : follow lk sched (Sys.new self) with
  | none => rw [hf] at h; cases h
  | some s =>
    rw [hf] at h
    have hs := (follow_steps sched hf).1
    have hself : s.self = self := steps_self hs
    exact ⟨s, by rw [Reach, hself]; exact hs, hself, rfl, h⟩

/-! ### Properties -/

/-- **C40 for builds that have the mutex.**  In every reachable state, take the calls that have
returned in the order in which they returned.  Each thread has seen its own calls return in this
order with the results in the log.  When no call is inside the object, the callbacks (with the threads
that ran them), results and registered observers are exactly those of executing these calls one at a
time; when a call of thread `t` is inside, what has happened so far is an initial part of executing
these calls and then that one. -/
theorem C40_linearizable_partial (s : Sys V) (h : Reach true s) :
    let order := calls s.log
    (∀ t, returns t s.log = s.done t) ∧
    (s.lock = none →
      s.log = (serial s.self order).2 ∧ s.obs = (serial s.self order).1.obs) ∧
    (∀ t, s.lock = some t → ∃ op, (∃ pc, ⟨op, pc⟩ ∈ s.stk t) ∧
      (serial s.self order).2 <+: s.log ∧ s.log <+: (serial s.self (order ++ [(t, op)])).2) := by
  have hi := reach_inv h
  refine ⟨hi.done, fun hl => ⟨(hi.free hl).2.1, (hi.free hl).1⟩, ?_⟩
  intro t hl
  obtain ⟨-, ext, h1, op, pc, h2, h3⟩ := hi.held t hl
  refine ⟨op, ⟨pc, ?_⟩, ⟨ext.map fun e => (t, e), h1.symm⟩, ?_⟩
  · rcases h3 with h3 | ⟨_, _, _, _, h3⟩ <;> rw [h3] <;> simp
  · have hpre : ∀ (l obs : List Nat), Running s.self l obs ext op pc → ext <+: Dyn.callbacks s.self l op := by
      clear h1 h2 h3
      intro l obs hr
      cases op with
      | add o =>
        cases pc with
        | check => rw [hr.2]; exact List.nil_prefix
        | push => rw [hr.2.1]; exact List.nil_prefix
        | finish r => rw [hr.2.1]; exact List.prefix_refl _
        | enter => exact hr.elim
        | scan i => exact hr.elim
        | inside i o => exact hr.elim
      | remove o =>
        cases pc with
        | check => rw [hr.2]; exact List.nil_prefix
        | finish r => rw [hr.2.1]; exact List.prefix_refl _
        | push => exact hr.elim
        | enter => exact hr.elim
        | scan i => exact hr.elim
        | inside i o => exact hr.elim
      | clear =>
        have hpart : ∀ i, Dyn.callbacks s.self (l.take i) (.clear : Op V) <+:
            Dyn.callbacks s.self l (.clear : Op V) := fun i => (List.take_prefix i l).map _
        cases pc with
        | scan i => rw [hr.2]; exact hpart i
        | inside i o =>
          rw [hr.2.2, ← take_callbacks_clear _ _ hr.2.1]
          exact hpart (i + 1)
        | finish r => rw [hr.2.1]; exact List.prefix_refl _
        | check => exact hr.elim
        | push => exact hr.elim
        | enter => exact hr.elim
      | notify v =>
        have hpart : ∀ i, Dyn.callbacks s.self (l.take i) (.notify v) <+:
            Dyn.callbacks s.self l (.notify v) := by
          intro i
          conv => rhs; rw [← List.take_append_drop i l]
          simp only [Dyn.callbacks, List.flatMap_append]
          exact List.prefix_append _ _
        cases pc with
        | scan i => rw [hr.2]; exact hpart i
        | inside i o =>
          rw [hr.2.2]
          refine List.IsPrefix.trans ?_ (hpart (i + 1))
          rw [take_callbacks_notify _ _ _ hr.2.1]
          exact ⟨[.leave o], by simp⟩
        | finish r => rw [hr.2.1]; exact List.prefix_refl _
        | check => exact hr.elim
        | push => exact hr.elim
        | enter => exact hr.elim
    obtain ⟨more, hm⟩ := hpre _ _ h2
    rw [(serial_snoc s.self (calls s.log) t op).2.2, serial_self, ← hm]
    refine ⟨(more ++ [Ev.ret op (Dyn.result (serial s.self (calls s.log)).1.obs op)]).map fun e => (t, e), ?_⟩
    conv => lhs; lhs; rw [h1]
    simp only [List.map_append, List.append_assoc]

/-- Two threads each add an observer, then one notifies while the other removes. -/
def demo : List (Nat × Choice Nat) :=
  [(1, .call (.add 5)), (0, .call (.add 6)), (1, .go), (1, .go), (1, .go), (1, .go), (0, .go), (0, .go),
   (0, .go), (0, .go), (0, .call (.notify 3)), (0, .go), (1, .call (.remove 5)), (0, .go), (0, .go), (0, .go),
   (0, .go), (0, .go), (0, .go), (1, .go), (1, .go), (1, .go)]

example : ∃ s : Sys Nat, Reach true s ∧ s.lock = none ∧ s.log =
    [(1, .ret (.add 5) .ok), (0, .ret (.add 6) .ok), (0, .enter 9 5 3), (0, .leave 5), (0, .enter 9 6 3),
     (0, .leave 6), (0, .ret (.notify 3) .ok), (1, .ret (.remove 5) .ok)] ∧ s.obs = [6] := by
  obtain ⟨s, h1, -, -, h2⟩ := follow_reach (V := Nat) (lk := true) (self := 9) demo
    (fun s => decide (s.lock = none ∧ s.log =
    [(1, .ret (.add 5) .ok), (0, .ret (.add 6) .ok), (0, .enter 9 5 3), (0, .leave 5), (0, .enter 9 6 3),
     (0, .leave 6), (0, .ret (.notify 3) .ok), (1, .ret (.remove 5) .ok)] ∧ s.obs = [6])) (by decide +kernel)
  exact ⟨s, h1, of_decide_eq_true h2⟩

/-- **C40 is false for builds without the mutex** (Linux with glibc): two threads add the same
observer, both calls succeed and it is registered twice, which no serial order of the two calls
explains. -/
theorem C40_unlocked_refuted :
    ∃ s : Sys Nat, Reach false s ∧ (∀ t, s.stk t = []) ∧
      s.done 0 = [(.add 5, .ok)] ∧ s.done 1 = [(.add 5, .ok)] ∧ s.obs = [5, 5] ∧
      ∀ order : List (Nat × Op Nat), order.Perm [(0, .add 5), (1, .add 5)] →
        (serial s.self order).1.obs ≠ s.obs ∧
        ¬ (∀ t, returns t (serial s.self order).2 = s.done t) := by
  obtain ⟨s, h1, h2, h3, h4⟩ := follow_reach (V := Nat) (lk := false) (self := 9)
    [(0, .call (.add 5)), (1, .call (.add 5)), (0, .go), (1, .go), (0, .go), (1, .go), (0, .go), (1, .go),
     (0, .go), (1, .go)]
    (fun s => decide (s.stk 0 = [] ∧ s.stk 1 = [] ∧ s.done 0 = [(.add 5, .ok)] ∧
      s.done 1 = [(.add 5, .ok)] ∧ s.obs = ([5, 5] : List Nat))) (by decide +kernel)
  obtain ⟨k0, k1, k2, k3, k4⟩ := of_decide_eq_true h4
  refine ⟨s, h1, ?_, k2, k3, k4, ?_⟩
  · intro t
    by_cases ht0 : t = 0
    · rw [ht0]; exact k0
    · by_cases ht1 : t = 1
      · rw [ht1]; exact k1
      · exact (follow_steps _ h3).2 t (by simp [ht0, ht1])
  rw [h2, k4]
  · intro order hp
    have ho : order = [(0, .add 5), (1, .add 5)] ∨ order = [(1, .add 5), (0, .add 5)] := by
      have hlen := hp.length_eq
      match order, hlen with
      | [a, b], _ =>
        have ha : a ∈ [((0 : Nat), (Op.add 5 : Op Nat)), (1, .add 5)] := hp.subset (by simp)
        have hb : b ∈ [((0 : Nat), (Op.add 5 : Op Nat)), (1, .add 5)] := hp.subset (by simp)
        have hn : [a, b].Nodup := hp.nodup_iff.2 (by decide)
        simp only [List.mem_cons, List.not_mem_nil, or_false] at ha hb
        rcases ha with rfl | rfl <;> rcases hb with rfl | rfl
        · exact absurd hn (by decide)
        · exact .inl rfl
        · exact .inr rfl
        · exact absurd hn (by decide)
    rcases ho with rfl | rfl
    · exact ⟨by decide +kernel, fun h => absurd (h 1) (by rw [k3]; decide +kernel)⟩
    · exact ⟨by decide +kernel, fun h => absurd (h 0) (by rw [k2]; decide +kernel)⟩

/-- What the call of C41 looks like from then on. -/
structure Stuck (t : Nat) (s : Sys V) : Prop where
  lock : s.lock = some t
  own : ∃ op f i o, s.stk t = [⟨op, .enter⟩, ⟨f, .inside i o⟩]
  others : ∀ u, u ≠ t → Outside (s.stk u)

theorem stuck_step {t u : Nat} {s s' : Sys V} (h : Stuck t s) (hs : Step true u s s') :
    Stuck t s' ∧ s'.stk t = s.stk t ∧ s'.done = s.done ∧ s'.log = s.log ∧ s'.obs = s.obs := by
  have hhead : ∀ op pc rest, s.stk u = ⟨op, pc⟩ :: rest → pc = .enter := by
    intro op pc rest hu
    by_cases hut : u = t
    · subst hut
      obtain ⟨op', f, i, o, h1⟩ := h.own
      rw [h1] at hu
      simp only [List.cons.injEq, Frame.mk.injEq] at hu
      exact hu.1.2.symm
    · rcases h.others u hut with h1 | ⟨op', h1⟩
      · rw [h1] at hu; exact absurd hu (by simp)
      · rw [h1] at hu
        simp only [List.cons.injEq, Frame.mk.injEq] at hu
        exact hu.1.2.symm
  cases hs with
  | invoke op hst =>
    have hut : u ≠ t := by
      intro hut
      subst hut
      obtain ⟨op', f, i, o, h1⟩ := h.own
      rw [h1] at hst
      exact absurd hst (by simp)
    refine ⟨⟨h.lock, ?_, ?_⟩, upd_other _ _ (Ne.symm hut), rfl, rfl, rfl⟩
    · show ∃ op' f i o, upd s.stk u _ t = _
      rw [upd_other _ _ (Ne.symm hut)]
      exact h.own
    · intro w hw
      show Outside (upd s.stk u _ w)
      by_cases hwu : w = u
      · subst hwu
        rw [upd_same]
        exact .inr ⟨op, rfl⟩
      · rw [upd_other _ _ hwu]
        exact h.others w hw
  | acquire op rest hst hl => exact absurd (h.lock.symm.trans (hl rfl)) (by simp)
  | nested op f i o rest hst => exact absurd (hhead _ _ _ hst) (by simp)
  | check o rest hst => exact absurd (hhead _ _ _ hst) (by simp)
  | push o rest hst => exact absurd (hhead _ _ _ hst) (by simp)
  | erase o rest hst => exact absurd (hhead _ _ _ hst) (by simp)
  | visit v i o rest hst _ => exact absurd (hhead _ _ _ hst) (by simp)
  | leave v i o rest hst => exact absurd (hhead _ _ _ hst) (by simp)
  | last v i rest hst _ => exact absurd (hhead _ _ _ hst) (by simp)
  | disc i o rest hst _ => exact absurd (hhead _ _ _ hst) (by simp)
  | discEnd i o rest hst => exact absurd (hhead _ _ _ hst) (by simp)
  | empty i rest hst _ => exact absurd (hhead _ _ _ hst) (by simp)
  | finish op r rest hst => exact absurd (hhead _ _ _ hst) (by simp)

/-- **C41 for builds that have the mutex.**  Once a callback running in thread `t` has called a member
function, then whatever the threads do from there: that call stays where it is, no call of any thread
returns, no callback starts or ends, and the registered observers do not change. -/
theorem C41_blocks_forever_partial (s : Sys V) (h : Reach true s) (t : Nat) (op f : Op V) (i o : Nat)
    (rest : List (Frame V)) (hst : s.stk t = ⟨op, .enter⟩ :: ⟨f, .inside i o⟩ :: rest) (s' : Sys V)
    (hs : Steps true s s') :
    s'.stk t = s.stk t ∧ (∀ u, s'.done u = s.done u) ∧ s'.log = s.log ∧ s'.obs = s.obs := by
  have hi := reach_inv h
  have hno : ¬ Outside (s.stk t) := by
    rw [hst]
    rintro (h | ⟨op', h⟩) <;> exact absurd h (by simp)
  have h0 : Stuck t s := by
    cases hl : s.lock with
    | none => exact absurd ((hi.free hl).2.2 t) hno
    | some u =>
      obtain ⟨h1, ext, h2, op', pc', h3, h4⟩ := hi.held u hl
      have hut : t = u := Classical.byContradiction fun hne => hno (h1 t hne)
      subst hut
      refine ⟨hl, ?_, h1⟩
      rcases h4 with h4 | ⟨op'', i', o', h5, h4⟩
      · rw [hst] at h4
        exact absurd h4 (by simp)
      · subst h5
        exact ⟨op'', op', i', o', h4⟩
  have key : Stuck t s' ∧ s'.stk t = s.stk t ∧ s'.done = s.done ∧ s'.log = s.log ∧ s'.obs = s.obs := by
    clear hst hno hi h
    induction hs with
    | refl => exact ⟨h0, rfl, rfl, rfl, rfl⟩
    | step a b u _ h2 ih =>
      obtain ⟨k0, k1, k2, k3, k4⟩ := ih
      obtain ⟨j0, j1, j2, j3, j4⟩ := stuck_step k0 h2
      exact ⟨j0, j1.trans k1, j2.trans k2, j3.trans k3, j4.trans k4⟩
  exact ⟨key.2.1, fun u => by rw [key.2.2.1], key.2.2.2⟩

/-- Such a state: observer 5 removes itself when notified. -/
example : ∃ s : Sys Nat, Reach true s ∧
    s.stk 0 = [⟨.remove 5, .enter⟩, ⟨.notify 3, .inside 0 5⟩] := by
  obtain ⟨s, h1, -, -, h2⟩ := follow_reach (V := Nat) (lk := true) (self := 9)
    [(0, .call (.add 5)), (0, .go), (0, .go), (0, .go), (0, .go), (0, .call (.notify 3)), (0, .go), (0, .go),
     (0, .call (.remove 5))]
    (fun s => decide (s.stk 0 = [⟨.remove 5, .enter⟩, ⟨.notify (3 : Nat), .inside 0 5⟩]))
    (by decide +kernel)
  exact ⟨s, h1, of_decide_eq_true h2⟩

/-- **C41 is false for builds without the mutex**: a call made by a callback returns, and so does the
call that ran the callback. -/
theorem C41_unlocked_refuted :
    ∃ s s' : Sys Nat, Reach false s ∧
      s.stk 0 = [⟨.add 5, .enter⟩, ⟨.notify 3, .inside 0 5⟩] ∧ Steps false s s' ∧
      s'.done 0 = s.done 0 ++ [(.add 5, .alreadyContains), (.notify 3, .ok)] := by
  obtain ⟨s, h1, h2, h3, h4⟩ := follow_reach (V := Nat) (lk := false) (self := 9)
    [(0, .call (.add 5)), (0, .go), (0, .go), (0, .go), (0, .go), (0, .call (.notify 3)), (0, .go), (0, .go),
     (0, .call (.add 5))]
    (fun s => decide (s.stk 0 = [⟨.add 5, .enter⟩, ⟨.notify (3 : Nat), .inside 0 5⟩] ∧
      (follow false (List.replicate 6 (0, .go)) s).any (fun s' =>
        decide (s'.done 0 = s.done 0 ++
          [((.add 5 : Op Nat), Err.alreadyContains), (.notify 3, .ok)])) = true))
    (by decide +kernel)
  obtain ⟨k1, k2⟩ := of_decide_eq_true h4
  cases hf : follow false (List.replicate 6 (0, .go)) s with
  | none => rw [hf] at k2; cases k2
  | some s' =>
    rw [hf] at k2
    exact ⟨s, s', h1, k1, (follow_steps _ hf).1, of_decide_eq_true k2⟩

end Verif.Observer.Conc
