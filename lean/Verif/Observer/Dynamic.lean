import Verif.Observer.Notify
/-!
Model of `observable<T, false>` (observer.hpp:200-344) executed by one thread, and property C39.

The user callbacks only record that they ran: with the mutex compiled in, a call back into the object
never returns (C41, `Threads.lean`).
-/
namespace Verif.Observer
open Verif

variable {V : Type}

/-- The object: its address and `observers_` (observer.hpp:321), and the log of callbacks and
results.  A result other than `ok` is the code of a thrown `exception` (observer.hpp:221-233). -/
structure Dyn (V : Type) where
  self : Nat
  obs : List Nat
  log : List (Ev V)
  deriving DecidableEq, Repr

namespace Dyn

/-- A new object (observer.hpp:239). -/
def new (self : Nat) : Dyn V := ⟨self, [], []⟩

/-- `contains` (observer.hpp:333-341). -/
def scan (o : Nat) : List Nat → Bool
  | [] => false
  | item :: rest => if item = o then true else scan o rest

/-- `add_observer` (observer.hpp:254-265). -/
def add (s : Dyn V) (o : Nat) : Dyn V × Err :=
  if !scan o s.obs then ({ s with obs := s.obs ++ [o] }, .ok) else (s, .alreadyContains)

/-- `std::erase(observers_, &observer)`: the remaining elements (observer.hpp:281). -/
def erase (o : Nat) : List Nat → List Nat
  | [] => []
  | item :: rest => if item = o then erase o rest else item :: erase o rest

/-- `remove_observer` (observer.hpp:275-284). -/
def remove (s : Dyn V) (o : Nat) : Dyn V × Err :=
  let rest := erase o s.obs
  if s.obs.length - rest.length = 0 then ({ s with obs := rest }, .notFound)
  else ({ s with obs := rest }, .ok)

/-- The loop of `clear_observers` (observer.hpp:295-297). -/
def clearLoop : List Nat → Dyn V → Dyn V
  | [], s => s
  | item :: rest, s => clearLoop rest { s with log := s.log ++ [.disc s.self item] }

/-- `clear_observers` (observer.hpp:289-299); the destructor (observer.hpp:244) is the same. -/
def clear (s : Dyn V) : Dyn V × Err := ({ clearLoop s.obs s with obs := [] }, .ok)

/-- The loop of `notify_observers` (observer.hpp:315-317). -/
def notifyLoop (v : V) : List Nat → Dyn V → Dyn V
  | [], s => s
  | item :: rest, s => notifyLoop v rest { s with log := s.log ++ [.enter s.self item v, .leave item] }

/-- `notify_observers` (observer.hpp:309-318). -/
def notify (s : Dyn V) (v : V) : Dyn V × Err := (notifyLoop v s.obs s, .ok)

/-- One call (observer.hpp:254-318). -/
def call (s : Dyn V) (op : Op V) : Dyn V × Err :=
  let r := match op with
    | .add o => s.add o
    | .remove o => s.remove o
    | .clear => s.clear
    | .notify v => s.notify v
  ({ r.1 with log := r.1.log ++ [.ret op r.2] }, r.2)

/-- A history of calls. -/
def run (s : Dyn V) (ops : List (Op V)) : Dyn V := ops.foldl (fun s op => (s.call op).1) s

/-! ### Specification -/

/-- The registered observers after a call, as an ordered set. -/
def next (l : List Nat) : Op V → List Nat
  | .add o => if o ∈ l then l else l ++ [o]
  | .remove o => l.filter (· != o)
  | .clear => []
  | .notify _ => l

/-- The result a call has to give when `l` is registered. -/
def result (l : List Nat) : Op V → Err
  | .add o => if o ∈ l then .alreadyContains else .ok
  | .remove o => if o ∈ l then .ok else .notFound
  | _ => .ok

/-- The observers registered after a history. -/
def registered (ops : List (Op V)) : List Nat := ops.foldl next []

theorem scan_iff (o : Nat) (l : List Nat) : scan o l = true ↔ o ∈ l := by
  induction l with
  | nil => simp [scan]
  | cons a l ih =>
    simp only [scan, List.mem_cons]
    split
    · rename_i h; simp [h]
    · rename_i h
      rw [ih]
      constructor
      · exact Or.inr
      · rintro (h' | h')
        · exact absurd h'.symm h
        · exact h'

theorem erase_eq (o : Nat) (l : List Nat) : erase o l = l.filter (· != o) := by
  induction l with
  | nil => rfl
  | cons a l ih =>
    simp only [erase, List.filter_cons]
    split
    · rename_i h; simp [h, ih]
    · rename_i h; simp [h, ih]

theorem erase_length (o : Nat) (l : List Nat) :
    (o ∈ l → (erase o l).length < l.length) ∧ (o ∉ l → erase o l = l) := by
  induction l with
  | nil => simp [erase]
  | cons a l ih =>
    have hle : (erase o l).length ≤ l.length := by rw [erase_eq]; exact List.length_filter_le _ _
    constructor
    · intro h
      simp only [erase, List.length_cons]
      split
      · omega
      · rename_i hne
        simp only [List.length_cons]
        rcases List.mem_cons.1 h with h | h
        · exact absurd h.symm hne
        · have := ih.1 h; omega
    · intro h
      simp only [List.mem_cons, not_or] at h
      simp only [erase, if_neg (fun h' : a = o => h.1 h'.symm), ih.2 h.2]

theorem add_eq (s : Dyn V) (o : Nat) :
    s.add o = ({ s with obs := next (V := V) s.obs (.add o) }, result (V := V) s.obs (.add o)) := by
  unfold add next result
  by_cases h : o ∈ s.obs
  · simp [h, (scan_iff o s.obs).2 h]
  · have : scan o s.obs = false := by
      cases hs : scan o s.obs
      · rfl
      · exact absurd ((scan_iff o s.obs).1 hs) h
    simp [h, this]

theorem remove_eq (s : Dyn V) (o : Nat) :
    s.remove o = ({ s with obs := next (V := V) s.obs (.remove o) }, result (V := V) s.obs (.remove o)) := by
  unfold remove next result
  simp only
  by_cases h : o ∈ s.obs
  · have := (erase_length o s.obs).1 h
    rw [if_neg (by omega), if_pos h, erase_eq]
  · have := (erase_length o s.obs).2 h
    rw [if_pos (by rw [this]; omega), if_neg h, erase_eq]

theorem clearLoop_eq (l : List Nat) (s : Dyn V) : clearLoop l s =
    { s with log := s.log ++ l.map (fun o => Ev.disc s.self o) } := by
  induction l generalizing s with
  | nil => simp [clearLoop]
  | cons a l ih => simp [clearLoop, ih]

theorem notifyLoop_eq (v : V) (l : List Nat) (s : Dyn V) : notifyLoop v l s =
    { s with log := s.log ++ l.flatMap (fun o => [Ev.enter s.self o v, Ev.leave o]) } := by
  induction l generalizing s with
  | nil => simp [notifyLoop]
  | cons a l ih => simp [notifyLoop, ih]

/-- The callbacks a call makes. -/
def callbacks (self : Nat) (l : List Nat) : Op V → List (Ev V)
  | .clear => l.map (fun o => Ev.disc self o)
  | .notify v => l.flatMap (fun o => [Ev.enter self o v, Ev.leave o])
  | _ => []

theorem call_eq (s : Dyn V) (op : Op V) :
    s.call op = ({ s with
        obs := next s.obs op
        log := s.log ++ (callbacks s.self s.obs op ++ [.ret op (result s.obs op)]) },
      result s.obs op) := by
  cases op with
  | add o => simp [call, add_eq, callbacks]
  | remove o => simp [call, remove_eq, callbacks]
  | clear => simp [call, clear, clearLoop_eq, callbacks, next, result]
  | notify v => simp [call, notify, notifyLoop_eq, callbacks, next, result]

theorem entered_map (self : Nat) (l : List Nat) (v : V) :
    entered (l.flatMap (fun o => [Ev.enter self o v, Ev.leave o])) = l.map (fun o => (self, o, v)) := by
  induction l with
  | nil => rfl
  | cons a l ih => simp [entered, ih]

theorem disconnected_map (self : Nat) (l : List Nat) :
    disconnected (l.map (fun o => (Ev.disc self o : Ev V))) = l.map (fun o => (self, o)) := by
  induction l with
  | nil => rfl
  | cons a l ih => simp [disconnected, ih]

theorem next_nodup (l : List Nat) (op : Op V) (h : l.Nodup) : (next l op).Nodup := by
  cases op with
  | add o =>
    simp only [next]
    split
    · exact h
    · rename_i ho
      rw [List.nodup_append]
      refine ⟨h, by simp, ?_⟩
      intro a ha b hb hab
      simp only [List.mem_singleton] at hb
      subst hb hab
      exact ho ha
  | remove o => exact h.filter _
  | clear => simp [next]
  | notify v => exact h

theorem run_obs (self : Nat) (ops : List (Op V)) :
    (run (new self) ops).obs = registered ops ∧ (run (new self) ops).self = self := by
  suffices h : ∀ (s : Dyn V), (run s ops).obs = ops.foldl next s.obs ∧ (run s ops).self = s.self from
    h (new self)
  induction ops with
  | nil => intro s; exact ⟨rfl, rfl⟩
  | cons op ops ih =>
    intro s
    have h1 := ih (s.call op).1
    simp only [run, List.foldl_cons] at h1 ⊢
    rw [call_eq] at h1 ⊢
    exact h1

/-- **C39** (partial: callbacks that do not call back; for those that do see C89-C91, C105).  After any history the object holds the registered observers (added and not since removed
or cleared) in order of subscription without duplicates; the next call throws `already_contains`
exactly on adding a registered observer and `not_found` exactly on removing an unregistered one,
changes nothing when it throws, and makes exactly these callbacks: `notify` calls each registered
observer once in order with the value and the address of the observable, `clear` disconnects each once
in order, the others call no one. -/
theorem C39_ordered_set_partial (self : Nat) (ops : List (Op V)) (op : Op V) :
    let s := run (new self) ops
    let l := registered ops
    s.obs = l ∧ l.Nodup ∧ (s.call op).1.obs = registered (ops ++ [op]) ∧
    (s.call op).2 = (match op with
      | .add o => if o ∈ l then .alreadyContains else .ok
      | .remove o => if o ∈ l then .ok else .notFound
      | _ => .ok) ∧
    ((s.call op).2 ≠ .ok → (s.call op).1.obs = s.obs) ∧
    ∃ new, (s.call op).1.log = s.log ++ new ∧
      entered new = (match op with | .notify v => l.map (fun o => (self, o, v)) | _ => []) ∧
      disconnected new = (match op with | .clear => l.map (fun o => (self, o)) | _ => []) := by
  obtain ⟨h1, h2⟩ := run_obs self ops
  intro s l
  have hs : s.obs = l := h1
  have hself : s.self = self := h2
  have hn : l.Nodup := by
    suffices h : ∀ l : List Nat, l.Nodup → (ops.foldl next l).Nodup from h [] (by simp)
    clear hs s h1 h2 hself l
    induction ops with
    | nil => intro l h; exact h
    | cons op ops ih => intro l h; exact ih _ (next_nodup l op h)
  rw [call_eq, hs, hself]
  refine ⟨rfl, hn, ?_, ?_, ?_, callbacks self l op ++ [.ret op (result l op)], rfl, ?_, ?_⟩
  · simp [registered, l]
  · cases op <;> rfl
  · intro hne
    cases op with
    | add o =>
      simp only [result] at hne
      simp only [next]
      by_cases ho : o ∈ l
      · simp [ho]
      · simp [ho] at hne
    | remove o =>
      simp only [result] at hne
      by_cases ho : o ∈ l
      · simp [ho] at hne
      · exact filter_eq_of_not_mem ho
    | clear => exact absurd rfl hne
    | notify v => rfl
  · rw [entered_append]
    cases op with
    | add o => rfl
    | remove o => rfl
    | clear =>
      have : entered (l.map (fun o => (Ev.disc self o : Ev V))) = [] := by
        generalize l = m
        induction m with
        | nil => rfl
        | cons a m ih => simp [entered, ih]
      simp [callbacks, this, entered]
    | notify v => simp [callbacks, entered_map, entered]
  · rw [disconnected_append]
    cases op with
    | add o => rfl
    | remove o => rfl
    | clear => simp [callbacks, disconnected_map, disconnected]
    | notify v =>
      have : disconnected (l.flatMap (fun o => [(Ev.enter self o v : Ev V), Ev.leave o])) = [] := by
        generalize l = m
        induction m with
        | nil => rfl
        | cons a m ih => simp [disconnected, ih]
      simp [callbacks, this, disconnected]

example : (run (new 100) [.add 1, .add 2, .add 1, .remove 5, .add 3, .remove 2, .notify 7]).log =
    ([.ret (.add 1) .ok, .ret (.add 2) .ok, .ret (.add 1) .alreadyContains, .ret (.remove 5) .notFound,
      .ret (.add 3) .ok, .ret (.remove 2) .ok, .enter 100 1 7, .leave 1, .enter 100 3 7, .leave 3,
      .ret (.notify 7) .ok] : List (Ev Nat)) := by decide +kernel

end Dyn
end Verif.Observer
