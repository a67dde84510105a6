import Verif.Pipeline.PoolProps
import Verif.Pipeline.NetProps
/-!
A `pipeline_stage_pool` (`include/xitren/comm/pipeline_stage_pool.hpp`) whose handler pushes into the pool itself, as one does
to split work.  The handler runs on a worker thread, and this worker goes on only when the pushes are done; all other threads
may take steps in between, also those of the destructor: member functions may be called while it runs, and it returns after
the last worker, so that a push by a handler never comes too late for the object.  It may come too late for the worker of the
queue that it chooses.
-/
namespace Verif.Pipeline.Pool.Push
open Verif Verif.Pipeline Verif.Pipeline.Pool
variable {α : Type}

/-- What a handler does: called by worker `n` with `x`, it pushes these items, in this order (pipeline_stage_pool.hpp:52,
78-79). -/
abbrev Handler (α : Type) := Nat → α → List α

/-- A push that has incremented a counter: who (a worker in its handler, or `none` for a thread outside), into which queue,
what, and whether the worker of this queue had ended by then (a record, no code). -/
structure Entry (α : Type) where
  from_ : Option Nat
  q : Nat
  item : α
  late : Bool
  deriving DecidableEq

/-- The pool; `todo n` are the pushes that the handler called by worker `n` still has to begin.  In `prod` worker `n` is producer
`2 * n` and thread `p` outside is producer `2 * p + 1`.  `log` records the pushes in the order in which they incremented a
counter (pipeline_stage_pool.hpp:153-159). -/
structure State (α : Type) where
  qs : Nat → Q α
  closed : Bool
  prod : Nat → Prod α
  todo : Nat → List α
  log : List (Entry α)

/-- A new pool (pipeline_stage_pool.hpp:54-99). -/
def State.new (b : Nat) : State α := ⟨fun _ => Q.new b, false, fun _ => .idle, fun _ => [], []⟩

/-- The steps: a thread outside begins a push; the handler called by worker `n` begins its next push; a producer reads a
counter, increments one, stores; the destructor begins; a worker takes a step of its loop (pipeline_stage_pool.hpp:54-129). -/
inductive Label (α : Type) where
  | start (p : Nat) (x : α)
  | begin (n : Nat)
  | scan (j : Nat)
  | claim (j : Nat)
  | store (j : Nat)
  | close
  | work (n : Nat) (e : Int)

/-- The thread of producer `j` (no code). -/
def origin (j : Nat) : Option Nat := if j % 2 = 0 then some (j / 2) else none

/-- What the handler is about to be asked to push: it is called with the item in slot `k` (pipeline_stage_pool.hpp:76-79). -/
def asked (h : α → List α) (q : Q α) : List α :=
  match q.pc with
  | .call k =>
    match q.slots[k % q.slots.length]? with
    | some (some v) => h v
    | _ => []
  | _ => []

/-- One step of a pool with `size` workers and what comes of it; `tailFirst` as in `Pool.Step`.  Threads outside do not push
once destruction has begun, and it begins when they are not pushing (pipeline_stage_pool.hpp:54-178). -/
inductive Step (size : Nat) (tailFirst : Bool) (h : Handler α) : State α → Label α → Res (State α) → Prop
  /-- A thread outside begins `push(x)` (pipeline_stage_pool.hpp:114, 164-167). -/
  | start (s : State α) (p : Nat) (x : α) : s.closed = false → s.prod (2 * p + 1) = .idle →
      Step size tailFirst h s (.start p x) (.ok
        { s with prod := upd s.prod (2 * p + 1) (.scan x 0 (intMax, 0) []) })
  /-- The handler begins its next push (pipeline_stage_pool.hpp:78, 114, 164-167). -/
  | begin (s : State α) (n : Nat) (x : α) (rest : List α) : s.todo n = x :: rest → s.prod (2 * n) = .idle →
      Step size tailFirst h s (.begin n) (.ok
        { s with
          prod := upd s.prod (2 * n) (.scan x 0 (intMax, 0) [])
          todo := upd s.todo n rest })
  /-- The first counter of queue `k` is read (pipeline_stage_pool.hpp:168). -/
  | scan (s : State α) (j : Nat) (x : α) (k : Nat) (acc : Nat × Nat) (seen : List Nat) :
      s.prod j = .scan x k acc seen →
      Step size tailFirst h s (.scan j) (.ok
        { s with
          prod := upd s.prod j (.read x k (if tailFirst then (s.qs k).tail else (s.qs k).head) acc seen) })
  /-- The second counter is read and the minimum updated (pipeline_stage_pool.hpp:168-173). -/
  | read (s : State α) (j : Nat) (x : α) (k v : Nat) (acc : Nat × Nat) (seen : List Nat) :
      s.prod j = .read x k v acc seen →
      Step size tailFirst h s (.scan j) (.ok
        { s with
          prod := upd s.prod j (nextScan x k
            (if tailFirst then (v + word - (s.qs k).head) % word else ((s.qs k).tail + word - v) % word)
            acc seen) })
  /-- `i = tail++` (pipeline_stage_pool.hpp:115, 126). -/
  | claim (s : State α) (j : Nat) (x : α) (id : Nat) (seen : List Nat) : s.prod j = .chosen x id seen →
      Step size tailFirst h s (.claim j) (.ok
        { s with
          qs := upd s.qs id ((s.qs id).claim x)
          prod := upd s.prod j (.claimed x id (s.qs id).tail)
          log := s.log ++ [⟨origin j, id, x, decide ((s.qs id).pc = .ended)⟩] })
  /-- The store (pipeline_stage_pool.hpp:116, 127). -/
  | store (s : State α) (j : Nat) (x : α) (id i : Nat) : s.prod j = .claimed x id i →
      Step size tailFirst h s (.store j) (do
        let q ← (s.qs id).store i x
        return { s with qs := upd s.qs id q, prod := upd s.prod j .idle })
  /-- The destructor sets `closed_` (pipeline_stage_pool.hpp:103). -/
  | close (s : State α) : s.closed = false → (∀ p, s.prod (2 * p + 1) = .idle) →
      Step size tailFirst h s .close (.ok { s with closed := true })
  /-- A step of worker `n`, which waits for the handler; `pool_[n]` does not exist if `n ≥ 8` (pipeline_stage_pool.hpp:61-91). -/
  | work (s : State α) (n : Nat) (e : Int) : n < size → (s.qs n).pc ≠ .ended → s.todo n = [] →
      s.prod (2 * n) = .idle →
      Step size tailFirst h s (.work n e) (
        if n < 8 then do
          let q ← (s.qs n).work s.closed e
          return { s with
            qs := upd s.qs n q
            todo := upd s.todo n (asked (h n) (s.qs n)) }
        else .ub)

/-- The states reached by steps that satisfy `G`. -/
inductive Reach (b size : Nat) (tailFirst : Bool) (h : Handler α) (G : State α → Label α → Prop) : State α → Prop
  | new : Reach b size tailFirst h G (State.new b)
  | step (s s' : State α) (l : Label α) : Reach b size tailFirst h G s → G s l →
      Step size tailFirst h s l (.ok s') → Reach b size tailFirst h G s'

/-- No restriction. -/
def anyStep : State α → Label α → Prop := fun _ _ => True

/-- No handler gets to the point of adding its item once destruction has begun. -/
def settled : State α → Label α → Prop
  | s, .claim _ => s.closed = false
  | _, _ => True

/-- The items pushed so far, those pushed by threads outside, those pushed by the handler called by worker `n`. -/
def State.items (s : State α) : List α := s.log.map Entry.item
def State.given (s : State α) : List α := (s.log.filter fun t => t.from_ = none).map Entry.item
def State.made (s : State α) (n : Nat) : List α := (s.log.filter fun t => t.from_ = some n).map Entry.item

/-- The items that went into queue `n` before its worker ended, and those after. -/
def State.inTime (s : State α) (n : Nat) : List α := (s.log.filter fun t => t.q = n ∧ t.late = false).map Entry.item
def State.late (s : State α) (n : Nat) : List α := (s.log.filter fun t => t.q = n ∧ t.late = true).map Entry.item

/-! ### What a step does -/

/-- The item that a producer is about to add. -/
def _root_.Verif.Pipeline.Pool.Prod.coming : Prod α → List α
  | .scan x _ _ _ => [x]
  | .read x _ _ _ _ => [x]
  | .chosen x _ _ => [x]
  | _ => []

theorem nextScan_coming (x : α) (k size : Nat) (acc : Nat × Nat) (seen : List Nat) :
    (nextScan x k size acc seen).coming = [x] := by
  unfold nextScan
  split <;> rfl

/-- The cases of a step that returns: a producer goes on without touching a queue, or begins a push; it adds an item; it stores;
the destructor begins; a worker goes on. -/
theorem Step.cases_ok {size : Nat} {tf : Bool} {h : Handler α} {s s' : State α} {l : Label α}
    (hs : Step size tf h s l (.ok s')) :
    (∃ p x, l = .start p x ∧ s.closed = false ∧ s.prod (2 * p + 1) = .idle ∧
      s' = { s with prod := upd s.prod (2 * p + 1) (.scan x 0 (intMax, 0) []) }) ∨
    (∃ n x rest, l = .begin n ∧ s.todo n = x :: rest ∧ s.prod (2 * n) = .idle ∧
      s' = { s with
        prod := upd s.prod (2 * n) (.scan x 0 (intMax, 0) [])
        todo := upd s.todo n rest }) ∨
    (∃ j st, l = .scan j ∧ (s.prod j).quiet ∧ st.quiet ∧ s.prod j ≠ .idle ∧ st ≠ .idle ∧
      st.coming = (s.prod j).coming ∧ ((s.prod j).Ok → st.Ok) ∧ s' = { s with prod := upd s.prod j st }) ∨
    (∃ j x id seen, l = .claim j ∧ s.prod j = .chosen x id seen ∧
      s' = { s with
              qs := upd s.qs id ((s.qs id).claim x)
              prod := upd s.prod j (.claimed x id (s.qs id).tail)
              log := s.log ++ [⟨origin j, id, x, decide ((s.qs id).pc = .ended)⟩] }) ∨
    (∃ j x id i q, l = .store j ∧ s.prod j = .claimed x id i ∧ (s.qs id).store i x = .ok q ∧
      s' = { s with qs := upd s.qs id q, prod := upd s.prod j .idle }) ∨
    (l = .close ∧ s.closed = false ∧ (∀ p, s.prod (2 * p + 1) = .idle) ∧ s' = { s with closed := true }) ∨
    (∃ n e q, l = .work n e ∧ n < size ∧ n < 8 ∧ (s.qs n).pc ≠ .ended ∧ s.todo n = [] ∧ s.prod (2 * n) = .idle ∧
      (s.qs n).work s.closed e = .ok q ∧
      s' = { s with qs := upd s.qs n q, todo := upd s.todo n (asked (h n) (s.qs n)) }) := by
  generalize hr : Res.ok s' = r at hs
  cases hs with
  | start p x h1 h2 =>
    cases hr
    exact .inl ⟨p, x, rfl, h1, h2, rfl⟩
  | begin n x rest h1 h2 =>
    cases hr
    exact .inr (.inl ⟨n, x, rest, rfl, h1, h2, rfl⟩)
  | scan j x k acc seen h1 =>
    cases hr
    exact .inr (.inr (.inl ⟨j, .read x k (if tf then (s.qs k).tail else (s.qs k).head) acc seen, rfl,
      by rw [h1]; trivial, trivial, by simp [h1], by simp, by rw [h1]; rfl, fun ho => by rw [h1] at ho; exact ho, rfl⟩))
  | read j x k v acc seen h1 =>
    cases hr
    refine .inr (.inr (.inl ⟨j, _, rfl, by rw [h1]; trivial, ?_, by simp [h1], ?_, ?_, fun ho => ?_, rfl⟩))
    · unfold nextScan
      split <;> trivial
    · unfold nextScan
      split <;> simp
    · rw [nextScan_coming, h1]; rfl
    · rw [h1] at ho
      exact (nextScan_ok _ _ _ _ _ ho.1 ho.2).1
  | claim j x id seen h1 =>
    cases hr
    exact .inr (.inr (.inr (.inl ⟨j, x, id, seen, rfl, h1, rfl⟩)))
  | store j x id i h1 =>
    cases hq : (s.qs id).store i x with
    | ub => rw [hq] at hr; cases hr
    | hang => rw [hq] at hr; cases hr
    | ok q =>
      rw [hq] at hr
      simp only [Res.ok_bind, Res.pure_eq, Res.ok.injEq] at hr
      exact .inr (.inr (.inr (.inr (.inl ⟨j, x, id, i, q, rfl, h1, hq, hr⟩))))
  | close h1 h2 =>
    cases hr
    exact .inr (.inr (.inr (.inr (.inr (.inl ⟨rfl, h1, h2, rfl⟩)))))
  | work n e h1 h2 h3 h4 =>
    split at hr
    · rename_i h8
      cases hq : (s.qs n).work s.closed e with
      | ub => rw [hq] at hr; cases hr
      | hang => rw [hq] at hr; cases hr
      | ok q =>
        rw [hq] at hr
        simp only [Res.ok_bind, Res.pure_eq, Res.ok.injEq] at hr
        exact .inr (.inr (.inr (.inr (.inr (.inr ⟨n, e, q, rfl, h1, h8, h2, h3, h4, hq, hr⟩)))))
    · cases hr

theorem Reach.mono {b size : Nat} {tf : Bool} {h : Handler α} {G G' : State α → Label α → Prop}
    (hG : ∀ s l, G s l → G' s l) {s : State α} (hr : Reach b size tf h G s) : Reach b size tf h G' s := by
  induction hr with
  | new => exact .new
  | step s s' l _ hg hs ih => exact .step s s' l ih (hG s l hg) hs

end Verif.Pipeline.Pool.Push
