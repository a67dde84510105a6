import Verif.Pipeline.Props
/-!
Several `pipeline_stage`s (`include/xitren/comm/pipeline_stage.hpp`) whose handlers push: into the next stage, as the
class is meant to be used, or into any other one, their own included.  A handler runs on the worker thread of its stage,
so the worker goes on only when the pushes of the handler are done; every other thread may do steps in between.

A stage may be pushed into until its worker has ended: member functions may be called while the destructor runs, and the
destructor ends after the worker.  A push into a stage whose worker has ended is undefined here (nothing keeps the
destructor from having returned).
-/
namespace Verif.Pipeline
open Verif
variable {α β : Type}

/-- A function changed in one place. -/
def upd (f : Nat → β) (i : Nat) (v : β) : Nat → β := fun j => if j = i then v else f j

/-- What a handler does: the handler of stage `i` given `x` pushes these items into these stages, in this order
(pipeline_stage.hpp:44, 123-124). -/
abbrev Handlers (α : Type) := Nat → α → List (Nat × α)

/-- Stages, with the pushes that each handler still has to make (`todo`) and the stage into which it is pushing (`now`:
the counter is incremented, the item not yet stored).  In `pend` of a stage the worker of stage `i` is producer `2 * i`
and thread `p` outside is producer `2 * p + 1`.  `made` and `log` only record: the pushes by the handler of stage `i` in
order, and the pushes into stage `i` with their origin (the stage, or `none` for a thread outside)
(pipeline_stage.hpp:34-140). -/
structure Net (α : Type) where
  stage : Nat → Stage α
  todo : Nat → List (Nat × α)
  now : Nat → Option Nat
  made : Nat → List (Nat × α)
  log : Nat → List (Option Nat × α)

/-- New stages, stage `i` with `b i` slots (pipeline_stage.hpp:46, 97-103). -/
def Net.new (b : Nat → Nat) : Net α :=
  ⟨fun i => Stage.new (b i), fun _ => [], fun _ => none, fun _ => [], fun _ => []⟩

/-- Producer `p` enters `push(x)` and increments the counter (pipeline_stage.hpp:59, 69). -/
def Stage.enter (s : Stage α) (p : Nat) (x : α) : Stage α :=
  { s with
    q := s.q.claim x
    pend := setAt s.pend p (some (s.q.tail, x)) }

/-- What the handler is about to be asked to push: it is called with the item in slot `k` (pipeline_stage.hpp:121-124). -/
def asked (h : α → List (Nat × α)) (q : Q α) : List (Nat × α) :=
  match q.pc with
  | .call k =>
    match q.slots[k % q.slots.length]? with
    | some (some v) => h v
    | _ => []
  | _ => []

/-- The steps: a thread outside enters `push` of stage `i`, and stores and returns; the destructor of stage `i` sets
`closed_`; the worker of stage `i` takes a step of its loop; its handler enters a push, and stores and returns. -/
inductive Act (α : Type) where
  | enter (i p : Nat) (x : α)
  | leave (i p : Nat)
  | close (i : Nat)
  | work (i : Nat) (e : Int)
  | push (i : Nat)
  | put (i : Nat)

/-- One step and its result (pipeline_stage.hpp:48-133).  Threads outside do not push once destruction has begun, and it
begins when they are not pushing. -/
inductive Net.Step (h : Handlers α) : Net α → Act α → Res (Net α) → Prop
  | enter (s : Net α) (i p : Nat) (x : α) : (s.stage i).closed = false → (s.stage i).pend (2 * p + 1) = none →
      Step h s (.enter i p x) (.ok
        { s with
          stage := upd s.stage i ((s.stage i).enter (2 * p + 1) x)
          log := upd s.log i (s.log i ++ [(none, x)]) })
  | leave (s : Net α) (i p k : Nat) (x : α) : (s.stage i).pend (2 * p + 1) = some (k, x) →
      Step h s (.leave i p) (do
        let q ← (s.stage i).q.store k x
        return { s with
          stage := upd s.stage i { s.stage i with q := q, pend := setAt (s.stage i).pend (2 * p + 1) none } })
  | close (s : Net α) (i : Nat) : (s.stage i).closed = false → (∀ p, (s.stage i).pend (2 * p + 1) = none) →
      Step h s (.close i) (.ok { s with stage := upd s.stage i { s.stage i with closed := true } })
  | work (s : Net α) (i : Nat) (e : Int) : (s.stage i).q.pc ≠ .ended → s.todo i = [] → s.now i = none →
      Step h s (.work i e) (do
        let q ← (s.stage i).q.work (s.stage i).closed e
        return { s with
          stage := upd s.stage i { s.stage i with q := q }
          todo := upd s.todo i (asked (h i) (s.stage i).q) })
  | push (s : Net α) (i j : Nat) (y : α) (rest : List (Nat × α)) : s.now i = none → s.todo i = (j, y) :: rest →
      Step h s (.push i)
        (if (s.stage j).q.pc = .ended then .ub
        else .ok
          { stage := upd s.stage j ((s.stage j).enter (2 * i) y)
            todo := upd s.todo i rest
            now := upd s.now i (some j)
            made := upd s.made i (s.made i ++ [(j, y)])
            log := upd s.log j (s.log j ++ [(some i, y)]) })
  | put (s : Net α) (i j k : Nat) (x : α) : s.now i = some j → (s.stage j).pend (2 * i) = some (k, x) →
      Step h s (.put i)
        (if (s.stage j).q.pc = .ended then .ub
        else do
          let q ← (s.stage j).q.store k x
          return { s with
            stage := upd s.stage j { s.stage j with q := q, pend := setAt (s.stage j).pend (2 * i) none }
            now := upd s.now i none })

/-- The states reached by steps that satisfy `G`, from stages with `b i` slots. -/
inductive Net.Reach (b : Nat → Nat) (h : Handlers α) (G : Net α → Act α → Prop) : Net α → Prop
  | new : Reach b h G (Net.new b)
  | step (s s' : Net α) (l : Act α) : Reach b h G s → G s l → Step h s l (.ok s') → Reach b h G s'

/-- No restriction. -/
def anyAct : Net α → Act α → Prop := fun _ _ => True

theorem Net.Reach.mono {b : Nat → Nat} {h : Handlers α} {G G' : Net α → Act α → Prop} (hG : ∀ s l, G s l → G' s l)
    {s : Net α} (hr : Reach b h G s) : Reach b h G' s := by
  induction hr with
  | new => exact .new
  | step s s' l _ hg hs ih => exact .step s s' l ih (hG s l hg) hs

@[simp] theorem upd_same (f : Nat → β) (i : Nat) (v : β) : upd f i v i = v := if_pos rfl
theorem upd_ne (f : Nat → β) {i j : Nat} (v : β) (h : j ≠ i) : upd f i v j = f j := if_neg h

/-! ### What a step does -/

/-- A step that returns. -/
theorem Net.Step.cases_ok {h : Handlers α} {s s' : Net α} {l : Act α} (hs : Step h s l (.ok s')) :
    (∃ i p x, l = .enter i p x ∧ (s.stage i).closed = false ∧ (s.stage i).pend (2 * p + 1) = none ∧
      s' = { s with
        stage := upd s.stage i ((s.stage i).enter (2 * p + 1) x)
        log := upd s.log i (s.log i ++ [(none, x)]) }) ∨
    (∃ i p k x q, l = .leave i p ∧ (s.stage i).pend (2 * p + 1) = some (k, x) ∧ (s.stage i).q.store k x = .ok q ∧
      s' = { s with
        stage := upd s.stage i { s.stage i with q := q, pend := setAt (s.stage i).pend (2 * p + 1) none } }) ∨
    (∃ i, l = .close i ∧ (s.stage i).closed = false ∧ (∀ p, (s.stage i).pend (2 * p + 1) = none) ∧
      s' = { s with stage := upd s.stage i { s.stage i with closed := true } }) ∨
    (∃ i e q, l = .work i e ∧ (s.stage i).q.pc ≠ .ended ∧ s.todo i = [] ∧ s.now i = none ∧
      (s.stage i).q.work (s.stage i).closed e = .ok q ∧
      s' = { s with
        stage := upd s.stage i { s.stage i with q := q }
        todo := upd s.todo i (asked (h i) (s.stage i).q) }) ∨
    (∃ i j y rest, l = .push i ∧ s.now i = none ∧ s.todo i = (j, y) :: rest ∧ (s.stage j).q.pc ≠ .ended ∧
      s' =
        { stage := upd s.stage j ((s.stage j).enter (2 * i) y)
          todo := upd s.todo i rest
          now := upd s.now i (some j)
          made := upd s.made i (s.made i ++ [(j, y)])
          log := upd s.log j (s.log j ++ [(some i, y)]) }) ∨
    (∃ i j k x q, l = .put i ∧ s.now i = some j ∧ (s.stage j).pend (2 * i) = some (k, x) ∧
      (s.stage j).q.pc ≠ .ended ∧ (s.stage j).q.store k x = .ok q ∧
      s' = { s with
        stage := upd s.stage j { s.stage j with q := q, pend := setAt (s.stage j).pend (2 * i) none }
        now := upd s.now i none }) := by
  generalize hr : Res.ok s' = r at hs
  cases hs with
  | enter i p x h1 h2 =>
    cases hr
    exact .inl ⟨i, p, x, rfl, h1, h2, rfl⟩
  | leave i p k x h1 =>
    cases hq : (s.stage i).q.store k x with
    | ub => rw [hq] at hr; cases hr
    | hang => rw [hq] at hr; cases hr
    | ok q =>
      rw [hq] at hr
      simp only [Res.ok_bind, Res.pure_eq, Res.ok.injEq] at hr
      exact .inr (.inl ⟨i, p, k, x, q, rfl, h1, hq, hr⟩)
  | close i h1 h2 =>
    cases hr
    exact .inr (.inr (.inl ⟨i, rfl, h1, h2, rfl⟩))
  | work i e h1 h2 h3 =>
    cases hq : (s.stage i).q.work (s.stage i).closed e with
    | ub => rw [hq] at hr; cases hr
    | hang => rw [hq] at hr; cases hr
    | ok q =>
      rw [hq] at hr
      simp only [Res.ok_bind, Res.pure_eq, Res.ok.injEq] at hr
      exact .inr (.inr (.inr (.inl ⟨i, e, q, rfl, h1, h2, h3, hq, hr⟩)))
  | push i j y rest h1 h2 =>
    by_cases he : (s.stage j).q.pc = .ended
    · rw [if_pos he] at hr
      cases hr
    · rw [if_neg he] at hr
      cases hr
      exact .inr (.inr (.inr (.inr (.inl ⟨i, j, y, rest, rfl, h1, h2, he, rfl⟩))))
  | put i j k x h1 h2 =>
    by_cases he : (s.stage j).q.pc = .ended
    · rw [if_pos he] at hr
      cases hr
    · rw [if_neg he] at hr
      cases hq : (s.stage j).q.store k x with
      | ub => rw [hq] at hr; cases hr
      | hang => rw [hq] at hr; cases hr
      | ok q =>
        rw [hq] at hr
        simp only [Res.ok_bind, Res.pure_eq, Res.ok.injEq] at hr
        exact .inr (.inr (.inr (.inr (.inr ⟨i, j, k, x, q, rfl, h1, h2, he, hq, hr⟩))))

/-! ### Control: what holds without any restriction -/

/-- What always holds of the handlers, the records and the destructors. -/
structure Ctl (b : Nat → Nat) (h : Handlers α) (s : Net α) : Prop where
  slots : ∀ j, (s.stage j).q.slots.length = b j
  busy : ∀ i, s.todo i ≠ [] ∨ s.now i ≠ none → (s.stage i).q.pc = .stat
  now : ∀ i j, (s.stage j).pend (2 * i) ≠ none ↔ s.now i = some j
  made : ∀ i, s.made i ++ s.todo i = ((s.stage i).q.handled).flatMap (h i)
  nowMade : ∀ i j, s.now i = some j → ∃ y, (j, y) ∈ s.made i
  log : ∀ j, (s.log j).map Prod.snd = (s.stage j).q.pushed
  origin : ∀ i j, ((s.log j).filter fun t => t.1 = some i).map Prod.snd =
    ((s.made i).filter fun t => t.1 = j).map Prod.snd
  outside : ∀ j, (s.stage j).closed = true → ∀ p, (s.stage j).pend (2 * p + 1) = none
  drain : ∀ j, (s.stage j).q.pc = .drain → (s.stage j).closed = true
  ended : ∀ j, (s.stage j).q.pc = .ended → (s.stage j).closed = true

theorem work_pc {c : Bool} {e : Int} {q q' : Q α} (hq : q.work c e = .ok q') :
    (q'.pc = .drain → c = true) ∧ (q'.pc = .ended → q.pc = .drain) := by
  cases hpc : q.pc with
  | outer =>
    simp only [Q.work, hpc, Res.ok.injEq] at hq
    subst hq
    cases c <;> simp
  | drain =>
    simp only [Q.work, hpc, Res.ok.injEq] at hq
    subst hq
    by_cases hz : (q.tail + word - q.head) % word > 0 <;> simp [hz]
  | inner =>
    simp only [Q.work, hpc, Res.ok.injEq] at hq
    subst hq
    by_cases hz : q.head < q.tail <;> simp [hz]
  | take => simp only [Q.work, hpc, Res.ok.injEq] at hq; subst hq; simp
  | stat => simp only [Q.work, hpc, Res.ok.injEq] at hq; subst hq; simp
  | ended => simp [Q.work, hpc] at hq
  | check =>
    cases hs : q.slots[q.head % q.slots.length]? with
    | none => simp [Q.work, hpc, hs] at hq
    | some o => cases o <;> (simp only [Q.work, hpc, hs, Res.ok.injEq] at hq; subst hq; simp)
  | call i =>
    rcases Q.work_handled hq with ⟨h4, h5⟩ | ⟨i, v, hpc', hs, h4⟩
    · exact absurd hpc (h5 i)
    · simp only [Q.work, hpc', hs] at hq
      cases h1 : timeForUnit q.stat with
      | ub => simp [h1] at hq
      | hang => simp [h1] at hq
      | ok a =>
      cases h2 : bufferUtilization q.stat with
      | ub => simp [h1, h2] at hq
      | hang => simp [h1, h2] at hq
      | ok b =>
      simp only [h1, h2, Res.ok_bind, Res.ok.injEq] at hq
      subst hq
      simp

/-- A step of the worker calls the handler exactly when it stands at `call`, and the handler's pushes follow. -/
theorem work_asked {c : Bool} {e : Int} {q q' : Q α} (h : α → List (Nat × α)) (hq : q.work c e = .ok q') :
    q'.handled.flatMap h = q.handled.flatMap h ++ asked h q ∧ (asked h q ≠ [] → q'.pc = .stat) := by
  rcases Q.work_handled hq with ⟨h4, h5⟩ | ⟨i, v, hpc, hs, h4⟩
  · have : asked h q = [] := by
      cases hpc : q.pc with
      | call i => exact absurd hpc (h5 i)
      | _ => simp [asked, hpc]
    rw [h4, this]
    simp
  · have ha : asked h q = h v := by simp [asked, hpc, hs]
    rw [ha, h4]
    refine ⟨by simp, fun _ => ?_⟩
    simp only [Q.work, hpc, hs] at hq
    cases h1 : timeForUnit q.stat with
    | ub => simp [h1] at hq
    | hang => simp [h1] at hq
    | ok a =>
    cases h2 : bufferUtilization q.stat with
    | ub => simp [h1, h2] at hq
    | hang => simp [h1, h2] at hq
    | ok b =>
    simp only [h1, h2, Res.ok_bind, Res.ok.injEq] at hq
    subst hq
    rfl

theorem Ctl.new (b : Nat → Nat) (h : Handlers α) : Ctl b h (Net.new b) := by
  constructor <;> simp [Net.new, Stage.new, Q.new]

/-- A stage that changes only by a push that begins. -/
theorem Stage.enter_fields (s : Stage α) (p : Nat) (x : α) :
    (s.enter p x).q.slots = s.q.slots ∧ (s.enter p x).q.pc = s.q.pc ∧ (s.enter p x).q.handled = s.q.handled ∧
    (s.enter p x).q.pushed = s.q.pushed ++ [x] ∧ (s.enter p x).closed = s.closed ∧
    (s.enter p x).pend = setAt s.pend p (some (s.q.tail, x)) := ⟨rfl, rfl, rfl, rfl, rfl, rfl⟩

theorem Ctl.step {b : Nat → Nat} {h : Handlers α} {s s' : Net α} {l : Act α} (hc : Ctl b h s)
    (hs : Net.Step h s l (.ok s')) : Ctl b h s' := by
  rcases hs.cases_ok with ⟨i, p, x, -, h1, h2, rfl⟩ | ⟨i, p, k, x, q, -, h1, hq, rfl⟩ | ⟨i, -, h1, h2, rfl⟩ |
    ⟨i, e, q, -, h1, h2, h3, hq, rfl⟩ | ⟨i, j, y, rest, -, h1, h2, h3, rfl⟩ | ⟨i, j, k, x, q, -, h1, h2, h3, hq, rfl⟩
  · -- a thread outside enters `push`
    obtain ⟨f1, f2, f3, f4, f5, f6⟩ := (s.stage i).enter_fields (2 * p + 1) x
    constructor
    · intro j
      by_cases hj : j = i
      · subst hj; simp only [upd_same, f1]; exact hc.slots j
      · simp only [upd_ne _ _ hj]; exact hc.slots j
    · intro j hb
      by_cases hj : j = i
      · subst hj; simp only [upd_same, f2]; exact hc.busy j hb
      · simp only [upd_ne _ _ hj]; exact hc.busy j hb
    · intro a j
      by_cases hj : j = i
      · subst hj
        simp only [upd_same, f6, setAt]
        rw [if_neg (by omega)]
        exact hc.now a j
      · simp only [upd_ne _ _ hj]; exact hc.now a j
    · intro j
      by_cases hj : j = i
      · subst hj; simp only [upd_same, f3]; exact hc.made j
      · simp only [upd_ne _ _ hj]; exact hc.made j
    · exact hc.nowMade
    · intro j
      by_cases hj : j = i
      · subst hj
        simp only [upd_same, f4, List.map_append, hc.log j]
        rfl
      · simp only [upd_ne _ _ hj]; exact hc.log j
    · intro a j
      by_cases hj : j = i
      · subst hj
        simp only [upd_same, List.filter_append, List.map_append, hc.origin a j]
        simp
      · simp only [upd_ne _ _ hj]; exact hc.origin a j
    · intro j hcl
      by_cases hj : j = i
      · subst hj
        simp only [upd_same, f5] at hcl
        rw [h1] at hcl
        cases hcl
      · simp only [upd_ne _ _ hj] at hcl ⊢; exact hc.outside j hcl
    · intro j hd
      by_cases hj : j = i
      · subst hj; simp only [upd_same, f2, f5] at hd ⊢; exact hc.drain j hd
      · simp only [upd_ne _ _ hj] at hd ⊢; exact hc.drain j hd
    · intro j hd
      by_cases hj : j = i
      · subst hj; simp only [upd_same, f2, f5] at hd ⊢; exact hc.ended j hd
      · simp only [upd_ne _ _ hj] at hd ⊢; exact hc.ended j hd
  · -- it stores and returns
    have hq' := Q.store_same hq
    subst hq'
    constructor
    · intro j
      by_cases hj : j = i
      · subst hj; simp only [upd_same, List.length_set]; exact hc.slots j
      · simp only [upd_ne _ _ hj]; exact hc.slots j
    · intro j hb
      by_cases hj : j = i
      · subst hj; simp only [upd_same]; exact hc.busy j hb
      · simp only [upd_ne _ _ hj]; exact hc.busy j hb
    · intro a j
      by_cases hj : j = i
      · subst hj
        simp only [upd_same, setAt]
        rw [if_neg (by omega)]
        exact hc.now a j
      · simp only [upd_ne _ _ hj]; exact hc.now a j
    · intro j
      by_cases hj : j = i
      · subst hj; simp only [upd_same]; exact hc.made j
      · simp only [upd_ne _ _ hj]; exact hc.made j
    · exact hc.nowMade
    · intro j
      by_cases hj : j = i
      · subst hj; simp only [upd_same]; exact hc.log j
      · simp only [upd_ne _ _ hj]; exact hc.log j
    · exact hc.origin
    · intro j hcl p'
      by_cases hj : j = i
      · subst hj
        simp only [upd_same, setAt] at hcl ⊢
        split
        · rfl
        · exact hc.outside j hcl p'
      · simp only [upd_ne _ _ hj] at hcl ⊢; exact hc.outside j hcl p'
    · intro j hd
      by_cases hj : j = i
      · subst hj; simp only [upd_same] at hd ⊢; exact hc.drain j hd
      · simp only [upd_ne _ _ hj] at hd ⊢; exact hc.drain j hd
    · intro j hd
      by_cases hj : j = i
      · subst hj; simp only [upd_same] at hd ⊢; exact hc.ended j hd
      · simp only [upd_ne _ _ hj] at hd ⊢; exact hc.ended j hd
  · -- destruction begins
    constructor
    · intro j
      by_cases hj : j = i
      · subst hj; simp only [upd_same]; exact hc.slots j
      · simp only [upd_ne _ _ hj]; exact hc.slots j
    · intro j hb
      by_cases hj : j = i
      · subst hj; simp only [upd_same]; exact hc.busy j hb
      · simp only [upd_ne _ _ hj]; exact hc.busy j hb
    · intro a j
      by_cases hj : j = i
      · subst hj; simp only [upd_same]; exact hc.now a j
      · simp only [upd_ne _ _ hj]; exact hc.now a j
    · intro j
      by_cases hj : j = i
      · subst hj; simp only [upd_same]; exact hc.made j
      · simp only [upd_ne _ _ hj]; exact hc.made j
    · exact hc.nowMade
    · intro j
      by_cases hj : j = i
      · subst hj; simp only [upd_same]; exact hc.log j
      · simp only [upd_ne _ _ hj]; exact hc.log j
    · exact hc.origin
    · intro j hcl p'
      by_cases hj : j = i
      · subst hj; simp only [upd_same]; exact h2 p'
      · simp only [upd_ne _ _ hj] at hcl ⊢; exact hc.outside j hcl p'
    · intro j hd
      by_cases hj : j = i
      · subst hj; simp only [upd_same]
      · simp only [upd_ne _ _ hj] at hd ⊢; exact hc.drain j hd
    · intro j hd
      by_cases hj : j = i
      · subst hj; simp only [upd_same]
      · simp only [upd_ne _ _ hj] at hd ⊢; exact hc.ended j hd
  · -- a worker takes a step
    obtain ⟨w1, w2, w3⟩ := Q.work_same hq
    obtain ⟨p1, p2⟩ := work_pc hq
    obtain ⟨a1, a2⟩ := work_asked (h i) hq
    constructor
    · intro j
      by_cases hj : j = i
      · subst hj; simp only [upd_same, w2]; exact hc.slots j
      · simp only [upd_ne _ _ hj]; exact hc.slots j
    · intro j hb
      by_cases hj : j = i
      · subst hj
        simp only [upd_same] at hb ⊢
        rcases hb with hb | hb
        · exact a2 hb
        · exact absurd h3 hb
      · simp only [upd_ne _ _ hj] at hb ⊢; exact hc.busy j hb
    · intro a j
      by_cases hj : j = i
      · subst hj; simp only [upd_same]; exact hc.now a j
      · simp only [upd_ne _ _ hj]; exact hc.now a j
    · intro j
      by_cases hj : j = i
      · subst hj
        have := hc.made j
        rw [h2, List.append_nil] at this
        simp only [upd_same, a1, this]
      · simp only [upd_ne _ _ hj]; exact hc.made j
    · exact hc.nowMade
    · intro j
      by_cases hj : j = i
      · subst hj; simp only [upd_same, w3]; exact hc.log j
      · simp only [upd_ne _ _ hj]; exact hc.log j
    · exact hc.origin
    · intro j hcl p'
      by_cases hj : j = i
      · subst hj; simp only [upd_same] at hcl ⊢; exact hc.outside j hcl p'
      · simp only [upd_ne _ _ hj] at hcl ⊢; exact hc.outside j hcl p'
    · intro j hd
      by_cases hj : j = i
      · subst hj; simp only [upd_same] at hd ⊢; exact p1 hd
      · simp only [upd_ne _ _ hj] at hd ⊢; exact hc.drain j hd
    · intro j hd
      by_cases hj : j = i
      · subst hj; simp only [upd_same] at hd ⊢; exact hc.drain j (p2 hd)
      · simp only [upd_ne _ _ hj] at hd ⊢; exact hc.ended j hd
  · -- a handler enters `push`
    obtain ⟨f1, f2, f3, f4, f5, f6⟩ := (s.stage j).enter_fields (2 * i) y
    have hst := hc.busy i (.inl (by rw [h2]; simp))
    have hpc : ∀ a, (upd s.stage j ((s.stage j).enter (2 * i) y) a).q.pc = (s.stage a).q.pc := by
      intro a
      by_cases hj : a = j
      · subst hj; rw [upd_same, f2]
      · rw [upd_ne _ _ hj]
    have hcl : ∀ a, (upd s.stage j ((s.stage j).enter (2 * i) y) a).closed = (s.stage a).closed := by
      intro a
      by_cases hj : a = j
      · subst hj; rw [upd_same, f5]
      · rw [upd_ne _ _ hj]
    constructor
    · intro a
      by_cases hj : a = j
      · subst hj; simp only [upd_same, f1]; exact hc.slots a
      · simp only [upd_ne _ _ hj]; exact hc.slots a
    · intro a hb
      rw [hpc]
      by_cases ha : a = i
      · subst ha; exact hst
      · simp only [upd_ne _ _ ha] at hb; exact hc.busy a hb
    · intro a c
      by_cases hj : c = j
      · subst hj
        simp only [upd_same, f6, setAt]
        by_cases ha : a = i
        · subst ha
          simp
        · rw [if_neg (by omega), upd_ne _ _ ha]
          exact hc.now a c
      · simp only [upd_ne _ _ hj]
        by_cases ha : a = i
        · subst ha
          have := hc.now a c
          rw [h1] at this
          simp only [upd_same, this]
          simp [Ne.symm hj]
        · rw [upd_ne _ _ ha]; exact hc.now a c
    · intro a
      have hh : (upd s.stage j ((s.stage j).enter (2 * i) y) a).q.handled = (s.stage a).q.handled := by
        by_cases hj : a = j
        · subst hj; rw [upd_same, f3]
        · rw [upd_ne _ _ hj]
      simp only [hh]
      by_cases ha : a = i
      · subst ha
        have := hc.made a
        rw [h2] at this
        simp only [upd_same, ← this, List.append_assoc, List.singleton_append]
      · simp only [upd_ne _ _ ha]; exact hc.made a
    · intro a c hn
      by_cases ha : a = i
      · subst ha
        simp only [upd_same, Option.some.injEq] at hn ⊢
        subst hn
        exact ⟨y, by simp⟩
      · simp only [upd_ne _ _ ha] at hn ⊢; exact hc.nowMade a c hn
    · intro a
      by_cases hj : a = j
      · subst hj
        simp only [upd_same, f4, List.map_append, hc.log a]
        rfl
      · simp only [upd_ne _ _ hj]; exact hc.log a
    · intro a c
      have hcc := hc.origin a c
      by_cases hj : c = j
      · subst hj
        simp only [upd_same, List.filter_append, List.map_append, hcc]
        by_cases ha : a = i
        · subst ha
          simp
        · simp only [upd_ne _ _ ha]
          simp [Ne.symm ha]
      · simp only [upd_ne _ _ hj, hcc]
        by_cases ha : a = i
        · subst ha
          simp [Ne.symm hj]
        · simp only [upd_ne _ _ ha]
    · intro a hd p'
      rw [hcl] at hd
      by_cases hj : a = j
      · subst hj
        simp only [upd_same, f6, setAt]
        rw [if_neg (by omega)]
        exact hc.outside a hd p'
      · simp only [upd_ne _ _ hj]; exact hc.outside a hd p'
    · intro a hd
      rw [hpc] at hd
      rw [hcl]
      exact hc.drain a hd
    · intro a hd
      rw [hpc] at hd
      rw [hcl]
      exact hc.ended a hd
  · -- it stores and returns
    have hq' := Q.store_same hq
    subst hq'
    constructor
    · intro a
      by_cases hj : a = j
      · subst hj; simp only [upd_same, List.length_set]; exact hc.slots a
      · simp only [upd_ne _ _ hj]; exact hc.slots a
    · intro a hb
      have hb' : s.todo a ≠ [] ∨ s.now a ≠ none := by
        by_cases ha : a = i
        · subst ha; exact .inr (by rw [h1]; simp)
        · simpa only [upd_ne _ _ ha] using hb
      have := hc.busy a hb'
      by_cases hj : a = j
      · subst hj; simp only [upd_same]; exact this
      · simp only [upd_ne _ _ hj]; exact this
    · intro a c
      by_cases hj : c = j
      · subst hj
        simp only [upd_same, setAt]
        by_cases ha : a = i
        · subst ha
          simp
        · rw [if_neg (by omega), upd_ne _ _ ha]
          exact hc.now a c
      · simp only [upd_ne _ _ hj]
        by_cases ha : a = i
        · subst ha
          have := hc.now a c
          rw [h1] at this
          simp only [upd_same, this]
          simp [Ne.symm hj]
        · rw [upd_ne _ _ ha]; exact hc.now a c
    · intro a
      by_cases hj : a = j
      · subst hj; simp only [upd_same]; exact hc.made a
      · simp only [upd_ne _ _ hj]; exact hc.made a
    · intro a c hn
      by_cases ha : a = i
      · subst ha
        simp only [upd_same] at hn
        cases hn
      · simp only [upd_ne _ _ ha] at hn; exact hc.nowMade a c hn
    · intro a
      by_cases hj : a = j
      · subst hj; simp only [upd_same]; exact hc.log a
      · simp only [upd_ne _ _ hj]; exact hc.log a
    · exact hc.origin
    · intro a hd p'
      by_cases hj : a = j
      · subst hj
        simp only [upd_same, setAt] at hd ⊢
        rw [if_neg (by omega)]
        exact hc.outside a hd p'
      · simp only [upd_ne _ _ hj] at hd ⊢; exact hc.outside a hd p'
    · intro a hd
      by_cases hj : a = j
      · subst hj; simp only [upd_same] at hd ⊢; exact hc.drain a hd
      · simp only [upd_ne _ _ hj] at hd ⊢; exact hc.drain a hd
    · intro a hd
      by_cases hj : a = j
      · subst hj; simp only [upd_same] at hd ⊢; exact hc.ended a hd
      · simp only [upd_ne _ _ hj] at hd ⊢; exact hc.ended a hd

theorem Net.Reach.ctl {b : Nat → Nat} {h : Handlers α} {G : Net α → Act α → Prop} {s : Net α} (hr : Reach b h G s) :
    Ctl b h s := by
  induction hr with
  | new => exact Ctl.new b h
  | step s s' l _ _ hs ih => exact ih.step hs

/-! ### One stage of several -/

/-- What a step of the whole can do to one stage. -/
inductive Stage.Move : Stage α → Stage α → Prop
  | same (s : Stage α) : Move s s
  | enter (s : Stage α) (p : Nat) (x : α) : s.pend p = none → s.q.pc ≠ .ended → Move s (s.enter p x)
  | store (s : Stage α) (p k : Nat) (x : α) (q : Q α) : s.pend p = some (k, x) → s.q.store k x = .ok q →
      Move s { s with q := q, pend := setAt s.pend p none }
  | close (s : Stage α) : s.closed = false → Move s { s with closed := true }
  | work (s : Stage α) (e : Int) (q : Q α) : s.q.work s.closed e = .ok q → Move s { s with q := q }

theorem Ctl.move {b : Nat → Nat} {h : Handlers α} {s s' : Net α} {l : Act α} (hc : Ctl b h s)
    (hs : Net.Step h s l (.ok s')) (j : Nat) : Stage.Move (s.stage j) (s'.stage j) := by
  rcases hs.cases_ok with ⟨i, p, x, -, h1, h2, rfl⟩ | ⟨i, p, k, x, q, -, h1, hq, rfl⟩ | ⟨i, -, h1, h2, rfl⟩ |
    ⟨i, e, q, -, h1, h2, h3, hq, rfl⟩ | ⟨i, a, y, rest, -, h1, h2, h3, rfl⟩ | ⟨i, a, k, x, q, -, h1, h2, h3, hq, rfl⟩
  · by_cases hj : j = i
    · subst hj
      simp only [upd_same]
      refine .enter _ _ _ h2 fun he => ?_
      rw [hc.ended j he] at h1
      cases h1
    · simp only [upd_ne _ _ hj]; exact .same _
  · by_cases hj : j = i
    · subst hj; simp only [upd_same]; exact .store _ _ k x q h1 hq
    · simp only [upd_ne _ _ hj]; exact .same _
  · by_cases hj : j = i
    · subst hj; simp only [upd_same]; exact .close _ h1
    · simp only [upd_ne _ _ hj]; exact .same _
  · by_cases hj : j = i
    · subst hj; simp only [upd_same]; exact .work _ e q hq
    · simp only [upd_ne _ _ hj]; exact .same _
  · by_cases hj : j = a
    · subst hj
      simp only [upd_same]
      refine .enter _ _ _ ?_ h3
      have := hc.now i j
      rw [h1] at this
      cases hp : (s.stage j).pend (2 * i) with
      | none => rfl
      | some v => rw [hp] at this; simp at this
    · simp only [upd_ne _ _ hj]; exact .same _
  · by_cases hj : j = a
    · subst hj; simp only [upd_same]; exact .store _ _ k x q h2 hq
    · simp only [upd_ne _ _ hj]; exact .same _

theorem Stage.Move.pushed_le {s s' : Stage α} (h : Move s s') :
    s.q.pushed.length ≤ s'.q.pushed.length ∧ s'.q.slots.length = s.q.slots.length := by
  cases h with
  | same => exact ⟨Nat.le_refl _, rfl⟩
  | enter p x _ _ => simp [Stage.enter, Q.claim]
  | store p k x q _ hq =>
    have := Q.store_same hq
    subst this
    simp
  | close _ => exact ⟨Nat.le_refl _, rfl⟩
  | work e q hq =>
    obtain ⟨_, h2, h3⟩ := Q.work_same hq
    simp [h2, h3]

theorem Stage.Move.inv {s s' : Stage α} (h : Move s s') (hi : QInv s.closed s.q s.pend)
    (hw : s'.q.pushed.length < word) : QInv s'.closed s'.q s'.pend := by
  cases h with
  | same => exact hi
  | enter p x hp hne =>
    refine hi.claimOpen p x ?_ hp hne
    simpa [Stage.enter, Q.claim] using hw
  | store p k x q hp hq => exact hi.store p k x hp hq
  | close hcl =>
    rw [hcl] at hi
    exact hi.close
  | work e q hq => exact hi.work e hq

theorem Stage.Move.firstLap {s s' : Stage α} (h : Move s s') (hi : QInv s.closed s.q s.pend) (hf : FirstLap s.q)
    (hl : s'.q.pushed.length ≤ s'.q.slots.length) : FirstLap s'.q := by
  have hle := h.pushed_le
  cases h with
  | same => exact hf
  | enter p x hp hne => exact hf.claim hi x
  | store p k x q hp hq => exact hf.store hi (by omega) p k x hp hq
  | close _ => exact hf
  | work e q hq => exact hf.work hi (by omega) hq

theorem Net.Reach.inv {b : Nat → Nat} {h : Handlers α} {G : Net α → Act α → Prop} {s : Net α} (hr : Reach b h G s)
    (j : Nat) (hb : 0 < b j) (hw : (s.stage j).q.pushed.length < word) :
    QInv (s.stage j).closed (s.stage j).q (s.stage j).pend := by
  induction hr with
  | new => exact QInv.new (b j) hb _ fun _ => rfl
  | step s s' l hr _ hs ih =>
    have hm := hr.ctl.move hs j
    exact hm.inv (ih (Nat.lt_of_le_of_lt hm.pushed_le.1 hw)) hw

theorem Net.Reach.firstLap {b : Nat → Nat} {h : Handlers α} {G : Net α → Act α → Prop} {s : Net α}
    (hr : Reach b h G s) (j : Nat) (hb : 0 < b j) (hw : (s.stage j).q.pushed.length < word)
    (hl : (s.stage j).q.pushed.length ≤ b j) : FirstLap (s.stage j).q := by
  induction hr with
  | new => exact FirstLap.new (b j)
  | step s s' l hr _ hs ih =>
    have hm := hr.ctl.move hs j
    have hle := hm.pushed_le
    have hi := hr.inv j hb (by omega)
    refine hm.firstLap hi (ih (by omega) (by omega)) ?_
    rw [hle.2, hr.ctl.slots j]
    exact hl

/-- The restriction under which several laps are safe: a push begins only while fewer items than slots are unhandled, and
a worker takes an index only when its store is complete. -/
def calm : Net α → Act α → Prop
  | s, .enter i _ _ => (s.stage i).q.tail < (s.stage i).q.handled.length + (s.stage i).q.slots.length
  | s, .push i => ∀ j y rest, s.todo i = (j, y) :: rest →
      (s.stage j).q.tail < (s.stage j).q.handled.length + (s.stage j).q.slots.length
  | s, .work i _ => (s.stage i).q.pc = .take → ∀ p x, (s.stage i).pend p ≠ some ((s.stage i).q.head, x)
  | _, _ => True

theorem Net.Reach.noOverrun {b : Nat → Nat} {h : Handlers α} {G : Net α → Act α → Prop} {s : Net α}
    (hG : ∀ s l, G s l → calm s l) (hr : Reach b h G s) (j : Nat) (hb : 0 < b j)
    (hw : (s.stage j).q.pushed.length < word) : NoOverrun (s.stage j).q (s.stage j).pend := by
  induction hr with
  | new => exact NoOverrun.new (b j) _ fun _ => rfl
  | step s s' l hr hg hs ih =>
    have hg := hG s l hg
    have hc := hr.ctl
    have hle := (hc.move hs j).pushed_le.1
    have hi := hr.inv j hb (by omega)
    have ih := ih (by omega)
    rcases hs.cases_ok with ⟨i, p, x, rfl, h1, h2, rfl⟩ | ⟨i, p, k, x, q, rfl, h1, hq, rfl⟩ | ⟨i, rfl, h1, h2, rfl⟩ |
      ⟨i, e, q, rfl, h1, h2, h3, hq, rfl⟩ | ⟨i, a, y, rest, rfl, h1, h2, h3, rfl⟩ |
      ⟨i, a, k, x, q, rfl, h1, h2, h3, hq, rfl⟩
    · by_cases hj : j = i
      · subst hj
        simp only [upd_same] at hw ⊢
        exact ih.claim hi _ x (by simpa [Stage.enter, Q.claim] using hw) h2 hg
      · simp only [upd_ne _ _ hj]; exact ih
    · by_cases hj : j = i
      · subst hj; simp only [upd_same]; exact ih.store hi _ k x h1 hq
      · simp only [upd_ne _ _ hj]; exact ih
    · by_cases hj : j = i
      · subst hj; simp only [upd_same]; exact ih
      · simp only [upd_ne _ _ hj]; exact ih
    · by_cases hj : j = i
      · subst hj; simp only [upd_same]; exact ih.work hi hg hq
      · simp only [upd_ne _ _ hj]; exact ih
    · by_cases hj : j = a
      · subst hj
        simp only [upd_same] at hw ⊢
        refine ih.claim hi _ y (by simpa [Stage.enter, Q.claim] using hw) ?_ (hg j y rest h2)
        have := hc.now i j
        rw [h1] at this
        cases hp : (s.stage j).pend (2 * i) with
        | none => rfl
        | some v => rw [hp] at this; simp at this
      · simp only [upd_ne _ _ hj]; exact ih
    · by_cases hj : j = a
      · subst hj; simp only [upd_same]; exact ih.store hi _ k x h2 hq
      · simp only [upd_ne _ _ hj]; exact ih

/-- Handler calls that take at most 214748364 ms (two and a half days). -/
def brief : Net α → Act α → Prop
  | _, .work _ e => 0 ≤ e ∧ e ≤ 214748364
  | _, _ => True

theorem Net.Reach.smallSamples {b : Nat → Nat} {h : Handlers α} {G : Net α → Act α → Prop} {s : Net α}
    (hG : ∀ s l, G s l → brief s l) (hr : Reach b h G s) (j : Nat) (hb : 0 < b j)
    (hn : (s.stage j).q.pushed.length ≤ 214748364) : SmallSamples (s.stage j).q.samples := by
  induction hr with
  | new => intro x hx; simp [Net.new, Stage.new, Q.new] at hx
  | step s s' l hr hg hs ih =>
    have hg := hG s l hg
    have hle := (hr.ctl.move hs j).pushed_le.1
    have hi := hr.inv j hb (by simp only [word]; omega)
    have ih := ih (by omega)
    rcases hs.cases_ok with ⟨i, p, x, rfl, h1, h2, rfl⟩ | ⟨i, p, k, x, q, rfl, h1, hq, rfl⟩ | ⟨i, rfl, h1, h2, rfl⟩ |
      ⟨i, e, q, rfl, h1, h2, h3, hq, rfl⟩ | ⟨i, a, y, rest, rfl, h1, h2, h3, rfl⟩ |
      ⟨i, a, k, x, q, rfl, h1, h2, h3, hq, rfl⟩
    · by_cases hj : j = i
      · subst hj; simp only [upd_same]; exact ih
      · simp only [upd_ne _ _ hj]; exact ih
    · have := Q.store_same hq
      subst this
      by_cases hj : j = i
      · subst hj; simp only [upd_same]; exact ih
      · simp only [upd_ne _ _ hj]; exact ih
    · by_cases hj : j = i
      · subst hj; simp only [upd_same]; exact ih
      · simp only [upd_ne _ _ hj]; exact ih
    · by_cases hj : j = i
      · subst hj; simp only [upd_same]; exact SmallSamples.work hi ih hg (by omega) hq
      · simp only [upd_ne _ _ hj]; exact ih
    · by_cases hj : j = a
      · subst hj; simp only [upd_same]; exact ih
      · simp only [upd_ne _ _ hj]; exact ih
    · have := Q.store_same hq
      subst this
      by_cases hj : j = a
      · subst hj; simp only [upd_same]; exact ih
      · simp only [upd_ne _ _ hj]; exact ih

/-! ### Following a schedule -/

/-- Only the first `n` threads outside and the first `n` handlers push. -/
def Idle (n : Nat) (s : Net α) : Prop :=
  (∀ i p, n ≤ p → (s.stage i).pend (2 * p + 1) = none) ∧ ∀ i, n ≤ i → s.now i = none

theorem Idle.pend {n : Nat} {s : Net α} {b : Nat → Nat} {h : Handlers α} (hi : Idle n s) (hc : Ctl b h s) (j p : Nat)
    (hp : 2 * n ≤ p) : (s.stage j).pend p = none := by
  obtain ⟨k, rfl | rfl⟩ : ∃ k, p = 2 * k ∨ p = 2 * k + 1 := ⟨p / 2, by omega⟩
  · have := hc.now k j
    rw [hi.2 k (by omega)] at this
    cases hq : (s.stage j).pend (2 * k) with
    | none => rfl
    | some v => rw [hq] at this; simp at this
  · exact hi.1 j k (by omega)

/-- A step computed; only threads and handlers below `n` push. -/
def Net.fire (h : Handlers α) (n : Nat) (s : Net α) : Act α → Option (Net α)
  | .enter i p x =>
    if (s.stage i).closed = false ∧ ((s.stage i).pend (2 * p + 1)).isNone ∧ p < n then
      some { s with
        stage := upd s.stage i ((s.stage i).enter (2 * p + 1) x)
        log := upd s.log i (s.log i ++ [(none, x)]) }
    else none
  | .leave i p =>
    match (s.stage i).pend (2 * p + 1) with
    | some (k, x) =>
      match (s.stage i).q.store k x with
      | .ok q => some { s with
          stage := upd s.stage i { s.stage i with q := q, pend := setAt (s.stage i).pend (2 * p + 1) none } }
      | _ => none
    | none => none
  | .close i =>
    if (s.stage i).closed = false ∧ (List.range n).all (fun p => ((s.stage i).pend (2 * p + 1)).isNone) = true then
      some { s with stage := upd s.stage i { s.stage i with closed := true } }
    else none
  | .work i e =>
    if (s.stage i).q.pc ≠ .ended ∧ (s.todo i).isEmpty = true ∧ s.now i = none then
      match (s.stage i).q.work (s.stage i).closed e with
      | .ok q => some { s with
          stage := upd s.stage i { s.stage i with q := q }
          todo := upd s.todo i (asked (h i) (s.stage i).q) }
      | _ => none
    else none
  | .push i =>
    match s.todo i with
    | [] => none
    | (j, y) :: rest =>
      if s.now i = none ∧ (s.stage j).q.pc ≠ .ended ∧ i < n then
        some
          { stage := upd s.stage j ((s.stage j).enter (2 * i) y)
            todo := upd s.todo i rest
            now := upd s.now i (some j)
            made := upd s.made i (s.made i ++ [(j, y)])
            log := upd s.log j (s.log j ++ [(some i, y)]) }
      else none
  | .put i =>
    match s.now i with
    | none => none
    | some j =>
      match (s.stage j).pend (2 * i) with
      | none => none
      | some (k, x) =>
        if (s.stage j).q.pc ≠ .ended then
          match (s.stage j).q.store k x with
          | .ok q => some { s with
              stage := upd s.stage j { s.stage j with q := q, pend := setAt (s.stage j).pend (2 * i) none }
              now := upd s.now i none }
          | _ => none
        else none

theorem Net.fire_step {h : Handlers α} {n : Nat} {s s' : Net α} {l : Act α}
    (hi : Idle n s) (hf : s.fire h n l = some s') : Step h s l (.ok s') ∧ Idle n s' := by
  obtain ⟨hi, hw⟩ := hi
  cases l with
  | enter i p x =>
    simp only [Net.fire] at hf
    split at hf
    · rename_i hc
      cases hf
      refine ⟨.enter s i p x hc.1 (by simpa using hc.2.1), fun a p' hp' => ?_, hw⟩
      by_cases ha : a = i
      · subst ha
        simp only [upd_same, Stage.enter, setAt]
        rw [if_neg (by omega)]
        exact hi a p' hp'
      · simp only [upd_ne _ _ ha]; exact hi a p' hp'
    · cases hf
  | leave i p =>
    simp only [Net.fire] at hf
    split at hf
    · rename_i k x hp
      split at hf
      · rename_i q hq
        cases hf
        have st := Step.leave (h := h) s i p k x hp
        rw [hq] at st
        refine ⟨st, fun a p' hp' => ?_, hw⟩
        by_cases ha : a = i
        · subst ha
          simp only [upd_same, setAt]
          split
          · rfl
          · exact hi a p' hp'
        · simp only [upd_ne _ _ ha]; exact hi a p' hp'
      · cases hf
    · cases hf
  | close i =>
    simp only [Net.fire] at hf
    split at hf
    · rename_i hc
      cases hf
      refine ⟨.close s i hc.1 fun p => ?_, fun a p' hp' => ?_, hw⟩
      · by_cases hp : n ≤ p
        · exact hi i p hp
        · have := hc.2
          simp only [List.all_eq_true, List.mem_range, Option.isNone_iff_eq_none] at this
          exact this p (by omega)
      · by_cases ha : a = i
        · subst ha; simp only [upd_same]; exact hi a p' hp'
        · simp only [upd_ne _ _ ha]; exact hi a p' hp'
    · cases hf
  | work i e =>
    simp only [Net.fire] at hf
    split at hf
    · rename_i hc
      split at hf
      · rename_i q hq
        cases hf
        have st := Step.work (h := h) s i e hc.1 (by simpa using hc.2.1) hc.2.2
        rw [hq] at st
        refine ⟨st, fun a p' hp' => ?_, hw⟩
        by_cases ha : a = i
        · subst ha; simp only [upd_same]; exact hi a p' hp'
        · simp only [upd_ne _ _ ha]; exact hi a p' hp'
      · cases hf
    · cases hf
  | push i =>
    simp only [Net.fire] at hf
    split at hf
    · cases hf
    · rename_i j y rest ht
      split at hf
      · rename_i hc
        cases hf
        have st := Step.push (h := h) s i j y rest hc.1 ht
        rw [if_neg hc.2.1] at st
        refine ⟨st, fun a p' hp' => ?_, fun a ha => ?_⟩
        · by_cases ha : a = j
          · subst ha
            simp only [upd_same, Stage.enter, setAt]
            rw [if_neg (by omega)]
            exact hi a p' hp'
          · simp only [upd_ne _ _ ha]; exact hi a p' hp'
        · have : a ≠ i := by omega
          simp only [upd_ne _ _ this]; exact hw a ha
      · cases hf
  | put i =>
    simp only [Net.fire] at hf
    split at hf
    · cases hf
    · rename_i j hn
      split at hf
      · cases hf
      · rename_i k x hp
        split at hf
        · rename_i hc
          split at hf
          · rename_i q hq
            cases hf
            have st := Step.put (h := h) s i j k x hn hp
            rw [if_neg hc, hq] at st
            refine ⟨st, fun a p' hp' => ?_, fun a ha => ?_⟩
            · by_cases ha : a = j
              · subst ha
                simp only [upd_same, setAt]
                rw [if_neg (by omega)]
                exact hi a p' hp'
              · simp only [upd_ne _ _ ha]; exact hi a p' hp'
            · by_cases hai : a = i
              · subst hai; exact upd_same _ _ _
              · simp only [upd_ne _ _ hai]; exact hw a ha
          · cases hf
        · cases hf

/-- Follow a schedule, as long as its steps pass the test `g`. -/
def Net.follow (h : Handlers α) (g : Net α → Act α → Bool) (n : Nat) : Net α → List (Act α) → Option (Net α)
  | s, [] => some s
  | s, l :: ls =>
    if g s l then
      match s.fire h n l with
      | some s' => s'.follow h g n ls
      | none => none
    else none

theorem Net.follow_reach {h : Handlers α} {g : Net α → Act α → Bool} {G : Net α → Act α → Prop} {n : Nat}
    {b : Nat → Nat} (hg : ∀ s l, Ctl b h s → Idle n s → g s l = true → G s l)
    {s s' : Net α} (ls : List (Act α)) (hr : Reach b h G s) (hi : Idle n s)
    (hf : s.follow h g n ls = some s') : Reach b h G s' := by
  induction ls generalizing s with
  | nil => cases hf; exact hr
  | cons l ls ih =>
    rw [Net.follow] at hf
    split at hf
    · rename_i hgl
      split at hf
      · rename_i s1 h1
        obtain ⟨hs, hi'⟩ := Net.fire_step hi h1
        exact ih (.step s s1 l hr (hg s l hr.ctl hi hgl) hs) hi' hf
      · cases hf
    · cases hf

/-- A schedule as a witness. -/
theorem Net.follow_ex {h : Handlers α} (g : Net α → Act α → Bool) {G : Net α → Act α → Prop} (n : Nat) {b : Nat → Nat}
    (hg : ∀ s l, Ctl b h s → Idle n s → g s l = true → G s l)
    {P : Net α → Prop} [DecidablePred P] (ls : List (Act α))
    (hf : ((Net.new b).follow h g n ls).any (fun s => decide (P s)) = true) : ∃ s, Reach b h G s ∧ P s := by
  cases hf' : (Net.new b).follow h g n ls with
  | none => rw [hf'] at hf; cases hf
  | some s =>
    rw [hf'] at hf
    exact ⟨s, Net.follow_reach hg ls .new ⟨fun _ _ _ => rfl, fun _ _ => rfl⟩ hf', by simpa using hf⟩

end Verif.Pipeline
