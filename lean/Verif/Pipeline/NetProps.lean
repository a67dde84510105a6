import Verif.Pipeline.Net
/-! The properties of `pipeline_stage`s whose handlers push. -/
namespace Verif.Pipeline
open Verif
variable {α : Type}

/-- What threads outside pushed into stage `j`, in order. -/
def Net.given (s : Net α) (j : Nat) : List α := ((s.log j).filter fun t => t.1 = none).map Prod.snd

/-- What the handler of stage `i` pushed into stage `j`, in order. -/
def Net.passed (s : Net α) (i j : Nat) : List α := ((s.made i).filter fun t => t.1 = j).map Prod.snd

/-- What the handler of stage `i` must push into stage `j` for the items `l`, in order. -/
def wanted (h : Handlers α) (i j : Nat) (l : List α) : List α :=
  ((l.flatMap (h i)).filter fun t => t.1 = j).map Prod.snd

namespace Ex

/-- `n` steps of the worker of stage `i`. -/
def ws (i n : Nat) : List (Act Nat) := List.replicate n (.work i 0)

/-- A whole push from outside. -/
def give (i : Nat) (x : Nat) : List (Act Nat) := [.enter i 0 x, .leave i 0]

/-- A whole push by the handler of stage `i`. -/
def pass (i : Nat) : List (Act Nat) := [.push i, .put i]

/-- A handler that puts positive even numbers back, halved: 12 becomes 6 becomes 3. -/
def halve : Handlers Nat := fun i x => if i = 0 ∧ x % 2 = 0 ∧ 0 < x then [(0, x / 2)] else []

/-- A handler that puts back whatever it gets. -/
def again : Handlers Nat := fun i x => if i = 0 then [(0, x)] else []

/-- Stages 0, 1, 2: the first passes on each number and its square, the second adds one and passes on. -/
def line : Handlers Nat := fun i x =>
  if i = 0 then [(1, x), (1, x * x)] else if i = 1 then [(2, x + 1)] else []

/-- Two numbers through the line, destroyed from the first stage to the last. -/
def lineRun : List (Act Nat) :=
  give 0 3 ++ give 0 5 ++ ws 0 5 ++ pass 0 ++ ws 1 5 ++ pass 1 ++ pass 0 ++ ws 0 1 ++ [.close 0] ++ ws 0 4 ++ pass 0 ++
    pass 0 ++ ws 0 4 ++ [.close 1] ++ ws 1 5 ++ pass 1 ++ ws 1 5 ++ pass 1 ++ ws 1 5 ++ pass 1 ++ ws 1 4 ++ [.close 2] ++
    ws 2 25

end Ex

/-! ### C98 -/

/-- C98: a push by a handler into its own stage is never undefined, whatever the schedule and also while the stage is
being destroyed. -/
theorem C98_own_stage_safe {b : Nat → Nat} {h : Handlers α} {s : Net α} (hr : Net.Reach b h anyAct s) (i : Nat)
    (hb : 0 < b i) :
    (∀ y rest, s.todo i = (i, y) :: rest → ¬ Net.Step h s (.push i) .ub) ∧
    (s.now i = some i → ¬ Net.Step h s (.put i) .ub) := by
  have hc := hr.ctl
  refine ⟨fun y rest ht hs => ?_, fun hn hs => ?_⟩
  · generalize hres : (Res.ub : Res (Net α)) = r at hs
    have hpc := hc.busy i (.inl (by rw [ht]; simp))
    cases hs with
    | push _ j y' rest' h1 h2 =>
      rw [ht] at h2
      cases h2
      rw [if_neg (by rw [hpc]; simp)] at hres
      cases hres
  · generalize hres : (Res.ub : Res (Net α)) = r at hs
    have hpc := hc.busy i (.inr (by rw [hn]; simp))
    cases hs with
    | put _ j k x h1 h2 =>
      rw [hn] at h1
      cases h1
      have hl := hc.slots i
      rw [if_neg (by rw [hpc]; simp), Q.store, if_pos (Nat.mod_lt _ (by omega))] at hres
      cases hres

/-- A stage that is being destroyed while its handler is about to put 6 back. -/
example : ∃ s, Net.Reach (fun _ => 4) Ex.halve anyAct s ∧ (s.stage 0).closed = true ∧ s.todo 0 = [(0, 6)] :=
  Net.follow_ex (fun _ _ => true) 1 (fun _ _ _ _ _ => trivial) (Ex.give 0 12 ++ [.close 0] ++ Ex.ws 0 6)
    (by decide +kernel)

/-- C98, for fewer than 2^64 pushes into the stage: when the worker of a stage has ended, destruction has begun, its
handler was invoked exactly as often as there were pushes into the stage, and it has made all the pushes that it was
to make for the items it got, in their order.  What is missing is the case of 2^64 and more pushes, see
`C54_wrap_refuted`. -/
theorem C98_counted_partial {b : Nat → Nat} {h : Handlers α} {s : Net α} (hr : Net.Reach b h anyAct s) (j : Nat)
    (hb : 0 < b j) (hw : (s.stage j).q.pushed.length < 2 ^ 64) (he : (s.stage j).q.pc = .ended) :
    (s.stage j).closed = true ∧ (s.stage j).q.handled.length = (s.stage j).q.pushed.length ∧
    s.made j = (s.stage j).q.handled.flatMap (h j) ∧
    ∀ k, s.passed j k = wanted h j k (s.stage j).q.handled := by
  have hc := hr.ctl
  have hi := hr.inv j hb hw
  obtain ⟨h1, h2⟩ := hi.ended he
  have h3 := hi.head
  have h4 := hi.tail
  rw [he] at h3
  simp only [Pc.taken] at h3
  have ht : s.todo j = [] := by
    cases ht : s.todo j with
    | nil => rfl
    | cons t r =>
      have := hc.busy j (.inl (by rw [ht]; simp))
      rw [he] at this
      cases this
  have hm := hc.made j
  rw [ht, List.append_nil] at hm
  refine ⟨h1, by omega, hm, fun k => ?_⟩
  rw [Net.passed, wanted, hm]

/-- Where the items of a stage come from: its pushes are those of the threads outside and of the handlers, mixed, each
with its own order. -/
theorem C98_origin {b : Nat → Nat} {h : Handlers α} {s : Net α} (hr : Net.Reach b h anyAct s) (j : Nat) :
    ∃ l : List (Option Nat × α), l.map Prod.snd = (s.stage j).q.pushed ∧
      (l.filter fun t => t.1 = none).map Prod.snd = s.given j ∧
      ∀ i, (l.filter fun t => t.1 = some i).map Prod.snd = s.passed i j :=
  ⟨s.log j, hr.ctl.log j, rfl, fun i => hr.ctl.origin i j⟩

/-- 12 goes through three times, and 7 once. -/
example : ∃ s, Net.Reach (fun _ => 4) Ex.halve anyAct s ∧ (s.stage 0).q.pc = .ended ∧
    (s.stage 0).q.pushed = [12, 7, 6, 3] ∧ (s.stage 0).q.handled = [12, 7, 6, 3] ∧ s.given 0 = [12, 7] ∧
    s.passed 0 0 = [6, 3] :=
  Net.follow_ex (fun _ _ => true) 1 (fun _ _ _ _ _ => trivial)
    (Ex.give 0 12 ++ Ex.give 0 7 ++ [.close 0] ++ Ex.ws 0 6 ++ Ex.pass 0 ++ Ex.ws 0 10 ++ Ex.pass 0 ++ Ex.ws 0 9)
    (by decide +kernel)

/-- C98, while there were no more pushes into the stage than it has slots: the items handed to the handler are an
initial part of those pushed, in the order of the pushes, and all of them when the worker has ended.  What is missing
is everything after the first lap, see `C55_stale_refuted` and `C55_overwritten_refuted`. -/
theorem C98_first_lap_partial {b : Nat → Nat} {h : Handlers α} {s : Net α} (hr : Net.Reach b h anyAct s) (j : Nat)
    (hb : 0 < b j) (hl : (s.stage j).q.pushed.length ≤ b j) (hw : (s.stage j).q.pushed.length < 2 ^ 64) :
    (s.stage j).q.handled = (s.stage j).q.pushed.take (s.stage j).q.handled.length ∧
    ((s.stage j).q.pc = .ended → (s.stage j).q.handled = (s.stage j).q.pushed) := by
  have hf := hr.firstLap j hb hw hl
  refine ⟨hf.order, fun he => ?_⟩
  have := (C98_counted_partial hr j hb hw he).2.1
  rw [hf.order, this, List.take_length]

/-- C98 for any number of laps, if pushes begin only while fewer items than slots are unhandled and a worker takes an
index only when the store for it is complete (`calm`).  The code enforces neither of the two. -/
theorem C98_calm_partial {b : Nat → Nat} {h : Handlers α} {s : Net α} (hr : Net.Reach b h calm s) (j : Nat)
    (hb : 0 < b j) (hw : (s.stage j).q.pushed.length < 2 ^ 64) :
    (s.stage j).q.handled = (s.stage j).q.pushed.take (s.stage j).q.handled.length ∧
    ((s.stage j).q.pc = .ended → (s.stage j).q.handled = (s.stage j).q.pushed) := by
  have hn := hr.noOverrun (fun _ _ h => h) j hb hw
  refine ⟨hn.order, fun he => ?_⟩
  have := (C98_counted_partial (hr.mono fun _ _ _ => trivial) j hb hw he).2.1
  rw [hn.order, this, List.take_length]

/-- The test for `calm`. -/
def isCalm (n : Nat) (s : Net α) : Act α → Bool
  | .enter i _ _ => (s.stage i).q.tail < (s.stage i).q.handled.length + (s.stage i).q.slots.length
  | .push i =>
    match s.todo i with
    | [] => true
    | (j, _) :: _ => (s.stage j).q.tail < (s.stage j).q.handled.length + (s.stage j).q.slots.length
  | .work i _ => (s.stage i).q.pc ≠ .take || (List.range (2 * n)).all fun p =>
      match (s.stage i).pend p with
      | some (k, _) => k ≠ (s.stage i).q.head
      | none => true
  | _ => true

theorem isCalm_calm {b : Nat → Nat} {h : Handlers α} {n : Nat} (s : Net α) (l : Act α) (hc : Ctl b h s) (hi : Idle n s)
    (ht : isCalm n s l = true) : calm s l := by
  cases l with
  | enter i p x => simpa [isCalm, calm] using ht
  | leave i p => trivial
  | close i => trivial
  | put i => trivial
  | push i =>
    intro j y rest hj
    simp only [isCalm, hj, decide_eq_true_eq] at ht
    exact ht
  | work i e =>
    intro hpc p x hp
    by_cases hpn : 2 * n ≤ p
    · rw [hi.pend hc i p hpn] at hp
      cases hp
    · simp only [isCalm, hpc, ne_eq, not_true_eq_false, decide_false, Bool.false_or, List.all_eq_true,
        List.mem_range] at ht
      have := ht p (by omega)
      rw [hp] at this
      simp at this

/-- Three laps on one slot, all but the first pushed by the handler. -/
example : ∃ s, Net.Reach (fun _ => 1) Ex.halve calm s ∧ (s.stage 0).q.pc = .ended ∧
    (s.stage 0).q.pushed = [12, 6, 3] ∧ (s.stage 0).q.handled = [12, 6, 3] :=
  Net.follow_ex (isCalm 1) 1 isCalm_calm
    (Ex.give 0 12 ++ Ex.ws 0 5 ++ Ex.pass 0 ++ Ex.ws 0 5 ++ Ex.pass 0 ++ [.close 0] ++ Ex.ws 0 9) (by decide +kernel)

/-! ### C99 -/

/-- Stages 0 to `m` in a line: each handler pushes into the next stage only, the last one not at all. -/
def Line (h : Handlers α) (m : Nat) : Prop := ∀ i x, ∀ t ∈ h i x, t.1 = i + 1 ∧ i < m

/-- Threads outside push into stage 0 only, and destruction of a stage begins when that of the stage before it is done
(as the language does it for members of a class or local variables, if each stage is declared after the one it pushes
into, which it has to be for its handler to name it). -/
def firstToLast : Net α → Act α → Prop
  | _, .enter i _ _ => i = 0
  | s, .close (i + 1) => (s.stage i).q.pc = .ended
  | _, _ => True

/-- What is to come out of the stages `0, 1, …, m - 1` in a line. -/
def through (h : Handlers α) : Nat → List α → List α
  | 0, l => l
  | m + 1, l => (through h m l).flatMap fun x => (h m x).map Prod.snd

theorem Stage.Move.ended {s s' : Stage α} (hm : Move s s') (he : s.q.pc = .ended) : s'.q.pc = .ended := by
  cases hm with
  | same => exact he
  | enter p x hp hne => exact absurd he hne
  | store p k x q hp hq =>
    have := Q.store_same hq
    subst this
    exact he
  | close hcl => exact he
  | work e q hq =>
    simp only [Q.work, he] at hq
    cases hq

/-- What holds of a line destroyed from the first stage to the last. -/
theorem Net.Reach.line {b : Nat → Nat} {h : Handlers α} {G : Net α → Act α → Prop} {s : Net α}
    (hG : ∀ s l, G s l → firstToLast s l) (hr : Reach b h G s) :
    (∀ i, (s.stage (i + 1)).closed = true → (s.stage i).q.pc = .ended) ∧
    (∀ i, ∀ t ∈ s.log (i + 1), t.1 ≠ none) := by
  induction hr with
  | new => exact ⟨fun i hc => (by cases hc), fun i t ht => (by cases ht)⟩
  | step s s' l hr hg hs ih =>
    have hg := hG s l hg
    obtain ⟨ih1, ih2⟩ := ih
    have hmv := hr.ctl.move hs
    refine ⟨fun a hcl => ?_, ?_⟩
    · by_cases hold : (s.stage (a + 1)).closed = true
      · exact (hmv a).ended (ih1 a hold)
      · have hne : (s.stage (a + 1)).closed = false := by simpa using hold
        have : l = .close (a + 1) := by
          rcases hs.cases_ok with ⟨i, p, x, rfl, h1, h2, rfl⟩ | ⟨i, p, k, x, q, rfl, h1, hq, rfl⟩ |
            ⟨i, rfl, h1, h2, rfl⟩ | ⟨i, e, q, rfl, h1, h2, h3, hq, rfl⟩ | ⟨i, j, y, rest, rfl, h1, h2, h3, rfl⟩ |
            ⟨i, j, k, x, q, rfl, h1, h2, h3, hq, rfl⟩
          · by_cases hj : a + 1 = i
            · subst hj; simp only [upd_same, Stage.enter] at hcl; exact absurd hcl hold
            · simp only [upd_ne _ _ hj] at hcl; exact absurd hcl hold
          · by_cases hj : a + 1 = i
            · subst hj; simp only [upd_same] at hcl; exact absurd hcl hold
            · simp only [upd_ne _ _ hj] at hcl; exact absurd hcl hold
          · by_cases hj : a + 1 = i
            · subst hj; rfl
            · simp only [upd_ne _ _ hj] at hcl; exact absurd hcl hold
          · by_cases hj : a + 1 = i
            · subst hj; simp only [upd_same] at hcl; exact absurd hcl hold
            · simp only [upd_ne _ _ hj] at hcl; exact absurd hcl hold
          · by_cases hj : a + 1 = j
            · subst hj; simp only [upd_same, Stage.enter] at hcl; exact absurd hcl hold
            · simp only [upd_ne _ _ hj] at hcl; exact absurd hcl hold
          · by_cases hj : a + 1 = j
            · subst hj; simp only [upd_same] at hcl; exact absurd hcl hold
            · simp only [upd_ne _ _ hj] at hcl; exact absurd hcl hold
        subst this
        exact (hmv a).ended hg
    · intro a t ht
      rcases hs.cases_ok with ⟨i, p, x, rfl, h1, h2, rfl⟩ | ⟨i, p, k, x, q, rfl, h1, hq, rfl⟩ |
        ⟨i, rfl, h1, h2, rfl⟩ | ⟨i, e, q, rfl, h1, h2, h3, hq, rfl⟩ | ⟨i, j, y, rest, rfl, h1, h2, h3, rfl⟩ |
        ⟨i, j, k, x, q, rfl, h1, h2, h3, hq, rfl⟩
      · have hj : a + 1 ≠ i := by
          simp only [firstToLast] at hg
          omega
        simp only [upd_ne _ _ hj] at ht
        exact ih2 a t ht
      · exact ih2 a t ht
      · exact ih2 a t ht
      · exact ih2 a t ht
      · by_cases hj : a + 1 = j
        · subst hj
          simp only [upd_same, List.mem_append, List.mem_singleton] at ht
          rcases ht with ht | rfl
          · exact ih2 a t ht
          · simp
        · simp only [upd_ne _ _ hj] at ht; exact ih2 a t ht
      · exact ih2 a t ht

/-- C99: in a line destroyed from the first stage to the last no handler pushes into a stage that is gone. -/
theorem C99_safe {b : Nat → Nat} (hb : ∀ i, 0 < b i) {h : Handlers α} {m : Nat} (hl : Line h m) {s : Net α}
    (hr : Net.Reach b h firstToLast s) (i : Nat) :
    ¬ Net.Step h s (.push i) .ub ∧ ¬ Net.Step h s (.put i) .ub := by
  have hc := hr.ctl
  obtain ⟨k1, _⟩ := hr.line fun _ _ h => h
  have key : ∀ j, (s.todo i ≠ [] ∨ s.now i ≠ none) → j = i + 1 → (s.stage j).q.pc ≠ .ended := by
    intro j hbusy hj he
    subst hj
    have := k1 i (hc.ended _ he)
    rw [hc.busy i hbusy] at this
    cases this
  refine ⟨fun hs => ?_, fun hs => ?_⟩
  · generalize hres : (Res.ub : Res (Net α)) = r at hs
    cases hs with
    | push _ j y rest h1 h2 =>
      have hmem : (j, y) ∈ (s.stage i).q.handled.flatMap (h i) := by
        rw [← hc.made i, h2]
        simp
      obtain ⟨x, _, hx⟩ := List.mem_flatMap.1 hmem
      rw [if_neg (key j (.inl (by rw [h2]; simp)) (hl i x _ hx).1)] at hres
      cases hres
  · generalize hres : (Res.ub : Res (Net α)) = r at hs
    cases hs with
    | put _ j k x h1 h2 =>
      obtain ⟨y, hy⟩ := hc.nowMade i j h1
      have hmem : (j, y) ∈ (s.stage i).q.handled.flatMap (h i) := by
        rw [← hc.made i]
        exact List.mem_append_left _ hy
      obtain ⟨x', _, hx⟩ := List.mem_flatMap.1 hmem
      have hlen := hc.slots j
      have := hb j
      rw [if_neg (key j (.inr (by rw [h1]; simp)) (hl i x' _ hx).1), Q.store,
        if_pos (Nat.mod_lt _ (by omega))] at hres
      cases hres

theorem filter_map_all {β γ : Type} (l : List β) (p : β → Bool) (f : β → γ) (h : ∀ t ∈ l, p t = true) :
    (l.filter p).map f = l.map f := by
  rw [List.filter_eq_self.2 h]

/-- In a line the pushes into a stage are those of the handler before. -/
theorem line_pushed {b : Nat → Nat} {h : Handlers α} {m : Nat} (hl : Line h m) {G : Net α → Act α → Prop} {s : Net α}
    (hG : ∀ s l, G s l → firstToLast s l) (hr : Net.Reach b h G s) :
    (s.stage 0).q.pushed = s.given 0 ∧
    ∀ i, s.todo i = [] →
      (s.stage (i + 1)).q.pushed = (s.stage i).q.handled.flatMap fun x => (h i x).map Prod.snd := by
  have hc := hr.ctl
  obtain ⟨_, k2⟩ := hr.line hG
  have hmade : ∀ i, ∀ t ∈ s.made i, t.1 = i + 1 := by
    intro i t ht
    have hmem : t ∈ (s.stage i).q.handled.flatMap (h i) := by
      rw [← hc.made i]
      exact List.mem_append_left _ ht
    obtain ⟨x, _, hx⟩ := List.mem_flatMap.1 hmem
    exact (hl i x t hx).1
  have htag : ∀ j a, ∀ t ∈ s.log j, t.1 = some a → j = a + 1 := by
    intro j a t ht hta
    have h1 : t.2 ∈ ((s.log j).filter fun t => t.1 = some a).map Prod.snd :=
      List.mem_map_of_mem (List.mem_filter.2 ⟨ht, by simpa using hta⟩)
    rw [hc.origin a j] at h1
    obtain ⟨u, hu, _⟩ := List.mem_map.1 h1
    obtain ⟨hu1, hu2⟩ := List.mem_filter.1 hu
    have := hmade a u hu1
    simp only [decide_eq_true_eq] at hu2
    omega
  refine ⟨?_, fun i ht => ?_⟩
  · rw [← hc.log 0, Net.given, filter_map_all]
    intro t ht
    cases hv : t.1 with
    | none => simp
    | some a =>
      have := htag 0 a t ht hv
      omega
  · have h1 : ((s.log (i + 1)).filter fun t => t.1 = some i).map Prod.snd = (s.log (i + 1)).map Prod.snd := by
      refine filter_map_all _ _ _ fun t ht' => ?_
      cases hv : t.1 with
      | none => exact absurd hv (k2 i t ht')
      | some a =>
        have := htag (i + 1) a t ht' hv
        have : a = i := by omega
        simp [this]
    have h2 : ((s.made i).filter fun t => t.1 = i + 1).map Prod.snd = (s.made i).map Prod.snd :=
      filter_map_all _ _ _ fun t ht' => by simpa using hmade i t ht'
    have h3 := hc.made i
    rw [ht, List.append_nil] at h3
    rw [← hc.log (i + 1), ← h1, hc.origin i (i + 1), h2, h3, List.map_flatMap]

/-- When the last stage has ended, so have the others, and what came in is through. -/
theorem line_out {b : Nat → Nat} {h : Handlers α} {m : Nat} (hl : Line h m) {G : Net α → Act α → Prop} {s : Net α}
    (hG : ∀ s l, G s l → firstToLast s l) (hr : Net.Reach b h G s)
    (hall : ∀ j, j ≤ m → (s.stage j).q.pc = .ended → (s.stage j).q.handled = (s.stage j).q.pushed)
    (he : (s.stage m).q.pc = .ended) :
    ∀ j, j ≤ m → (s.stage j).q.pc = .ended ∧ (s.stage j).q.handled = through h j (s.given 0) := by
  have hc := hr.ctl
  obtain ⟨k1, _⟩ := hr.line hG
  obtain ⟨p0, p1⟩ := line_pushed hl hG hr
  have hended : ∀ d, d ≤ m → (s.stage (m - d)).q.pc = .ended := by
    intro d
    induction d with
    | zero => exact fun _ => he
    | succ d ih =>
      intro hd
      have := ih (by omega)
      have e : m - d = (m - (d + 1)) + 1 := by omega
      rw [e] at this
      exact k1 _ (hc.ended _ this)
  intro j
  induction j with
  | zero =>
    intro _
    have h0 := hended m (Nat.le_refl m)
    rw [Nat.sub_self] at h0
    exact ⟨h0, by rw [hall 0 (Nat.zero_le m) h0, p0]; rfl⟩
  | succ j ih =>
    intro hj
    obtain ⟨i1, i2⟩ := ih (by omega)
    have hje : (s.stage (j + 1)).q.pc = .ended := by
      have := hended (m - (j + 1)) (by omega)
      rwa [show m - (m - (j + 1)) = j + 1 by omega] at this
    have ht : s.todo j = [] := by
      cases ht : s.todo j with
      | nil => rfl
      | cons t r =>
        have := hc.busy j (.inl (by rw [ht]; simp))
        rw [i1] at this
        cases this
    exact ⟨hje, by rw [hall (j + 1) hj hje, p1 j ht, i2]; rfl⟩

/-- C99, while no stage gets more pushes than it has slots: when the last stage of a line has been destroyed, all stages
have, and each of them has handled exactly what the stages before make of the items pushed from outside, in their order.
What is missing is everything after the first lap, see `C55_stale_refuted`. -/
theorem C99_delivers_partial {b : Nat → Nat} (hb : ∀ i, 0 < b i) {h : Handlers α} {m : Nat} (hl : Line h m) {s : Net α}
    (hr : Net.Reach b h firstToLast s)
    (hn : ∀ j, j ≤ m → (s.stage j).q.pushed.length ≤ b j ∧ (s.stage j).q.pushed.length < 2 ^ 64)
    (he : (s.stage m).q.pc = .ended) (j : Nat) (hj : j ≤ m) :
    (s.stage j).q.pc = .ended ∧ (s.stage j).q.handled = through h j (s.given 0) :=
  line_out hl (fun _ _ h => h) hr
    (fun j hj he => (C98_first_lap_partial (hr.mono fun _ _ _ => trivial) j (hb j) (hn j hj).1 (hn j hj).2).2 he) he j hj

/-- C99 for any number of items, in calm schedules. -/
theorem C99_calm_partial {b : Nat → Nat} (hb : ∀ i, 0 < b i) {h : Handlers α} {m : Nat} (hl : Line h m) {s : Net α}
    (hr : Net.Reach b h (fun s l => firstToLast s l ∧ calm s l) s)
    (hn : ∀ j, j ≤ m → (s.stage j).q.pushed.length < 2 ^ 64)
    (he : (s.stage m).q.pc = .ended) (j : Nat) (hj : j ≤ m) :
    (s.stage j).q.pc = .ended ∧ (s.stage j).q.handled = through h j (s.given 0) :=
  line_out hl (fun _ _ h => h.1) hr
    (fun j hj he => (C98_calm_partial (hr.mono fun _ _ h => h.2) j (hb j) (hn j hj)).2 he) he j hj

theorem Ex.line_line : Line Ex.line 2 := by
  intro i x t ht
  simp only [Ex.line] at ht
  split at ht
  · rcases List.mem_cons.1 ht with rfl | ht
    · simp_all
    · simp_all
  · split at ht <;> simp_all

/-- The test for `firstToLast`. -/
def isFirstToLast (s : Net α) : Act α → Bool
  | .enter i _ _ => i = 0
  | .close (i + 1) => (s.stage i).q.pc = .ended
  | _ => true

theorem isFirstToLast_spec (s : Net α) (l : Act α) (ht : isFirstToLast s l = true) : firstToLast s l := by
  cases l with
  | enter i p x => simpa [isFirstToLast, firstToLast] using ht
  | close i =>
    cases i with
    | zero => trivial
    | succ i => simpa [isFirstToLast, firstToLast] using ht
  | _ => trivial

/-- 3 and 5 through three stages, in a calm schedule. -/
example : ∃ s, Net.Reach (fun _ => 4) Ex.line (fun s l => firstToLast s l ∧ calm s l) s ∧
    (s.stage 2).q.pc = .ended ∧ s.given 0 = [3, 5] ∧ (s.stage 1).q.handled = [3, 9, 5, 25] ∧
    (s.stage 2).q.handled = [4, 10, 6, 26] ∧ ∀ j < 3, (s.stage j).q.pushed.length ≤ 4 :=
  Net.follow_ex (fun s l => isFirstToLast s l && isCalm 3 s l) 3
    (fun s l hc hi ht => by
      rw [Bool.and_eq_true] at ht
      exact ⟨isFirstToLast_spec s l ht.1, isCalm_calm s l hc hi ht.2⟩) Ex.lineRun (by decide +kernel)

/-- C99 fails in the other order: if the second stage is destroyed first, the handler of the first one pushes into a
stage that is gone. -/
theorem C99_order_refuted : ∃ s, Net.Reach (fun _ => 4) Ex.line anyAct s ∧ (s.stage 1).closed = true ∧
    (s.stage 0).closed = false ∧ Net.Step Ex.line s (.push 0) .ub := by
  obtain ⟨s, hr, h1, h2, h3, h4, h5⟩ : ∃ s, Net.Reach (fun _ => 4) Ex.line anyAct s ∧ (s.stage 1).closed = true ∧
      (s.stage 0).closed = false ∧ s.now 0 = none ∧ s.todo 0 = [(1, 3), (1, 9)] ∧ (s.stage 1).q.pc = .ended :=
    Net.follow_ex (fun _ _ => true) 1 (fun _ _ _ _ _ => trivial)
      (Ex.give 0 3 ++ [.close 1] ++ Ex.ws 1 2 ++ Ex.ws 0 5) (by decide +kernel)
  have st := Net.Step.push (h := Ex.line) s 0 1 3 [(1, 9)] h3 h4
  rw [if_pos h5] at st
  exact ⟨s, hr, h1, h2, st⟩

/-! ### C100 -/

/-- The first push into a stage is not one by its own handler. -/
theorem Net.Reach.first {b : Nat → Nat} {h : Handlers α} {G : Net α → Act α → Prop} {s : Net α}
    (hr : Reach b h G s) (j : Nat) (hb : 0 < b j) (hw : (s.stage j).q.pushed.length < word) :
    ∀ t, (s.log j)[0]? = some t → t.1 ≠ some j := by
  induction hr with
  | new => intro t ht; simp [Net.new] at ht
  | step s s' l hr hg hs ih =>
    have hc := hr.ctl
    have hle := (hc.move hs j).pushed_le.1
    have hi := hr.inv j hb (by omega)
    have ih := ih (by omega)
    rcases hs.cases_ok with ⟨i, p, x, rfl, h1, h2, rfl⟩ | ⟨i, p, k, x, q, rfl, h1, hq, rfl⟩ |
      ⟨i, rfl, h1, h2, rfl⟩ | ⟨i, e, q, rfl, h1, h2, h3, hq, rfl⟩ | ⟨i, a, y, rest, rfl, h1, h2, h3, rfl⟩ |
      ⟨i, a, k, x, q, rfl, h1, h2, h3, hq, rfl⟩
    · intro t ht
      by_cases hj : j = i
      · subst hj
        simp only [upd_same] at ht
        cases hlog : s.log j with
        | nil => rw [hlog] at ht; simp at ht; subst ht; simp
        | cons u r => rw [hlog] at ht ih; simp at ht; exact ih t (by simp [ht])
      · simp only [upd_ne _ _ hj] at ht; exact ih t ht
    · exact ih
    · exact ih
    · exact ih
    · intro t ht
      by_cases hj : j = a
      · subst hj
        simp only [upd_same] at ht
        cases hlog : s.log j with
        | nil =>
          rw [hlog] at ht
          simp at ht
          subst ht
          intro hij
          simp only [Option.some.injEq] at hij
          subst hij
          have l1 := hc.log i
          rw [hlog, List.map_nil] at l1
          have l2 := hi.head
          have l3 := hi.le
          have l4 := hi.tail
          rw [← l1, List.length_nil] at l4
          have l5 : (s.stage i).q.handled = [] := List.eq_nil_of_length_eq_zero (by omega)
          have l6 := hc.made i
          rw [l5, h2] at l6
          simp at l6
        | cons u r => rw [hlog] at ht ih; simp at ht; exact ih t (by simp [ht])
      · simp only [upd_ne _ _ hj] at ht; exact ih t ht
    · exact ih

/-- C100: a handler that pushes something into its own stage whatever it gets keeps the destructor of the stage from
ever returning, once anything was pushed. -/
theorem C100_never {b : Nat → Nat} {h : Handlers α} {s : Net α} (hr : Net.Reach b h anyAct s) (j : Nat) (hb : 0 < b j)
    (hw : (s.stage j).q.pushed.length < 2 ^ 64) (hself : ∀ x, ∃ y, (j, y) ∈ h j x)
    (hne : (s.stage j).q.pushed ≠ []) : (s.stage j).q.pc ≠ .ended := by
  intro he
  have hc := hr.ctl
  obtain ⟨_, h1, h2, h3⟩ := C98_counted_partial hr j hb hw he
  have h4 := hc.log j
  have hlen : (s.log j).length = (s.stage j).q.pushed.length := by rw [← h4, List.length_map]
  have h5 : (s.stage j).q.handled.length ≤ (wanted h j j (s.stage j).q.handled).length := by
    generalize (s.stage j).q.handled = l
    induction l with
    | nil => simp
    | cons x l ih =>
      obtain ⟨y, hy⟩ := hself x
      simp only [wanted, List.length_map, List.flatMap_cons, List.filter_append, List.length_append,
        List.length_cons] at ih ⊢
      have : 0 < ((h j x).filter fun t => decide (t.1 = j)).length :=
        List.length_pos_of_mem (List.mem_filter.2 ⟨hy, by simp⟩)
      omega
  rw [← h3 j, Net.passed, ← hc.origin j j, List.length_map, h1, ← hlen] at h5
  have h6 : ∀ t ∈ s.log j, t.1 = some j := by
    have := List.length_filter_eq_length_iff.1 (Nat.le_antisymm (List.length_filter_le (fun t => decide (t.1 = some j)) (s.log j)) h5)
    exact fun t ht => by simpa using this t ht
  cases hlog : s.log j with
  | nil =>
    rw [hlog, List.map_nil] at h4
    exact hne h4.symm
  | cons t r =>
    exact hr.first j hb hw t (by rw [hlog]; rfl) (h6 t (by rw [hlog]; simp))

/-- Four rounds of the same item, in destruction. -/
example : ∃ s, Net.Reach (fun _ => 1) Ex.again anyAct s ∧ (s.stage 0).closed = true ∧
    (s.stage 0).q.handled = [8, 8, 8, 8] :=
  Net.follow_ex (fun _ _ => true) 1 (fun _ _ _ _ _ => trivial)
    (Ex.give 0 8 ++ [.close 0] ++ Ex.ws 0 6 ++ Ex.pass 0 ++ Ex.ws 0 5 ++ Ex.pass 0 ++ Ex.ws 0 5 ++ Ex.pass 0 ++
      Ex.ws 0 5) (by decide +kernel)

/-- The sum of the weights of items. -/
def weight (w : α → Nat) (l : List α) : Nat := (l.map w).sum

/-- The sum of the weights of pushes by the handler of stage `j`: that of the item for a push into the own stage, one for
any other. -/
def cost (w : α → Nat) (j : Nat) (l : List (Nat × α)) : Nat := (l.map fun t => if t.1 = j then w t.2 else 1).sum

/-- The items of stage `j` not yet handled. -/
def Net.left (s : Net α) (j : Nat) : List α := (s.stage j).q.pushed.drop (s.stage j).q.handled.length

/-- The stage whose worker thread does a step. -/
def Act.worker : Act α → Option Nat
  | .work i _ => some i
  | .push i => some i
  | .put i => some i
  | _ => none

/-- Steps that satisfy `G`, `n` of them by the worker thread of stage `j`. -/
inductive Net.Run (h : Handlers α) (G : Net α → Act α → Prop) (j : Nat) : Net α → Nat → Net α → Prop
  | nil (s : Net α) : Run h G j s 0 s
  | step (s s1 s2 : Net α) (n : Nat) (l : Act α) : G s l → Step h s l (.ok s1) → Run h G j s1 n s2 →
      Run h G j s (n + if l.worker = some j then 1 else 0) s2

/-- What the worker of stage `j` still has to do. -/
def Net.burden (w : α → Nat) (j : Nat) (s : Net α) : Nat :=
  7 * (weight (fun x => w x - 1) (s.left j) + cost w j (s.todo j)) + (s.stage j).q.fuel +
    if s.now j = none then 0 else 1

/-- The stages that push into stage `j` have ended, except for itself. -/
def Net.alone (h : Handlers α) (j : Nat) (s : Net α) : Prop :=
  ∀ i, i ≠ j → (∃ x y, (j, y) ∈ h i x) → (s.stage i).q.pc = .ended

theorem drop_of_order {l p : List α} {v : α} (h : l ++ [v] = p.take (l ++ [v]).length) :
    p.drop l.length = v :: p.drop (l ++ [v]).length := by
  have hlt : l.length < p.length := by
    have := congrArg List.length h
    simp only [List.length_append, List.length_cons, List.length_nil, List.length_take] at this
    omega
  have hv : p[l.length]? = some v := by
    have h1 : (l ++ [v])[l.length]? = some v := by simp
    rw [h, List.getElem?_take] at h1
    simp only [List.length_append, List.length_cons, List.length_nil] at h1
    rw [if_pos (by omega)] at h1
    exact h1
  have hv' : p[l.length] = v := by
    rw [List.getElem?_eq_getElem hlt] at hv
    exact Option.some.inj hv
  rw [List.drop_eq_getElem_cons hlt, hv']
  simp

theorem burden_step {b : Nat → Nat} {h : Handlers α} {G : Net α → Act α → Prop} {s s' : Net α} {l : Act α} {w : α → Nat}
    {j : Nat} (hb : 0 < b j) (hw : ∀ x, 1 + cost w j (h j x) ≤ w x) (hr : Net.Reach b h G s)
    (hcl : (s.stage j).closed = true) (hal : s.alone h j) (hsm : (s'.stage j).q.pushed.length < word)
    (ho : (s'.stage j).q.handled = (s'.stage j).q.pushed.take (s'.stage j).q.handled.length)
    (hs : Net.Step h s l (.ok s')) :
    s'.burden w j + (if l.worker = some j then 1 else 0) ≤ s.burden w j := by
  have hc := hr.ctl
  have hle := (hc.move hs j).pushed_le.1
  have hi := hr.inv j hb (by omega)
  have hone : ∀ x, 1 ≤ w x := fun x => by
    have := hw x
    omega
  have hfrom : ∀ i, i ≠ j → (s.todo i ≠ [] ∨ s.now i ≠ none) → ∀ y, (j, y) ∉ s.made i ++ s.todo i := by
    intro i hij hbusy y hy
    rw [hc.made i] at hy
    obtain ⟨x, _, hx⟩ := List.mem_flatMap.1 hy
    have := hal i hij ⟨x, y, hx⟩
    rw [hc.busy i hbusy] at this
    cases this
  have same : ∀ s1 : Net α, s1.stage j = s.stage j → s1.todo j = s.todo j → s1.now j = s.now j →
      ∀ k, k = 0 → s1.burden w j + k ≤ s.burden w j := by
    intro s1 e1 e2 e3 k hk
    simp only [Net.burden, Net.left, e1, e2, e3, hk]
    exact Nat.le_refl _
  rcases hs.cases_ok with ⟨i, p, x, rfl, h1, h2, rfl⟩ | ⟨i, p, k, x, q, rfl, h1, hq, rfl⟩ |
    ⟨i, rfl, h1, h2, rfl⟩ | ⟨i, e, q, rfl, h1, h2, h3, hq, rfl⟩ | ⟨i, a, y, rest, rfl, h1, h2, h3, rfl⟩ |
    ⟨i, a, k, x, q, rfl, h1, h2, h3, hq, rfl⟩
  · have hj : j ≠ i := by
      rintro rfl
      rw [hcl] at h1
      cases h1
    refine same _ ?_ ?_ ?_ _ ?_
    · exact upd_ne _ _ hj
    · exact rfl
    · exact rfl
    · simp [Act.worker]
  · have hj : j ≠ i := by
      rintro rfl
      rw [hc.outside j hcl p] at h1
      cases h1
    refine same _ ?_ ?_ ?_ _ ?_
    · exact upd_ne _ _ hj
    · exact rfl
    · exact rfl
    · simp [Act.worker]
  · have hj : j ≠ i := by
      rintro rfl
      rw [hcl] at h1
      cases h1
    refine same _ ?_ ?_ ?_ _ ?_
    · exact upd_ne _ _ hj
    · exact rfl
    · exact rfl
    · simp [Act.worker]
  · by_cases hj : j = i
    · subst hj
      simp only [upd_same] at ho
      have hpend : ∀ p, (s.stage j).pend p = none := by
        intro p
        obtain ⟨k, rfl | rfl⟩ : ∃ k, p = 2 * k ∨ p = 2 * k + 1 := ⟨p / 2, by omega⟩
        · have hn : s.now k ≠ some j := by
            intro hn
            by_cases hk : k = j
            · subst hk
              rw [h3] at hn
              cases hn
            · obtain ⟨y, hy⟩ := hc.nowMade k j hn
              exact hfrom k hk (.inr (by rw [hn]; simp)) y (List.mem_append_left _ hy)
          have := mt (hc.now k j).1 hn
          simpa using this
        · exact hc.outside j hcl k
      have hi' := hi
      rw [hcl] at hq hi'
      have hlt := hi'.fuel_lt hpend hq
      have hmain : weight (fun x => w x - 1) (q.pushed.drop q.handled.length) + cost w j (asked (h j) (s.stage j).q) ≤
          weight (fun x => w x - 1) (s.left j) + cost w j (s.todo j) := by
        rw [h2, Net.left]
        obtain ⟨_, _, w3⟩ := Q.work_same hq
        rcases Q.work_handled hq with ⟨h4, h5⟩ | ⟨i, v, hpc, hsl, h4⟩
        · have : asked (h j) (s.stage j).q = [] := by
            cases hpc : (s.stage j).q.pc with
            | call i => exact absurd hpc (h5 i)
            | _ => simp [asked, hpc]
          rw [this, h4, w3]
          exact Nat.le_refl _
        · have ha : asked (h j) (s.stage j).q = h j v := by simp [asked, hpc, hsl]
          rw [h4, w3] at ho
          rw [ha, h4, w3, drop_of_order ho]
          have := hw v
          simp only [weight, List.map_cons, List.sum_cons]
          have hc0 : cost w j [] = 0 := rfl
          omega
      simp only [Net.burden, Net.left, upd_same, h3, Act.worker, if_true] at hmain ⊢
      omega
    · refine same _ ?_ ?_ ?_ _ ?_
      · exact upd_ne _ _ hj
      · exact upd_ne _ _ hj
      · exact rfl
      · simp [Act.worker, Ne.symm hj]
  · by_cases hj : j = i
    · subst hj
      have hpc := hc.busy j (.inl (by rw [h2]; simp))
      have ht := hi.tail
      have hhd := hi.head
      have hle' := hi.le
      rw [hpc] at hhd
      simp only [Pc.taken] at hhd
      by_cases ha : j = a
      · subst ha
        simp only [upd_same, Stage.enter, Q.claim, List.length_append, List.length_cons, List.length_nil] at hsm
        have htail : ((s.stage j).q.tail + 1) % word = (s.stage j).q.tail + 1 := Nat.mod_eq_of_lt (by omega)
        have := hone y
        simp only [Net.burden, Net.left, upd_same, Stage.enter, Q.claim, Q.fuel, hpc, htail, h1, h2, Act.worker, if_true,
          cost, weight, List.map_cons, List.sum_cons]
        rw [List.drop_append_of_le_length (by omega), List.map_append, List.sum_append]
        simp only [List.map_cons, List.map_nil, List.sum_cons, List.sum_nil]
        rw [if_neg (by simp)]
        omega
      · simp only [Net.burden, Net.left, upd_ne _ _ ha, upd_same, h1, h2, Act.worker, if_true, cost, List.map_cons,
          List.sum_cons]
        rw [if_neg (Ne.symm ha), if_neg (by simp)]
        omega
    · have ha : j ≠ a := by
        rintro rfl
        exact hfrom i (Ne.symm hj) (.inl (by rw [h2]; simp)) y (by rw [h2]; simp)
      refine same _ ?_ ?_ ?_ _ ?_
      · exact upd_ne _ _ ha
      · exact upd_ne _ _ hj
      · exact upd_ne _ _ hj
      · simp [Act.worker, Ne.symm hj]
  · have hq' := Q.store_same hq
    subst hq'
    by_cases hj : j = i
    · subst hj
      by_cases ha : j = a
      · subst ha
        have hpc := hc.busy j (.inr (by rw [h1]; simp))
        simp only [Net.burden, Net.left, upd_same, h1, Act.worker, if_true, Q.fuel, hpc]
        rw [if_neg (by simp)]
        omega
      · simp only [Net.burden, Net.left, upd_ne _ _ ha, upd_same, h1, Act.worker, if_true]
        rw [if_neg (by simp)]
        omega
    · have ha : j ≠ a := by
        rintro rfl
        obtain ⟨y, hy⟩ := hc.nowMade i j h1
        exact hfrom i (Ne.symm hj) (.inr (by rw [h1]; simp)) y (List.mem_append_left _ hy)
      refine same _ ?_ ?_ ?_ _ ?_
      · exact upd_ne _ _ ha
      · exact rfl
      · exact upd_ne _ _ hj
      · simp [Act.worker, Ne.symm hj]

theorem Net.alone.step {b : Nat → Nat} {h : Handlers α} {s s' : Net α} {l : Act α} {j : Nat} (hal : s.alone h j)
    (hc : Ctl b h s) (hs : Net.Step h s l (.ok s')) : s'.alone h j :=
  fun i hij hx => (hc.move hs i).ended (hal i hij hx)

theorem Stage.Move.closed {s s' : Stage α} (hm : Move s s') (hc : s.closed = true) : s'.closed = true := by
  cases hm with
  | close _ => rfl
  | _ => exact hc

/-- The bound for both kinds of schedule: `N` pushes, up to which the order is known. -/
theorem ends_run {b : Nat → Nat} {h : Handlers α} {G : Net α → Act α → Prop} {w : α → Nat} {j N : Nat} (hb : 0 < b j)
    (hw : ∀ x, 1 + cost w j (h j x) ≤ w x) (hN : N < word)
    (ho : ∀ s, Net.Reach b h G s → (s.stage j).q.pushed.length ≤ N →
      (s.stage j).q.handled = (s.stage j).q.pushed.take (s.stage j).q.handled.length)
    {s s' : Net α} {n : Nat} (hr : Net.Reach b h G s) (hcl : (s.stage j).closed = true) (hal : s.alone h j)
    (hrun : Net.Run h G j s n s') (hn : (s'.stage j).q.pushed.length ≤ N) :
    Net.Reach b h G s' ∧ (s'.stage j).closed = true ∧ s'.alone h j ∧ s'.burden w j + n ≤ s.burden w j ∧
    (s.stage j).q.pushed.length ≤ (s'.stage j).q.pushed.length := by
  induction hrun with
  | nil s => exact ⟨hr, hcl, hal, Nat.le_refl _, Nat.le_refl _⟩
  | step s s1 s2 n l hg hs _ ih =>
    have hm := hr.ctl.move hs j
    have hr1 : Net.Reach b h G s1 := .step s s1 l hr hg hs
    obtain ⟨i1, i2, i3, i4, i5⟩ := ih hr1 (hm.closed hcl) (hal.step hr.ctl hs) hn
    have := burden_step hb hw hr hcl hal (by omega) (ho s1 hr1 (by omega)) hs
    have := hm.pushed_le.1
    exact ⟨i1, i2, i3, by omega, by omega⟩

theorem burden_le {b : Nat → Nat} {h : Handlers α} {G : Net α → Act α → Prop} {w : α → Nat} {j : Nat} {s : Net α}
    (hb : 0 < b j) (hw : ∀ x, 1 ≤ w x) (hr : Net.Reach b h G s) (hsm : (s.stage j).q.pushed.length < word) :
    s.burden w j ≤ 7 * (weight w (s.left j) + cost w j (s.todo j)) + 13 := by
  have hi := hr.inv j hb hsm
  have h1 := hi.tail
  have h2 := hi.head
  have h3 := hi.le
  have hlen : (s.left j).length = (s.stage j).q.pushed.length - (s.stage j).q.handled.length := by
    rw [Net.left, List.length_drop]
  have hwt : weight (fun x => w x - 1) (s.left j) + (s.left j).length = weight w (s.left j) := by
    generalize s.left j = l
    induction l with
    | nil => rfl
    | cons x l ih =>
      have := hw x
      simp only [weight, List.map_cons, List.sum_cons, List.length_cons] at ih ⊢
      omega
  have hfuel : (s.stage j).q.fuel ≤ 5 * ((s.stage j).q.tail - (s.stage j).q.head) + 12 := by
    unfold Q.fuel
    split <;> (try split) <;> omega
  have hnow : (if s.now j = none then 0 else 1) ≤ 1 := by split <;> omega
  simp only [Net.burden]
  omega

/-- A worker that has not ended can go on, unless its handler is pushing into another stage that has ended. -/
theorem can_go_on {b : Nat → Nat} {h : Handlers α} {G : Net α → Act α → Prop} {j : Nat} {s : Net α}
    (hb : ∀ i, 0 < b i) (hG : ∀ s l, G s l → brief s l) (hr : Net.Reach b h G s)
    (hsm : (s.stage j).q.pushed.length ≤ 214748364) (hne : (s.stage j).q.pc ≠ .ended)
    (hto : ∀ i, i ≠ j → (∃ x y, (i, y) ∈ h j x) → (s.stage i).q.pc ≠ .ended) :
    ∃ l s', Act.worker l = some j ∧ brief s l ∧ Net.Step h s l (.ok s') := by
  have hc := hr.ctl
  have hi := hr.inv j (hb j) (by simp only [word]; omega)
  have hto' : ∀ a y, (a, y) ∈ s.made j ++ s.todo j → (s.stage a).q.pc ≠ .ended := by
    intro a y hy
    by_cases ha : a = j
    · subst ha; exact hne
    · rw [hc.made j] at hy
      obtain ⟨x, _, hx⟩ := List.mem_flatMap.1 hy
      exact hto a ha ⟨x, y, hx⟩
  cases hn : s.now j with
  | some a =>
    cases hp : (s.stage a).pend (2 * j) with
    | none => exact absurd hp ((hc.now j a).2 hn)
    | some v =>
      obtain ⟨k, x⟩ := v
      obtain ⟨y, hy⟩ := hc.nowMade j a hn
      have st := Net.Step.put (h := h) s j a k x hn hp
      have hl := hc.slots a
      have := hb a
      rw [if_neg (hto' a y (List.mem_append_left _ hy)), Q.store, if_pos (Nat.mod_lt _ (by omega))] at st
      exact ⟨.put j, _, rfl, trivial, st⟩
  | none =>
    cases ht : s.todo j with
    | cons t rest =>
      obtain ⟨a, y⟩ := t
      have st := Net.Step.push (h := h) s j a y rest hn ht
      rw [if_neg (hto' a y (by rw [ht]; simp))] at st
      exact ⟨.push j, _, rfl, trivial, st⟩
    | nil =>
      obtain ⟨q, hq⟩ := hi.progress (hr.smallSamples hG j (hb j) hsm) 0 hne
      have st := Net.Step.work (h := h) s j 0 hne ht hn
      rw [hq] at st
      exact ⟨_, _, rfl, by simp [brief], st⟩

/-- C100, in calm schedules with at most 214748364 pushes into the stage and handler calls of at most 214748364 ms: if
the pushes of the handler of stage `j` get lighter (each item outweighs the pushes for it), nobody else pushes into the
stage any more and the stages it pushes into are there, then, once destruction has begun, its worker takes at most
`7 * weight + 13` further steps, can take its next step until it has ended, and when it has ended everything pushed
into the stage has been handled, in order.  What is missing are the schedules that are not calm, see
`C55_stale_refuted`. -/
theorem C100_calm_partial {b : Nat → Nat} (hb : ∀ i, 0 < b i) {h : Handlers α} {w : α → Nat} {j : Nat}
    (hw : ∀ x, 1 + cost w j (h j x) ≤ w x) {s s' : Net α} {n : Nat}
    (hr : Net.Reach b h (fun s l => calm s l ∧ brief s l) s) (hcl : (s.stage j).closed = true) (hal : s.alone h j)
    (hrun : Net.Run h (fun s l => calm s l ∧ brief s l) j s n s')
    (hn : (s'.stage j).q.pushed.length ≤ 214748364)
    (hto : ∀ i, i ≠ j → (∃ x y, (i, y) ∈ h j x) → (s'.stage i).q.pc ≠ .ended) :
    n ≤ 7 * (weight w (s.left j) + cost w j (s.todo j)) + 13 ∧
    ((s'.stage j).q.pc ≠ .ended → ∃ l s'', Act.worker l = some j ∧ Net.Step h s' l (.ok s'')) ∧
    ((s'.stage j).q.pc = .ended → (s'.stage j).q.handled = (s'.stage j).q.pushed) := by
  obtain ⟨k1, _, _, k4, k5⟩ := ends_run (N := 214748364) (hb j) hw (by decide)
    (fun s hs hp => (C98_calm_partial (hs.mono fun _ _ h => h.1) j (hb j)
      (Nat.lt_of_le_of_lt hp (by decide))).1) hr hcl hal hrun hn
  have := burden_le (w := w) (hb j) (fun x => by have := hw x; omega) hr (show _ < word by simp only [word]; omega)
  refine ⟨by omega, fun hne => ?_, fun he =>
    (C98_calm_partial (k1.mono fun _ _ h => h.1) j (hb j) (Nat.lt_of_le_of_lt hn (by decide))).2 he⟩
  obtain ⟨l, s'', g1, _, g3⟩ := can_go_on hb (fun _ _ h => h.2) k1 hn hne hto
  exact ⟨l, s'', g1, g3⟩

/-- The test for `brief`. -/
def isBrief : Act α → Bool
  | .work _ e => 0 ≤ e ∧ e ≤ 214748364
  | _ => true

theorem isBrief_spec (s : Net α) (l : Act α) (ht : isBrief l = true) : brief s l := by
  cases l with
  | work i e => simpa [isBrief, brief] using ht
  | _ => trivial

/-- The handler that halves, with the weight `x + 1`. -/
example : (∀ x, 1 + cost (· + 1) 0 (Ex.halve 0 x) ≤ x + 1) ∧ (∀ s : Net Nat, s.alone Ex.halve 0) ∧
    ∀ i, i ≠ 0 → ¬ ∃ x y, (i, y) ∈ Ex.halve 0 x := by
  refine ⟨fun x => ?_, fun s i hi ⟨x, y, hx⟩ => ?_, fun i hi ⟨x, y, hx⟩ => ?_⟩
  · by_cases hc : x % 2 = 0 ∧ 0 < x
    · simp only [Ex.halve, true_and, if_pos hc, cost, List.map_cons, List.map_nil, List.sum_cons, List.sum_nil, if_true]
      omega
    · simp [Ex.halve, if_neg hc, cost]
  · simp [Ex.halve, hi] at hx
  · simp only [Ex.halve] at hx
    split at hx <;> simp_all

/-- It gets 12 and 7 and is then destroyed, on two slots. -/
example : ∃ s, Net.Reach (fun _ => 2) Ex.halve (fun s l => calm s l ∧ brief s l) s ∧ (s.stage 0).closed = true ∧
    s.left 0 = [12, 7] ∧ s.todo 0 = [] :=
  Net.follow_ex (fun s l => isCalm 1 s l && isBrief l) 1
    (fun s l hc hi ht => by
      rw [Bool.and_eq_true] at ht
      exact ⟨isCalm_calm s l hc hi ht.1, isBrief_spec s l ht.2⟩)
    (Ex.give 0 12 ++ Ex.give 0 7 ++ [.close 0]) (by decide +kernel)

/-- C100 in any schedule, while there are no more pushes into the stage than it has slots. -/
theorem C100_first_lap_partial {b : Nat → Nat} (hb : ∀ i, 0 < b i) {h : Handlers α} {w : α → Nat} {j : Nat}
    (hw : ∀ x, 1 + cost w j (h j x) ≤ w x) {s s' : Net α} {n : Nat}
    (hr : Net.Reach b h brief s) (hcl : (s.stage j).closed = true) (hal : s.alone h j)
    (hrun : Net.Run h brief j s n s') (hl : (s'.stage j).q.pushed.length ≤ b j)
    (hn : (s'.stage j).q.pushed.length ≤ 214748364)
    (hto : ∀ i, i ≠ j → (∃ x y, (i, y) ∈ h j x) → (s'.stage i).q.pc ≠ .ended) :
    n ≤ 7 * (weight w (s.left j) + cost w j (s.todo j)) + 13 ∧
    ((s'.stage j).q.pc ≠ .ended → ∃ l s'', Act.worker l = some j ∧ Net.Step h s' l (.ok s'')) ∧
    ((s'.stage j).q.pc = .ended → (s'.stage j).q.handled = (s'.stage j).q.pushed) := by
  have hmin : (s'.stage j).q.pushed.length ≤ min (b j) 214748364 := by omega
  obtain ⟨k1, _, _, k4, k5⟩ := ends_run (N := min (b j) 214748364) (hb j) hw
    (Nat.lt_of_le_of_lt (Nat.min_le_right _ _) (by decide))
    (fun s hs hp => (C98_first_lap_partial (hs.mono fun _ _ _ => trivial) j (hb j)
      (Nat.le_trans hp (Nat.min_le_left _ _))
      (Nat.lt_of_le_of_lt (Nat.le_trans hp (Nat.min_le_right _ _)) (by decide))).1) hr hcl hal hrun hmin
  have := burden_le (w := w) (hb j) (fun x => by have := hw x; omega) hr (show _ < word by simp only [word]; omega)
  refine ⟨by omega, fun hne => ?_, fun he =>
    (C98_first_lap_partial (k1.mono fun _ _ _ => trivial) j (hb j) hl (Nat.lt_of_le_of_lt hn (by decide))).2 he⟩
  obtain ⟨l, s'', g1, _, g3⟩ := can_go_on hb (fun _ _ h => h) k1 hn hne hto
  exact ⟨l, s'', g1, g3⟩

end Verif.Pipeline
