import Verif.Pipeline.PoolPush
/-!
The two models of the pool agree: with a handler that pushes nothing the steps of `PoolPush.lean` are those of `Pool.lean`.
-/
namespace Verif.Pipeline.Pool.Push.Agree
open Verif Verif.Pipeline Verif.Pipeline.Pool
variable {α : Type}

/-- A handler that pushes nothing (pipeline_stage_pool.hpp:52). -/
def silent : Handler α := fun _ _ => []

/-- A state as `Pool.lean` has it. -/
def old (s : State α) : Pool.State α := ⟨s.qs, s.closed, fun p => s.prod (2 * p + 1), s.items⟩

/-- The outcome as `Pool.lean` has it. -/
def oldRes (r : Res (State α)) : Res (Pool.State α) :=
  match r with
  | .ok s => .ok (old s)
  | .ub => .ub
  | .hang => .hang

/-- A step of `Pool.lean` (pipeline_stage_pool.hpp:55-129). -/
def new : Pool.Label α → Label α
  | .start p x => .start p x
  | .scan p => .scan (2 * p + 1)
  | .claim p => .claim (2 * p + 1)
  | .store p => .store (2 * p + 1)
  | .close => .close
  | .work n e => .work n e

/-- No handler is pushing. -/
def Quiet (s : State α) : Prop := ∀ n, s.todo n = [] ∧ s.prod (2 * n) = .idle

theorem upd_odd (f : Nat → Prod α) (p : Nat) (x : Prod α) :
    (fun q => upd f (2 * p + 1) x (2 * q + 1)) = upd (fun q => f (2 * q + 1)) p x := by
  funext q
  unfold upd
  by_cases h : q = p
  · rw [if_pos (by omega), if_pos h]
  · rw [if_neg (by omega), if_neg h]

theorem upd_even (f : Nat → Prod α) (p n : Nat) (x : Prod α) : upd f (2 * p + 1) x (2 * n) = f (2 * n) :=
  if_neg (by omega)

theorem odd_of {j : Nat} {s : State α} (hq : Quiet s) (h : s.prod j ≠ .idle) : ∃ p, j = 2 * p + 1 := by
  refine ⟨j / 2, ?_⟩
  rcases Nat.mod_two_eq_zero_or_one j with h' | h'
  · exact absurd (by rw [show j = 2 * (j / 2) by omega]; exact (hq _).2) h
  · omega

theorem old_prod (s : State α) (p : Nat) (x : Prod α) :
    old { s with prod := upd s.prod (2 * p + 1) x } = { old s with prod := upd (old s).prod p x } := by
  simp only [old, State.items, upd_odd]

/-- Every step here is one of `Pool.lean`, and the handlers stay quiet. -/
theorem step_old {size : Nat} {tf : Bool} {s : State α} {l : Label α} {r : Res (State α)} (hq : Quiet s)
    (h : Step size tf silent s l r) :
    (∃ l', new l' = l ∧ Pool.Step size tf (old s) l' (oldRes r)) ∧ ∀ s', r = .ok s' → Quiet s' := by
  have quiet : ∀ p x, Quiet { s with prod := upd s.prod (2 * p + 1) x } := fun p x n =>
    ⟨(hq n).1, by rw [show (State.prod _) = upd s.prod (2 * p + 1) x from rfl, upd_even]; exact (hq n).2⟩
  cases h with
  | start p x h1 h2 =>
    refine ⟨⟨.start p x, rfl, ?_⟩, fun s' e => by cases e; exact quiet _ _⟩
    rw [oldRes, old_prod]
    exact .start (old s) p x h1 h2
  | begin n x rest h1 h2 =>
    rw [(hq n).1] at h1
    cases h1
  | scan j x k acc seen h1 =>
    obtain ⟨p, rfl⟩ := odd_of hq (j := j) (by simp [h1])
    refine ⟨⟨.scan p, rfl, ?_⟩, fun s' e => by cases e; exact quiet _ _⟩
    rw [oldRes, old_prod]
    exact .scan (old s) p x k acc seen h1
  | read j x k v acc seen h1 =>
    obtain ⟨p, rfl⟩ := odd_of hq (j := j) (by simp [h1])
    refine ⟨⟨.scan p, rfl, ?_⟩, fun s' e => by cases e; exact quiet _ _⟩
    rw [oldRes, old_prod]
    exact .read (old s) p x k v acc seen h1
  | claim j x id seen h1 =>
    obtain ⟨p, rfl⟩ := odd_of hq (j := j) (by simp [h1])
    refine ⟨⟨.claim p, rfl, ?_⟩, fun s' e => by cases e; exact quiet _ _⟩
    have := Pool.Step.claim (size := size) (tailFirst := tf) (old s) p x id seen h1
    simpa [oldRes, old, State.items, upd_odd] using this
  | store j x id i h1 =>
    obtain ⟨p, rfl⟩ := odd_of hq (j := j) (by simp [h1])
    have := Pool.Step.store (size := size) (tailFirst := tf) (old s) p x id i h1
    refine ⟨⟨.store p, rfl, ?_⟩, fun s' e => ?_⟩
    · change Pool.Step size tf (old s) (.store p) ((s.qs id).store i x >>= _) at this
      cases hs : (s.qs id).store i x with
      | ok q =>
        rw [hs] at this
        simpa [oldRes, old, State.items, upd_odd] using this
      | ub => rw [hs] at this; exact this
      | hang => rw [hs] at this; exact this
    · cases hs : (s.qs id).store i x with
      | ok q =>
        rw [hs] at e
        cases e
        exact quiet _ _
      | ub => rw [hs] at e; cases e
      | hang => rw [hs] at e; cases e
  | close h1 h2 => exact ⟨⟨.close, rfl, .close (old s) h1 h2⟩, fun s' e => by cases e; exact hq⟩
  | work n e h1 h2 h3 h4 =>
    have := Pool.Step.work (size := size) (tailFirst := tf) (old s) n e h1 h2
    have ha : asked (silent n) (s.qs n) = [] := by
      unfold asked
      split
      · split <;> rfl
      · rfl
    have ht : upd s.todo n [] = s.todo := by
      funext k
      unfold upd
      by_cases hk : k = n
      · rw [if_pos hk, hk, h3]
      · rw [if_neg hk]
    rw [ha, ht]
    refine ⟨⟨.work n e, rfl, ?_⟩, fun s' e' => ?_⟩
    · by_cases h8 : n < 8
      · rw [if_pos h8] at this ⊢
        change Pool.Step size tf (old s) (.work n e) ((s.qs n).work s.closed e >>= _) at this
        cases hs : (s.qs n).work s.closed e with
        | ok q => rw [hs] at this; exact this
        | ub => rw [hs] at this; exact this
        | hang => rw [hs] at this; exact this
      · rw [if_neg h8] at this ⊢
        exact this
    · by_cases h8 : n < 8
      · rw [if_pos h8] at e'
        cases hs : (s.qs n).work s.closed e with
        | ok q => rw [hs] at e'; cases e'; exact hq
        | ub => rw [hs] at e'; cases e'
        | hang => rw [hs] at e'; cases e'
      · rw [if_neg h8] at e'
        cases e'

/-- Every step of `Pool.lean` is one here. -/
theorem step_new {size : Nat} {tf : Bool} {s : State α} {l : Pool.Label α} {r : Res (Pool.State α)} (hq : Quiet s)
    (h : Pool.Step size tf (old s) l r) : ∃ r', Step size tf silent s (new l) r' ∧ oldRes r' = r := by
  generalize ht : old s = t at h
  cases h with
  | start p x h1 h2 =>
    subst ht
    exact ⟨_, .start s p x h1 h2, by rw [oldRes, old_prod]⟩
  | scan p x k acc seen h1 =>
    subst ht
    exact ⟨_, .scan s (2 * p + 1) x k acc seen h1, by rw [oldRes, old_prod]; rfl⟩
  | read p x k v acc seen h1 =>
    subst ht
    exact ⟨_, .read s (2 * p + 1) x k v acc seen h1, by rw [oldRes, old_prod]; rfl⟩
  | claim p x id seen h1 =>
    subst ht
    exact ⟨_, .claim s (2 * p + 1) x id seen h1, by simp [oldRes, old, State.items, upd_odd]⟩
  | store p x id i h1 =>
    subst ht
    refine ⟨_, .store s (2 * p + 1) x id i h1, ?_⟩
    change oldRes ((s.qs id).store i x >>= _) = ((s.qs id).store i x >>= _)
    cases (s.qs id).store i x with
    | ok q => simp [oldRes, old, State.items, upd_odd]
    | ub => rfl
    | hang => rfl
  | close h1 h2 =>
    subst ht
    exact ⟨_, .close s h1 h2, rfl⟩
  | work n e h1 h2 =>
    subst ht
    refine ⟨_, .work s n e h1 h2 (hq n).1 (hq n).2, ?_⟩
    by_cases h8 : n < 8
    · rw [if_pos h8, if_pos h8]
      change oldRes ((s.qs n).work s.closed e >>= _) = ((s.qs n).work s.closed e >>= _)
      cases (s.qs n).work s.closed e with
      | ok q => rfl
      | ub => rfl
      | hang => rfl
    · rw [if_neg h8, if_neg h8]
      rfl

/-- The states that are reached are the same. -/
theorem reach_iff {b size : Nat} {tf : Bool} (t : Pool.State α) :
    Pool.Reach b size tf t ↔ ∃ s, Reach b size tf silent anyStep s ∧ old s = t := by
  have key : ∀ s : State α, Reach b size tf silent anyStep s → Quiet s ∧ Pool.Reach b size tf (old s) := by
    intro s h
    induction h with
    | new => exact ⟨fun n => ⟨rfl, rfl⟩, .new⟩
    | step s s' l _ _ hs ih =>
      obtain ⟨⟨l', -, h1⟩, h2⟩ := step_old ih.1 hs
      exact ⟨h2 s' rfl, .step _ _ l' ih.2 h1⟩
  constructor
  · intro h
    induction h with
    | new => exact ⟨_, .new, rfl⟩
    | step s s' l _ hs ih =>
      obtain ⟨w, r, rfl⟩ := ih
      obtain ⟨r', h1, h2⟩ := step_new (key w r).1 hs
      cases r' with
      | ok w' =>
        simp only [oldRes, Res.ok.injEq] at h2
        exact ⟨w', .step w w' _ r trivial h1, h2⟩
      | ub => cases h2
      | hang => cases h2
  · rintro ⟨s, h, rfl⟩
    exact (key s h).2

/-- A state with a push under way, reached in both models. -/
example : ∃ s : State Nat, Reach 0 4 true silent anyStep s ∧ s.prod 1 ≠ .idle ∧ Pool.Reach 0 4 true (old s) := by
  have h : Step 4 true (silent (α := Nat)) (State.new 0) (.start 0 7) (.ok _) := .start _ 0 7 rfl rfl
  have r := Reach.step _ _ _ (.new (b := 0) (size := 4) (tailFirst := true) (h := silent) (G := anyStep)) trivial h
  exact ⟨_, r, by simp [upd], (reach_iff _).2 ⟨_, r, rfl⟩⟩

end Verif.Pipeline.Pool.Push.Agree
