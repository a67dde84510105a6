import Verif.Pipeline.PoolProps
/-!
Destruction of a `pipeline_stage_pool` (pipeline_stage_pool.hpp:101-109): the workers end.
-/
namespace Verif.Pipeline.Pool
open Verif Verif.Pipeline
variable {α : Type}

/-- Handler calls that take at most 214748364 ms (two and a half days). -/
def Label.Short : Label α → Prop
  | .work _ e => 0 ≤ e ∧ e ≤ 214748364
  | _ => True

/-- The states a pool can reach by such calls. -/
inductive ShortReach (b size : Nat) (tf : Bool) : State α → Prop
  | new : ShortReach b size tf (State.new b)
  | step (s s' : State α) (l : Label α) : ShortReach b size tf s → l.Short →
      Step size tf s l (.ok s') → ShortReach b size tf s'

/-- `n` steps with such calls. -/
inductive ShortRun (size : Nat) (tf : Bool) : State α → Nat → State α → Prop
  | nil (s : State α) : ShortRun size tf s 0 s
  | step (s s1 s2 : State α) (n : Nat) (l : Label α) : l.Short → Step size tf s l (.ok s1) →
      ShortRun size tf s1 n s2 → ShortRun size tf s (n + 1) s2

theorem ShortReach.reach {b size : Nat} {tf : Bool} {s : State α} (h : ShortReach b size tf s) :
    Reach b size tf s := by
  induction h with
  | new => exact .new
  | step s s' l _ _ hs ih => exact .step s s' l ih hs

theorem Step.pushed_le {size : Nat} {tf : Bool} {s s' : State α} {l : Label α}
    (h : Step size tf s l (.ok s')) : s.pushed.length ≤ s'.pushed.length := by
  rcases h.cases_ok with ⟨p, st, _, _, _, _, rfl⟩ | ⟨p, x, id, seen, hp, rfl⟩ |
      ⟨p, x, id, i, q, hp, hq, rfl⟩ | ⟨hc, hp, rfl⟩ | ⟨n, e, q, _, _, _, hq, rfl⟩ <;> simp

theorem ShortReach.smallSamples {b size : Nat} (hb : 0 < b) {tf : Bool} {s : State α}
    (h : ShortReach b size tf s) (hn : s.pushed.length ≤ 214748364) (k : Nat) :
    SmallSamples (s.qs k).samples := by
  induction h generalizing k with
  | new => intro x hx; simp [State.new, Q.new] at hx
  | step s s' l hr hg hs ih =>
    have hm := hs.pushed_le
    have ih := ih (by omega)
    have hi := (hr.reach.inv hb (hr.reach.all_lt (by omega))).1
    have hle := hr.reach.queue_le
    generalize hres : Res.ok s' = r at hs
    cases hs with
    | start p x h1 h2 => cases hres; exact ih k
    | scan p x j acc seen h1 => cases hres; exact ih k
    | read p x j v acc seen h1 => cases hres; exact ih k
    | claim p x id seen h1 =>
      cases hres
      simp only [upd]
      split
      · exact ih id
      · exact ih k
    | store p x id i h1 =>
      cases hq : (s.qs id).store i x with
      | ub => rw [hq] at hres; cases hres
      | hang => rw [hq] at hres; cases hres
      | ok q =>
        rw [hq] at hres
        simp only [Res.ok_bind, Res.pure_eq, Res.ok.injEq] at hres
        subst hres
        have := Q.store_same hq
        subst this
        simp only [upd]
        split
        · exact ih id
        · exact ih k
    | close h1 h2 => cases hres; exact ih k
    | work n e h1 h2 =>
      by_cases h8 : n < 8
      · rw [if_pos h8] at hres
        cases hq : (s.qs n).work s.closed e with
        | ub => rw [hq] at hres; cases hres
        | hang => rw [hq] at hres; cases hres
        | ok q =>
          rw [hq] at hres
          simp only [Res.ok_bind, Res.pure_eq, Res.ok.injEq] at hres
          subst hres
          simp only [upd]
          split
          · refine SmallSamples.work (hi n) (ih n) hg ?_ hq
            have := hle n
            omega
          · exact ih k
      · rw [if_neg h8] at hres
        cases hres

/-- Sum over the first `n` queues. -/
def sumTo (f : Nat → Nat) : Nat → Nat
  | 0 => 0
  | n + 1 => sumTo f n + f n

theorem sumTo_mono {f g : Nat → Nat} : ∀ {n : Nat}, (∀ k, k < n → f k ≤ g k) → sumTo f n ≤ sumTo g n
  | 0, _ => Nat.le_refl _
  | n + 1, h => by
    have h1 := sumTo_mono (n := n) fun k hk => h k (by omega)
    have h2 := h n (by omega)
    simp only [sumTo]
    omega

theorem sumTo_lt {f g : Nat → Nat} : ∀ {n : Nat} (j : Nat), j < n → (∀ k, k < n → f k ≤ g k) → f j < g j →
    sumTo f n < sumTo g n
  | 0, j, hj, _, _ => by omega
  | n + 1, j, hj, h, hlt => by
    have h2 := h n (by omega)
    simp only [sumTo]
    by_cases hn : j = n
    · subst hn
      have h1 := sumTo_mono (n := j) fun k hk => h k (by omega)
      omega
    · have h1 := sumTo_lt (n := n) j (by omega) (fun k hk => h k (by omega)) hlt
      omega

theorem sumTo_le_of_le {f : Nat → Nat} {n m : Nat} (h : n ≤ m) : sumTo f n ≤ sumTo f m := by
  induction m with
  | zero => rw [Nat.le_zero.1 h]; exact Nat.le_refl _
  | succ m ih =>
    by_cases hn : n = m + 1
    · rw [hn]; exact Nat.le_refl _
    · have := ih (by omega)
      simp only [sumTo]
      omega

theorem sumTo_linear (f : Nat → Nat) (a c : Nat) : ∀ n, sumTo (fun k => a * f k + c) n = a * sumTo f n + c * n
  | 0 => by simp [sumTo]
  | n + 1 => by
    simp only [sumTo]
    rw [sumTo_linear f a c n, Nat.mul_add, Nat.mul_succ]
    omega

theorem Q.fuel_le {c : Bool} {q : Q α} {pend : Nat → Option (Nat × α)} (h : QInv c q pend) :
    q.fuel ≤ 5 * q.pushed.length + 12 := by
  have ht := h.tail
  unfold Q.fuel
  split <;> (try split) <;> omega

theorem placed_sum {b size : Nat} {tf : Bool} {s : State α} (h : Reach b size tf s) (hs : size ≤ 8) :
    sumTo (fun k => (s.qs k).pushed.length) size ≤ s.pushed.length := by
  refine Nat.le_trans (sumTo_le_of_le hs) ?_
  rw [← h.placed.1.length_eq]
  simp [allOf, sumTo, List.range_succ]
  omega

/-- C83, for at most eight workers, at most 214748364 pushes and short handler calls: once destruction has
begun, no schedule takes more than `5 * pushed + 12 * PoolSize` further steps; a worker that has not ended can
take its next step; and a worker that has ended has handled (in number) what was pushed into its queue.  What is
missing: more workers than queues (`C59_more_refuted`) and the overflow of the statistics
(`C83_overflow_refuted`). -/
theorem C83_ends_partial {b size : Nat} (hb : 0 < b) (hsz : size ≤ 8) {tf : Bool} {s : State α}
    (h : ShortReach b size tf s) (hc : s.closed = true) (hn : s.pushed.length ≤ 214748364) {n : Nat}
    {s' : State α} (hr : ShortRun size tf s n s') :
    n ≤ 5 * s.pushed.length + 12 * size ∧ s'.pushed = s.pushed ∧
    (∀ k, k < size → (s'.qs k).pc ≠ .ended → ∀ e, ∃ s'', Step size tf s' (.work k e) (.ok s'')) ∧
    (∀ k, k < size → (s'.qs k).pc = .ended → (s'.qs k).handled.length = (s.qs k).pushed.length) := by
  have key : ShortReach b size tf s' ∧ s'.closed = true ∧ s'.pushed = s.pushed ∧
      (∀ k, (s'.qs k).pushed = (s.qs k).pushed) ∧
      n + sumTo (fun k => (s'.qs k).fuel) size ≤ sumTo (fun k => (s.qs k).fuel) size := by
    induction hr with
    | nil s => exact ⟨h, hc, rfl, fun _ => rfl, by omega⟩
    | step s s1 s2 n l hg hs _ ih =>
      have hi := h.reach.inv hb (h.reach.all_lt (by omega))
      have h1 : ShortReach b size tf s1 := .step s s1 l h hg hs
      have hidle := hi.2.1 hc
      rcases hs.cases_ok with ⟨p, st, _, _, hst, _, _⟩ | ⟨p, x, id, seen, hp, _⟩ |
        ⟨p, x, id, i, q, hp, _, _⟩ | ⟨hc', _, _⟩ | ⟨k, e, q, hk, _, _, hq, hs1⟩
      · rcases hst with hst | hst
        · rw [hc] at hst; cases hst
        · exact absurd (hidle p) hst
      · rw [hidle p] at hp; cases hp
      · rw [hidle p] at hp; cases hp
      · rw [hc] at hc'; cases hc'
      · have hi1 := hi.1 k
        rw [hc] at hq hi1
        have hpend : ∀ p, pendOf s.prod k p = none := by
          intro p
          simp only [pendOf, hidle p]
        have hlt := hi1.fuel_lt hpend hq
        have hsame := Q.work_same hq
        subst hs1
        obtain ⟨i1, i2, i3, i4, i5⟩ := ih h1 hc hn
        refine ⟨i1, i2, i3, fun j => ?_, ?_⟩
        · rw [i4 j]
          simp only [upd]
          split
          · rename_i e; rw [e]; exact hsame.2.2
          · rfl
        · have := sumTo_lt (f := fun j => (upd s.qs k q j).fuel) (g := fun j => (s.qs j).fuel) (n := size) k hk
            (fun j _ => by
              simp only [upd]
              split
              · rename_i e; rw [e]; omega
              · exact Nat.le_refl _)
            (by simp only [upd_same]; exact hlt)
          simp only at i5
          omega
  obtain ⟨k1, k2, k3, k4, k5⟩ := key
  have hi := (h.reach.inv hb (h.reach.all_lt (by omega))).1
  have hi' := (k1.reach.inv hb (k1.reach.all_lt (by rw [k3]; omega))).1
  refine ⟨?_, k3, fun k hk hne e => ?_, fun k hk he => ?_⟩
  · have h1 := sumTo_mono (f := fun k => (s.qs k).fuel) (g := fun k => 5 * (s.qs k).pushed.length + 12) (n := size)
      fun k _ => Q.fuel_le (hi k)
    rw [sumTo_linear] at h1
    have h2 := placed_sum h.reach hsz
    omega
  · obtain ⟨q', hq'⟩ := (hi' k).progress (k1.smallSamples hb (by rw [k3]; exact hn) k) e hne
    have st := Step.work (size := size) (tailFirst := tf) s' k e hk hne
    rw [if_pos (by omega), hq'] at st
    exact ⟨_, st⟩
  · have h1 := ((hi' k).ended he).2
    have h2 := (hi' k).head
    have h3 := (hi' k).tail
    rw [he] at h2
    simp only [Pc.taken] at h2
    rw [k4 k] at h3
    omega

/-- A schedule with short handler calls as a witness. -/
theorem follow_short {b size : Nat} {tf : Bool} {m : Nat} {P : State α → Prop} [DecidablePred P]
    (ls : List (Label α)) (hl : ∀ l ∈ ls, l.Short)
    (h : (follow size tf m (State.new b) ls).any (fun s => decide (P s)) = true) :
    ∃ s, ShortReach b size tf s ∧ P s := by
  have key : ∀ (ls : List (Label α)) (s s' : State α), (∀ l ∈ ls, l.Short) → ShortReach b size tf s →
      (∀ p, m ≤ p → s.prod p = .idle) → follow size tf m s ls = some s' → ShortReach b size tf s' := by
    intro ls
    induction ls with
    | nil => intro s s' _ h _ hf; cases hf; exact h
    | cons l ls ih =>
      intro s s' hl h hi hf
      rw [follow] at hf
      split at hf
      · rename_i s1 h1
        obtain ⟨hs, hi'⟩ := fire_step hi h1
        exact ih s1 s' (fun l hl' => hl l (.tail _ hl')) (.step s s1 l h (hl l (.head _)) hs) hi' hf
      · cases hf
  cases hf : follow size tf m (State.new b) ls with
  | none => rw [hf] at h; cases h
  | some s =>
    rw [hf] at h
    exact ⟨s, key ls _ s hl .new (fun _ _ => rfl) hf, by simpa using h⟩

instance : DecidablePred (Label.Short (α := α)) := fun l => by
  cases l <;> simp only [Label.Short] <;> infer_instance

/-- Two workers, three items, one of them in a queue without a worker: the destructor begins while nothing was
handled. -/
example : ∃ s : State Nat, ShortReach 2 2 true s ∧ s.closed = true ∧ s.pushed = [10, 20, 30] ∧
    allOf Q.handled s.qs = [] ∧ (s.qs 2).pushed = [30] :=
  follow_short (m := 1) (Ex.push 0 10 ++ Ex.push 0 20 ++ Ex.push 0 30 ++ [.close]) (by decide +kernel)
    (by decide +kernel)

/-- C83 refuted: after two handler calls of 2147483647 ms each (24.8 days) the sum of the samples overflows, and
the next step of the worker is undefined. -/
theorem C83_overflow_refuted (tf : Bool) : ∃ s : State Nat, Reach 4 1 tf s ∧ s.closed = true ∧
    (s.qs 0).pc ≠ .ended ∧ (s.qs 0).handled.length < (s.qs 0).pushed.length ∧
    ∀ e, Step 1 tf s (.work 0 e) .ub := by
  obtain ⟨s, hr, h1, h2, h3, h4, h5⟩ : ∃ s : State Nat, Reach 4 1 tf s ∧ s.closed = true ∧
      (s.qs 0).pc = .call 2 ∧ (s.qs 0).handled.length < (s.qs 0).pushed.length ∧
      (s.qs 0).slots[2 % (s.qs 0).slots.length]? = some (some 30) ∧ timeForUnit (s.qs 0).stat = .ub := by
    refine follow_ex (m := 1) (Ex.push 0 10 ++ List.replicate 6 (.work 0 2147483647) ++ Ex.push 0 20 ++
      List.replicate 5 (.work 0 2147483647) ++ Ex.push 0 30 ++ [.close] ++ Ex.w 0 3) ?_
    cases tf <;> decide +kernel
  refine ⟨s, hr, h1, by simp [h2], h3, fun e => ?_⟩
  have st := Step.work (size := 1) (tailFirst := tf) s 0 e (by omega) (by simp [h2])
  simpa only [if_pos (show 0 < 8 by omega), Q.work, h2, h4, h5, Res.ub_bind] using st

end Verif.Pipeline.Pool
