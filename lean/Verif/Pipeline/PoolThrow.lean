import Verif.Pipeline.Throw
import Verif.Pipeline.PoolProps
/-!
Property C175: handlers that throw in a pool (pipeline_stage_pool.hpp:78-79).  Each worker is a `std::thread` whose function catches nothing
(pipeline_stage_pool.hpp:61-97), so that an exception from the handler ends the program, with all workers.  Whether the handler throws
depends on the worker, on the item and on the items this worker got before.  Everything else is as in `Pool.lean`.
-/
namespace Verif.Pipeline.Pool
open Verif Verif.Pipeline
open Verif.Pipeline.Throw (Calm)
variable {α : Type}

namespace Throw

/-- The step from `s` to `s'` calls the handler, and it throws (pipeline_stage_pool.hpp:78-79); `boom n h v` says whether the handler
throws for `v` in worker `n` after it has got `h` there. -/
def Dies (boom : Nat → List α → α → Bool) (s s' : State α) : Prop :=
  ∃ n v, (s'.qs n).handled = (s.qs n).handled ++ [v] ∧ boom n (s.qs n).handled v = true

/-- The states that can be reached; with `true` if the program has ended there by an exception (pipeline_stage_pool.hpp:55-129). -/
inductive Reach (b size : Nat) (tf : Bool) (boom : Nat → List α → α → Bool) : State α → Bool → Prop
  | new : Reach b size tf boom (State.new b) false
  | goes (s s' : State α) (l : Label α) : Reach b size tf boom s false → Step size tf s l (.ok s') → ¬ Dies boom s s' →
      Reach b size tf boom s' false
  | dies (s s' : State α) (l : Label α) : Reach b size tf boom s false → Step size tf s l (.ok s') → Dies boom s s' →
      Reach b size tf boom s' true

theorem handled_step {size : Nat} {tf : Bool} {s s' : State α} {l : Label α} (h : Step size tf s l (.ok s')) :
    (∀ k, (s'.qs k).handled = (s.qs k).handled) ∨
      ∃ n v, (s'.qs n).handled = (s.qs n).handled ++ [v] ∧ ∀ k, k ≠ n → (s'.qs k).handled = (s.qs k).handled := by
  rcases h.cases_ok with ⟨p, st, _, _, _, _, rfl⟩ | ⟨p, x, id, seen, _, rfl⟩ | ⟨p, x, id, i, q, _, hq, rfl⟩ | ⟨_, _, rfl⟩ |
    ⟨n, e, q, _, _, _, hq, rfl⟩
  · exact .inl fun _ => rfl
  · refine .inl fun k => ?_
    simp only [upd]
    split
    · rename_i h; subst h; rfl
    · rfl
  · refine .inl fun k => ?_
    have := Q.store_same hq
    simp only [upd]
    split
    · rename_i h; subst h; rw [this]
    · rfl
  · exact .inl fun _ => rfl
  · rcases Q.work_handled hq with ⟨h, _⟩ | ⟨_, v, _, _, h⟩
    · refine .inl fun k => ?_
      simp only [upd]
      split
      · rename_i hk; subst hk; exact h
      · rfl
    · refine .inr ⟨n, v, by simp only [upd, if_pos]; exact h, fun k hk => ?_⟩
      simp only [upd, if_neg hk]

theorem calm_step {size : Nat} {tf : Bool} {boom : Nat → List α → α → Bool} {s s' : State α} {l : Label α}
    (h : Step size tf s l (.ok s')) :
    (∀ k, Calm (boom k) (s'.qs k).handled) ↔ (∀ k, Calm (boom k) (s.qs k).handled) ∧ ¬ Dies boom s s' := by
  rcases handled_step h with e | ⟨n, v, e, e'⟩
  · constructor
    · intro hc
      refine ⟨fun k => e k ▸ hc k, fun ⟨n, v, hv, _⟩ => ?_⟩
      rw [e n] at hv
      have := congrArg List.length hv
      simp at this
    · intro hc k
      rw [e k]
      exact hc.1 k
  · constructor
    · intro hc
      have hn := hc n
      rw [e, Verif.Pipeline.Throw.calm_snoc] at hn
      refine ⟨fun k => ?_, fun ⟨m, w, hw, hb⟩ => ?_⟩
      · by_cases hk : k = n
        · subst hk
          exact hn.1
        · rw [← e' k hk]
          exact hc k
      · by_cases hm : m = n
        · subst hm
          rw [e] at hw
          have : v = w := by simpa using hw
          subst this
          rw [hn.2] at hb
          cases hb
        · rw [e' m hm] at hw
          have := congrArg List.length hw
          simp at this
    · intro ⟨hc, hd⟩ k
      by_cases hk : k = n
      · subst hk
        rw [e, Verif.Pipeline.Throw.calm_snoc]
        refine ⟨hc k, ?_⟩
        cases hb : boom k (s.qs k).handled v with
        | false => rfl
        | true => exact absurd ⟨k, v, e, hb⟩ hd
      · rw [e' k hk]
        exact hc k

/-- **C175.** Until an exception comes the pool goes through exactly the states it would go through if no handler threw. -/
theorem C175_until {b size : Nat} {tf : Bool} {boom : Nat → List α → α → Bool} {s : State α} :
    Reach b size tf boom s false ↔ Pool.Reach b size tf s ∧ ∀ k, Calm (boom k) (s.qs k).handled := by
  constructor
  · intro h
    generalize hd : false = d at h
    induction h with
    | new => exact ⟨.new, fun k => Verif.Pipeline.Throw.Calm.nil _⟩
    | goes s s' l _ hs hn ih =>
      obtain ⟨h1, h2⟩ := ih rfl
      exact ⟨.step s s' l h1 hs, (calm_step hs).mpr ⟨h2, hn⟩⟩
    | dies => cases hd
  · intro ⟨h, hc⟩
    induction h with
    | new => exact .new
    | step s s' l _ hs ih =>
      obtain ⟨h1, h2⟩ := (calm_step hs).mp hc
      exact .goes s s' l (ih h1) hs h2

/-- **C175.** The program ends exactly when the handler gets, in some worker, the first item for which it throws. -/
theorem C175_ends {b size : Nat} {tf : Bool} {boom : Nat → List α → α → Bool} {s : State α} (h : Reach b size tf boom s true) :
    Pool.Reach b size tf s ∧ ∃ n pre v, (s.qs n).handled = pre ++ [v] ∧ boom n pre v = true ∧ Calm (boom n) pre ∧
      ∀ k, k ≠ n → Calm (boom k) (s.qs k).handled := by
  cases h with
  | dies s0 _ l h0 hs hd =>
    obtain ⟨h1, h2⟩ := C175_until.mp h0
    obtain ⟨n, v, hv, hb⟩ := hd
    refine ⟨.step _ _ l h1 hs, n, (s0.qs n).handled, v, hv, hb, h2 n, fun k hk => ?_⟩
    rcases handled_step hs with e | ⟨n', v', e, e'⟩
    · rw [e n] at hv
      have := congrArg List.length hv
      simp at this
    · by_cases hn : n = n'
      · subst hn
        rw [e' k hk]
        exact h2 k
      · rw [e' n hn] at hv
        have := congrArg List.length hv
        simp at this

/-- **C175.** While no queue wraps around: when the program ends by an exception, the queue of one worker was handled up to its first item for
which the handler throws, and every other queue up to some item before its first such item; the rest is lost. -/
theorem C175_lost_partial {b size : Nat} (hb : 0 < b) {tf : Bool} {boom : Nat → List α → α → Bool} {s : State α}
    (h : Reach b size tf boom s true) (hw : s.pushed.length < 2 ^ 64) (hl : ∀ k, k < 8 → (s.qs k).pushed.length ≤ b) :
    ∃ n m v, (s.qs n).pushed[m]? = some v ∧ boom n ((s.qs n).pushed.take m) v = true ∧ Calm (boom n) ((s.qs n).pushed.take m) ∧
      (s.qs n).handled = (s.qs n).pushed.take (m + 1) ∧
      ∀ k, k ≠ n → ∃ j, (s.qs k).handled = (s.qs k).pushed.take j ∧ Calm (boom k) ((s.qs k).pushed.take j) := by
  obtain ⟨hr, n, pre, v, e1, e2, e3, e4⟩ := C175_ends h
  have ho : ∀ k, (s.qs k).handled = (s.qs k).pushed.take (s.qs k).handled.length := fun k =>
    (hr.firstLap hb (hr.all_lt hw) (hr.all_le hl) k).order
  have hlen : (s.qs n).handled.length = pre.length + 1 := by rw [e1]; simp
  have hle : pre.length + 1 ≤ (s.qs n).pushed.length := by
    have := congrArg List.length (ho n)
    simp only [List.length_take] at this
    omega
  have hpre : (s.qs n).pushed.take pre.length = pre := by
    have := congrArg (List.take pre.length) (ho n)
    rw [List.take_take, hlen, Nat.min_eq_left (by omega), e1, List.take_left] at this
    exact this.symm
  have hv : (s.qs n).pushed[pre.length]? = some v := by
    have : (s.qs n).handled[pre.length]? = some v := by rw [e1]; simp
    rw [ho n, hlen, List.getElem?_take_of_lt (by omega)] at this
    exact this
  refine ⟨n, pre.length, v, hv, by rw [hpre]; exact e2, by rw [hpre]; exact e3, by rw [← hlen]; exact ho n, fun k hk => ?_⟩
  exact ⟨_, ho k, by rw [← ho k]; exact e4 k hk⟩

/-- **C175.** With eight workers and while no queue wraps around, the destructor only returns if the handler throws for none of the items. -/
theorem C175_joined_partial {b : Nat} (hb : 0 < b) {tf : Bool} {boom : Nat → List α → α → Bool} {s : State α}
    (h : Reach b 8 tf boom s false) (hw : s.pushed.length < 2 ^ 64) (hl : ∀ k, k < 8 → (s.qs k).pushed.length ≤ b)
    (he : ∀ n, n < 8 → (s.qs n).pc = .ended) :
    (allOf Q.handled s.qs).Perm s.pushed ∧ ∀ n, n < 8 → Calm (boom n) (s.qs n).pushed := by
  obtain ⟨hr, hc⟩ := C175_until.mp h
  obtain ⟨h1, h2⟩ := C59_exactly_once_partial hb hr hw hl he
  exact ⟨h1, fun n hn => h2 n hn ▸ hc n⟩

/-- C175 as stated: an exception costs nothing but the item for which the handler throws. -/
def C175_Statement (α : Type) : Prop :=
  ∀ (b : Nat) (tf : Bool) (boom : Nat → List α → α → Bool) (s : State α) (d : Bool), 0 < b → Reach b 8 tf boom s d →
    (∀ k, k < 8 → (s.qs k).pushed.length ≤ b) → (d = true ∨ ∀ n, n < 8 → (s.qs n).pc = .ended) →
    ∀ v ∈ s.pushed, (∀ n h, boom n h v = false) → v ∈ allOf Q.handled s.qs

/-- Two items in two queues; the first worker is about to call the handler. -/
theorem demo : ∃ s : State Nat, Pool.Reach 2 8 true s ∧ s.pushed = [10, 20] ∧ allOf Q.handled s.qs = [] ∧ (s.qs 0).stat = [] ∧
    (s.qs 0).pc = .call 0 ∧ (s.qs 0).slots = [some 10, none] ∧ (s.qs 1).pushed = [20] ∧
    (∀ k, k < 8 → (s.qs k).pushed.length ≤ 2 ∧ (s.qs k).handled = []) :=
  follow_ex (m := 1) (Ex.push 0 10 ++ Ex.push 0 20 ++ Ex.w 0 4) (by decide +kernel)

theorem demo_dies : ∃ s : State Nat, Reach 2 8 true (fun _ _ v => v == 10) s true ∧ s.pushed = [10, 20] ∧
    allOf Q.handled s.qs = [10] ∧ ∀ k, k < 8 → (s.qs k).pushed.length ≤ 2 := by
  obtain ⟨s, h1, h2, h3, h4, h5, h6, _, h7⟩ := demo
  have st := Step.work (size := 8) (tailFirst := true) s 0 0 (by omega) (by simp [h5])
  rw [if_pos (by omega)] at st
  have hw : ∃ q, (s.qs 0).work s.closed 0 = .ok q ∧ q.handled = [10] ∧ q.pushed = (s.qs 0).pushed := by
    simp only [Q.work, h5, h6, h4]
    exact ⟨_, rfl, by simp [(h7 0 (by omega)).2], rfl⟩
  obtain ⟨q, e1, e2, e3⟩ := hw
  rw [e1] at st
  have hd : Dies (fun _ _ v => v == 10) s { s with qs := upd s.qs 0 q } :=
    ⟨0, 10, by simp [upd, e2, (h7 0 (by omega)).2], rfl⟩
  refine ⟨{ s with qs := upd s.qs 0 q }, .dies s _ _ (C175_until.mpr ⟨h1, fun k => ?_⟩) st hd, h2, ?_, fun k hk => ?_⟩
  · by_cases hk : k < 8
    · rw [(h7 k hk).2]
      exact Verif.Pipeline.Throw.Calm.nil _
    · rw [h1.outside k (by omega)]
      exact Verif.Pipeline.Throw.Calm.nil _
  · have : ∀ k, k < 8 → k ≠ 0 → (upd s.qs 0 q k).handled = [] := by
      intro k hk h0
      simp [upd, h0, (h7 k hk).2]
    simp [allOf, List.range, List.range.loop, this]
    simp [upd, e2]
  · by_cases h0 : k = 0
    · subst h0
      simp only [upd, if_pos]
      rw [e3]
      exact (h7 0 hk).1
    · simp only [upd, if_neg h0]
      exact (h7 k hk).1

theorem C175_refuted : ¬ C175_Statement Nat := by
  intro h
  obtain ⟨s, h1, h2, h3, h4⟩ := demo_dies
  have := h 2 true (fun _ _ v => v == 10) s true (by omega) h1 h4 (.inl rfl) 20 (by simp [h2]) (fun _ _ => rfl)
  rw [h3] at this
  simp at this

/-- The hypotheses of `C175_lost_partial` are met. -/
example : ∃ s : State Nat, Reach 2 8 true (fun _ _ v => v == 10) s true ∧ s.pushed.length < 2 ^ 64 ∧
    ∀ k, k < 8 → (s.qs k).pushed.length ≤ 2 := by
  obtain ⟨s, h1, h2, _, h4⟩ := demo_dies
  exact ⟨s, h1, by simp [h2], h4⟩

end Throw
end Verif.Pipeline.Pool
