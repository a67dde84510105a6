import Verif.Values.Props
/-!
`values::observable` updated by several threads, and property C48.

The atomic operation of an update (observable.hpp:39-143, 285-389) and each store into an observed
(observed.hpp:77) are single steps; between them other threads may run.  The set of registered
observers does not change while updates are running (changing it then is a data race).  The `on_update`
functions are left out.
-/
namespace Verif.Values.Conc
open Verif Verif.Values

/-- The value, the observed objects, and what each thread is doing: nothing, or sending a value to the
observers that are left.  `sents` lists the values sent so far, as a record (values/observable.hpp:245-249). -/
structure Sys where
  value : Int
  held : Nat → Int
  thread : Nat → Option (Int × List Nat)
  sents : List Int

/-- A step of thread `t`.  With `excl`, an update starts only when no other is running (values/observable.hpp:36-146, 230-239). -/
inductive Step (T : IntTy) (regs : List Nat) (excl : Bool) (t : Nat) : Sys → Sys → Prop
  /-- The atomic operation of an update, and the computation of the value to send. -/
  | begin_ (s : Sys) (op : Op) (v : Int) : s.thread t = none → op.IsUpdate → op.Typed T →
      sent T s.value op = .ok v → (excl = true → ∀ u, s.thread u = none) →
      Step T regs excl t s { s with
        value := T.wrap (exact s.value op)
        thread := fun u => if u = t then some (v, regs) else s.thread u
        sents := s.sents ++ [v] }
  /-- One observer receives the value. -/
  | deliver (s : Sys) (v : Int) (o : Nat) (rest : List Nat) : s.thread t = some (v, o :: rest) →
      Step T regs excl t s { s with
        held := fun p => if p = o then v else s.held p
        thread := fun u => if u = t then some (v, rest) else s.thread u }
  /-- The operator returns. -/
  | return_ (s : Sys) (v : Int) : s.thread t = some (v, []) →
      Step T regs excl t s { s with thread := fun u => if u = t then none else s.thread u }

/-- Steps of any threads in any order. -/
inductive Steps (T : IntTy) (regs : List Nat) (excl : Bool) : Sys → Sys → Prop
  | refl (s : Sys) : Steps T regs excl s s
  | step (s s' s'' : Sys) (t : Nat) : Steps T regs excl s s' → Step T regs excl t s' s'' →
      Steps T regs excl s s''

/-- No update is running. -/
def Quiet (s : Sys) : Prop := ∀ t, s.thread t = none

/-- New objects. -/
def new : Sys := ⟨0, fun _ => 0, fun _ => none, []⟩

/-- **C48 is false**: thread 0 executes `a = 1` and thread 1 `a = 2`; both have returned, the value is 2
and the observer holds 1. -/
theorem C48_refuted : ∃ s, Steps .int [7] false new s ∧ Quiet s ∧ s.value = 2 ∧ s.held 7 = 1 := by
  refine ⟨_, .step _ _ _ 0 (.step _ _ _ 1 (.step _ _ _ 0 (.step _ _ _ 1 (.step _ _ _ 1 (.step _ _ _ 0
    (.refl new)
    (.begin_ _ (.assign 1) 1 rfl trivial (by decide : IntTy.int.In 1) rfl (fun h => absurd h (by decide))))
    (.begin_ _ (.assign 2) 2 rfl trivial (by decide : IntTy.int.In 2) rfl (fun h => absurd h (by decide))))
    (.deliver _ 2 7 [] rfl)) (.deliver _ 1 7 [] rfl)) (.return_ _ 2 rfl)) (.return_ _ 1 rfl), ?_, rfl, rfl⟩
  intro t
  by_cases h0 : t = 0
  · subst h0; rfl
  · by_cases h1 : t = 1
    · subst h1; rfl
    · simp [new, h0, h1]

/-- In every execution, whatever the interleaving: the observers that thread `t` has already served in
its current update hold a value sent by some update, and so does every registered observer when all
updates have returned. -/
structure Inv (regs : List Nat) (s : Sys) : Prop where
  running : ∀ t v rest, s.thread t = some (v, rest) → v ∈ s.sents ∧
    ∃ pre, regs = pre ++ rest ∧ ∀ o ∈ pre, s.held o ∈ s.sents
  reached : s.sents ≠ [] → (∃ t, s.thread t ≠ none) ∨ ∀ o ∈ regs, s.held o ∈ s.sents

theorem inv_step {T : IntTy} {regs : List Nat} {excl : Bool} {t : Nat} {s s' : Sys}
    (h : Inv regs s) (hs : Step T regs excl t s s') : Inv regs s' := by
  cases hs with
  | begin_ op v h1 h2 h3 h4 h5 =>
    refine ⟨?_, ?_⟩
    · intro u w rest hu
      simp only at hu ⊢
      by_cases hut : u = t
      · rw [if_pos hut] at hu
        cases hu
        exact ⟨by simp, [], rfl, by simp⟩
      · rw [if_neg hut] at hu
        obtain ⟨k1, pre, k2, k3⟩ := h.running u w rest hu
        exact ⟨by simp [k1], pre, k2, fun o ho => by simp [k3 o ho]⟩
    · intro _
      exact .inl ⟨t, by simp⟩
  | deliver v o rest h1 =>
    obtain ⟨k1, pre, k2, k3⟩ := h.running t v _ h1
    refine ⟨?_, ?_⟩
    · intro u w rest' hu
      simp only at hu ⊢
      by_cases hut : u = t
      · rw [if_pos hut] at hu
        cases hu
        refine ⟨k1, pre ++ [o], by simp [k2], ?_⟩
        intro p hp
        by_cases hpo : p = o
        · rw [if_pos hpo]; exact k1
        · rw [if_neg hpo]
          rcases List.mem_append.1 hp with hp | hp
          · exact k3 p hp
          · simp at hp; exact absurd hp hpo
      · rw [if_neg hut] at hu
        obtain ⟨j1, pre', j2, j3⟩ := h.running u w rest' hu
        refine ⟨j1, pre', j2, ?_⟩
        intro p hp
        by_cases hpo : p = o
        · rw [if_pos hpo]; exact k1
        · rw [if_neg hpo]; exact j3 p hp
    · intro _
      exact .inl ⟨t, by simp⟩
  | return_ v h1 =>
    obtain ⟨k1, pre, k2, k3⟩ := h.running t v _ h1
    refine ⟨?_, ?_⟩
    · intro u w rest' hu
      simp only at hu ⊢
      by_cases hut : u = t
      · rw [if_pos hut] at hu; cases hu
      · rw [if_neg hut] at hu
        exact h.running u w rest' hu
    · intro _
      right
      rw [List.append_nil] at k2
      rw [k2]
      exact k3

/-- **What C48 leaves in general**: under every schedule of any number of updating threads, once at
least one update was made and all have returned, every registered observed holds the value that some
update sent. -/
theorem C48_some_update {T : IntTy} {regs : List Nat} (s : Sys) (h : Steps T regs false new s)
    (hq : Quiet s) (hne : s.sents ≠ []) : ∀ o ∈ regs, s.held o ∈ s.sents := by
  have hi : Inv regs s := by
    clear hq hne
    induction h with
    | refl =>
      exact ⟨fun t v rest h => by simp [new] at h, fun h => by simp [new] at h⟩
    | step _ _ _ _ h2 ih => exact inv_step ih h2
  rcases hi.reached hne with ⟨t, ht⟩ | h
  · exact absurd (hq t) ht
  · exact h

/-- At most one update runs at a time, and it sends the new value. -/
structure Excl (regs : List Nat) (s : Sys) : Prop where
  one : ∀ t u, s.thread t ≠ none → s.thread u ≠ none → t = u
  running : ∀ t v rest, s.thread t = some (v, rest) → v = s.value ∧
    ∃ pre, regs = pre ++ rest ∧ ∀ o ∈ pre, s.held o = s.value
  reached : s.sents ≠ [] → (∃ t, s.thread t ≠ none) ∨ ∀ o ∈ regs, s.held o = s.value

/-- The operators whose result is sent correctly (C44). -/
def Tracks (op : Op) : Prop :=
  (∃ v, op = .assign v) ∨ (∃ n, op = .addEq n) ∨ (∃ n, op = .subEq n) ∨ op = .preInc

/-- Executions in which every update is one of these. -/
inductive TrackingSteps (T : IntTy) (regs : List Nat) : Sys → Sys → Prop
  | refl (s : Sys) : TrackingSteps T regs s s
  | update (s s' s'' : Sys) (t : Nat) (op : Op) (v : Int) : TrackingSteps T regs s s' → Tracks op →
      s'.thread t = none → op.Typed T → sent T s'.value op = .ok v → Quiet s' →
      s'' = { s' with
        value := T.wrap (exact s'.value op)
        thread := fun u => if u = t then some (v, regs) else s'.thread u
        sents := s'.sents ++ [v] } →
      TrackingSteps T regs s s''
  | other (s s' s'' : Sys) (t : Nat) : TrackingSteps T regs s s' → Step T regs true t s' s'' →
      s''.sents = s'.sents → TrackingSteps T regs s s''

/-- Executions of `TrackingSteps` are executions of the model. -/
theorem TrackingSteps.steps {T : IntTy} {regs : List Nat} {s s' : Sys} (h : TrackingSteps T regs s s') :
    Steps T regs true s s' := by
  induction h with
  | refl => exact .refl _
  | update s' s'' t op v _ hop h1 h2 h3 h4 h5 ih =>
    subst h5
    refine .step _ _ _ t ih (.begin_ _ op v h1 ?_ h2 h3 (fun _ => h4))
    rcases hop with ⟨v, rfl⟩ | ⟨n, rfl⟩ | ⟨n, rfl⟩ | rfl <;> trivial
  | other s' s'' t _ h1 _ ih => exact .step _ _ _ t ih h1

theorem sent_tracks {T : IntTy} (hT : T.Valid) {old v : Int} {op : Op} (hop : Tracks op)
    (ht : op.Typed T) (h : sent T old op = .ok v) : v = T.wrap (exact old op) := by
  have key : ∀ x : Int, (do let r ← T.common.arith x; Res.ok (T.wrap r)) = Res.ok v → v = T.wrap x := by
    intro x hx
    cases ha : T.common.arith x with
    | ok r =>
      rw [ha, Res.ok_bind] at hx
      cases hx
      exact IntTy.arith_wrap hT ha
    | ub => rw [ha, Res.ub_bind] at hx; cases hx
    | hang => rw [ha, Res.hang_bind] at hx; cases hx
  rcases hop with ⟨w, rfl⟩ | ⟨n, rfl⟩ | ⟨n, rfl⟩ | rfl
  · cases h
    exact (IntTy.wrap_of_in hT ht).symm
  · exact (key _ h).trans (int_common_wrap hT old n).1
  · exact (key _ h).trans (int_common_wrap hT old n).2
  · exact key _ h

theorem excl_inv {T : IntTy} (hT : T.Valid) {regs : List Nat} {s : Sys}
    (h : TrackingSteps T regs new s) : Excl regs s := by
  induction h with
  | refl =>
    exact ⟨fun t u h => by simp [new] at h, fun t v rest h => by simp [new] at h,
      fun h => by simp [new] at h⟩
  | update s' s'' t op v _ hop h1 h2 h3 h4 h5 ih =>
    subst h5
    refine ⟨?_, ?_, fun _ => .inl ⟨t, by simp⟩⟩
    · intro a b ha hb
      have ha' : a = t := Classical.byContradiction fun hne => ha (by simp [hne, h4 a])
      have hb' : b = t := Classical.byContradiction fun hne => hb (by simp [hne, h4 b])
      rw [ha', hb']
    · intro u w rest hu
      simp only at hu ⊢
      by_cases hut : u = t
      · rw [if_pos hut] at hu
        cases hu
        exact ⟨sent_tracks hT hop h2 h3, [], rfl, by simp⟩
      · rw [if_neg hut, h4 u] at hu
        cases hu
  | other s' s'' t _ h1 hsame ih =>
    have hi := ih
    cases h1 with
    | begin_ op v k1 k2 k3 k4 k5 =>
      simp only at hsame
      have := congrArg List.length hsame
      simp at this
    | deliver v o rest k1 =>
      obtain ⟨j1, pre, j2, j3⟩ := hi.running t v _ k1
      have hothers : ∀ u, u ≠ t → s'.thread u = none := by
        intro u hu
        cases hc : s'.thread u with
        | none => rfl
        | some x => exact absurd (hi.one u t (by simp [hc]) (by simp [k1])) hu
      refine ⟨?_, ?_, fun _ => .inl ⟨t, by simp⟩⟩
      · intro a b ha hb
        have ha' : a = t := Classical.byContradiction fun hne => ha (by simp [hne, hothers a hne])
        have hb' : b = t := Classical.byContradiction fun hne => hb (by simp [hne, hothers b hne])
        rw [ha', hb']
      · intro u w rest' hu
        simp only at hu ⊢
        by_cases hut : u = t
        · rw [if_pos hut] at hu
          cases hu
          refine ⟨j1, pre ++ [o], by simp [j2], ?_⟩
          intro p hp
          by_cases hpo : p = o
          · rw [if_pos hpo]; exact j1
          · rw [if_neg hpo]
            rcases List.mem_append.1 hp with hp | hp
            · exact j3 p hp
            · simp at hp; exact absurd hp hpo
        · rw [if_neg hut, hothers u hut] at hu
          cases hu
    | return_ v k1 =>
      obtain ⟨j1, pre, j2, j3⟩ := hi.running t v _ k1
      have hothers : ∀ u, u ≠ t → s'.thread u = none := by
        intro u hu
        cases hc : s'.thread u with
        | none => rfl
        | some x => exact absurd (hi.one u t (by simp [hc]) (by simp [k1])) hu
      refine ⟨?_, ?_, fun _ => .inr ?_⟩
      · intro a b ha hb
        have ha' : a = t := Classical.byContradiction fun hne => ha (by simp [hne, hothers a hne])
        exact absurd (by simp [ha']) ha
      · intro u w rest' hu
        simp only at hu
        by_cases hut : u = t
        · rw [if_pos hut] at hu; cases hu
        · rw [if_neg hut, hothers u hut] at hu; cases hu
      · rw [List.append_nil] at j2
        rw [j2]
        exact j3

/-- **C48 when updates do not overlap** (the threads take turns) and are `=`, `+=`, `-=` or prefix `++`:
whichever threads make them in whatever order, once all have returned (and there was one), every
registered observed holds `value()`. -/
theorem C48_in_step_partial {T : IntTy} (hT : T.Valid) {regs : List Nat} (s : Sys)
    (h : TrackingSteps T regs new s) (hq : Quiet s) (hne : s.sents ≠ []) :
    ∀ o ∈ regs, s.held o = s.value := by
  rcases (excl_inv hT h).reached hne with ⟨t, ht⟩ | h
  · exact absurd (hq t) ht
  · exact h

/-- Example: thread 0 executes `a = 1`, then thread 1 executes `a += 5`. -/
example : ∃ s, TrackingSteps .int [7] new s ∧ Quiet s ∧ s.sents = [1, 6] ∧ s.value = 6 ∧ s.held 7 = 6 := by
  refine ⟨_, .other _ _ _ 1 (.other _ _ _ 1 (.update _ _ _ 1 (.addEq 5) 6
    (.other _ _ _ 0 (.other _ _ _ 0 (.update _ _ _ 0 (.assign 1) 1 (.refl new) (.inl ⟨1, rfl⟩) rfl
      (by decide : IntTy.int.In 1) rfl (fun _ => rfl) rfl) (.deliver _ 1 7 [] rfl) rfl)
      (.return_ _ 1 rfl) rfl)
    (.inr (.inl ⟨5, rfl⟩)) rfl (by decide : IntTy.int.In 5) rfl ?_ rfl)
    (.deliver _ 6 7 [] rfl) rfl) (.return_ _ 6 rfl) rfl, ?_, rfl, rfl, rfl⟩
  · intro t
    by_cases h0 : t = 0
    · subst h0; rfl
    · simp [new, h0]
  · intro t
    by_cases h1 : t = 1
    · subst h1; rfl
    · by_cases h0 : t = 0
      · subst h0; rfl
      · simp [new, h0, h1]

end Verif.Values.Conc
