import Verif.Pipeline.Props
/-!
Property C174: handlers that throw (pipeline_stage.hpp:123-124).  The worker is a `std::thread` whose function catches nothing
(pipeline_stage.hpp:103-138), so that an exception from the handler calls `std::terminate`: the program ends there, with all its threads.
Whether the handler throws depends on the item and on the items it got before.  Everything else is as in `Stage.lean`.
-/
namespace Verif.Pipeline
open Verif
variable {α : Type}

namespace Throw

/-- The step from `s` to `s'` calls the handler, and it throws (pipeline_stage.hpp:123-124); `boom h v` says whether the handler throws for
`v` after it has got `h`. -/
def Dies (boom : List α → α → Bool) (s s' : Stage α) : Prop :=
  ∃ v, s'.q.handled = s.q.handled ++ [v] ∧ boom s.q.handled v = true

/-- The states that can be reached; with `true` if the program has ended there by an exception (pipeline_stage.hpp:50-140). -/
inductive Reach (b : Nat) (G : Stage α → Label α → Prop) (boom : List α → α → Bool) : Stage α → Bool → Prop
  | new : Reach b G boom (Stage.new b) false
  | goes (s s' : Stage α) (l : Label α) : Reach b G boom s false → G s l → Stage.Step s l (.ok s') → ¬ Dies boom s s' →
      Reach b G boom s' false
  | dies (s s' : Stage α) (l : Label α) : Reach b G boom s false → G s l → Stage.Step s l (.ok s') → Dies boom s s' →
      Reach b G boom s' true

/-- A sequence of `n` steps with short handler calls, as in C57 (no code). -/
inductive Run (boom : List α → α → Bool) : Stage α → Nat → Stage α → Bool → Prop
  | nil (s : Stage α) : Run boom s 0 s false
  | goes (s s1 s2 : Stage α) (n : Nat) (l : Label α) (d : Bool) : short s l → Stage.Step s l (.ok s1) → ¬ Dies boom s s1 →
      Run boom s1 n s2 d → Run boom s (n + 1) s2 d
  | dies (s s1 : Stage α) (l : Label α) : short s l → Stage.Step s l (.ok s1) → Dies boom s s1 → Run boom s 1 s1 true

/-- The handler throws for none of these items, given in this order (no code). -/
def Calm (boom : List α → α → Bool) (l : List α) : Prop := ∀ k v, l[k]? = some v → boom (l.take k) v = false

theorem Calm.nil (boom : List α → α → Bool) : Calm boom [] := fun _ _ h => by simp at h

theorem calm_snoc (boom : List α → α → Bool) (l : List α) (x : α) :
    Calm boom (l ++ [x]) ↔ Calm boom l ∧ boom l x = false := by
  constructor
  · intro h
    constructor
    · intro k v hv
      have hk := (List.getElem?_eq_some_iff.mp hv).1
      have := h k v (by rw [List.getElem?_append_left hk]; exact hv)
      rwa [List.take_append_of_le_length (by omega)] at this
    · have := h l.length x (by simp)
      rwa [List.take_left] at this
  · intro ⟨h1, h2⟩ k v hv
    have hk := (List.getElem?_eq_some_iff.mp hv).1
    simp only [List.length_append, List.length_singleton] at hk
    by_cases hlt : k < l.length
    · rw [List.getElem?_append_left hlt] at hv
      rw [List.take_append_of_le_length (by omega)]
      exact h1 k v hv
    · have : k = l.length := by omega
      subst this
      rw [List.take_left]
      simp at hv
      rw [← hv]
      exact h2

theorem handled_step {s s' : Stage α} {l : Label α} (h : Stage.Step s l (.ok s')) :
    s'.q.handled = s.q.handled ∨ ∃ v, s'.q.handled = s.q.handled ++ [v] := by
  rcases h.cases_ok with ⟨p, x, _, _, _, rfl⟩ | ⟨p, i, x, q, _, _, hq, rfl⟩ | ⟨_, _, _, rfl⟩ | ⟨e, q, _, _, hq, rfl⟩
  · exact .inl rfl
  · have := Q.store_same hq
    subst this
    exact .inl rfl
  · exact .inl rfl
  · rcases Q.work_handled hq with ⟨h, _⟩ | ⟨_, v, _, _, h⟩
    · exact .inl h
    · exact .inr ⟨v, h⟩

theorem calm_step {boom : List α → α → Bool} {s s' : Stage α} {l : Label α} (h : Stage.Step s l (.ok s')) :
    Calm boom s'.q.handled ↔ Calm boom s.q.handled ∧ ¬ Dies boom s s' := by
  rcases handled_step h with e | ⟨v, e⟩
  · rw [e]
    refine ⟨fun hc => ⟨hc, fun ⟨v, hv, _⟩ => ?_⟩, fun hc => hc.1⟩
    rw [e] at hv
    have := congrArg List.length hv
    simp at this
  · rw [e, calm_snoc]
    refine ⟨fun hc => ⟨hc.1, fun ⟨w, hw, hb⟩ => ?_⟩, fun hc => ⟨hc.1, ?_⟩⟩
    · rw [e] at hw
      have : v = w := by simpa using hw
      subst this
      rw [hc.2] at hb
      cases hb
    · cases hb : boom s.q.handled v with
      | false => rfl
      | true => exact absurd ⟨v, e, hb⟩ hc.2

/-- **C174.** Until an exception comes the stage goes through exactly the states it would go through if no handler threw: those in which the
handler has got only items for which it does not throw. -/
theorem C174_until {b : Nat} {G : Stage α → Label α → Prop} {boom : List α → α → Bool} {s : Stage α} :
    Reach b G boom s false ↔ Stage.Reach b G s ∧ Calm boom s.q.handled := by
  constructor
  · intro h
    generalize hd : false = d at h
    induction h with
    | new => exact ⟨.new, Calm.nil boom⟩
    | goes s s' l _ hg hs hn ih =>
      obtain ⟨h1, h2⟩ := ih rfl
      exact ⟨.step s s' l h1 hg hs, (calm_step hs).mpr ⟨h2, hn⟩⟩
    | dies => cases hd
  · intro ⟨h, hc⟩
    induction h with
    | new => exact .new
    | step s s' l _ hg hs ih =>
      obtain ⟨h1, h2⟩ := (calm_step hs).mp hc
      exact .goes s s' l (ih h1) hg hs h2

/-- **C174.** The program ends exactly when the handler gets the first item for which it throws. -/
theorem C174_ends {b : Nat} {G : Stage α → Label α → Prop} {boom : List α → α → Bool} {s : Stage α} (h : Reach b G boom s true) :
    Stage.Reach b G s ∧ ∃ pre v, s.q.handled = pre ++ [v] ∧ boom pre v = true ∧ Calm boom pre := by
  cases h with
  | dies s0 _ l h0 hg hs hd =>
    obtain ⟨h1, h2⟩ := C174_until.mp h0
    obtain ⟨v, hv, hb⟩ := hd
    exact ⟨.step _ _ l h1 hg hs, s0.q.handled, v, hv, hb, h2⟩

/-- **C174.** If the queue does not wrap around, or pushes are undivided and never overrun the worker (see C55): when the program ends by an
exception, the items up to the first one for which the handler throws have been handled, and those behind it never will be. -/
theorem C174_lost_partial {b : Nat} (hb : 0 < b) {G : Stage α → Label α → Prop} {boom : List α → α → Bool} {s : Stage α}
    (h : Reach b G boom s true) (hw : s.q.pushed.length < 2 ^ 64)
    (hcase : s.q.pushed.length ≤ b ∨ ∀ s l, G s l → tame s l) :
    ∃ k v, s.q.pushed[k]? = some v ∧ boom (s.q.pushed.take k) v = true ∧ Calm boom (s.q.pushed.take k) ∧
      s.q.handled = s.q.pushed.take (k + 1) := by
  obtain ⟨hr, pre, v, e1, e2, e3⟩ := C174_ends h
  have ho : s.q.handled = s.q.pushed.take s.q.handled.length := by
    rcases hcase with hl | ht
    · exact (C55_first_lap_partial hb (hr.mono fun _ _ _ => trivial) hl hw).1
    · exact (C55_tame_partial hb (hr.mono ht) hw).1
  have hlen : s.q.handled.length = pre.length + 1 := by rw [e1]; simp
  have hle : pre.length + 1 ≤ s.q.pushed.length := by
    have := congrArg List.length ho
    simp only [List.length_take] at this
    omega
  have hpre : s.q.pushed.take pre.length = pre := by
    have := congrArg (List.take pre.length) ho
    rw [List.take_take, hlen, Nat.min_eq_left (by omega), e1, List.take_left] at this
    exact this.symm
  have hv : s.q.pushed[pre.length]? = some v := by
    have : s.q.handled[pre.length]? = some v := by rw [e1]; simp
    rw [ho, hlen, List.getElem?_take_of_lt (by omega)] at this
    exact this
  exact ⟨pre.length, v, hv, by rw [hpre]; exact e2, by rw [hpre]; exact e3, by rw [← hlen]; exact ho⟩

/-- **C174.** Under the same conditions the destructor only returns if the handler throws for none of the items. -/
theorem C174_joined_partial {b : Nat} (hb : 0 < b) {G : Stage α → Label α → Prop} {boom : List α → α → Bool} {s : Stage α}
    (h : Reach b G boom s false) (hw : s.q.pushed.length < 2 ^ 64)
    (hcase : s.q.pushed.length ≤ b ∨ ∀ s l, G s l → tame s l) (he : s.q.pc = .ended) :
    s.q.handled = s.q.pushed ∧ Calm boom s.q.pushed := by
  obtain ⟨hr, hc⟩ := C174_until.mp h
  have ho : s.q.handled = s.q.pushed := by
    rcases hcase with hl | ht
    · exact (C55_first_lap_partial hb (hr.mono fun _ _ _ => trivial) hl hw).2 he
    · exact (C55_tame_partial hb (hr.mono ht) hw).2 he
  exact ⟨ho, ho ▸ hc⟩

theorem Run.run {boom : List α → α → Bool} {s s' : Stage α} {n : Nat} {d : Bool} (h : Run boom s n s' d) : Stage.Run s n s' := by
  induction h with
  | nil s => exact .nil s
  | goes s s1 s2 n l d hg hs _ _ ih => exact .step s s1 s2 n l hg hs ih
  | dies s s1 l hg hs _ => exact .step s s1 s1 0 l hg hs (.nil s1)

theorem Run.reach {b : Nat} {boom : List α → α → Bool} {s s' : Stage α} {n : Nat} {d : Bool} (h : Run boom s n s' d)
    (hr : Reach b short boom s false) : Reach b short boom s' d := by
  induction h with
  | nil s => exact hr
  | goes s s1 s2 n l d hg hs hn _ ih => exact ih (.goes s s1 l hr hg hs hn)
  | dies s s1 l hg hs hd => exact .dies s s1 l hr hg hs hd

/-- **C174.** Once destruction has begun and there is an item for which the handler throws, the program ends by an exception whatever the
schedule: after at most `5 * pushed + 12` steps, up to which the worker can always go on, and has not ended. -/
theorem C174_inevitable_partial {b : Nat} (hb : 0 < b) {boom : List α → α → Bool} {s s' : Stage α} {n : Nat} {d : Bool}
    (h : Reach b short boom s false) (hc : s.closed = true) (hn : s.q.pushed.length ≤ 214748364) (hl : s.q.pushed.length ≤ b)
    (hboom : ¬ Calm boom s.q.pushed) (hr : Run boom s n s' d) :
    n ≤ 5 * s.q.pushed.length + 12 ∧
      (d = false → s'.q.pc ≠ .ended ∧ ∀ e : Int, 0 ≤ e → e ≤ 214748364 →
        ∃ s'' d', Stage.Step s' (.work e) (.ok s'') ∧ Run boom s' 1 s'' d') := by
  obtain ⟨h1, h2, h3, _⟩ := C57_drains_partial hb (C174_until.mp h).1 hc hn hr.run
  refine ⟨h1, fun hd => ?_⟩
  subst hd
  have hne : s'.q.pc ≠ .ended := by
    intro he
    have := (C174_joined_partial hb (hr.reach h) (by rw [h2]; omega) (.inl (by rw [h2]; exact hl)) he).2
    rw [h2] at this
    exact hboom this
  refine ⟨hne, fun e he1 he2 => ?_⟩
  obtain ⟨s'', hs⟩ := h3 hne e
  rcases Classical.em (Dies boom s' s'') with hd | hd
  · exact ⟨s'', true, hs, .dies s' s'' (.work e) ⟨he1, he2⟩ hs hd⟩
  · exact ⟨s'', false, hs, .goes s' s'' s'' 0 (.work e) false ⟨he1, he2⟩ hs hd (.nil s'')⟩

/-- C174 as stated: an item for which the handler throws keeps no other item from being handled, so that whenever no step follows all others
have been handled. -/
def C174_Statement (α : Type) : Prop :=
  ∀ (b : Nat) (boom : List α → α → Bool) (s : Stage α) (d : Bool), 0 < b → Reach b anyStep boom s d → s.q.pushed.length ≤ b →
    (d = true ∨ s.q.pc = .ended) → ∀ k v, s.q.pushed[k]? = some v → boom (s.q.pushed.take k) v = false → v ∈ s.q.handled

/-- Follow steps, up to an exception (no code). -/
theorem reach_of_stage {b : Nat} {boom : List α → α → Bool} {s s' : Stage α} {l : Label α} (h : Stage.Reach b anyStep s)
    (hc : Calm boom s.q.handled) (hs : Stage.Step s l (.ok s')) (hd : Dies boom s s') : Reach b anyStep boom s' true :=
  .dies s s' l (C174_until.mpr ⟨h, hc⟩) trivial hs hd

/-- Two items, the handler throws for the first one: the worker is about to call it. -/
theorem demo : ∃ s : Stage Nat, Stage.Reach 2 anyStep s ∧ s.q.pushed = [10, 20] ∧ s.q.handled = [] ∧ s.q.stat = [] ∧ s.q.pc = .call 0 ∧
    s.q.slots = [some 10, some 20] :=
  Stage.follow_ex (n := 1) ([.begin 0 10, .store 0, .begin 0 20, .store 0] ++ Ex.w 4) (by decide +kernel)

theorem demo_dies : ∃ s : Stage Nat, Reach 2 anyStep (fun _ v => v == 10) s true ∧ s.q.pushed = [10, 20] ∧ s.q.handled = [10] := by
  obtain ⟨s, h1, h2, h3, h4, h5, h6⟩ := demo
  have st := Stage.Step.work s 0 (by simp [h5])
  have hw : ∃ q, s.q.work s.closed 0 = .ok q ∧ q.handled = [10] ∧ q.pushed = [10, 20] := by
    simp only [Q.work, h5, h6, h4]
    exact ⟨_, rfl, by simp [h3], h2⟩
  obtain ⟨q, e1, e2, e3⟩ := hw
  rw [e1] at st
  exact ⟨{ s with q := q }, reach_of_stage h1 (by rw [h3]; exact Calm.nil _) st ⟨10, by rw [h3]; exact e2, rfl⟩, e3, e2⟩

theorem C174_refuted : ¬ C174_Statement Nat := by
  intro h
  obtain ⟨s, h1, h2, h3⟩ := demo_dies
  have := h 2 (fun _ v => v == 10) s true (by omega) h1 (by simp [h2]) (.inl rfl) 1 20 (by simp [h2]) rfl
  rw [h3] at this
  simp at this

/-- The hypotheses of `C174_lost_partial` are met. -/
example : ∃ s : Stage Nat, Reach 2 anyStep (fun _ v => v == 10) s true ∧ s.q.pushed.length ≤ 2 ∧ s.q.pushed.length < 2 ^ 64 := by
  obtain ⟨s, h1, h2, _⟩ := demo_dies
  exact ⟨s, h1, by simp [h2], by simp [h2]⟩

/-- The hypotheses of `C174_inevitable_partial` are met: the destructor has been called, and nothing has been handled. -/
example : ∃ s : Stage Nat, Reach 2 short (fun _ v => v == 20) s false ∧ s.closed = true ∧ s.q.pushed = [10, 20] ∧
    ¬ Calm (fun _ v => v == 20) s.q.pushed := by
  obtain ⟨s, h1, h2, h3⟩ : ∃ s : Stage Nat, Stage.Reach 2 short s ∧ s.closed = true ∧ Ex.view s = ([10, 20], [], false) :=
    Stage.follow_short (n := 1) [.begin 0 10, .store 0, .begin 0 20, .store 0, .close] (by decide +kernel)
  simp only [Ex.view, Prod.mk.injEq] at h3
  refine ⟨s, C174_until.mpr ⟨h1, by rw [h3.2.1]; exact Calm.nil _⟩, h2, h3.1, fun h => ?_⟩
  have := h 1 20 (by rw [h3.1]; rfl)
  cases this

end Throw
end Verif.Pipeline
