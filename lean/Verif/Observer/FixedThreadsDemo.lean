import Verif.Observer.FixedThreadsRace
/-! Executions in which threads use the fixed-capacity observable one after another (C136). -/
namespace Verif.Observer.Fixed
open Verif Verif.HB

variable {V : Type} {m m' : State V} {l : Lbl V} {self max : Nat} {P : Op V → Prop} [DecidablePred P]

namespace Ex

instance : DecidablePred (Op.IsNotify (V := V)) := fun op => by cases op <;> (unfold Op.IsNotify; infer_instance)

/-- `Turns`, for executions of threads 0 and 1. -/
def turnsB (P : Op V → Prop) [DecidablePred P] (m : State V) (l : Lbl V) : Bool :=
  decide (l.who < 2) && match l with
  | .call t op => (m.stack (1 - t)).isEmpty && ((m.stack t).isEmpty || decide (P op)) &&
      (!(m.stack t).isEmpty || m.mem.log.all (fun a => decide (a.time ≤ m.mem.clk t a.who)))
  | _ => true

/-- Make these steps if threads take turns and the steps are possible. -/
def play (P : Op V → Prop) [DecidablePred P] : List (Lbl V) → State V → Option (State V)
  | [], m => some m
  | l :: ls, m => if turnsB P m l then (step m l).bind (play P ls) else none

/-- The same in the course of a call of thread `t`. -/
def follow (P : Op V → Prop) [DecidablePred P] (t : Nat) : List (Lbl V) → State V → Option (State V)
  | [], m => some m
  | l :: ls, m => if turnsB P m l && !(m.stack t).isEmpty then (step m l).bind (follow P t ls) else none

theorem step_stack (hs : step m l = some m') {u : Nat} (hu : u ≠ l.who) : m'.stack u = m.stack u := by
  cases l with
  | call t c =>
    simp only [step] at hs
    split at hs
    · cases hs
      exact put_ne _ _ hu
    · cases hs
  | act t =>
    simp only [step] at hs
    split at hs
    · split at hs
      · cases hs
      · rename_i f fs hf _
        obtain ⟨c, p, b⟩ := f
        cases p <;> simp only [act, Option.some.injEq, Option.map_eq_some_iff] at hs <;>
          first
          | (subst hs; exact put_ne _ _ hu)
          | (obtain ⟨r, _, rfl⟩ := hs; exact put_ne _ _ hu)
    · cases hs
  | back t =>
    simp only [step] at hs
    split at hs
    · split at hs
      · cases hs
        exact put_ne _ _ hu
      · cases hs
    · cases hs
  | rel t n | acq t n =>
    simp only [step] at hs
    split at hs
    · cases hs; rfl
    · cases hs

theorem turns_of (h : ∀ u, 2 ≤ u → m.stack u = []) (hc : turnsB P m l = true) : Turns P m l ∧ l.who < 2 := by
  unfold turnsB at hc
  rw [Bool.and_eq_true, decide_eq_true_eq] at hc
  obtain ⟨hw, hc⟩ := hc
  refine ⟨?_, hw⟩
  cases l with
  | call t op =>
    simp only [Bool.and_eq_true, Bool.or_eq_true, List.isEmpty_iff, List.all_eq_true, decide_eq_true_eq, Bool.not_eq_true',
      List.isEmpty_eq_false_iff] at hc
    obtain ⟨⟨h1, h2⟩, h3⟩ := hc
    refine ⟨⟨fun u hu => ?_, fun e => ?_⟩, h2⟩
    · rcases Nat.lt_or_ge u 2 with h4 | h4
      · have : u = 1 - t := by simp only [Lbl.who] at hw; omega
        rw [this]; exact h1
      · exact h u h4
    · exact h3.resolve_left fun h => h e
  | _ => exact ⟨trivial, trivial⟩

theorem play_run : ∀ (ls : List (Lbl V)) {m m' : State V}, Run self max (Turns P) m →
    (∀ u, 2 ≤ u → m.stack u = []) → play P ls m = some m' → Run self max (Turns P) m' ∧ ∀ u, 2 ≤ u → m'.stack u = []
  | [], m, m', r, h, e => by cases e; exact ⟨r, h⟩
  | l :: ls, m, m', r, h, e => by
    rw [play] at e
    split at e
    · rename_i hc
      rw [Option.bind_eq_some_iff] at e
      obtain ⟨m1, h1, h2⟩ := e
      obtain ⟨g1, g2⟩ := turns_of h hc
      exact play_run ls (.step m m1 l r g1 h1) (fun u hu => by rw [step_stack h1 (by omega)]; exact h u hu) h2
    · cases e

theorem follow_course {t : Nat} {op : Op V} {m0 : State V} : ∀ (ls : List (Lbl V)) {m m' : State V}, Course (Turns P) t op m0 m →
    (∀ u, 2 ≤ u → m.stack u = []) → follow P t ls m = some m' → Course (Turns P) t op m0 m' ∧ ∀ u, 2 ≤ u → m'.stack u = []
  | [], m, m', r, h, e => by cases e; exact ⟨r, h⟩
  | l :: ls, m, m', r, h, e => by
    rw [follow] at e
    split at e
    · rename_i hc
      rw [Bool.and_eq_true, Bool.not_eq_true', List.isEmpty_eq_false_iff] at hc
      rw [Option.bind_eq_some_iff] at e
      obtain ⟨m1, h1, h2⟩ := e
      obtain ⟨g1, g2⟩ := turns_of h hc.1
      exact follow_course ls (.step m m1 l r hc.2 g1 h1) (fun u hu => by rw [step_stack h1 (by omega)]; exact h u hu) h2
    · cases e

/-- An execution by these steps ends in a state with a property that can be computed. -/
theorem play_ends (P : Op V → Prop) [DecidablePred P] (self max : Nat) (ls : List (Lbl V)) (p : State V → Bool)
    (h : (play P ls (State.new self max)).any p = true) : ∃ m, Run self max (Turns P) m ∧ (∀ u, 2 ≤ u → m.stack u = []) ∧ p m = true :=
  let ⟨m, h1, h2⟩ := (Option.any_eq_true _ _).1 h
  let ⟨g1, g2⟩ := play_run (P := P) ls (.start (self := self) (max := max)) (fun _ _ => rfl) h1
  ⟨m, g1, g2, h2⟩

/-- An execution by these steps, then a call and what it does. -/
theorem follow_ends (P : Op V → Prop) [DecidablePred P] (self max : Nat) (ls more : List (Lbl V)) (t : Nat) (op : Op V)
    (p : State V → Bool) (h : (play P ls (State.new self max)).any (fun m0 => (m0.stack t).isEmpty && turnsB P m0 (.call t op) &&
      ((step m0 (.call t op)).bind (follow P t more)).any p) = true) :
    ∃ m0 m, Run self max (Turns P) m0 ∧ Course (Turns P) t op m0 m ∧ p m = true := by
  obtain ⟨m0, h1, h2⟩ := (Option.any_eq_true _ _).1 h
  obtain ⟨g1, g2⟩ := play_run (P := P) ls (.start (self := self) (max := max)) (fun _ _ => rfl) h1
  rw [Bool.and_eq_true, Bool.and_eq_true, List.isEmpty_iff] at h2
  obtain ⟨m, h3, h4⟩ := (Option.any_eq_true _ _).1 h2.2
  obtain ⟨m1, h5, h6⟩ := Option.bind_eq_some_iff.1 h3
  obtain ⟨k1, k2⟩ := turns_of g2 h2.1.2
  exact ⟨m0, m, g1, (follow_course more (.begin m1 h2.1.1 k1 h5) (fun u hu => by rw [step_stack h5 (by omega)]; exact g2 u hu) h6).1, h4⟩

/-- Thread 0 adds observers 5 and 6 and releases a lock; thread 1 acquires it and notifies of 1; the callback of 5 in that
notification notifies of 2, which is refused, and removes 5; 6 is told then, by the pointer in the place that it
has left. -/
def turn : List (Lbl Nat) :=
  .call 0 (.add 5) :: Ex.acts 0 6 ++ .call 0 (.add 6) :: Ex.acts 0 7 ++ [.rel 0 0, .acq 1 0] ++
    .call 1 (.notify 1) :: Ex.acts 1 6 ++ .call 1 (.notify 2) :: Ex.acts 1 3 ++ .call 1 (.remove 5) :: Ex.acts 1 10 ++
    .back 1 :: Ex.acts 1 3 ++ .back 1 :: Ex.acts 1 3

/-- C136_as_one_thread, C136_results: threads 0 and 1 use the observable, kept apart by a lock. -/
example : ∃ m : State Nat, Run 9 3 (Turns fun _ => True) m ∧ (∀ t, m.stack t = []) ∧
    m.log = [(0, .ret (.add 5) .ok), (0, .ret (.add 6) .ok), (1, .enter 9 5 1), (1, .ret (.notify 2) .notifyRecursionDetected),
      (1, .ret (.remove 5) .ok), (1, .leave 5), (1, .enter 9 6 1), (1, .leave 6), (1, .ret (.notify 1) .ok)] := by
  obtain ⟨m, h1, h2, h3⟩ := play_ends (fun _ => True) 9 3 turn (fun m => (m.stack 0).isEmpty && ((m.stack 1).isEmpty &&
    decide (m.log = [(0, .ret (.add 5) .ok), (0, .ret (.add 6) .ok), (1, .enter 9 5 1), (1, .ret (.notify 2) .notifyRecursionDetected),
      (1, .ret (.remove 5) .ok), (1, .leave 5), (1, .enter 9 6 1), (1, .leave 6), (1, .ret (.notify 1) .ok)]))) (by decide +kernel)
  simp only [Bool.and_eq_true, List.isEmpty_iff, decide_eq_true_eq] at h3
  refine ⟨m, h1, fun t => ?_, h3.2.2⟩
  match t with
  | 0 => exact h3.1
  | 1 => exact h3.2.1
  | t + 2 => exact h2 (t + 2) (by omega)

/-- C136_no_race, C136_goes_on: the same execution, in the midst of the removal. -/
example : ∃ m : State Nat, Run 9 3 InTurn m ∧ (m.stack 1).length = 2 ∧ m.log.length = 4 ∧
    ∃ f fs, m.stack 1 = f :: fs ∧ f.busy = false := by
  obtain ⟨m, h1, -, h3⟩ := play_ends (fun _ => True) 9 3 (turn.take 35) (fun m => decide ((m.stack 1).length = 2 ∧ m.log.length = 4) &&
    match m.stack 1 with
    | f :: _ => !f.busy
    | [] => false) (by decide +kernel)
  rw [Bool.and_eq_true, decide_eq_true_eq] at h3
  refine ⟨m, ?_, h3.1.1, h3.1.2, ?_⟩
  · clear h3
    induction h1 with
    | start => exact .start
    | step m m' l _ hg hs ih => exact .step m m' l ih hg.1 hs
  · cases hf : m.stack 1 with
    | nil => rw [hf] at h3; cases h3.2
    | cons f fs =>
      rw [hf] at h3
      exact ⟨f, fs, rfl, by simpa using h3.2⟩

/-- C136_call, C136_each_once: thread 0 adds observers, thread 1 notifies behind a lock, and the callback of 6 notifies too. -/
example : ∃ m0 m : State Nat, Run 9 3 (Turns Op.IsNotify) m0 ∧ Course (Turns Op.IsNotify) 1 (.notify 1) m0 m ∧ m.stack 1 = [] ∧
    m.log = [(0, .ret (.add 5) .ok), (0, .ret (.add 6) .ok), (1, .enter 9 5 1), (1, .leave 5), (1, .enter 9 6 1),
      (1, .ret (.notify 2) .notifyRecursionDetected), (1, .leave 6), (1, .ret (.notify 1) .ok)] := by
  obtain ⟨m0, m, h1, h2, h3⟩ := follow_ends Op.IsNotify 9 3
    (.call 0 (.add 5) :: Ex.acts 0 6 ++ .call 0 (.add 6) :: Ex.acts 0 7 ++ [.rel 0 0, .acq 1 0])
    (Ex.acts 1 6 ++ .back 1 :: Ex.acts 1 3 ++ .call 1 (.notify 2) :: Ex.acts 1 3 ++ .back 1 :: Ex.acts 1 3) 1 (.notify 1)
    (fun m => (m.stack 1).isEmpty && decide (m.log = [(0, .ret (.add 5) .ok), (0, .ret (.add 6) .ok), (1, .enter 9 5 1), (1, .leave 5),
      (1, .enter 9 6 1), (1, .ret (.notify 2) .notifyRecursionDetected), (1, .leave 6), (1, .ret (.notify 1) .ok)]))
    (by decide +kernel)
  rw [Bool.and_eq_true, List.isEmpty_iff, decide_eq_true_eq] at h3
  exact ⟨m0, m, h1, h2, h3⟩

/-- C136_clear: thread 0 adds observers, thread 1 clears them behind a lock. -/
example : ∃ m0 m : State Nat, Run 9 3 (Turns fun _ => False) m0 ∧ Course (Turns fun _ => False) 1 .clear m0 m ∧ m.stack 1 = [] ∧
    m.log = [(0, .ret (.add 5) .ok), (0, .ret (.add 6) .ok), (1, .disc 9 5), (1, .disc 9 6), (1, .ret .clear .ok)] := by
  obtain ⟨m0, m, h1, h2, h3⟩ := follow_ends (fun _ => False) 9 3
    (.call 0 (.add 5) :: Ex.acts 0 6 ++ .call 0 (.add 6) :: Ex.acts 0 7 ++ [.rel 0 0, .acq 1 0])
    (Ex.acts 1 3 ++ .back 1 :: Ex.acts 1 2 ++ .back 1 :: Ex.acts 1 2) 1 .clear
    (fun m => (m.stack 1).isEmpty && decide (m.log = [(0, .ret (.add 5) .ok), (0, .ret (.add 6) .ok), (1, .disc 9 5), (1, .disc 9 6),
      (1, .ret .clear .ok)])) (by decide +kernel)
  rw [Bool.and_eq_true, List.isEmpty_iff, decide_eq_true_eq] at h3
  exact ⟨m0, m, h1, h2, h3⟩

end Ex

end Verif.Observer.Fixed
