import Verif.Pipeline.StageLifeProps
/-!
Concrete executions for C125-C127.
-/
namespace Verif.Pipeline.Life
open Verif Verif.HB Verif.Pipeline
variable {α : Type}

/-- `State.free`, computed. -/
def freeB (m : State α) : HB.Thr → Bool
  | none => m.st.q.pc = .stat
  | some p => (m.st.pend p).isNone && m.dtor ≠ some (p, false)

theorem freeB_free {m : State α} {t : HB.Thr} (h : freeB m t = true) : m.free t := by
  cases t with
  | none => simpa [freeB, State.free] using h
  | some p => simpa [freeB, State.free] using h

/-- `State.allows`, computed. -/
def allowsB (m : State α) : Lbl α → Bool
  | .base (.ask p) => m.st.closed = false && freeB m (some p)
  | .base .self => freeB m none
  | .base (.rel t _) => freeB m t
  | .base (.acq t _) => freeB m t
  | .join p => m.dtor = some (p, false) && m.st.q.pc = .ended
  | .touch t _ _ => freeB m t
  | _ => true

theorem allowsB_allows {m : State α} {l : Lbl α} (h : allowsB m l = true) : m.allows l := by
  cases l with
  | join p => simpa [allowsB, State.allows] using h
  | touch t d w => exact freeB_free h
  | base l =>
    cases l with
    | ask p =>
      simp only [allowsB, Bool.and_eq_true, decide_eq_true_eq] at h
      exact ⟨h.1, freeB_free h.2⟩
    | self => exact freeB_free (t := none) h
    | rel t n => exact freeB_free h
    | acq t n => exact freeB_free h
    | _ => trivial

/-- One step, computed, for threads below `n`. -/
def fire (n : Nat) (m : State α) (l : Lbl α) : Option (State α) :=
  match l.stage with
  | some sl => (m.st.fire n sl).map fun st => ⟨st, m.mem.run l.who (ops m l), dtorAfter m l, record m l⟩
  | none => if allowsB m l then some ⟨m.st, m.mem.run l.who (ops m l), dtorAfter m l, record m l⟩ else none

theorem fire_step {n : Nat} {m m' : State α} {l : Lbl α} (hi : ∀ p, n ≤ p → m.st.pend p = none)
    (h : fire n m l = some m') : Step m l m' ∧ ∀ p, n ≤ p → m'.st.pend p = none := by
  unfold fire at h
  unfold Step StageStep
  cases hl : l.stage with
  | some sl =>
    simp only [hl] at h ⊢
    cases hf : m.st.fire n sl with
    | none => rw [hf] at h; cases h
    | some st =>
      rw [hf] at h
      cases h
      obtain ⟨h1, h2⟩ := Stage.fire_step hi hf
      exact ⟨⟨h1, rfl, rfl, rfl⟩, h2⟩
  | none =>
    simp only [hl] at h ⊢
    split at h
    · next ha =>
      cases h
      exact ⟨⟨⟨allowsB_allows ha, rfl⟩, rfl, rfl, rfl⟩, hi⟩
    · cases h

/-- A schedule, followed as long as its steps pass the test `g`. -/
def follow (g : State α → Lbl α → Bool) (n : Nat) : State α → List (Lbl α) → Option (State α)
  | m, [] => some m
  | m, l :: ls =>
    if g m l then
      match fire n m l with
      | some m' => follow g n m' ls
      | none => none
    else none

theorem follow_run {b : Nat} {g : State α → Lbl α → Bool} {G : State α → Lbl α → Prop} {n : Nat}
    (hg : ∀ m l, g m l = true → G m l) (ls : List (Lbl α)) {done : List (Lbl α)} {m m' : State α} (h : Run b G done m)
    (hi : ∀ p, n ≤ p → m.st.pend p = none) (hf : follow g n m ls = some m') :
    (∃ done', Run b G done' m') ∧ ∀ p, n ≤ p → m'.st.pend p = none := by
  induction ls generalizing done m with
  | nil => cases hf; exact ⟨⟨done, h⟩, hi⟩
  | cons l ls ih =>
    rw [follow] at hf
    split at hf
    · next hgl =>
      cases hfi : fire n m l with
      | none => rw [hfi] at hf; cases hf
      | some m1 =>
        rw [hfi] at hf
        obtain ⟨h1, h2⟩ := fire_step hi hfi
        exact ih (.step done m m1 l h (hg _ _ hgl) h1) h2 hf
    · cases hf

/-- A schedule and one more step, as witnesses. -/
theorem follow_ex {b : Nat} {g : State α → Lbl α → Bool} {G : State α → Lbl α → Prop} (n : Nat)
    (hg : ∀ m l, g m l = true → G m l) {P : State α → State α → Prop} [∀ m m1, Decidable (P m m1)] (ls : List (Lbl α))
    (l : Lbl α) (h : ((follow g n (State.new b) ls).any fun m => (fire n m l).any fun m1 => decide (P m m1)) = true) :
    ∃ done m m1, Run b G done m ∧ Step m l m1 ∧ P m m1 := by
  cases hf : follow g n (State.new b : State α) ls with
  | none => rw [hf] at h; cases h
  | some m =>
    rw [hf] at h
    simp only [Option.any_some] at h
    obtain ⟨⟨done, hr⟩, hi⟩ := follow_run hg ls .new (fun _ _ => rfl) hf
    cases hf1 : fire n m l with
    | none => rw [hf1] at h; cases h
    | some m1 =>
      rw [hf1] at h
      simp only [Option.any_some, decide_eq_true_eq] at h
      exact ⟨done, m, m1, hr, (fire_step hi hf1).1, h⟩

/-- Steps of the worker. -/
def w (k : Nat) : List (Lbl Nat) := List.replicate k (.base (.work 0))

/-- A push by thread `p`. -/
def push (p x : Nat) : List (Lbl Nat) := [.base (.begin p x), .base (.store p)]

/-- `handed`, computed. -/
def handedB (d i p0 : Nat) (m : State Nat) : Lbl Nat → Bool
  | .touch none d' _ => d' ≠ d || i < m.st.q.handled.length
  | .touch (some p) d' _ => d' ≠ d || (p = p0 && m.st.q.pushed.length ≤ i && m.dtor = none) ||
      (m.dtor = some (p, true) && (p = p0 || i < m.st.q.pushed.length))
  | .base (.begin p _) => m.st.q.pushed.length ≠ i || p = p0
  | _ => true

theorem handedB_spec {d i p0 : Nat} (m : State Nat) (l : Lbl Nat) (h : handedB d i p0 m l = true) : handed d i p0 m l := by
  cases l with
  | join p => trivial
  | touch t d' w =>
    cases t with
    | none =>
      intro e
      simpa [handedB, e] using h
    | some p =>
      intro e
      simpa [handedB, e, or_assoc, and_assoc] using h
  | base l =>
    cases l with
    | begin p x =>
      intro e
      simpa [handedB, e] using h
    | _ => trivial

/-- Thread 0 writes data 7, pushes; the handler writes it; thread 1 pushes, the handler writes it again; thread 1 destroys the
stage and writes it: an execution as C127 and C125 mean it, and the last write is a step that C127 is about. -/
def story : List (Lbl Nat) :=
  [.touch (some 0) 7 true] ++ push 0 10 ++ w 5 ++ [.touch none 7 true] ++ w 1 ++ push 1 11 ++ w 4 ++
    [.touch none 7 true, .base (.close 1)] ++ w 4 ++ [.join 1]

example : ∃ (ls : List (Lbl Nat)) (m m' : State Nat), Run 4 (handed 7 0 0) ls m ∧ Step m (.touch (some 1) 7 true) m' ∧
    handed 7 0 0 m (.touch (some 1) 7 true) ∧ m.st.q.pushed = [10, 11] ∧ m.st.q.handled = [10, 11] ∧
    m.dtor = some (1, true) ∧ ¬ Race (fun l => l = .data 7) m (.touch (some 1) 7 true) := by
  obtain ⟨ls, m, m', h, hs, h1, h2, h3, h4⟩ := follow_ex (b := 4) 2 (g := handedB 7 0 0) handedB_spec
    (P := fun m _ => handedB 7 0 0 m (.touch (some 1) 7 true) = true ∧ m.st.q.pushed = [10, 11] ∧ m.st.q.handled = [10, 11] ∧
      m.dtor = some (1, true)) story (.touch (some 1) 7 true) (by decide +kernel)
  have h5 := handedB_spec _ _ h1
  exact ⟨ls, m, m', h, hs, h5, h2, h3, h4, C127_handed_over (by omega) h (by rw [h2]; decide) h5 hs⟩

/-- The same use of the data by the handler, then by thread 1 before the destructor: a data race (`C127_back_races`). -/
example : ∃ (ls : List (Lbl Nat)) (m m' : State Nat), Run 4 quiet ls m ∧ Step m (.touch (some 0) 7 true) m' ∧
    m.dtor = none ∧ Race (fun l => l = .data 7) m (.touch (some 0) 7 true) := by
  obtain ⟨ls, m, m', h, hs, h1, h2⟩ := follow_ex (b := 4) 2
    (g := fun _ l => match l with | .base (.rel none _) => false | _ => true) (G := quiet)
    (fun m l h n e => by subst e; cases h)
    (P := fun m _ => m.dtor = none ∧ (m.mem.log.any fun a => a.who = none && a.loc = .data 7) = true)
    (push 0 10 ++ w 5 ++ [.touch none 7 true] ++ w 1) (.touch (some 0) 7 true) (by decide +kernel)
  rw [List.any_eq_true] at h2
  obtain ⟨a, ha, h3⟩ := h2
  simp only [Bool.and_eq_true, decide_eq_true_eq] at h3
  exact ⟨ls, m, m', h, hs, h1, C127_back_races h ha h3.1 h3.2 (by rw [h1]; simp) 0⟩

/-- C125 and C126 in the same story: the destroying thread comes after all accesses of the worker, and the handler of item 0
after the write that thread 0 made before it pushed this item. -/
example : ∃ (ls : List (Lbl Nat)) (m m' : State Nat), Run 4 anyLbl ls m ∧ Step m (.touch (some 1) 7 true) m' ∧
    m.dtor = some (1, true) ∧ (∃ a ∈ m.mem.log, a.who = none ∧ a.loc = .data 7) ∧
    (∃ c ∈ m.claims, c.i = 0 ∧ c.item = 10 ∧ c.know (some 0) = 1 ∧ 1 ≤ m.mem.clk none (some 0)) := by
  obtain ⟨ls, m, m', h, hs, h1, h2, h3⟩ := follow_ex (b := 4) 2 (g := fun _ _ => true) (G := anyLbl) (fun _ _ _ => trivial)
    (P := fun m _ => m.dtor = some (1, true) ∧ (m.mem.log.any fun a => a.who = none && a.loc = .data 7) = true ∧
      (m.claims.any fun c => c.i = 0 && c.item = 10 && c.know (some 0) = 1 && 1 ≤ m.mem.clk none (some 0)) = true)
    story (.touch (some 1) 7 true) (by decide +kernel)
  rw [List.any_eq_true] at h2 h3
  obtain ⟨a, ha, h2⟩ := h2
  obtain ⟨c, hc, h3⟩ := h3
  simp only [Bool.and_eq_true, decide_eq_true_eq] at h2 h3
  exact ⟨ls, m, m', h, hs, h1, ⟨a, ha, h2⟩, c, hc, h3.1.1.1, h3.1.1.2, h3.1.2, h3.2⟩

/-- Data that only the handler uses, over two items (`C127_own`). -/
example : ∃ (ls : List (Lbl Nat)) (m m' : State Nat), Run 4 (fun _ l => ∀ p w, l ≠ .touch (some p) 7 w) ls m ∧
    Step m (.touch none 7 true) m' ∧ m.st.q.handled = [10, 11] ∧ (∃ a ∈ m.mem.log, a.loc = .data 7) := by
  obtain ⟨ls, m, m', h, hs, h1, h2⟩ := follow_ex (b := 4) 2
    (g := fun _ l => match l with | .touch (some _) _ _ => false | _ => true)
    (G := fun _ l => ∀ p w, l ≠ .touch (some p) 7 w) (fun m l h p w e => by subst e; cases h)
    (P := fun m _ => m.st.q.handled = [10, 11] ∧ (m.mem.log.any fun a => a.loc = .data 7) = true)
    (push 0 10 ++ push 1 11 ++ w 5 ++ [.touch none 7 true] ++ w 5) (.touch none 7 true) (by decide +kernel)
  rw [List.any_eq_true] at h2
  obtain ⟨a, ha, h2⟩ := h2
  exact ⟨ls, m, m', h, hs, h1, a, ha, by simpa using h2⟩

/-- **C126** (refuted for stages that overrun): with one slot, thread 1 writes data 7 and pushes 20 while the worker is about to
call the handler for the first item; the handler gets 20, but what thread 1 did before its push does not happen before what the
handler does, and the handler's use of data 7 is a data race. -/
theorem C126_overrun_refuted : ∃ (ls : List (Lbl Nat)) (m m' : State Nat), Run 1 anyLbl ls m ∧ m.st.q.pushed = [10, 20] ∧
    m.st.q.handled = [20] ∧ (∃ c ∈ m.claims, c.item = 20 ∧ m.mem.clk none (some 1) < c.know (some 1)) ∧
    Step m (.touch none 7 false) m' ∧ Race (fun l => l = .data 7) m (.touch none 7 false) := by
  obtain ⟨ls, m, m', h, hs, h1, h2, h3, h4⟩ := follow_ex (b := 1) 2 (g := fun _ _ => true) (G := anyLbl) (fun _ _ _ => trivial)
    (P := fun m _ => m.st.q.pushed = [10, 20] ∧ m.st.q.handled = [20] ∧
      (m.claims.any fun c => c.item = 20 && m.mem.clk none (some 1) < c.know (some 1)) = true ∧
      (m.mem.log.any fun a => a.loc = .data 7 && a.wr && m.mem.clk none a.who < a.time) = true)
    (push 0 10 ++ w 4 ++ [.touch (some 1) 7 true] ++ push 1 20 ++ w 1) (.touch none 7 false) (by decide +kernel)
  rw [List.any_eq_true] at h3 h4
  obtain ⟨c, hc, h3⟩ := h3
  obtain ⟨a, ha, h4⟩ := h4
  simp only [Bool.and_eq_true, decide_eq_true_eq] at h3 h4
  exact ⟨ls, m, m', h, h1, h2, ⟨c, hc, h3⟩, hs, .inl ⟨rfl, a, ha, h4.1.1, .inl h4.1.2, h4.2⟩⟩

end Verif.Pipeline.Life
