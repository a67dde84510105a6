import Verif.Pipeline.MonitorProps
/-!
Concrete executions for the theorems about data races in a `pipeline_stage`.
-/
namespace Verif.Pipeline.HB
open Verif Verif.HB Verif.Pipeline
variable {α : Type}

/-- `Mem.Races`, computed. -/
def racesB (R : Loc → Bool) (m : Mem Thr Loc Obj) (t : Thr) : List (Op Loc Obj) → Bool
  | [] => false
  | .acc loc wr tag :: os =>
    (R loc && m.log.any fun a => a.loc = loc && (a.wr || wr) && m.clk t a.who < a.time) ||
      racesB R (m.op t (.acc loc wr tag)) t os
  | .acq o :: os => racesB R (m.op t (.acq o)) t os
  | .rel o :: os => racesB R (m.op t (.rel o)) t os
  | .sto o :: os => racesB R (m.op t (.sto o)) t os

theorem racesB_iff (R : Loc → Bool) (t : Thr) : ∀ (os : List (Op Loc Obj)) (m : Mem Thr Loc Obj),
    racesB R m t os = true ↔ m.Races (fun l => R l = true) t os
  | [], m => by simp [racesB, Mem.Races]
  | .acc loc wr tag :: os, m => by
    simp only [racesB, Mem.Races, Bool.or_eq_true, Bool.and_eq_true, List.any_eq_true, racesB_iff R t os, Mem.Conflict,
      decide_eq_true_eq, and_assoc]
  | .acq o :: os, m => by simp only [racesB, Mem.Races, racesB_iff R t os]
  | .rel o :: os, m => by simp only [racesB, Mem.Races, racesB_iff R t os]
  | .sto o :: os, m => by simp only [racesB, Mem.Races, racesB_iff R t os]

/-- `State.allows`, computed. -/
def allowsB (m : State α) : Lbl α → Bool
  | .ask _ => m.st.closed = false
  | .self => m.st.q.pc = .stat
  | .rel t _ => t ≠ none || m.st.q.pc = .stat
  | .acq t _ => t ≠ none || m.st.q.pc = .stat
  | _ => true

theorem allowsB_allows {m : State α} {l : Lbl α} (h : allowsB m l = true) : m.allows l := by
  cases l with
  | ask p => simpa [allowsB, State.allows] using h
  | self => simpa [allowsB, State.allows] using h
  | rel t n =>
    intro ht
    simpa [allowsB, ht] using h
  | acq t n =>
    intro ht
    simpa [allowsB, ht] using h
  | _ => trivial

/-- One step, computed, for producers below `n`. -/
def fire (n : Nat) (m : State α) (l : Lbl α) : Option (State α) :=
  match l.stage with
  | some sl =>
    match m.st.fire n sl with
    | some st => some ⟨st, m.mem.run l.who (ops m l)⟩
    | none => none
  | none => if allowsB m l then some ⟨m.st, m.mem.run l.who (ops m l)⟩ else none

theorem fire_step {n : Nat} {m m' : State α} {l : Lbl α} (hi : ∀ p, n ≤ p → m.st.pend p = none)
    (h : fire n m l = some m') : Step m l m' ∧ ∀ p, n ≤ p → m'.st.pend p = none := by
  unfold fire at h
  unfold Step StageStep
  cases hl : l.stage with
  | some sl =>
    simp only [hl] at h ⊢
    cases hf : m.st.fire n sl with
    | none => rw [hf] at h; cases h
    | some st =>
      rw [hf] at h
      cases h
      obtain ⟨h1, h2⟩ := Stage.fire_step hi hf
      exact ⟨⟨h1, rfl⟩, h2⟩
  | none =>
    simp only [hl] at h ⊢
    split at h
    · next ha =>
      cases h
      exact ⟨⟨⟨allowsB_allows ha, rfl⟩, rfl⟩, hi⟩
    · cases h

/-- A schedule, followed as long as its steps pass the test `g` and do not race on places in `R`. -/
def follow (R : Loc → Bool) (g : List (Lbl α) → State α → Lbl α → Bool) (n : Nat) :
    List (Lbl α) → State α → List (Lbl α) → Option (List (Lbl α) × State α)
  | done, m, [] => some (done, m)
  | done, m, l :: ls =>
    if g done m l && !racesB R m.mem l.who (ops m l) then
      match fire n m l with
      | some m' => follow R g n (l :: done) m' ls
      | none => none
    else none

theorem follow_run {R : Loc → Bool} {g : List (Lbl α) → State α → Lbl α → Bool}
    {G : List (Lbl α) → State α → Lbl α → Prop} {n b : Nat} (hg : ∀ ls m l, g ls m l = true → G ls m l)
    (ls : List (Lbl α)) {done done' : List (Lbl α)} {m m' : State α} (h : Run b (fun l => R l = true) G done m)
    (hi : ∀ p, n ≤ p → m.st.pend p = none) (hf : follow R g n done m ls = some (done', m')) :
    Run b (fun l => R l = true) G done' m' := by
  induction ls generalizing done m with
  | nil => cases hf; exact h
  | cons l ls ih =>
    rw [follow] at hf
    split at hf
    · next hgl =>
      simp only [Bool.and_eq_true, Bool.not_eq_true'] at hgl
      cases hfi : fire n m l with
      | none => rw [hfi] at hf; cases hf
      | some m1 =>
        rw [hfi] at hf
        obtain ⟨h1, h2⟩ := fire_step hi hfi
        refine ih (.step done m m1 l h (hg _ _ _ hgl.1) h1 fun hr => ?_) h2 hf
        rw [Race, ← racesB_iff, hgl.2] at hr
        cases hr
    · cases hf

/-- A schedule as a witness. -/
theorem follow_ex {R : Loc → Bool} {g : List (Lbl α) → State α → Lbl α → Bool}
    {G : List (Lbl α) → State α → Lbl α → Prop} (n : Nat) {b : Nat} (hg : ∀ ls m l, g ls m l = true → G ls m l)
    {P : State α → Prop} [DecidablePred P] (ls : List (Lbl α))
    (h : (follow R g n [] (State.new b) ls).any (fun s => decide (P s.2)) = true) :
    ∃ done m, Run b (fun l => R l = true) G done m ∧ P m := by
  cases hf : follow R g n [] (State.new b : State α) ls with
  | none => rw [hf] at h; cases h
  | some s =>
    rw [hf] at h
    exact ⟨s.1, s.2, follow_run hg ls .new (fun _ _ => rfl) hf, by simpa using h⟩

theorem Run.congr {b : Nat} {R R' : Loc → Prop} (hR : ∀ l, R' l → R l) {G : List (Lbl α) → State α → Lbl α → Prop}
    {ls : List (Lbl α)} {m : State α} (h : Run b R G ls m) : Run b R' G ls m := by
  have key : ∀ (t : Thr) (os : List (Op Loc Obj)) (m : Mem Thr Loc Obj), m.Races R' t os → m.Races R t os := by
    intro t os
    induction os with
    | nil => exact fun _ h => h
    | cons o os ih =>
      intro m h
      cases o with
      | acq o => exact ih _ h
      | rel o => exact ih _ h
      | sto o => exact ih _ h
      | acc l w i =>
        rcases h with ⟨h1, h2⟩ | h
        · exact .inl ⟨hR _ h1, h2⟩
        · exact .inr (ih _ h)
  induction h with
  | new => exact .new
  | step ls m m' l _ hg hs hn ih => exact .step ls m m' l ih hg hs fun h => hn (key _ _ _ h)

/-- The worker takes `n` steps. -/
def w (n : Nat) : List (Lbl Nat) := List.replicate n (.work 0)

/-- Two pushes by the same thread, then the worker: the first item is handled without a race (the second `tail++` comes
after the first store), as `C77_last_refuted` allows. -/
example : ∃ (ls : List (Lbl Nat)) (m : State Nat), Run 2 slots silent ls m ∧
    m.st.q.pushed = [10, 20] ∧ m.st.q.handled = [10] ∧ m.st.closed = false ∧
    m.st.pend 0 = none := by
  obtain ⟨ls, m, h, hP⟩ := follow_ex (R := fun _ => true) (g := fun _ _ l => match l with
      | .rel none _ => false
      | .acq none _ => false
      | _ => true) (G := silent) (n := 1) (b := 2)
    (fun _ _ l h n => ⟨fun e => by subst e; simp at h, fun e => by subst e; simp at h⟩)
    (P := fun m : State Nat => m.st.q.pushed = [10, 20] ∧ m.st.q.handled = [10] ∧ m.st.closed = false ∧
      m.st.pend 0 = none)
    ([.begin 0 10, .store 0, .begin 0 20, .store 0] ++ w 5) (by decide +kernel)
  exact ⟨ls, m, h.congr fun _ _ => rfl, hP⟩

/-- The step after that is the race: the worker looks at the slot of the second item. -/
example : ∃ (ls : List (Lbl Nat)) (m : State Nat), Run 2 slots silent ls m ∧ m.st.q.handled = [10] ∧ racesB (fun _ => true) m.mem none (workOps m) := by
  obtain ⟨ls, m, h, hP⟩ := follow_ex (R := fun _ => true) (g := fun _ _ l => match l with
      | .rel none _ => false
      | .acq none _ => false
      | _ => true) (G := silent) (n := 1) (b := 2)
    (fun _ _ l h n => ⟨fun e => by subst e; simp at h, fun e => by subst e; simp at h⟩)
    (P := fun m : State Nat => m.st.q.handled = [10] ∧ racesB (fun _ => true) m.mem none (workOps m))
    ([.begin 0 10, .store 0, .begin 0 20, .store 0] ++ w 7) (by decide +kernel)
  exact ⟨ls, m, h.congr fun _ _ => rfl, hP⟩

/-- A thread pushes two items and destroys the stage; then the worker handles both and ends. -/
example : ∃ (ls : List (Lbl Nat)) (m : State Nat), Run 2 (fun _ => True) (late 0) ls m ∧ m.st.q.handled = [10, 20] ∧ m.st.q.pc = .ended := by
  obtain ⟨ls, m, h, hP⟩ := follow_ex (R := fun _ => true) (g := fun _ m l => match l with
      | .begin p _ => p = 0
      | .store p => p = 0
      | .close p => p = 0
      | .ask p => p = 0
      | .work _ => m.st.closed
      | _ => true) (G := late 0) (n := 1) (b := 2)
    (fun _ _ l h => by cases l <;> simp_all [late])
    (P := fun m : State Nat => m.st.q.handled = [10, 20] ∧ m.st.q.pc = .ended)
    ([.ask 0, .begin 0 10, .store 0, .begin 0 20, .store 0, .close 0] ++ w 15) (by decide +kernel)
  exact ⟨ls, m, h.congr fun _ _ => rfl, hP⟩

/-- A handler that tells thread 7 through object 3 that it was called; thread 7 waits for this and then asks, while the
worker is idle: `C107_idle_refuted` applies. -/
example : ∃ (ls : List (Lbl Nat)) (m : State Nat), Run 2 noLoc anyLbl ls m ∧ m.st.q.samples = [(0, 0)] ∧ m.st.q.pc = .outer ∧ m.st.q.handled = [10] := by
  obtain ⟨ls, m, h, hP⟩ := follow_ex (R := fun _ => false) (g := fun _ _ _ => true) (G := anyLbl) (n := 1) (b := 2)
    (fun _ _ _ _ => trivial)
    (P := fun m : State Nat => m.st.q.samples = [(0, 0)] ∧ m.st.q.pc = .outer ∧ m.st.q.handled = [10])
    ([.begin 0 10, .store 0] ++ w 5 ++ [.rel none 3, .acq (some 7) 3] ++ w 2) (by decide +kernel)
  exact ⟨ls, m, h.congr (fun _ h => absurd h id), hP⟩

/-- `x` acquires an object and, before that (further back in the list), `y` released the same one. -/
def handoverB (x y : Thr) : List (Lbl α) → Bool
  | [] => false
  | .acq t n :: c => (t = x && c.any fun l => match l with
      | .rel u k => u = y && k = n
      | _ => false) || handoverB x y c
  | _ :: c => handoverB x y c

theorem handoverB_spec {x y : Thr} : ∀ {ls : List (Lbl α)}, handoverB x y ls = true →
    ∃ n a c d, ls = a ++ .acq x n :: c ++ .rel y n :: d
  | [], h => by cases h
  | l :: c, h => by
    have skip : handoverB x y c = true → ∃ n a c' d, l :: c = a ++ .acq x n :: c' ++ .rel y n :: d := by
      intro h
      obtain ⟨n, a, c', d, e⟩ := handoverB_spec h
      exact ⟨n, l :: a, c', d, by rw [e]; simp⟩
    cases l with
    | acq t n =>
      simp only [handoverB, Bool.or_eq_true, Bool.and_eq_true, decide_eq_true_eq, List.any_eq_true] at h
      rcases h with ⟨rfl, l', hl', hm⟩ | h
      · cases l' with
        | rel u k =>
          simp only [Bool.and_eq_true, decide_eq_true_eq] at hm
          obtain ⟨rfl, rfl⟩ := hm
          obtain ⟨c1, d, rfl⟩ := List.append_of_mem hl'
          exact ⟨k, [], c1, d, by simp⟩
        | _ => simp at hm
      · exact skip h
    | begin p x => exact skip (by simpa [handoverB] using h)
    | store p => exact skip (by simpa [handoverB] using h)
    | close p => exact skip (by simpa [handoverB] using h)
    | work e => exact skip (by simpa [handoverB] using h)
    | ask p => exact skip (by simpa [handoverB] using h)
    | self => exact skip (by simpa [handoverB] using h)
    | rel t n => exact skip (by simpa [handoverB] using h)

/-- `Finished` for all threads: `pre` are the steps after those in the list. -/
def finishedB : List (Lbl α) → List (Lbl α) → Bool
  | _, [] => true
  | pre, .ask p :: d => handoverB none (some p) pre && finishedB (pre ++ [.ask p]) d
  | pre, l :: d => finishedB (pre ++ [l]) d

theorem finishedB_spec {p : Nat} : ∀ (ls pre a d : List (Lbl α)), finishedB pre ls = true → ls = a ++ .ask p :: d →
    handoverB none (some p) (pre ++ a) = true
  | [], _, a, d, _, h => by simp at h
  | l :: ls, pre, a, d, hf, h => by
    have hrec : finishedB (pre ++ [l]) ls = true := by
      cases l <;> simp_all [finishedB]
    cases a with
    | nil =>
      simp only [List.nil_append, List.cons.injEq] at h
      obtain ⟨rfl, rfl⟩ := h
      simp only [finishedB, Bool.and_eq_true] at hf
      simpa using hf.1
    | cons l' a =>
      simp only [List.cons_append, List.cons.injEq] at h
      obtain ⟨rfl, h⟩ := h
      simpa using finishedB_spec ls (pre ++ [l]) a d hrec h

/-- The test for `rendezvous`. -/
def rendezvousB (ls : List (Lbl α)) (m : State α) : Lbl α → Bool
  | .ask p => handoverB (some p) none (duringCall ls)
  | .work _ => m.st.q.pc ≠ .stat || finishedB [] (duringCall ls)
  | _ => true

theorem rendezvousB_spec (ls : List (Lbl α)) (m : State α) (l : Lbl α) (h : rendezvousB ls m l = true) :
    rendezvous ls m l := by
  cases l with
  | ask p => exact handoverB_spec h
  | work e =>
    intro hpc p a d he
    simp only [rendezvousB, hpc, ne_eq, not_true_eq_false, decide_false, Bool.false_or] at h
    exact handoverB_spec (by simpa using finishedB_spec _ [] a d h he)
  | _ => trivial

/-- The handler of the second item invites thread 7, which asks, and waits for it; then the sample is recorded. -/
example : ∃ (ls : List (Lbl Nat)) (m : State Nat), Run 2 deque rendezvous ls m ∧ m.st.q.samples = [(0, 0), (0, 1)] ∧
    (m.mem.log.any fun a => a.who = some 7) = true := by
  obtain ⟨ls, m, h, hP⟩ := follow_ex (R := fun l => l = .stat) (g := rendezvousB) (G := rendezvous) (n := 1) (b := 2)
    rendezvousB_spec
    (P := fun m : State Nat => m.st.q.samples = [(0, 0), (0, 1)] ∧ (m.mem.log.any fun a => a.who = some 7) = true)
    ([.begin 0 10, .store 0, .begin 0 20, .store 0] ++ w 10 ++ [.rel none 3, .acq (some 7) 3, .ask 7, .rel (some 7) 4,
      .acq none 4, .work 0]) (by decide +kernel)
  exact ⟨ls, m, h.congr fun l hl => by simpa [deque] using hl, hP⟩

/-- The handler of the first item asks. -/
example : ∃ (ls : List (Lbl Nat)) (m : State Nat), Run 2 noLoc anyLbl ls m ∧ m.st.q.pc = .stat ∧ m.st.q.handled = [10] := by
  obtain ⟨ls, m, h, hP⟩ := follow_ex (R := fun _ => false) (g := fun _ _ _ => true) (G := anyLbl) (n := 1) (b := 2)
    (fun _ _ _ _ => trivial) (P := fun m : State Nat => m.st.q.pc = .stat ∧ m.st.q.handled = [10])
    ([.begin 0 10, .store 0] ++ w 5 ++ [.self]) (by decide +kernel)
  exact ⟨ls, m, h.congr (fun _ h => absurd h id), hP⟩

/-- Thread 0 asks and then pushes; the sample is recorded. -/
example : ∃ (ls : List (Lbl Nat)) (m : State Nat), Run 2 deque (setup 0) ls m ∧ m.st.q.samples = [(0, 0)] ∧
    (m.mem.log.any fun a => a.who = some 0 && a.loc = .stat) = true := by
  obtain ⟨ls, m, h, hP⟩ := follow_ex (R := fun l => l = .stat) (g := fun _ m l => match l with
      | .begin p _ => p = 0
      | .ask p => p = 0 ∧ m.st.q.pushed = []
      | _ => true) (G := setup 0) (n := 1) (b := 2)
    (fun _ _ l h => by cases l <;> simp_all [setup])
    (P := fun m : State Nat => m.st.q.samples = [(0, 0)] ∧
      (m.mem.log.any fun a => a.who = some 0 && a.loc = .stat) = true)
    ([.ask 0, .begin 0 10, .store 0] ++ w 6) (by decide +kernel)
  exact ⟨ls, m, h.congr fun l hl => by simpa [deque] using hl, hP⟩

end Verif.Pipeline.HB
