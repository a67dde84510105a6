import Verif.Pipeline.PoolVisible
/-!
Concrete executions for the theorems about data races and visibility in a pool.
-/
namespace Verif.Pipeline.Pool.HB
open Verif Verif.HB Verif.Pipeline Verif.Pipeline.Pool
variable {α : Type}

/-- `Prod.idle`, computed. -/
def idleB : Prod α → Bool
  | .idle => true
  | _ => false

/-- `State.free`, computed. -/
def freeB (size : Nat) (m : State α) : Thr → Bool
  | .worker n => (m.st.qs n).pc = .stat
  | .out p => idleB (m.st.prod p) && match m.dtor with
    | some (q, k) => q ≠ p || k = size
    | none => true

theorem freeB_free {size : Nat} {m : State α} {t : Thr} (h : freeB size m t = true) : m.free size t := by
  cases t with
  | worker n => simpa [freeB, State.free] using h
  | out p =>
    simp only [freeB, Bool.and_eq_true] at h
    refine ⟨?_, fun k hk => ?_⟩
    · cases hp : m.st.prod p <;> simp_all [idleB]
    · have := h.2
      rw [hk] at this
      simpa using this

/-- `State.allows`, computed, for the steps that are not steps of the pool. -/
def allowsB (size : Nat) (m : State α) : Lbl α → Bool
  | .join p => match m.dtor with
    | some (q, k) => q = p && k < size && (m.st.qs k).pc = .ended
    | none => false
  | .touch t _ _ | .rel t _ | .acq t _ => freeB size m t
  | _ => true

theorem allowsB_allows {size : Nat} {m : State α} {l : Lbl α} (h : allowsB size m l = true) : m.allows size l := by
  cases l with
  | join p =>
    simp only [allowsB] at h
    split at h
    · rename_i q k hk
      simp only [Bool.and_eq_true, decide_eq_true_eq] at h
      exact ⟨k, by rw [hk, h.1.1], h.1.2, h.2⟩
    · cases h
  | touch t d w => exact freeB_free h
  | rel t u => exact freeB_free h
  | acq t u => exact freeB_free h
  | _ => trivial

/-- One step, computed, for threads below `n`. -/
def fire (size : Nat) (tf : Bool) (n : Nat) (m : State α) (l : Lbl α) : Option (State α) :=
  match l.pool with
  | some pl => (Pool.fire size tf n m.st pl).map fun st => ⟨st, m.mem.run l.who (ops tf m l), dtorAfter m l, record m l⟩
  | none => if allowsB size m l then some ⟨m.st, m.mem.run l.who (ops tf m l), dtorAfter m l, record m l⟩ else none

theorem fire_step {size : Nat} {tf : Bool} {n : Nat} {m m' : State α} {l : Lbl α}
    (hi : ∀ p, n ≤ p → m.st.prod p = .idle) (h : fire size tf n m l = some m') :
    Step size tf m l m' ∧ ∀ p, n ≤ p → m'.st.prod p = .idle := by
  unfold fire at h
  unfold Step PoolStep
  cases hl : l.pool with
  | some pl =>
    simp only [hl] at h ⊢
    cases hf : Pool.fire size tf n m.st pl with
    | none => rw [hf] at h; cases h
    | some st =>
      rw [hf] at h
      cases h
      obtain ⟨h1, h2⟩ := Pool.fire_step hi hf
      exact ⟨⟨h1, rfl, rfl, rfl⟩, h2⟩
  | none =>
    simp only [hl] at h ⊢
    split at h
    · next ha =>
      cases h
      exact ⟨⟨⟨allowsB_allows ha, rfl⟩, rfl, rfl, rfl⟩, hi⟩
    · cases h

/-- A schedule, followed as long as its steps pass the test `g` and do not race on places in `R`. -/
def follow (size : Nat) (tf : Bool) (R : Loc → Bool) (g : State α → Lbl α → Bool) (n : Nat) :
    State α → List (Lbl α) → Option (State α)
  | m, [] => some m
  | m, l :: ls =>
    if g m l && !m.mem.racesB R l.who (ops tf m l) then
      match fire size tf n m l with
      | some m' => follow size tf R g n m' ls
      | none => none
    else none

theorem follow_run {b size : Nat} {tf : Bool} {R : Loc → Bool} {R' : Loc → Prop} (hR : ∀ l, R' l → R l = true)
    {g : State α → Lbl α → Bool} {G : State α → Lbl α → Prop} {n : Nat} (hg : ∀ m l, g m l = true → G m l)
    (ls : List (Lbl α)) {done : List (Lbl α)} {m m' : State α} (h : Run b size tf R' G done m)
    (hi : ∀ p, n ≤ p → m.st.prod p = .idle) (hf : follow size tf R g n m ls = some m') :
    (∃ done', Run b size tf R' G done' m') ∧ ∀ p, n ≤ p → m'.st.prod p = .idle := by
  induction ls generalizing done m with
  | nil => cases hf; exact ⟨⟨done, h⟩, hi⟩
  | cons l ls ih =>
    rw [follow] at hf
    split at hf
    · next hgl =>
      simp only [Bool.and_eq_true, Bool.not_eq_true'] at hgl
      cases hfi : fire size tf n m l with
      | none => rw [hfi] at hf; cases hf
      | some m1 =>
        rw [hfi] at hf
        obtain ⟨h1, h2⟩ := fire_step hi hfi
        refine ih (.step done m m1 l h (hg _ _ hgl.1) h1 fun hr => ?_) h2 hf
        have := (Mem.racesB_iff R _ _ _).2 (hr.mono hR _ _ _)
        rw [hgl.2] at this
        cases this
    · cases hf

/-- A schedule as a witness. -/
theorem follow_ex {b size : Nat} {tf : Bool} {R : Loc → Bool} {R' : Loc → Prop} (hR : ∀ l, R' l → R l = true)
    {g : State α → Lbl α → Bool} {G : State α → Lbl α → Prop} (n : Nat) (hg : ∀ m l, g m l = true → G m l)
    {P : State α → Prop} [DecidablePred P] (ls : List (Lbl α))
    (h : (follow size tf R g n (State.new b) ls).any (fun s => decide (P s)) = true) :
    ∃ done m, Run b size tf R' G done m ∧ P m := by
  cases hf : follow size tf R g n (State.new b : State α) ls with
  | none => rw [hf] at h; cases h
  | some s =>
    rw [hf] at h
    obtain ⟨⟨done, hr⟩, -⟩ := follow_run hR hg ls .new (fun _ _ => rfl) hf
    exact ⟨done, s, hr, by simpa using h⟩

/-- A schedule, one more step, and another schedule, as witnesses. -/
theorem follow_ex2 {b size : Nat} {tf : Bool} {R : Loc → Bool} {R' : Loc → Prop} (hR : ∀ l, R' l → R l = true)
    {g : State α → Lbl α → Bool} {G : State α → Lbl α → Prop} (n : Nat) (hg : ∀ m l, g m l = true → G m l)
    {P : State α → State α → State α → Prop} [∀ m m1 m2, Decidable (P m m1 m2)] (ls : List (Lbl α)) (l : Lbl α)
    (ls' : List (Lbl α))
    (h : ((follow size tf R g n (State.new b) ls).any fun m => (fire size tf n m l).any fun m1 =>
      (follow size tf (fun _ => false) (fun _ _ => true) n m1 ls').any fun m2 => decide (P m m1 m2)) = true) :
    ∃ done m m1 m2, Run b size tf R' G done m ∧ Step size tf m l m1 ∧ Later size tf m1 m2 ∧ P m m1 m2 := by
  cases hf : follow size tf R g n (State.new b : State α) ls with
  | none => rw [hf] at h; cases h
  | some m =>
    rw [hf] at h
    simp only [Option.any_some] at h
    obtain ⟨⟨done, hr⟩, hi⟩ := follow_run hR hg ls .new (fun _ _ => rfl) hf
    cases hf1 : fire size tf n m l with
    | none => rw [hf1] at h; cases h
    | some m1 =>
      rw [hf1] at h
      simp only [Option.any_some] at h
      obtain ⟨hs, hi1⟩ := fire_step hi hf1
      cases hf2 : follow size tf (fun _ => false) (fun _ _ => true) n m1 ls' with
      | none => rw [hf2] at h; cases h
      | some m2 =>
        rw [hf2] at h
        refine ⟨done, m, m1, m2, hr, hs, ?_, by simpa using h⟩
        clear h hf hr hf1 hs hi hR hg
        have key : ∀ (ls : List (Lbl α)) (m0 : State α), Later size tf m1 m0 → (∀ p, n ≤ p → m0.st.prod p = .idle) →
            follow size tf (fun _ => false) (fun _ _ => true) n m0 ls = some m2 → Later size tf m1 m2 := by
          intro ls
          induction ls with
          | nil => intro m0 h _ e; cases e; exact h
          | cons l ls ih =>
            intro m0 h hi e
            rw [follow] at e
            split at e
            · cases hfi : fire size tf n m0 l with
              | none => rw [hfi] at e; cases e
              | some m3 =>
                rw [hfi] at e
                obtain ⟨h1, h2⟩ := fire_step hi hfi
                exact ih m3 (.step _ _ _ h h1) h2 e
            · cases e
        exact key ls' m1 .refl hi1 hf2

/-- `slots`, computed. -/
def slotB : Loc → Bool
  | .slot _ _ => true
  | _ => false

theorem slotB_iff (l : Loc) : slotB l = true ↔ slots l := by
  cases l <;> simp [slotB, slots]

/-- A whole push by thread `p`; `k` steps of worker `n`. -/
def push (p x : Nat) : List (Lbl Nat) := [.start p x] ++ List.replicate 16 (.scan p) ++ [.claim p, .store p]
def w (n k : Nat) : List (Lbl Nat) := List.replicate k (.work n 0)

/-- **C116** (refuted): one push, and the worker looks at the slot: a data race. -/
theorem C116_race_refuted (tf : Bool) : ∃ (ls : List (Lbl Nat)) (m m' : State Nat), Run 2 8 tf noLoc anyLbl ls m ∧
    m.st.pushed = [10] ∧ Step 8 tf m (.work 0 0) m' ∧ Race slots tf m (.work 0 0) := by
  obtain ⟨ls, m, m1, m2, h, h1, -, h2, h3⟩ := follow_ex2 (b := 2) (size := 8) (tf := tf) (R := fun _ => false) (R' := noLoc)
    (fun _ h => absurd h id) (g := fun _ _ => true) (G := anyLbl) 1 (fun _ _ _ => trivial)
    (P := fun m _ _ : State Nat => m.st.pushed = [10] ∧ m.mem.racesB slotB (.worker 0) (ops tf m (.work 0 0)) = true)
    (push 0 10 ++ w 0 2) (.work 0 0) [] (by cases tf <;> decide +kernel)
  refine ⟨ls, m, m1, h, h2, h1, ?_⟩
  have := (Mem.racesB_iff _ _ _ _).1 h3
  exact this.mono (fun l hl => (slotB_iff l).1 hl) _ _ _

/-- Nine pushes by one thread, the first and the last into queue 0; then worker 0 handles the first of the two without a race
(the second `tail++` comes after the first store), as `C116_last_refuted` allows. -/
example : ∃ (ls : List (Lbl Nat)) (m : State Nat), Run 2 8 true slots (deaf 0) ls m ∧
    (m.st.qs 0).pushed = [0, 8] ∧ (m.st.qs 0).handled = [0] ∧ m.st.closed = false ∧ idleB (m.st.prod 0) = true :=
  follow_ex (R := slotB) (fun l h => (slotB_iff l).2 h) (g := fun _ l => match l with
      | .acq (.worker _) _ => false
      | _ => true) 1
    (fun _ l h u e => by subst e; simp at h)
    ((List.range 9).flatMap (push 0) ++ w 0 5) (by decide +kernel)

/-- A worker that has read and written its samples, for `C115_statistics`. -/
example : ∃ (ls : List (Lbl Nat)) (m m' m2 : State Nat), Run 2 8 true noLoc anyLbl ls m ∧ Step 8 true m (.work 0 0) m' ∧
    Later 8 true m' m2 ∧ (m.mem.log.any fun a => a.loc = .stat 0 && a.wr) = true ∧ (m'.st.qs 0).handled = [0, 8] :=
  follow_ex2 (R := fun _ => false) (fun _ h => absurd h id) (g := fun _ _ => true) 1 (fun _ _ _ => trivial)
    ((List.range 9).flatMap (push 0) ++ w 0 9) (.work 0 0) [] (by decide +kernel)

/-- `late`, computed. -/
def lateB (m : State α) : Lbl α → Bool
  | .work _ _ => m.st.closed
  | .close p => m.mem.log.all fun a => !slotB a.loc || a.time ≤ m.mem.clk (.out p) a.who
  | _ => true

theorem lateB_late {m : State α} {l : Lbl α} (h : lateB m l = true) : late m l := by
  cases l with
  | work n e => exact h
  | close p =>
    intro a ha hsl
    have := List.all_eq_true.1 h a ha
    rw [(slotB_iff _).2 hsl] at this
    simpa using this
  | _ => trivial

/-- One thread makes three pushes into a pool with one slot in each queue and destroys it; worker 0 and worker 1 handle what they
got, for `C116_late_partial`. -/
example : ∃ (ls : List (Lbl Nat)) (m : State Nat), Run 1 8 true noLoc (fun m l => late m l ∧ alone 0 l) ls m ∧
    (m.st.qs 0).handled = [10] ∧ (m.st.qs 1).handled = [20] ∧ (m.st.qs 0).pc = .ended := by
  refine follow_ex (R := fun _ => false) (fun _ h => absurd h id) (g := fun m l => lateB m l && match l with
      | .start p _ => p = 0
      | _ => true) 1 (fun m l h => ?_)
    (push 0 10 ++ push 0 20 ++ push 0 30 ++ [.close 0] ++ w 0 10 ++ w 1 10) (by decide +kernel)
  rw [Bool.and_eq_true] at h
  refine ⟨lateB_late h.1, ?_⟩
  cases l <;> simp_all [alone]

/-- Two threads push at the same time into the same queue; thread 1 tells thread 0 through object 4 that it is done, and thread
0 destroys the pool, for `C116_joined_partial`. -/
example : ∃ (ls : List (Lbl Nat)) (m : State Nat), Run 2 8 true noLoc late ls m ∧
    (m.st.qs 0).pushed = [10, 20] ∧ (m.st.qs 0).handled = [10, 20] ∧ (m.st.qs 0).pc = .ended :=
  follow_ex (R := fun _ => false) (fun _ h => absurd h id) (g := lateB) 2 (fun _ _ => lateB_late)
    ([.start 0 10, .start 1 20] ++ List.replicate 16 (.scan 0) ++ List.replicate 16 (.scan 1) ++
      [.claim 0, .claim 1, .store 1, .store 0, .rel (.out 1) 4, .acq (.out 0) 4, .close 0] ++ w 0 15) (by decide +kernel)

/-- The handler uses data 5, and so does thread 0 after the destructor; it does not race, as `C117_handlers` says. -/
example : ∃ (ls : List (Lbl Nat)) (m m' m2 : State Nat), Run 1 1 true noLoc anyLbl ls m ∧
    Step 1 true m (.touch (.out 0) 5 true) m' ∧ Later 1 true m' m2 ∧ m.dtor = some (0, 1) ∧
    (m.mem.log.any fun a => a.who = .worker 0 && a.loc = .data 5 && a.wr) = true ∧
    m.mem.racesB (fun _ => true) (.out 0) (ops true m (.touch (.out 0) 5 true)) = false :=
  follow_ex2 (R := fun _ => false) (fun _ h => absurd h id) (g := fun _ _ => true) 1 (fun _ _ _ => trivial)
    (push 0 10 ++ w 0 5 ++ [.touch (.worker 0) 5 true, .work 0 0, .close 0] ++ w 0 3 ++ [.join 0])
    (.touch (.out 0) 5 true) [] (by decide +kernel)

/-- Thread 3 uses data 5 without synchronisation: then the use after the destructor races, with it, as `C117_data` says. -/
example : ∃ (ls : List (Lbl Nat)) (m m' m2 : State Nat), Run 1 1 true noLoc anyLbl ls m ∧
    Step 1 true m (.touch (.out 0) 5 true) m' ∧ Later 1 true m' m2 ∧ m.dtor = some (0, 1) ∧
    m.mem.racesB (fun _ => true) (.out 0) (ops true m (.touch (.out 0) 5 true)) = true :=
  follow_ex2 (R := fun _ => false) (fun _ h => absurd h id) (g := fun _ _ => true) 4 (fun _ _ _ => trivial)
    ([.touch (.out 3) 5 true, .close 0] ++ w 0 2 ++ [.join 0]) (.touch (.out 0) 5 true) [] (by decide +kernel)

/-- What thread `p` is about to push, and where. -/
def chosenOf (m : State Nat) (p : Nat) : Option (Nat × Nat) :=
  match m.st.prod p with
  | .chosen x n _ => some (x, n)
  | _ => none

/-- Thread 1 uses data 5 and pushes; the handler has been called and then the pool destroyed by thread 0, for `C118_visible`,
`C118_items_partial` and `C117_pushes`. -/
example : ∃ (ls : List (Lbl Nat)) (m m1 m2 : State Nat), Run 1 1 true noLoc anyLbl ls m ∧ Step 1 true m (.claim 1) m1 ∧
    Later 1 true m1 m2 ∧ chosenOf m 1 = some (10, 0) ∧ m.mem.clk (.out 1) (.out 1) = 1 ∧ (m2.st.qs 0).handled = [10] ∧
    m2.dtor = some (0, 1) ∧ m2.mem.clk (.worker 0) (.out 1) = 1 ∧ m2.mem.clk (.out 0) (.out 1) = 1 :=
  follow_ex2 (R := fun _ => false) (fun _ h => absurd h id) (g := fun _ _ => true) 2 (fun _ _ _ => trivial)
    ([.touch (.out 1) 5 true, .start 1 10] ++ List.replicate 16 (.scan 1)) (.claim 1)
    ([.store 1] ++ w 0 6 ++ [.close 0] ++ w 0 3 ++ [.join 0]) (by decide +kernel)

/-- **C119** (refuted): with two workers both are in the handler at the same time, and what the handler does to its own data is
a data race. -/
theorem C119_refuted (tf : Bool) : ∃ (ls : List (Lbl Nat)) (m m' : State Nat), Run 2 8 tf noLoc (handlersOnly 5) ls m ∧
    (m.st.qs 0).pc = .stat ∧ (m.st.qs 1).pc = .stat ∧ Step 8 tf m (.touch (.worker 1) 5 true) m' ∧
    Race (fun x => x = .data 5) tf m (.touch (.worker 1) 5 true) := by
  obtain ⟨ls, m, m1, m2, h, h1, -, h2, h3, h4⟩ := follow_ex2 (b := 2) (size := 8) (tf := tf) (R := fun _ => false)
    (R' := noLoc) (fun _ h => absurd h id) (g := fun _ l => match l with
      | .touch (.out _) _ _ => false
      | _ => true) (G := handlersOnly 5) 1 (fun _ l h p wr e => by subst e; simp at h)
    (P := fun m _ _ : State Nat => (m.st.qs 0).pc = .stat ∧ (m.st.qs 1).pc = .stat ∧
      m.mem.racesB (fun x => x = .data 5) (.worker 1) (ops tf m (.touch (.worker 1) 5 true)) = true)
    (push 0 10 ++ push 0 20 ++ w 0 5 ++ w 1 5 ++ [.touch (.worker 0) 5 true]) (.touch (.worker 1) 5 true) []
    (by cases tf <;> decide +kernel)
  refine ⟨ls, m, m1, h, h2, h3, h1, ?_⟩
  have := (Mem.racesB_iff _ _ _ _).1 h4
  exact this.mono (fun l hl => by simpa using hl) _ _ _

/-- One worker, two calls of the handler, both of which use data 5, for `C119_one_worker_partial`. -/
example : ∃ (ls : List (Lbl Nat)) (m m' m2 : State Nat), Run 2 1 true noLoc (handlersOnly 5) ls m ∧
    Step 1 true m (.touch (.worker 0) 5 true) m' ∧ Later 1 true m' m2 ∧ (m.st.qs 0).handled = [0, 8] ∧
    (m.mem.log.any fun a => a.loc = .data 5) = true :=
  follow_ex2 (R := fun _ => false) (fun _ h => absurd h id) (g := fun _ l => match l with
      | .touch (.out _) _ _ => false
      | _ => true) 1 (fun _ l h p wr e => by subst e; simp at h)
    ((List.range 9).flatMap (push 0) ++ w 0 5 ++ [.touch (.worker 0) 5 true] ++ w 0 5) (.touch (.worker 0) 5 true) []
    (by decide +kernel)

/-- **C118** (refuted for queues that overrun): with eight workers and one slot in each queue, thread 1 writes data 5 and pushes 20
while worker 0 is about to call the handler for the first item of its queue; the handler gets 20, but what thread 1 did before its
push does not happen before what the handler does, and the handler's use of data 5 is a data race. -/
theorem C118_overrun_refuted (tf : Bool) : ∃ (ls : List (Lbl Nat)) (m m' : State Nat), Run 1 8 tf noLoc anyLbl ls m ∧
    (m.st.qs 0).pushed = [10, 20] ∧ (m.st.qs 0).handled = [20] ∧
    (∃ c ∈ m.claims, c.item = 20 ∧ m.mem.clk (.worker 0) (.out 1) < c.know (.out 1)) ∧
    Step 8 tf m (.touch (.worker 0) 5 false) m' ∧ Race (fun x => x = .data 5) tf m (.touch (.worker 0) 5 false) := by
  obtain ⟨ls, m, m1, m2, h, h1, -, h2, h3, h4, h5⟩ := follow_ex2 (b := 1) (size := 8) (tf := tf) (R := fun _ => false)
    (R' := noLoc) (fun _ h => absurd h id) (g := fun _ _ => true) (G := anyLbl) 2 (fun _ _ _ => trivial)
    (P := fun m _ _ : State Nat => (m.st.qs 0).pushed = [10, 20] ∧ (m.st.qs 0).handled = [20] ∧
      (m.claims.any fun c => c.item = 20 && m.mem.clk (.worker 0) (.out 1) < c.know (.out 1)) = true ∧
      m.mem.racesB (fun x => x = .data 5) (.worker 0) (ops tf m (.touch (.worker 0) 5 false)) = true)
    (push 0 10 ++ w 0 4 ++ [.touch (.out 1) 5 true] ++ push 1 20 ++ w 0 1) (.touch (.worker 0) 5 false) []
    (by cases tf <;> decide +kernel)
  rw [List.any_eq_true] at h4
  obtain ⟨c, hc, h4⟩ := h4
  simp only [Bool.and_eq_true, decide_eq_true_eq] at h4
  exact ⟨ls, m, m1, h, h2, h3, ⟨c, hc, h4⟩, h1,
    ((Mem.racesB_iff _ _ _ _).1 h5).mono (fun l hl => by simpa using hl) _ _ _⟩

end Verif.Pipeline.Pool.HB
