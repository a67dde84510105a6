import Verif.Interval.PeriodProps
/-! Concrete executions for the theorems about data races in an `interval_event`. -/
namespace Verif.Interval.HB
open Verif Verif.HB Verif.Interval

/-- `State.free`, computed. -/
def freeB (m : State) : Thr → Bool
  | none => m.st.worker = .calling
  | some p => m.st.who p = .idle

theorem freeB_free {m : State} {t : Thr} (h : freeB m t = true) : m.free t := by
  cases t <;> simpa [freeB, State.free] using h

/-- `State.allows`, computed. -/
def allowsB (m : State) : Lbl → Bool
  | .build p _ => freeB m (some p)
  | .setPeriod t _ => freeB m t
  | .setBetween t => freeB m t && m.st.period ≠ none && m.st.destroyed = false
  | .get t _ => freeB m t && m.st.period ≠ none && m.st.destroyed = false
  | .touch t _ _ => freeB m t
  | .rel t _ => freeB m t
  | .acq t _ => freeB m t
  | _ => true

theorem allowsB_allows {m : State} {l : Lbl} (h : allowsB m l = true) : m.allows l := by
  cases l with
  | build p P => exact freeB_free (t := some p) h
  | setPeriod t P => exact freeB_free (t := t) h
  | setBetween t =>
    simp only [allowsB, Bool.and_eq_true, decide_eq_true_eq] at h
    exact ⟨freeB_free h.1.1, h.1.2, h.2⟩
  | get t b =>
    simp only [allowsB, Bool.and_eq_true, decide_eq_true_eq] at h
    exact ⟨freeB_free h.1.1, h.1.2, h.2⟩
  | touch t n wr => exact freeB_free (t := t) h
  | rel t n => exact freeB_free (t := t) h
  | acq t n => exact freeB_free (t := t) h
  | _ => trivial

/-- One step, computed, for threads below `n`. -/
def fire (n : Nat) (m : State) (l : Lbl) : Option State :=
  if allowsB m l then
    match l.base with
    | some bl =>
      match Interval.fire n m.st bl with
      | some st => some ⟨st, m.mem.run l.who (ops m l)⟩
      | none => none
    | none => some ⟨m.st, m.mem.run l.who (ops m l)⟩
  else none

theorem fire_step {n : Nat} {m m' : State} {l : Lbl} (hi : ∀ k, n ≤ k → m.st.who k = .idle)
    (h : fire n m l = some m') : Step m l m' ∧ ∀ k, n ≤ k → m'.st.who k = .idle := by
  unfold fire at h
  split at h
  · next ha =>
    unfold Step BaseStep
    cases hb : l.base with
    | some bl =>
      simp only [hb] at h ⊢
      cases hf : Interval.fire n m.st bl with
      | none => rw [hf] at h; cases h
      | some st =>
        rw [hf] at h
        cases h
        obtain ⟨h1, h2⟩ := Interval.fire_step hi hf
        exact ⟨⟨allowsB_allows ha, h1, rfl⟩, h2⟩
    | none =>
      simp only [hb] at h ⊢
      cases h
      exact ⟨⟨allowsB_allows ha, rfl, rfl⟩, hi⟩
  · cases h

/-- A schedule, followed as long as its steps pass the test `g` and do not race on places in `R`. -/
def follow (R : Loc → Bool) (g : List Lbl → State → Lbl → Bool) (n : Nat) :
    List Lbl → State → List Lbl → Option (List Lbl × State)
  | done, m, [] => some (done, m)
  | done, m, l :: ls =>
    if g done m l && !m.mem.racesB R l.who (ops m l) then
      match fire n m l with
      | some m' => follow R g n (l :: done) m' ls
      | none => none
    else none

theorem follow_run {R : Loc → Bool} {R' : Loc → Prop} (hR : ∀ l, R' l → R l = true)
    {g : List Lbl → State → Lbl → Bool} {G : List Lbl → State → Lbl → Prop} {n : Nat} {i : State}
    (hg : ∀ ls m l, (∀ k, n ≤ k → m.st.who k = .idle) → g ls m l = true → G ls m l) (ls : List Lbl) {done done' : List Lbl}
    {m m' : State} (h : Run i R' G done m) (hi : ∀ k, n ≤ k → m.st.who k = .idle)
    (hf : follow R g n done m ls = some (done', m')) :
    Run i R' G done' m' ∧ ∀ k, n ≤ k → m'.st.who k = .idle := by
  induction ls generalizing done m with
  | nil => cases hf; exact ⟨h, hi⟩
  | cons l ls ih =>
    rw [follow] at hf
    split at hf
    · next hgl =>
      simp only [Bool.and_eq_true, Bool.not_eq_true'] at hgl
      cases hfi : fire n m l with
      | none => rw [hfi] at hf; cases hf
      | some m1 =>
        rw [hfi] at hf
        obtain ⟨h1, h2⟩ := fire_step hi hfi
        refine ih (.step done m m1 l h (hg _ _ _ hi hgl.1) h1 fun hr => ?_) h2 hf
        have := Mem.Races.mono hR _ _ _ hr
        rw [← Mem.racesB_iff, hgl.2] at this
        cases this
    · cases hf

/-- A schedule as a witness. -/
theorem follow_ex {R : Loc → Bool} {R' : Loc → Prop} (hR : ∀ l, R' l → R l = true)
    {g : List Lbl → State → Lbl → Bool} {G : List Lbl → State → Lbl → Prop} (n : Nat) {i : State}
    (hg : ∀ ls m l, (∀ k, n ≤ k → m.st.who k = .idle) → g ls m l = true → G ls m l)
    (h0 : ∀ k, n ≤ k → i.st.who k = .idle)
    {P : List Lbl → State → Prop} [∀ ls m, Decidable (P ls m)] (ls : List Lbl)
    (h : (follow R g n [] i ls).any (fun s => decide (P s.1 s.2)) = true) : ∃ done m, Run i R' G done m ∧ P done m := by
  cases hf : follow R g n [] i ls with
  | none => rw [hf] at h; cases h
  | some s =>
    rw [hf] at h
    exact ⟨s.1, s.2, (follow_run hR hg ls .new h0 hf).1, by simpa using h⟩

/-- No restriction. -/
def gAny : List Lbl → State → Lbl → Bool := fun _ _ _ => true

theorem gAny_ok {n : Nat} : ∀ ls m l, (∀ k, n ≤ k → m.st.who k = .idle) → gAny ls m l = true → anyLbl ls m l :=
  fun _ _ _ _ _ => trivial

/-- `silent`, computed. -/
def gSilent : List Lbl → State → Lbl → Bool := fun _ _ l =>
  match l with
  | .selfStop | .rel none _ | .acq none _ => false
  | _ => true

theorem gSilent_ok {n : Nat} : ∀ ls m l, (∀ k, n ≤ k → m.st.who k = .idle) → gSilent ls m l = true → silent ls m l := by
  intro ls m l _ h
  refine ⟨?_, fun n => ⟨?_, ?_⟩⟩ <;> (rintro rfl; cases h)

/-- `ordered`, computed for threads below `n`. -/
def gOrdered (n : Nat) : List Lbl → State → Lbl → Bool := fun _ m l =>
  match l with
  | .begin k | .again k =>
    ((List.range n).all fun j => m.st.who j = .idle) &&
      m.mem.log.all fun a => a.loc ≠ .stopped || a.time ≤ m.mem.clk (some k) a.who
  | .selfStop => false
  | _ => true

theorem gOrdered_ok {n : Nat} : ∀ ls m l, (∀ k, n ≤ k → m.st.who k = .idle) → gOrdered n ls m l = true →
    ordered ls m l := by
  intro ls m l hi h
  have key : ∀ k, (((List.range n).all fun j => decide (m.st.who j = .idle)) &&
      m.mem.log.all fun a => decide (a.loc ≠ .stopped) || decide (a.time ≤ m.mem.clk (some k) a.who)) = true →
      (∀ j, m.st.who j = .idle) ∧ ∀ a ∈ m.mem.log, a.loc = .stopped → a.time ≤ m.mem.clk (some k) a.who := by
    intro k h
    simp only [Bool.and_eq_true, List.all_eq_true, List.mem_range, decide_eq_true_eq, Bool.or_eq_true] at h
    refine ⟨fun j => ?_, fun a ha hl => ((h.2 a ha).resolve_left (fun hn => hn hl))⟩
    by_cases hj : n ≤ j
    · exact hi j hj
    · exact h.1 j (by omega)
  cases l with
  | «begin» k => exact key k h
  | again k => exact key k h
  | selfStop => cases h
  | _ => trivial

/-- `keeper k`, computed. -/
def gKeeper (k : Nat) : List Lbl → State → Lbl → Bool := fun ls _ l =>
  match l with
  | .setPeriod t _ | .setBetween t | .get t _ => t = none || (t = some k && .leave k ∈ ls)
  | _ => true

theorem gKeeper_ok {n k : Nat} : ∀ ls m l, (∀ k, n ≤ k → m.st.who k = .idle) → gKeeper k ls m l = true →
    keeper k ls m l := by
  intro ls m l _ h
  cases l with
  | setPeriod t P => simpa [gKeeper, keeper] using h
  | setBetween t => simpa [gKeeper, keeper] using h
  | get t b => simpa [gKeeper, keeper] using h
  | _ => trivial

namespace Ex

/-- The constructor finishes; the worker reaches its loop at time 0. -/
def up : List Lbl := [.build 0 100, .work 0, .work 0]

/-- The worker goes through its loop once; at time `now` it calls the function, which does `ls`. -/
def round (now : Int) (ls : List Lbl) : List Lbl := [.work 0, .work now] ++ ls ++ [.work 0, .work 0]

/-- Thread `k` stops the worker, which stands before the loop condition. -/
def stop (k : Nat) : List Lbl :=
  [.begin k, .clear k, .look k, .work 0, .notify (some k), .look k, .leave k]

/-- Threads 0 and 1 call `stop()` at the same time and both see the flag raised. -/
def both : List Lbl :=
  [.begin 0, .begin 1, .clear 0, .clear 1, .work 0, .notify none, .look 0, .look 1, .leave 0]

end Ex

private def rNone : Loc → Bool := fun _ => false
private def rPeriod : Loc → Bool := fun l => l = .period
private def rStopped : Loc → Bool := fun l => l = .stopped

private theorem only_rNone : ∀ l, noLoc l → rNone l = true := fun _ h => h.elim
private theorem only_rPeriod : ∀ l, only .period l → rPeriod l = true := fun _ h => by simpa [rPeriod, only] using h
private theorem only_rStopped : ∀ l, only .stopped l → rStopped l = true := fun _ h => by simpa [rStopped, only] using h

/-- The worker is about to make its first comparison and nothing has raced yet (hypotheses of `C78_every_call_races`). -/
example : ∃ ls m, Run State.new (only .period) anyLbl ls m ∧ (m.st.worker = .check ∧ m.st.period ≠ none) :=
  follow_ex only_rPeriod 1 gAny_ok (fun _ _ => rfl) (Ex.up ++ [.work 0]) (by decide +kernel)

/-- Calls of `period(val)` before the worker's comparison, and after it (hypotheses of `C80_next_check_refuted` and
`C80_running_refuted`). -/
example : ∃ ls m, Run (.built 100) (only .period) silent ls m ∧ (.setPeriod (some 0) 50 ∈ ls ∧ m.st.worker = .check) :=
  follow_ex only_rPeriod 1 gSilent_ok (fun _ _ => rfl) [.setPeriod (some 0) 50, .work 0, .work 0, .work 0]
    (by decide +kernel)

example : ∃ ls m, Run (.built 100) (only .period) silent ls m ∧ (m.st.calls ≠ [] ∧ m.st.worker.out = false) :=
  follow_ex only_rPeriod 1 gSilent_ok (fun _ _ => rfl) ([.work 0, .work 0] ++ Ex.round 100 []) (by decide +kernel)

/-- The function sets the period, the owner stops the event and reads it (`C80_members_partial`). -/
example : ∃ ls m, Run (.built 100) members (keeper 0) ls m ∧
    (m.st.calls = [100, 100000100] ∧ m.st.period = some 50 ∧ .get (some 0) false ∈ ls) :=
  follow_ex (R := fun l => l = .period || l = .between) (fun _ h => by simpa [members] using h) 1 gKeeper_ok
    (fun _ _ => rfl)
    ([.work 0, .work 0] ++ Ex.round 100 [.setPeriod none 50, .setBetween none] ++ Ex.round 100000100 [.get none true] ++
      Ex.stop 0 ++ [.get (some 0) false])
    (by decide +kernel)

/-- Threads 0 and 1 read the period while the worker runs (`C80_readers_partial`). -/
example : ∃ ls m, Run (.built 100) members readers ls m ∧ (m.st.calls = [100] ∧ .get (some 0) false ∈ ls ∧
    .get (some 1) false ∈ ls) :=
  follow_ex (R := fun l => l = .period || l = .between) (fun _ h => by simpa [members] using h)
    (g := fun _ _ l => match l with | .setPeriod _ _ | .setBetween _ => false | _ => true) 2
    (fun ls m l _ h => by cases l <;> first | trivial | cases h) (fun _ _ => rfl)
    ([.work 0, .work 0, .get (some 0) false] ++ Ex.round 100 [] ++ [.get (some 1) false, .get (some 0) false])
    (by decide +kernel)

/-- The function writes data of the user's; the owner stops the event and comes after the write (`C108_visible`): its own
access, the fourth of the worker's being the function's, does not race. -/
example : ∃ ls m, Run (.built 100) (fun _ => True) anyLbl ls m ∧
    (.leave 0 ∈ ls ∧ .touch none 7 true ∈ ls ∧ .touch (some 0) 7 true ∈ ls ∧ m.st.worker = .ended) :=
  follow_ex (R := fun _ => true) (fun _ _ => rfl) 1 gAny_ok (fun _ _ => rfl)
    ([.work 0, .work 0] ++ Ex.round 100 [.touch none 7 true] ++ Ex.stop 0 ++ [.touch (some 0) 7 true]) (by decide +kernel)

/-- Without `stop()` the same access is a data race. -/
example : ∃ ls m, Run (.built 100) (fun _ => True) anyLbl ls m ∧
    (.touch none 7 true ∈ ls ∧ m.mem.racesB (fun _ => true) (some 0) (ops m (.touch (some 0) 7 true)) = true) :=
  follow_ex (R := fun _ => true) (fun _ _ => rfl) 1 gAny_ok (fun _ _ => rfl)
    ([.work 0, .work 0] ++ Ex.round 100 [.touch none 7 true]) (by decide +kernel)

/-- Thread 0 stops the event and releases a mutex; thread 1 takes it and calls `stop()` (`C108_again_partial`,
`C109_ordered_partial`). -/
example : ∃ ls m, Run (.built 100) (fun _ => True) (ordered) ls m ∧
    (.again 1 ∈ ls ∧ .touch none 7 true ∈ ls ∧ .touch (some 1) 7 true ∈ ls) :=
  follow_ex (R := fun _ => true) (fun _ _ => rfl) 2 gOrdered_ok (fun _ _ => rfl)
    ([.work 0, .work 0] ++ Ex.round 100 [.touch none 7 true] ++ Ex.stop 0 ++
      [.rel (some 0) 3, .acq (some 1) 3, .again 1, .touch (some 1) 7 true]) (by decide +kernel)

/-- Thread 1 calls `stop()` without having synchronised: it reads `stop_` in a data race. -/
example : ∃ ls m, Run (.built 100) (fun _ => True) anyLbl ls m ∧
    (.leave 0 ∈ ls ∧ m.mem.racesB (fun _ => true) (some 1) (ops m (.again 1)) = true) :=
  follow_ex (R := fun _ => true) (fun _ _ => rfl) 2 gAny_ok (fun _ _ => rfl)
    ([.work 0, .work 0] ++ Ex.stop 0) (by decide +kernel)

/-- Two threads inside `stop()`, of which one has returned and the other is about to (hypotheses of
`C109_second_refuted`). -/
theorem both_leave : ∃ ls m, Run (.built 100) (only .stopped) anyLbl ls m ∧ (.leave 0 ∈ ls ∧ m.st.who 1 = .leaving) :=
  follow_ex only_rStopped 2 gAny_ok (fun _ _ => rfl) ([.work 0, .work 0] ++ Ex.both) (by decide +kernel)

/-- C109 refuted: two threads that call `stop()` at the same time can race on `stop_`. -/
theorem C109_refuted : ∃ ls m, Run (.built 100) (only .stopped) anyLbl ls m ∧ Race (only .stopped) m (.leave 1) := by
  obtain ⟨ls, m, h, hj, hk⟩ := both_leave
  exact ⟨ls, m, h, C109_second_refuted (.inr ⟨100, rfl⟩) h hj hk⟩

end Verif.Interval.HB
