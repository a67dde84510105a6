import Verif.Interval.RacesDemo
/-!
C124, `period_between_checks(val)` called while the worker runs, and C80, C124 for the functions that read the two members
while the periodic function sets them.  See `PeriodProps.lean` for `period(val)`.
-/
namespace Verif.Interval.HB
open Verif Verif.HB Verif.Interval

variable {i m : State} {R : Loc → Prop} {G : List Lbl → State → Lbl → Prop} {ls : List Lbl}

/-- A step that writes a member leaves a record of it. -/
theorem Run.set (h : Run i R G ls m) {l : Lbl} (hl : l ∈ ls) {loc : Loc} (hw : ∀ m : State, ∃ tag, ops m l = [.acc loc true tag]) :
    ∃ a ∈ m.mem.log, a.loc = loc ∧ a.wr = true ∧ a.who = l.who := by
  induction h with
  | new => cases hl
  | step ls m m' l' hr _ hst _ ih =>
    rcases List.mem_cons.1 hl with rfl | hl
    · obtain ⟨tag, e⟩ := hw m
      rw [hst.2.2, e]
      exact ⟨_, List.mem_cons_self, rfl, rfl, rfl⟩
    · obtain ⟨a, ha, h1⟩ := ih hl
      exact ⟨a, by rw [hst.2.2]; exact Mem.log_mono _ _ _ a ha, h1⟩

/-- After the first call and before the pause that follows it. -/
def FirstCall (s : Interval.State) : Prop :=
  s.calls.length = 1 ∧ (s.worker = .calling ∨ s.worker = .pause ∨ s.worker = .selfWait ∨ s.worker = .selfAsleep)

/-- Between two calls of the function the worker reads `period_between_checks_`. -/
theorem Run.paused (hi : Start i) (h : Run i R G ls m) :
    m.st.calls = [] ∨ FirstCall m.st ∨ ∃ a ∈ m.mem.log, a.loc = .between ∧ a.who = none := by
  induction h with
  | new => rcases hi with rfl | ⟨P, rfl⟩ <;> exact .inl rfl
  | step ls m m' l hr _ hst _ ih =>
    have keep : (∃ a ∈ m.mem.log, a.loc = .between ∧ a.who = none) →
        ∃ a ∈ m'.mem.log, a.loc = .between ∧ a.who = none := by
      rintro ⟨a, ha, h1⟩
      exact ⟨a, by rw [hst.2.2]; exact Mem.log_mono _ _ _ a ha, h1⟩
    have hm := hst.2.2
    obtain ⟨s', hs', hd⟩ := hst.did
    have same : s'.calls = m.st.calls → s'.worker = m.st.worker →
        m'.st.calls = [] ∨ FirstCall m'.st ∨ ∃ a ∈ m'.mem.log, a.loc = .between ∧ a.who = none := by
      intro h1 h2
      rw [hs']
      rcases ih with h | h | h
      · exact .inl (by rw [h1]; exact h)
      · exact .inr (.inl (by unfold FirstCall; rw [h1, h2]; exact h))
      · exact .inr (.inr (keep h))
    have pc : (m.st.worker = .test ∨ m.st.worker = .check ∨ m.st.worker = .nap ∨ m.st.worker = .start ∨
        m.st.worker = .notify) → s'.calls = m.st.calls → m'.st.calls = [] ∨ FirstCall m'.st ∨
        ∃ a ∈ m'.mem.log, a.loc = .between ∧ a.who = none := by
      intro h1 h2
      rw [hs']
      rcases ih with h | h | h
      · exact .inl (by rw [h2]; exact h)
      · exfalso
        rcases h.2 with h | h | h | h <;> rw [h] at h1 <;> simp at h1
      · exact .inr (.inr (keep h))
    cases hd with
    | work now s' _ hw =>
      rcases workerStep_cases hw with ⟨hpc, rfl⟩ | ⟨hpc, rfl⟩ | ⟨hpc, hd, rfl⟩ | ⟨P, hpc, hd, hP, -, rfl⟩ |
        ⟨P, hpc, hd, hP, -, rfl⟩ | ⟨hpc, rfl⟩ | ⟨hpc, -, rfl⟩ | ⟨hpc, hf, rfl⟩ | ⟨hpc, -, rfl⟩ | ⟨hpc, rfl⟩
      · exact pc (by simp [hpc]) rfl
      · exact pc (by simp [hpc]) rfl
      · exact pc (by simp [hpc]) rfl
      · rw [hs']
        rcases ih with h | h | h
        · exact .inr (.inl ⟨by simp [h], .inl rfl⟩)
        · exfalso
          rcases h.2 with h | h | h | h <;> rw [h] at hpc <;> cases hpc
        · exact .inr (.inr (keep h))
      · exact pc (by simp [hpc]) rfl
      · rw [hs']
        rcases ih with h | h | h
        · exact .inl h
        · exact .inr (.inl ⟨h.1, .inr (.inl rfl)⟩)
        · exact .inr (.inr (keep h))
      · refine .inr (.inr ?_)
        rw [hm]
        simp only [ops, workOps, hpc, Mem.run]
        exact ⟨_, List.mem_cons_self, rfl, rfl⟩
      · rw [hs']
        rcases ih with h | h | h
        · exact .inl h
        · exact .inr (.inl ⟨h.1, .inl rfl⟩)
        · exact .inr (.inr (keep h))
      · rw [hs']
        rcases ih with h | h | h
        · exact .inl h
        · exact .inr (.inl ⟨h.1, .inr (.inr (.inr rfl))⟩)
        · exact .inr (.inr (keep h))
      · rw [hs']
        rcases ih with h | h | h
        · exact .inl h
        · exact .inr (.inl ⟨h.1, .inr (.inr (.inl rfl))⟩)
        · exact .inr (.inr (keep h))
    | selfStop =>
      rw [hs']
      rcases ih with h | h | h
      · exact .inl h
      · exact .inr (.inl ⟨h.1, .inr (.inr (.inl rfl))⟩)
      · exact .inr (.inr (keep h))
    | notify k h1 => exact pc (by simp [h1]) rfl
    | notifyNone h1 => exact pc (by simp [h1]) rfl
    | _ => exact same rfl rfl

/-- **C124 refuted**: if `period_between_checks(val)` has been called by another thread than the worker, then the worker's
next sleep reads the member in a data race, however much later it comes, unless the function synchronises. -/
theorem C124_next_pause_refuted (hi : Start i) (h : Run i R silent ls m) {p : Nat} (hs : .setBetween (some p) ∈ ls)
    (hw : m.st.worker = .pause) (now : Int) : Race (only .between) m (.work now) := by
  obtain ⟨a, ha, hl, hwr, hp⟩ := h.set hs (loc := .between) fun _ => ⟨1, rfl⟩
  have hA := h.apart hi (by rw [hw]; rfl)
  simp only [Race, ops, workOps, hw, Mem.Races, Lbl.who]
  refine .inl ⟨rfl, a, ha, hl, .inl hwr, ?_⟩
  rw [hp]
  simp only [Lbl.who, hA.worker p]
  exact (h.memOk hi).pos a ha

/-- **C124 refuted**: once the function has been called a second time, any call of `period_between_checks(val)` from another
thread is a data race as long as the worker is in its loop and the function does not synchronise. -/
theorem C124_running_refuted (hi : Start i) (h : Run i R silent ls m) (hc : 2 ≤ m.st.calls.length)
    (ho : m.st.worker.out = false) (p : Nat) : Race (only .between) m (.setBetween (some p)) := by
  rcases h.paused hi with h' | h' | ⟨a, ha, hl, hw⟩
  · rw [h'] at hc; simp at hc
  · have := h'.1; omega
  · have hA := h.apart hi ho
    refine .inl ⟨rfl, a, ha, hl, .inr rfl, ?_⟩
    rw [hw]
    simp only [Lbl.who, hA.others p]
    exact (h.memOk hi).pos a ha

/-- **C80, C124 refuted**: if the function sets a member, which is itself not a race (`C80_members_partial`), any other thread
that reads it with `period()` or `period_between_checks()` races, as long as the worker is in its loop and the function does
not synchronise. -/
theorem C80_reader_refuted (hi : Start i) (h : Run i R silent ls m) (ho : m.st.worker.out = false) (p : Nat) :
    (∀ Q, .setPeriod none Q ∈ ls → Race (only .period) m (.get (some p) false)) ∧
    (.setBetween none ∈ ls → Race (only .between) m (.get (some p) true)) := by
  have hA := h.apart hi ho
  refine ⟨fun Q hs => ?_, fun hs => ?_⟩
  · obtain ⟨a, ha, hl, hwr, hp⟩ := h.set hs (loc := .period) fun _ => ⟨1, rfl⟩
    refine .inl ⟨rfl, a, ha, hl, .inl hwr, ?_⟩
    rw [hp]
    simp only [Lbl.who, hA.others p]
    exact (h.memOk hi).pos a ha
  · obtain ⟨a, ha, hl, hwr, hp⟩ := h.set hs (loc := .between) fun _ => ⟨1, rfl⟩
    refine .inl ⟨rfl, a, ha, hl, .inl hwr, ?_⟩
    rw [hp]
    simp only [Lbl.who, hA.others p]
    exact (h.memOk hi).pos a ha

/-- The constructor has written the members once they are initialised. -/
theorem Run.built (h : Run State.new R G ls m) (hp : m.st.period ≠ none) :
    ∃ p, (∃ a ∈ m.mem.log, a.loc = .between ∧ a.wr = true ∧ a.who = some p) ∧
      ∃ a ∈ m.mem.log, a.loc = .stopped ∧ a.wr = true ∧ a.who = some p := by
  induction h with
  | new => exact absurd rfl hp
  | step ls m m' l hr _ hst _ ih =>
    by_cases hp' : m.st.period ≠ none
    · obtain ⟨p, ⟨a, ha, h1⟩, b, hb, h2⟩ := ih hp'
      rw [hst.2.2]
      exact ⟨p, ⟨a, Mem.log_mono _ _ _ a ha, h1⟩, b, Mem.log_mono _ _ _ b hb, h2⟩
    · have hm := hst.2.2
      obtain ⟨s', hs', hd⟩ := hst.did
      rw [hs'] at hp
      cases hd with
      | build p P =>
        rw [hm]
        refine ⟨p, ⟨_, List.mem_cons_of_mem _ List.mem_cons_self, rfl, rfl, rfl⟩, _, List.mem_cons_self, rfl, rfl, rfl⟩
      | setPeriod t P Q _ h => exact absurd (by rw [h]; simp) hp'
      | work now s' _ hw =>
        rcases workerStep_cases hw with ⟨hpc, rfl⟩ | ⟨hpc, rfl⟩ | ⟨hpc, hd, rfl⟩ | ⟨P, hpc, hd, hP, -, rfl⟩ |
          ⟨P, hpc, hd, hP, -, rfl⟩ | ⟨hpc, rfl⟩ | ⟨hpc, -, rfl⟩ | ⟨hpc, hf, rfl⟩ | ⟨hpc, -, rfl⟩ | ⟨hpc, rfl⟩ <;>
          exact absurd hp hp'
      | _ => exact absurd hp hp'

/-- **C78 refuted for the other member too**: with the constructor as it is, every sleep of the worker reads
`period_between_checks_` in a data race with its initialisation, unless the function synchronises. -/
theorem C78_sleep_refuted (h : Run State.new R silent ls m) (hp : m.st.period ≠ none) (hw : m.st.worker = .pause)
    (now : Int) : Race (only .between) m (.work now) := by
  obtain ⟨p, ⟨a, ha, hl, hwr, hwho⟩, -⟩ := h.built hp
  have hA := h.apart (.inl rfl) (by rw [hw]; rfl)
  simp only [Race, ops, workOps, hw, Mem.Races, Lbl.who]
  refine .inl ⟨rfl, a, ha, hl, .inl hwr, ?_⟩
  rw [hwho, hA.worker p]
  exact (h.memOk (.inl rfl)).pos a ha

/-- **C79**: with the constructor as it is, a function that calls `stop()` reads `stop_` in a data race with its
initialisation, unless the function has synchronised before. -/
theorem C79_own_stop_races (h : Run State.new R silent ls m) (hp : m.st.period ≠ none) (hw : m.st.worker = .calling) :
    Race (only .stopped) m .selfStop := by
  obtain ⟨p, -, a, ha, hl, hwr, hwho⟩ := h.built hp
  have hA := h.apart (.inl rfl) (by rw [hw]; rfl)
  refine .inl ⟨rfl, a, ha, hl, .inl hwr, ?_⟩
  rw [hwho]
  simp only [Lbl.who, hA.worker p]
  exact (h.memOk (.inl rfl)).pos a ha

/-- The worker in the function, and before its sleep, of an event constructed as in the code. -/
example : ∃ ls m, Run State.new noLoc silent ls m ∧ (m.st.period ≠ none ∧ m.st.worker = .calling) :=
  follow_ex (R := fun _ => false) (fun _ h => h.elim) 1 gSilent_ok (fun _ _ => rfl) (Ex.up ++ [.work 0, .work 100])
    (by decide +kernel)

example : ∃ ls m, Run State.new noLoc silent ls m ∧ (m.st.period ≠ none ∧ m.st.worker = .pause) :=
  follow_ex (R := fun _ => false) (fun _ h => h.elim) 1 gSilent_ok (fun _ _ => rfl) (Ex.up ++ [.work 0, .work 100, .work 0])
    (by decide +kernel)

/-- A call from outside before the worker's sleep, and two calls of the function. -/
example : ∃ ls m, Run (.built 100) noLoc silent ls m ∧ (.setBetween (some 0) ∈ ls ∧ m.st.worker = .pause) :=
  follow_ex (R := fun _ => false) (fun _ h => h.elim) 1 gSilent_ok (fun _ _ => rfl)
    [.setBetween (some 0), .work 0, .work 0, .work 0, .work 0] (by decide +kernel)

example : ∃ ls m, Run (.built 100) members silent ls m ∧ (2 ≤ m.st.calls.length ∧ m.st.worker.out = false ∧
    .setPeriod none 50 ∈ ls ∧ .setBetween none ∈ ls) :=
  follow_ex (R := fun l => l = .period || l = .between) (fun _ h => by simpa [members] using h) 1 gSilent_ok
    (fun _ _ => rfl)
    ([.work 0, .work 0] ++ Ex.round 100 [.setPeriod none 50, .setBetween none] ++ Ex.round 100000100 []) (by decide +kernel)

end Verif.Interval.HB
