import Verif.Interval.RacesProps
/-!
C80 with happens-before: `period(val)` and `period_between_checks(val)` called while the worker runs.  The constructor is
taken to initialise all members before it starts the thread where this matters, since otherwise the worker's first comparison
is a data race anyway (`C78_every_call_races`).
-/
namespace Verif.Interval.HB
open Verif Verif.HB Verif.Interval

variable {i m : State} {R : Loc → Prop} {G : List Lbl → State → Lbl → Prop} {ls : List Lbl}

/-- The function does not synchronise with anybody. -/
def silent : List Lbl → State → Lbl → Prop := fun _ _ l => l ≠ .selfStop ∧ ∀ n, l ≠ .rel none n ∧ l ≠ .acq none n

/-- While the worker is in its loop, it and the others know nothing of each other. -/
structure Apart (m : State) : Prop where
  worker : ∀ p, m.mem.clk none (some p) = 0
  flagUp : m.st.flag = true → ∀ p, m.mem.sync .flag (some p) = 0
  others : ∀ p, m.mem.clk (some p) none = 0
  flagDown : m.st.flag = false → m.mem.sync .flag none = 0
  user : ∀ n, m.mem.sync (.user n) none = 0
  noSelf : m.st.worker ≠ .selfWait ∧ m.st.worker ≠ .selfAsleep

theorem Apart.step {m' : State} {l : Lbl} (h : Apart m) (hi : Inv m.st) (hg : silent ls m l) (hs : Step m l m')
    (ho : m.st.worker.out = false) (ho' : m'.st.worker.out = false) : Apart m' := by
  have hm := hs.2.2
  obtain ⟨s', hs', hd⟩ := hs.did
  -- accesses of anybody
  have acc : ∀ t l wr i, (m.mem.op t (.acc l wr i)).sync = m.mem.sync ∧
      (∀ p, (m.mem.op t (.acc l wr i)).clk none (some p) = 0) ∧
      (∀ p, (m.mem.op t (.acc l wr i)).clk (some p) none = 0) := by
    intro t l wr i
    refine ⟨rfl, fun p => ?_, fun p => ?_⟩
    · by_cases e : t = none
      · subst e; simpa [Mem.op, put] using h.worker p
      · simpa [Mem.op, put, Ne.symm e] using h.worker p
    · by_cases e : t = some p
      · subst e; simpa [Mem.op, put] using h.others p
      · simpa [Mem.op, put, Ne.symm e] using h.others p
  have one : ∀ t l wr i, m'.mem = m.mem.op t (.acc l wr i) → m'.st.flag = m.st.flag →
      (m'.st.worker ≠ .selfWait ∧ m'.st.worker ≠ .selfAsleep) → Apart m' := by
    intro t l wr i h1 h2 h3
    obtain ⟨h4, h5, h6⟩ := acc t l wr i
    refine ⟨fun p => ?_, ?_, fun p => ?_, ?_, ?_, h3⟩
    · rw [h1]; exact h5 p
    · rw [h1, h2, h4]; exact h.flagUp
    · rw [h1]; exact h6 p
    · rw [h1, h2, h4]; exact h.flagDown
    · rw [h1, h4]; exact h.user
  have quiet : m'.mem = m.mem → m'.st.flag = m.st.flag →
      (m'.st.worker ≠ .selfWait ∧ m'.st.worker ≠ .selfAsleep) → Apart m' := by
    intro h1 h2 h3
    exact ⟨by rw [h1]; exact h.worker, by rw [h1, h2]; exact h.flagUp, by rw [h1]; exact h.others,
      by rw [h1, h2]; exact h.flagDown, by rw [h1]; exact h.user, h3⟩
  cases hd with
  | build p P =>
    refine ⟨fun p' => ?_, ?_, fun q => ?_, ?_, ?_, by rw [hs']; exact h.noSelf⟩
    · rw [hm, Mem.clk_other _ (by simp [Lbl.who])]; exact h.worker p'
    · rw [hm, hs']; exact h.flagUp
    · rw [hm]
      by_cases e : q = p
      · subst e; simpa [ops, Lbl.who, Mem.run, Mem.op, put] using h.others q
      · simpa [ops, Lbl.who, Mem.run, Mem.op, put, e] using h.others q
    · rw [hm, hs']; exact h.flagDown
    · rw [hm]; exact h.user
  | setPeriod t P Q => exact one t _ _ _ hm (by rw [hs']) (by rw [hs']; exact h.noSelf)
  | setBetween t => exact one t _ _ _ hm (by rw [hs']) (by rw [hs']; exact h.noSelf)
  | get t b => exact one t _ _ _ hm (by rw [hs']) (by rw [hs']; exact h.noSelf)
  | touch t n wr => exact one t _ _ _ hm (by rw [hs']) (by rw [hs']; exact h.noSelf)
  | begin k Q => exact one (some k) _ _ _ hm (by rw [hs']) (by rw [hs']; exact h.noSelf)
  | again k Q => exact one (some k) _ _ _ hm (by rw [hs']) (by rw [hs']; exact h.noSelf)
  | leave k => exact one (some k) _ _ _ hm (by rw [hs']) (by rw [hs']; exact h.noSelf)
  | selfStop => exact absurd rfl hg.1
  | notify k h1 => rw [h1] at ho; cases ho
  | notifyNone h1 => rw [h1] at ho; cases ho
  | wake k => exact quiet (by rw [hm]; rfl) (by rw [hs']) (by rw [hs']; exact h.noSelf)
  | destroy p => exact quiet (by rw [hm]; rfl) (by rw [hs']) (by rw [hs']; exact h.noSelf)
  | clear k hk =>
    refine ⟨?_, fun hf => ?_, ?_, fun _ => ?_, ?_, by rw [hs']; exact h.noSelf⟩
    · rw [hm]; exact h.worker
    · rw [hs'] at hf; cases hf
    · rw [hm]; exact h.others
    · rw [hm]
      simpa only [ops, Lbl.who, Mem.run, Mem.op, put_same] using h.others k
    · intro n
      rw [hm]
      simpa [ops, Lbl.who, Mem.run, Mem.op, put] using h.user n
  | look k hk =>
    have hf : m.st.flag = false := by
      cases hf : m.st.flag with
      | false => rfl
      | true =>
        have := hi.seen k (.inl hk) hf
        rw [ho] at this; cases this
    refine ⟨?_, ?_, fun p => ?_, ?_, ?_, by rw [hs']; exact h.noSelf⟩
    · rw [hm, Mem.clk_other _ (by simp [Lbl.who])]; exact h.worker
    · rw [hm, hs']; exact h.flagUp
    · have h1 := h.others p
      have h2 := h.flagDown hf
      rw [hm]
      by_cases e : p = k
      · subst e; simp [ops, Lbl.who, Mem.run, Mem.op, put, h1, h2]
      · simp [ops, Lbl.who, Mem.run, Mem.op, put, e, h1]
    · rw [hm, hs']; exact h.flagDown
    · rw [hm]; exact h.user
  | rel t n =>
    cases t with
    | none => exact absurd rfl (hg.2 n).1
    | some p =>
      refine ⟨?_, ?_, ?_, ?_, fun n' => ?_, by rw [hs']; exact h.noSelf⟩
      · rw [hm]; exact h.worker
      · rw [hm, hs', Mem.sync_other _ _ _ _ (by simp [ops])]; exact h.flagUp
      · rw [hm]; exact h.others
      · rw [hm, hs', Mem.sync_other _ _ _ _ (by simp [ops])]; exact h.flagDown
      · have h1 := h.others p
        have h2 := h.user n
        have h3 := h.user n'
        rw [hm]
        by_cases e : n' = n
        · subst e; simp [ops, Lbl.who, Mem.run, Mem.op, put, h1, h2]
        · simp [ops, Lbl.who, Mem.run, Mem.op, put, e, h3]
  | acq t n =>
    cases t with
    | none => exact absurd rfl (hg.2 n).2
    | some p =>
      refine ⟨?_, ?_, fun q => ?_, ?_, ?_, by rw [hs']; exact h.noSelf⟩
      · rw [hm, Mem.clk_other _ (by simp [Lbl.who])]; exact h.worker
      · rw [hm, hs']; exact h.flagUp
      · have h1 := h.others q
        have h2 := h.user n
        rw [hm]
        by_cases e : q = p
        · subst e; simp [ops, Lbl.who, Mem.run, Mem.op, put, h1, h2]
        · simp [ops, Lbl.who, Mem.run, Mem.op, put, e, h1]
      · rw [hm, hs']; exact h.flagDown
      · rw [hm]; exact h.user
  | work now s' _ hw =>
    have h1 := h.noSelf
    rcases workerStep_cases hw with ⟨hpc, rfl⟩ | ⟨hpc, rfl⟩ | ⟨hpc, hd, rfl⟩ | ⟨P, hpc, hd, hP, -, rfl⟩ |
        ⟨P, hpc, hd, hP, -, rfl⟩ | ⟨hpc, rfl⟩ | ⟨hpc, -, rfl⟩ | ⟨hpc, hf, rfl⟩ | ⟨hpc, -, rfl⟩ | ⟨hpc, rfl⟩
    · exact quiet (by rw [hm]; simp [ops, workOps, hpc, Mem.run]) (by rw [hs']) (by rw [hs']; simp)
    · exact quiet (by rw [hm]; simp [ops, workOps, hpc, Mem.run]) (by rw [hs']) (by rw [hs']; simp)
    · cases hf : m.st.flag with
      | false => rw [hs'] at ho'; simp [hf, WPc.out] at ho'
      | true =>
        have h2 := h.worker
        have h3 := h.flagUp hf
        refine ⟨fun p => ?_, fun _ p => ?_, fun p => ?_, fun hf' => ?_, fun n => ?_, by rw [hs']; simp [hf]⟩
        · rw [hm]; simp [ops, workOps, hpc, Mem.run, Mem.op, Lbl.who, put, h2 p, h3 p]
        · rw [hm]; simp [ops, workOps, hpc, Mem.run, Mem.op, Lbl.who, put, h2 p, h3 p]
        · rw [hm, Mem.clk_other _ (by simp [Lbl.who])]; exact h.others p
        · rw [hs'] at hf'; cases hf'
        · rw [hm]
          simpa [ops, workOps, hpc, Mem.run, Mem.op, Lbl.who, put] using h.user n
    · exact one none .period false 0 (by rw [hm]; simp [ops, workOps, hpc, Mem.run, Lbl.who]) (by rw [hs']) (by rw [hs']; simp)
    · exact one none .period false 0 (by rw [hm]; simp [ops, workOps, hpc, Mem.run, Lbl.who]) (by rw [hs']) (by rw [hs']; simp)
    · exact quiet (by rw [hm]; simp [ops, workOps, hpc, Mem.run]) (by rw [hs']) (by rw [hs']; simp)
    · exact one none .between false 0 (by rw [hm]; simp [ops, workOps, hpc, Mem.run, Lbl.who]) (by rw [hs']) (by rw [hs']; simp)
    · exact absurd hpc h1.1
    · exact absurd hpc h1.1
    · exact absurd hpc h1.2

theorem Run.apart (hi : Start i) (h : Run i R silent ls m) (ho : m.st.worker.out = false) : Apart m := by
  induction h with
  | new =>
    rcases hi with rfl | ⟨P, rfl⟩ <;>
      (constructor <;> simp [State.new, State.built, Interval.State.new, Mem.new])
  | step ls m m' l hr hg hs _ ih =>
    cases ho1 : m.st.worker.out with
    | true =>
      have := (hs.outStays ho1).1
      rw [ho] at this; cases this
    | false => exact (ih ho1).step (hr.inv hi) hg hs ho1 ho

/-- A call of `period(val)` has written the member. -/
theorem Run.wrote (h : Run i R G ls m) {t : Thr} {Q : Int} (hs : .setPeriod t Q ∈ ls) :
    ∃ a ∈ m.mem.log, a.loc = .period ∧ a.wr = true ∧ a.who = t := by
  induction h with
  | new => cases hs
  | step ls m m' l hr _ hst _ ih =>
    simp only [List.mem_cons] at hs
    rcases hs with rfl | hs
    · rw [hst.2.2]
      exact ⟨_, List.mem_cons_self, rfl, rfl, rfl⟩
    · obtain ⟨a, ha, h1⟩ := ih hs
      exact ⟨a, by rw [hst.2.2]; exact Mem.log_mono _ _ _ a ha, h1⟩

/-- A call of the function comes after the worker's reading of the member. -/
theorem Run.read (hi : Start i) (h : Run i R G ls m) (hc : m.st.calls ≠ []) :
    ∃ a ∈ m.mem.log, a.loc = .period ∧ a.who = none := by
  induction h with
  | new => rcases hi with rfl | ⟨P, rfl⟩ <;> exact absurd rfl hc
  | step ls m m' l hr _ hst _ ih =>
    by_cases hc' : m.st.calls ≠ []
    · obtain ⟨a, ha, h1⟩ := ih hc'
      exact ⟨a, by rw [hst.2.2]; exact Mem.log_mono _ _ _ a ha, h1⟩
    · have hm := hst.2.2
      obtain ⟨s', hs', hd⟩ := hst.did
      rw [hs'] at hc
      cases hd with
      | work now s' _ hw =>
        rcases workerStep_cases hw with ⟨hpc, rfl⟩ | ⟨hpc, rfl⟩ | ⟨hpc, hd, rfl⟩ | ⟨P, hpc, hd, hP, -, rfl⟩ |
          ⟨P, hpc, hd, hP, -, rfl⟩ | ⟨hpc, rfl⟩ | ⟨hpc, -, rfl⟩ | ⟨hpc, hf, rfl⟩ | ⟨hpc, -, rfl⟩ | ⟨hpc, rfl⟩
        case inr.inr.inr.inl =>
          rw [hm]
          simp only [ops, workOps, hpc, Mem.run]
          exact ⟨_, List.mem_cons_self, rfl, rfl⟩
        all_goals exact absurd hc hc'
      | _ => exact absurd hc hc'

/-- C80 refuted: if `period(val)` has been called by another thread than the worker, then the worker's next comparison is a
data race, however much later it comes and whatever the other threads synchronise with, unless the function itself has
synchronised with them. -/
theorem C80_next_check_refuted (hi : Start i) (h : Run i R silent ls m) {p : Nat} {Q : Int}
    (hs : .setPeriod (some p) Q ∈ ls) (hw : m.st.worker = .check) (now : Int) : Race (only .period) m (.work now) := by
  obtain ⟨a, ha, hl, hwr, hp⟩ := h.wrote hs
  have hA := h.apart hi (by rw [hw]; rfl)
  simp only [Race, ops, workOps, hw, Mem.Races, Lbl.who]
  refine .inl ⟨rfl, a, ha, hl, .inl hwr, ?_⟩
  rw [hp, hA.worker p]
  exact (h.memOk hi).pos a ha

/-- C80 refuted: once the function has been called, any call of `period(val)` from another thread is a data race as long as
the worker is in its loop. -/
theorem C80_running_refuted (hi : Start i) (h : Run i R silent ls m) (hc : m.st.calls ≠ [])
    (ho : m.st.worker.out = false) (p : Nat) (Q : Int) : Race (only .period) m (.setPeriod (some p) Q) := by
  obtain ⟨a, ha, hl, hw⟩ := h.read hi hc
  have hA := h.apart hi ho
  refine .inl ⟨rfl, a, ha, hl, .inr rfl, ?_⟩
  rw [hw]
  simp only [Lbl.who, hA.others p]
  exact (h.memOk hi).pos a ha

/-- The two members that can be set. -/
def members : Loc → Prop := fun l => l = .period ∨ l = .between

/-- Outside the function, only thread `k` sets or reads the members, and only after its `stop()` has returned. -/
def keeper (k : Nat) : List Lbl → State → Lbl → Prop := fun ls _ l =>
  match l with
  | .setPeriod t _ | .setBetween t | .get t _ => t = none ∨ (t = some k ∧ .leave k ∈ ls)
  | _ => True

/-- Who has accessed the members. -/
structure Kept (k : Nat) (ls : List Lbl) (m : State) : Prop where
  period : m.st.period ≠ none
  who : ∀ a ∈ m.mem.log, members a.loc → a.who = none ∨ (a.who = some k ∧ .leave k ∈ ls)

theorem Run.kept {P : Int} {k : Nat} (h : Run (.built P) R (keeper k) ls m) : Kept k ls m := by
  induction h with
  | new => constructor <;> simp [State.built, Mem.new]
  | step ls m m' l hr hg hs _ ih =>
    have hm := hs.2.2
    have old : ∀ a ∈ m.mem.log, members a.loc → a.who = none ∨ (a.who = some k ∧ .leave k ∈ l :: ls) :=
      fun a ha hl => (ih.who a ha hl).imp id fun h => ⟨h.1, List.mem_cons_of_mem _ h.2⟩
    have one : ∀ t x wr i, m'.mem.log = (m.mem.op t (.acc x wr i)).log →
        (members x → t = none ∨ (t = some k ∧ .leave k ∈ l :: ls)) →
        ∀ a ∈ m'.mem.log, members a.loc → a.who = none ∨ (a.who = some k ∧ .leave k ∈ l :: ls) := by
      intro t x wr i h1 h2 a ha hl
      rw [h1] at ha
      simp only [Mem.op, List.mem_cons] at ha
      rcases ha with rfl | ha
      · exact h2 hl
      · exact old a ha hl
    have quiet : m'.mem.log = m.mem.log →
        ∀ a ∈ m'.mem.log, members a.loc → a.who = none ∨ (a.who = some k ∧ .leave k ∈ l :: ls) := by
      intro h1; rw [h1]; exact old
    have stop : members .stopped → False := by rintro (h | h) <;> cases h
    have data : ∀ n, members (.data n) → False := by rintro n (h | h) <;> cases h
    obtain ⟨s', hs', hd⟩ := hs.did
    cases hd with
    | build p P h1 => exact absurd h1 ih.period
    | setPeriod t Q => exact ⟨by rw [hs']; simp, one t _ _ _ (congrArg Mem.log hm) fun _ => hg.imp id fun h => ⟨h.1, List.mem_cons_of_mem _ h.2⟩⟩
    | setBetween t =>
      exact ⟨by rw [hs']; exact ih.period, one t _ _ _ (congrArg Mem.log hm) fun _ => hg.imp id fun h => ⟨h.1, List.mem_cons_of_mem _ h.2⟩⟩
    | get t b =>
      exact ⟨by rw [hs']; exact ih.period, one t _ _ _ (congrArg Mem.log hm) fun _ => hg.imp id fun h => ⟨h.1, List.mem_cons_of_mem _ h.2⟩⟩
    | touch t n wr => exact ⟨by rw [hs']; exact ih.period, one t _ _ _ (congrArg Mem.log hm) fun h => (data n h).elim⟩
    | begin j Q => exact ⟨by rw [hs']; exact ih.period, one (some j) _ _ _ (congrArg Mem.log hm) fun h => (stop h).elim⟩
    | again j Q => exact ⟨by rw [hs']; exact ih.period, one (some j) _ _ _ (congrArg Mem.log hm) fun h => (stop h).elim⟩
    | leave j => exact ⟨by rw [hs']; exact ih.period, one (some j) _ _ _ (congrArg Mem.log hm) fun h => (stop h).elim⟩
    | selfStop => exact ⟨by rw [hs']; exact ih.period, one none .stopped false 0 (by rw [hm]; rfl) fun h => (stop h).elim⟩
    | work now s' _ hw =>
      refine ⟨?_, fun a ha hl => ?_⟩
      · rw [hs']
        rcases workerStep_cases hw with ⟨hpc, rfl⟩ | ⟨hpc, rfl⟩ | ⟨hpc, hd, rfl⟩ | ⟨P, hpc, hd, hP, -, rfl⟩ |
          ⟨P, hpc, hd, hP, -, rfl⟩ | ⟨hpc, rfl⟩ | ⟨hpc, -, rfl⟩ | ⟨hpc, hf, rfl⟩ | ⟨hpc, -, rfl⟩ | ⟨hpc, rfl⟩ <;>
          exact ih.period
      · rw [hm] at ha
        simp only [ops, workOps, Lbl.who] at ha
        cases hpc : m.st.worker <;> simp only [hpc, Mem.run, Mem.op, List.mem_cons] at ha
        case check | pause =>
          rcases ha with rfl | ha
          · exact .inl rfl
          · exact old a ha hl
        case selfWait =>
          cases hf : m.st.flag <;> simp only [hf, Mem.run, Mem.op, List.mem_cons, if_true] at ha
          · exact old a ha hl
          · rcases ha with rfl | ha
            · exact .inl rfl
            · exact old a ha hl
        all_goals exact old a ha hl
    | _ => exact ⟨by rw [hs']; exact ih.period, quiet (by rw [hm]; rfl)⟩

/-- C80, as far as it holds (with a constructor that starts the thread last): the function may set and read the members, and
so may a thread whose `stop()` has returned, without a data race, as long as no other thread does.  What is missing is any
other use, see `C80_next_check_refuted` and `C80_running_refuted`. -/
theorem C80_members_partial {P : Int} {k : Nat} (h : Run (.built P) R (keeper k) ls m) {l : Lbl} {m' : State}
    (hg : keeper k ls m l) (hs : Step m l m') : ¬ Race members m l := by
  have hi : Start (.built P) := .inr ⟨P, rfl⟩
  have hk := h.kept
  have hok := h.memOk hi
  have stop : members .stopped → False := by rintro (h | h) <;> cases h
  have data : ∀ n, members (.data n) → False := by rintro n (h | h) <;> cases h
  have free : ∀ t, (t = none ∨ (t = some k ∧ .leave k ∈ ls)) → m.free t → ∀ x wr, members x → ¬ m.mem.Conflict t x wr := by
    rintro t ht hf x wr hx ⟨a, ha, hl, -, hlt⟩
    have hma : members a.loc := by rw [hl]; exact hx
    have hlog := hok.log a ha
    rcases ht with rfl | ⟨rfl, hle⟩
    · rcases hk.who a ha hma with hw | ⟨hw, hle⟩
      · rw [hw] at hlog hlt; omega
      · have := ((h.seen hi).left k hle).1
        have hc : m.st.worker = .calling := hf
        rw [hc] at this; cases this
    · rcases hk.who a ha hma with hw | ⟨hw, -⟩
      · have := C108_visible hi h hle a ha hw
        rw [hw] at hlt
        omega
      · rw [hw] at hlog hlt; omega
  have worker : m.st.worker.out = false → ∀ x wr, members x → ¬ m.mem.Conflict none x wr := by
    rintro ho x wr hx ⟨a, ha, hl, -, hlt⟩
    have hma : members a.loc := by rw [hl]; exact hx
    have hlog := hok.log a ha
    rcases hk.who a ha hma with hw | ⟨hw, hle⟩
    · rw [hw] at hlog hlt; omega
    · have := ((h.seen hi).left k hle).1
      rw [ho] at this; cases this
  obtain ⟨s', hs', hd⟩ := hs.did
  cases hd with
  | build p P h1 => exact absurd h1 hk.period
  | setPeriod t Q Q' hf =>
    rintro (⟨h1, h2⟩ | h1)
    · exact free t hg hf _ _ h1 h2
    · exact h1
  | setBetween t hf =>
    rintro (⟨h1, h2⟩ | h1)
    · exact free t hg hf _ _ h1 h2
    · exact h1
  | get t b hf =>
    rintro (⟨h1, h2⟩ | h1)
    · exact free t hg hf _ _ h1 h2
    · exact h1
  | work now s' ho hw =>
    intro hr
    simp only [Race, ops, workOps, Lbl.who] at hr
    cases hpc : m.st.worker <;> simp only [hpc, Mem.Races, or_false] at hr
    case check | pause => exact worker ho _ _ hr.1 hr.2
    case selfWait =>
      cases hf : m.st.flag <;> simp only [hf, Mem.Races, or_false, if_true, Bool.false_eq_true, if_false] at hr
      exact stop hr.1
  | selfStop | begin j Q | again j Q | leave j =>
    rintro (⟨h1, -⟩ | h1)
    · exact stop h1
    · exact h1
  | touch t n wr =>
    rintro (⟨h1, -⟩ | h1)
    · exact data n h1
    · exact h1
  | _ => exact fun h => h

/-- Nobody sets the members. -/
def readers : List Lbl → State → Lbl → Prop := fun _ _ l =>
  match l with
  | .setPeriod _ _ | .setBetween _ => False
  | _ => True

/-- An access that is only a reading, or is to another place. -/
def mild : Op Loc Obj → Prop
  | .acc x wr _ => members x → wr = false
  | _ => True

theorem mild_log (t : Thr) : ∀ (os : List (Op Loc Obj)) (m : Mem Thr Loc Obj), (∀ o ∈ os, mild o) →
    (∀ a ∈ m.log, members a.loc → a.wr = false) → ∀ a ∈ (m.run t os).log, members a.loc → a.wr = false
  | [], _, _, h => h
  | o :: os, m, ho, h => by
    refine mild_log t os _ (fun o h => ho o (List.mem_cons_of_mem _ h)) fun a ha hl => ?_
    have h1 := ho o List.mem_cons_self
    cases o with
    | acc x wr i =>
      simp only [Mem.op, List.mem_cons] at ha
      rcases ha with rfl | ha
      · exact h1 hl
      · exact h a ha hl
    | _ => exact h a ha hl

theorem mild_races (t : Thr) : ∀ (os : List (Op Loc Obj)) (m : Mem Thr Loc Obj), (∀ o ∈ os, mild o) →
    (∀ a ∈ m.log, members a.loc → a.wr = false) → ¬ m.Races members t os
  | [], _, _, _ => id
  | o :: os, m, ho, h => by
    have h1 := ho o List.mem_cons_self
    have ih := mild_races t os (m.op t o) (fun o h => ho o (List.mem_cons_of_mem _ h))
      (mild_log t [o] m (by simpa using h1) h)
    cases o with
    | acc x wr i =>
      rintro (⟨hx, a, ha, hl, hw, -⟩ | hr)
      · rcases hw with hw | hw
        · rw [h a ha (by rw [hl]; exact hx)] at hw; cases hw
        · rw [h1 hx] at hw; cases hw
      · exact ih hr
    | _ => exact ih

theorem readers_mild {m' : State} {l : Lbl} (hp : m.st.period ≠ none) (hg : readers ls m l) (hs : Step m l m') :
    m'.st.period ≠ none ∧ ∀ o ∈ ops m l, mild o := by
  have stop : ∀ {p : Prop}, members .stopped → p := by rintro p (h | h) <;> cases h
  have data : ∀ {p : Prop} n, members (.data n) → p := by rintro p n (h | h) <;> cases h
  obtain ⟨s', hs', hd⟩ := hs.did
  rw [hs']
  cases hd with
  | build p P h1 => exact absurd h1 hp
  | setPeriod t P Q => exact hg.elim
  | setBetween t => exact hg.elim
  | work now s' _ hw =>
    constructor
    · rcases workerStep_cases hw with ⟨hpc, rfl⟩ | ⟨hpc, rfl⟩ | ⟨hpc, hd, rfl⟩ | ⟨P, hpc, hd, hP, -, rfl⟩ |
        ⟨P, hpc, hd, hP, -, rfl⟩ | ⟨hpc, rfl⟩ | ⟨hpc, -, rfl⟩ | ⟨hpc, hf, rfl⟩ | ⟨hpc, -, rfl⟩ | ⟨hpc, rfl⟩ <;>
        exact hp
    · simp only [ops, workOps]
      cases hpc : m.st.worker <;> simp [mild]
      cases hf : m.st.flag <;> simp [mild]
      exact stop
  | touch t n wr => exact ⟨hp, by simpa [ops, mild] using data n⟩
  | leave k => exact ⟨hp, by simpa [ops, mild] using stop⟩
  | _ => exact ⟨hp, by simp [ops, mild]⟩

/-- C80, as far as it holds: if the periods are never set (and the constructor starts the thread last), reading them through
`period()` and `period_between_checks()` is not a data race, from any thread at any time. -/
theorem C80_readers_partial {P : Int} (h : Run (.built P) R readers ls m) {l : Lbl} {m' : State} (hg : readers ls m l)
    (hs : Step m l m') : ¬ Race members m l := by
  have key : m.st.period ≠ none ∧ ∀ a ∈ m.mem.log, members a.loc → a.wr = false := by
    clear hs hg
    induction h with
    | new => simp [State.built, Mem.new]
    | step ls m m' l _ hg hs _ ih =>
      obtain ⟨h1, h2⟩ := readers_mild ih.1 hg hs
      exact ⟨h1, by rw [hs.2.2]; exact mild_log _ _ _ h2 ih.2⟩
  exact mild_races _ _ _ (readers_mild key.1 hg hs).2 key.2

end Verif.Interval.HB
