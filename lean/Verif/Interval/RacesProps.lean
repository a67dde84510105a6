import Verif.Interval.RacesLemmas
/-!
`interval_event` and data races: the members that are initialised after the thread has been started (C78), `period(val)`
(C80), what the function did (C108), and `stop_` (C109).
-/
namespace Verif.Interval.HB
open Verif Verif.HB Verif.Interval

variable {i m : State} {R : Loc → Prop} {G : List Lbl → State → Lbl → Prop} {ls : List Lbl}

/-! ### C78 -/

/-- What holds as long as nothing has raced on `period_`. -/
structure Fresh (m : State) : Prop where
  pc : m.st.worker = .nap ∨ m.st.worker = .start ∨ m.st.worker = .test ∨ m.st.worker = .check ∨ m.st.worker.out = true
  calls : m.st.calls = []
  clk : m.st.worker.out = false → ∀ p, m.mem.clk none (some p) = 0
  flag : m.st.worker.out = false → m.st.flag = true → ∀ p, m.mem.sync .flag (some p) = 0
  init : m.st.period ≠ none → ∃ a ∈ m.mem.log, a.loc = .period ∧ a.wr = true ∧ ∃ p, a.who = some p

theorem Fresh.races (h : Fresh m) (hok : m.mem.Ok) (hw : m.st.worker = .check) (hp : m.st.period ≠ none) (now : Int) :
    Race (only .period) m (.work now) := by
  obtain ⟨a, ha, hl, hwr, p, hp⟩ := h.init hp
  simp only [Race, ops, workOps, hw, Mem.Races, Lbl.who]
  refine .inl ⟨rfl, a, ha, hl, .inl hwr, ?_⟩
  rw [hp, h.clk (by rw [hw]; rfl) p]
  exact hok.pos a ha

/-- A step of another thread, or one of the function, that leaves the worker, its calls and the flag alone. -/
theorem Fresh.other {m' : State} (h : Fresh m) (t : Thr) (os : List (Op Loc Obj)) (hm : m'.mem = m.mem.run t os)
    (ht : t ≠ none) (ho : ∀ x ∈ os, x ≠ .rel .flag ∧ x ≠ .sto .flag) (hw : m'.st.worker = m.st.worker)
    (hc : m'.st.calls = m.st.calls) (hf : m'.st.flag = m.st.flag)
    (hp : m'.st.period ≠ none → m.st.period ≠ none ∨
      ∃ a ∈ m'.mem.log, a.loc = .period ∧ a.wr = true ∧ ∃ p, a.who = some p) : Fresh m' := by
  refine ⟨by rw [hw]; exact h.pc, by rw [hc]; exact h.calls, ?_, ?_, ?_⟩
  · rw [hw, hm, Mem.clk_other _ (Ne.symm ht)]; exact h.clk
  · rw [hw, hf, hm, Mem.sync_other _ _ _ _ ho]; exact h.flag
  · intro hn
    rcases hp hn with hn | hn
    · obtain ⟨a, ha, h1⟩ := h.init hn
      exact ⟨a, by rw [hm]; exact Mem.log_mono _ _ _ a ha, h1⟩
    · exact hn

theorem Fresh.step {m' : State} {l : Lbl} (h : Fresh m) (hok : m.mem.Ok) (hs : Step m l m')
    (hn : ¬ Race (only .period) m l) : Fresh m' := by
  have hm := hs.2.2
  have hcall : m.st.worker ≠ .calling := by
    intro e
    rcases h.pc with h | h | h | h | h <;> rw [e] at h <;> cases h
  have free : ∀ t, m.free t → t ≠ none := by
    intro t hf e
    subst e
    exact hcall hf
  obtain ⟨s', hst, hd⟩ := hs.did
  cases hd with
  | build p P h1 h2 =>
    refine h.other (some p) _ hm (by simp) (by simp [ops]) (by rw [hst]) (by rw [hst]) (by rw [hst]) fun _ => .inr ?_
    rw [hm]
    exact ⟨⟨some p, m.mem.clk (some p) (some p) + 1, .period, true, 0⟩, by simp [ops, Mem.run, Mem.op, Lbl.who], rfl, rfl, p, rfl⟩
  | setPeriod t P Q hf hq =>
    exact h.other t _ hm (free t hf) (by simp [ops]) (by rw [hst]) (by rw [hst]) (by rw [hst])
      fun _ => .inl (by rw [hq]; simp)
  | setBetween t hf =>
    exact h.other t _ hm (free t hf) (by simp [ops]) (by rw [hst]) (by rw [hst]) (by rw [hst])
      fun hn => .inl (by rwa [hst] at hn)
  | get t b hf =>
    exact h.other t _ hm (free t hf) (by simp [ops]) (by rw [hst]) (by rw [hst]) (by rw [hst])
      fun hn => .inl (by rwa [hst] at hn)
  | touch t n wr hf =>
    exact h.other t _ hm (free t hf) (by simp [ops]) (by rw [hst]) (by rw [hst]) (by rw [hst])
      fun hn => .inl (by rwa [hst] at hn)
  | rel t n hf =>
    exact h.other t _ hm (free t hf) (by simp [ops]) (by rw [hst]) (by rw [hst]) (by rw [hst])
      fun hn => .inl (by rwa [hst] at hn)
  | acq t n hf =>
    exact h.other t _ hm (free t hf) (by simp [ops]) (by rw [hst]) (by rw [hst]) (by rw [hst])
      fun hn => .inl (by rwa [hst] at hn)
  | begin k Q =>
    exact h.other (some k) _ hm (by simp) (by simp [ops]) (by rw [hst]) (by rw [hst]) (by rw [hst])
      fun hn => .inl (by rwa [hst] at hn)
  | again k Q =>
    exact h.other (some k) _ hm (by simp) (by simp [ops]) (by rw [hst]) (by rw [hst]) (by rw [hst])
      fun hn => .inl (by rwa [hst] at hn)
  | look k =>
    exact h.other (some k) _ hm (by simp) (by simp [ops]) (by rw [hst]) (by rw [hst]) (by rw [hst])
      fun hn => .inl (by rwa [hst] at hn)
  | wake k =>
    exact h.other (some k) _ hm (by simp) (by simp [ops]) (by rw [hst]) (by rw [hst]) (by rw [hst])
      fun hn => .inl (by rwa [hst] at hn)
  | leave k =>
    exact h.other (some k) _ hm (by simp) (by simp [ops]) (by rw [hst]) (by rw [hst]) (by rw [hst])
      fun hn => .inl (by rwa [hst] at hn)
  | destroy p =>
    exact h.other (some p) _ hm (by simp) (by simp [ops]) (by rw [hst]) (by rw [hst]) (by rw [hst])
      fun hn => .inl (by rwa [hst] at hn)
  | clear k hk =>
    refine ⟨by rw [hst]; exact h.pc, by rw [hst]; exact h.calls, ?_, ?_, ?_⟩
    · rw [hst, hm, Mem.clk_other _ (by simp [Lbl.who])]; exact h.clk
    · rw [hst]; intro _ hf; cases hf
    · rw [hst, hm]
      intro hn
      obtain ⟨a, ha, h1⟩ := h.init hn
      exact ⟨a, Mem.log_mono _ _ _ a ha, h1⟩
  | selfStop h1 h2 => exact absurd h1 hcall
  | notify k h1 h2 h3 =>
    refine ⟨by rw [hst]; simp [WPc.out], by rw [hst]; exact h.calls, by rw [hst]; simp [WPc.out],
      by rw [hst]; simp [WPc.out], by rw [hst, hm]; exact h.init⟩
  | notifyNone h1 h2 h3 =>
    refine ⟨by rw [hst]; simp [WPc.out], by rw [hst]; exact h.calls, by rw [hst]; simp [WPc.out],
      by rw [hst]; simp [WPc.out], by rw [hst, hm]; exact h.init⟩
  | work now s' ho hw =>
    have hinit : m.st.period ≠ none → ∃ a ∈ m'.mem.log, a.loc = .period ∧ a.wr = true ∧ ∃ p, a.who = some p := by
      intro hn
      obtain ⟨a, ha, h1⟩ := h.init hn
      exact ⟨a, by rw [hm]; exact Mem.log_mono _ _ _ a ha, h1⟩
    rcases workerStep_cases hw with ⟨hpc, rfl⟩ | ⟨hpc, rfl⟩ | ⟨hpc, hd, rfl⟩ | ⟨P, hpc, hd, hP, -⟩ |
      ⟨P, hpc, hd, hP, -⟩ | ⟨hpc, -⟩ | ⟨hpc, -⟩ | ⟨hpc, -⟩ | ⟨hpc, -⟩ | ⟨hpc, -⟩
    · have hm' : m'.mem = m.mem := by rw [hm]; simp [ops, workOps, hpc, Mem.run]
      rw [hm'] at hinit
      refine ⟨by rw [hst]; simp, by rw [hst]; exact h.calls, ?_, ?_, by rw [hst, hm']; exact hinit⟩
      · rw [hm']; exact fun _ => h.clk ho
      · rw [hst, hm']; exact fun _ => h.flag ho
    · have hm' : m'.mem = m.mem := by rw [hm]; simp [ops, workOps, hpc, Mem.run]
      rw [hm'] at hinit
      refine ⟨by rw [hst]; simp, by rw [hst]; exact h.calls, ?_, ?_, by rw [hst, hm']; exact hinit⟩
      · rw [hm']; exact fun _ => h.clk ho
      · rw [hst, hm']; exact fun _ => h.flag ho
    · cases hf : m.st.flag with
      | false =>
        have hout : m'.st.worker.out = true := by rw [hst]; simp [hf, WPc.out]
        exact ⟨.inr (.inr (.inr (.inr hout))), by rw [hst]; exact h.calls, by rw [hout]; simp, by rw [hout]; simp,
          by rw [hst]; exact hinit⟩
      | true =>
        have h1 := h.clk ho
        have h2 := h.flag ho hf
        refine ⟨by rw [hst]; simp [hf], by rw [hst]; exact h.calls, fun _ p => ?_, fun _ _ p => ?_, by rw [hst]; exact hinit⟩
        · rw [hm]
          simp [ops, workOps, hpc, Mem.run, Mem.op, Lbl.who, put, h1 p, h2 p]
        · rw [hm]
          simp [ops, workOps, hpc, Mem.run, Mem.op, Lbl.who, put, h1 p, h2 p]
    · exact absurd (h.races hok hpc (by rw [hP]; simp) now) hn
    · exact absurd (h.races hok hpc (by rw [hP]; simp) now) hn
    · exact absurd hpc hcall
    all_goals (rcases h.pc with h | h | h | h | h <;> rw [hpc] at h <;> cases h)

theorem Run.fresh (h : Run State.new (only .period) G ls m) : Fresh m := by
  induction h with
  | new => constructor <;> simp [State.new, Interval.State.new, Mem.new]
  | step ls m m' l hr _ hs hn ih => exact ih.step (hr.memOk (.inl rfl)) hs hn

/-- C78 refuted for every execution, with the order in which the members are declared: the constructor initialises `period_`
after it has started the thread, and nothing orders this before the worker's first comparison, however long the worker has
slept.  So in an execution without a data race on `period_` the function is never called, and once the worker gets to its
first comparison and the member is initialised, the comparison is a data race (if it is not, the worker reads an
indeterminate value, `C78_refuted`). -/
theorem C78_every_call_races (h : Run State.new (only .period) G ls m) :
    m.st.calls = [] ∧
    (m.st.worker = .check → m.st.period ≠ none → ∀ now, Race (only .period) m (.work now)) :=
  ⟨h.fresh.calls, fun hw hp now => h.fresh.races (h.memOk (.inl rfl)) hw hp now⟩

/-! ### C108 -/

/-- What the worker did, for threads that have seen that it has left its loop. -/
structure Seen (ls : List Lbl) (m : State) : Prop where
  flag : m.st.worker.out = true → m.st.flag = true → m.mem.clk none none ≤ m.mem.sync .flag none
  leaving : ∀ k, m.st.who k = .leaving → m.mem.clk none none ≤ m.mem.clk (some k) none
  left : ∀ k, .leave k ∈ ls → m.st.worker.out = true ∧ m.st.stopped = true ∧ m.mem.clk none none ≤ m.mem.clk (some k) none

/-- The worker, once out of its loop, makes no access. -/
theorem Step.clk_out {m' : State} {l : Lbl} (h : Step m l m') (ho : m.st.worker.out = true) :
    m'.mem.clk none none = m.mem.clk none none := by
  rw [h.2.2]
  by_cases hw : l.who = none
  · rw [h.who_out ho hw]; rfl
  · rw [Mem.clk_other _ (Ne.symm hw)]

theorem Step.clk_le {m' : State} {l : Lbl} (h : Step m l m') (t u : Thr) : m.mem.clk t u ≤ m'.mem.clk t u := by
  rw [h.2.2]; exact Mem.clk_run _ _ _ _ _

/-- Out of its loop the worker leaves the flag alone, and others only clear it. -/
theorem Step.flag_out {m' : State} {l : Lbl} (h : Step m l m') (ho : m.st.worker.out = true) :
    m'.st.flag = true → m.st.flag = true ∧ m'.mem.sync .flag = m.mem.sync .flag := by
  intro hf
  have hm := h.2.2
  have key : (∀ x ∈ ops m l, x ≠ .rel .flag ∧ x ≠ .sto .flag) → m'.mem.sync .flag = m.mem.sync .flag := by
    intro hx; rw [hm]; exact Mem.sync_other _ _ _ _ hx
  obtain ⟨s', hst, hd⟩ := h.did
  cases hd with
  | work now s' ho' => rw [ho] at ho'; cases ho'
  | selfStop h1 h2 => rw [h1] at ho; cases ho
  | clear k => rw [hst] at hf; cases hf
  | _ => exact ⟨by rwa [hst] at hf, key (by simp [ops])⟩

theorem Seen.step {m' : State} {l : Lbl} (h : Seen ls m) (hi : Inv m.st) (hok : m.mem.Ok) (hs : Step m l m') :
    Seen (l :: ls) m' := by
  by_cases ho : m.st.worker.out = true
  · have hc := hs.clk_out ho
    have hle := fun k => hs.clk_le (some k) none
    have hout := hs.outStays ho
    refine ⟨fun _ hf => ?_, fun k hk => ?_, fun k hk => ?_⟩
    · obtain ⟨h1, h2⟩ := hs.flag_out ho hf
      rw [hc, h2]; exact h.flag ho h1
    · rw [hc]
      by_cases hk' : m.st.who k = .leaving
      · exact Nat.le_trans (h.leaving k hk') (hle k)
      · have hm := hs.2.2
        obtain ⟨s', hst, hd⟩ := hs.did
        rw [hst] at hk
        cases hd with
        | look j hj =>
          by_cases e : k = j
          · subst e
            simp only [upd_same] at hk
            cases hf : m.st.flag with
            | false => rw [hf] at hk; cases hk
            | true =>
              have := h.flag ho hf
              rw [hm]
              simp only [ops, Lbl.who, Mem.run, Mem.op, put_same]
              omega
          · simp only [upd_other _ _ e] at hk
            exact absurd hk hk'
        | work now s' ho' => rw [ho] at ho'; cases ho'
        | notify j | begin j | clear j | wake j | leave j =>
          by_cases e : k = j
          · subst e; simp only [upd_same] at hk; cases hk
          · simp only [upd_other _ _ e] at hk; exact absurd hk hk'
        | _ => exact absurd hk hk'
    · rw [hc]
      simp only [List.mem_cons] at hk
      rcases hk with rfl | hk
      · obtain ⟨s', hst, hd⟩ := hs.did
        cases hd with
        | leave _ hl => exact ⟨hout.1, by rw [hst], Nat.le_trans (h.leaving k hl) (hle k)⟩
      · obtain ⟨-, h2, h3⟩ := h.left k hk
        exact ⟨hout.1, hout.2.2 h2, Nat.le_trans h3 (hle k)⟩
  · have hno : ∀ k, m.st.who k ≠ .leaving := fun k hk => ho (hi.leaving k hk)
    have hm := hs.2.2
    obtain ⟨s', hst, hd⟩ := hs.did
    refine ⟨fun ho' hf => ?_, fun k hk => ?_, fun k hk => ?_⟩
    · cases hd with
      | work now s' _ hw =>
        rcases workerStep_cases hw with ⟨hpc, rfl⟩ | ⟨hpc, rfl⟩ | ⟨hpc, hd, rfl⟩ | ⟨P, hpc, hd, hP, -, rfl⟩ |
          ⟨P, hpc, hd, hP, -, rfl⟩ | ⟨hpc, rfl⟩ | ⟨hpc, -, rfl⟩ | ⟨hpc, -, rfl⟩ | ⟨hpc, -, rfl⟩ | ⟨hpc, rfl⟩
        case inr.inr.inl =>
          rw [hm]
          simp only [ops, workOps, hpc, Lbl.who, Mem.run, Mem.op, put_same]
          omega
        all_goals (rw [hst] at ho'; cases ho')
      | notify k h1 | notifyNone h1 => rw [h1] at ho; exact absurd rfl ho
      | selfStop h1 h2 => rw [hst] at ho'; cases ho'
      | _ => rw [hst] at ho'; exact absurd ho' ho
    · rw [hst] at hk
      cases hd with
      | look j hj =>
        by_cases e : k = j
        · subst e
          simp only [upd_same] at hk
          cases hf : m.st.flag with
          | false => rw [hf] at hk; cases hk
          | true => exact absurd (hi.seen k (.inl hj) hf) ho
        · simp only [upd_other _ _ e] at hk
          exact absurd hk (hno k)
      | work now s' _ hw =>
        have : s'.who = m.st.who := by
          rcases workerStep_cases hw with ⟨hpc, rfl⟩ | ⟨hpc, rfl⟩ | ⟨hpc, hd, rfl⟩ | ⟨P, hpc, hd, hP, -, rfl⟩ |
            ⟨P, hpc, hd, hP, -, rfl⟩ | ⟨hpc, rfl⟩ | ⟨hpc, -, rfl⟩ | ⟨hpc, -, rfl⟩ | ⟨hpc, -, rfl⟩ | ⟨hpc, rfl⟩ <;> rfl
        rw [this] at hk
        exact absurd hk (hno k)
      | notify j | begin j | clear j | wake j | leave j =>
        by_cases e : k = j
        · subst e; simp only [upd_same] at hk; cases hk
        · simp only [upd_other _ _ e] at hk; exact absurd hk (hno k)
      | _ => exact absurd hk (hno k)
    · simp only [List.mem_cons] at hk
      rcases hk with rfl | hk
      · cases hd with
        | leave _ hl => exact absurd hl (hno k)
      · exact absurd (h.left k hk).1 ho

theorem Run.seen (hi : Start i) (h : Run i R G ls m) : Seen ls m := by
  induction h with
  | new =>
    rcases hi with rfl | ⟨P, rfl⟩ <;>
      (constructor <;> simp [State.new, State.built, Interval.State.new, Mem.new])
  | step ls m m' l hr _ hs _ ih => exact ih.step (hr.inv hi) (hr.memOk hi) hs

/-- C108: once `stop()` has returned to a thread, everything the function has ever accessed (and everything else the worker
has) happens before what this thread does next.  Any number of threads may call `stop()`, in any order. -/
theorem C108_visible (hi : Start i) (h : Run i R G ls m) {k : Nat} (hk : .leave k ∈ ls) :
    ∀ a ∈ m.mem.log, a.who = none → a.time ≤ m.mem.clk (some k) none := by
  intro a ha hw
  have h1 := ((h.seen hi).left k hk).2.2
  have h2 := (h.memOk hi).log a ha
  rw [hw] at h2
  omega

/-- `stop_` is true only after a write to it that carries all the worker has done. -/
structure Told (m : State) : Prop where
  wrote : m.st.stopped = true → m.st.worker.out = true ∧ ∃ a ∈ m.mem.log, a.loc = .stopped ∧ a.wr = true ∧
    ∃ j, a.who = some j ∧ m.mem.Carries (some j) a.time none (m.mem.clk none none)

theorem Told.step {m' : State} {l : Lbl} (h : Told m) (hse : Seen ls m) (hi : Inv m.st) (hok : m.mem.Ok)
    (hs : Step m l m') : Told m' := by
  constructor
  intro hst'
  by_cases hst : m.st.stopped = true
  · obtain ⟨ho, a, ha, hl, hw, j, hj, hc⟩ := h.wrote hst
    refine ⟨(hs.outStays ho).1, a, ?_, hl, hw, j, hj, ?_⟩
    · rw [hs.2.2]; exact Mem.log_mono _ _ _ a ha
    · rw [hs.clk_out ho, hs.2.2]
      refine hc.run ?_ _ _
      have := hok.log a ha
      rwa [hj] at this
  · have hm := hs.2.2
    have hs0 := hs
    obtain ⟨s', hs', hd⟩ := hs.did
    rw [hs'] at hst'
    cases hd with
    | leave k hk =>
      have ho := hi.leaving k hk
      refine ⟨(hs0.outStays ho).1, ⟨some k, m.mem.clk (some k) (some k) + 1, .stopped, true, 1⟩, ?_, rfl, rfl, k, rfl, ?_⟩
      · rw [hm]; exact List.mem_cons_self
      · rw [hs0.clk_out ho, hm]
        have hl := hse.leaving k hk
        constructor
        · intro t ht
          by_cases e : t = some k
          · subst e
            simpa [ops, Lbl.who, Mem.run, Mem.op, put] using hl
          · have := hok.clk t (some k)
            simp only [ops, Lbl.who, Mem.run, Mem.op, put_ne _ _ e] at ht
            omega
        · intro o ht
          have := hok.sync o (some k)
          simp only [ops, Lbl.who, Mem.run, Mem.op] at ht
          omega
    | work now s' _ hw =>
      rcases workerStep_cases hw with ⟨hpc, rfl⟩ | ⟨hpc, rfl⟩ | ⟨hpc, hd, rfl⟩ | ⟨P, hpc, hd, hP, -, rfl⟩ |
        ⟨P, hpc, hd, hP, -, rfl⟩ | ⟨hpc, rfl⟩ | ⟨hpc, -, rfl⟩ | ⟨hpc, hf, rfl⟩ | ⟨hpc, -, rfl⟩ | ⟨hpc, rfl⟩
      case inr.inr.inr.inr.inr.inr.inr.inl =>
        have := hi.self (.inl hpc)
        rw [hf] at this; cases this
      all_goals exact absurd hst' hst
    | _ => exact absurd hst' hst

theorem Run.told (hi : Start i) (h : Run i R G ls m) : Told m := by
  induction h with
  | new =>
    rcases hi with rfl | ⟨P, rfl⟩ <;>
      (constructor; simp [State.new, State.built, Interval.State.new])
  | step ls m m' l hr _ hs _ ih => exact ih.step (hr.seen hi) (hr.inv hi) (hr.memOk hi) hs

/-- A call that found `stop_` true. -/
theorem Run.againSeen (hi : Start i) (h : Run i R G ls m) (hR : R .stopped) {k : Nat} (hk : .again k ∈ ls) :
    m.st.worker.out = true ∧ m.mem.clk none none ≤ m.mem.clk (some k) none := by
  induction h with
  | new => cases hk
  | step ls m m' l hr _ hs hn ih =>
    by_cases hk' : Lbl.again k ∈ ls
    · obtain ⟨h1, h2⟩ := ih hk'
      refine ⟨(hs.outStays h1).1, ?_⟩
      rw [hs.clk_out h1]
      exact Nat.le_trans h2 (hs.clk_le _ _)
    · simp only [List.mem_cons, hk', or_false] at hk
      subst hk
      have hs0 := hs
      obtain ⟨s', hs', hd⟩ := hs.did
      cases hd with
      | again _ Q hp hd hw hst =>
        obtain ⟨ho, a, ha, hl, hwr, j, hj, hc⟩ := (hr.told hi).wrote hst
        refine ⟨(hs0.outStays ho).1, ?_⟩
        rw [hs0.clk_out ho]
        refine Nat.le_trans (hc.clk (some k) ?_) (hs0.clk_le _ _)
        refine Nat.le_of_not_lt fun hlt => hn ?_
        refine .inl ⟨hR, a, ha, hl, .inl hwr, ?_⟩
        rw [hj]; exact hlt

/-- C108 (partial: no race on `stop_`), a later call of `stop()`, which finds `stop_` true and returns at once (so does the destructor after a `stop()`):
if no call races on `stop_`, the same holds for the thread that makes it. -/
theorem C108_again_partial (hi : Start i) (h : Run i R G ls m) (hR : R .stopped) {k : Nat} (hk : .again k ∈ ls) :
    ∀ a ∈ m.mem.log, a.who = none → a.time ≤ m.mem.clk (some k) none := by
  intro a ha hw
  have h1 := (h.againSeen hi hR hk).2
  have h2 := (h.memOk hi).log a ha
  rw [hw] at h2
  omega

/-! ### C109 -/

/-- After a `stop()` of thread `j` has returned, whoever is still inside does not come after it. -/
structure Missed (j : Nat) (m : State) : Prop where
  out : m.st.worker.out = true
  stopped : m.st.stopped = true
  acc : ∃ a ∈ m.mem.log, a.loc = .stopped ∧ a.wr = true ∧ a.who = some j ∧
    (∀ k, m.st.who k ≠ .idle → m.mem.clk (some k) (some j) < a.time) ∧ m.mem.sync .flag (some j) < a.time

theorem Missed.begin {m' : State} {j : Nat} (hi : Inv m.st) (hok : m.mem.Ok) (hs : Step m (.leave j) m') :
    Missed j m' := by
  have hs0 := hs
  have hm := hs.2.2
  obtain ⟨s', hs', hd⟩ := hs.did
  cases hd with
  | leave _ hl =>
    refine ⟨(hs0.outStays (hi.leaving j hl)).1, by rw [hs'], ⟨some j, m.mem.clk (some j) (some j) + 1, .stopped, true, 1⟩, ?_,
      rfl, rfl, rfl, fun k hk => ?_, ?_⟩
    · rw [hm]; exact List.mem_cons_self
    · have hkj : k ≠ j := fun e => by subst e; rw [hs'] at hk; exact hk (upd_same _ _ _)
      rw [hm]
      have := hok.clk (some k) (some j)
      simp only [ops, Lbl.who, Mem.run, Mem.op, put_ne _ _ (show (some k : Thr) ≠ some j by simpa using hkj)]
      omega
    · rw [hm]
      have := hok.sync .flag (some j)
      simp only [ops, Lbl.who, Mem.run, Mem.op]
      omega

theorem Missed.step {m' : State} {j : Nat} {l : Lbl} (h : Missed j m) (hok : m.mem.Ok) (hs : Step m l m') :
    Missed j m' := by
  have hs0 := hs
  have hm := hs.2.2
  obtain ⟨a, ha, hl, hw, haj, hk, hf⟩ := h.acc
  have hcall : m.st.worker ≠ .calling := fun e => by have := h.out; rw [e] at this; cases this
  have hta : a.time ≤ m.mem.clk (some j) (some j) := by have := hok.log a ha; rwa [haj] at this
  refine ⟨(hs.outStays h.out).1, (hs.outStays h.out).2.2 h.stopped, a, by rw [hm]; exact Mem.log_mono _ _ _ a ha, hl, hw,
    haj, ?_⟩
  -- a thread of the user's, outside `stop()`
  have free : ∀ t, l.who = t → m.free t → m'.st.who = m.st.who → (∀ x ∈ ops m l, x ≠ .rel .flag ∧ x ≠ .sto .flag) →
      (∀ k, m'.st.who k ≠ .idle → m'.mem.clk (some k) (some j) < a.time) ∧ m'.mem.sync .flag (some j) < a.time := by
    intro t ht hfr hwho hx
    refine ⟨fun k hk' => ?_, ?_⟩
    · rw [hwho] at hk'
      rw [hm, Mem.clk_other]
      · exact hk k hk'
      · rw [ht]
        rintro rfl
        exact hk' hfr
    · rw [hm, Mem.sync_other _ _ _ _ hx]; exact hf
  -- a step without accesses or releases
  have quiet : m'.mem = m.mem → (∀ k, m'.st.who k ≠ .idle → m.st.who k ≠ .idle) →
      (∀ k, m'.st.who k ≠ .idle → m'.mem.clk (some k) (some j) < a.time) ∧ m'.mem.sync .flag (some j) < a.time := by
    intro h1 h2
    rw [h1]
    exact ⟨fun k hk' => hk k (h2 k hk'), hf⟩
  obtain ⟨s', hs', hd⟩ := hs.did
  cases hd with
  | build p P h1 h2 => exact free _ rfl h2 (by rw [hs']) (by simp [ops])
  | setPeriod t P Q hfr => exact free t rfl hfr (by rw [hs']) (by simp [ops])
  | setBetween t hfr => exact free t rfl hfr (by rw [hs']) (by simp [ops])
  | get t b hfr => exact free t rfl hfr (by rw [hs']) (by simp [ops])
  | touch t n wr hfr => exact free t rfl hfr (by rw [hs']) (by simp [ops])
  | rel t n hfr => exact free t rfl hfr (by rw [hs']) (by simp [ops])
  | acq t n hfr => exact free t rfl hfr (by rw [hs']) (by simp [ops])
  | again k Q h1 h2 h3 => exact free _ rfl h3 (by rw [hs']) (by simp [ops])
  | destroy p h1 h2 => exact free _ rfl (h2 p) (by rw [hs']) (by simp [ops])
  | work now s' ho' => rw [h.out] at ho'; cases ho'
  | selfStop h1 h2 => exact absurd h1 hcall
  | begin k Q h1 h2 h3 h4 => rw [h.stopped] at h4; cases h4
  | notify k h1 h2 h3 =>
    refine quiet (by rw [hm]; rfl) fun k' hk' => ?_
    rw [hs'] at hk'
    by_cases e : k' = k
    · subst e; rw [h2]; simp
    · simpa only [upd_other _ _ e] using hk'
  | notifyNone h1 h2 h3 => exact quiet (by rw [hm]; rfl) fun k' hk' => by rwa [hs'] at hk'
  | wake k h2 =>
    refine quiet (by rw [hm]; rfl) fun k' hk' => ?_
    rw [hs'] at hk'
    by_cases e : k' = k
    · subst e; rw [h2]; simp
    · simpa only [upd_other _ _ e] using hk'
  | clear k h1 =>
    have hkk := hk k (by rw [h1]; simp)
    refine ⟨fun k' hk' => ?_, ?_⟩
    · rw [hs'] at hk'
      rw [hm]
      simp only [ops, Lbl.who, Mem.run, Mem.op]
      by_cases e : k' = k
      · subst e; exact hkk
      · exact hk k' (by simpa only [upd_other _ _ e] using hk')
    · rw [hm]
      simpa only [ops, Lbl.who, Mem.run, Mem.op, put_same] using hkk
  | look k h1 =>
    have hkk := hk k (by rw [h1]; simp)
    refine ⟨fun k' hk' => ?_, by rw [hm]; exact hf⟩
    rw [hs'] at hk'
    rw [hm]
    by_cases e : k' = k
    · subst e
      simp only [ops, Lbl.who, Mem.run, Mem.op, put_same]
      omega
    · rw [Mem.clk_other _ (by simpa [Lbl.who] using e)]
      exact hk k' (by simpa only [upd_other _ _ e] using hk')
  | leave k h1 =>
    refine ⟨fun k' hk' => ?_, by rw [hm]; exact hf⟩
    rw [hs'] at hk'
    by_cases e : k' = k
    · subst e; exact absurd (upd_same _ _ _) hk'
    · rw [hm, Mem.clk_other _ (by simpa [Lbl.who] using e)]
      exact hk k' (by simpa only [upd_other _ _ e] using hk')

theorem Run.missed (hi : Start i) (h : Run i R G ls m) {j : Nat} (hj : .leave j ∈ ls) : Missed j m := by
  induction h with
  | new => cases hj
  | step ls m m' l hr _ hs hn ih =>
    by_cases hj' : Lbl.leave j ∈ ls
    · exact (ih hj').step (hr.memOk hi) hs
    · simp only [List.mem_cons, hj', or_false] at hj
      subst hj
      exact .begin (hr.inv hi) (hr.memOk hi) hs

/-- C109 refuted for all calls that overlap: if two threads get through the body of `stop()`, their writes to `stop_` are a
data race, whatever else the threads synchronise with. -/
theorem C109_second_refuted (hi : Start i) (h : Run i R G ls m) {j k : Nat} (hj : .leave j ∈ ls)
    (hk : m.st.who k = .leaving) : Race (only .stopped) m (.leave k) := by
  obtain ⟨a, ha, hl, hw, haj, hk', -⟩ := (h.missed hi hj).acc
  refine .inl ⟨rfl, a, ha, hl, .inl hw, ?_⟩
  rw [haj]
  exact hk' k (by rw [hk]; simp)

/-- Every call of `stop()` comes after the constructor and after the calls before it: nobody is inside, and the accesses to
`stop_` made before happen before it.  The function does not call it. -/
def ordered : List Lbl → State → Lbl → Prop := fun _ m l =>
  match l with
  | .begin k | .again k =>
    (∀ j, m.st.who j = .idle) ∧ ∀ a ∈ m.mem.log, a.loc = .stopped → a.time ≤ m.mem.clk (some k) a.who
  | .selfStop => False
  | _ => True

/-- What holds then. -/
structure Ord (m : State) : Prop where
  none : m.st.period = .none → ∀ a ∈ m.mem.log, a.loc ≠ .stopped
  one : ∀ j k, m.st.who j ≠ .idle → m.st.who k ≠ .idle → j = k
  known : ∀ k, m.st.who k ≠ .idle → ∀ a ∈ m.mem.log, a.loc = .stopped → a.time ≤ m.mem.clk (some k) a.who
  noSelf : m.st.worker ≠ .selfWait ∧ m.st.worker ≠ .selfAsleep

theorem Ord.races {m' : State} {l : Lbl} (h : Ord m) (hg : ordered ls m l) (hs : Step m l m') :
    ¬ Race (only .stopped) m l := by
  have conflict : ∀ k wr, (∀ a ∈ m.mem.log, a.loc = .stopped → a.time ≤ m.mem.clk (some k) a.who) →
      ¬ m.mem.Conflict (some k) .stopped wr := by
    rintro k wr hk ⟨a, ha, hl, -, hlt⟩
    have := hk a ha hl
    omega
  obtain ⟨s', hs', hd⟩ := hs.did
  cases hd with
  | build p P h1 h2 =>
    rintro (⟨h3, -⟩ | ⟨h3, -⟩ | ⟨-, a, ha, hl, -⟩ | h3)
    · cases h3
    · cases h3
    · simp only [Mem.op, List.mem_cons] at ha
      rcases ha with rfl | rfl | ha
      · cases hl
      · cases hl
      · exact h.none h1 a ha hl
    · exact h3
  | begin k Q =>
    rintro (⟨-, hc⟩ | h3)
    · exact conflict k _ hg.2 hc
    · exact h3
  | again k Q =>
    rintro (⟨-, hc⟩ | h3)
    · exact conflict k _ hg.2 hc
    · exact h3
  | leave k hk =>
    rintro (⟨-, hc⟩ | h3)
    · exact conflict k _ (h.known k (by rw [hk]; simp)) hc
    · exact h3
  | selfStop => exact hg.elim
  | work now s' ho hw =>
    have h1 := h.noSelf
    intro hr
    simp only [Race, ops, workOps, Lbl.who] at hr
    cases hpc : m.st.worker <;> simp [hpc, Mem.Races, only] at hr
    · exact h1.1 hpc
  | setPeriod t P Q =>
    rintro (⟨h3, -⟩ | h3)
    · cases h3
    · exact h3
  | setBetween t =>
    rintro (⟨h3, -⟩ | h3)
    · cases h3
    · exact h3
  | get t b =>
    rintro (⟨h3, -⟩ | h3)
    · cases b <;> cases h3
    · exact h3
  | touch t n wr =>
    rintro (⟨h3, -⟩ | h3)
    · cases h3
    · exact h3
  | _ => exact fun h3 => h3

/-- Which accesses to `stop_` a step adds. -/
theorem Ord.step {m' : State} {l : Lbl} (h : Ord m) (hi : Inv m.st) (hg : ordered ls m l) (hs : Step m l m') :
    Ord m' := by
  have hm := hs.2.2
  have hle := fun k u => hs.clk_le (some k) u
  have idle : m.st.period = .none → ∀ k, m.st.who k = .idle := by
    intro hp k
    by_cases e : m.st.who k = .idle
    · exact e
    · exact absurd hp (hi.built k e)
  -- steps that do not access `stop_`
  have same : (∀ a ∈ m'.mem.log, a.loc = .stopped → a ∈ m.mem.log) → (m'.st.period = .none → m.st.period = .none) →
      (∀ k, m'.st.who k ≠ .idle → m.st.who k ≠ .idle) → (m'.st.worker ≠ .selfWait ∧ m'.st.worker ≠ .selfAsleep) →
      Ord m' := by
    intro h1 h2 h3 h4
    refine ⟨fun hp a ha hl => h.none (h2 hp) a (h1 a ha hl) hl, fun j k hj hk => h.one j k (h3 j hj) (h3 k hk),
      fun k hk a ha hl => Nat.le_trans (h.known k (h3 k hk) a (h1 a ha hl) hl) (hle k _), h4⟩
  obtain ⟨s', hs', hd⟩ := hs.did
  have whoUpd : ∀ k v, m'.st.who = upd m.st.who k v → m.st.who k ≠ .idle → ∀ j, m'.st.who j ≠ .idle → m.st.who j ≠ .idle := by
    intro k v e hk j hj
    by_cases e' : j = k
    · rw [e']; exact hk
    · rw [e, upd_other _ _ e'] at hj; exact hj
  cases hd with
  | build p P h1 h2 =>
    refine ⟨fun hp => (by rw [hs'] at hp; cases hp), fun j k hj => ?_, fun k hk => ?_, by rw [hs']; exact h.noSelf⟩
    · rw [hs'] at hj; exact absurd (idle h1 j) hj
    · rw [hs'] at hk; exact absurd (idle h1 k) hk
  | begin k Q h1 h2 h3 h4 =>
    have wh : m'.st.who = upd m.st.who k .clearing := by rw [hs']
    refine ⟨fun hp => by rw [hs'] at hp; simp [h1] at hp, fun j j' hj hj' => ?_, fun j hj a ha hl => ?_,
      by rw [hs']; exact h.noSelf⟩
    · rw [wh] at hj hj'
      have e : j = k := by
        by_cases e : j = k
        · exact e
        · rw [upd_other _ _ e] at hj; exact absurd (hg.1 j) hj
      have e' : j' = k := by
        by_cases e : j' = k
        · exact e
        · rw [upd_other _ _ e] at hj'; exact absurd (hg.1 j') hj'
      rw [e, e']
    · have e : j = k := by
        by_cases e : j = k
        · exact e
        · rw [wh, upd_other _ _ e] at hj; exact absurd (hg.1 j) hj
      subst e
      rw [hm] at ha
      simp only [ops, Lbl.who, Mem.run, Mem.op, List.mem_cons] at ha
      rcases ha with rfl | ha
      · rw [hm]; simp [ops, Lbl.who, Mem.run, Mem.op]
      · exact Nat.le_trans (hg.2 a ha hl) (hle j _)
  | again k Q h1 h2 h3 h4 =>
    refine ⟨fun hp => (by rw [hs'] at hp; simp [h1] at hp), fun j j' hj hj' => ?_, fun j hj a ha hl => ?_,
      by rw [hs']; exact h.noSelf⟩
    · rw [hs'] at hj; exact absurd (hg.1 j) hj
    · rw [hs'] at hj; exact absurd (hg.1 j) hj
  | leave k hk =>
    have wh : m'.st.who = upd m.st.who k .idle := by rw [hs']
    have none' : ∀ j, m'.st.who j = .idle := by
      intro j
      rw [wh]
      by_cases e : j = k
      · rw [e, upd_same]
      · rw [upd_other _ _ e]
        by_cases e' : m.st.who j = .idle
        · exact e'
        · exact absurd (h.one j k e' (by rw [hk]; simp)) e
    refine ⟨fun hp => ?_, fun j j' hj => absurd (none' j) hj, fun j hj => absurd (none' j) hj, by rw [hs']; exact h.noSelf⟩
    rw [hs'] at hp
    exact absurd hp (hi.built k (by rw [hk]; simp))
  | selfStop => exact hg.elim
  | clear k hk =>
    exact same (fun a ha _ => by rw [hm] at ha; exact ha) (fun hp => by rwa [hs'] at hp)
      (whoUpd k _ (by rw [hs']) (by rw [hk]; simp)) (by rw [hs']; exact h.noSelf)
  | look k hk =>
    exact same (fun a ha _ => by rw [hm] at ha; exact ha) (fun hp => by rwa [hs'] at hp)
      (whoUpd k _ (by rw [hs']) (by rw [hk]; simp)) (by rw [hs']; exact h.noSelf)
  | wake k hk =>
    exact same (fun a ha _ => by rw [hm] at ha; exact ha) (fun hp => by rwa [hs'] at hp)
      (whoUpd k _ (by rw [hs']) (by rw [hk]; simp)) (by rw [hs']; exact h.noSelf)
  | notify k h1 hk =>
    exact same (fun a ha _ => by rw [hm] at ha; exact ha) (fun hp => by rwa [hs'] at hp)
      (whoUpd k _ (by rw [hs']) (by rw [hk]; simp)) (by rw [hs']; simp)
  | notifyNone h1 hk =>
    exact same (fun a ha _ => by rw [hm] at ha; exact ha) (fun hp => by rwa [hs'] at hp)
      (fun j hj => by rwa [hs'] at hj) (by rw [hs']; simp)
  | work now s' ho hw =>
    have h1 := h.noSelf
    have hlog : ∀ a ∈ m'.mem.log, a.loc = .stopped → a ∈ m.mem.log := by
      intro a ha hl
      rw [hm] at ha
      simp only [ops, workOps, Lbl.who] at ha
      cases hpc : m.st.worker <;> simp only [hpc, Mem.run, Mem.op, List.mem_cons] at ha
      case check | pause =>
        rcases ha with rfl | ha
        · cases hl
        · exact ha
      case selfWait => exact absurd hpc h1.1
      all_goals exact ha
    have := workerStep_cases hw
    rcases workerStep_cases hw with ⟨hpc, rfl⟩ | ⟨hpc, rfl⟩ | ⟨hpc, hd, rfl⟩ | ⟨P, hpc, hd, hP, -, rfl⟩ |
        ⟨P, hpc, hd, hP, -, rfl⟩ | ⟨hpc, rfl⟩ | ⟨hpc, -, rfl⟩ | ⟨hpc, hf, rfl⟩ | ⟨hpc, -, rfl⟩ | ⟨hpc, rfl⟩
    case inr.inr.inl =>
      exact same hlog (fun hp => by rwa [hs'] at hp) (fun j hj => by rwa [hs'] at hj)
        (by rw [hs']; cases m.st.flag <;> simp)
    case inr.inr.inr.inr.inr.inr.inr.inl => exact absurd hpc h1.1
    case inr.inr.inr.inr.inr.inr.inr.inr.inl => exact absurd hpc h1.1
    case inr.inr.inr.inr.inr.inr.inr.inr.inr => exact absurd hpc h1.2
    all_goals exact same hlog (fun hp => by rwa [hs'] at hp) (fun j hj => by rwa [hs'] at hj) (by rw [hs']; simp)
  | destroy p =>
    exact same (fun a ha _ => by rw [hm] at ha; exact ha) (fun hp => by rwa [hs'] at hp)
      (fun j hj => by rwa [hs'] at hj) (by rw [hs']; exact h.noSelf)
  | setPeriod t P Q _ hq =>
    refine same (fun a ha hl => ?_) (fun hp => by rw [hs'] at hp; cases hp) (fun j hj => by rwa [hs'] at hj)
      (by rw [hs']; exact h.noSelf)
    rw [hm] at ha
    simp only [ops, Mem.run, Mem.op, List.mem_cons] at ha
    rcases ha with rfl | ha
    · cases hl
    · exact ha
  | setBetween t =>
    refine same (fun a ha hl => ?_) (fun hp => by rwa [hs'] at hp) (fun j hj => by rwa [hs'] at hj)
      (by rw [hs']; exact h.noSelf)
    rw [hm] at ha
    simp only [ops, Mem.run, Mem.op, List.mem_cons] at ha
    rcases ha with rfl | ha
    · cases hl
    · exact ha
  | get t b =>
    refine same (fun a ha hl => ?_) (fun hp => by rwa [hs'] at hp) (fun j hj => by rwa [hs'] at hj)
      (by rw [hs']; exact h.noSelf)
    rw [hm] at ha
    simp only [ops, Mem.run, Mem.op, List.mem_cons] at ha
    rcases ha with rfl | ha
    · cases b <;> cases hl
    · exact ha
  | touch t n wr =>
    refine same (fun a ha hl => ?_) (fun hp => by rwa [hs'] at hp) (fun j hj => by rwa [hs'] at hj)
      (by rw [hs']; exact h.noSelf)
    rw [hm] at ha
    simp only [ops, Mem.run, Mem.op, List.mem_cons] at ha
    rcases ha with rfl | ha
    · cases hl
    · exact ha
  | rel t n | acq t n =>
    exact same (fun a ha _ => by rw [hm] at ha; exact ha) (fun hp => by rwa [hs'] at hp)
      (fun j hj => by rwa [hs'] at hj) (by rw [hs']; exact h.noSelf)

theorem Run.ord (hi : Start i) (h : Run i R ordered ls m) : Ord m := by
  induction h with
  | new =>
    rcases hi with rfl | ⟨P, rfl⟩ <;>
      (constructor <;> simp [State.new, State.built, Interval.State.new, Mem.new])
  | step ls m m' l hr hg hs _ ih => exact ih.step (hr.inv hi) hg hs

/-- C109, as far as it holds: calls of `stop()` from any threads do not race on `stop_` if each of them comes, by
synchronisation of the user's, after those before it. -/
theorem C109_ordered_partial (hi : Start i) (h : Run i R ordered ls m) {l : Lbl} {m' : State} (hg : ordered ls m l)
    (hs : Step m l m') : ¬ Race (only .stopped) m l :=
  (h.ord hi).races hg hs

end Verif.Interval.HB
