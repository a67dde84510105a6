import Verif.Pipeline.RacesProps
/-!
C107: `time_for_unit()` and `buffer_utilization()` called while the worker runs.
-/
namespace Verif.Pipeline.HB
open Verif Verif.HB Verif.Pipeline
variable {α : Type}

theorem Q.work_samples {c : Bool} {e : Int} {q q' : Q α} (hq : q.work c e = .ok q') (h : q.pc ≠ .stat) :
    q'.samples = q.samples := by
  cases hpc : q.pc with
  | outer => simp only [Q.work, hpc, Res.ok.injEq] at hq; subst hq; rfl
  | drain => simp only [Q.work, hpc, Res.ok.injEq] at hq; subst hq; rfl
  | inner => simp only [Q.work, hpc, Res.ok.injEq] at hq; subst hq; rfl
  | take => simp only [Q.work, hpc, Res.ok.injEq] at hq; subst hq; rfl
  | stat => exact absurd hpc h
  | ended => simp [Q.work, hpc] at hq
  | check =>
    cases hs : q.slots[q.head % q.slots.length]? with
    | none => simp [Q.work, hpc, hs] at hq
    | some o => cases o <;> (simp only [Q.work, hpc, hs, Res.ok.injEq] at hq; subst hq; rfl)
  | call i =>
    rcases Q.work_handled hq with ⟨h4, h5⟩ | ⟨i, v, hpc', hs, h4⟩
    · exact absurd hpc (h5 i)
    · simp only [Q.work, hpc', hs] at hq
      cases h1 : timeForUnit q.stat with
      | ub => simp [h1] at hq
      | hang => simp [h1] at hq
      | ok a =>
      cases h2 : bufferUtilization q.stat with
      | ub => simp [h1, h2] at hq
      | hang => simp [h1, h2] at hq
      | ok b =>
      simp only [h1, h2, Res.ok_bind, Res.ok.injEq] at hq
      subst hq
      rfl

/-! ### An idle worker -/

/-- Access `n` of the worker happens before nothing that others do. -/
structure Hidden (m : Mem Thr Loc Obj) (n : Nat) : Prop where
  clk : ∀ p, m.clk (some p) none < n
  sync : ∀ o, m.sync o none < n

theorem Hidden.out {m : Mem Thr Loc Obj} {n : Nat} (h : Hidden m n) (p : Nat) (o : Op Loc Obj) :
    Hidden (m.op (some p) o) n := by
  cases o with
  | acq o =>
    refine ⟨fun q => ?_, h.sync⟩
    have h1 := h.clk q
    have h2 := h.clk p
    have h3 := h.sync o
    simp only [Mem.op, put]
    split
    · show max _ _ < n; omega
    · exact h1
  | rel o =>
    refine ⟨h.clk, fun q => ?_⟩
    have h1 := h.sync q
    have h2 := h.clk p
    have h3 := h.sync o
    simp only [Mem.op, put]
    split
    · show max _ _ < n; omega
    · exact h1
  | sto o =>
    refine ⟨h.clk, fun q => ?_⟩
    simp only [Mem.op, put]
    split
    · exact h.clk p
    · exact h.sync q
  | acc l w i =>
    refine ⟨fun q => ?_, h.sync⟩
    have h1 := h.clk q
    have h2 := h.clk p
    simp only [Mem.op, put]
    split
    · simpa [put] using h2
    · exact h1

theorem Hidden.worker {m : Mem Thr Loc Obj} {n : Nat} (h : Hidden m n) (o : Op Loc Obj)
    (ho : ∀ x, o ≠ .rel x ∧ o ≠ .sto x) : Hidden (m.op none o) n := by
  cases o with
  | acq o => exact ⟨fun q => by simpa [Mem.op, put] using h.clk q, h.sync⟩
  | rel o => exact absurd rfl (ho o).1
  | sto o => exact absurd rfl (ho o).2
  | acc l w i => exact ⟨fun q => by simpa [Mem.op, put] using h.clk q, h.sync⟩

theorem Hidden.run {m : Mem Thr Loc Obj} {n : Nat} (h : Hidden m n) (os : List (Op Loc Obj))
    (ho : ∀ o ∈ os, ∀ x, o ≠ .rel x ∧ o ≠ .sto x) : Hidden (m.run none os) n := by
  induction os generalizing m with
  | nil => exact h
  | cons o os ih => exact ih (h.worker o (ho o List.mem_cons_self)) fun o h => ho o (List.mem_cons_of_mem _ h)

theorem workOps_rel (m : State α) : ∀ o ∈ workOps m, ∀ x, o ≠ .rel x ∧ o ≠ .sto x := by
  unfold workOps
  intro o ho x
  cases hpc : m.st.q.pc <;> simp only [hpc] at ho
  case outer => split at ho <;> simp_all
  all_goals simp at ho
  all_goals (first | (rcases ho with rfl | rfl <;> simp) | (subst ho; simp))

/-- The newest sample was written by an access that, outside the handler, nobody comes after. -/
theorem Run.hidden {b : Nat} {R : Loc → Prop} {G : List (Lbl α) → State α → Lbl α → Prop} {ls : List (Lbl α)}
    {m : State α} (h : Run b R G ls m) (hs : m.st.q.samples ≠ []) :
    ∃ a ∈ m.mem.log, a.who = none ∧ a.loc = .stat ∧ a.wr = true ∧ (m.st.q.pc ≠ .stat → Hidden m.mem a.time) := by
  induction h with
  | new => exact absurd rfl hs
  | step ls m m' l hr hg hst hn ih =>
    rcases hst.cases with ⟨p, x, rfl, h1, h2, hst, hm⟩ | ⟨p, i, x, rfl, h1, hst, hm⟩ | ⟨p, rfl, h1, h2, hst, hm⟩ |
      ⟨e, q, rfl, h1, hq, hst, hm⟩ | ⟨p, rfl, h1, hst, hm⟩ | ⟨rfl, h1, hst, hm⟩ | ⟨t, n, rfl, h1, hst, hm⟩ |
      ⟨t, n, rfl, h1, hst, hm⟩
    · rw [hst] at hs
      obtain ⟨a, ha, hw, hl, hwr, hh⟩ := ih hs
      rw [hst, hm]
      exact ⟨a, ha, hw, hl, hwr, fun hpc => ((hh hpc).out p _).out p _⟩
    · rw [hst] at hs
      obtain ⟨a, ha, hw, hl, hwr, hh⟩ := ih hs
      rw [hst, hm]
      exact ⟨a, List.mem_cons_of_mem _ ha, hw, hl, hwr, fun hpc => (hh hpc).out p _⟩
    · rw [hst] at hs
      obtain ⟨a, ha, hw, hl, hwr, hh⟩ := ih hs
      rw [hst, hm]
      exact ⟨a, ha, hw, hl, hwr, fun hpc => (hh hpc).out p _⟩
    · by_cases hpc : m.st.q.pc = .stat
      · have hok := hr.memOk.op none (.acq .tail)
        rw [hm]
        simp only [workOps, hpc, Mem.run]
        generalize hm1 : m.mem.op none (.acq .tail) = m1 at hok
        refine ⟨_, List.mem_cons_self, rfl, rfl, rfl, fun _ => ⟨fun p => ?_, fun o => ?_⟩⟩
        · have := hok.clk (some p) none
          simp only [Mem.op, put_ne _ _ (show (some p : Thr) ≠ none by simp)]
          omega
        · have := hok.sync o none
          simp only [Mem.op]
          omega
      · rw [hst] at hs
        simp only [Q.work_samples hq hpc] at hs
        obtain ⟨a, ha, hw, hl, hwr, hh⟩ := ih hs
        rw [hm]
        exact ⟨a, Mem.log_run _ _ _ a ha, hw, hl, hwr, fun _ => (hh hpc).run _ (workOps_rel m)⟩
    · rw [hst] at hs
      obtain ⟨a, ha, hw, hl, hwr, hh⟩ := ih hs
      rw [hst, hm]
      exact ⟨a, List.mem_cons_of_mem _ ha, hw, hl, hwr, fun hpc => (hh hpc).out p _⟩
    · rw [hst] at hs
      obtain ⟨a, ha, hw, hl, hwr, hh⟩ := ih hs
      rw [hst, hm]
      exact ⟨a, List.mem_cons_of_mem _ ha, hw, hl, hwr, fun hpc => absurd h1 hpc⟩
    · rw [hst] at hs
      obtain ⟨a, ha, hw, hl, hwr, hh⟩ := ih hs
      rw [hst, hm]
      refine ⟨a, ha, hw, hl, hwr, fun hpc => ?_⟩
      cases t with
      | none => exact absurd (h1 rfl) hpc
      | some p => exact (hh hpc).out p _
    · rw [hst] at hs
      obtain ⟨a, ha, hw, hl, hwr, hh⟩ := ih hs
      rw [hst, hm]
      refine ⟨a, ha, hw, hl, hwr, fun hpc => ?_⟩
      cases t with
      | none => exact absurd (h1 rfl) hpc
      | some p => exact (hh hpc).out p _

/-- C107 refuted, for every way in which the handler and other threads synchronise: once a sample was recorded, a call of
`time_for_unit()` or `buffer_utilization()` from another thread is a data race unless the handler is running.  In
particular it does not help to wait until the handler was called for everything that was pushed, or to call when nothing
is left to do. -/
theorem C107_idle_refuted {b : Nat} {R : Loc → Prop} {G : List (Lbl α) → State α → Lbl α → Prop} {ls : List (Lbl α)}
    {m : State α} (h : Run b R G ls m) (hs : m.st.q.samples ≠ []) (hpc : m.st.q.pc ≠ .stat) (p : Nat) :
    Race deque m (.ask p) := by
  obtain ⟨a, ha, hw, hl, hwr, hh⟩ := h.hidden hs
  refine .inl ⟨rfl, a, ha, hl, .inl hwr, ?_⟩
  rw [hw]
  exact (hh hpc).clk p

/-! ### Calls by the handler -/

/-- The deque is written by the worker only. -/
theorem Run.writer {b : Nat} {R : Loc → Prop} {G : List (Lbl α) → State α → Lbl α → Prop} {ls : List (Lbl α)}
    {m : State α} (h : Run b R G ls m) : ∀ a ∈ m.mem.log, a.loc = .stat → a.wr = true → a.who = none := by
  induction h with
  | new => intro a ha; cases ha
  | step ls m m' l hr hg hst hn ih =>
    rcases hst.cases with ⟨p, x, rfl, h1, h2, hst, hm⟩ | ⟨p, i, x, rfl, h1, hst, hm⟩ | ⟨p, rfl, h1, h2, hst, hm⟩ |
      ⟨e, q, rfl, h1, hq, hst, hm⟩ | ⟨p, rfl, h1, hst, hm⟩ | ⟨rfl, h1, hst, hm⟩ | ⟨t, n, rfl, h1, hst, hm⟩ |
      ⟨t, n, rfl, h1, hst, hm⟩
    · rw [hm]; exact ih
    · rw [hm]
      intro a ha hl hw
      simp only [Mem.op, List.mem_cons] at ha
      rcases ha with rfl | ha
      · cases hl
      · exact ih a ha hl hw
    · rw [hm]; exact ih
    · rw [hm]
      intro a ha hl hw
      rcases run_log_none _ _ a ha with ha | ha
      · exact ih a ha hl hw
      · exact ha
    · rw [hm]
      intro a ha hl hw
      simp only [Mem.op, List.mem_cons] at ha
      rcases ha with rfl | ha
      · cases hw
      · exact ih a ha hl hw
    · rw [hm]
      intro a ha hl hw
      simp only [Mem.op, List.mem_cons] at ha
      rcases ha with rfl | ha
      · cases hw
      · exact ih a ha hl hw
    · rw [hm]; exact ih
    · rw [hm]; exact ih

/-- C107, calls by the handler: they are never a data race, and what they return, if it is defined at all (C58), is the
average of the latest ten samples, the item in hand not included. -/
theorem C107_inside {b : Nat} (hb : 0 < b) {R : Loc → Prop} {G : List (Lbl α) → State α → Lbl α → Prop}
    {ls : List (Lbl α)} {m : State α} (h : Run b R G ls m) (hpc : m.st.q.pc = .stat) :
    ¬ Race deque m .self ∧ m.st.q.samples.length + 1 = m.st.q.handled.length ∧
    (∀ r, timeForUnit m.st.q.stat = .ok r → r = (total ((m.st.q.samples.take 10).map Prod.fst)).tdiv 10) ∧
    (∀ r, bufferUtilization m.st.q.stat = .ok r → r = (total ((m.st.q.samples.take 10).map Prod.snd)).tdiv 10) := by
  obtain ⟨-, -, h3, h4, -⟩ := C58_window_partial hb h.stage
  have h1 := (h.stage.sinv hb).samples
  rw [hpc] at h1
  refine ⟨?_, h1, h3, h4⟩
  rintro (⟨-, a, ha, hl, hw, hlt⟩ | hf)
  · have hw : a.wr = true := by simpa using hw
    have := h.memOk.log a ha
    rw [h.writer a ha hl hw] at this hlt
    simp only [Lbl.who] at hlt
    omega
  · exact hf

/-! ### Calls by other threads while the handler waits -/

/-- The steps since the last step of the worker's own: those made while the present handler call goes on. -/
def duringCall : List (Lbl α) → List (Lbl α)
  | [] => []
  | .work _ :: _ => []
  | l :: ls => l :: duringCall ls

/-- The handler has released an object in this call, and `p` has acquired the object since. -/
def Invited (ls : List (Lbl α)) (p : Nat) : Prop :=
  ∃ n a c d, duringCall ls = a ++ .acq (some p) n :: c ++ .rel none n :: d

/-- After each call that `p` made while the present handler call goes on, `p` has released an object that the handler has
acquired since. -/
def Finished (ls : List (Lbl α)) (p : Nat) : Prop :=
  ∀ a d, duringCall ls = a ++ .ask p :: d → ∃ n a1 a2 a3, a = a1 ++ .acq none n :: a2 ++ .rel (some p) n :: a3

/-- Threads other than the worker ask only when the handler has invited them, and the handler waits for them. -/
def rendezvous : List (Lbl α) → State α → Lbl α → Prop := fun ls m l =>
  match l with
  | .ask p => Invited ls p
  | .work _ => m.st.q.pc = .stat → ∀ p, Finished ls p
  | _ => True

/-- Whoever has `c` in its clock for the worker comes after all samples. -/
def SeesSamples (m : Mem Thr Loc Obj) (c : Nat) : Prop := ∀ a ∈ m.log, a.loc = .stat → a.wr = true → a.time ≤ c

/-- Whoever has `c` in its clock for `p` comes after all calls that `p` has made. -/
def SeesCalls (m : Mem Thr Loc Obj) (p c : Nat) : Prop := ∀ a ∈ m.log, a.loc = .stat → a.who = some p → a.time ≤ c

theorem SeesSamples.mono {m m' : Mem Thr Loc Obj} {c c' : Nat} (h : SeesSamples m c) (hc : c ≤ c')
    (hl : ∀ a ∈ m'.log, a ∈ m.log ∨ a.loc ≠ .stat ∨ a.wr = false) : SeesSamples m' c' := by
  intro a ha h1 h2
  rcases hl a ha with h3 | h3 | h3
  · exact Nat.le_trans (h a h3 h1 h2) hc
  · exact absurd h1 h3
  · rw [h3] at h2; cases h2

theorem SeesCalls.mono {m m' : Mem Thr Loc Obj} {p c c' : Nat} (h : SeesCalls m p c) (hc : c ≤ c')
    (hl : ∀ a ∈ m'.log, a ∈ m.log ∨ a.loc ≠ .stat ∨ a.who ≠ some p) : SeesCalls m' p c' := by
  intro a ha h1 h2
  rcases hl a ha with h3 | h3 | h3
  · exact Nat.le_trans (h a h3 h1 h2) hc
  · exact absurd h1 h3
  · exact absurd h2 h3

/-- What holds while threads keep to `rendezvous`. -/
structure Rv (ls : List (Lbl α)) (m : State α) : Prop where
  posted : ∀ n, .rel none n ∈ duringCall ls → m.st.q.pc = .stat ∧ SeesSamples m.mem (m.mem.sync (.user n) none)
  invited : ∀ p, Invited ls p → SeesSamples m.mem (m.mem.clk (some p) none)
  asked : ∀ p, .ask p ∈ duringCall ls → m.st.q.pc = .stat
  quiet : ∀ p, .ask p ∉ duringCall ls → SeesCalls m.mem p (m.mem.clk none (some p))
  given : ∀ p n a d, duringCall ls = a ++ .rel (some p) n :: d → .ask p ∉ a →
    SeesCalls m.mem p (m.mem.sync (.user n) (some p))
  taken : ∀ p n a c d, duringCall ls = a ++ .acq none n :: c ++ .rel (some p) n :: d → .ask p ∉ a → .ask p ∉ c →
    SeesCalls m.mem p (m.mem.clk none (some p))

/-- When every thread has finished, the worker comes after all their calls. -/
theorem Rv.done {ls : List (Lbl α)} {m : State α} (h : Rv ls m) (hg : m.st.q.pc = .stat → ∀ p, Finished ls p) (p : Nat) :
    SeesCalls m.mem p (m.mem.clk none (some p)) := by
  by_cases hp : .ask p ∈ duringCall ls
  · obtain ⟨a, d, hd, hna⟩ := List.eq_append_cons_of_mem hp
    obtain ⟨n, a1, a2, a3, rfl⟩ := hg (h.asked p hp) p a d hd
    refine h.taken p n a1 a2 (a3 ++ .ask p :: d) (by rw [hd]; simp) ?_ ?_
    · intro hm; exact hna (by simp [hm])
    · intro hm; exact hna (by simp [hm])
  · exact h.quiet p hp

theorem Rv.new (b : Nat) : Rv [] (State.new b : State α) := by
  refine ⟨?_, ?_, ?_, ?_, ?_, ?_⟩
  · intro n hn; cases hn
  · rintro p ⟨n, a, c, d, h⟩
    simp [duringCall] at h
  · intro n hn; cases hn
  · intro p _ a ha; cases ha
  · intro p n a d h; simp [duringCall] at h
  · intro p n a c d h; simp [duringCall] at h

/-- A step that is not the worker's own. -/
theorem Rv.other {ls : List (Lbl α)} {m m' : State α} {l : Lbl α} (h : Rv ls m) (hl : ∀ e, l ≠ .work e)
    (hpc : m'.st.q.pc = m.st.q.pc) (hmem : m'.mem = m.mem.run l.who (ops m l))
    (hok : m.mem.Ok) (hwr : ∀ a ∈ m.mem.log, a.loc = .stat → a.wr = true → a.who = none)
    (hrel : ∀ n, l = .rel none n → m.st.q.pc = .stat) (hask : ∀ p, l = .ask p → Invited ls p)
    (hlog : ∀ a ∈ m'.mem.log, a ∈ m.mem.log ∨ a.loc ≠ .stat ∨ a.wr = false)
    (hcalls : ∀ p, l ≠ .ask p → ∀ a ∈ m'.mem.log, a ∈ m.mem.log ∨ a.loc ≠ .stat ∨ a.who ≠ some p)
    (hclk : ∀ t u, m.mem.clk t u ≤ m'.mem.clk t u) (hsync : ∀ o u, m.mem.sync o u ≤ m'.mem.sync o u) :
    Rv (l :: ls) m' := by
  have hd : duringCall (l :: ls) = l :: duringCall ls := by
    cases l with
    | work e => exact absurd rfl (hl e)
    | _ => rfl
  refine ⟨?_, ?_, ?_, ?_, ?_, ?_⟩
  · intro n hn
    rw [hd, List.mem_cons] at hn
    rw [hpc]
    rcases hn with rfl | hn
    · refine ⟨hrel n rfl, ?_⟩
      rw [hmem]
      simp only [ops, Mem.run, Mem.op, Lbl.who, put_same]
      intro a ha h1 h2
      have h3 := hok.log a ha
      rw [hwr a ha h1 h2] at h3
      omega
    · obtain ⟨h1, h2⟩ := h.posted n hn
      exact ⟨h1, h2.mono (hsync _ _) hlog⟩
  · rintro p ⟨n, a, c, d, he⟩
    rw [hd] at he
    cases a with
    | nil =>
      simp only [List.nil_append, List.cons_append, List.cons.injEq] at he
      obtain ⟨rfl, he⟩ := he
      have h1 := (h.posted n (by rw [he]; simp)).2
      rw [hmem]
      simp only [ops, Mem.run, Mem.op, Lbl.who, put_same]
      intro a ha h2 h3
      have := h1 a ha h2 h3
      omega
    | cons l' a =>
      simp only [List.cons_append, List.cons.injEq] at he
      exact (h.invited p ⟨n, a, c, d, by simpa using he.2⟩).mono (hclk _ _) hlog
  · intro p hp
    rw [hd, List.mem_cons] at hp
    rw [hpc]
    rcases hp with rfl | hp
    · obtain ⟨n, a, c, d, he⟩ := hask p rfl
      exact (h.posted n (by rw [he]; simp)).1
    · exact h.asked p hp
  · intro p hp
    rw [hd, List.mem_cons, not_or] at hp
    exact (h.quiet p hp.2).mono (hclk _ _) (hcalls p (Ne.symm hp.1))
  · intro p n a d he hna
    rw [hd] at he
    cases a with
    | nil =>
      simp only [List.nil_append, List.cons.injEq] at he
      obtain ⟨rfl, he⟩ := he
      rw [hmem]
      simp only [ops, Mem.run, Mem.op, Lbl.who, put_same]
      intro a ha h1 h2
      have h3 := hok.log a ha
      rw [h2] at h3
      omega
    | cons l' a =>
      simp only [List.cons_append, List.cons.injEq] at he
      obtain ⟨rfl, he⟩ := he
      simp only [List.mem_cons, not_or] at hna
      exact (h.given p n a d he hna.2).mono (hsync _ _) (hcalls p (Ne.symm hna.1))
  · intro p n a c d he hna hnc
    rw [hd] at he
    cases a with
    | nil =>
      simp only [List.nil_append, List.cons_append, List.cons.injEq] at he
      obtain ⟨rfl, he⟩ := he
      have h1 := h.given p n c d he hnc
      rw [hmem]
      simp only [ops, Mem.run, Mem.op, Lbl.who, put_same]
      intro a ha h2 h3
      have := h1 a ha h2 h3
      omega
    | cons l' a =>
      simp only [List.cons_append, List.cons.injEq] at he
      obtain ⟨rfl, he⟩ := he
      simp only [List.mem_cons, not_or] at hna
      exact (h.taken p n a c d (by simpa using he) hna.2 hnc).mono (hclk _ _) (hcalls p (Ne.symm hna.1))

theorem run_clk_le {τ ℓ σ : Type} [DecidableEq τ] [DecidableEq σ] (m : Mem τ ℓ σ) (t : τ) (os : List (Op ℓ σ)) (v u : τ) :
    m.clk v u ≤ (m.run t os).clk v u := by
  induction os generalizing m with
  | nil => exact Nat.le_refl _
  | cons o os ih => exact Nat.le_trans (m.op_clk_le t o v u) (ih _)

theorem run_sync_le {τ ℓ σ : Type} [DecidableEq τ] [DecidableEq σ] (m : Mem τ ℓ σ) (t : τ) (os : List (Op ℓ σ)) (v : σ)
    (u : τ) (ho : ∀ o ∈ os, ∀ x, o ≠ .sto x) : m.sync v u ≤ (m.run t os).sync v u := by
  induction os generalizing m with
  | nil => exact Nat.le_refl _
  | cons o os ih =>
    exact Nat.le_trans (m.op_sync_le t o v u (ho o List.mem_cons_self v)) (ih _ fun o h => ho o (List.mem_cons_of_mem _ h))

/-- No atomic of a stage is stored to while others have released it: `queue_.tail` is only incremented, `closed_` is
written once. -/
theorem ops_sto (m : State α) (l : Lbl α) : ∀ o ∈ ops m l, ∀ x, o ≠ .sto x := by
  intro o ho x
  cases l with
  | work e => exact (workOps_rel m o ho x).2
  | store p =>
    simp only [ops, storeOps] at ho
    split at ho <;> simp_all
  | begin p y =>
    simp only [ops, List.mem_cons, List.not_mem_nil, or_false] at ho
    rcases ho with rfl | rfl <;> simp
  | _ => simp only [ops, List.mem_cons, List.not_mem_nil, or_false] at ho; simp_all

theorem Run.rv {b : Nat} {R : Loc → Prop} {ls : List (Lbl α)} {m : State α} (h : Run b R rendezvous ls m) : Rv ls m := by
  induction h with
  | new => exact Rv.new b
  | step ls m m' l hr hg hs hn ih =>
    have hok := hr.memOk
    have hwr := hr.writer
    have hmem := hs.2
    have hclk : ∀ t u, m.mem.clk t u ≤ m'.mem.clk t u := fun t u => by rw [hmem]; exact run_clk_le _ _ _ _ _
    have hsync : ∀ o u, m.mem.sync o u ≤ m'.mem.sync o u := fun o u => by rw [hmem]; exact run_sync_le _ _ _ _ _ (ops_sto m l)
    rcases hs.cases with ⟨p, x, rfl, h1, h2, hst, hm⟩ | ⟨p, i, x, rfl, h1, hst, hm⟩ | ⟨p, rfl, h1, h2, hst, hm⟩ |
      ⟨e, q, rfl, h1, hq, hst, hm⟩ | ⟨p, rfl, h1, hst, hm⟩ | ⟨rfl, h1, hst, hm⟩ | ⟨t, n, rfl, h1, hst, hm⟩ |
      ⟨t, n, rfl, h1, hst, hm⟩
    · refine ih.other (by simp) (by rw [hst]; rfl) hmem hok hwr (by simp) (by simp) ?_ ?_ hclk hsync
      · rw [hm]; exact fun a ha => .inl ha
      · rw [hm]; exact fun _ _ a ha => .inl ha
    · refine ih.other (by simp) (by rw [hst]) hmem hok hwr (by simp) (by simp) ?_ ?_ hclk hsync
      · rw [hm]
        intro a ha
        rcases List.mem_cons.1 ha with rfl | ha
        · exact .inr (.inl (by simp))
        · exact .inl ha
      · rw [hm]
        intro p' _ a ha
        rcases List.mem_cons.1 ha with rfl | ha
        · exact .inr (.inl (by simp))
        · exact .inl ha
    · refine ih.other (by simp) (by rw [hst]) hmem hok hwr (by simp) (by simp) ?_ ?_ hclk hsync
      · rw [hm]; exact fun a ha => .inl ha
      · rw [hm]; exact fun _ _ a ha => .inl ha
    · refine ⟨?_, ?_, ?_, ?_, ?_, ?_⟩
      · intro n hn; cases hn
      · rintro p ⟨n, a, c, d, h⟩
        simp [duringCall] at h
      · intro n hn; cases hn
      · intro p _
        refine (ih.done hg p).mono (hclk _ _) ?_
        rw [hm]
        intro a ha
        rcases run_log_none _ _ a ha with ha | ha
        · exact .inl ha
        · exact .inr (.inr (by rw [ha]; simp))
      · intro p n a d h; simp [duringCall] at h
      · intro p n a c d h; simp [duringCall] at h
    · refine ih.other (by simp) (by rw [hst]) hmem hok hwr (by simp) (fun p' he => by cases he; exact hg) ?_ ?_ hclk hsync
      · rw [hm]
        intro a ha
        rcases List.mem_cons.1 ha with rfl | ha
        · exact .inr (.inr rfl)
        · exact .inl ha
      · rw [hm]
        intro p' hne a ha
        rcases List.mem_cons.1 ha with rfl | ha
        · exact .inr (.inr (fun he => hne (by simp at he; rw [he])))
        · exact .inl ha
    · refine ih.other (by simp) (by rw [hst]) hmem hok hwr (by simp) (by simp) ?_ ?_ hclk hsync
      · rw [hm]
        intro a ha
        rcases List.mem_cons.1 ha with rfl | ha
        · exact .inr (.inr rfl)
        · exact .inl ha
      · rw [hm]
        intro p' hne a ha
        rcases List.mem_cons.1 ha with rfl | ha
        · exact .inr (.inr (by simp))
        · exact .inl ha
    · refine ih.other (by simp) (by rw [hst]) hmem hok hwr (fun n' he => by cases he; exact h1 rfl) (by simp) ?_ ?_ hclk
        hsync
      · rw [hm]; exact fun a ha => .inl ha
      · rw [hm]; exact fun _ _ a ha => .inl ha
    · refine ih.other (by simp) (by rw [hst]) hmem hok hwr (by simp) (by simp) ?_ ?_ hclk hsync
      · rw [hm]; exact fun a ha => .inl ha
      · rw [hm]; exact fun _ _ a ha => .inl ha

/-- What the worker does to the deque does not race if it comes after the calls of all others. -/
theorem work_deque {m : State α} (hok : m.mem.Ok)
    (hwr : ∀ a ∈ m.mem.log, a.loc = .stat → a.wr = true → a.who = none)
    (h : m.st.q.pc = .stat → ∀ a ∈ m.mem.log, a.loc = .stat → ∀ p, a.who = some p →
      a.time ≤ max (m.mem.clk none (some p)) (m.mem.sync .tail (some p))) : ¬ m.mem.Races deque none (workOps m) := by
  unfold workOps
  cases hpc : m.st.q.pc with
  | outer => simp only; split <;> exact fun h => h
  | drain => exact fun h => h
  | inner => exact fun h => h
  | take => exact fun h => h
  | ended => exact fun h => h
  | check =>
    rintro (⟨h1, -⟩ | h1)
    · cases h1
    · exact h1
  | call i =>
    rintro (⟨h1, -⟩ | ⟨-, a, ha, h2, h3, h4⟩ | h1)
    · cases h1
    · simp only [Mem.op, List.mem_cons] at ha
      rcases ha with rfl | ha
      · cases h2
      · have h3 : a.wr = true := by simpa using h3
        have := hok.log a ha
        rw [hwr a ha h2 h3] at this h4
        simp only [Mem.op, put_same] at h4
        omega
    · exact h1
  | stat =>
    rintro (⟨-, a, ha, h2, -, h4⟩ | h1)
    · have ha : a ∈ m.mem.log := ha
      simp only [Mem.op, put_same] at h4
      cases hw : a.who with
      | none =>
        have := hok.log a ha
        rw [hw] at this h4
        omega
      | some p =>
        have := h hpc a ha h2 p hw
        rw [hw] at h4
        omega
    · exact h1

/-- C107, as far as it holds for other threads: if they call `time_for_unit()` or `buffer_utilization()` only after the
handler has invited them, and the handler returns only after it has learned that they are done, no access to the samples
is a data race.  What is missing are calls at any other time, see `C107_idle_refuted`. -/
theorem C107_rendezvous_partial {b : Nat} {R : Loc → Prop} {ls : List (Lbl α)} {m m' : State α} {l : Lbl α}
    (h : Run b R rendezvous ls m) (hl : rendezvous ls m l) (hs : Step m l m') : ¬ Race deque m l := by
  have hok := h.memOk
  have hwr := h.writer
  have ih := h.rv
  rcases hs.cases with ⟨p, x, rfl, h1, h2, hst, hm⟩ | ⟨p, i, x, rfl, h1, hst, hm⟩ | ⟨p, rfl, h1, h2, hst, hm⟩ |
    ⟨e, q, rfl, h1, hq, hst, hm⟩ | ⟨p, rfl, h1, hst, hm⟩ | ⟨rfl, h1, hst, hm⟩ | ⟨t, n, rfl, h1, hst, hm⟩ |
    ⟨t, n, rfl, h1, hst, hm⟩
  · exact fun h => h
  · simp only [Race, ops, storeOps, h1]
    rintro (⟨h2, -⟩ | h2)
    · cases h2
    · exact h2
  · exact fun h => h
  · refine work_deque hok hwr fun _ a ha h2 p h3 => ?_
    have := ih.done hl p a ha h2 h3
    omega
  · rintro (⟨-, a, ha, h2, h3, h4⟩ | h2)
    · have h3 : a.wr = true := by simpa using h3
      have := ih.invited p hl a ha h2 h3
      rw [hwr a ha h2 h3] at h4
      simp only [Lbl.who] at h4
      omega
    · exact h2
  · rintro (⟨-, a, ha, h2, h3, h4⟩ | h2)
    · have h3 : a.wr = true := by simpa using h3
      have := hok.log a ha
      rw [hwr a ha h2 h3] at this h4
      simp only [Lbl.who] at h4
      omega
    · exact h2
  · exact fun h => h
  · exact fun h => h

/-! ### Calls before the first push -/

theorem Q.work_idle {c : Bool} {e : Int} {q q' : Q α} (hq : q.work c e = .ok q') (h1 : q.tail = 0) (h2 : q.head = 0)
    (h4 : q.pc = .outer ∨ q.pc = .drain ∨ q.pc = .inner ∨ q.pc = .ended) :
    q'.head = 0 ∧ (q'.pc = .outer ∨ q'.pc = .drain ∨ q'.pc = .inner ∨ q'.pc = .ended) := by
  rcases h4 with hpc | hpc | hpc | hpc
  · simp only [Q.work, hpc, Res.ok.injEq] at hq
    have e1 : q'.head = q.head := by rw [← hq]
    have e2 : q'.pc = if c then .drain else .inner := by rw [← hq]
    rw [e1, e2]
    refine ⟨h2, ?_⟩
    cases c
    · exact .inr (.inr (.inl rfl))
    · exact .inr (.inl rfl)
  · simp only [Q.work, hpc, Res.ok.injEq] at hq
    have e1 : q'.head = q.head := by rw [← hq]
    have e2 : q'.pc = if (q.tail + word - q.head) % word > 0 then .inner else .ended := by rw [← hq]
    rw [e1, e2]
    refine ⟨h2, ?_⟩
    split
    · exact .inr (.inr (.inl rfl))
    · exact .inr (.inr (.inr rfl))
  · simp only [Q.work, hpc, Res.ok.injEq] at hq
    have e1 : q'.head = q.head := by rw [← hq]
    have e2 : q'.pc = if q.head < q.tail then .check else .outer := by rw [← hq]
    have : ¬ q.head < q.tail := by rw [h1, h2]; exact Nat.lt_irrefl 0
    rw [e1, e2, if_neg this]
    exact ⟨h2, .inl rfl⟩
  · simp [Q.work, hpc] at hq

/-- Before the first push the worker finds nothing to do. -/
theorem Stage.Reach.idle {b : Nat} {G : Stage α → Label α → Prop} {s : Stage α} (h : Stage.Reach b G s)
    (hp : s.q.pushed = []) : s.q.tail = 0 ∧ s.q.head = 0 ∧
      (s.q.pc = .outer ∨ s.q.pc = .drain ∨ s.q.pc = .inner ∨ s.q.pc = .ended) := by
  induction h with
  | new => exact ⟨rfl, rfl, .inl rfl⟩
  | step s s' l _ _ hs ih =>
    rcases hs.cases_ok with ⟨p, x, _, hc, hp', rfl⟩ | ⟨p, i, x, q, _, hp', hq, rfl⟩ | ⟨_, hc, hp', rfl⟩ |
      ⟨e, q, _, _, hq, rfl⟩
    · simp [Q.claim] at hp
    · have := Q.store_same hq
      subst this
      exact ih hp
    · exact ih hp
    · obtain ⟨h5, h6, h7⟩ := Q.work_same hq
      simp only [h7] at hp
      obtain ⟨h1, h2, h4⟩ := ih hp
      exact ⟨h5.trans h1, Q.work_idle hq h1 h2 h4⟩

/-- One thread makes all pushes, and other threads than the worker ask only before the first one, and it is this thread
that does. -/
def setup (p0 : Nat) : List (Lbl α) → State α → Lbl α → Prop := fun _ m l =>
  match l with
  | .begin p _ => p = p0
  | .ask p => p = p0 ∧ m.st.q.pushed = []
  | _ => True

/-- What holds in such executions. -/
structure Setup (p0 : Nat) (m : State α) : Prop where
  before : m.st.q.pushed = [] → ∀ a ∈ m.mem.log, a.loc = .stat → a.wr = false
  who : ∀ a ∈ m.mem.log, a.loc = .stat → ∀ p, a.who = some p → p = p0
  after : m.st.q.pushed ≠ [] → ∀ a ∈ m.mem.log, a.loc = .stat → ∀ p, a.who = some p →
    a.time ≤ m.mem.sync .tail (some p0)

theorem Run.setup {b p0 : Nat} {R : Loc → Prop} {ls : List (Lbl α)} {m : State α} (h : Run b R (setup p0) ls m) :
    Setup p0 m := by
  induction h with
  | new => refine ⟨?_, ?_, ?_⟩ <;> simp [State.new, Mem.new]
  | step ls m m' l hr hg hs hn ih =>
    have hok := hr.memOk
    have hsync : ∀ o u, m.mem.sync o u ≤ m'.mem.sync o u := fun o u => by rw [hs.2]; exact run_sync_le _ _ _ _ _ (ops_sto m l)
    rcases hs.cases with ⟨p, x, rfl, h1, h2, hst, hm⟩ | ⟨p, i, x, rfl, h1, hst, hm⟩ | ⟨p, rfl, h1, h2, hst, hm⟩ |
      ⟨e, q, rfl, h1, hq, hst, hm⟩ | ⟨p, rfl, h1, hst, hm⟩ | ⟨rfl, h1, hst, hm⟩ | ⟨t, n, rfl, h1, hst, hm⟩ |
      ⟨t, n, rfl, h1, hst, hm⟩
    · have hg : p = p0 := hg
      subst hg
      refine ⟨?_, ?_, ?_⟩
      · rw [hst]; simp [Q.claim]
      · rw [hm]; exact ih.who
      · intro _ a ha hl q hw
        rw [hm] at ha
        have ha : a ∈ m.mem.log := ha
        have h3 := ih.who a ha hl q hw
        subst h3
        have h4 := (hok.op (some q) (.acq .tail)).log a ha
        rw [hw] at h4
        rw [hm]
        generalize m.mem.op (some q) (.acq .tail) = m1 at h4
        simp only [Mem.op, put_same]
        omega
    · refine ⟨?_, ?_, ?_⟩
      · rw [hst, hm]
        intro hp a ha hl
        rcases List.mem_cons.1 ha with rfl | ha
        · cases hl
        · exact ih.before hp a ha hl
      · rw [hm]
        intro a ha hl
        rcases List.mem_cons.1 ha with rfl | ha
        · cases hl
        · exact ih.who a ha hl
      · rw [hst, hm]
        intro hp a ha hl
        rcases List.mem_cons.1 ha with rfl | ha
        · cases hl
        · exact ih.after hp a ha hl
    · refine ⟨?_, ?_, ?_⟩
      · rw [hst, hm]; exact ih.before
      · rw [hm]; exact ih.who
      · rw [hst, hm]; exact ih.after
    · have h3 := (Q.work_len hq).2.1
      refine ⟨?_, ?_, ?_⟩
      · rw [hst, hm]
        simp only [h3]
        intro hp a ha hl
        obtain ⟨-, -, hpc⟩ := Stage.Reach.idle hr.stage hp
        have hlog : (m.mem.run none (workOps m)).log = m.mem.log := by
          unfold workOps
          rcases hpc with hpc | hpc | hpc | hpc <;> simp only [hpc]
          · split <;> rfl
          · rfl
          · rfl
          · rfl
        rw [hlog] at ha
        exact ih.before hp a ha hl
      · rw [hm]
        intro a ha hl p hw
        rcases run_log_none _ _ a ha with ha | ha
        · exact ih.who a ha hl p hw
        · rw [ha] at hw; cases hw
      · intro hp a ha hl p hw
        rw [hst] at hp
        simp only [h3] at hp
        rw [hm] at ha
        rcases run_log_none _ _ a ha with ha | ha
        · exact Nat.le_trans (ih.after hp a ha hl p hw) (hsync _ _)
        · rw [ha] at hw; cases hw
    · obtain ⟨rfl, hp0⟩ : p = p0 ∧ m.st.q.pushed = [] := hg
      refine ⟨?_, ?_, ?_⟩
      · rw [hst, hm]
        intro hp a ha hl
        rcases List.mem_cons.1 ha with rfl | ha
        · rfl
        · exact ih.before hp a ha hl
      · rw [hm]
        intro a ha hl q hw
        rcases List.mem_cons.1 ha with rfl | ha
        · cases hw; rfl
        · exact ih.who a ha hl q hw
      · rw [hst]; exact fun h => absurd hp0 h
    · have hp : m.st.q.pushed ≠ [] := fun hp => by
        have := (Stage.Reach.idle hr.stage hp).2.2
        simp [h1] at this
      refine ⟨?_, ?_, ?_⟩
      · rw [hst]; exact fun h => absurd h hp
      · rw [hm]
        intro a ha hl q hw
        rcases List.mem_cons.1 ha with rfl | ha
        · cases hw
        · exact ih.who a ha hl q hw
      · rw [hst, hm]
        intro _ a ha hl q hw
        rcases List.mem_cons.1 ha with rfl | ha
        · cases hw
        · exact ih.after hp a ha hl q hw
    · refine ⟨?_, ?_, ?_⟩
      · rw [hst, hm]; exact ih.before
      · rw [hm]; exact ih.who
      · intro hp a ha hl q hw
        rw [hst] at hp
        rw [hm] at ha
        exact Nat.le_trans (ih.after hp a ha hl q hw) (hsync _ _)
    · refine ⟨?_, ?_, ?_⟩
      · rw [hst, hm]; exact ih.before
      · rw [hm]; exact ih.who
      · rw [hst, hm]; exact ih.after

/-- C107, calls before the first push: if one thread makes all pushes, and no other than this thread and the handler asks,
and this thread only before its first push, no access to the samples is a data race. -/
theorem C107_setup {b p0 : Nat} {R : Loc → Prop} {ls : List (Lbl α)} {m m' : State α} {l : Lbl α}
    (h : Run b R (setup p0) ls m) (hl : setup p0 ls m l) (hs : Step m l m') : ¬ Race deque m l := by
  have hok := h.memOk
  have hwr := h.writer
  have ih := h.setup
  rcases hs.cases with ⟨p, x, rfl, h1, h2, hst, hm⟩ | ⟨p, i, x, rfl, h1, hst, hm⟩ | ⟨p, rfl, h1, h2, hst, hm⟩ |
    ⟨e, q, rfl, h1, hq, hst, hm⟩ | ⟨p, rfl, h1, hst, hm⟩ | ⟨rfl, h1, hst, hm⟩ | ⟨t, n, rfl, h1, hst, hm⟩ |
    ⟨t, n, rfl, h1, hst, hm⟩
  · exact fun h => h
  · simp only [Race, ops, storeOps, h1]
    rintro (⟨h2, -⟩ | h2)
    · cases h2
    · exact h2
  · exact fun h => h
  · refine work_deque hok hwr fun hpc a ha h2 p h3 => ?_
    have hp : m.st.q.pushed ≠ [] := fun hp => by
      have := (Stage.Reach.idle h.stage hp).2.2
      simp [hpc] at this
    have h4 := ih.who a ha h2 p h3
    have := ih.after hp a ha h2 p h3
    subst h4
    omega
  · rintro (⟨-, a, ha, h2, h3, h4⟩ | h2)
    · have h3 : a.wr = true := by simpa using h3
      rw [ih.before hl.2 a ha h2] at h3
      cases h3
    · exact h2
  · rintro (⟨-, a, ha, h2, h3, h4⟩ | h2)
    · have h3 : a.wr = true := by simpa using h3
      have := hok.log a ha
      rw [hwr a ha h2 h3] at this h4
      simp only [Lbl.who] at h4
      omega
    · exact h2
  · exact fun h => h
  · exact fun h => h

end Verif.Pipeline.HB
