import Verif.Pipeline.Races
/-!
C77 with happens-before: nothing orders the store of a push before the worker's look at the slot, since `push` increments
the counter first.
-/
namespace Verif.Pipeline.HB
open Verif Verif.HB Verif.Pipeline
variable {α : Type}

/-- The handler does not synchronise with anybody. -/
def silent : List (Lbl α) → State α → Lbl α → Prop := fun _ _ l => ∀ n, l ≠ .rel none n ∧ l ≠ .acq none n

/-! ### What a step does -/

theorem Step.cases {m m' : State α} {l : Lbl α} (h : Step m l m') :
    (∃ p x, l = .begin p x ∧ m.st.closed = false ∧ m.st.pend p = none ∧
      m'.st = { m.st with q := m.st.q.claim x, pend := setAt m.st.pend p (some (m.st.q.tail, x)) } ∧
      m'.mem = (m.mem.op (some p) (.acq .tail)).op (some p) (.rel .tail)) ∨
    (∃ p i x, l = .store p ∧ m.st.pend p = some (i, x) ∧
      m'.st = { m.st with
        q := { m.st.q with slots := m.st.q.slots.set (i % m.st.q.slots.length) (some x) }
        pend := setAt m.st.pend p none } ∧
      m'.mem = m.mem.op (some p) (.acc (.slot (i % m.st.q.slots.length)) true i)) ∨
    (∃ p, l = .close p ∧ m.st.closed = false ∧ (∀ p, m.st.pend p = none) ∧ m'.st = { m.st with closed := true } ∧
      m'.mem = m.mem.op (some p) (.rel .closed)) ∨
    (∃ e q, l = .work e ∧ m.st.q.pc ≠ .ended ∧ m.st.q.work m.st.closed e = .ok q ∧ m'.st = { m.st with q := q } ∧
      m'.mem = m.mem.run none (workOps m)) ∨
    (∃ p, l = .ask p ∧ m.st.closed = false ∧ m'.st = m.st ∧ m'.mem = m.mem.op (some p) (.acc .stat false 0)) ∨
    (l = .self ∧ m.st.q.pc = .stat ∧ m'.st = m.st ∧ m'.mem = m.mem.op none (.acc .stat false 0)) ∨
    (∃ t n, l = .rel t n ∧ (t = none → m.st.q.pc = .stat) ∧ m'.st = m.st ∧ m'.mem = m.mem.op t (.rel (.user n))) ∨
    (∃ t n, l = .acq t n ∧ (t = none → m.st.q.pc = .stat) ∧ m'.st = m.st ∧
      m'.mem = m.mem.op t (.acq (.user n))) := by
  obtain ⟨h1, h2⟩ := h
  cases l with
  | begin p x =>
    rcases Stage.Step.cases_ok (show Stage.Step m.st (.begin p x) (.ok m'.st) from h1) with
      ⟨p', x', hl, hc, hp, hst⟩ | ⟨p, i, x, q, hl, -⟩ | ⟨hl, -⟩ | ⟨e, q, hl, -⟩
    · cases hl
      exact .inl ⟨p, x, rfl, hc, hp, hst, h2⟩
    · cases hl
    · cases hl
    · cases hl
  | store p =>
    rcases Stage.Step.cases_ok (show Stage.Step m.st (.store p) (.ok m'.st) from h1) with
      ⟨p', x', hl, -⟩ | ⟨p', i, x, q, hl, hp, hq, hst⟩ | ⟨hl, -⟩ | ⟨e, q, hl, -⟩
    · cases hl
    · cases hl
      have := Q.store_same hq
      subst this
      refine .inr (.inl ⟨p, i, x, rfl, hp, hst, ?_⟩)
      rw [h2]
      simp [ops, storeOps, hp, Mem.run, Lbl.who]
    · cases hl
    · cases hl
  | close p =>
    rcases Stage.Step.cases_ok (show Stage.Step m.st .close (.ok m'.st) from h1) with
      ⟨p', x', hl, -⟩ | ⟨p, i, x, q, hl, -⟩ | ⟨hl, hc, hp, hst⟩ | ⟨e, q, hl, -⟩
    · cases hl
    · cases hl
    · exact .inr (.inr (.inl ⟨p, rfl, hc, hp, hst, h2⟩))
    · cases hl
  | work e =>
    rcases Stage.Step.cases_ok (show Stage.Step m.st (.work e) (.ok m'.st) from h1) with
      ⟨p', x', hl, -⟩ | ⟨p, i, x, q, hl, -⟩ | ⟨hl, -⟩ | ⟨e', q, hl, hne, hq, hst⟩
    · cases hl
    · cases hl
    · cases hl
    · cases hl
      exact .inr (.inr (.inr (.inl ⟨e, q, rfl, hne, hq, hst, h2⟩)))
  | ask p => exact .inr (.inr (.inr (.inr (.inl ⟨p, rfl, h1.1, h1.2, h2⟩))))
  | self => exact .inr (.inr (.inr (.inr (.inr (.inl ⟨rfl, h1.1, h1.2, h2⟩)))))
  | rel t n => exact .inr (.inr (.inr (.inr (.inr (.inr (.inl ⟨t, n, rfl, h1.1, h1.2, h2⟩))))))
  | acq t n => exact .inr (.inr (.inr (.inr (.inr (.inr (.inr ⟨t, n, rfl, h1.1, h1.2, h2⟩))))))

/-- Forgetting the memory gives an execution of the stage. -/
theorem Run.stage {b : Nat} {R : Loc → Prop} {G : List (Lbl α) → State α → Lbl α → Prop} {ls : List (Lbl α)}
    {m : State α} (h : Run b R G ls m) : Stage.Reach b anyStep m.st := by
  induction h with
  | new => exact .new
  | step ls m m' l _ _ hs _ ih =>
    obtain ⟨h1, -⟩ := hs
    cases l with
    | begin p x => exact .step _ _ _ ih trivial h1
    | store p => exact .step _ _ _ ih trivial h1
    | close p => exact .step _ _ _ ih trivial h1
    | work e => exact .step _ _ _ ih trivial h1
    | ask p => rw [h1.2]; exact ih
    | self => rw [h1.2]; exact ih
    | rel t n => rw [h1.2]; exact ih
    | acq t n => rw [h1.2]; exact ih

theorem Run.memOk {b : Nat} {R : Loc → Prop} {G : List (Lbl α) → State α → Lbl α → Prop} {ls : List (Lbl α)}
    {m : State α} (h : Run b R G ls m) : m.mem.Ok := by
  induction h with
  | new => exact Mem.Ok.new
  | step ls m m' l _ _ hs _ ih => rw [hs.2]; exact ih.run _ _

/-- The handled item and the next place of the worker when it calls the handler. -/
theorem Q.work_len {c : Bool} {e : Int} {q q' : Q α} (hq : q.work c e = .ok q') :
    q'.slots.length = q.slots.length ∧ q'.pushed = q.pushed ∧
    ((∃ i, q.pc = .call i ∧ q'.handled.length = q.handled.length + 1) ∨
      ((∀ i, q.pc ≠ .call i) ∧ q'.handled = q.handled)) := by
  obtain ⟨_, h2, h3⟩ := Q.work_same hq
  refine ⟨by rw [h2], h3, ?_⟩
  rcases Q.work_handled hq with ⟨h4, h5⟩ | ⟨i, v, hpc, hs, h4⟩
  · exact .inr ⟨h5, h4⟩
  · exact .inl ⟨i, hpc, by rw [h4]; simp⟩

/-! ### Silent handlers -/

/-- What holds of the accesses while the handler does not synchronise and nobody has begun to destroy the stage: `b` slots,
`n` pushes begun. -/
structure SMem (b n : Nat) (m : Mem Thr Loc Obj) : Prop where
  ok : m.Ok
  unk : ∀ p, m.clk (some p) none = 0
  unkSync : ∀ o, m.sync o none = 0
  tail : ∀ p, m.clk none (some p) ≤ m.sync .tail (some p)
  store : ∀ a ∈ m.log, a.wr = true → a.loc ≠ .stat → a.tag < n ∧ ∃ p, a.who = some p
  known : ∀ a ∈ m.log, a.wr = true → a.loc ≠ .stat → a.time ≤ m.sync .tail a.who → a.tag + 1 < n
  both : ∀ r ∈ m.log, r.who = none → r.loc ≠ .stat → ∀ s ∈ m.log, s.wr = true → s.loc = r.loc → s.tag + 1 < n

theorem SMem.acqOut {b n : Nat} {m : Mem Thr Loc Obj} (h : SMem b n m) (p : Nat) (o : Obj) :
    SMem b n (m.op (some p) (.acq o)) := by
  refine ⟨h.ok.op _ _, fun q => ?_, h.unkSync, fun q => ?_, h.store, h.known, h.both⟩
  · have h1 := h.unk p
    have h2 := h.unk q
    have h3 := h.unkSync o
    simp only [Mem.op, put]
    split <;> first | omega | (show max _ _ = 0; omega)
  · have := h.tail q
    simpa [Mem.op, put] using this

theorem SMem.relOut {b n : Nat} {m : Mem Thr Loc Obj} (h : SMem b n m) (p : Nat) (o : Obj) (ho : o ≠ .tail) :
    SMem b n (m.op (some p) (.rel o)) := by
  have hs : (m.op (some p) (.rel o)).sync .tail = m.sync .tail := by
    simp only [Mem.op, put_ne _ _ (Ne.symm ho)]
  refine ⟨h.ok.op _ _, h.unk, fun q => ?_, fun q => by rw [hs]; exact h.tail q, h.store,
    fun a ha hw hl => by rw [hs]; exact h.known a ha hw hl, h.both⟩
  have h1 := h.unk p
  have h2 := h.unkSync q
  have h3 := h.unkSync o
  simp only [Mem.op, put]
  split <;> first | omega | (show max _ _ = 0; omega)

theorem SMem.relTail {b n : Nat} {m : Mem Thr Loc Obj} (h : SMem b n m) (p : Nat) :
    SMem b (n + 1) (m.op (some p) (.rel .tail)) := by
  refine ⟨h.ok.op _ _, h.unk, fun q => ?_, fun q => ?_, fun a ha hw hl => ?_, fun a ha hw hl _ => ?_,
    fun r hr hw hl s hs hw' hl' => ?_⟩
  · have h1 := h.unk p
    have h2 := h.unkSync q
    have h3 := h.unkSync .tail
    simp only [Mem.op, put]
    split <;> first | omega | (show max _ _ = 0; omega)
  · exact Nat.le_trans (h.tail q) (m.op_sync_le _ _ _ _ (by simp))
  · obtain ⟨h1, h2⟩ := h.store a ha hw hl
    exact ⟨by omega, h2⟩
  · have := (h.store a ha hw hl).1
    omega
  · have := h.both r hr hw hl s hs hw' hl'
    omega

theorem SMem.acqTail {b n : Nat} {m : Mem Thr Loc Obj} (h : SMem b n m) : SMem b n (m.op none (.acq .tail)) := by
  refine ⟨h.ok.op _ _, fun q => ?_, h.unkSync, fun q => ?_, h.store, h.known, h.both⟩
  · have := h.unk q
    simpa [Mem.op, put] using this
  · have := h.tail q
    simp only [Mem.op, put_same]
    omega

theorem SMem.accStat {b n : Nat} {m : Mem Thr Loc Obj} (h : SMem b n m) (t : Thr) (w : Bool) (i : Nat) :
    SMem b n (m.op t (.acc .stat w i)) := by
  refine ⟨h.ok.op _ _, fun q => ?_, h.unkSync, fun q => ?_, fun a ha hw hl => ?_, fun a ha hw hl => ?_,
    fun r hr hw hl s hs hw' hl' => ?_⟩
  · have := h.unk q
    simp only [Mem.op, put]
    split
    · next e => subst e; simpa [put] using h.unk q
    · exact this
  · have := h.tail q
    simp only [Mem.op, put]
    split
    · next e => subst e; simpa [put] using this
    · exact this
  · simp only [Mem.op, List.mem_cons] at ha
    rcases ha with rfl | ha
    · exact absurd rfl hl
    · exact h.store a ha hw hl
  · simp only [Mem.op, List.mem_cons] at ha
    rcases ha with rfl | ha
    · exact absurd rfl hl
    · exact h.known a ha hw hl
  · simp only [Mem.op, List.mem_cons] at hr hs
    rcases hr with rfl | hr
    · exact absurd rfl hl
    · rcases hs with rfl | hs
      · exact absurd hl'.symm hl
      · exact h.both r hr hw hl s hs hw' hl'

theorem SMem.readSlot {b n : Nat} {m : Mem Thr Loc Obj} (h : SMem b n m) (k i : Nat)
    (hc : ¬ m.Conflict none (.slot k) false) : SMem b n (m.op none (.acc (.slot k) false i)) := by
  refine ⟨h.ok.op _ _, fun q => ?_, h.unkSync, fun q => ?_, fun a ha hw hl => ?_, fun a ha hw hl => ?_,
    fun r hr hw hl s hs hw' hl' => ?_⟩
  · have := h.unk q
    simpa [Mem.op, put] using this
  · have := h.tail q
    simpa [Mem.op, put] using this
  · simp only [Mem.op, List.mem_cons] at ha
    rcases ha with rfl | ha
    · cases hw
    · exact h.store a ha hw hl
  · simp only [Mem.op, List.mem_cons] at ha
    rcases ha with rfl | ha
    · cases hw
    · exact h.known a ha hw hl
  · simp only [Mem.op, List.mem_cons] at hr hs
    rcases hs with rfl | hs
    · cases hw'
    · rcases hr with rfl | hr
      · have hsl : s.loc ≠ .stat := by rw [hl']; simp
        obtain ⟨_, p, hp⟩ := h.store s hs hw' hsl
        refine h.known s hs hw' hsl ?_
        have h1 : s.time ≤ m.clk none s.who := by
          refine Nat.le_of_not_lt fun hlt => hc ⟨s, hs, hl', .inl hw', hlt⟩
        have h2 := h.tail p
        rw [hp] at h1 ⊢
        omega
      · exact h.both r hr hw hl s hs hw' hl'

theorem SMem.writeSlot {b n : Nat} {m : Mem Thr Loc Obj} (h : SMem b n m) (p k i : Nat) (hi : i < n)
    (hc : ¬ m.Conflict (some p) (.slot k) true) : SMem b n (m.op (some p) (.acc (.slot k) true i)) := by
  refine ⟨h.ok.op _ _, fun q => ?_, h.unkSync, fun q => ?_, fun a ha hw hl => ?_, fun a ha hw hl ht => ?_,
    fun r hr hw hl s hs hw' hl' => ?_⟩
  · have := h.unk q
    have := h.unk p
    simp only [Mem.op, put]
    split
    · simpa [put] using this
    · exact h.unk q
  · have := h.tail q
    simpa [Mem.op, put] using this
  · simp only [Mem.op, List.mem_cons] at ha
    rcases ha with rfl | ha
    · exact ⟨hi, p, rfl⟩
    · exact h.store a ha hw hl
  · simp only [Mem.op, List.mem_cons] at ha
    rcases ha with rfl | ha
    · have := h.ok.sync .tail (some p)
      simp only [Mem.op] at ht
      omega
    · exact h.known a ha hw hl ht
  · simp only [Mem.op, List.mem_cons] at hr hs
    rcases hr with rfl | hr
    · cases hw
    · rcases hs with rfl | hs
      · refine absurd ⟨r, hr, hl'.symm, .inr rfl, ?_⟩ hc
        rw [hw, h.unk p]
        exact h.ok.pos r hr
      · exact h.both r hr hw hl s hs hw' hl'

/-- What holds of the stage and its accesses together. -/
structure Silent (m : State α) : Prop where
  mem : SMem m.st.q.slots.length m.st.q.pushed.length m.mem
  stored : ∀ i, i < m.st.q.pushed.length → (∃ p x, m.st.pend p = some (i, x)) ∨
    ∃ a ∈ m.mem.log, a.wr = true ∧ a.loc = .slot (i % m.st.q.slots.length) ∧ a.tag = i
  read : ∀ i, i < m.st.q.handled.length →
    ∃ a ∈ m.mem.log, a.who = none ∧ a.loc = .slot (i % m.st.q.slots.length)

theorem Silent.new (b : Nat) : Silent (State.new b : State α) := by
  refine ⟨⟨Mem.Ok.new, ?_, ?_, ?_, ?_, ?_, ?_⟩, ?_, ?_⟩ <;>
    simp [State.new, Mem.new, Stage.new, Q.new]

theorem Mem.log_run {τ ℓ σ : Type} [DecidableEq τ] [DecidableEq σ] (m : Mem τ ℓ σ) (t : τ) (os : List (Op ℓ σ)) :
    ∀ a ∈ m.log, a ∈ (m.run t os).log := by
  induction os generalizing m with
  | nil => exact fun a ha => ha
  | cons o os ih =>
    intro a ha
    refine ih _ a ?_
    cases o with
    | acc l w i => exact List.mem_cons_of_mem _ ha
    | _ => exact ha

theorem Run.silent {b : Nat} (hb : 0 < b) {ls : List (Lbl α)} {m : State α} (h : Run b slots silent ls m)
    (hw : m.st.q.pushed.length < word) (hc : m.st.closed = false) : Silent m := by
  induction h with
  | new => exact Silent.new b
  | step ls m m' l hr hg hs hn ih =>
    have hreach := hr.stage
    rcases hs.cases with ⟨p, x, rfl, h1, h2, hst, hm⟩ | ⟨p, i, x, rfl, h1, hst, hm⟩ | ⟨p, rfl, h1, h2, hst, hm⟩ |
      ⟨e, q, rfl, h1, hq, hst, hm⟩ | ⟨p, rfl, h1, hst, hm⟩ | ⟨rfl, h1, hst, hm⟩ | ⟨t, n, rfl, h1, hst, hm⟩ |
      ⟨t, n, rfl, h1, hst, hm⟩
    · -- a push begins
      rw [hst] at hw hc
      simp only [Q.claim, List.length_append, List.length_cons, List.length_nil] at hw
      have ih := ih (by omega) hc
      have hi := (hreach.inv hb (by omega)).1
      refine ⟨?_, ?_, ?_⟩
      · rw [hm, hst]
        simpa [Q.claim] using (ih.mem.acqOut p .tail).relTail p
      · rw [hm, hst]
        intro i hi'
        simp only [Q.claim, List.length_append, List.length_cons, List.length_nil] at hi' ⊢
        by_cases hit : i = m.st.q.pushed.length
        · refine .inl ⟨p, x, ?_⟩
          have := hi.tail
          simp only [setAt, if_true]
          rw [hit, this]
        · rcases ih.stored i (by omega) with ⟨p', x', hp⟩ | ⟨a, ha⟩
          · refine .inl ⟨p', x', ?_⟩
            have : p' ≠ p := fun e => by rw [e, h2] at hp; cases hp
            simpa [setAt, this] using hp
          · exact .inr ⟨a, ha⟩
      · rw [hm, hst]
        exact ih.read
    · -- a push stores
      rw [hst] at hw hc
      simp only at hw
      have ih := ih hw hc
      have hi := (hreach.inv hb hw).1
      have hlt : i < m.st.q.pushed.length := (List.getElem?_eq_some_iff.1 (hi.pendOk p i x h1)).1
      have hnc : ¬ m.mem.Conflict (some p) (.slot (i % m.st.q.slots.length)) true := by
        intro hcf
        refine hn ?_
        simp only [Race, ops, storeOps, h1, Mem.Races, Lbl.who]
        exact .inl ⟨⟨_, rfl⟩, hcf⟩
      refine ⟨?_, ?_, ?_⟩
      · rw [hm, hst]
        simpa using ih.mem.writeSlot p _ i hlt hnc
      · rw [hm, hst]
        intro j hj
        simp only [List.length_set] at hj ⊢
        rcases ih.stored j hj with ⟨p', x', hp⟩ | ⟨a, ha, ha'⟩
        · by_cases hpp : p' = p
          · subst hpp
            rw [h1] at hp
            cases hp
            exact .inr ⟨_, List.mem_cons_self, rfl, rfl, rfl⟩
          · exact .inl ⟨p', x', by simpa [setAt, hpp] using hp⟩
        · exact .inr ⟨a, List.mem_cons_of_mem _ ha, ha'⟩
      · rw [hm, hst]
        intro j hj
        simp only [List.length_set] at hj ⊢
        obtain ⟨a, ha, ha'⟩ := ih.read j hj
        exact ⟨a, List.mem_cons_of_mem _ ha, ha'⟩
    · rw [hst] at hc
      cases hc
    · -- the worker
      obtain ⟨hlen, hpush, hhand⟩ := Q.work_len hq
      rw [hst] at hw hc
      simp only [hpush] at hw
      have ih := ih hw hc
      have hi := (hreach.inv hb hw).1
      have hstored : ∀ i, i < m'.st.q.pushed.length → (∃ p x, m'.st.pend p = some (i, x)) ∨
          ∃ a ∈ m'.mem.log, a.wr = true ∧ a.loc = .slot (i % m'.st.q.slots.length) ∧ a.tag = i := by
        rw [hst, hm]
        intro i hi'
        simp only [hpush, hlen] at hi' ⊢
        rcases ih.stored i hi' with hp | ⟨a, ha, ha'⟩
        · exact .inl hp
        · exact .inr ⟨a, Mem.log_run _ _ _ a ha, ha'⟩
      have hread0 : ∀ i, i < m.st.q.handled.length →
          ∃ a ∈ m'.mem.log, a.who = none ∧ a.loc = .slot (i % m'.st.q.slots.length) := by
        rw [hst, hm]
        intro i hi'
        simp only [hlen]
        obtain ⟨a, ha, ha'⟩ := ih.read i hi'
        exact ⟨a, Mem.log_run _ _ _ a ha, ha'⟩
      have hmem : SMem m.st.q.slots.length m.st.q.pushed.length (m.mem.run none (workOps m)) := by
        have hc' : m.st.closed = false := hc
        have hnr : ¬ m.mem.Races slots none (workOps m) := hn
        unfold workOps at hnr ⊢
        cases hpc : m.st.q.pc with
        | outer =>
          simp only [hc']
          exact ih.mem
        | drain => exact ih.mem.acqTail
        | inner => exact ih.mem.acqTail
        | take => exact ih.mem
        | ended => exact ih.mem
        | stat => exact ih.mem.acqTail.accStat none true 0
        | check =>
          simp only [hpc] at hnr
          refine ih.mem.readSlot _ _ fun hcf => hnr ?_
          exact .inl ⟨⟨_, rfl⟩, hcf⟩
        | call i =>
          simp only [hpc] at hnr
          refine (ih.mem.readSlot _ _ fun hcf => hnr ?_).accStat none false 0
          exact .inl ⟨⟨_, rfl⟩, hcf⟩
      refine ⟨?_, hstored, ?_⟩
      · rw [hst, hm]
        simp only [hlen, hpush]
        exact hmem
      · rcases hhand with ⟨i, hpc, hh⟩ | ⟨_, hh⟩
        · intro j hj
          rw [hst] at hj
          simp only [hh] at hj
          by_cases hj' : j < m.st.q.handled.length
          · exact hread0 j hj'
          · have h3 := hi.callIdx i hpc
            have h4 := hi.head
            rw [hpc] at h4
            simp only [Pc.taken] at h4
            have hji : j = i := by omega
            subst hji
            rw [hst, hm]
            simp only [hlen, workOps, hpc, Mem.run, Mem.op]
            exact ⟨_, List.mem_cons_of_mem _ List.mem_cons_self, rfl, rfl⟩
        · intro j hj
          rw [hst] at hj
          simp only [hh] at hj
          exact hread0 j hj
    · rw [hst] at hw hc
      have ih := ih hw hc
      refine ⟨?_, ?_, ?_⟩
      · rw [hm, hst]; exact ih.mem.accStat _ _ _
      · rw [hm, hst]
        intro i hi
        rcases ih.stored i hi with hp | ⟨a, ha, ha'⟩
        · exact .inl hp
        · exact .inr ⟨a, List.mem_cons_of_mem _ ha, ha'⟩
      · rw [hm, hst]
        intro i hi
        obtain ⟨a, ha, ha'⟩ := ih.read i hi
        exact ⟨a, List.mem_cons_of_mem _ ha, ha'⟩
    · rw [hst] at hw hc
      have ih := ih hw hc
      refine ⟨?_, ?_, ?_⟩
      · rw [hm, hst]; exact ih.mem.accStat _ _ _
      · rw [hm, hst]
        intro i hi
        rcases ih.stored i hi with hp | ⟨a, ha, ha'⟩
        · exact .inl hp
        · exact .inr ⟨a, List.mem_cons_of_mem _ ha, ha'⟩
      · rw [hm, hst]
        intro i hi
        obtain ⟨a, ha, ha'⟩ := ih.read i hi
        exact ⟨a, List.mem_cons_of_mem _ ha, ha'⟩
    · rw [hst] at hw hc
      have ih := ih hw hc
      cases t with
      | none => exact absurd rfl (hg n).1
      | some p =>
        refine ⟨?_, ?_, ?_⟩
        · rw [hm, hst]; exact ih.mem.relOut p _ (by simp)
        · rw [hm, hst]; exact ih.stored
        · rw [hm, hst]; exact ih.read
    · rw [hst] at hw hc
      have ih := ih hw hc
      cases t with
      | none => exact absurd rfl (hg n).2
      | some p =>
        refine ⟨?_, ?_, ?_⟩
        · rw [hm, hst]; exact ih.mem.acqOut p _
        · rw [hm, hst]; exact ih.stored
        · rw [hm, hst]; exact ih.read

/-- C77 refuted for every use in which the handler does not synchronise with the threads that push, however the threads
are scheduled and however many slots there are: while nobody has begun to destroy the stage and no push is under way, an
execution without a data race on the slots has not handled everything that was pushed.  So whoever waits until the item
it pushed last has been handled has a data race in its program. -/
theorem C77_last_refuted {b : Nat} (hb : 0 < b) {ls : List (Lbl α)} {m : State α} (h : Run b slots silent ls m)
    (hw : m.st.q.pushed.length < 2 ^ 64) (hc : m.st.closed = false) (hp : ∀ p, m.st.pend p = none)
    (hne : m.st.q.pushed ≠ []) : m.st.q.handled.length < m.st.q.pushed.length := by
  have hs := h.silent hb hw hc
  have hi := (h.stage.inv hb hw).1
  have h1 := hi.head
  have h2 := hi.tail
  have h3 := hi.le
  have hpos : 0 < m.st.q.pushed.length := List.length_pos_iff.2 hne
  refine Nat.lt_of_not_le fun hle => ?_
  rcases hs.stored (m.st.q.pushed.length - 1) (by omega) with ⟨p, x, hpx⟩ | ⟨a, ha, haw, hal, hat⟩
  · rw [hp p] at hpx
    cases hpx
  · obtain ⟨r, hr, hrw, hrl⟩ := hs.read (m.st.q.pushed.length - 1) (by omega)
    have := hs.mem.both r hr hrw (by rw [hrl]; simp) a ha haw (by rw [hal, hrl])
    omega

/-! ### A worker that starts late -/

/-- One thread does everything, and the worker does not get to run before the destructor has set `closed_`. -/
def late (p0 : Nat) : List (Lbl α) → State α → Lbl α → Prop := fun _ m l =>
  match l with
  | .begin p _ => p = p0
  | .store p => p = p0
  | .close p => p = p0
  | .ask p => p = p0
  | .work _ => m.st.closed = true
  | _ => True

/-- Thread `t` comes after all accesses. -/
def Knows (m : Mem Thr Loc Obj) (t : Thr) : Prop := ∀ a ∈ m.log, a.time ≤ m.clk t a.who

theorem Knows.conflict {m : Mem Thr Loc Obj} {t : Thr} (h : Knows m t) (loc : Loc) (w : Bool) : ¬ m.Conflict t loc w := by
  rintro ⟨a, ha, -, -, hlt⟩
  exact absurd (h a ha) (by omega)

theorem Knows.op {m : Mem Thr Loc Obj} {t : Thr} (h : Knows m t) (o : Op Loc Obj) : Knows (m.op t o) t := by
  have hle := fun u => m.op_clk_le t o t u
  intro a ha
  cases o with
  | acq o => exact Nat.le_trans (h a ha) (hle _)
  | rel o => exact h a ha
  | sto o => exact h a ha
  | acc l w i =>
    simp only [Mem.op, List.mem_cons] at ha
    rcases ha with rfl | ha
    · simp [Mem.op]
    · exact Nat.le_trans (h a ha) (hle _)

theorem Knows.races {m : Mem Thr Loc Obj} {t : Thr} (h : Knows m t) (R : Loc → Prop) (os : List (Op Loc Obj)) :
    ¬ m.Races R t os := by
  induction os generalizing m with
  | nil => exact fun h => h
  | cons o os ih =>
    cases o with
    | acq o => exact ih (h.op _)
    | rel o => exact ih (h.op _)
    | sto o => exact ih (h.op _)
    | acc l w i =>
      rintro (⟨_, hc⟩ | hr)
      · exact h.conflict l w hc
      · exact ih (h.op _) hr

theorem Knows.run {m : Mem Thr Loc Obj} {t : Thr} (h : Knows m t) (os : List (Op Loc Obj)) : Knows (m.run t os) t := by
  induction os generalizing m with
  | nil => exact h
  | cons o os ih => exact ih (h.op o)

/-- Operations of others that access nothing. -/
theorem Knows.other {m : Mem Thr Loc Obj} {t : Thr} (h : Knows m t) (v : Thr) (o : Op Loc Obj)
    (ho : ∀ l w i, o ≠ .acc l w i) : Knows (m.op v o) t := by
  intro a ha
  cases o with
  | acq o => exact Nat.le_trans (h a ha) (m.op_clk_le _ _ _ _)
  | rel o => exact h a ha
  | sto o => exact h a ha
  | acc l w i => exact absurd rfl (ho l w i)

/-- What holds in such executions. -/
structure Late (p0 : Nat) (m : State α) : Prop where
  ok : m.mem.Ok
  before : m.st.closed = false → m.st.q.pc = .outer ∧ ∀ a ∈ m.mem.log, a.who = some p0
  pend : m.st.closed = true → ∀ p, m.st.pend p = none
  sync : m.st.closed = true → ∀ a ∈ m.mem.log, a.who = none ∨ a.who = some p0 ∧ a.time ≤ m.mem.sync .closed (some p0)
  after : m.st.q.pc ≠ .outer → Knows m.mem none

theorem Late.knows {p0 : Nat} {m : State α} (h : Late p0 m) (hc : m.st.closed = false) : Knows m.mem (some p0) := by
  intro a ha
  have h1 := h.ok.log a ha
  rw [(h.before hc).2 a ha] at h1 ⊢
  exact h1

/-- The worker comes after everything when it has read `closed_`. -/
theorem Late.acquires {p0 : Nat} {m : State α} (h : Late p0 m) (hc : m.st.closed = true) :
    Knows (m.mem.op none (.acq .closed)) none := by
  intro a ha
  simp only [Mem.op, put_same]
  rcases h.sync hc a ha with hw | ⟨hw, ht⟩
  · have := h.ok.log a ha
    rw [hw] at this ⊢
    omega
  · rw [hw]
    omega

theorem Late.work {p0 : Nat} {m : State α} (h : Late p0 m) (hc : m.st.closed = true) :
    Knows (m.mem.run none (workOps m)) none ∧ ∀ R, ¬ m.mem.Races R none (workOps m) := by
  by_cases hpc : m.st.q.pc = .outer
  · simp only [workOps, hpc, hc, if_true, Mem.run, Mem.Races]
    exact ⟨h.acquires hc, fun _ h => h⟩
  · exact ⟨(h.after hpc).run _, fun R => (h.after hpc).races R _⟩

theorem run_closed (m : State α) (u : Thr) :
    ∀ os : List (Op Loc Obj), (∀ o ∈ os, o ≠ .rel .closed ∧ o ≠ .sto .closed) →
    ∀ mem : Mem Thr Loc Obj, (mem.run none os).sync .closed u = mem.sync .closed u
  | [], _, _ => rfl
  | o :: os, h, mem => by
    rw [Mem.run, run_closed m u os (fun o ho => h o (List.mem_cons_of_mem _ ho))]
    cases o with
    | acq o => rfl
    | acc l w i => rfl
    | rel o =>
      have : Obj.closed ≠ o := fun e => (h _ List.mem_cons_self).1 (by rw [e])
      simp only [Mem.op, put_ne _ _ this]
    | sto o =>
      have : Obj.closed ≠ o := fun e => (h _ List.mem_cons_self).2 (by rw [e])
      simp only [Mem.op, put_ne _ _ this]

theorem run_log_none : ∀ (os : List (Op Loc Obj)) (mem : Mem Thr Loc Obj),
    ∀ a ∈ (mem.run none os).log, a ∈ mem.log ∨ a.who = none
  | [], _, a, ha => .inl ha
  | o :: os, mem, a, ha => by
    rcases run_log_none os _ a ha with h | h
    · cases o with
      | acq o => exact .inl h
      | rel o => exact .inl h
      | sto o => exact .inl h
      | acc l w i =>
        simp only [Mem.op, List.mem_cons] at h
        rcases h with rfl | h
        · exact .inr rfl
        · exact .inl h
    · exact .inr h

theorem workOps_closed (m : State α) : ∀ o ∈ workOps m, o ≠ .rel .closed ∧ o ≠ .sto .closed := by
  unfold workOps
  intro o ho
  cases hpc : m.st.q.pc <;> simp only [hpc] at ho
  case outer => split at ho <;> simp_all
  all_goals simp at ho
  all_goals (first | (rcases ho with rfl | rfl <;> simp) | (subst ho; simp))

theorem Late.new (p0 b : Nat) : Late p0 (State.new b : State α) := by
  refine ⟨Mem.Ok.new, ?_, ?_, ?_, ?_⟩ <;> simp [State.new, Mem.new, Stage.new, Q.new]

theorem Run.late {b p0 : Nat} {R : Loc → Prop} {ls : List (Lbl α)} {m : State α} (h : Run b R (late p0) ls m) :
    Late p0 m := by
  induction h with
  | new => exact Late.new p0 b
  | step ls m m' l hr hg hs hn ih =>
    have hok : m'.mem.Ok := by rw [hs.2]; exact ih.ok.run _ _
    rcases hs.cases with ⟨p, x, rfl, h1, h2, hst, hm⟩ | ⟨p, i, x, rfl, h1, hst, hm⟩ | ⟨p, rfl, h1, h2, hst, hm⟩ |
      ⟨e, q, rfl, h1, hq, hst, hm⟩ | ⟨p, rfl, h1, hst, hm⟩ | ⟨rfl, h1, hst, hm⟩ | ⟨t, n, rfl, h1, hst, hm⟩ |
      ⟨t, n, rfl, h1, hst, hm⟩
    · have hpc := (ih.before h1).1
      have hlog := (ih.before h1).2
      refine ⟨hok, fun _ => ?_, ?_, ?_, ?_⟩
      · rw [hst, hm]; exact ⟨hpc, hlog⟩
      · rw [hst]; intro hc; rw [h1] at hc; cases hc
      · rw [hst]; intro hc; rw [h1] at hc; cases hc
      · rw [hst]; intro hc; exact absurd hpc hc
    · have hc : m.st.closed = false := by
        cases hc : m.st.closed with
        | false => rfl
        | true => have := ih.pend hc p; rw [h1] at this; cases this
      have hpc := (ih.before hc).1
      have hlog := (ih.before hc).2
      have hg : p = p0 := hg
      subst hg
      refine ⟨hok, fun _ => ?_, ?_, ?_, ?_⟩
      · rw [hst, hm]
        refine ⟨hpc, fun a ha => ?_⟩
        simp only [Mem.op, List.mem_cons] at ha
        rcases ha with rfl | ha
        · rfl
        · exact hlog a ha
      · rw [hst]; intro hc'; simp only [hc] at hc'; cases hc'
      · rw [hst]; intro hc'; simp only [hc] at hc'; cases hc'
      · rw [hst]; intro hc'; exact absurd hpc hc'
    · have hpc := (ih.before h1).1
      have hlog := (ih.before h1).2
      have hg : p = p0 := hg
      subst hg
      refine ⟨hok, ?_, ?_, ?_, ?_⟩
      · rw [hst]; intro hc; cases hc
      · rw [hst]; exact fun _ => h2
      · rw [hst, hm]
        intro _ a ha
        have ha : a ∈ m.mem.log := ha
        refine .inr ⟨hlog a ha, ?_⟩
        have h3 := ih.ok.log a ha
        rw [hlog a ha] at h3
        simp only [Mem.op, put_same]
        omega
      · rw [hst]; intro hc'; exact absurd hpc hc'
    · have hc : m.st.closed = true := hg
      refine ⟨hok, ?_, ?_, ?_, ?_⟩
      · rw [hst]; intro hc'; simp only [hc] at hc'; cases hc'
      · rw [hst]; exact fun _ => ih.pend hc
      · rw [hst, hm]
        intro _ a ha
        rcases run_log_none _ _ a ha with ha | ha
        · rw [run_closed m _ _ (workOps_closed m)]
          exact ih.sync hc a ha
        · exact .inl ha
      · rw [hm]
        exact fun _ => (ih.work hc).1
    · have hpc := (ih.before h1).1
      have hlog := (ih.before h1).2
      have hg : p = p0 := hg
      subst hg
      refine ⟨hok, fun _ => ?_, ?_, ?_, ?_⟩
      · rw [hst, hm]
        refine ⟨hpc, fun a ha => ?_⟩
        simp only [Mem.op, List.mem_cons] at ha
        rcases ha with rfl | ha
        · rfl
        · exact hlog a ha
      · rw [hst]; intro hc'; rw [h1] at hc'; cases hc'
      · rw [hst]; intro hc'; rw [h1] at hc'; cases hc'
      · rw [hst]; intro hc'; exact absurd hpc hc'
    · have hpc : m.st.q.pc ≠ .outer := by rw [h1]; simp
      have hc : m.st.closed = true := by
        cases hc : m.st.closed with
        | true => rfl
        | false => exact absurd (ih.before hc).1 hpc
      refine ⟨hok, ?_, ?_, ?_, ?_⟩
      · rw [hst]; intro hc'; rw [hc] at hc'; cases hc'
      · rw [hst]; exact ih.pend
      · rw [hst, hm]
        intro _ a ha
        simp only [Mem.op, List.mem_cons] at ha
        rcases ha with rfl | ha
        · exact .inl rfl
        · exact ih.sync hc a ha
      · rw [hm]; exact fun _ => (ih.after hpc).op _
    · refine ⟨hok, ?_, ?_, ?_, ?_⟩
      · rw [hst, hm]; exact ih.before
      · rw [hst]; exact ih.pend
      · rw [hst, hm]
        have : ∀ u, (m.mem.op t (.rel (.user n))).sync .closed u = m.mem.sync .closed u := fun u => by
          simp [Mem.op, put]
        intro hc a ha
        rw [this]
        exact ih.sync hc a ha
      · rw [hst, hm]; exact fun hpc => (ih.after hpc).other _ _ (by simp)
    · refine ⟨hok, ?_, ?_, ?_, ?_⟩
      · rw [hst, hm]; exact ih.before
      · rw [hst]; exact ih.pend
      · rw [hst, hm]; exact ih.sync
      · rw [hst, hm]; exact fun hpc => (ih.after hpc).other _ _ (by simp)

/-- C77 with happens-before, as far as it holds: if one thread makes all pushes and destroys the stage, and the worker does
not get to run before that, there is no data race, neither on the slots nor on the samples.  What is missing is every
other execution, see `C77_last_refuted`. -/
theorem C77_late_partial {b p0 : Nat} {R : Loc → Prop} {ls : List (Lbl α)} {m m' : State α} {l : Lbl α}
    (h : Run b R (late p0) ls m) (hl : late p0 ls m l) (hs : Step m l m') (S : Loc → Prop) : ¬ Race S m l := by
  have ih := h.late
  rcases hs.cases with ⟨p, x, rfl, h1, h2, hst, hm⟩ | ⟨p, i, x, rfl, h1, hst, hm⟩ | ⟨p, rfl, h1, h2, hst, hm⟩ |
    ⟨e, q, rfl, h1, hq, hst, hm⟩ | ⟨p, rfl, h1, hst, hm⟩ | ⟨rfl, h1, hst, hm⟩ | ⟨t, n, rfl, h1, hst, hm⟩ |
    ⟨t, n, rfl, h1, hst, hm⟩
  · exact fun h => h
  · have hc : m.st.closed = false := by
      cases hc : m.st.closed with
      | false => rfl
      | true => have := ih.pend hc p; rw [h1] at this; cases this
    have hl : p = p0 := hl
    subst hl
    exact (ih.knows hc).races S _
  · exact fun h => h
  · exact (ih.work hl).2 S
  · have hl : p = p0 := hl
    subst hl
    exact (ih.knows h1).races S _
  · exact (ih.after (by rw [h1]; simp)).races S _
  · exact fun h => h
  · exact fun h => h

end Verif.Pipeline.HB
