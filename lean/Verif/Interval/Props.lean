import Verif.Interval.Lemmas
/-! The properties of `interval_event`. -/
namespace Verif.Interval
open Verif

/-! ### An executable scheduler, for the examples -/

/-- The result of a step, if it is possible; the threads that call `stop()` are those below `m`. -/
def fire (m : Nat) (s : State) : Label → Option State
  | .build P => if s.period = none then some { s with period := some P } else none
  | .setPeriod P =>
    match s.period with
    | some _ => if s.destroyed = false then some { s with period := some P } else none
    | none => none
  | .work now =>
    if s.worker.out = false then
      match workerStep s now with
      | .ok s' => some s'
      | _ => none
    else none
  | .selfStop =>
    if s.worker = .calling ∧ s.stopped = false then some { s with flag := false, worker := .selfWait } else none
  | .notify (some k) =>
    if s.worker = .notify ∧ s.who k = .asleep ∧ s.destroyed = false then
      some { s with who := upd s.who k .waiting, worker := .ended } else none
  | .notify none =>
    if s.worker = .notify ∧ (∀ k, k < m → s.who k ≠ .asleep) ∧ s.destroyed = false then
      some { s with worker := .ended } else none
  | .begin k =>
    match s.period with
    | some _ =>
      if k < m ∧ s.destroyed = false ∧ s.who k = .idle ∧ s.stopped = false then
        some { s with who := upd s.who k .clearing } else none
    | none => none
  | .again k =>
    match s.period with
    | some _ => if s.destroyed = false ∧ s.who k = .idle ∧ s.stopped = true then some s else none
    | none => none
  | .clear k =>
    if s.who k = .clearing then some { s with flag := false, who := upd s.who k .waiting } else none
  | .look k =>
    if s.who k = .waiting then some { s with who := upd s.who k (if s.flag then .leaving else .asleep) }
    else none
  | .wake k => if s.who k = .asleep then some { s with who := upd s.who k .waiting } else none
  | .leave k =>
    if s.who k = .leaving then some { s with stopped := true, who := upd s.who k .idle } else none
  | .destroy =>
    if s.stopped = true ∧ (∀ k, k < m → s.who k = .idle) ∧ s.destroyed = false then
      some { s with destroyed := true } else none

theorem fire_step {m : Nat} {s s' : State} {l : Label} (hi : ∀ k, m ≤ k → s.who k = .idle)
    (h : fire m s l = some s') : Step s l (.ok s') ∧ ∀ k, m ≤ k → s'.who k = .idle := by
  have keep : ∀ (k : Nat) (v : SPc), (s.who k ≠ .idle ∨ k < m) → ∀ j, m ≤ j → upd s.who k v j = .idle := by
    intro k v hk j hj
    have hjk : j ≠ k := by
      intro e
      subst e
      rcases hk with hk | hk
      · exact hk (hi j hj)
      · omega
    rw [upd_other _ _ hjk]
    exact hi j hj
  have all : ∀ {Q : SPc → Prop}, Q .idle → (∀ k, k < m → Q (s.who k)) → ∀ k, Q (s.who k) := by
    intro Q h0 h1 k
    by_cases hk : m ≤ k
    · rw [hi k hk]
      exact h0
    · exact h1 k (by omega)
  cases l with
  | build P =>
    simp only [fire] at h
    split at h
    · cases h
      exact ⟨.build s P ‹_›, hi⟩
    · cases h
  | setPeriod P =>
    simp only [fire] at h
    split at h
    · split at h
      · cases h
        exact ⟨.setPeriod s P _ ‹_› ‹_›, hi⟩
      · cases h
    · cases h
  | work now =>
    simp only [fire] at h
    split at h
    · rename_i ho
      split at h
      · rename_i s1 hw
        cases h
        have := Step.work s now ho
        rw [hw] at this
        refine ⟨this, ?_⟩
        rcases workerStep_cases hw with ⟨_, rfl⟩ | ⟨_, rfl⟩ | ⟨_, _, rfl⟩ | ⟨_, _, _, _, _, rfl⟩ |
          ⟨_, _, _, _, _, rfl⟩ | ⟨_, rfl⟩ | ⟨_, _, rfl⟩ | ⟨_, _, rfl⟩ | ⟨_, _, rfl⟩ | ⟨_, rfl⟩ <;> exact hi
      · cases h
    · cases h
  | selfStop =>
    simp only [fire] at h
    split at h
    · rename_i hc
      cases h
      exact ⟨.selfStop s hc.1 hc.2, hi⟩
    · cases h
  | notify k =>
    cases k with
    | none =>
      simp only [fire] at h
      split at h
      · rename_i hc
        cases h
        have := Step.notifyNone s hc.1 (all (Q := fun v => v ≠ .asleep) (by simp) hc.2.1)
        rw [if_neg (by simp [hc.2.2])] at this
        exact ⟨this, hi⟩
      · cases h
    | some k =>
      simp only [fire] at h
      split at h
      · rename_i hc
        cases h
        have := Step.notify s k hc.1 hc.2.1
        rw [if_neg (by simp [hc.2.2])] at this
        exact ⟨this, keep k _ (.inl (by simp [hc.2.1]))⟩
      · cases h
  | «begin» k =>
    simp only [fire] at h
    split at h
    · split at h
      · rename_i hP hc
        cases h
        exact ⟨.begin s k _ hP hc.2.1 hc.2.2.1 hc.2.2.2, keep k _ (.inr hc.1)⟩
      · cases h
    · cases h
  | again k =>
    simp only [fire] at h
    split at h
    · split at h
      · rename_i hP hc
        cases h
        exact ⟨.again s k _ hP hc.1 hc.2.1 hc.2.2, hi⟩
      · cases h
    · cases h
  | clear k =>
    simp only [fire] at h
    split at h
    · rename_i hc
      cases h
      exact ⟨.clear s k hc, keep k _ (.inl (by simp [hc]))⟩
    · cases h
  | look k =>
    simp only [fire] at h
    split at h
    · rename_i hc
      cases h
      exact ⟨.look s k hc, keep k _ (.inl (by simp [hc]))⟩
    · cases h
  | wake k =>
    simp only [fire] at h
    split at h
    · rename_i hc
      cases h
      exact ⟨.wake s k hc, keep k _ (.inl (by simp [hc]))⟩
    · cases h
  | leave k =>
    simp only [fire] at h
    split at h
    · rename_i hc
      cases h
      exact ⟨.leave s k hc, keep k _ (.inl (by simp [hc]))⟩
    · cases h
  | destroy =>
    simp only [fire] at h
    split at h
    · rename_i hc
      cases h
      exact ⟨.destroy s hc.1 (all (Q := fun v => v = .idle) rfl hc.2.1) hc.2.2, hi⟩
    · cases h

/-- Follow a schedule whose steps satisfy `g`. -/
def follow (g : State → Label → Bool) (m : Nat) : State → List Label → Option State
  | s, [] => some s
  | s, l :: ls =>
    if g s l then
      match fire m s l with
      | some s' => follow g m s' ls
      | none => none
    else none

theorem follow_run {G : State → Label → Prop} {g : State → Label → Bool} {m : Nat}
    (hg : ∀ s l, (∀ k, m ≤ k → s.who k = .idle) → g s l = true → G s l) (ls : List Label) :
    ∀ {s s' : State}, (∀ k, m ≤ k → s.who k = .idle) → follow g m s ls = some s' →
      Run G s ls s' ∧ ∀ k, m ≤ k → s'.who k = .idle := by
  induction ls with
  | nil => intro s s' hi h; cases h; exact ⟨.nil _, hi⟩
  | cons l ls ih =>
    intro s s' hi h
    rw [follow] at h
    split at h
    · rename_i hgl
      split at h
      · rename_i s1 h1
        obtain ⟨hs, hi'⟩ := fire_step hi h1
        have := ih hi' h
        exact ⟨.cons s s1 s' l ls (hg s l hi hgl) hs this.1, this.2⟩
      · cases h
    · cases h

/-- Two schedules, one after the other, as a witness. -/
theorem follow_ex {G : State → Label → Prop} {g : State → Label → Bool} (m : Nat)
    (hg : ∀ s l, (∀ k, m ≤ k → s.who k = .idle) → g s l = true → G s l)
    {P : State → State → Prop} [∀ s s', Decidable (P s s')] (ls ls' : List Label)
    (h : (follow g m State.new ls).any (fun s => (follow g m s ls').any fun s' => decide (P s s')) = true) :
    ∃ s s', Reach G s ∧ Run G s ls' s' ∧ P s s' := by
  cases hf : follow g m State.new ls with
  | none => rw [hf] at h; cases h
  | some s =>
    rw [hf] at h
    simp only [Option.any_some] at h
    cases hf' : follow g m s ls' with
    | none => rw [hf'] at h; cases h
    | some s' =>
      rw [hf'] at h
      have hr := follow_run hg ls (fun _ _ => rfl) hf
      exact ⟨s, s', hr.1.reach .new, (follow_run hg ls' hr.2 hf').1, by simpa using h⟩

/-- No restriction on the schedule. -/
def gAny : State → Label → Bool := fun _ _ => true

theorem gAny_ok (m : Nat) : ∀ s l, (∀ k, m ≤ k → s.who k = .idle) → gAny s l = true → anyStep s l :=
  fun _ _ _ _ => trivial

/-- `orderly`, with threads below `m`. -/
def gOrderly (m : Nat) : State → Label → Bool := fun s l =>
  match l with
  | .begin _ => (List.range m).all fun k => s.who k = .idle
  | .selfStop => false
  | _ => true

theorem gOrderly_ok (m : Nat) :
    ∀ s l, (∀ k, m ≤ k → s.who k = .idle) → gOrderly m s l = true → orderly s l := by
  intro s l hi h
  cases l with
  | «begin» k =>
    intro j
    by_cases hj : m ≤ j
    · exact hi j hj
    · simp only [gOrderly, List.all_eq_true, List.mem_range, decide_eq_true_eq] at h
      exact h j (by omega)
  | selfStop => cases h
  | _ => trivial

/-- `constant P`. -/
def gConstant (P : Int) : State → Label → Bool := fun _ l =>
  match l with
  | .build Q => Q = P
  | .setPeriod _ => false
  | _ => true

theorem gConstant_ok (P : Int) (m : Nat) :
    ∀ s l, (∀ k, m ≤ k → s.who k = .idle) → gConstant P s l = true → constant P s l := by
  intro s l _ h
  cases l with
  | build Q => simpa [gConstant, constant] using h
  | setPeriod Q => cases h
  | _ => trivial

namespace Ex

/-- The worker reaches its loop at time 0. -/
def up (P : Int) : List Label := [.build P, .work 0, .work 0]

/-- One round of the loop, with a call. -/
def round (now : Int) : List Label := [.work 0, .work now, .work 0, .work 0]

/-- Thread `k` stops the worker, which stands before the loop condition. -/
def stop (k : Nat) : List Label :=
  [.begin k, .clear k, .look k, .work 0, .notify (some k), .look k, .leave k]

end Ex

/-! ### C61 -/

/-- C61: when a call of `stop()` returns - after waiting or at once, from any thread, with any number of
threads calling it - the worker is out of its loop, not inside the function, and whatever happens
afterwards the function is not called again. -/
theorem C61_no_call_after_stop {s s1 s2 : State} (h : Reach anyStep s) {k : Nat}
    (hs : Step s (.leave k) (.ok s1) ∨ Step s (.again k) (.ok s1)) {ls : List Label}
    (hr : Run anyStep s1 ls s2) :
    s2.calls = s1.calls ∧ (s1.worker = .notify ∨ s1.worker = .ended) ∧
    (s2.worker = .notify ∨ s2.worker = .ended) := by
  have hst : s1.stopped = true := by
    rcases hs with hs | hs
    · generalize hrr : Res.ok s1 = r at hs
      cases hs
      cases hrr
      rfl
    · generalize hrr : Res.ok s1 = r at hs
      cases hs
      cases hrr
      assumption
  have h1 : Reach anyStep s1 := by
    rcases hs with hs | hs
    · exact .step s s1 _ h trivial hs
    · exact .step s s1 _ h trivial hs
  have ho := h1.inv.stopped hst
  obtain ⟨ho2, hc, _⟩ := hr.out ho
  have out_iff : ∀ w : WPc, w.out = true → w = .notify ∨ w = .ended := by
    intro w hw
    cases w <;> simp_all [WPc.out]
  exact ⟨hc, out_iff _ ho, out_iff _ ho2⟩

/-- After two calls thread 0 stops the worker, and thread 1 calls `stop()` again. -/
example : ∃ s s' : State, Reach anyStep s ∧ Run anyStep s [.leave 0, .again 1] s' ∧
    (s'.calls = [100, 100000200] ∧ s'.worker = .ended) :=
  follow_ex 2 (gAny_ok 2) (Ex.up 100 ++ Ex.round 100 ++ Ex.round 100000200 ++ [.begin 0, .clear 0, .look 0,
    .work 0, .notify (some 0), .look 0]) _ (by decide +kernel)

/-! ### C62 -/

/-- The steps of the worker. -/
def Label.ofWorker : Label → Bool
  | .work _ | .notify _ => true
  | _ => false

/-- A bound on the worker's steps once the flag is lowered. -/
def WPc.left : WPc → Nat
  | .nap => 4
  | .start => 3
  | .test => 2
  | .check => 5
  | .calling => 4
  | .pause => 3
  | .notify => 1
  | _ => 0

/-- Thread `k` is waiting. -/
def Waits (s : State) (k : Nat) : Prop := s.who k = .waiting ∨ s.who k = .asleep ∨ s.who k = .leaving

theorem Step.waits {s s' : State} {l : Label} {k : Nat} (hi : Inv s) (h2 : Inv2 s)
    (hs : Step s l (.ok s')) (hl : l ≠ .leave k) (hg : orderly s l) (hk : Waits s k) :
    Waits s' k ∧ (if l.ofWorker then 1 else 0) + s'.worker.left ≤ s.worker.left := by
  have hne : s.who k ≠ .idle := by rcases hk with h | h | h <;> simp [h]
  have hnc : s.who k ≠ .clearing := by rcases hk with h | h | h <;> simp [h]
  have other : ∀ (j : Nat) (v : SPc), j ≠ k → Waits { s with who := upd s.who j v } k := by
    intro j v hj
    simp only [Waits, upd_other _ _ (fun e : k = j => hj e.symm)]
    exact hk
  generalize hr : Res.ok s' = r at hs
  cases hs with
  | build P hP => cases hr; exact ⟨hk, by simp [Label.ofWorker]⟩
  | setPeriod P Q hP hd => cases hr; exact ⟨hk, by simp [Label.ofWorker]⟩
  | work now ho =>
    have hf : s.flag = false := by
      cases hf : s.flag with
      | false => rfl
      | true =>
        rcases hk with hk | hk | hk
        · rw [hi.seen k (.inl hk) hf] at ho; cases ho
        · rw [hi.seen k (.inr hk) hf] at ho; cases ho
        · rw [hi.leaving k hk] at ho; cases ho
    rcases workerStep_cases hr.symm with ⟨hw, rfl⟩ | ⟨hw, rfl⟩ | ⟨hw, hd, rfl⟩ | ⟨P, hw, hd, hP, _, rfl⟩ |
      ⟨P, hw, hd, hP, _, rfl⟩ | ⟨hw, rfl⟩ | ⟨hw, hd, rfl⟩ | ⟨hw, _, rfl⟩ | ⟨hw, _, rfl⟩ | ⟨hw, rfl⟩
    all_goals first
      | exact absurd hw h2.noSelf.1
      | exact absurd hw h2.noSelf.2
      | exact ⟨hk, by simp [Label.ofWorker, WPc.left, hw, hf]⟩
  | selfStop hw hns => exact absurd hg (by simp [orderly])
  | notify j hw hj =>
    split at hr
    · cases hr
    · cases hr
      have : j = k := h2.one j k (by simp [hj]) hne
      subst this
      exact ⟨.inl (upd_same _ _ _), by simp [Label.ofWorker, WPc.left, hw]⟩
  | notifyNone hw hk' =>
    split at hr
    · cases hr
    · cases hr
      exact ⟨hk, by simp [Label.ofWorker, WPc.left, hw]⟩
  | «begin» j Q hP hd hj hst => exact absurd (hg k) hne
  | again j Q hP hd hj hst => cases hr; exact ⟨hk, by simp [Label.ofWorker]⟩
  | clear j hj =>
    have : j = k := h2.one j k (by simp [hj]) hne
    subst this
    exact absurd hj hnc
  | look j hj =>
    have : j = k := h2.one j k (by simp [hj]) hne
    subst this
    cases hr
    refine ⟨?_, by simp [Label.ofWorker]⟩
    simp only [Waits, upd_same]
    cases s.flag <;> simp
  | wake j hj =>
    have : j = k := h2.one j k (by simp [hj]) hne
    subst this
    cases hr
    exact ⟨.inl (upd_same _ _ _), by simp [Label.ofWorker]⟩
  | leave j hj =>
    have : j = k := h2.one j k (by simp [hj]) hne
    subst this
    exact absurd rfl hl
  | destroy hst hid hd => exact absurd (hid k) hne

/-- C62, when calls of `stop()` do not overlap: from the moment thread `k` has lowered the flag until its
`stop()` returns the worker makes at most five steps, in every schedule; the worker can always make its
next step (unless the time arithmetic overflows); and when it has ended the next two steps of thread `k`
return from `stop()`, with no wake-up lost.  What is missing are overlapping calls, see
`C62_overlap_refuted`. -/
theorem C62_returns_partial {s s' : State} (h : Reach orderly s) {k : Nat}
    (hk : s.who k = .waiting ∨ s.who k = .asleep) {ls : List Label} (hr : Run orderly s ls s')
    (hl : ∀ l ∈ ls, l ≠ .leave k) :
    (ls.filter Label.ofWorker).length ≤ 5 ∧ Waits s' k ∧
    (s'.worker ≠ .ended → ∀ now, (∃ l s'', l.ofWorker = true ∧ Step s' l (.ok s'')) ∨
      ∃ P, s'.worker = .check ∧ s'.period = some P ∧
        ¬ (inRep (now - s'.last) ∧ inRep (P * 1000000) ∧ inRep (s'.last + P * 1000000))) ∧
    (s'.worker = .ended → (∃ s1, Step s' (.look k) (.ok s1) ∧ s1.who k = .leaving) ∨
      ∃ s1, Step s' (.leave k) (.ok s1) ∧ s1.stopped = true) := by
  have key : ∀ {s s' : State} {ls : List Label}, Run orderly s ls s' → Reach orderly s → Waits s k →
      (∀ l ∈ ls, l ≠ .leave k) →
      Reach orderly s' ∧ Waits s' k ∧ (ls.filter Label.ofWorker).length + s'.worker.left ≤ s.worker.left := by
    intro s s' ls hr
    induction hr with
    | nil s => exact fun h hk _ => ⟨h, hk, by simp⟩
    | cons s s1 s2 l ls hg hs _ ih =>
      intro h hk hl
      obtain ⟨hw, hm⟩ := hs.waits h.inv h.inv2 (hl l (by simp)) hg hk
      obtain ⟨h1, h2, h3⟩ := ih (.step s s1 l h hg hs) hw fun l' hl' => hl l' (by simp [hl'])
      refine ⟨h1, h2, ?_⟩
      rw [List.filter_cons]
      cases hlw : l.ofWorker with
      | true =>
        simp only [hlw, if_true, List.length_cons] at hm ⊢
        omega
      | false =>
        simp only [hlw, Bool.false_eq_true, if_false] at hm ⊢
        omega
  obtain ⟨h', hw, hm⟩ := key hr h (by rcases hk with hk | hk <;> simp [Waits, hk]) hl
  have hi := h'.inv
  have h2 := h'.inv2
  have hne : s'.who k ≠ .idle := by rcases hw with h | h | h <;> simp [h]
  have hst : s'.stopped = false := h2.fresh k hne
  have hd : s'.destroyed = false := by
    cases hd : s'.destroyed with
    | false => rfl
    | true => rw [(hi.gone hd).1] at hst; cases hst
  refine ⟨?_, hw, fun hend now => ?_, fun hend => ?_⟩
  · have : s.worker.left ≤ 5 := by cases s.worker <;> simp [WPc.left]
    omega
  · obtain ⟨P, hP⟩ := Option.ne_none_iff_exists'.1 (hi.built k hne)
    cases hwk : s'.worker with
    | nap =>
      exact .inl ⟨.work now, _, rfl, by have := Step.work s' now (by simp [hwk, WPc.out]); simp only [workerStep, hwk] at this; exact this⟩
    | start =>
      exact .inl ⟨.work now, _, rfl, by have := Step.work s' now (by simp [hwk, WPc.out]); simp only [workerStep, hwk] at this; exact this⟩
    | test =>
      exact .inl ⟨.work now, _, rfl, by have := Step.work s' now (by simp [hwk, WPc.out]); simp only [workerStep, hwk, hd, Bool.false_eq_true, if_false] at this; exact this⟩
    | calling =>
      exact .inl ⟨.work now, _, rfl, by have := Step.work s' now (by simp [hwk, WPc.out]); simp only [workerStep, hwk] at this; exact this⟩
    | pause =>
      exact .inl ⟨.work now, _, rfl, by have := Step.work s' now (by simp [hwk, WPc.out]); simp only [workerStep, hwk, hd, hP, Bool.false_eq_true, if_false] at this; exact this⟩
    | selfWait => exact absurd hwk h2.noSelf.1
    | selfAsleep => exact absurd hwk h2.noSelf.2
    | ended => exact absurd hwk hend
    | notify =>
      by_cases hs : ∃ j, s'.who j = .asleep
      · obtain ⟨j, hj⟩ := hs
        have := Step.notify s' j hwk hj
        rw [if_neg (by simp [hd])] at this
        exact .inl ⟨_, _, rfl, this⟩
      · have := Step.notifyNone s' hwk (fun j hj => hs ⟨j, hj⟩)
        rw [if_neg (by simp [hd])] at this
        exact .inl ⟨_, _, rfl, this⟩
    | check =>
      by_cases hov : inRep (now - s'.last) ∧ inRep (P * 1000000) ∧ inRep (s'.last + P * 1000000)
      · have := Step.work s' now (by simp [hwk, WPc.out])
        simp only [workerStep, hwk, hd, hP, Bool.false_eq_true, if_false, check, advance, if_pos hov.1,
          if_pos hov.2, Res.ok_bind, Res.pure_eq] at this
        split at this
        · exact .inl ⟨_, _, rfl, this⟩
        · exact .inl ⟨_, _, rfl, this⟩
      · exact .inr ⟨P, rfl, hP, hov⟩
  · have hf := h2.outFlag (by rw [hend]; rfl)
    rcases hw with hw | hw | hw
    · refine .inl ⟨_, Step.look s' k hw, ?_⟩
      simp [upd_same, hf]
    · exact absurd hend (h2.notLost k hw)
    · exact .inr ⟨_, Step.leave s' k hw, rfl⟩

/-- The worker is inside the function when the flag is lowered. -/
example : ∃ s s' : State, Reach orderly s ∧ Run orderly s ([.look 0] ++ List.replicate 3 (.work 0) ++
    [.notify (some 0)]) s' ∧ (s.who 0 = .waiting ∧ s'.worker = .ended) :=
  follow_ex 1 (gOrderly_ok 1) (Ex.up 100 ++ [.work 0, .work 100, .begin 0, .clear 0]) _ (by decide +kernel)

/-- C62, second half: once a `stop()` has returned, every later call finds `stop_` true and returns
without waiting. -/
theorem C62_again {s s1 s2 : State} (h : Reach anyStep s) {k : Nat} (hs : Step s (.leave k) (.ok s1))
    {ls : List Label} (hr : Run anyStep s1 ls s2) (hd : s2.destroyed = false) {j : Nat}
    (hj : s2.who j = .idle) :
    (∀ r, ¬ Step s2 (.begin j) r) ∧ ((∃ P, s2.period = some P) → Step s2 (.again j) (.ok s2)) := by
  have h1 : Reach anyStep s1 := .step s s1 _ h trivial hs
  have hst : s1.stopped = true := by
    generalize hrr : Res.ok s1 = r at hs
    cases hs
    cases hrr
    rfl
  have hst2 := (hr.out (h1.inv.stopped hst)).2.2 hst
  refine ⟨fun r hb => ?_, fun ⟨P, hP⟩ => .again s2 j P hP hd hj hst2⟩
  cases hb with
  | «begin» _ Q _ _ _ hf =>
    rw [hst2] at hf
    cases hf

example : ∃ s s' : State, Reach anyStep s ∧ Run anyStep s [.leave 0] s' ∧ (s.who 0 = .leaving ∧
    s'.destroyed = false ∧ s'.who 1 = .idle ∧ s'.period = some 100) :=
  follow_ex 2 (gAny_ok 2) (Ex.up 100 ++ [.begin 0, .clear 0, .look 0,
    .work 0, .notify (some 0), .look 0]) _ (by decide +kernel)

theorem stuck {s s' : State} {ls : List Label} (hr : Run anyStep s ls s') (hf : s.flag = false)
    (hw : s.worker = .ended) {k : Nat} (hk : s.who k = .waiting ∨ s.who k = .asleep) :
    s'.who k = .waiting ∨ s'.who k = .asleep := by
  induction hr with
  | nil => exact hk
  | cons s s1 s2 l ls _ hs _ ih =>
    have other : ∀ (j : Nat) (v : SPc), j ≠ k →
        upd s.who j v k = .waiting ∨ upd s.who j v k = .asleep := by
      intro j v hj
      rw [upd_other _ _ (fun e : k = j => hj e.symm)]
      exact hk
    have ne : ∀ (j : Nat) (v : SPc), s.who j = v → v ≠ .waiting → v ≠ .asleep → j ≠ k := by
      intro j v hv h1 h2 e
      subst e
      rw [hv] at hk
      rcases hk with hk | hk
      · exact h1 hk
      · exact h2 hk
    generalize hrr : Res.ok s1 = r at hs
    cases hs with
    | work now ho => rw [hw] at ho; cases ho
    | selfStop h _ => rw [hw] at h; cases h
    | notify j h _ => rw [hw] at h; cases h
    | notifyNone h _ => rw [hw] at h; cases h
    | «begin» j Q hP hd hj hst => cases hrr; exact ih hf hw (other j _ (ne j _ hj (by simp) (by simp)))
    | clear j hj => cases hrr; exact ih rfl hw (other j _ (ne j _ hj (by simp) (by simp)))
    | look j hj =>
      cases hrr
      refine ih hf hw ?_
      by_cases hjk : j = k
      · subst hjk
        simp [upd_same, hf]
      · exact other j _ hjk
    | wake j hj =>
      cases hrr
      refine ih hf hw ?_
      by_cases hjk : j = k
      · subst hjk
        simp [upd_same]
      · exact other j _ hjk
    | leave j hj => cases hrr; exact ih hf hw (other j _ (ne j _ hj (by simp) (by simp)))
    | _ => cases hrr; exact ih hf hw hk

/-- C62 refuted for overlapping calls: thread 1 has found `stop_` false, and lowers the flag after the
worker has ended; its `stop()` never returns. -/
theorem C62_overlap_refuted : ∃ s, Reach anyStep s ∧ s.who 1 = .asleep ∧ s.worker = .ended ∧
    s.stopped = true ∧ ∀ ls s', Run anyStep s ls s' → s'.who 1 = .waiting ∨ s'.who 1 = .asleep := by
  obtain ⟨s, s', h1, h2, h3, h4, h5, h6⟩ : ∃ s s' : State, Reach anyStep s ∧
      Run anyStep s [.clear 1, .look 1] s' ∧
      (s'.who 1 = .asleep ∧ s'.worker = .ended ∧ s'.stopped = true ∧ s'.flag = false) :=
    follow_ex 2 (gAny_ok 2) (Ex.up 100 ++ [.begin 1] ++ Ex.stop 0) _ (by decide +kernel)
  exact ⟨s', h2.reach h1, h3, h4, h5, fun ls s2 hr => stuck hr h6 h4 (.inr h3)⟩

/-! ### C63 -/

/-- What is known of the time. -/
structure Timed (P : Int) (s : State) : Prop where
  before : s.worker = .nap ∨ s.worker = .start → s.calls = []
  sched : s.worker ≠ .nap → s.worker ≠ .start → s.last = s.t0 + s.calls.length * (P * 1000000)
  late : ∀ (i : Nat) (t : Int), s.calls[i]? = some t → s.t0 + i * (P * 1000000) + P ≤ t
  period : ∀ Q, s.period = some Q → Q = P

theorem Timed.keep {P : Int} {s s' : State} (h : Timed P s) (hc : s'.calls = s.calls) (hl : s'.last = s.last)
    (ht : s'.t0 = s.t0) (hp : ∀ Q, s'.period = some Q → Q = P)
    (hw : (s'.worker = .nap ∨ s'.worker = .start ↔ s.worker = .nap ∨ s.worker = .start)) : Timed P s' := by
  refine ⟨fun h' => hc.trans (h.before (hw.1 h')), fun h1 h2 => ?_, ?_, hp⟩
  · rw [hl, ht, hc]
    refine h.sched (fun e => ?_) (fun e => ?_)
    · rcases hw.2 (.inl e) with h | h
      · exact h1 h
      · exact h2 h
    · rcases hw.2 (.inr e) with h | h
      · exact h1 h
      · exact h2 h
  · rw [hc, ht]
    exact h.late

theorem Reach.timed {P : Int} {s : State} (h : Reach (constant P) s) : Timed P s := by
  induction h with
  | new => constructor <;> simp [State.new]
  | step s s' l _ hg hs ih =>
    generalize hr : Res.ok s' = r at hs
    cases hs with
    | build Q hQ =>
      cases hr
      refine ih.keep rfl rfl rfl (fun Q' h => ?_) Iff.rfl
      cases h
      exact hg
    | setPeriod Q Q' hQ hd => exact absurd hg (by simp [constant])
    | work now ho =>
      rcases workerStep_cases hr.symm with ⟨hw, rfl⟩ | ⟨hw, rfl⟩ | ⟨hw, hd, rfl⟩ | ⟨Q, hw, hd, hQ, hge, rfl⟩ |
        ⟨Q, hw, hd, hQ, _, rfl⟩ | ⟨hw, rfl⟩ | ⟨hw, hd, rfl⟩ | ⟨hw, _, rfl⟩ | ⟨hw, _, rfl⟩ | ⟨hw, rfl⟩
      · exact ih.keep rfl rfl rfl ih.period (by simp [hw])
      · have hc := ih.before (.inr hw)
        refine ⟨fun _ => hc, fun _ _ => ?_, ?_, ih.period⟩
        · simp [hc]
        · simp [hc]
      · refine ih.keep rfl rfl rfl ih.period ?_
        cases s.flag <;> simp [hw]
      · have hQP := ih.period Q hQ
        subst hQP
        have hsch := ih.sched (by simp [hw]) (by simp [hw])
        refine ⟨by simp, fun _ _ => ?_, fun i t hi => ?_, ih.period⟩
        · simp only [List.length_append, List.length_singleton]
          rw [hsch]
          have : ((s.calls.length + 1 : Nat) : Int) = (s.calls.length : Int) + 1 := by simp
          rw [this, Int.add_mul, Int.one_mul, Int.add_assoc]
        · by_cases hlt : i < s.calls.length
          · simp only [List.getElem?_append_left hlt] at hi
            exact ih.late i t hi
          · have hil : i = s.calls.length := by
              have := (List.getElem?_eq_some_iff.1 hi).1
              simp only [List.length_append, List.length_singleton] at this
              omega
            subst hil
            simp only [List.getElem?_concat_length, Option.some.injEq] at hi
            subst hi
            simp only
            rw [← hsch]
            omega
      · exact ih.keep rfl rfl rfl ih.period (by simp [hw])
      · exact ih.keep rfl rfl rfl ih.period (by simp [hw])
      · exact ih.keep rfl rfl rfl ih.period (by simp [hw])
      · exact ih.keep rfl rfl rfl ih.period (by simp [hw])
      · exact ih.keep rfl rfl rfl ih.period (by simp [hw])
      · exact ih.keep rfl rfl rfl ih.period (by simp [hw])
    | selfStop hw hns => cases hr; exact ih.keep rfl rfl rfl ih.period (by simp [hw])
    | notify j hw hj =>
      split at hr
      · cases hr
      · cases hr
        exact ih.keep rfl rfl rfl ih.period (by simp [hw])
    | notifyNone hw hk' =>
      split at hr
      · cases hr
      · cases hr
        exact ih.keep rfl rfl rfl ih.period (by simp [hw])
    | _ => cases hr; exact ih.keep rfl rfl rfl ih.period Iff.rfl

/-- C63 (partial: while the 64-bit nanosecond arithmetic does not overflow, see `C63_undefined_iff`): for a constant period of `P ≥ 0` milliseconds and any readings of the clock, the `(n+1)`-th call
is decided at a reading not less than `n * P` milliseconds after the first one. -/
theorem C63_rate_limited_partial {P : Int} (hP : 0 ≤ P) {s : State} (h : Reach (constant P) s) {n : Nat} {t : Int}
    (ht : s.calls[n]? = some t) : s.t0 + n * (P * 1000000) ≤ t := by
  have := h.timed.late n t ht
  omega

/-- Four calls, the second and third late. -/
example : ∃ s s' : State, Reach (constant 100) s ∧ Run (constant 100) s (Ex.round 350000000) s' ∧
    s'.calls = [100, 350000000, 350000000, 350000000] :=
  follow_ex 1 (gConstant_ok 100 1) (Ex.up 100 ++ Ex.round 100 ++ Ex.round 350000000 ++ Ex.round 350000000) _
    (by decide +kernel)

/-- C63, where it is defined: a check is undefined exactly if the time since the last scheduled instant, the period in
nanoseconds or the next instant does not fit into 64 bits, the latter two only if the function is due. -/
theorem C63_undefined_iff {s : State} {P : Int} (hw : s.worker = .check) (hP : s.period = some P)
    (hd : s.destroyed = false) (now : Int) :
    Step s (.work now) .ub ↔
      (now - s.last < -9223372036854775808 ∨ 9223372036854775807 < now - s.last) ∨
      (P ≤ now - s.last ∧ (P * 1000000 < -9223372036854775808 ∨ 9223372036854775807 < P * 1000000 ∨
        s.last + P * 1000000 < -9223372036854775808 ∨ 9223372036854775807 < s.last + P * 1000000)) := by
  have hstep : Step s (.work now) .ub ↔ workerStep s now = .ub := by
    constructor
    · intro h
      generalize (Res.ub : Res State) = r at h
      cases h with
      | work _ _ => rfl
    · intro h
      have := Step.work s now (by simp [hw, WPc.out])
      rwa [h] at this
  rw [hstep]
  simp only [workerStep, hw, hd, hP, Bool.false_eq_true, if_false, check, advance]
  by_cases h1 : inRep (now - s.last)
  · rw [if_pos h1]
    simp only [inRep] at h1
    by_cases h2 : now - s.last ≥ P
    · rw [if_pos h2]
      by_cases h3 : inRep (P * 1000000) ∧ inRep (s.last + P * 1000000)
      · rw [if_pos h3]
        simp only [inRep] at h3
        simp only [Res.ok_bind, Res.pure_eq, reduceCtorEq, false_iff]
        omega
      · rw [if_neg h3]
        simp only [inRep] at h3
        simp only [Res.ub_bind, true_iff]
        omega
    · rw [if_neg h2]
      simp only [Res.pure_eq, reduceCtorEq, false_iff]
      omega
  · rw [if_neg h1]
    simp only [inRep] at h1
    simp only [true_iff]
    omega

/-- A clock that jumps from the last instant the type can hold: the check is undefined. -/
example : Step { State.new with worker := .check, period := some 5, last := 1 } (.work (-9223372036854775808)) .ub :=
  (C63_undefined_iff (P := 5) rfl rfl rfl _).2 (.inl (.inl (by decide)))

/-- C63, no drift and catching up (partial as above): after `n` calls the next check calls the function, once, if and only
if the clock reads at least `P` nanoseconds past `n * P` milliseconds after the first reading, however
late the earlier calls were. -/
theorem C63_catches_up_partial {P : Int} {s s' : State} (h : Reach (constant P) s) (hw : s.worker = .check)
    {now : Int} (hs : Step s (.work now) (.ok s')) :
    (s.t0 + s.calls.length * (P * 1000000) + P ≤ now → s'.calls = s.calls ++ [now] ∧ s'.worker = .calling) ∧
    (now < s.t0 + s.calls.length * (P * 1000000) + P → s'.calls = s.calls ∧ s'.worker = .pause) := by
  have ht := h.timed
  have hsch := ht.sched (by simp [hw]) (by simp [hw])
  generalize hr : Res.ok s' = r at hs
  cases hs with
  | work _ ho =>
    rcases workerStep_cases hr.symm with ⟨hx, _⟩ | ⟨hx, _⟩ | ⟨hx, _⟩ | ⟨Q, _, _, hQ, hge, rfl⟩ |
      ⟨Q, _, _, hQ, hge, rfl⟩ | ⟨hx, _⟩ | ⟨hx, _⟩ | ⟨hx, _⟩ | ⟨hx, _⟩ | ⟨hx, _⟩
    all_goals first
      | (rw [hw] at hx; cases hx)
      | skip
    · have := ht.period Q hQ
      subst this
      exact ⟨fun _ => ⟨rfl, rfl⟩, fun hlt => by omega⟩
    · have := ht.period Q hQ
      subst this
      exact ⟨fun hlt => by omega, fun _ => ⟨rfl, rfl⟩⟩

example : ∃ s s' : State, Reach (constant 100) s ∧ Run (constant 100) s [.work 350000000] s' ∧
    (s.worker = .check ∧ s.calls = [100, 350000000] ∧ s'.calls = [100, 350000000, 350000000]) :=
  follow_ex 1 (gConstant_ok 100 1) (Ex.up 100 ++ Ex.round 100 ++ Ex.round 350000000 ++ [.work 0]) _
    (by decide +kernel)

/-! ### C64 -/

/-- C64, as far as it holds: the first call is decided at least `P` *nano*seconds after the first reading
of the clock, where the period is `P` milliseconds.  What is missing is the factor of a million, see
`C64_refuted`. -/
theorem C64_first_call_partial {P : Int} {s : State} (h : Reach (constant P) s) {t : Int}
    (ht : s.calls[0]? = some t) : s.t0 + P ≤ t := by
  have := h.timed.late 0 t ht
  omega

example : ∃ s s' : State, Reach (constant 100) s ∧ Run (constant 100) s [] s' ∧ s'.calls = [200] :=
  follow_ex 1 (gConstant_ok 100 1) (Ex.up 100 ++ Ex.round 200) _ (by decide +kernel)

/-- C64 refuted, for every period that fits into the clock's nanoseconds: the first call may come `P` nanoseconds
after the first reading of the clock, a millionth of the period. -/
theorem C64_refuted {P : Int} (h0 : 0 < P) (h1 : P * 1000000 < 2 ^ 63) : ∃ s, Reach (constant P) s ∧
    s.worker = .calling ∧ s.t0 = 0 ∧ s.calls = [P] := by
  let s1 : State := { State.new with period := some P }
  let s2 : State := { s1 with worker := .start }
  let s3 : State := { s2 with worker := .test }
  let s4 : State := { s3 with worker := .check }
  let s5 : State := { s4 with last := 0 + P * 1000000, calls := [P], worker := .calling }
  have r1 : Reach (constant P) s1 := .step _ _ (.build P) .new rfl (.build _ P rfl)
  have r2 : Reach (constant P) s2 := .step _ _ (.work 0) r1 trivial (.work s1 0 rfl)
  have r3 : Reach (constant P) s3 := .step _ _ (.work 0) r2 trivial (.work s2 0 rfl)
  have r4 : Reach (constant P) s4 := .step _ _ (.work 0) r3 trivial (.work s3 0 rfl)
  have hst := Step.work s4 P rfl
  have hw : workerStep s4 P = .ok s5 := by
    have e1 : inRep (P - 0) := by simp only [inRep]; omega
    have e2 : inRep (P * 1000000) ∧ inRep (0 + P * 1000000) := by simp only [inRep]; omega
    have e3 : P - 0 ≥ P := by omega
    have : workerStep s4 P = check s4 P P := rfl
    rw [this]
    have hl : s4.last = 0 := rfl
    simp only [check, advance, hl, if_pos e1, if_pos e2, if_pos e3, Res.ok_bind, Res.pure_eq]
    rfl
  rw [hw] at hst
  exact ⟨s5, .step _ _ (.work P) r4 trivial hst, rfl, rfl, rfl⟩

/-! ### C65 -/

/-- C65, as far as it holds: once the object is destroyed the only thing the worker may still do with it
is the call of `notify_one()`.  What is missing is that call, see `C65_refuted`. -/
theorem C65_destroyed_partial {s : State} (h : Reach anyStep s) (hd : s.destroyed = true) :
    s.worker = .notify ∨ s.worker = .ended := by
  have ho := h.inv.stopped (h.inv.gone hd).1
  cases hw : s.worker <;> simp_all [WPc.out]

example : ∃ s s' : State, Reach anyStep s ∧ Run anyStep s [.destroy] s' ∧
    (s'.destroyed = true ∧ s'.worker = .ended) :=
  follow_ex 1 (gAny_ok 1) (Ex.up 100 ++ Ex.stop 0) _ (by decide +kernel)

/-- C65 refuted: the thread that destroys the object sees the raised flag before the worker has called
`notify_one()`, which then uses the destroyed object. -/
theorem C65_refuted : ∃ s, Reach orderly s ∧ s.destroyed = true ∧ s.worker = .notify ∧
    Step s (.notify none) .ub := by
  obtain ⟨s, s', h1, h2, h3, h4⟩ : ∃ s s' : State, Reach orderly s ∧
      Run orderly s [.look 0, .leave 0, .destroy] s' ∧ (s'.destroyed = true ∧ s'.worker = .notify) :=
    follow_ex 1 (gOrderly_ok 1) (Ex.up 100 ++ [.begin 0, .clear 0, .work 0]) _ (by decide +kernel)
  have hr := h2.reach h1
  refine ⟨s', hr, h3, h4, ?_⟩
  have := Step.notifyNone s' h4 fun k hk => by
    have := (hr.inv.gone h3).2 k
    rw [hk] at this
    cases this
  rwa [if_pos h3] at this

/-! ### C78 -/

/-- The worker leaves its first sleep only after the constructor has finished. -/
def slowStart : State → Label → Prop := fun s l =>
  match l with
  | .work _ => s.worker = .start → s.period ≠ none
  | _ => True

/-- C78, if the constructor finishes within the worker's first sleep: the worker never reads a member
that is not initialised.  What is missing is that nothing makes it so, see `C78_refuted`. -/
theorem C78_initialised_partial {s : State} (h : Reach slowStart s) (h1 : s.worker ≠ .nap)
    (h2 : s.worker ≠ .start) : s.period ≠ none := by
  induction h with
  | new => exact absurd rfl h1
  | step s s' l _ hg hs ih =>
    generalize hr : Res.ok s' = r at hs
    cases hs with
    | build P hP => cases hr; simp
    | setPeriod P Q hP hd => cases hr; simp
    | work now ho =>
      rcases workerStep_cases hr.symm with ⟨hw, rfl⟩ | ⟨hw, rfl⟩ | ⟨hw, hd, rfl⟩ | ⟨Q, hw, hd, hQ, hge, rfl⟩ |
        ⟨Q, hw, hd, hQ, _, rfl⟩ | ⟨hw, rfl⟩ | ⟨hw, hd, rfl⟩ | ⟨hw, _, rfl⟩ | ⟨hw, _, rfl⟩ | ⟨hw, rfl⟩
      · exact absurd rfl h2
      · exact hg hw
      all_goals exact ih (by simp [hw]) (by simp [hw])
    | selfStop hw hns => cases hr; exact ih (by simp [hw]) (by simp [hw])
    | notify j hw hj =>
      split at hr
      · cases hr
      · cases hr
        exact ih (by simp [hw]) (by simp [hw])
    | notifyNone hw hk' =>
      split at hr
      · cases hr
      · cases hr
        exact ih (by simp [hw]) (by simp [hw])
    | _ => cases hr; exact ih h1 h2

example : ∃ s s' : State, Reach slowStart s ∧ Run slowStart s [.work 0] s' ∧ s'.worker = .check :=
  follow_ex (g := fun s l => match l with
    | .work _ => s.worker = .start → s.period ≠ none
    | _ => true) 1
    (fun s l _ h => by
      cases l with
      | work now =>
        intro hw
        simp only [decide_eq_true_eq] at h
        exact h hw
      | _ => trivial)
    (Ex.up 100) _ (by decide +kernel)

/-- C78 refuted: if the constructing thread is held up for ten milliseconds the worker reads `period_`
before it is initialised. -/
theorem C78_refuted : ∃ s, Reach orderly s ∧ s.worker = .check ∧ s.period = none ∧
    ∀ now, Step s (.work now) .ub := by
  obtain ⟨s, s', h1, h2, h3, h4, h5⟩ : ∃ s s' : State, Reach orderly s ∧ Run orderly s [] s' ∧
      (s'.worker = .check ∧ s'.period = none ∧ s'.destroyed = false) :=
    follow_ex 1 (gOrderly_ok 1) [.work 0, .work 0, .work 0] _ (by decide +kernel)
  refine ⟨s', h2.reach h1, h3, h4, fun now => ?_⟩
  have := Step.work s' now (by simp [h3, WPc.out])
  simpa only [workerStep, h3, h4, h5, Bool.false_eq_true, if_false] using this

/-! ### C79 -/

theorem selfStuck {s s' : State} {ls : List Label} (hr : Run anyStep s ls s') (hf : s.flag = false)
    (hw : s.worker = .selfWait ∨ s.worker = .selfAsleep) :
    (s'.worker = .selfWait ∨ s'.worker = .selfAsleep) ∧ s'.calls = s.calls ∧ s'.flag = false := by
  induction hr with
  | nil => exact ⟨hw, rfl, hf⟩
  | cons s s1 s2 l ls _ hs _ ih =>
    generalize hrr : Res.ok s1 = r at hs
    cases hs with
    | work now ho =>
      rcases workerStep_cases hrr.symm with ⟨hx, _⟩ | ⟨hx, _⟩ | ⟨hx, _⟩ | ⟨Q, hx, _⟩ |
        ⟨Q, hx, _⟩ | ⟨hx, _⟩ | ⟨hx, _⟩ | ⟨_, hx, _⟩ | ⟨_, _, rfl⟩ | ⟨_, rfl⟩
      all_goals first
        | (rw [hx] at hw; simp at hw; done)
        | (rw [hx] at hf; simp at hf; done)
        | exact ih hf (by simp)
    | selfStop h _ => rw [h] at hw; simp at hw
    | notify j h _ => rw [h] at hw; simp at hw
    | notifyNone h _ => rw [h] at hw; simp at hw
    | clear j hj => cases hrr; exact ih rfl hw
    | _ => cases hrr; exact ih hf hw

/-- C79, as far as it holds: after the callback has called `stop()` the function is not called again.
What is missing is that this `stop()` returns, see `C79_refuted`. -/
theorem C79_no_call_partial {s s1 s2 : State} (hs : Step s .selfStop (.ok s1)) {ls : List Label}
    (hr : Run anyStep s1 ls s2) : s2.calls = s.calls := by
  generalize hrr : Res.ok s1 = r at hs
  cases hs
  cases hrr
  exact (selfStuck hr rfl (.inl rfl)).2.1

example : ∃ s s' : State, Reach anyStep s ∧ Run anyStep s [.selfStop, .work 0, .work 0, .work 0] s' ∧
    s'.calls = [100] :=
  follow_ex 1 (gAny_ok 1) (Ex.up 100 ++ [.work 0, .work 100]) _ (by decide +kernel)

/-- C79 refuted: a `stop()` called by the callback never returns, in any schedule and from any state: the
worker waits for itself. -/
theorem C79_refuted {s s1 s2 : State} (hs : Step s .selfStop (.ok s1)) {ls : List Label}
    (hr : Run anyStep s1 ls s2) : s2.worker = .selfWait ∨ s2.worker = .selfAsleep := by
  generalize hrr : Res.ok s1 = r at hs
  cases hs
  cases hrr
  exact (selfStuck hr rfl (.inl rfl)).1

/-! ### C80 -/

/-- A call of `period(val)` is possible while the worker is about to read `period_`. -/
def RaceOnPeriod (s : State) : Prop := s.worker = .check ∧ ∃ P s', Step s (.setPeriod P) (.ok s')

/-- C80, as far as it holds: after `stop()` has returned `period(val)` does not race with the worker.
What is missing is the time before, see `C80_refuted`. -/
theorem C80_after_stop_partial {s : State} (h : Reach anyStep s) (hst : s.stopped = true) :
    ¬ RaceOnPeriod s := by
  intro hr
  have := h.inv.stopped hst
  rw [hr.1] at this
  cases this

example : ∃ s s' : State, Reach anyStep s ∧ Run anyStep s [.setPeriod 50] s' ∧
    (s'.stopped = true ∧ s'.period = some 50) :=
  follow_ex 1 (gAny_ok 1) (Ex.up 100 ++ Ex.stop 0) _ (by decide +kernel)

/-- C80 refuted: nothing orders `period(val)` and the worker's reading of `period_`. -/
theorem C80_refuted : ∃ s, Reach orderly s ∧ RaceOnPeriod s := by
  obtain ⟨s, s', h1, h2, h3⟩ : ∃ s s' : State, Reach orderly s ∧ Run orderly s [.setPeriod 50] s' ∧
      s.worker = .check :=
    follow_ex 1 (gOrderly_ok 1) (Ex.up 100 ++ [.work 0]) _ (by decide +kernel)
  cases h2 with
  | cons _ s1 _ _ _ _ hs _ => exact ⟨s, h1, h3, 50, s1, hs⟩

end Verif.Interval
