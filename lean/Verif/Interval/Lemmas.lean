import Verif.Interval.Model
/-! Invariants of `interval_event`. -/
namespace Verif.Interval
open Verif

/-- The effects of a successful step of the worker. -/
theorem workerStep_cases {s s' : State} {now : Int} (h : workerStep s now = .ok s') :
    (s.worker = .nap ∧ s' = { s with worker := .start }) ∨
    (s.worker = .start ∧ s' = { s with last := now, t0 := now, worker := .test }) ∨
    (s.worker = .test ∧ s.destroyed = false ∧
      s' = { s with flag := true, worker := if s.flag then .check else .notify }) ∨
    (∃ P, s.worker = .check ∧ s.destroyed = false ∧ s.period = some P ∧ now - s.last ≥ P ∧
      s' = { s with last := s.last + P * 1000000, calls := s.calls ++ [now], worker := .calling }) ∨
    (∃ P, s.worker = .check ∧ s.destroyed = false ∧ s.period = some P ∧ now - s.last < P ∧
      s' = { s with worker := .pause }) ∨
    (s.worker = .calling ∧ s' = { s with worker := .pause }) ∨
    (s.worker = .pause ∧ s.destroyed = false ∧ s' = { s with worker := .test }) ∨
    (s.worker = .selfWait ∧ s.flag = true ∧ s' = { s with stopped := true, worker := .calling }) ∨
    (s.worker = .selfWait ∧ s.flag = false ∧ s' = { s with worker := .selfAsleep }) ∨
    (s.worker = .selfAsleep ∧ s' = { s with worker := .selfWait }) := by
  unfold workerStep at h
  split at h
  · exact .inl ⟨‹_›, by cases h; rfl⟩
  · exact .inr (.inl ⟨‹_›, by cases h; rfl⟩)
  · split at h
    · cases h
    · rename_i hd
      exact .inr (.inr (.inl ⟨‹_›, by simpa using hd, by cases h; rfl⟩))
  · split at h
    · cases h
    · rename_i hd
      split at h
      · cases h
      · rename_i P hP
        unfold check at h
        split at h
        · split at h
          · rename_i hge
            unfold advance at h
            split at h
            · simp only [Res.ok_bind, Res.pure_eq, Res.ok.injEq] at h
              exact .inr (.inr (.inr (.inl ⟨P, ‹_›, by simpa using hd, hP, hge, h.symm⟩)))
            · cases h
          · rename_i hge
            simp only [Res.pure_eq, Res.ok.injEq] at h
            exact .inr (.inr (.inr (.inr (.inl ⟨P, ‹_›, by simpa using hd, hP, by omega, h.symm⟩))))
        · cases h
  · exact .inr (.inr (.inr (.inr (.inr (.inl ⟨‹_›, by cases h; rfl⟩)))))
  · split at h
    · cases h
    · rename_i hd
      split at h
      · cases h
      · exact .inr (.inr (.inr (.inr (.inr (.inr (.inl ⟨‹_›, by simpa using hd, by cases h; rfl⟩))))))
  · split at h
    · exact .inr (.inr (.inr (.inr (.inr (.inr (.inr (.inl ⟨‹_›, ‹_›, by cases h; rfl⟩)))))))
    · rename_i hf
      exact .inr (.inr (.inr (.inr (.inr (.inr (.inr (.inr (.inl
        ⟨‹_›, by simpa using hf, by cases h; rfl⟩))))))))
  · exact .inr (.inr (.inr (.inr (.inr (.inr (.inr (.inr (.inr ⟨‹_›, by cases h; rfl⟩))))))))
  · cases h

/-- What holds in every reachable state. -/
structure Inv (s : State) : Prop where
  seen : ∀ k, s.who k = .waiting ∨ s.who k = .asleep → s.flag = true → s.worker.out = true
  leaving : ∀ k, s.who k = .leaving → s.worker.out = true
  stopped : s.stopped = true → s.worker.out = true
  self : s.worker = .selfWait ∨ s.worker = .selfAsleep → s.flag = false
  gone : s.destroyed = true → s.stopped = true ∧ ∀ k, s.who k = .idle
  built : ∀ k, s.who k ≠ .idle → s.period ≠ none

theorem Inv.new : Inv State.new := by
  constructor <;> simp [State.new]

theorem Inv.step {s s' : State} {l : Label} (h : Inv s) (hs : Step s l (.ok s')) : Inv s' := by
  generalize hr : Res.ok s' = r at hs
  have upd_cases : ∀ (k : Nat) (v : SPc) (Q : Nat → SPc → Prop), Q k v → (∀ j, Q j (s.who j)) →
      ∀ j, Q j (upd s.who k v j) := by
    intro k v Q h1 h2 j
    by_cases hj : j = k
    · subst hj
      rw [upd_same]
      exact h1
    · rw [upd_other _ _ hj]
      exact h2 j
  cases hs with
  | build P hP =>
    cases hr
    exact ⟨h.seen, h.leaving, h.stopped, h.self, h.gone, fun k hk => by simp⟩
  | setPeriod P Q hP hd =>
    cases hr
    exact ⟨h.seen, h.leaving, h.stopped, h.self, h.gone, fun k hk => by simp⟩
  | work now ho =>
    have hns : s.stopped = false := by
      cases hst : s.stopped with
      | false => rfl
      | true => rw [h.stopped hst] at ho; cases ho
    have hnl : ∀ k, s.who k ≠ .leaving := by
      intro k hk
      rw [h.leaving k hk] at ho
      cases ho
    have hnd : s.destroyed = false := by
      cases hst : s.destroyed with
      | false => rfl
      | true => rw [(h.gone hst).1] at hns; cases hns
    have hseen : ∀ k, s.who k = .waiting ∨ s.who k = .asleep → s.flag = false := by
      intro k hk
      cases hf : s.flag with
      | false => rfl
      | true => rw [h.seen k hk hf] at ho; cases ho
    have hS : ∀ {Q : Prop} (k : Nat), s.who k = .waiting ∨ s.who k = .asleep → s.flag = true → Q := by
      intro Q k hk hf
      rw [hseen k hk] at hf
      cases hf
    have hST : ∀ {Q : Prop}, s.stopped = true → Q := by
      intro Q hst
      rw [hns] at hst
      cases hst
    have hD : ∀ {Q : Prop}, s.destroyed = true → Q := by
      intro Q hst
      rw [hnd] at hst
      cases hst
    rcases workerStep_cases hr.symm with ⟨hw, rfl⟩ | ⟨hw, rfl⟩ | ⟨hw, hd, rfl⟩ | ⟨P, hw, hd, hP, _, rfl⟩ |
      ⟨P, hw, hd, hP, _, rfl⟩ | ⟨hw, rfl⟩ | ⟨hw, hd, rfl⟩ | ⟨hw, hf, rfl⟩ | ⟨hw, hf, rfl⟩ | ⟨hw, rfl⟩
    · exact ⟨hS, fun k hk => absurd hk (hnl k),
        hST, fun hx => by simp at hx,
        hD, h.built⟩
    · exact ⟨hS, fun k hk => absurd hk (hnl k),
        hST, fun hx => by simp at hx,
        hD, h.built⟩
    · refine ⟨fun k hk _ => ?_, fun k hk => absurd hk (hnl k),
        hST, fun hx => ?_,
        hD, h.built⟩
      · simp only
        rw [hseen k hk]
        rfl
      · cases hf : s.flag <;> simp [hf] at hx
    · exact ⟨hS, fun k hk => absurd hk (hnl k),
        hST, fun hx => by simp at hx,
        hD, h.built⟩
    · exact ⟨hS, fun k hk => absurd hk (hnl k),
        hST, fun hx => by simp at hx,
        hD, h.built⟩
    · exact ⟨hS, fun k hk => absurd hk (hnl k),
        hST, fun hx => by simp at hx,
        hD, h.built⟩
    · exact ⟨hS, fun k hk => absurd hk (hnl k),
        hST, fun hx => by simp at hx,
        hD, h.built⟩
    · rw [h.self (.inl hw)] at hf
      cases hf
    · exact ⟨hS, fun k hk => absurd hk (hnl k),
        hST, fun _ => hf,
        hD, h.built⟩
    · exact ⟨hS, fun k hk => absurd hk (hnl k),
        hST, fun _ => h.self (.inr hw),
        hD, h.built⟩
  | selfStop hw hns =>
    cases hr
    exact ⟨(fun k hk hf => by cases hf), (fun k hk => by have := h.leaving k hk; rw [hw] at this; cases this),
      (fun hst => by have := h.stopped hst; rw [hw] at this; cases this), fun _ => rfl, h.gone, h.built⟩
  | notify k hw hk =>
    split at hr
    · cases hr
    · rename_i hd
      cases hr
      refine ⟨fun _ _ _ => rfl, fun _ _ => rfl, fun _ => rfl, fun hx => by simp at hx,
        fun hx => absurd hx hd, upd_cases k .waiting (fun _ v => v ≠ .idle → s.period ≠ none) ?_ h.built⟩
      exact fun _ => h.built k (by rw [hk]; simp)
  | notifyNone hw hk =>
    split at hr
    · cases hr
    · rename_i hd
      cases hr
      exact ⟨fun _ _ _ => rfl, fun _ _ => rfl, fun _ => rfl, fun hx => by simp at hx,
        fun hx => absurd hx hd, h.built⟩
  | «begin» k Q hP hd hk hst =>
    cases hr
    refine ⟨?_, ?_, h.stopped, h.self, (fun hx => by rw [hd] at hx; cases hx), fun _ _ => by simp [hP]⟩
    · exact upd_cases k .clearing (fun _ v => v = .waiting ∨ v = .asleep → s.flag = true → _)
        (by simp) h.seen
    · exact upd_cases k .clearing (fun _ v => v = .leaving → _) (by simp) h.leaving
  | again k Q hP hd hk hst =>
    cases hr
    exact h
  | clear k hk =>
    cases hr
    refine ⟨(fun k hk hf => by cases hf), ?_, h.stopped, fun _ => rfl, fun hx => ?_, ?_⟩
    · exact upd_cases k .waiting (fun _ v => v = .leaving → _) (by simp) h.leaving
    · have := (h.gone hx).2 k
      rw [hk] at this
      cases this
    · exact upd_cases k .waiting (fun _ v => v ≠ .idle → _) (fun _ => h.built k (by rw [hk]; simp)) h.built
  | look k hk =>
    cases hr
    refine ⟨?_, ?_, h.stopped, h.self, fun hx => ?_, ?_⟩
    · refine upd_cases k _ (fun _ v => v = .waiting ∨ v = .asleep → s.flag = true → _) ?_ h.seen
      intro _ hf
      exact h.seen k (.inl hk) hf
    · refine upd_cases k _ (fun _ v => v = .leaving → _) ?_ h.leaving
      cases hf : s.flag with
      | false => simp
      | true => exact fun _ => h.seen k (.inl hk) hf
    · have := (h.gone hx).2 k
      rw [hk] at this
      cases this
    · exact upd_cases k _ (fun _ v => v ≠ .idle → _) (fun _ => h.built k (by rw [hk]; simp)) h.built
  | wake k hk =>
    cases hr
    refine ⟨?_, ?_, h.stopped, h.self, fun hx => ?_, ?_⟩
    · exact upd_cases k _ (fun _ v => v = .waiting ∨ v = .asleep → s.flag = true → _)
        (fun _ => h.seen k (.inr hk)) h.seen
    · exact upd_cases k _ (fun _ v => v = .leaving → _) (by simp) h.leaving
    · have := (h.gone hx).2 k
      rw [hk] at this
      cases this
    · exact upd_cases k _ (fun _ v => v ≠ .idle → _) (fun _ => h.built k (by rw [hk]; simp)) h.built
  | leave k hk =>
    cases hr
    refine ⟨?_, ?_, fun _ => h.leaving k hk, h.self, fun hx => ?_, ?_⟩
    · exact upd_cases k _ (fun _ v => v = .waiting ∨ v = .asleep → s.flag = true → _) (by simp) h.seen
    · exact upd_cases k _ (fun _ v => v = .leaving → _) (by simp) h.leaving
    · have := (h.gone hx).2 k
      rw [hk] at this
      cases this
    · exact upd_cases k _ (fun _ v => v ≠ .idle → _) (by simp) h.built
  | destroy hst hi hd =>
    cases hr
    exact ⟨h.seen, h.leaving, h.stopped, h.self, fun _ => ⟨hst, hi⟩, h.built⟩

theorem Reach.inv {G : State → Label → Prop} {s : State} (h : Reach G s) : Inv s := by
  induction h with
  | new => exact Inv.new
  | step s s' l _ _ hs ih => exact ih.step hs

theorem Run.reach {G : State → Label → Prop} {s s' : State} {ls : List Label} (hr : Run G s ls s')
    (h : Reach G s) : Reach G s' := by
  induction hr with
  | nil => exact h
  | cons s s1 s2 l ls hg hs _ ih => exact ih (.step s s1 l h hg hs)

theorem Reach.weaken {G : State → Label → Prop} {s : State} (h : Reach G s) : Reach anyStep s := by
  induction h with
  | new => exact .new
  | step s s' l _ _ hs ih => exact .step s s' l ih trivial hs

/-- Once out of the loop the worker stays out and makes no call. -/
theorem Step.out {s s' : State} {l : Label} (hs : Step s l (.ok s')) (ho : s.worker.out = true) :
    s'.worker.out = true ∧ s'.calls = s.calls ∧ (s.stopped = true → s'.stopped = true) := by
  generalize hr : Res.ok s' = r at hs
  cases hs with
  | work now h => rw [ho] at h; cases h
  | selfStop hw _ => rw [hw] at ho; cases ho
  | notify k hw hk =>
    split at hr
    · cases hr
    · cases hr
      exact ⟨rfl, rfl, id⟩
  | notifyNone hw hk =>
    split at hr
    · cases hr
    · cases hr
      exact ⟨rfl, rfl, id⟩
  | leave k hk => cases hr; exact ⟨ho, rfl, fun _ => rfl⟩
  | _ => cases hr; exact ⟨ho, rfl, id⟩

theorem Run.out {G : State → Label → Prop} {s s' : State} {ls : List Label} (hr : Run G s ls s')
    (ho : s.worker.out = true) :
    s'.worker.out = true ∧ s'.calls = s.calls ∧ (s.stopped = true → s'.stopped = true) := by
  induction hr with
  | nil => exact ⟨ho, rfl, id⟩
  | cons s s1 s2 l ls _ hs _ ih =>
    obtain ⟨h1, h2, h3⟩ := hs.out ho
    obtain ⟨h4, h5, h6⟩ := ih h1
    exact ⟨h4, h5.trans h2, fun h => h6 (h3 h)⟩

/-- What holds when calls of `stop()` do not overlap. -/
structure Inv2 (s : State) : Prop where
  one : ∀ j k, s.who j ≠ .idle → s.who k ≠ .idle → j = k
  noSelf : s.worker ≠ .selfWait ∧ s.worker ≠ .selfAsleep
  lowered : s.flag = false → ∃ k, s.who k = .waiting ∨ s.who k = .asleep
  outFlag : s.worker.out = true → s.flag = true
  outWhy : s.worker.out = true → s.stopped = true ∨ ∃ k, s.who k = .waiting ∨ s.who k = .asleep ∨ s.who k = .leaving
  fresh : ∀ k, s.who k ≠ .idle → s.stopped = false
  notLost : ∀ k, s.who k = .asleep → s.worker ≠ .ended

theorem Inv2.new : Inv2 State.new := by
  constructor <;> simp [State.new, WPc.out]

theorem Inv2.running {s : State} (h : Inv2 s) {k : Nat} (hk : s.who k = .clearing) :
    s.worker.out = false ∧ s.flag = true := by
  have hf : s.flag = true := by
    cases hf : s.flag with
    | true => rfl
    | false =>
      obtain ⟨j, hj⟩ := h.lowered hf
      have := h.one j k (by rcases hj with hj | hj <;> simp [hj]) (by simp [hk])
      subst this
      simp [hk] at hj
  refine ⟨?_, hf⟩
  cases ho : s.worker.out with
  | false => rfl
  | true =>
    rcases h.outWhy ho with hst | ⟨j, hj⟩
    · rw [h.fresh k (by simp [hk])] at hst
      cases hst
    · have := h.one j k (by rcases hj with hj | hj | hj <;> simp [hj]) (by simp [hk])
      subst this
      simp [hk] at hj

theorem Inv2.step {s s' : State} {l : Label} (hi : Inv s) (h : Inv2 s) (hg : orderly s l)
    (hs : Step s l (.ok s')) : Inv2 s' := by
  generalize hr : Res.ok s' = r at hs
  have upd_all : ∀ {k : Nat} (v : SPc), s.who k ≠ .idle → ∀ j, upd s.who k v j ≠ .idle → j = k := by
    intro k v hk j hj
    by_cases hjk : j = k
    · exact hjk
    · rw [upd_other _ _ hjk] at hj
      exact h.one j k hj hk
  have upd_one : ∀ {k : Nat} (v : SPc), s.who k ≠ .idle →
      ∀ j j', upd s.who k v j ≠ .idle → upd s.who k v j' ≠ .idle → j = j' :=
    fun v hk j j' h1 h2 => (upd_all v hk j h1).trans (upd_all v hk j' h2).symm
  cases hs with
  | build P hP =>
    cases hr
    exact ⟨h.one, h.noSelf, h.lowered, h.outFlag, h.outWhy, h.fresh, h.notLost⟩
  | setPeriod P Q hP hd =>
    cases hr
    exact ⟨h.one, h.noSelf, h.lowered, h.outFlag, h.outWhy, h.fresh, h.notLost⟩
  | work now ho =>
    rcases workerStep_cases hr.symm with ⟨hw, rfl⟩ | ⟨hw, rfl⟩ | ⟨hw, hd, rfl⟩ | ⟨P, hw, hd, hP, _, rfl⟩ |
      ⟨P, hw, hd, hP, _, rfl⟩ | ⟨hw, rfl⟩ | ⟨hw, hd, rfl⟩ | ⟨hw, hf, rfl⟩ | ⟨hw, hf, rfl⟩ | ⟨hw, rfl⟩
    · exact ⟨h.one, by simp, h.lowered, by simp [WPc.out], by simp [WPc.out], h.fresh, by simp⟩
    · exact ⟨h.one, by simp, h.lowered, by simp [WPc.out], by simp [WPc.out], h.fresh, by simp⟩
    · refine ⟨h.one, ?_, by simp, fun _ => rfl, ?_, h.fresh, ?_⟩
      · cases s.flag <;> simp
      · cases hf : s.flag with
        | true => simp [WPc.out]
        | false =>
          intro _
          obtain ⟨k, hk⟩ := h.lowered hf
          exact .inr ⟨k, by rcases hk with hk | hk <;> simp [hk]⟩
      · cases s.flag <;> simp
    · exact ⟨h.one, by simp, h.lowered, by simp [WPc.out], by simp [WPc.out], h.fresh, by simp⟩
    · exact ⟨h.one, by simp, h.lowered, by simp [WPc.out], by simp [WPc.out], h.fresh, by simp⟩
    · exact ⟨h.one, by simp, h.lowered, by simp [WPc.out], by simp [WPc.out], h.fresh, by simp⟩
    · exact ⟨h.one, by simp, h.lowered, by simp [WPc.out], by simp [WPc.out], h.fresh, by simp⟩
    · exact absurd hw h.noSelf.1
    · exact absurd hw h.noSelf.1
    · exact absurd hw h.noSelf.2
  | selfStop hw hns => exact absurd hg (by simp [orderly])
  | notify k hw hk =>
    split at hr
    · cases hr
    · cases hr
      have hk' : s.who k ≠ .idle := by simp [hk]
      have hout : s.worker.out = true := by rw [hw]; rfl
      refine ⟨upd_one _ hk', by simp, ?_, fun _ => h.outFlag hout, ?_, ?_, ?_⟩
      · intro hf
        have := h.outFlag hout
        simp only at hf
        rw [this] at hf
        cases hf
      · exact fun _ => .inr ⟨k, .inl (upd_same _ _ _)⟩
      · exact fun j hj => h.fresh k hk'
      · intro j hj
        simp only at hj
        have := upd_all .waiting hk' j (by rw [hj]; simp)
        subst this
        simp [upd_same] at hj
  | notifyNone hw hk =>
    split at hr
    · cases hr
    · cases hr
      have hout : s.worker.out = true := by rw [hw]; rfl
      exact ⟨h.one, by simp, h.lowered, fun _ => h.outFlag hout, fun _ => h.outWhy hout, h.fresh,
        fun j hj => absurd hj (hk j)⟩
  | «begin» k Q hP hd hk hst =>
    cases hr
    simp only [orderly] at hg
    have hall : ∀ j, upd s.who k .clearing j ≠ .idle → j = k := by
      intro j hj
      by_cases hjk : j = k
      · exact hjk
      · rw [upd_other _ _ hjk] at hj
        exact absurd (hg j) hj
    refine ⟨fun j j' h1 h2 => (hall j h1).trans (hall j' h2).symm, h.noSelf, ?_, h.outFlag, ?_, ?_, ?_⟩
    · intro hf
      obtain ⟨j, hj⟩ := h.lowered hf
      simp [hg j] at hj
    · intro ho
      rcases h.outWhy ho with h1 | ⟨j, hj⟩
      · exact .inl h1
      · simp [hg j] at hj
    · exact fun _ _ => hst
    · intro j hj
      simp only at hj
      have := hall j (by simp [hj])
      subst this
      simp [upd_same] at hj
  | again k Q hP hd hk hst =>
    cases hr
    exact h
  | clear k hk =>
    cases hr
    have hk' : s.who k ≠ .idle := by simp [hk]
    have hrun := (h.running hk).1
    refine ⟨upd_one _ hk', h.noSelf, fun _ => ⟨k, .inl (upd_same _ _ _)⟩, ?_, ?_, fun _ _ => h.fresh k hk', ?_⟩
    · intro ho
      simp only at ho
      rw [hrun] at ho
      cases ho
    · intro ho
      simp only at ho
      rw [hrun] at ho
      cases ho
    · intro j hj
      simp only at hj
      have := upd_all .waiting hk' j (by rw [hj]; simp)
      subst this
      simp [upd_same] at hj
  | look k hk =>
    cases hr
    have hk' : s.who k ≠ .idle := by simp [hk]
    refine ⟨upd_one _ hk', h.noSelf, ?_, h.outFlag, ?_, fun _ _ => h.fresh k hk', ?_⟩
    · intro hf
      simp only at hf
      exact ⟨k, .inr (by simp [upd_same, hf])⟩
    · intro ho
      have := h.outFlag ho
      exact .inr ⟨k, .inr (.inr (by simp [upd_same, this]))⟩
    · intro j hj he
      have hf := h.outFlag (by simp only at he; rw [he]; rfl)
      simp only at hj
      have := upd_all _ hk' j (by rw [hj]; simp)
      subst this
      simp [upd_same, hf] at hj
  | wake k hk =>
    cases hr
    have hk' : s.who k ≠ .idle := by simp [hk]
    refine ⟨upd_one _ hk', h.noSelf, fun _ => ⟨k, .inl (upd_same _ _ _)⟩, h.outFlag,
      fun _ => .inr ⟨k, .inl (upd_same _ _ _)⟩, fun _ _ => h.fresh k hk', ?_⟩
    intro j hj
    simp only at hj
    have := upd_all .waiting hk' j (by rw [hj]; simp)
    subst this
    simp [upd_same] at hj
  | leave k hk =>
    cases hr
    have hk' : s.who k ≠ .idle := by simp [hk]
    have hout := hi.leaving k hk
    have hnone : ∀ j, upd s.who k .idle j = .idle := by
      intro j
      cases hx : upd s.who k .idle j with
      | idle => rfl
      | _ =>
        have := upd_all .idle hk' j (by simp [hx])
        subst this
        simp [upd_same] at hx
    refine ⟨fun j _ h1 => absurd (hnone j) h1, h.noSelf, ?_, h.outFlag, fun _ => .inl rfl,
      fun j hj => absurd (hnone j) hj, fun j hj => by simp [hnone j] at hj⟩
    intro hf
    simp only at hf
    rw [h.outFlag hout] at hf
    cases hf
  | destroy hst hid hd =>
    cases hr
    exact ⟨h.one, h.noSelf, h.lowered, h.outFlag, h.outWhy, h.fresh, h.notLost⟩

theorem Reach.inv2 {s : State} (h : Reach orderly s) : Inv2 s := by
  induction h with
  | new => exact Inv2.new
  | step s s' l hr hg hs ih => exact ih.step hr.inv hg hs

end Verif.Interval
