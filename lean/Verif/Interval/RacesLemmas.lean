import Verif.Interval.Races
/-! Steps of `interval_event` with happens-before. -/
namespace Verif.Interval.HB
open Verif Verif.HB Verif.Interval

/-- The effects of the steps on the object. -/
inductive Did (m : State) : Lbl → Interval.State → Prop
  | build (p : Nat) (P : Int) : m.st.period = none → m.st.who p = .idle →
      Did m (.build p P) { m.st with period := some P }
  | setPeriod (t : Thr) (P Q : Int) : m.free t → m.st.period = some Q → m.st.destroyed = false →
      Did m (.setPeriod t P) { m.st with period := some P }
  | setBetween (t : Thr) : m.free t → m.st.period ≠ none → m.st.destroyed = false → Did m (.setBetween t) m.st
  | get (t : Thr) (b : Bool) : m.free t → m.st.period ≠ none → m.st.destroyed = false → Did m (.get t b) m.st
  | work (now : Int) (s' : Interval.State) : m.st.worker.out = false → workerStep m.st now = .ok s' → Did m (.work now) s'
  | selfStop : m.st.worker = .calling → m.st.stopped = false →
      Did m .selfStop { m.st with flag := false, worker := .selfWait }
  | notify (k : Nat) : m.st.worker = .notify → m.st.who k = .asleep → m.st.destroyed = false →
      Did m (.notify (some k)) { m.st with who := upd m.st.who k .waiting, worker := .ended }
  | notifyNone : m.st.worker = .notify → (∀ k, m.st.who k ≠ .asleep) → m.st.destroyed = false →
      Did m (.notify none) { m.st with worker := .ended }
  | begin (k : Nat) (Q : Int) : m.st.period = some Q → m.st.destroyed = false → m.st.who k = .idle →
      m.st.stopped = false → Did m (.begin k) { m.st with who := upd m.st.who k .clearing }
  | again (k : Nat) (Q : Int) : m.st.period = some Q → m.st.destroyed = false → m.st.who k = .idle →
      m.st.stopped = true → Did m (.again k) m.st
  | clear (k : Nat) : m.st.who k = .clearing → Did m (.clear k) { m.st with flag := false, who := upd m.st.who k .waiting }
  | look (k : Nat) : m.st.who k = .waiting →
      Did m (.look k) { m.st with who := upd m.st.who k (if m.st.flag then .leaving else .asleep) }
  | wake (k : Nat) : m.st.who k = .asleep → Did m (.wake k) { m.st with who := upd m.st.who k .waiting }
  | leave (k : Nat) : m.st.who k = .leaving →
      Did m (.leave k) { m.st with stopped := true, who := upd m.st.who k .idle }
  | destroy (p : Nat) : m.st.stopped = true → (∀ k, m.st.who k = .idle) → m.st.destroyed = false →
      Did m (.destroy p) { m.st with destroyed := true }
  | touch (t : Thr) (n : Nat) (wr : Bool) : m.free t → Did m (.touch t n wr) m.st
  | rel (t : Thr) (n : Nat) : m.free t → Did m (.rel t n) m.st
  | acq (t : Thr) (n : Nat) : m.free t → Did m (.acq t n) m.st

theorem Step.did {m m' : State} {l : Lbl} (h : Step m l m') : ∃ s', m'.st = s' ∧ Did m l s' := by
  obtain ⟨ha, hb, -⟩ := h
  refine ⟨_, rfl, ?_⟩
  generalize m'.st = s' at hb
  cases l with
  | setBetween t => cases hb; exact .setBetween t ha.1 ha.2.1 ha.2.2
  | get t b => cases hb; exact .get t b ha.1 ha.2.1 ha.2.2
  | touch t n wr => cases hb; exact .touch t n wr ha
  | rel t n => cases hb; exact .rel t n ha
  | acq t n => cases hb; exact .acq t n ha
  | _ =>
    have hs : Interval.Step m.st _ (.ok s') := hb
    generalize hr : Res.ok s' = r at hs
    cases hs
    all_goals first
      | (cases hr; exact .build _ _ ‹_› ha)
      | (cases hr; exact .setPeriod _ _ _ ha ‹_› ‹_›)
      | exact .work _ _ ‹_› hr.symm
      | (cases hr; exact .selfStop ‹_› ‹_›)
      | (by_cases hd : m.st.destroyed = true
         · rw [if_pos hd] at hr
           cases hr
         · rw [if_neg hd] at hr
           cases hr
           first
             | exact .notify _ ‹_› ‹_› (by simpa using hd)
             | exact .notifyNone ‹_› ‹_› (by simpa using hd))
      | (cases hr; exact .begin _ _ ‹_› ‹_› ‹_› ‹_›)
      | (cases hr; exact .again _ _ ‹_› ‹_› ‹_› ‹_›)
      | (cases hr; exact .clear _ ‹_›)
      | (cases hr; exact .look _ ‹_›)
      | (cases hr; exact .wake _ ‹_›)
      | (cases hr; exact .leave _ ‹_›)
      | (cases hr; exact .destroy _ ‹_› ‹_› ‹_›)

variable {i m : State} {R : Loc → Prop} {G : List Lbl → State → Lbl → Prop} {ls : List Lbl}

theorem inv_built (P : Int) : Inv (State.built P).st := by
  constructor <;> simp [State.built, Interval.State.new]

theorem Step.inv {m m' : State} {l : Lbl} (hi : Inv m.st) (h : Step m l m') : Inv m'.st := by
  obtain ⟨-, hb, -⟩ := h
  unfold BaseStep at hb
  split at hb
  · exact hi.step hb
  · rw [hb]; exact hi

theorem Run.inv (hi : Start i) (h : Run i R G ls m) : Inv m.st := by
  induction h with
  | new =>
    rcases hi with rfl | ⟨P, rfl⟩
    · exact Inv.new
    · exact inv_built P
  | step ls m m' l _ _ hs _ ih => exact hs.inv ih

theorem Run.memOk (hi : Start i) (h : Run i R G ls m) : m.mem.Ok := by
  induction h with
  | new => rcases hi with rfl | ⟨P, rfl⟩ <;> exact Mem.Ok.new
  | step ls m m' l _ _ hs _ ih => rw [hs.2.2]; exact ih.run _ _

/-- Once out of the loop the worker accesses nothing, and only `stop()` changes what the flag carries. -/
theorem Step.outStays {m m' : State} {l : Lbl} (h : Step m l m') (ho : m.st.worker.out = true) :
    m'.st.worker.out = true ∧ m'.st.calls = m.st.calls ∧ (m.st.stopped = true → m'.st.stopped = true) := by
  obtain ⟨-, hb, -⟩ := h
  unfold BaseStep at hb
  split at hb
  · exact hb.out ho
  · rw [hb]; exact ⟨ho, rfl, id⟩

theorem WPc.not_out_calling {w : WPc} (h : w = .calling) : w.out = false := by rw [h]; rfl

/-- Once out of the loop the worker does nothing but notify. -/
theorem Step.who_out {m m' : State} {l : Lbl} (h : Step m l m') (ho : m.st.worker.out = true) (hw : l.who = none) :
    ops m l = [] := by
  have hc : m.st.worker ≠ .calling := fun e => by rw [e] at ho; cases ho
  obtain ⟨_, -, hd⟩ := h.did
  cases hd with
  | work now s' hf => rw [ho] at hf; cases hf
  | selfStop h1 h2 => exact absurd h1 hc
  | setPeriod t P Q hf =>
    have e : t = none := hw
    subst e; exact absurd hf hc
  | setBetween t hf =>
    have e : t = none := hw
    subst e; exact absurd hf hc
  | get t b hf =>
    have e : t = none := hw
    subst e; exact absurd hf hc
  | touch t n wr hf =>
    have e : t = none := hw
    subst e; exact absurd hf hc
  | rel t n hf =>
    have e : t = none := hw
    subst e; exact absurd hf hc
  | acq t n hf =>
    have e : t = none := hw
    subst e; exact absurd hf hc
  | notify => rfl
  | notifyNone => rfl
  | _ => cases hw

end Verif.Interval.HB
