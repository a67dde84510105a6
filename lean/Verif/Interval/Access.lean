import Verif.Interval.Races
/-!
The record of accesses of `Interval/Races.lean` tells the truth: a step that changes `period_`, `stop_` or the flag records it,
and what a step does depends only on what it records.
-/
namespace Verif.Interval.HB
open Verif Verif.HB Verif.Interval

theorem check_ok {s s' : Interval.State} {P now : Int} (h : check s P now = .ok s') :
    s'.period = s.period ∧ s'.stopped = s.stopped ∧ s'.flag = s.flag := by
  unfold check at h
  split at h
  · split at h
    · cases ha : advance s.last P with
      | ok last =>
        rw [ha] at h
        simp only [Res.ok_bind, Res.pure_eq, Res.ok.injEq] at h
        subst h
        exact ⟨rfl, rfl, rfl⟩
      | ub => rw [ha] at h; cases h
      | hang => rw [ha] at h; cases h
    · simp only [Res.pure_eq, Res.ok.injEq] at h
      subst h
      exact ⟨rfl, rfl, rfl⟩
  · cases h

theorem work_ok {m : State} {s' : Interval.State} {now : Int} (h : workerStep m.st now = .ok s') :
    s'.period = m.st.period ∧ (s'.stopped = m.st.stopped ∨ .acc .stopped true 1 ∈ workOps m) ∧
      (s'.flag = m.st.flag ∨ .rel .flag ∈ workOps m) := by
  unfold workerStep at h
  unfold workOps
  split at h <;> rename_i hw <;> simp only [hw]
  · cases h; exact ⟨rfl, .inl rfl, .inl rfl⟩
  · cases h; exact ⟨rfl, .inl rfl, .inl rfl⟩
  · split at h
    · cases h
    · cases h
      exact ⟨rfl, .inl rfl, .inr (by simp)⟩
  · split at h
    · cases h
    · split at h
      · cases h
      · have := check_ok h
        exact ⟨this.1, .inl this.2.1, .inl this.2.2⟩
  · cases h; exact ⟨rfl, .inl rfl, .inl rfl⟩
  · split at h
    · cases h
    · split at h
      · cases h
      · cases h; exact ⟨rfl, .inl rfl, .inl rfl⟩
  · split at h <;> rename_i hf <;> cases h
    · exact ⟨rfl, .inr (by simp [hf]), .inl rfl⟩
    · exact ⟨rfl, .inl rfl, .inl rfl⟩
  · cases h; exact ⟨rfl, .inl rfl, .inl rfl⟩
  · cases h

/-- **C108, C109.** A step records the accesses that it makes; if it changes `period_` or `stop_` it records a write of it, and if it
changes the flag it records a store or a read-modify-write operation. -/
theorem C109_accesses {m m' : State} {l : Lbl} (h : Step m l m') :
    m'.mem = m.mem.run l.who (ops m l) ∧
    (m'.st.period ≠ m.st.period → ∃ tag, .acc .period true tag ∈ ops m l) ∧
    (m'.st.stopped ≠ m.st.stopped → ∃ tag, .acc .stopped true tag ∈ ops m l) ∧
    (m'.st.flag ≠ m.st.flag → .sto .flag ∈ ops m l ∨ .rel .flag ∈ ops m l) := by
  obtain ⟨_, h1, h2⟩ := h
  refine ⟨h2, ?_⟩
  unfold BaseStep at h1
  cases hb : l.base with
  | none =>
    rw [hb] at h1
    dsimp only at h1
    rw [h1]
    exact ⟨fun h => absurd rfl h, fun h => absurd rfl h, fun h => absurd rfl h⟩
  | some bl =>
    rw [hb] at h1
    dsimp only at h1
    generalize hr : Res.ok m'.st = r at h1
    cases l <;> simp only [Lbl.base, Option.some.injEq, reduceCtorEq] at hb <;> subst hb <;> cases h1
    case work.work now hw =>
      have hk := work_ok hr.symm
      exact ⟨fun h => absurd hk.1 h, fun h => ⟨1, hk.2.1.resolve_left h⟩, fun h => .inr (hk.2.2.resolve_left h)⟩
    case notify.notify k h1 h2 =>
      split at hr
      · cases hr
      · simp only [Res.ok.injEq] at hr
        rw [hr]
        exact ⟨fun h => absurd rfl h, fun h => absurd rfl h, fun h => absurd rfl h⟩
    case notify.notifyNone h1 h2 =>
      split at hr
      · cases hr
      · simp only [Res.ok.injEq] at hr
        rw [hr]
        exact ⟨fun h => absurd rfl h, fun h => absurd rfl h, fun h => absurd rfl h⟩
    all_goals
      simp only [Res.ok.injEq] at hr
      rw [hr]
      simp [ops]

/-- **C108, C109.** What a step of the worker does next depends only on where it is, on its own variables, on whether the object exists,
and on what the step records. -/
theorem C109_depends {m m1 : State} {now : Int} {s' : Interval.State} (h : workerStep m.st now = .ok s')
    (hw : m1.st.worker = m.st.worker) (hl : m1.st.last = m.st.last) (hd : m1.st.destroyed = m.st.destroyed)
    (hb : m1.st.period = none ↔ m.st.period = none)
    (hp : .acc .period false 0 ∈ workOps m → m1.st.period = m.st.period)
    (hf : .acq .flag ∈ workOps m → m1.st.flag = m.st.flag) :
    ∃ s1', workerStep m1.st now = .ok s1' ∧ s1'.worker = s'.worker ∧ s1'.last = s'.last := by
  unfold workerStep at h ⊢
  rw [hw]
  unfold workOps at hp hf
  split at h <;> rename_i hx <;> simp only [hx] at hp hf ⊢
  · cases h; exact ⟨_, rfl, rfl, hl⟩
  · cases h; exact ⟨_, rfl, rfl, rfl⟩
  · rw [hd]
    split at h
    · cases h
    · rename_i hdd
      cases h
      rw [if_neg hdd]
      exact ⟨_, rfl, by simp only [hf (by simp)], hl⟩
  · rw [hd]
    have hp := hp (by simp)
    split at h
    · cases h
    · rename_i hdd
      rw [if_neg hdd, hp]
      split at h
      · cases h
      · rename_i P hP
        unfold check at h ⊢
        rw [hl]
        split at h
        · rename_i hr
          rw [if_pos hr]
          split at h
          · rename_i hc
            rw [if_pos hc]
            cases ha : advance m.st.last P with
            | ok last =>
              rw [ha] at h
              simp only [Res.ok_bind, Res.pure_eq, Res.ok.injEq] at h
              subst h
              exact ⟨_, rfl, rfl, rfl⟩
            | ub => rw [ha] at h; cases h
            | hang => rw [ha] at h; cases h
          · rename_i hc
            rw [if_neg hc]
            simp only [Res.pure_eq, Res.ok.injEq] at h
            subst h
            exact ⟨_, rfl, rfl, rfl⟩
        · cases h
  · cases h; exact ⟨_, rfl, rfl, hl⟩
  · rw [hd]
    split at h
    · cases h
    · rename_i hdd
      rw [if_neg hdd]
      split at h
      · cases h
      · rename_i P hP
        cases h
        cases h1 : m1.st.period with
        | none => rw [hb.1 h1] at hP; cases hP
        | some Q => exact ⟨_, rfl, rfl, hl⟩
  · have hf := hf (by split <;> simp)
    rw [hf]
    split at h <;> rename_i hff <;> cases h
    · rw [if_pos hff]; exact ⟨_, rfl, rfl, hl⟩
    · rw [if_neg hff]; exact ⟨_, rfl, rfl, hl⟩
  · cases h; exact ⟨_, rfl, rfl, hl⟩
  · cases h

/-- **C108, C109.** What a call of `stop()` does next depends only on where it is, on whether the object exists, and on what the step
records. -/
theorem C109_stop_depends {m m1 : State} {l : Lbl} {k : Nat} {st' : Interval.State}
    (hl : l = .begin k ∨ l = .again k ∨ l = .clear k ∨ l = .look k ∨ l = .leave k) (h : BaseStep m l st')
    (hk : m1.st.who k = m.st.who k) (hd : m1.st.destroyed = m.st.destroyed) (hb : m1.st.period = none ↔ m.st.period = none)
    (hs : .acc .stopped false 0 ∈ ops m l → m1.st.stopped = m.st.stopped) (hf : .acq .flag ∈ ops m l → m1.st.flag = m.st.flag) :
    ∃ st1', BaseStep m1 l st1' ∧ st1'.who k = st'.who k := by
  have hp : ∀ Q, m.st.period = some Q → ∃ P, m1.st.period = some P := fun Q hQ => by
    cases h1 : m1.st.period with
    | none => rw [hb.1 h1] at hQ; cases hQ
    | some P => exact ⟨P, rfl⟩
  unfold BaseStep at h ⊢
  rcases hl with rfl | rfl | rfl | rfl | rfl <;> dsimp only [Lbl.base] at h ⊢ <;>
    generalize hr : Res.ok st' = r at h <;> cases h <;> simp only [Res.ok.injEq] at hr <;> subst hr
  · rename_i Q h1 h2 h4 h3
    obtain ⟨P, hP⟩ := hp Q h1
    exact ⟨_, .begin _ _ P hP (hd.trans h2) (hk.trans h3) ((hs (by simp [ops])).trans h4), by simp [Interval.upd]⟩
  · rename_i Q h1 h2 h4 h3
    obtain ⟨P, hP⟩ := hp Q h1
    exact ⟨_, .again _ _ P hP (hd.trans h2) (hk.trans h3) ((hs (by simp [ops])).trans h4), hk⟩
  · rename_i h1
    exact ⟨_, .clear _ _ (hk.trans h1), by simp [Interval.upd]⟩
  · rename_i h1
    exact ⟨_, .look _ _ (hk.trans h1), by simp [Interval.upd, hf (by simp [ops])]⟩
  · rename_i h1
    exact ⟨_, .leave _ _ (hk.trans h1), by simp [Interval.upd]⟩

/-- The constructor sets `period_`. -/
example : ∃ m', Step State.new (.build 0 100) m' ∧ m'.st.period ≠ State.new.st.period ∧
    .acc .period true 0 ∈ ops State.new (.build 0 100) :=
  ⟨⟨{ State.new.st with period := some 100 }, _⟩, ⟨rfl, .build _ _ rfl, rfl⟩, by simp [State.new, Interval.State.new], by simp [ops]⟩

end Verif.Interval.HB
