import Verif.Pipeline.StageLife
import Verif.Pipeline.PoolRaces
/-!
The records of accesses of `Races.lean`, `StageLife.lean` and `PoolRaces.lean` tell the truth: a step that changes a slot or a deque of
samples records a write of it, one that changes a counter or `closed_` records a read-modify-write operation or a store, and
what a worker does depends only on what its step records.
-/
namespace Verif.Pipeline
open Verif Verif.HB
variable {α : Type}

/-- What a step of a worker can change. -/
theorem Q.work_changes {c : Bool} {e : Int} {q q' : Q α} (h : q.work c e = .ok q') :
    q'.slots = q.slots ∧ q'.tail = q.tail ∧ (q'.stat ≠ q.stat → q.pc = .stat) ∧ (q'.head ≠ q.head → q.pc = .take) := by
  unfold Q.work at h
  split at h <;> rename_i hpc
  · cases h; exact ⟨rfl, rfl, fun h => absurd rfl h, fun h => absurd rfl h⟩
  · cases h; exact ⟨rfl, rfl, fun h => absurd rfl h, fun h => absurd rfl h⟩
  · cases h; exact ⟨rfl, rfl, fun h => absurd rfl h, fun h => absurd rfl h⟩
  · split at h <;> cases h <;> exact ⟨rfl, rfl, fun h => absurd rfl h, fun h => absurd rfl h⟩
  · cases h; exact ⟨rfl, rfl, fun h => absurd rfl h, fun _ => hpc⟩
  · split at h
    · cases h1 : timeForUnit q.stat with
      | ok a =>
        rw [h1] at h
        cases h2 : bufferUtilization q.stat with
        | ok b =>
          rw [h2] at h
          simp only [Res.ok_bind, Res.ok.injEq] at h
          subst h
          exact ⟨rfl, rfl, fun h => absurd rfl h, fun h => absurd rfl h⟩
        | ub => rw [h2] at h; cases h
        | hang => rw [h2] at h; cases h
      | ub => rw [h1] at h; cases h
      | hang => rw [h1] at h; cases h
    · cases h
  · cases h; exact ⟨rfl, rfl, fun _ => hpc, fun h => absurd rfl h⟩
  · cases h

/-- What a step of a worker does depends only on where it is, on its own counter, on `closed_` in `outer`, on `tail` in `drain`,
`inner` and `stat`, on the slot in `check` and `call`, and on the deque in `call` and `stat`. -/
theorem Q.work_depends {c c1 : Bool} {e : Int} {q q' q1 : Q α} (h : q.work c e = .ok q') (hpc : q1.pc = q.pc) (hh : q1.head = q.head)
    (hn : q1.slots.length = q.slots.length) (hc : q.pc = .outer → c1 = c)
    (ht : q.pc = .drain ∨ q.pc = .inner ∨ q.pc = .stat → q1.tail = q.tail)
    (hs : q.pc = .check → q1.slots[q.head % q.slots.length]? = q.slots[q.head % q.slots.length]?)
    (hs' : ∀ i, q.pc = .call i → q1.slots[i % q.slots.length]? = q.slots[i % q.slots.length]?)
    (hd : (∃ i, q.pc = .call i) ∨ q.pc = .stat → q1.stat = q.stat) :
    ∃ q1', q1.work c1 e = .ok q1' ∧ q1'.pc = q'.pc ∧ q1'.head = q'.head ∧
      (q.pc = .stat → q1'.stat = q'.stat) ∧
      (∀ i, q.pc = .call i → ∃ v, q'.handled = q.handled ++ [v] ∧ q1'.handled = q1.handled ++ [v]) := by
  unfold Q.work at h ⊢
  rw [hpc]
  split at h <;> rename_i hp <;> simp only [hp, reduceCtorEq, forall_const, false_imp_iff, false_or, or_false, Pc.call.injEq] at hc ht hs hs' hd ⊢
  · cases h
    exact ⟨_, rfl, by simp only [hc], hh, by simp, by simp⟩
  · cases h
    exact ⟨_, rfl, by simp only [ht, hh], hh, by simp, by simp⟩
  · cases h
    exact ⟨_, rfl, by simp only [ht, hh], hh, by simp, by simp⟩
  · rw [hn, hh, hs]
    split at h
    · rename_i hx
      cases h
      exact ⟨_, rfl, rfl, rfl, by simp, by simp⟩
    · rename_i hx
      cases h
      exact ⟨_, rfl, rfl, rfl, by simp, by simp⟩
    · cases h
  · cases h
    exact ⟨_, rfl, by simp only [hh], by simp only [hh], by simp, by simp⟩
  · rename_i i
    rw [hn, hs' i rfl, hd ⟨i, rfl⟩]
    split at h
    · rename_i v hx
      cases h1 : timeForUnit q.stat with
      | ok a =>
        rw [h1] at h
        cases h2 : bufferUtilization q.stat with
        | ok b =>
          rw [h2] at h
          simp only [Res.ok_bind, Res.ok.injEq] at h
          subst h
          exact ⟨_, rfl, rfl, hh, by simp, fun _ _ => ⟨v, rfl, rfl⟩⟩
        | ub => rw [h2] at h; cases h
        | hang => rw [h2] at h; cases h
      | ub => rw [h1] at h; cases h
      | hang => rw [h1] at h; cases h
    · cases h
  · cases h
    exact ⟨_, rfl, rfl, hh, by simp [ht, hh, hd], by simp⟩
  · cases h

namespace HB

/-- The changes that a step may make. -/
structure Changes (st st' : Stage α) (os : List (Op Loc Obj)) : Prop where
  slot : ∀ k : Nat, st'.q.slots[k]? ≠ st.q.slots[k]? → ∃ tag, .acc (.slot k) true tag ∈ os
  stat : st'.q.stat ≠ st.q.stat → ∃ tag, .acc .stat true tag ∈ os
  tail : st'.q.tail ≠ st.q.tail → .acq .tail ∈ os ∧ .rel .tail ∈ os
  closed : st'.closed ≠ st.closed → .rel .closed ∈ os

theorem Changes.none (st : Stage α) (os : List (Op Loc Obj)) : Changes st st os :=
  ⟨fun _ h => absurd rfl h, fun h => absurd rfl h, fun h => absurd rfl h, fun h => absurd rfl h⟩

theorem changes {m : State α} {st' : Stage α} {l : Lbl α} {sl : Label α} (hb : l.stage = some sl)
    (h : Stage.Step m.st sl (.ok st')) : Changes m.st st' (ops m l) := by
  rcases h.cases_ok with ⟨p, x, rfl, _, _, he⟩ | ⟨p, i, x, q, rfl, hp, hq, he⟩ | ⟨rfl, _, _, he⟩ | ⟨e, q, rfl, _, hq, he⟩
  · cases l <;> simp only [Lbl.stage, Option.some.injEq, reduceCtorEq, Label.begin.injEq] at hb
    rw [he]
    exact ⟨fun _ h => absurd rfl h, fun h => absurd rfl h, fun _ => by simp [ops], fun h => absurd rfl h⟩
  · cases l <;> simp only [Lbl.stage, Option.some.injEq, reduceCtorEq, Label.store.injEq] at hb
    subst hb
    rw [he]
    unfold Q.store at hq
    split at hq
    · cases hq
      refine ⟨fun k hk => ⟨i, ?_⟩, fun h => absurd rfl h, fun h => absurd rfl h, fun h => absurd rfl h⟩
      by_cases hki : i % m.st.q.slots.length = k
      · subst hki
        simp [ops, storeOps, hp]
      · exact absurd (List.getElem?_set_ne hki) hk
    · cases hq
  · cases l <;> simp only [Lbl.stage, Option.some.injEq, reduceCtorEq] at hb
    rw [he]
    exact ⟨fun _ h => absurd rfl h, fun h => absurd rfl h, fun h => absurd rfl h, fun _ => by simp [ops]⟩
  · cases l <;> simp only [Lbl.stage, Option.some.injEq, reduceCtorEq, Label.work.injEq] at hb
    rw [he]
    have := Q.work_changes hq
    refine ⟨fun k hk => absurd (by rw [this.1]) hk, fun hk => ⟨0, ?_⟩, fun hk => absurd this.2.1 hk, fun h => absurd rfl h⟩
    simp [ops, workOps, this.2.2.1 hk]

/-- **C77.** A step records the accesses that it makes; a slot or the deque of samples that changes in a step is among what it writes, a
change of `queue_.tail` comes with a read-modify-write operation, and one of `closed_` with a store. -/
theorem C77_accesses {m m' : State α} {l : Lbl α} (h : Step m l m') :
    m'.mem = m.mem.run l.who (ops m l) ∧
    (∀ k : Nat, m'.st.q.slots[k]? ≠ m.st.q.slots[k]? → ∃ tag, .acc (.slot k) true tag ∈ ops m l) ∧
    (m'.st.q.stat ≠ m.st.q.stat → ∃ tag, .acc .stat true tag ∈ ops m l) ∧
    (m'.st.q.tail ≠ m.st.q.tail → .acq .tail ∈ ops m l ∧ .rel .tail ∈ ops m l) ∧
    (m'.st.closed ≠ m.st.closed → .rel .closed ∈ ops m l) := by
  obtain ⟨h1, h2⟩ := h
  unfold StageStep at h1
  have hc : Changes m.st m'.st (ops m l) := by
    cases hb : l.stage with
    | none =>
      rw [hb] at h1
      dsimp only at h1
      rw [h1.2]
      exact .none _ _
    | some sl =>
      rw [hb] at h1
      exact changes hb h1
  exact ⟨h2, hc.slot, hc.stat, hc.tail, hc.closed⟩

/-- **C77.** What a step of the worker does, and what the handler gets, depend only on where the worker is, on its own counter, and on
what the step records (and, while it is false, on `closed_`). -/
theorem C77_depends {m m1 : State α} {e : Int} {q : Q α} (h : m.st.q.work m.st.closed e = .ok q)
    (hpc : m1.st.q.pc = m.st.q.pc) (hh : m1.st.q.head = m.st.q.head) (hn : m1.st.q.slots.length = m.st.q.slots.length)
    (hc : m1.st.closed = m.st.closed) (ht : .acq .tail ∈ ops m (.work e) → m1.st.q.tail = m.st.q.tail)
    (hs : ∀ k wr tag, .acc (.slot k) wr tag ∈ ops m (.work e) → m1.st.q.slots[k]? = m.st.q.slots[k]?)
    (hd : ∀ wr tag, .acc .stat wr tag ∈ ops m (.work e) → m1.st.q.stat = m.st.q.stat) :
    ∃ q1, m1.st.q.work m1.st.closed e = .ok q1 ∧ q1.pc = q.pc ∧ q1.head = q.head ∧
      (m.st.q.pc = .stat → q1.stat = q.stat) ∧
      (∀ i, m.st.q.pc = .call i → ∃ v, q.handled = m.st.q.handled ++ [v] ∧ q1.handled = m1.st.q.handled ++ [v]) := by
  refine Q.work_depends h hpc hh hn (fun _ => hc) (fun hx => ht ?_) (fun hx => hs _ false m.st.q.head ?_)
    (fun i hx => hs _ false i ?_) fun hx => ?_
  · rcases hx with hx | hx | hx <;> simp [ops, workOps, hx]
  · simp [ops, workOps, hx]
  · simp [ops, workOps, hx]
  · rcases hx with ⟨i, hx⟩ | hx
    · exact hd false 0 (by simp [ops, workOps, hx])
    · exact hd true 0 (by simp [ops, workOps, hx])

/-- A push changes the counter. -/
example : ∃ m', Step (State.new 4 : State Nat) (.begin 0 7) m' ∧ m'.st.q.tail ≠ (State.new 4 : State Nat).st.q.tail ∧
    .rel .tail ∈ ops (State.new 4 : State Nat) (.begin 0 7) :=
  ⟨⟨_, _⟩, ⟨.begin _ 0 7 rfl rfl, rfl⟩, by simp [State.new, Stage.new, Q.new, Q.claim, word], by simp [ops]⟩

end HB

namespace Life

theorem mem_lift {o : Op HB.Loc HB.Obj} {m : State α} {l : HB.Lbl α} (h : o ∈ HB.ops ⟨m.st, Mem.new⟩ l) : lift o ∈ ops m (.base l) :=
  List.mem_append_left _ (List.mem_map.2 ⟨o, h, rfl⟩)

/-- **C126.** A step records the accesses that it makes; a slot or the deque of samples that changes in a step is among what it writes, a
change of `queue_.tail` comes with a read-modify-write operation, one of `closed_` with a store, and the end of the worker with
what `join` waits for. -/
theorem C126_accesses {m m' : State α} {l : Lbl α} (h : Step m l m') :
    m'.mem = m.mem.run l.who (ops m l) ∧
    (∀ k : Nat, m'.st.q.slots[k]? ≠ m.st.q.slots[k]? → ∃ tag, .acc (.own (.slot k)) true tag ∈ ops m l) ∧
    (m'.st.q.stat ≠ m.st.q.stat → ∃ tag, .acc (.own .stat) true tag ∈ ops m l) ∧
    (m'.st.q.tail ≠ m.st.q.tail → .acq (.own .tail) ∈ ops m l ∧ .rel (.own .tail) ∈ ops m l) ∧
    (m'.st.closed ≠ m.st.closed → .rel (.own .closed) ∈ ops m l) ∧
    (m'.st.q.pc = .ended → m.st.q.pc ≠ .ended → .rel .done ∈ ops m l) := by
  obtain ⟨h1, h2, -, -⟩ := h
  unfold StageStep at h1
  refine ⟨h2, ?_⟩
  cases hb : l.stage with
  | none =>
    rw [hb] at h1
    dsimp only at h1
    rw [h1.2]
    exact ⟨fun _ h => absurd rfl h, fun h => absurd rfl h, fun h => absurd rfl h, fun h => absurd rfl h, fun h hn => absurd h hn⟩
  | some sl =>
    cases l with
    | join p => cases hb
    | touch t d wr => cases hb
    | base l =>
      rw [hb] at h1
      dsimp only at h1
      have hc := HB.changes (m := ⟨m.st, Mem.new⟩) hb h1
      refine ⟨fun k hk => ?_, fun hk => ?_, fun hk => ⟨mem_lift (hc.tail hk).1, mem_lift (hc.tail hk).2⟩,
        fun hk => mem_lift (hc.closed hk), fun he hn => ?_⟩
      · obtain ⟨tag, ht⟩ := hc.slot k hk
        exact ⟨tag, mem_lift ht⟩
      · obtain ⟨tag, ht⟩ := hc.stat hk
        exact ⟨tag, mem_lift ht⟩
      · rcases h1.cases_ok with ⟨p, x, rfl, _, _, hq⟩ | ⟨p, i, x, q, rfl, hp, hq, hq'⟩ | ⟨rfl, _, _, hq⟩ | ⟨e, q, rfl, _, hq, hq'⟩
        · rw [hq] at he
          exact absurd he hn
        · rw [hq'] at he
          unfold Q.store at hq
          split at hq
          · cases hq
            exact absurd he hn
          · cases hq
        · rw [hq] at he
          exact absurd he hn
        · rw [hq'] at he
          cases l <;> simp only [Lbl.stage, HB.Lbl.stage, Option.some.injEq, reduceCtorEq, Label.work.injEq] at hb
          refine List.mem_append_right _ ?_
          unfold Q.work at hq
          unfold ending
          split at hq <;> rename_i hpc
          · cases hq
            dsimp only at he
            split at he <;> cases he
          · cases hq
            dsimp only at he
            split at he
            · cases he
            · rename_i hz
              rw [if_pos ⟨hpc, by omega⟩]
              exact List.mem_singleton.2 rfl
          · cases hq
            dsimp only at he
            split at he <;> cases he
          · split at hq <;> cases hq <;> cases he
          · cases hq
            cases he
          · split at hq
            · cases h1 : timeForUnit m.st.q.stat with
              | ok a =>
                rw [h1] at hq
                cases h2 : bufferUtilization m.st.q.stat with
                | ok b =>
                  rw [h2] at hq
                  simp only [Res.ok_bind, Res.ok.injEq] at hq
                  subst hq
                  cases he
                | ub => rw [h2] at hq; cases hq
                | hang => rw [h2] at hq; cases hq
              | ub => rw [h1] at hq; cases hq
              | hang => rw [h1] at hq; cases hq
            · cases hq
          · cases hq
            cases he
          · cases hq

/-- **C126.** What `join` waits for is recorded only when the worker ends. -/
theorem C126_ends {m m' : State α} {l : Lbl α} (h : Step m l m') (hd : .rel .done ∈ ops m l) :
    m'.st.q.pc = .ended ∧ m.st.q.pc = .drain := by
  obtain ⟨h1, -, -, -⟩ := h
  unfold StageStep at h1
  cases l with
  | join p => simp [ops] at hd
  | touch t d wr => simp [ops] at hd
  | base l =>
    rcases List.mem_append.1 hd with hd | hd
    · obtain ⟨o, _, ho⟩ := List.mem_map.1 hd
      cases o <;> cases ho
    · cases l <;> simp only [ending, List.not_mem_nil] at hd
      split at hd
      · rename_i e hz
        dsimp only [Lbl.stage, HB.Lbl.stage] at h1
        rcases h1.cases_ok with ⟨p, x, h, _⟩ | ⟨p, i, x, q, h, _⟩ | ⟨h, _⟩ | ⟨e', q, h, _, hq, hq'⟩
        · cases h
        · cases h
        · cases h
        · cases h
          rw [hq']
          unfold Q.work at hq
          rw [hz.1] at hq
          dsimp only at hq
          rw [if_neg (by omega)] at hq
          cases hq
          exact ⟨rfl, hz.1⟩
      · cases hd

end Life

namespace Pool.HB

/-- **C116, C118.** A step records the accesses that it makes; a slot or a deque of samples that changes in a step is among what it
writes, a change of a counter comes with a read-modify-write operation, and one of `closed_` with a store. -/
theorem C118_accesses {size : Nat} {tf : Bool} {m m' : State α} {l : Lbl α} (h : Step size tf m l m') :
    m'.mem = m.mem.run l.who (ops tf m l) ∧
    (∀ n k : Nat, (m'.st.qs n).slots[k]? ≠ (m.st.qs n).slots[k]? → ∃ tag, .acc (.slot n k) true tag ∈ ops tf m l) ∧
    (∀ n, (m'.st.qs n).stat ≠ (m.st.qs n).stat → ∃ tag, .acc (.stat n) true tag ∈ ops tf m l) ∧
    (∀ n, (m'.st.qs n).tail ≠ (m.st.qs n).tail → .acq (.tail n) ∈ ops tf m l ∧ .rel (.tail n) ∈ ops tf m l) ∧
    (∀ n, (m'.st.qs n).head ≠ (m.st.qs n).head → .acq (.head n) ∈ ops tf m l ∧ .rel (.head n) ∈ ops tf m l) ∧
    (m'.st.closed ≠ m.st.closed → .rel .closed ∈ ops tf m l) := by
  obtain ⟨h1, h2, -, -⟩ := h
  unfold PoolStep at h1
  refine ⟨h2, ?_⟩
  have same : m'.st.qs = m.st.qs → m'.st.closed = m.st.closed →
      (∀ n k : Nat, (m'.st.qs n).slots[k]? ≠ (m.st.qs n).slots[k]? → ∃ tag, .acc (.slot n k) true tag ∈ ops tf m l) ∧
      (∀ n, (m'.st.qs n).stat ≠ (m.st.qs n).stat → ∃ tag, .acc (.stat n) true tag ∈ ops tf m l) ∧
      (∀ n, (m'.st.qs n).tail ≠ (m.st.qs n).tail → .acq (.tail n) ∈ ops tf m l ∧ .rel (.tail n) ∈ ops tf m l) ∧
      (∀ n, (m'.st.qs n).head ≠ (m.st.qs n).head → .acq (.head n) ∈ ops tf m l ∧ .rel (.head n) ∈ ops tf m l) ∧
      (m'.st.closed ≠ m.st.closed → .rel .closed ∈ ops tf m l) := by
    intro e1 e2
    rw [e1, e2]
    exact ⟨fun _ _ h => absurd rfl h, fun _ h => absurd rfl h, fun _ h => absurd rfl h, fun _ h => absurd rfl h,
      fun h => absurd rfl h⟩
  cases hb : l.pool with
  | none =>
    rw [hb] at h1
    dsimp only at h1
    exact same (by rw [h1.2]) (by rw [h1.2])
  | some sl =>
    rw [hb] at h1
    dsimp only at h1
    generalize hr : Res.ok m'.st = r at h1
    cases l <;> simp only [Lbl.pool, Option.some.injEq, reduceCtorEq] at hb <;> subst hb <;> cases h1
    case start.start p x _ _ =>
      simp only [Res.ok.injEq] at hr
      exact same (by rw [hr]) (by rw [hr])
    case scan.scan => simp only [Res.ok.injEq] at hr; exact same (by rw [hr]) (by rw [hr])
    case scan.read => simp only [Res.ok.injEq] at hr; exact same (by rw [hr]) (by rw [hr])
    case claim.claim p x id seen hp =>
      simp only [Res.ok.injEq] at hr
      rw [hr]
      dsimp only
      refine ⟨fun n k hk => ?_, fun n hk => ?_, fun n hk => ?_, fun n hk => ?_, fun h => absurd rfl h⟩ <;>
        by_cases hn : n = id
      · subst hn; exact absurd (by rw [upd_same]; rfl) hk
      · exact absurd (by rw [upd_other _ _ hn]) hk
      · subst hn; exact absurd (by rw [upd_same]; rfl) hk
      · exact absurd (by rw [upd_other _ _ hn]) hk
      · subst hn; simp [ops, claimOps, hp]
      · exact absurd (by rw [upd_other _ _ hn]) hk
      · subst hn; exact absurd (by rw [upd_same]; rfl) hk
      · exact absurd (by rw [upd_other _ _ hn]) hk
    case store.store p x id i hp =>
      unfold Q.store at hr
      split at hr
      · simp only [Res.ok_bind, Res.pure_eq, Res.ok.injEq] at hr
        rw [hr]
        dsimp only
        refine ⟨fun n k hk => ?_, fun n hk => ?_, fun n hk => ?_, fun n hk => ?_, fun h => absurd rfl h⟩ <;>
          by_cases hn : n = id
        · subst hn
          refine ⟨i, ?_⟩
          by_cases hki : i % (m.st.qs n).slots.length = k
          · subst hki
            simp [ops, storeOps, hp]
          · exact absurd (by rw [upd_same]; exact List.getElem?_set_ne hki) hk
        · exact absurd (by rw [upd_other _ _ hn]) hk
        · subst hn; exact absurd (by rw [upd_same]) hk
        · exact absurd (by rw [upd_other _ _ hn]) hk
        · subst hn; exact absurd (by rw [upd_same]) hk
        · exact absurd (by rw [upd_other _ _ hn]) hk
        · subst hn; exact absurd (by rw [upd_same]) hk
        · exact absurd (by rw [upd_other _ _ hn]) hk
      · cases hr
    case close.close =>
      simp only [Res.ok.injEq] at hr
      rw [hr]
      exact ⟨fun _ _ h => absurd rfl h, fun _ h => absurd rfl h, fun _ h => absurd rfl h, fun _ h => absurd rfl h,
        fun _ => by simp [ops]⟩
    case work.work w e hw hne =>
      split at hr
      · cases hq : (m.st.qs w).work m.st.closed e with
        | ub => rw [hq] at hr; cases hr
        | hang => rw [hq] at hr; cases hr
        | ok q =>
          rw [hq] at hr
          simp only [Res.ok_bind, Res.pure_eq, Res.ok.injEq] at hr
          rw [hr]
          dsimp only
          have hc := Q.work_changes hq
          refine ⟨fun n k hk => ?_, fun n hk => ?_, fun n hk => ?_, fun n hk => ?_, fun h => absurd rfl h⟩ <;>
            by_cases hn : n = w
          · subst hn; exact absurd (by rw [upd_same, hc.1]) hk
          · exact absurd (by rw [upd_other _ _ hn]) hk
          · subst hn
            rw [upd_same] at hk
            exact ⟨0, by simp [ops, workOps, hc.2.2.1 hk]⟩
          · exact absurd (by rw [upd_other _ _ hn]) hk
          · subst hn; exact absurd (by rw [upd_same, hc.2.1]) hk
          · exact absurd (by rw [upd_other _ _ hn]) hk
          · subst hn
            rw [upd_same] at hk
            simp [ops, workOps, hc.2.2.2 hk]
          · exact absurd (by rw [upd_other _ _ hn]) hk
      · cases hr

/-- **C116, C118.** What a step of a worker does, and what the handler gets, depend only on where the worker is and on what the step
records (and, while it is false, on `closed_`). -/
theorem C118_depends {tf : Bool} {m m1 : State α} {n : Nat} {e : Int} {q : Q α} (h : (m.st.qs n).work m.st.closed e = .ok q)
    (hpc : (m1.st.qs n).pc = (m.st.qs n).pc) (hn : (m1.st.qs n).slots.length = (m.st.qs n).slots.length)
    (hc : m1.st.closed = m.st.closed) (ht : .acq (.tail n) ∈ ops tf m (.work n e) → (m1.st.qs n).tail = (m.st.qs n).tail)
    (hh : .acq (.head n) ∈ ops tf m (.work n e) → (m1.st.qs n).head = (m.st.qs n).head)
    (hs : ∀ k wr tag, .acc (.slot n k) wr tag ∈ ops tf m (.work n e) → (m1.st.qs n).slots[k]? = (m.st.qs n).slots[k]?)
    (hd : ∀ wr tag, .acc (.stat n) wr tag ∈ ops tf m (.work n e) → (m1.st.qs n).stat = (m.st.qs n).stat) :
    ∃ q1, (m1.st.qs n).work m1.st.closed e = .ok q1 ∧ q1.pc = q.pc ∧
      ((m.st.qs n).pc = .take → q1.head = q.head) ∧ ((m.st.qs n).pc = .stat → q1.stat = q.stat) ∧
      (∀ i, (m.st.qs n).pc = .call i → ∃ v, q.handled = (m.st.qs n).handled ++ [v] ∧ q1.handled = (m1.st.qs n).handled ++ [v]) := by
  by_cases hx : (m.st.qs n).pc = .outer ∨ ∃ i, (m.st.qs n).pc = .call i
  · -- the own counter is not read in these two steps
    have key := Q.work_depends (q1 := { m1.st.qs n with head := (m.st.qs n).head }) (c1 := m1.st.closed) h hpc rfl hn (fun _ => hc)
      (fun hx' => by
        rcases hx with hx | ⟨i, hx⟩ <;> rcases hx' with hx' | hx' | hx' <;> rw [hx] at hx' <;> cases hx')
      (fun hx' => by rcases hx with hx | ⟨i, hx⟩ <;> rw [hx] at hx' <;> cases hx')
      (fun i hx' => hs _ false i (by simp [ops, workOps, hx']))
      (fun hx' => by
        rcases hx' with ⟨i, hx'⟩ | hx'
        · exact hd false 0 (by simp [ops, workOps, hx'])
        · exact hd true 0 (by simp [ops, workOps, hx']))
    obtain ⟨q1, h1, h2, _, _, h5⟩ := key
    rcases hx with hx | ⟨i, hx⟩
    · unfold Q.work at h1 ⊢
      rw [show ({ m1.st.qs n with head := (m.st.qs n).head } : Q α).pc = .outer from hpc.trans hx] at h1
      rw [hpc, hx]
      cases h1
      exact ⟨_, rfl, h2, by simp, by simp, by simp⟩
    · obtain ⟨v, h6, h7⟩ := h5 i hx
      unfold Q.work at h1 ⊢
      rw [show ({ m1.st.qs n with head := (m.st.qs n).head } : Q α).pc = .call i from hpc.trans hx] at h1
      rw [hpc, hx]
      dsimp only at h1 ⊢
      split at h1
      · cases h3 : timeForUnit (m1.st.qs n).stat with
        | ok a =>
          rw [h3] at h1
          cases h4 : bufferUtilization (m1.st.qs n).stat with
          | ok b =>
            rw [h4] at h1
            simp only [Res.ok_bind, Res.ok.injEq] at h1
            subst h1
            exact ⟨_, rfl, h2, by simp, by simp, fun _ _ => ⟨v, h6, h7⟩⟩
          | ub => rw [h4] at h1; cases h1
          | hang => rw [h4] at h1; cases h1
        | ub => rw [h3] at h1; cases h1
        | hang => rw [h3] at h1; cases h1
      · cases h1
  · have hh : (m1.st.qs n).head = (m.st.qs n).head := by
      apply hh
      cases hp : (m.st.qs n).pc with
      | outer => exact absurd (.inl hp) hx
      | call i => exact absurd (.inr ⟨i, hp⟩) hx
      | ended => unfold Q.work at h; rw [hp] at h; cases h
      | _ => simp [ops, workOps, hp]
    obtain ⟨q1, h1, h2, h3, h4, h5⟩ := Q.work_depends (c1 := m1.st.closed) h hpc hh hn (fun _ => hc)
      (fun hx' => ht (by rcases hx' with hx' | hx' | hx' <;> simp [ops, workOps, hx']))
      (fun hx' => hs _ false (m.st.qs n).head (by simp [ops, workOps, hx']))
      (fun i hx' => hs _ false i (by simp [ops, workOps, hx']))
      (fun hx' => by
        rcases hx' with ⟨i, hx'⟩ | hx'
        · exact hd false 0 (by simp [ops, workOps, hx'])
        · exact hd true 0 (by simp [ops, workOps, hx']))
    exact ⟨q1, h1, h2, fun _ => h3, h4, h5⟩

/-- **C118.** What `join` waits for is recorded when a worker ends, and only then. -/
theorem C118_ends {size : Nat} {tf : Bool} {m m' : State α} {l : Lbl α} (h : Step size tf m l m') (n : Nat) :
    .rel (.done n) ∈ ops tf m l ↔ ((m'.st.qs n).pc = .ended ∧ (m.st.qs n).pc ≠ .ended) := by
  obtain ⟨h1, -, -, -⟩ := h
  unfold PoolStep at h1
  have same : (∀ k, (m'.st.qs k).pc = (m.st.qs k).pc) → .rel (.done n) ∉ ops tf m l →
      (.rel (.done n) ∈ ops tf m l ↔ ((m'.st.qs n).pc = .ended ∧ (m.st.qs n).pc ≠ .ended)) := by
    intro e hn
    rw [e]
    exact ⟨fun h => absurd h hn, fun ⟨h, h'⟩ => absurd h h'⟩
  cases hb : l.pool with
  | none =>
    rw [hb] at h1
    dsimp only at h1
    refine same (fun k => by rw [h1.2]) ?_
    cases l <;> simp only [Lbl.pool, reduceCtorEq] at hb <;> simp only [ops]
    · unfold joinOps
      split <;> simp
    all_goals simp
  | some sl =>
    rw [hb] at h1
    dsimp only at h1
    generalize hr : Res.ok m'.st = r at h1
    cases l <;> simp only [Lbl.pool, Option.some.injEq, reduceCtorEq] at hb <;> subst hb <;> cases h1
    case start.start => simp only [Res.ok.injEq] at hr; exact same (fun k => by rw [hr]) (by simp [ops])
    case scan.scan =>
      simp only [Res.ok.injEq] at hr
      refine same (fun k => by rw [hr]) ?_
      simp only [ops, scanOps]
      split <;> simp
    case scan.read =>
      simp only [Res.ok.injEq] at hr
      refine same (fun k => by rw [hr]) ?_
      simp only [ops, scanOps]
      split <;> simp
    case claim.claim p x id seen hp =>
      simp only [Res.ok.injEq] at hr
      refine same (fun k => ?_) (by simp [ops, claimOps, hp])
      rw [hr]
      dsimp only
      by_cases hn : k = id
      · subst hn; rw [upd_same]; rfl
      · rw [upd_other _ _ hn]
    case store.store p x id i hp =>
      unfold Q.store at hr
      split at hr
      · simp only [Res.ok_bind, Res.pure_eq, Res.ok.injEq] at hr
        refine same (fun k => ?_) (by simp [ops, storeOps, hp])
        rw [hr]
        dsimp only
        by_cases hn : k = id
        · subst hn; rw [upd_same]
        · rw [upd_other _ _ hn]
      · cases hr
    case close.close => simp only [Res.ok.injEq] at hr; exact same (fun k => by rw [hr]) (by simp [ops])
    case work.work w e hw hne =>
      split at hr
      · cases hq : (m.st.qs w).work m.st.closed e with
        | ub => rw [hq] at hr; cases hr
        | hang => rw [hq] at hr; cases hr
        | ok q =>
          rw [hq] at hr
          simp only [Res.ok_bind, Res.pure_eq, Res.ok.injEq] at hr
          rw [hr]
          dsimp only
          by_cases hn : n = w
          · subst hn
            rw [upd_same]
            refine ⟨fun hd => ⟨?_, hne⟩, fun ⟨he, _⟩ => ?_⟩
            · simp only [ops, workOps] at hd
              unfold Q.work at hq
              split at hd <;> rename_i hpc
              · split at hd <;> simp at hd
              · rw [hpc] at hq
                dsimp only at hq
                split at hd
                · simp at hd
                · rename_i hz
                  rw [if_neg hz] at hq
                  cases hq
                  rfl
              all_goals simp at hd
            · unfold Q.work at hq
              split at hq <;> rename_i hpc
              · cases hq
                dsimp only at he
                split at he <;> cases he
              · cases hq
                dsimp only at he
                split at he
                · cases he
                · rename_i hz
                  simp [ops, workOps, hpc, hz]
              · cases hq
                dsimp only at he
                split at he <;> cases he
              · split at hq <;> cases hq <;> cases he
              · cases hq
                cases he
              · split at hq
                · cases h1 : timeForUnit (m.st.qs n).stat with
                  | ok a =>
                    rw [h1] at hq
                    cases h2 : bufferUtilization (m.st.qs n).stat with
                    | ok b =>
                      rw [h2] at hq
                      simp only [Res.ok_bind, Res.ok.injEq] at hq
                      subst hq
                      cases he
                    | ub => rw [h2] at hq; cases hq
                    | hang => rw [h2] at hq; cases hq
                  | ub => rw [h1] at hq; cases hq
                  | hang => rw [h1] at hq; cases hq
                · cases hq
              · cases hq
                cases he
              · cases hq
          · rw [upd_other _ _ hn]
            refine ⟨fun hd => ?_, fun ⟨h, h'⟩ => absurd h h'⟩
            simp only [ops, workOps] at hd
            split at hd
            · split at hd <;> simp at hd
            · split at hd
              · simp at hd
              · simp [hn] at hd
            all_goals simp at hd
      · cases hr

/-- A push changes a counter. -/
example : ∃ m', Step 2 true ⟨{ Pool.State.new 4 with prod := fun _ => .chosen 7 1 [] }, Mem.new, none, []⟩ (.claim 0) m' ∧
    (m'.st.qs 1).tail ≠ 0 :=
  ⟨⟨_, _, _, _⟩, ⟨.claim _ 0 7 1 [] rfl, rfl, rfl, rfl⟩, by simp [Pool.State.new, upd, Q.new, Q.claim, word]⟩

end Pool.HB
end Verif.Pipeline
