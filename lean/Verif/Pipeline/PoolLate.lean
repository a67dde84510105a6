import Verif.Pipeline.LateProps
import Verif.Pipeline.PoolCalm
/-!
Pushes into a `pipeline_stage_pool` (`include/xitren/comm/pipeline_stage_pool.hpp`) while another thread destroys it.

`Pool` lets the destructor begin only when no push is under way and none begins afterwards.  Here a push may begin at any time
before the destructor has returned, and may be under way when it returns.  A push that begins after that is not modelled: it is
a call of a member function of an object that does not exist.
-/
namespace Verif.Pipeline.Pool.Ending
open Verif Verif.Pipeline Verif.Pipeline.Pool

variable {α : Type}

/-- A pool, and how far its destruction is (pipeline_stage_pool.hpp:101-109, 153-159).  `gone`: the destructor has returned.
The other two only record what happened: `cut n` is the number of pushes that had incremented the counter of queue `n` when its
worker left its loop, `late` are the items whose pushes incremented a counter after the worker of that queue had left its
loop. -/
structure Dying (α : Type) where
  st : State α
  cut : Nat → Option Nat
  late : List α
  gone : Bool

/-- A pool whose constructor has returned (pipeline_stage_pool.hpp:54-99). -/
def Dying.new (b : Nat) : Dying α := ⟨State.new b, fun _ => none, [], false⟩

/-- The steps of `Pool`, and the return of the destructor (pipeline_stage_pool.hpp:54-129). -/
inductive Act (α : Type) where
  | step (l : Label α)
  | leave

/-- One step of a pool with `size` workers; `tailFirst` as in `Pool.Step`.  Once the destructor has returned the members are
gone, and a push that is under way uses them all the same (pipeline_stage_pool.hpp:54-178). -/
inductive Step (size : Nat) (tailFirst : Bool) : Dying α → Act α → Res (Dying α) → Prop
  /-- `push(x)` begins, also after `closed_` was set (pipeline_stage_pool.hpp:114, 164-167). -/
  | start (s : Dying α) (p : Nat) (x : α) : s.gone = false → s.st.prod p = .idle →
      Step size tailFirst s (.step (.start p x)) (.ok
        { s with st := { s.st with prod := upd s.st.prod p (.scan x 0 (intMax, 0) []) } })
  /-- The first counter of queue `k` is read (pipeline_stage_pool.hpp:168). -/
  | scan (s : Dying α) (p : Nat) (x : α) (k : Nat) (acc : Nat × Nat) (seen : List Nat) :
      s.st.prod p = .scan x k acc seen →
      Step size tailFirst s (.step (.scan p)) (if s.gone then .ub else .ok
        { s with st :=
          { s.st with
            prod := upd s.st.prod p
              (.read x k (if tailFirst then (s.st.qs k).tail else (s.st.qs k).head) acc seen) } })
  /-- The second counter is read and the minimum updated (pipeline_stage_pool.hpp:168-173). -/
  | read (s : Dying α) (p : Nat) (x : α) (k v : Nat) (acc : Nat × Nat) (seen : List Nat) :
      s.st.prod p = .read x k v acc seen →
      Step size tailFirst s (.step (.scan p)) (if s.gone then .ub else .ok
        { s with st :=
          { s.st with
            prod := upd s.st.prod p (nextScan x k
              (if tailFirst then (v + word - (s.st.qs k).head) % word else ((s.st.qs k).tail + word - v) % word)
              acc seen) } })
  /-- `i = tail++` (pipeline_stage_pool.hpp:115, 126). -/
  | claim (s : Dying α) (p : Nat) (x : α) (id : Nat) (seen : List Nat) : s.st.prod p = .chosen x id seen →
      Step size tailFirst s (.step (.claim p)) (if s.gone then .ub else .ok
        { s with
          st :=
            { s.st with
              qs := upd s.st.qs id ((s.st.qs id).claim x)
              prod := upd s.st.prod p (.claimed x id (s.st.qs id).tail)
              pushed := s.st.pushed ++ [x] }
          late := if (s.st.qs id).pc = .ended then s.late ++ [x] else s.late })
  /-- The store (pipeline_stage_pool.hpp:116, 127). -/
  | store (s : Dying α) (p : Nat) (x : α) (id i : Nat) : s.st.prod p = .claimed x id i →
      Step size tailFirst s (.step (.store p)) (if s.gone then .ub else do
        let q ← (s.st.qs id).store i x
        return { s with st :=
          { s.st with
            qs := upd s.st.qs id q
            prod := upd s.st.prod p .idle } })
  /-- The destructor sets `closed_`, whatever pushes are under way (pipeline_stage_pool.hpp:103). -/
  | close (s : Dying α) : s.st.closed = false →
      Step size tailFirst s (.step .close) (.ok { s with st := { s.st with closed := true } })
  /-- A step of worker `n`; `pool_[n]` does not exist if `n ≥ 8` (pipeline_stage_pool.hpp:61-91). -/
  | work (s : Dying α) (n : Nat) (e : Int) : n < size → (s.st.qs n).pc ≠ .ended →
      Step size tailFirst s (.step (.work n e)) (
        if n < 8 then do
          let q ← (s.st.qs n).work s.st.closed e
          return { s with
            st := { s.st with qs := upd s.st.qs n q }
            cut := upd s.cut n (Late.mark q) }
        else .ub)
  /-- All workers have been joined, and the members are destroyed (pipeline_stage_pool.hpp:104-109, 153-159). -/
  | leave (s : Dying α) : s.gone = false → s.st.closed = true → (∀ n, n < size → (s.st.qs n).pc = .ended) →
      Step size tailFirst s .leave (.ok { s with gone := true })

/-- The states that can be reached by steps that satisfy `G` (pipeline_stage_pool.hpp:54-178). -/
inductive Reach (b size : Nat) (tf : Bool) (G : Dying α → Act α → Prop) : Dying α → Prop
  | new : Reach b size tf G (Dying.new b)
  | step (s s' : Dying α) (l : Act α) : Reach b size tf G s → G s l → Step size tf s l (.ok s') → Reach b size tf G s'

/-- No restriction. -/
def anyStep : Dying α → Act α → Prop := fun _ _ => True

/-- The restriction `calm` of `Pool`, for queues whose worker has not ended: a push adds to such a queue only while fewer of its
items than it has slots are unhandled, and a worker takes an index only when the store for it is complete. -/
def calm : Dying α → Act α → Prop
  | s, .step (.claim p) => ∀ x id seen, s.st.prod p = .chosen x id seen → (s.st.qs id).pc ≠ .ended →
      (s.st.qs id).tail < (s.st.qs id).handled.length + (s.st.qs id).slots.length
  | s, .step (.work n _) => (s.st.qs n).pc = .take → ∀ p x, s.st.prod p ≠ .claimed x n (s.st.qs n).head
  | _, _ => True

/-- The cases of a step that returns. -/
theorem Step.cases_ok {size : Nat} {tf : Bool} {s s' : Dying α} {l : Act α} (h : Step size tf s l (.ok s')) :
    (∃ p st, s.gone = false ∧ (s.st.prod p).quiet ∧ st.quiet ∧ ((s.st.prod p).Ok → st.Ok) ∧
      s' = { s with st := { s.st with prod := upd s.st.prod p st } }) ∨
    (∃ p x id seen, l = .step (.claim p) ∧ s.gone = false ∧ s.st.prod p = .chosen x id seen ∧
      s' = { s with
        st :=
          { s.st with
            qs := upd s.st.qs id ((s.st.qs id).claim x)
            prod := upd s.st.prod p (.claimed x id (s.st.qs id).tail)
            pushed := s.st.pushed ++ [x] }
        late := if (s.st.qs id).pc = .ended then s.late ++ [x] else s.late }) ∨
    (∃ p x id i q, l = .step (.store p) ∧ s.gone = false ∧ s.st.prod p = .claimed x id i ∧ (s.st.qs id).store i x = .ok q ∧
      s' = { s with st := { s.st with qs := upd s.st.qs id q, prod := upd s.st.prod p .idle } }) ∨
    (l = .step .close ∧ s.st.closed = false ∧ s' = { s with st := { s.st with closed := true } }) ∨
    (∃ n e q, l = .step (.work n e) ∧ n < size ∧ n < 8 ∧ (s.st.qs n).pc ≠ .ended ∧
      (s.st.qs n).work s.st.closed e = .ok q ∧
      s' = { s with st := { s.st with qs := upd s.st.qs n q }, cut := upd s.cut n (Late.mark q) }) ∨
    (l = .leave ∧ s.gone = false ∧ s.st.closed = true ∧ (∀ n, n < size → (s.st.qs n).pc = .ended) ∧
      s' = { s with gone := true }) := by
  generalize hr : Res.ok s' = r at h
  cases h with
  | start p x h1 h2 =>
    cases hr
    exact .inl ⟨p, .scan x 0 (intMax, 0) [], h1, by rw [h2]; trivial, trivial, fun _ => ⟨by omega, by simp⟩, rfl⟩
  | scan p x k acc seen h1 =>
    split at hr
    · cases hr
    · rename_i hg
      cases hr
      exact .inl ⟨p, .read x k (if tf then (s.st.qs k).tail else (s.st.qs k).head) acc seen, by simpa using hg,
        by rw [h1]; trivial, trivial, fun ho => by rw [h1] at ho; exact ho, rfl⟩
  | read p x k v acc seen h1 =>
    split at hr
    · cases hr
    · rename_i hg
      cases hr
      refine .inl ⟨p, _, by simpa using hg, by rw [h1]; trivial, ?_, fun ho => ?_, rfl⟩
      · unfold nextScan
        split <;> trivial
      · rw [h1] at ho
        exact (nextScan_ok _ _ _ _ _ ho.1 ho.2).1
  | claim p x id seen h1 =>
    by_cases hg : s.gone = true
    · rw [if_pos hg] at hr; cases hr
    · rw [if_neg hg] at hr
      exact .inr (.inl ⟨p, x, id, seen, rfl, by simpa using hg, h1, Res.ok.inj hr⟩)
  | store p x id i h1 =>
    by_cases hg : s.gone = true
    · rw [if_pos hg] at hr; cases hr
    · rw [if_neg hg] at hr
      cases hq : (s.st.qs id).store i x with
      | ub => rw [hq] at hr; cases hr
      | hang => rw [hq] at hr; cases hr
      | ok q =>
        rw [hq] at hr
        simp only [Res.ok_bind, Res.pure_eq, Res.ok.injEq] at hr
        exact .inr (.inr (.inl ⟨p, x, id, i, q, rfl, by simpa using hg, h1, hq, hr⟩))
  | close h1 =>
    cases hr
    exact .inr (.inr (.inr (.inl ⟨rfl, h1, rfl⟩)))
  | work n e h1 h2 =>
    by_cases h8 : n < 8
    · rw [if_pos h8] at hr
      cases hq : (s.st.qs n).work s.st.closed e with
      | ub => rw [hq] at hr; cases hr
      | hang => rw [hq] at hr; cases hr
      | ok q =>
        rw [hq] at hr
        simp only [Res.ok_bind, Res.pure_eq, Res.ok.injEq] at hr
        exact .inr (.inr (.inr (.inr (.inl ⟨n, e, q, rfl, h1, h8, h2, hq, hr⟩))))
    · rw [if_neg h8] at hr; cases hr
  | leave h1 h2 h3 =>
    cases hr
    exact .inr (.inr (.inr (.inr (.inr ⟨rfl, h1, h2, h3, rfl⟩))))

/-- Once the destructor has returned, all workers have ended, and no step returns any more. -/
theorem Reach.over {b size : Nat} {tf : Bool} {G : Dying α → Act α → Prop} {s : Dying α} (h : Reach b size tf G s)
    (hg : s.gone = true) : s.st.closed = true ∧ ∀ n, n < size → (s.st.qs n).pc = .ended := by
  induction h with
  | new => cases hg
  | step s s' l _ _ hs ih =>
    rcases hs.cases_ok with ⟨p, st, h1, _, _, _, rfl⟩ | ⟨p, x, id, seen, _, h1, _, rfl⟩ | ⟨p, x, id, i, q, _, h1, _, _, rfl⟩ |
      ⟨_, hc, rfl⟩ | ⟨n, e, q, _, hn, _, hpc, _, rfl⟩ | ⟨_, _, h2, h3, rfl⟩
    · rw [h1] at hg; cases hg
    · rw [h1] at hg; cases hg
    · rw [h1] at hg; cases hg
    · rw [(ih hg).1] at hc; cases hc
    · exact absurd ((ih hg).2 n hn) hpc
    · exact ⟨h2, h3⟩

theorem Reach.prodOk {b size : Nat} {tf : Bool} {G : Dying α → Act α → Prop} {s : Dying α} (h : Reach b size tf G s) (p : Nat) :
    (s.st.prod p).Ok := by
  induction h generalizing p with
  | new => trivial
  | step s s' l _ _ hs ih =>
    rcases hs.cases_ok with ⟨p1, st, _, _, _, ho, rfl⟩ | ⟨p1, x, id, seen, _, _, h2, rfl⟩ |
      ⟨p1, x, id, i, q, _, _, h2, _, rfl⟩ | ⟨_, _, rfl⟩ | ⟨n, e, q, _, _, _, _, _, rfl⟩ | ⟨_, _, _, _, rfl⟩
    · simp only [upd]
      split
      · exact ho (ih p1)
      · exact ih p
    · simp only [upd]
      split
      · have := ih p1
        rw [h2] at this
        exact this
      · exact ih p
    · simp only [upd]
      split
      · trivial
      · exact ih p
    · exact ih p
    · exact ih p
    · exact ih p

/-! ### Each queue behaves like a stage -/

/-- What queue `k` and its worker see (no code). -/
def view (k : Nat) (s : Dying α) : Late α :=
  ⟨⟨s.st.qs k, s.st.closed, pendOf s.st.prod k⟩, s.cut k, s.gone && decide ((s.st.qs k).pc = .ended)⟩

theorem view_step {b size : Nat} {tf : Bool} {G : Dying α → Act α → Prop} {s s' : Dying α} {l : Act α}
    (hr : Reach b size tf G s) (h : Step size tf s l (.ok s')) (k : Nat) :
    view k s' = view k s ∨
    ∃ l', Late.Step (view k s) l' (.ok (view k s')) ∧ (calm s l → Late.tame (view k s) l') := by
  rcases h.cases_ok with ⟨p, st, hg, h1, h2, _, rfl⟩ | ⟨p, x, id, seen, rfl, hg, h2, rfl⟩ |
      ⟨p, x, id, i, q, rfl, hg, h2, hq, rfl⟩ | ⟨rfl, hc, rfl⟩ | ⟨n, e, q, rfl, hn, h8, hpc, hq, rfl⟩ | ⟨rfl, hg, h2, h3, rfl⟩
  · left
    simp only [view, pendOf_quiet h1 h2]
  · have hqt : (s.st.prod p).quiet := by rw [h2]; trivial
    by_cases hk : id = k
    · subst hk
      right
      refine ⟨.step (.begin p x), ?_, fun hcalm hne => hcalm x id seen h2 hne⟩
      have hv : (view id s).gone = false := by simp [view, hg]
      have hp : (view id s).st.pend p = none := by simp [view, pendOf, h2]
      have := Late.Step.begin (view id s) p x hv hp
      simpa only [view, pendOf_claim hqt, if_true, upd_same, hg, Bool.false_and] using this
    · left
      simp only [view, pendOf_claim hqt, if_neg hk, upd_other _ _ (fun e : k = id => hk e.symm)]
  · by_cases hk : id = k
    · subst hk
      right
      refine ⟨.step (.store p), ?_, fun _ _ => trivial⟩
      have hp : (view id s).st.pend p = some (i, x) := by simp [view, pendOf, h2]
      have := Late.Step.store (view id s) p i x hp
      simp only [view, hg, Bool.false_and, if_neg (show ¬ (false = true) by simp), hq, Res.ok_bind, Res.pure_eq] at this
      simpa only [view, pendOf_store h2, if_true, upd_same, hg, Bool.false_and] using this
    · left
      simp only [view, pendOf_store h2, if_neg hk, upd_other _ _ (fun e : k = id => hk e.symm)]
  · right
    exact ⟨.step .close, Late.Step.close (view k s) hc, fun _ _ => trivial⟩
  · have hg : s.gone = false := by
      cases hg : s.gone with
      | false => rfl
      | true => exact absurd ((hr.over hg).2 n hn) hpc
    by_cases hk : k = n
    · subst hk
      right
      refine ⟨.step (.work e), ?_, fun hcalm _ hpc' p x => pendOf_ne (hcalm hpc') p x⟩
      have := Late.Step.work (view k s) e hpc
      simp only [view, hq, Res.ok_bind, Res.pure_eq] at this
      simpa only [view, upd_same, hg, Bool.false_and] using this
    · left
      simp only [view, upd_other _ _ hk]
  · by_cases he : (s.st.qs k).pc = .ended
    · right
      refine ⟨.leave, ?_, fun _ => trivial⟩
      have := Late.Step.leave (view k s) (by simp [view, hg]) h2 he
      simpa only [view, he, decide_true, Bool.and_true] using this
    · left
      simp only [view, he, decide_false, Bool.and_false]

/-- Whatever the pool does, each of its queues does what a stage can do. -/
theorem Reach.view {b size : Nat} {tf : Bool} {G : Dying α → Act α → Prop} {s : Dying α} (h : Reach b size tf G s) (k : Nat) :
    Late.Reach b Late.anyStep (view k s) := by
  induction h with
  | new => exact .new
  | step s s' l hr _ hs ih =>
    rcases view_step hr hs k with he | ⟨l', h1, _⟩
    · rw [he]; exact ih
    · exact .step _ _ l' ih trivial h1

theorem Reach.view_calm {b size : Nat} {tf : Bool} {s : Dying α} (h : Reach b size tf calm s) (k : Nat) :
    Late.Reach b Late.tame (Ending.view k s) := by
  induction h with
  | new => exact .new
  | step s s' l hr hG hs ih =>
    rcases view_step hr hs k with he | ⟨l', h1, h2⟩
    · rw [he]; exact ih
    · exact .step _ _ l' ih (h2 hG) h1

theorem Reach.slots {b size : Nat} {tf : Bool} {G : Dying α → Act α → Prop} {s : Dying α} (h : Reach b size tf G s) (k : Nat) :
    (s.st.qs k).slots.length = b := (h.view k).slots

theorem Step.mono {size : Nat} {tf : Bool} {s s' : Dying α} {l : Act α} (h : Step size tf s l (.ok s')) :
    s.st.pushed.length ≤ s'.st.pushed.length := by
  rcases h.cases_ok with ⟨p, st, _, _, _, _, rfl⟩ | ⟨p, x, id, seen, _, _, _, rfl⟩ |
      ⟨p, x, id, i, q, _, _, _, _, rfl⟩ | ⟨_, _, rfl⟩ | ⟨n, e, q, _, _, _, _, _, rfl⟩ | ⟨_, _, _, _, rfl⟩ <;> simp

/-- Every push went into one of the eight queues. -/
theorem Reach.placed {b size : Nat} {tf : Bool} {G : Dying α → Act α → Prop} {s : Dying α} (h : Reach b size tf G s) :
    (allOf Q.pushed s.st.qs).Perm s.st.pushed := by
  induction h with
  | new => simp [allOf, Dying.new, State.new, Q.new]
  | step s s' l hr _ hs ih =>
    rcases hs.cases_ok with ⟨p, st, _, _, _, _, rfl⟩ | ⟨p, x, id, seen, _, _, h2, rfl⟩ |
      ⟨p, x, id, i, q, _, _, _, hq, rfl⟩ | ⟨_, _, rfl⟩ | ⟨n, e, q, _, _, _, _, hq, rfl⟩ | ⟨_, _, _, _, rfl⟩
    · exact ih
    · have hid := hr.prodOk p
      rw [h2] at hid
      exact (flatMap_upd Q.pushed s.st.qs id _ x rfl _ List.nodup_range (List.mem_range.2 hid)).trans (ih.append_right [x])
    · have := Q.store_same hq
      subst this
      refine List.Perm.trans (List.Perm.of_eq (flatMap_same Q.pushed s.st.qs id _ ?_)) ih
      rfl
    · exact ih
    · exact (List.Perm.of_eq (flatMap_same Q.pushed s.st.qs n q (Q.work_same hq).2.2)).trans ih
    · exact ih

/-- Queues that do not exist stay as they were. -/
theorem Reach.outside {b size : Nat} {tf : Bool} {G : Dying α → Act α → Prop} {s : Dying α} (h : Reach b size tf G s) (k : Nat)
    (hk : 8 ≤ k) : s.st.qs k = Q.new b := by
  induction h with
  | new => rfl
  | step s s' l hr _ hs ih =>
    rcases hs.cases_ok with ⟨p, st, _, _, _, _, rfl⟩ | ⟨p, x, id, seen, _, _, h2, rfl⟩ |
      ⟨p, x, id, i, q, _, _, h2, hq, rfl⟩ | ⟨_, _, rfl⟩ | ⟨n, e, q, _, _, _, _, hq, rfl⟩ | ⟨_, _, _, _, rfl⟩
    · exact ih
    · have hid := hr.prodOk p
      rw [h2] at hid
      simp only [Prod.Ok] at hid
      exact (upd_other _ _ (by omega)).trans ih
    · have hid := hr.prodOk p
      rw [h2] at hid
      simp only [Prod.Ok] at hid
      exact (upd_other _ _ (by omega)).trans ih
    · exact ih
    · exact (upd_other _ _ (by omega)).trans ih
    · exact ih

/-- No queue got more than all pushes together. -/
theorem Reach.queue_le {b size : Nat} {tf : Bool} {G : Dying α → Act α → Prop} {s : Dying α} (h : Reach b size tf G s)
    (k : Nat) : (s.st.qs k).pushed.length ≤ s.st.pushed.length := by
  by_cases hk : k < 8
  · have h1 := length_le_flatMap (fun k => (s.st.qs k).pushed) (List.range 8) k (List.mem_range.2 hk)
    rw [← h.placed.length_eq]
    exact h1
  · rw [h.outside k (by omega)]
    simp [Q.new]

theorem Reach.lt {b size : Nat} {tf : Bool} {G : Dying α → Act α → Prop} {s : Dying α} (h : Reach b size tf G s)
    (hw : s.st.pushed.length < 2 ^ 64) (k : Nat) : (Ending.view k s).st.q.pushed.length < word :=
  Nat.lt_of_le_of_lt (h.queue_le k) hw

theorem Reach.linv {b size : Nat} (hb : 0 < b) {tf : Bool} {G : Dying α → Act α → Prop} {s : Dying α}
    (h : Reach b size tf G s) (hw : s.st.pushed.length < 2 ^ 64) (k : Nat) : LInv (Ending.view k s) :=
  (h.view k).linv hb (h.lt hw k)

/-! ### What comes too late -/

/-- The items that queue `k` got after its worker had left its loop. -/
def lateOf (s : Dying α) (k : Nat) : List α :=
  match s.cut k with
  | none => []
  | some n => (s.st.qs k).pushed.drop n

theorem perm_add {f g : Nat → List α} {id : Nat} {x : α} (h1 : g id = f id ++ [x]) (h2 : ∀ j, j ≠ id → g j = f j) :
    ∀ l : List Nat, l.Nodup → id ∈ l → (l.flatMap g).Perm (l.flatMap f ++ [x])
  | [], _, h => by simp at h
  | k :: l, hn, hm => by
    rw [List.nodup_cons] at hn
    simp only [List.flatMap_cons]
    by_cases hk : k = id
    · subst hk
      rw [flatMap_congr' (f := g) (g := f) fun j hj => h2 j fun e => hn.1 (e ▸ hj), h1, List.append_assoc, List.append_assoc]
      exact List.Perm.append_left _ List.perm_append_comm
    · have hm' : id ∈ l := (List.mem_cons.1 hm).resolve_left fun e => hk e.symm
      rw [h2 k hk, List.append_assoc]
      exact List.Perm.append_left _ (perm_add h1 h2 l hn.2 hm')

theorem Reach.lates {b size : Nat} (hb : 0 < b) {tf : Bool} {G : Dying α → Act α → Prop} {s : Dying α}
    (h : Reach b size tf G s) (hw : s.st.pushed.length < 2 ^ 64) :
    ((List.range 8).flatMap (lateOf s)).Perm s.late := by
  induction h with
  | new => simp [lateOf, Dying.new]
  | step s s' l hr _ hs ih =>
    have hws : s.st.pushed.length < 2 ^ 64 := Nat.lt_of_le_of_lt hs.mono hw
    have ih := ih hws
    have hi := fun k => hr.linv hb hws k
    have same : ∀ s' : Dying α, (∀ k, lateOf s' k = lateOf s k) → s'.late = s.late →
        ((List.range 8).flatMap (lateOf s')).Perm s'.late := fun s' h1 h2 => by
      rw [h2, flatMap_congr' fun j _ => h1 j]; exact ih
    rcases hs.cases_ok with ⟨p, st, _, _, _, _, rfl⟩ | ⟨p, x, id, seen, _, _, h2, rfl⟩ |
      ⟨p, x, id, i, q, _, _, h2, hq, rfl⟩ | ⟨_, _, rfl⟩ | ⟨n, e, q, _, hn, _, hpc, hq, rfl⟩ | ⟨_, _, _, _, rfl⟩
    · exact same _ (fun _ => rfl) rfl
    · have hid := hr.prodOk p
      rw [h2] at hid
      by_cases he : (s.st.qs id).pc = .ended
      · simp only [if_pos he]
        refine (perm_add (f := lateOf s) (id := id) (x := x) ?_ (fun j hj => ?_) _ List.nodup_range
          (List.mem_range.2 hid)).trans (ih.append_right [x])
        · cases hc : s.cut id with
          | none => exact absurd he ((hi id).live hc).1
          | some n =>
            have hle : n ≤ (s.st.qs id).pushed.length := ((hi id).over n hc).2.2.2
            simp only [lateOf, hc, upd_same, Q.claim]
            rw [List.drop_append_of_le_length hle]
        · simp only [lateOf, upd_other _ _ hj]
      · simp only [if_neg he]
        refine same _ (fun j => ?_) rfl
        by_cases hj : j = id
        · subst hj
          cases hc : s.cut j with
          | none => simp only [lateOf, hc]
          | some n => exact absurd ((hi j).over n hc).1 he
        · simp only [lateOf, upd_other _ _ hj]
    · have := Q.store_same hq
      subst this
      refine same _ (fun j => ?_) rfl
      by_cases hj : j = id
      · subst hj
        simp only [lateOf, upd_same]
      · simp only [lateOf, upd_other _ _ hj]
    · exact same _ (fun _ => rfl) rfl
    · refine same _ (fun j => ?_) rfl
      by_cases hj : j = n
      · subst hj
        have hc : s.cut j = none := by
          cases hc : s.cut j with
          | none => rfl
          | some m => exact absurd ((hi j).over m hc).1 hpc
        simp only [lateOf, upd_same, hc]
        by_cases he : q.pc = .ended
        · simp only [Late.mark, if_pos he, List.drop_length]
        · simp only [Late.mark, if_neg he]
      · simp only [lateOf, upd_other _ _ hj]
    · exact same _ (fun _ => rfl) rfl

end Verif.Pipeline.Pool.Ending
