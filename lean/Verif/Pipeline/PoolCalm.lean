import Verif.Pipeline.PoolPushDrain
/-! Pools whose queues are filled any number of times, without overrun. -/
namespace Verif.Pipeline.Pool
open Verif Verif.Pipeline
variable {α : Type}

/-- The restriction under which several laps are safe: a push adds to a queue only while fewer of its items than it has slots
are unhandled, and a worker takes an index only when the store for it is complete.  The code enforces neither of the two. -/
def calm : State α → Label α → Prop
  | s, .claim p => ∀ x id seen, s.prod p = .chosen x id seen →
      (s.qs id).tail < (s.qs id).handled.length + (s.qs id).slots.length
  | s, .work n _ => (s.qs n).pc = .take → ∀ p x, s.prod p ≠ .claimed x n (s.qs n).head
  | _, _ => True

/-- The states a pool can reach by such steps. -/
inductive CalmReach (b size : Nat) (tf : Bool) : State α → Prop
  | new : CalmReach b size tf (State.new b)
  | step (s s' : State α) (l : Label α) : CalmReach b size tf s → calm s l → Step size tf s l (.ok s') →
      CalmReach b size tf s'

theorem CalmReach.reach {b size : Nat} {tf : Bool} {s : State α} (h : CalmReach b size tf s) : Reach b size tf s := by
  induction h with
  | new => exact .new
  | step s s' l _ _ hs ih => exact .step s s' l ih hs

theorem pendOf_ne {prod : Nat → Prod α} {n i : Nat} (h : ∀ p x, prod p ≠ .claimed x n i) (p : Nat) (x : α) :
    pendOf prod n p ≠ some (i, x) := by
  intro hp
  simp only [pendOf] at hp
  split at hp
  · rename_i y id j hpr
    split at hp
    · rename_i hid
      subst hid
      simp only [Option.some.injEq, Prod.mk.injEq] at hp
      obtain ⟨rfl, rfl⟩ := hp
      exact h p y hpr
    · cases hp
  · cases hp

theorem CalmReach.noOverrun {b size : Nat} (hb : 0 < b) {tf : Bool} {s : State α} (h : CalmReach b size tf s)
    (hw : s.pushed.length < word) (k : Nat) : NoOverrun (s.qs k) (pendOf s.prod k) := by
  induction h with
  | new => exact NoOverrun.new b _ fun _ => rfl
  | step s s' l hr hg hs ih =>
    have hm := hs.pushed_le
    have ih := ih (by omega)
    have hi := (hr.reach.inv hb (hr.reach.all_lt (by simp only [word] at hw; omega))).1 k
    have hlen : (s'.qs k).pushed.length < word :=
      Nat.lt_of_le_of_lt ((Reach.step s s' l hr.reach hs).queue_le k) hw
    generalize hres : Res.ok s' = r at hs
    cases hs with
    | start p x h1 h2 =>
      cases hres
      simp only [pendOf_quiet (prod := s.prod) (p := p) (st := .scan x 0 (intMax, 0) []) (by rw [h2]; trivial) trivial]
      exact ih
    | scan p x j acc seen h1 =>
      cases hres
      rw [pendOf_quiet (prod := s.prod) (p := p)
        (st := .read x j (if tf then (s.qs j).tail else (s.qs j).head) acc seen) (by rw [h1]; trivial) trivial]
      exact ih
    | read p x j v acc seen h1 =>
      cases hres
      rw [pendOf_quiet (by rw [h1]; trivial) (by unfold nextScan; split <;> trivial)]
      exact ih
    | claim p x id seen h1 =>
      cases hres
      rw [pendOf_claim (by rw [h1]; trivial)]
      by_cases hk : id = k
      · subst hk
        rw [if_pos rfl]
        simp only [upd_same] at hlen ⊢
        exact ih.claim hi p x (by simpa [Q.claim] using hlen) (by simp [pendOf, h1]) (hg x id seen h1)
      · rw [if_neg hk]
        simp only [upd_other s.qs _ (fun h : k = id => hk h.symm)]
        exact ih
    | store p x id i h1 =>
      cases hq : (s.qs id).store i x with
      | ub => rw [hq] at hres; cases hres
      | hang => rw [hq] at hres; cases hres
      | ok q =>
      rw [hq] at hres
      simp only [Res.ok_bind, Res.pure_eq, Res.ok.injEq] at hres
      subst hres
      rw [pendOf_store h1]
      by_cases hk : id = k
      · subst hk
        rw [if_pos rfl]
        simp only [upd_same]
        exact ih.store hi p i x (by simp [pendOf, h1]) hq
      · rw [if_neg hk]
        simp only [upd_other s.qs _ (fun h : k = id => hk h.symm)]
        exact ih
    | close h1 h2 => cases hres; exact ih
    | work n e h1 h2 =>
      split at hres
      · cases hq : (s.qs n).work s.closed e with
        | ub => rw [hq] at hres; cases hres
        | hang => rw [hq] at hres; cases hres
        | ok q =>
        rw [hq] at hres
        simp only [Res.ok_bind, Res.pure_eq, Res.ok.injEq] at hres
        subst hres
        by_cases hk : k = n
        · subst hk
          simp only [upd_same]
          exact ih.work hi (fun ht => pendOf_ne (hg ht)) hq
        · simp only [upd_other s.qs _ hk]
          exact ih
      · cases hres

/-- C59, for `PoolSize = 8` and any number of items, if a push adds to a queue only while fewer of its items than it has slots
are unhandled, and a worker takes an index only when the store for it is complete (`calm`; the code enforces neither): when the
destructor has joined the workers every item pushed was handled exactly once, and the items of one queue in the order of their
pushes.  What is missing: the other schedules, see `C59_overrun_refuted` and `C55_stale_refuted`, and other pool sizes. -/
theorem C59_calm_partial {b : Nat} (hb : 0 < b) {tf : Bool} {s : State α} (h : CalmReach b 8 tf s)
    (hw : s.pushed.length < 2 ^ 64) (he : ∀ n, n < 8 → (s.qs n).pc = .ended) :
    ((List.range 8).flatMap fun n => (s.qs n).handled).Perm s.pushed ∧ ∀ n, n < 8 → (s.qs n).handled = (s.qs n).pushed := by
  have hc := (C59_counted_partial hb h.reach hw he).2.1
  have key : ∀ n, n < 8 → (s.qs n).handled = (s.qs n).pushed := by
    intro n hn
    have hf := h.noOverrun hb hw n
    rw [hf.order, hc n hn, List.take_length]
  refine ⟨?_, key⟩
  have hall : ((List.range 8).flatMap fun n => (s.qs n).handled) = allOf Q.pushed s.qs :=
    flatMap_congr' fun j hj => key j (List.mem_range.1 hj)
  rw [hall]
  exact h.reach.placed.1

/-- The test for `calm` when the producers are those below `m`. -/
def isCalm (m : Nat) (s : State α) : Label α → Bool
  | .claim p =>
    match s.prod p with
    | .chosen _ id _ => decide ((s.qs id).tail < (s.qs id).handled.length + (s.qs id).slots.length)
    | _ => true
  | .work n _ => decide ((s.qs n).pc ≠ .take) || (List.range m).all fun p =>
    match s.prod p with
    | .claimed _ id i => decide (id ≠ n ∨ i ≠ (s.qs n).head)
    | _ => true
  | _ => true

theorem isCalm_calm {m : Nat} {s : State α} {l : Label α} (hi : ∀ p, m ≤ p → s.prod p = .idle)
    (h : isCalm m s l = true) : calm s l := by
  cases l with
  | claim p =>
    intro x id seen hp
    simpa [isCalm, hp] using h
  | work n e =>
    intro hpc p x hp
    simp only [isCalm, hpc, ne_eq, not_true_eq_false, decide_false, Bool.false_or, List.all_eq_true, List.mem_range] at h
    by_cases hm : p < m
    · have := h p hm
      rw [hp] at this
      simp at this
    · rw [hi p (by omega)] at hp
      cases hp
  | _ => trivial

/-- Run a schedule that is `calm`. -/
def followCalm (size : Nat) (tf : Bool) (m : Nat) : State α → List (Label α) → Option (State α)
  | s, [] => some s
  | s, l :: ls =>
    match isCalm m s l, fire size tf m s l with
    | true, some s' => followCalm size tf m s' ls
    | _, _ => none

theorem followCalm_ex {b size : Nat} {tf : Bool} {m : Nat} {P : State α → Prop} [DecidablePred P] (ls : List (Label α))
    (h : (followCalm size tf m (State.new b) ls).any (fun s => decide (P s)) = true) : ∃ s, CalmReach b size tf s ∧ P s := by
  have key : ∀ (ls : List (Label α)) (s s' : State α), CalmReach b size tf s →
      (∀ p, m ≤ p → s.prod p = .idle) → followCalm size tf m s ls = some s' → CalmReach b size tf s' := by
    intro ls
    induction ls with
    | nil => intro s s' h _ hf; cases hf; exact h
    | cons l ls ih =>
      intro s s' h hi hf
      rw [followCalm] at hf
      split at hf
      · rename_i s1 hg h1
        obtain ⟨hs, hi'⟩ := fire_step hi h1
        exact ih s1 s' (.step s s1 l h (isCalm_calm hi hg) hs) hi' hf
      · cases hf
  cases hf : followCalm size tf m (State.new b) ls with
  | none => rw [hf] at h; cases h
  | some s =>
    rw [hf] at h
    exact ⟨s, key ls _ s .new (fun _ _ => rfl) hf, by simpa using h⟩

/-- Queues of one slot: the worker of queue 0 handles three items one after the other, each in the same slot. -/
example : ∃ s : State Nat, CalmReach 1 8 true s ∧ s.pushed = [10, 20, 30, 40] ∧ (∀ n, n < 8 → (s.qs n).pc = .ended) ∧
    (s.qs 0).handled = [10, 20, 40] ∧ (s.qs 1).handled = [30] :=
  followCalm_ex (m := 1) (Ex.push 0 10 ++ Ex.w 0 6 ++ Ex.push 0 20 ++ Ex.push 0 30 ++ Ex.w 0 4 ++ Ex.push 0 40 ++ [.close] ++
    Ex.w 0 9 ++ Ex.w 1 10 ++ (List.range 6).flatMap fun n => Ex.w (n + 2) 2) (by decide +kernel)

end Verif.Pipeline.Pool

namespace Verif.Pipeline.Pool.Push
open Verif Verif.Pipeline Verif.Pipeline.Pool
variable {α : Type}

/-- The same restriction when handlers push: a push adds to a queue whose worker has not ended only while fewer of its items
than it has slots are unhandled, and a worker takes an index only when the store for it is complete. -/
def calm : State α → Label α → Prop
  | s, .claim j => ∀ x id seen, s.prod j = .chosen x id seen → (s.qs id).pc ≠ .ended →
      (s.qs id).tail < (s.qs id).handled.length + (s.qs id).slots.length
  | s, .work n _ => (s.qs n).pc = .take → ∀ p x, s.prod p ≠ .claimed x n (s.qs n).head
  | _, _ => True

theorem Reach.noOverrun {b size : Nat} (hb : 0 < b) {tf : Bool} {h : Handler α} {G : State α → Label α → Prop}
    (hG : ∀ s l, G s l → calm s l) {s : State α} (hr : Reach b size tf h G s) (k : Nat)
    (hw : (s.qs k).pushed.length < word) :
    ((s.qs k).pc ≠ .ended → NoOverrun (s.qs k) (pendOf s.prod k)) ∧
    (s.qs k).handled = (s.qs k).pushed.take (s.qs k).handled.length := by
  induction hr with
  | new => exact ⟨fun _ => NoOverrun.new b _ fun _ => rfl, rfl⟩
  | step s s' l hr hg hs ih =>
    have hle := hs.pushed_le k
    obtain ⟨i1, i2⟩ := ih (by omega)
    by_cases he : (s.qs k).pc = .ended
    · obtain ⟨d1, d2, _, _, ⟨l, d3⟩, d4⟩ := hs.dead k he
      refine ⟨fun hne => absurd d1 hne, ?_⟩
      have := congrArg List.length i2
      simp only [List.length_take] at this
      rw [d2, d3, List.take_append_of_le_length (by omega)]
      exact i2
    · have hn := i1 he
      have hi := (hr.queue hb k (by omega)).1 he
      have hg := hG s l hg
      have key : NoOverrun (s'.qs k) (pendOf s'.prod k) := by
        rcases hs.cases_ok with ⟨p, x, -, h1, h2, rfl⟩ | ⟨n, x, rest, -, h1, h2, rfl⟩ |
          ⟨j, st, -, h1, h2, h3, h3', h4, h5, rfl⟩ | ⟨j, x, id, seen, rfl, h1, rfl⟩ | ⟨j, x, id, i, q, -, h1, hq, rfl⟩ |
          ⟨-, h1, h2, rfl⟩ | ⟨n, e, q, rfl, h1, h2, h3, h4, h5, hq, rfl⟩
        · simp only [pendOf_quiet (prod := s.prod) (p := 2 * p + 1) (st := .scan x 0 (intMax, 0) [])
            (by rw [h2]; trivial) trivial k]
          exact hn
        · simp only [pendOf_quiet (prod := s.prod) (p := 2 * n) (st := .scan x 0 (intMax, 0) [])
            (by rw [h2]; trivial) trivial k]
          exact hn
        · simp only [pendOf_quiet h1 h2 k]
          exact hn
        · simp only [pendOf_claim (prod := s.prod) (p := j) (by rw [h1]; trivial)]
          by_cases hk : id = k
          · subst hk
            rw [if_pos rfl]
            simp only [upd_same] at hw ⊢
            exact hn.claim hi j x (by simpa [Q.claim] using hw) (by simp [pendOf, h1]) (hg x id seen h1 he)
          · rw [if_neg hk]
            simp only [upd_other s.qs _ (fun h : k = id => hk h.symm)]
            exact hn
        · simp only [pendOf_store h1]
          by_cases hk : id = k
          · subst hk
            rw [if_pos rfl]
            simp only [upd_same]
            exact hn.store hi j i x (by simp [pendOf, h1]) hq
          · rw [if_neg hk]
            simp only [upd_other s.qs _ (fun h : k = id => hk h.symm)]
            exact hn
        · exact hn
        · by_cases hk : k = n
          · subst hk
            simp only [upd_same]
            exact hn.work hi (fun ht => pendOf_ne (hg ht)) hq
          · simp only [upd_other s.qs _ hk]
            exact hn
      exact ⟨fun _ => key, key.order⟩

/-- The order, in terms of the pushes. -/
theorem Reach.calm_order {b size : Nat} (hb : 0 < b) {tf : Bool} {h : Handler α} {G : State α → Label α → Prop}
    (hG : ∀ s l, G s l → calm s l) {s : State α} (hr : Reach b size tf h G s) (hw : s.log.length < 2 ^ 64) {n : Nat}
    (he : (s.qs n).pc = .ended) :
    (s.qs n).handled = (s.log.filter fun t => t.q = n ∧ t.late = false).map Entry.item := by
  have hc := hr.ctl
  have hpw := Nat.lt_of_le_of_lt (hc.queue_le n) hw
  have h1 := (hr.noOverrun hb hG n hpw).2
  have h2 := ((hr.queue hb n hpw).2 he).1
  rw [h2, ← hc.split n, List.take_left' rfl] at h1
  exact h1

/-- C120, in calm schedules, for any number of items: a worker that has ended handled exactly what was pushed into its queue
before, in this order.  What is missing are the other schedules, see `C59_overrun_refuted`. -/
theorem C120_order_calm_partial {b size : Nat} (hb : 0 < b) {tf : Bool} {h : Handler α} {s : State α}
    (hr : Reach b size tf h calm s) (hw : s.log.length < 2 ^ 64) {n : Nat} (he : (s.qs n).pc = .ended) :
    (s.qs n).handled = (s.log.filter fun t => t.q = n ∧ t.late = false).map Entry.item :=
  hr.calm_order hb (fun _ _ h => h) hw he

/-- C121, for `PoolSize = 8` and any number of items, in calm schedules: as `C121_accounted_partial`. -/
theorem C121_accounted_calm_partial {b : Nat} (hb : 0 < b) {tf : Bool} {h : Handler α} {s : State α}
    (hr : Reach b 8 tf h calm s) (hw : s.log.length < 2 ^ 64) (he : ∀ n, n < 8 → (s.qs n).pc = .ended) :
    (((List.range 8).flatMap fun n => (s.qs n).handled) ++ (s.log.filter fun t => t.late = true).map Entry.item).Perm
      (s.log.map Entry.item) ∧
    ((s.log.filter fun t => t.from_ = none).map Entry.item ++
      (List.range 8).flatMap fun n => (s.qs n).handled.flatMap (h n)).Perm (s.log.map Entry.item) :=
  accounted hb (hr.mono fun _ _ _ => trivial) hw he fun n hn => C120_order_calm_partial hb hr hw (he n hn)

/-- C121, in calm schedules in which no handler pushes once destruction has begun: as `C121_settled_partial`. -/
theorem C121_settled_calm_partial {b : Nat} (hb : 0 < b) {tf : Bool} {h : Handler α} {s : State α}
    (hr : Reach b 8 tf h (fun s l => settled s l ∧ calm s l) s) (hw : s.log.length < 2 ^ 64)
    (he : ∀ n, n < 8 → (s.qs n).pc = .ended) :
    ((List.range 8).flatMap fun n => (s.qs n).handled).Perm
      ((s.log.filter fun t => t.from_ = none).map Entry.item ++
        (List.range 8).flatMap fun n => (s.qs n).handled.flatMap (h n)) := by
  obtain ⟨h1, h2⟩ := C121_accounted_calm_partial hb (hr.mono fun _ _ h => h.2) hw he
  have h3 : (s.log.filter fun t => t.late = true) = [] := by
    rw [List.filter_eq_nil_iff]
    intro t ht
    simp [(hr.mono fun _ _ h => h.1).punctual t ht]
  rw [h3, List.map_nil, List.append_nil] at h1
  exact h1.trans h2.symm

/-- C122, in calm schedules, for any number of laps: as `C122_ends_partial`. -/
theorem C122_ends_calm_partial {b size : Nat} (hb : 0 < b) (hsz : size ≤ 8) {tf : Bool} {h : Handler α} {w : α → Nat}
    (hw : ∀ n x, 1 + weight w (h n x) ≤ w x) {s s' : State α} {n : Nat}
    (hr : Reach b size tf h (fun s l => brief s l ∧ calm s l) s) (hcl : s.closed = true)
    (hrun : Run size tf h (fun s l => (brief s l ∧ calm s l) ∧ patient s l) s n s') (hlog : s'.log.length ≤ 214748364) :
    n ≤ 34 * (sumTo (fun k => weight w (s.left k) + weight w (s.todo k) + weight w (s.prod (2 * k)).coming) 8) + 104 ∧
    ((∃ k, k < size ∧ (s'.qs k).pc ≠ .ended) → ∃ l s'', (brief s' l ∧ patient s' l) ∧ Step size tf h s' l (.ok s'')) ∧
    ∀ k, k < size → (s'.qs k).pc = .ended → (s'.qs k).handled = (s'.log.filter fun t => t.q = k ∧ t.late = false).map Entry.item := by
  have hreach := Run.reach (fun _ _ h => h.1) hr hrun
  obtain ⟨_, _, k3, k4, _⟩ := ends_run hb hw hr hcl hrun (by omega) fun t ht hlt _ k hk =>
    (ht.noOverrun hb (fun _ _ h => h.2) k (Nat.lt_of_le_of_lt (ht.ctl.queue_le k) hlt)).2
  have hle := burden_le (w := w) hb (fun x => by have := hw 0 x; omega) hr (by omega)
  refine ⟨by omega, fun ⟨k, hk, hne⟩ => ?_, fun k hk he => ?_⟩
  · obtain ⟨l, s'', h1, h2, h3⟩ := can_go_on hb hsz (hreach.mono fun _ _ h => h.1) hlog hk hne
    exact ⟨l, s'', ⟨h1, h2⟩, h3⟩
  · exact hreach.calm_order hb (fun _ _ h => h.2) (by omega) he

/-! ### Examples -/

/-- The test for `brief` and `calm` when at most the first `m` threads outside push. -/
def isCalm (m : Nat) (s : State α) : Label α → Bool
  | .claim j =>
    match s.prod j with
    | .chosen _ id _ => decide ((s.qs id).pc = .ended ∨ (s.qs id).tail < (s.qs id).handled.length + (s.qs id).slots.length)
    | _ => true
  | .work n e => decide (0 ≤ e ∧ e ≤ 214748364) && (decide ((s.qs n).pc ≠ .take) || (List.range (2 * m + 16)).all fun p =>
    match s.prod p with
    | .claimed _ id i => decide (id ≠ n ∨ i ≠ (s.qs n).head)
    | _ => true)
  | _ => true

theorem isCalm_calm {b size : Nat} {h : Handler α} {m : Nat} {s : State α} {l : Label α} (hc : Ctl b size h s)
    (hi : ∀ p, m ≤ p → s.prod (2 * p + 1) = .idle) (hg : isCalm m s l = true) : brief s l ∧ calm s l := by
  cases l with
  | claim j =>
    refine ⟨trivial, fun x id seen hp hne => ?_⟩
    simpa [isCalm, hp, hne] using hg
  | work n e =>
    rw [isCalm, Bool.and_eq_true, decide_eq_true_eq] at hg
    refine ⟨hg.1, fun hpc p x hp => ?_⟩
    have hg := hg.2
    simp only [hpc, ne_eq, not_true_eq_false, decide_false, Bool.false_or, List.all_eq_true, List.mem_range] at hg
    by_cases hm : p < 2 * m + 16
    · have := hg p hm
      rw [hp] at this
      simp at this
    · rcases even_or_odd p with ⟨k, rfl⟩ | ⟨k, rfl⟩
      · have := (hc.busy k (.inr (by rw [hp]; simp))).2.1
        omega
      · rw [hi k (by omega)] at hp
        cases hp
  | _ => exact ⟨trivial, trivial⟩

/-- A calm schedule as a witness; `g` is a further check. -/
theorem follow_calm {b size : Nat} {tf : Bool} {h : Handler α} {G : State α → Label α → Prop} {g : State α → Label α → Bool}
    (hg : ∀ s l, brief s l ∧ calm s l → g s l = true → G s l) (m : Nat) {s s' : State α} (ls : List (Label α))
    (hr : Reach b size tf h G s) (hi : ∀ p, m ≤ p → s.prod (2 * p + 1) = .idle)
    (hf : follow size tf h m (fun s l => isCalm m s l && g s l) s ls = some s') :
    Reach b size tf h G s' ∧ Run size tf h G s ls.length s' ∧ ∀ p, m ≤ p → s'.prod (2 * p + 1) = .idle := by
  induction ls generalizing s with
  | nil => cases hf; exact ⟨hr, .nil _, hi⟩
  | cons l ls ih =>
    rw [follow] at hf
    split at hf
    · rename_i s1 hg1 h1
      rw [Bool.and_eq_true] at hg1
      obtain ⟨hs, hi'⟩ := fire_step hi h1
      have hG := hg s l (isCalm_calm hr.ctl hi hg1.1) hg1.2
      obtain ⟨j1, j2, j3⟩ := ih (.step s s1 l hr hG hs) hi' hf
      exact ⟨j1, .step s s1 s' ls.length l hG hs j2, j3⟩
    · cases hf

theorem follow_calm_ex {b size : Nat} {tf : Bool} {h : Handler α} {G : State α → Label α → Prop}
    {g : State α → Label α → Bool} (hg : ∀ s l, brief s l ∧ calm s l → g s l = true → G s l) {P : State α → Prop}
    [DecidablePred P] (m : Nat) (ls : List (Label α))
    (hf : (follow size tf h m (fun s l => isCalm m s l && g s l) (State.new b) ls).any (fun s => decide (P s)) = true) :
    ∃ s, Reach b size tf h G s ∧ P s := by
  cases hs : follow size tf h m (fun s l => isCalm m s l && g s l) (State.new b) ls with
  | none => rw [hs] at hf; cases hf
  | some s =>
    rw [hs] at hf
    exact ⟨s, (follow_calm hg m ls .new (fun _ _ => rfl) hs).1, by simpa using hf⟩

namespace Ex

/-- On queues of one slot: 10 is pushed and handled, and while it is, its parts go into the queues 0 and 1; 20 goes into queue 0
when 4 has been handled. -/
def laps : List (Label Nat) :=
  push 0 10 ++ w 0 5 ++ back 0 ++ back 0 ++ w 0 5 ++ push 0 20 ++ [.close] ++ w 0 9 ++ w 1 10 ++
    (List.range 6).flatMap fun n => w (n + 2) 2

end Ex

/-- C120 on queues of one slot. -/
example : ∃ s, Reach 1 8 true Ex.split calm s ∧ (∀ n, n < 8 → (s.qs n).pc = .ended) ∧ (s.qs 0).handled = [10, 4, 20] ∧
    (s.qs 1).handled = [6] :=
  follow_calm_ex (g := fun _ _ => true) (fun _ _ h _ => h.2) 1 Ex.laps (by decide +kernel)

/-- C121 on queues of one slot. -/
example : ∃ s, Reach 1 8 true Ex.split (fun s l => settled s l ∧ calm s l) s ∧ (∀ n, n < 8 → (s.qs n).pc = .ended) ∧
    (s.qs 0).handled = [10, 4, 20] ∧ (s.qs 1).handled = [6] :=
  follow_calm_ex (g := fun s l => match l with
    | .claim _ => !s.closed
    | _ => true) (fun s l h hg => ⟨by cases l <;> simp_all [settled], h.2⟩) 1 Ex.laps (by decide +kernel)

/-- C122 on queues of one slot: destruction begins while 10 is to be handled, in the same slot as 4 before it. -/
example : ∃ s s', Reach 1 8 true Ex.split (fun s l => brief s l ∧ calm s l) s ∧ (s.closed = true ∧ s.left 0 = [10]) ∧
    Run 8 true Ex.split (fun s l => (brief s l ∧ calm s l) ∧ patient s l) s 73 s' ∧ (∀ k, k < 8 → (s'.qs k).pc = .ended) ∧
    (s'.qs 0).handled = [4, 10, 4] := by
  have key : ∀ (l1 l2 : List (Label Nat)) (P P' : State Nat → Prop) [DecidablePred P] [DecidablePred P'],
      (match follow 8 true Ex.split 1 (fun s l => isCalm 1 s l && ready s l) (State.new 1) l1 with
      | none => false
      | some s => decide (P s) && (follow 8 true Ex.split 1 (fun s l => isCalm 1 s l && ready s l) s l2).any
          fun s' => decide (P' s')) = true →
      ∃ s s', Reach 1 8 true Ex.split (fun s l => brief s l ∧ calm s l) s ∧ P s ∧
        Run 8 true Ex.split (fun s l => (brief s l ∧ calm s l) ∧ patient s l) s l2.length s' ∧ P' s' := by
    intro l1 l2 P P' _ _ hf
    split at hf
    · cases hf
    · rename_i s hs
      cases hs' : follow 8 true Ex.split 1 (fun s l => isCalm 1 s l && ready s l) s l2 with
      | none => rw [hs'] at hf; simp at hf
      | some s' =>
        rw [hs'] at hf
        simp only [Option.any_some, Bool.and_eq_true, decide_eq_true_eq] at hf
        have hg : ∀ (s : State Nat) l, brief s l ∧ calm s l → ready s l = true → (brief s l ∧ calm s l) ∧ patient s l :=
          fun s l h hr => ⟨h, (ready_spec s l hr).2⟩
        obtain ⟨j1, -, j3⟩ := follow_calm hg 1 l1 .new (fun _ _ => rfl) hs
        exact ⟨s, s', j1.mono fun _ _ h => h.1, hf.1, (follow_calm hg 1 l2 j1 j3 hs').2.1, hf.2⟩
  exact key (Ex.push 0 4 ++ Ex.w 0 6 ++ Ex.push 0 10 ++ [.close]) (Ex.w 0 4 ++ Ex.back 0 ++ Ex.back 0 ++ Ex.w 0 9 ++ Ex.w 1 10 ++
    (List.range 6).flatMap fun n => Ex.w (n + 2) 2) _ _ (by decide +kernel)

end Verif.Pipeline.Pool.Push
