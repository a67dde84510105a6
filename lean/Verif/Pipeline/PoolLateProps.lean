import Verif.Pipeline.PoolLate
/-!
C144: threads that push into a pool while another thread destroys it.
-/
namespace Verif.Pipeline.Pool.Ending
open Verif Verif.Pipeline Verif.Pipeline.Pool

variable {α : Type}

/-! ### An executable scheduler, for the examples -/

/-- The result of a step, if it is possible and defined. -/
def fire (size : Nat) (tf : Bool) (s : Dying α) : Act α → Option (Dying α)
  | .step (.start p x) =>
    match s.st.prod p with
    | .idle => if s.gone = false then
        some { s with st := { s.st with prod := upd s.st.prod p (.scan x 0 (intMax, 0) []) } } else none
    | _ => none
  | .step (.scan p) =>
    if s.gone then none else
    match s.st.prod p with
    | .scan x k acc seen =>
      some { s with st :=
        { s.st with
          prod := upd s.st.prod p (.read x k (if tf then (s.st.qs k).tail else (s.st.qs k).head) acc seen) } }
    | .read x k v acc seen =>
      some { s with st :=
        { s.st with
          prod := upd s.st.prod p (nextScan x k
            (if tf then (v + word - (s.st.qs k).head) % word else ((s.st.qs k).tail + word - v) % word) acc seen) } }
    | _ => none
  | .step (.claim p) =>
    if s.gone then none else
    match s.st.prod p with
    | .chosen x id _ =>
      some { s with
        st :=
          { s.st with
            qs := upd s.st.qs id ((s.st.qs id).claim x)
            prod := upd s.st.prod p (.claimed x id (s.st.qs id).tail)
            pushed := s.st.pushed ++ [x] }
        late := if (s.st.qs id).pc = .ended then s.late ++ [x] else s.late }
    | _ => none
  | .step (.store p) =>
    if s.gone then none else
    match s.st.prod p with
    | .claimed x id i =>
      match (s.st.qs id).store i x with
      | .ok q => some { s with st := { s.st with qs := upd s.st.qs id q, prod := upd s.st.prod p .idle } }
      | _ => none
    | _ => none
  | .step .close => if s.st.closed = false then some { s with st := { s.st with closed := true } } else none
  | .step (.work n e) =>
    if n < size ∧ n < 8 ∧ (s.st.qs n).pc ≠ .ended then
      match (s.st.qs n).work s.st.closed e with
      | .ok q => some { s with st := { s.st with qs := upd s.st.qs n q }, cut := upd s.cut n (Late.mark q) }
      | _ => none
    else none
  | .leave =>
    if s.gone = false ∧ s.st.closed = true ∧ (List.range size).all (fun n => decide ((s.st.qs n).pc = .ended)) then
      some { s with gone := true } else none

theorem fire_step {size : Nat} {tf : Bool} {s s' : Dying α} {l : Act α} (h : fire size tf s l = some s') :
    Step size tf s l (.ok s') := by
  cases l with
  | leave =>
    simp only [fire] at h
    split at h
    · rename_i hc
      cases h
      refine .leave s hc.1 hc.2.1 fun n hn => ?_
      have := List.all_eq_true.1 hc.2.2 n (List.mem_range.2 hn)
      simpa using this
    · cases h
  | step l =>
    cases l with
    | start p x =>
      simp only [fire] at h
      split at h
      · rename_i hp
        split at h
        · rename_i hg
          cases h
          exact .start s p x hg hp
        · cases h
      · cases h
    | scan p =>
      simp only [fire] at h
      split at h
      · cases h
      · rename_i hg
        split at h
        · rename_i x k acc seen hp
          cases h
          have := Step.scan (size := size) (tailFirst := tf) s p x k acc seen hp
          rwa [if_neg hg] at this
        · rename_i x k v acc seen hp
          cases h
          have := Step.read (size := size) (tailFirst := tf) s p x k v acc seen hp
          rwa [if_neg hg] at this
        · cases h
    | claim p =>
      simp only [fire] at h
      split at h
      · cases h
      · rename_i hg
        split at h
        · rename_i x id seen hp
          cases h
          have := Step.claim (size := size) (tailFirst := tf) s p x id seen hp
          rwa [if_neg hg] at this
        · cases h
    | store p =>
      simp only [fire] at h
      split at h
      · cases h
      · rename_i hg
        split at h
        · rename_i x id i hp
          split at h
          · rename_i q hq
            cases h
            have := Step.store (size := size) (tailFirst := tf) s p x id i hp
            rwa [if_neg hg, hq] at this
          · cases h
        · cases h
    | close =>
      simp only [fire] at h
      split at h
      · rename_i hc
        cases h
        exact .close s hc
      · cases h
    | work n e =>
      simp only [fire] at h
      split at h
      · rename_i hc
        split at h
        · rename_i q hq
          cases h
          have := Step.work (size := size) (tailFirst := tf) s n e hc.1 hc.2.2
          rwa [if_pos hc.2.1, hq] at this
        · cases h
      · cases h

/-- Follow a schedule. -/
def follow (size : Nat) (tf : Bool) : Dying α → List (Act α) → Option (Dying α)
  | s, [] => some s
  | s, l :: ls =>
    match fire size tf s l with
    | some s' => follow size tf s' ls
    | none => none

theorem follow_reach {b size : Nat} {tf : Bool} {s s' : Dying α} (ls : List (Act α)) (h : Reach b size tf anyStep s)
    (hf : follow size tf s ls = some s') : Reach b size tf anyStep s' := by
  induction ls generalizing s with
  | nil => cases hf; exact h
  | cons l ls ih =>
    rw [follow] at hf
    split at hf
    · rename_i s1 h1
      exact ih (.step s s1 l h trivial (fire_step h1)) hf
    · cases hf

/-- A schedule as a witness. -/
theorem follow_ex {b size : Nat} {tf : Bool} {P : Dying α → Prop} [DecidablePred P] (ls : List (Act α))
    (h : (follow size tf (Dying.new b) ls).any (fun s => decide (P s)) = true) : ∃ s, Reach b size tf anyStep s ∧ P s := by
  cases hf : follow size tf (Dying.new b) ls with
  | none => rw [hf] at h; cases h
  | some s =>
    rw [hf] at h
    exact ⟨s, follow_reach ls .new hf, by simpa using h⟩

/-- The test for `calm` when the producers are those below `m`. -/
def isCalm (m : Nat) (s : Dying α) : Act α → Bool
  | .step (.start p _) => decide (p < m)
  | .step (.claim p) =>
    match s.st.prod p with
    | .chosen _ id _ => decide ((s.st.qs id).pc = .ended) ||
        decide ((s.st.qs id).tail < (s.st.qs id).handled.length + (s.st.qs id).slots.length)
    | _ => true
  | .step (.work n _) => decide ((s.st.qs n).pc ≠ .take) || (List.range m).all fun p =>
    match s.st.prod p with
    | .claimed _ id i => decide (id ≠ n ∨ i ≠ (s.st.qs n).head)
    | _ => true
  | _ => true

theorem isCalm_calm {m : Nat} {s : Dying α} {l : Act α} (hi : ∀ p, m ≤ p → s.st.prod p = .idle)
    (h : isCalm m s l = true) : calm s l := by
  cases l with
  | leave => trivial
  | step l =>
    cases l with
    | claim p =>
      intro x id seen hp hne
      simpa [isCalm, hp, hne] using h
    | work n e =>
      intro hpc p x hp
      simp only [isCalm, hpc, ne_eq, not_true_eq_false, decide_false, Bool.false_or, List.all_eq_true, List.mem_range] at h
      by_cases hm : p < m
      · have := h p hm
        rw [hp] at this
        simp at this
      · rw [hi p (by omega)] at hp
        cases hp
    | _ => trivial

theorem fire_idle {size m : Nat} {tf : Bool} {s s' : Dying α} {l : Act α} (hi : ∀ p, m ≤ p → s.st.prod p = .idle)
    (hc : isCalm m s l = true) (h : fire size tf s l = some s') : ∀ p, m ≤ p → s'.st.prod p = .idle := by
  have keep : ∀ (p : Nat) (st : Prod α), p < m ∨ s.st.prod p ≠ .idle → ∀ p', m ≤ p' → upd s.st.prod p st p' = .idle := by
    intro p st hp p' hp'
    rw [upd_other _ _ (fun e : p' = p => by
      rcases hp with hp | hp
      · omega
      · exact hp (e ▸ hi p' hp'))]
    exact hi p' hp'
  cases l with
  | leave =>
    simp only [fire] at h
    split at h
    · cases h; exact hi
    · cases h
  | step l =>
    cases l with
    | start p x =>
      simp only [fire] at h
      split at h
      · split at h
        · cases h
          exact keep p _ (.inl (by simpa [isCalm] using hc))
        · cases h
      · cases h
    | scan p =>
      simp only [fire] at h
      split at h
      · cases h
      · split at h
        · rename_i hp
          cases h
          exact keep p _ (.inr (by simp [hp]))
        · rename_i hp
          cases h
          exact keep p _ (.inr (by simp [hp]))
        · cases h
    | claim p =>
      simp only [fire] at h
      split at h
      · cases h
      · split at h
        · rename_i hp
          cases h
          exact keep p _ (.inr (by simp [hp]))
        · cases h
    | store p =>
      simp only [fire] at h
      split at h
      · cases h
      · split at h
        · rename_i hp
          split at h
          · cases h
            exact keep p _ (.inr (by simp [hp]))
          · cases h
        · cases h
    | close =>
      simp only [fire] at h
      split at h
      · cases h; exact hi
      · cases h
    | work n e =>
      simp only [fire] at h
      split at h
      · split at h
        · cases h; exact hi
        · cases h
      · cases h

/-- Run a schedule that is `calm`. -/
def followCalm (size : Nat) (tf : Bool) (m : Nat) : Dying α → List (Act α) → Option (Dying α)
  | s, [] => some s
  | s, l :: ls =>
    match isCalm m s l, fire size tf s l with
    | true, some s' => followCalm size tf m s' ls
    | _, _ => none

theorem followCalm_ex {b size : Nat} {tf : Bool} {m : Nat} {P : Dying α → Prop} [DecidablePred P] (ls : List (Act α))
    (h : (followCalm size tf m (Dying.new b) ls).any (fun s => decide (P s)) = true) : ∃ s, Reach b size tf calm s ∧ P s := by
  have key : ∀ (ls : List (Act α)) (s s' : Dying α), Reach b size tf calm s →
      (∀ p, m ≤ p → s.st.prod p = .idle) → followCalm size tf m s ls = some s' → Reach b size tf calm s' := by
    intro ls
    induction ls with
    | nil => intro s s' h _ hf; cases hf; exact h
    | cons l ls ih =>
      intro s s' h hi hf
      rw [followCalm] at hf
      split at hf
      · rename_i s1 hg h1
        exact ih s1 s' (.step s s1 l h (isCalm_calm hi hg) (fire_step h1)) (fire_idle hi hg h1) hf
      · cases hf
  cases hf : followCalm size tf m (Dying.new b) ls with
  | none => rw [hf] at h; cases h
  | some s =>
    rw [hf] at h
    exact ⟨s, key ls _ s .new (fun _ _ => rfl) hf, by simpa using h⟩

/-! ### Agreement with `Pool` -/

/-- What `Pool` can do, this model can do: `Pool` is the case that the destructor begins when no push is under way, and none
begins afterwards.  Then nothing comes too late. -/
theorem of_pool {b size : Nat} (hb : 0 < b) {tf : Bool} {s : State α} (h : Pool.Reach b size tf s)
    (hw : s.pushed.length < 2 ^ 64) :
    Reach b size tf anyStep ⟨s, fun k => Late.mark (s.qs k), [], false⟩ := by
  induction h with
  | new => exact .new
  | step s s' l hr hs ih =>
    have hws : s.pushed.length < 2 ^ 64 := by
      have := hs.pushed_le
      omega
    have ih := ih hws
    obtain ⟨i1, i2, _⟩ := hr.inv hb (hr.all_lt hws)
    have hsame : ∀ (f : Nat → Q α) (id : Nat) (q : Q α), Late.mark q = Late.mark (f id) →
        (fun k => Late.mark (upd f id q k)) = fun k => Late.mark (f k) := by
      intro f id q hq
      funext k
      by_cases hk : k = id
      · subst hk; rw [upd_same, hq]
      · rw [upd_other _ _ hk]
    generalize hres : Res.ok s' = r at hs
    cases hs with
    | start p x h1 h2 =>
      cases hres
      exact .step _ _ _ ih trivial (.start _ p x rfl h2)
    | scan p x k acc seen h1 =>
      cases hres
      exact .step _ _ _ ih trivial (.scan (size := size) (tailFirst := tf) ⟨s, _, [], false⟩ p x k acc seen h1)
    | read p x k v acc seen h1 =>
      cases hres
      exact .step _ _ _ ih trivial (.read (size := size) (tailFirst := tf) ⟨s, _, [], false⟩ p x k v acc seen h1)
    | claim p x id seen h1 =>
      cases hres
      have hcf : s.closed = false := by
        cases hc : s.closed with
        | false => rfl
        | true =>
          have := i2 hc p
          rw [h1] at this
          cases this
      have hne : (s.qs id).pc ≠ .ended := fun he => by
        have := ((i1 id).ended he).1
        rw [hcf] at this
        cases this
      have := Step.claim (size := size) (tailFirst := tf) ⟨s, fun k => Late.mark (s.qs k), [], false⟩ p x id seen h1
      simp only [if_neg hne] at this
      dsimp only
      rw [hsame s.qs id ((s.qs id).claim x) (by simp [Late.mark, Q.claim, hne])]
      exact .step _ _ _ ih trivial this
    | store p x id i h1 =>
      cases hq : (s.qs id).store i x with
      | ub => rw [hq] at hres; cases hres
      | hang => rw [hq] at hres; cases hres
      | ok q =>
        rw [hq] at hres
        simp only [Res.ok_bind, Res.pure_eq, Res.ok.injEq] at hres
        subst hres
        have := Step.store (size := size) (tailFirst := tf) ⟨s, fun k => Late.mark (s.qs k), [], false⟩ p x id i h1
        rw [if_neg (by simp), hq] at this
        dsimp only
        rw [hsame s.qs id q (by rw [Q.store_same hq]; rfl)]
        exact .step _ _ _ ih trivial this
    | close h1 h2 =>
      cases hres
      exact .step _ _ _ ih trivial (.close _ h1)
    | work n e h1 h2 =>
      by_cases h8 : n < 8
      · rw [if_pos h8] at hres
        cases hq : (s.qs n).work s.closed e with
        | ub => rw [hq] at hres; cases hres
        | hang => rw [hq] at hres; cases hres
        | ok q =>
          rw [hq] at hres
          simp only [Res.ok_bind, Res.pure_eq, Res.ok.injEq] at hres
          subst hres
          have := Step.work (size := size) (tailFirst := tf) ⟨s, fun k => Late.mark (s.qs k), [], false⟩ n e h1 h2
          rw [if_pos h8, hq] at this
          have hm : (fun k => Late.mark (upd s.qs n q k)) = upd (fun k => Late.mark (s.qs k)) n (Late.mark q) := by
            funext k
            by_cases hk : k = n
            · subst hk; simp only [upd_same]
            · simp only [upd_other _ _ hk]
          dsimp only
          rw [hm]
          exact .step _ _ _ ih trivial this
      · rw [if_neg h8] at hres; cases hres

/-! ### C144 -/

/-- When a worker leaves its loop, it has handled as many items as pushes have incremented the counter of its queue so far:
before `closed_` was set or after, and whether they have returned or not.  It handles no more afterwards, and the destructor
returns only when all workers have got there. -/
theorem C144_counted_partial {b size : Nat} (hb : 0 < b) {tf : Bool} {s : Dying α} (h : Reach b size tf anyStep s)
    (hw : s.st.pushed.length < 2 ^ 64) :
    (∀ s' n e, Step size tf s (.step (.work n e)) (.ok s') → (s'.st.qs n).pc = .ended →
      s'.st.closed = true ∧ (s'.st.qs n).handled.length = (s'.st.qs n).pushed.length ∧
      s'.cut n = some (s'.st.qs n).pushed.length) ∧
    (∀ n c, s.cut n = some c → (s.st.qs n).handled.length = c ∧ c ≤ (s.st.qs n).pushed.length ∧
      ∀ l s', Step size tf s l (.ok s') → s'.cut n = some c) ∧
    (s.gone = true → ∀ n, n < size → ∃ c, s.cut n = some c) := by
  refine ⟨fun s' n e hs he => ?_, fun n c hc => ?_, fun hg n hn => ?_⟩
  · have h' : Reach b size tf anyStep s' := .step s s' _ h trivial hs
    rcases hs.cases_ok with ⟨p, st, _, h1, h2, _, rfl⟩ | ⟨p, x, id, seen, hl, _⟩ | ⟨p, x, id, i, q, hl, _⟩ | ⟨hl, _⟩ |
      ⟨n', e', q, hl, hn, _, hpc, hq, rfl⟩ | ⟨hl, _⟩
    · generalize hr : Res.ok _ = r at hs
      cases hs with
      | work n e h1 h2 => exact absurd he h2
    · cases hl
    · cases hl
    · cases hl
    · cases hl
      simp only [upd_same] at he ⊢
      have hi := h'.linv hb hw n
      have hcut : (Ending.view n
          { s with st := { s.st with qs := upd s.st.qs n q }, cut := upd s.cut n (Late.mark q) }).cut
            = some q.pushed.length := by
        simp only [Ending.view, upd_same, Late.mark, if_pos he]
      obtain ⟨_, a2, a3, _⟩ := hi.over _ hcut
      simp only [Ending.view, upd_same] at a2 a3
      exact ⟨a2, a3, by simp only [Late.mark, if_pos he]⟩
    · cases hl
  · obtain ⟨a1, _, a3, a4⟩ := (h.linv hb hw n).over c hc
    refine ⟨a3, a4, fun l s' hs => ?_⟩
    rcases hs.cases_ok with ⟨p, st, _, _, _, _, rfl⟩ | ⟨p, x, id, seen, _, _, _, rfl⟩ |
      ⟨p, x, id, i, q, _, _, _, _, rfl⟩ | ⟨_, _, rfl⟩ | ⟨n', e', q, _, _, _, hpc, _, rfl⟩ | ⟨_, _, _, _, rfl⟩
    · exact hc
    · exact hc
    · exact hc
    · exact hc
    · by_cases hk : n = n'
      · subst hk
        exact absurd a1 hpc
      · simp only [upd_other _ _ hk]
        exact hc
    · exact hc
  · cases hc : s.cut n with
    | some c => exact ⟨c, rfl⟩
    | none => exact absurd ((h.over hg).2 n hn) ((h.linv hb hw n).live hc).1

/-- What a push that is under way into queue `n` looks like for its worker. -/
theorem pend_iff {s : Dying α} {n p i : Nat} {x : α} :
    (Ending.view n s).st.pend p = some (i, x) ↔ s.st.prod p = .claimed x n i := by
  simp only [Ending.view, pendOf]
  constructor
  · intro h
    split at h
    · rename_i y id j hp
      split at h
      · rename_i hid
        simp only [Option.some.injEq, Prod.mk.injEq] at h
        rw [hp, hid, h.1, h.2]
      · cases h
    · cases h
  · intro h
    simp [h]

/-- If a queue had got at most as many items as it has slots when its worker left its loop, the worker has handled exactly
these, once each and in the order in which they were added, and their pushes have all stored. -/
theorem C144_first_lap_partial {b size : Nat} (hb : 0 < b) {tf : Bool} {s : Dying α} (h : Reach b size tf anyStep s)
    (hw : s.st.pushed.length < 2 ^ 64) {n c : Nat} (hn : s.cut n = some c) (hl : c ≤ b) :
    (s.st.qs n).handled = (s.st.qs n).pushed.take c ∧
    ∀ p i x, s.st.prod p = .claimed x n i → c ≤ i ∧ (s.st.qs n).pushed[i]? = some x := by
  obtain ⟨h1, h2, _⟩ := C137_first_lap_partial hb (h.view n) (h.lt hw n) (n := c) hn hl
  exact ⟨h1, fun p i x hp => h2 p i x (pend_iff.2 hp)⟩

/-- The same for any number of laps, if pushes do not outrun the workers and these take an index only when its store is
complete. -/
theorem C144_calm_partial {b size : Nat} (hb : 0 < b) {tf : Bool} {s : Dying α} (h : Reach b size tf calm s)
    (hw : s.st.pushed.length < 2 ^ 64) {n c : Nat} (hn : s.cut n = some c) :
    (s.st.qs n).handled = (s.st.qs n).pushed.take c ∧
    ∀ p i x, s.st.prod p = .claimed x n i → c ≤ i ∧ (s.st.qs n).pushed[i]? = some x := by
  obtain ⟨h1, h2, _⟩ := C137_tame_partial hb (h.view_calm n) (h.lt hw n) (n := c) hn
  exact ⟨h1, fun p i x hp => h2 p i x (pend_iff.2 hp)⟩

theorem flatMap_split {f g h : Nat → List α} : ∀ l : List Nat, (∀ j ∈ l, f j = g j ++ h j) →
    (l.flatMap f).Perm (l.flatMap g ++ l.flatMap h)
  | [], _ => by simp
  | k :: l, hh => by
    simp only [List.flatMap_cons]
    rw [hh k (by simp), List.append_assoc, List.append_assoc]
    refine List.Perm.append_left _ ?_
    refine (List.Perm.append_left _ (flatMap_split l fun j hj => hh j (by simp [hj]))).trans ?_
    rw [← List.append_assoc, ← List.append_assoc]
    exact List.Perm.append_right _ List.perm_append_comm

/-- A pool of eight workers, when the destructor has returned: each item was handled exactly once or came too late, after the
worker of the queue that its push chose had left its loop; if no queue had got more items than it has slots by then. -/
theorem C144_accounted_partial {b : Nat} (hb : 0 < b) {tf : Bool} {s : Dying α} (h : Reach b 8 tf anyStep s)
    (hw : s.st.pushed.length < 2 ^ 64) (hg : s.gone = true) (hl : ∀ n c, n < 8 → s.cut n = some c → c ≤ b) :
    s.st.pushed.Perm (((List.range 8).flatMap fun n => (s.st.qs n).handled) ++ s.late) := by
  refine h.placed.symm.trans ((flatMap_split (g := fun n => (s.st.qs n).handled) (h := lateOf s) _ fun n hn => ?_).trans
    (List.Perm.append_left _ (h.lates hb hw)))
  obtain ⟨c, hc⟩ := (C144_counted_partial hb h hw).2.2 hg n (List.mem_range.1 hn)
  rw [(C144_first_lap_partial hb h hw hc (hl n c (List.mem_range.1 hn) hc)).1]
  simp only [lateOf, hc, List.take_append_drop]

/-- The same for any number of laps without overrun. -/
theorem C144_accounted_calm_partial {b : Nat} (hb : 0 < b) {tf : Bool} {s : Dying α} (h : Reach b 8 tf calm s)
    (hw : s.st.pushed.length < 2 ^ 64) (hg : s.gone = true) :
    s.st.pushed.Perm (((List.range 8).flatMap fun n => (s.st.qs n).handled) ++ s.late) := by
  refine h.placed.symm.trans ((flatMap_split (g := fun n => (s.st.qs n).handled) (h := lateOf s) _ fun n hn => ?_).trans
    (List.Perm.append_left _ (h.lates hb hw)))
  have hpc := (h.over hg).2 n (List.mem_range.1 hn)
  cases hc : s.cut n with
  | none => exact absurd hpc ((h.linv hb hw n).live hc).1
  | some c =>
    rw [(C144_calm_partial hb h hw hc).1]
    simp only [lateOf, hc, List.take_append_drop]

/-- Before the destructor has returned, no step of a push is undefined, whatever was pushed and when. -/
theorem C144_meanwhile_partial {b size : Nat} (hb : 0 < b) {tf : Bool} {s : Dying α} (h : Reach b size tf anyStep s)
    (hg : s.gone = false) (p : Nat) (x : α) : ¬ Step size tf s (.step (.start p x)) .ub ∧
    ¬ Step size tf s (.step (.scan p)) .ub ∧ ¬ Step size tf s (.step (.claim p)) .ub ∧
    ¬ Step size tf s (.step (.store p)) .ub := by
  have hne : ¬ s.gone = true := by rw [hg]; simp
  refine ⟨fun hs => ?_, fun hs => ?_, fun hs => ?_, fun hs => ?_⟩ <;> generalize hr : Res.ub = r at hs <;> cases hs
  · cases hr
  · rw [if_neg hne] at hr; cases hr
  · rw [if_neg hne] at hr; cases hr
  · rw [if_neg hne] at hr; cases hr
  · rename_i y id i hp
    rw [if_neg hne, Q.store, h.slots, if_pos (Nat.mod_lt _ hb)] at hr
    cases hr

namespace Ex

/-- A push up to the point where it has chosen a queue. -/
def choose (p x : Nat) : List (Act Nat) := [.step (.start p x)] ++ List.replicate 16 (.step (.scan p))

/-- A whole push. -/
def push (p x : Nat) : List (Act Nat) := choose p x ++ [.step (.claim p), .step (.store p)]

/-- `k` steps of worker `n`. -/
def w (n k : Nat) : List (Act Nat) := List.replicate k (.step (.work n 0))

/-- Two threads push while the pool is being destroyed.  Of the items 10, 20 and 30 the second is pushed before and the third
after `closed_` was set, and the first push is under way meanwhile; they are handled.  The push of 40 adds to queue 0 after its
worker has ended; it returns before the destructor does.  That of 50 is still under way then. -/
def both : List (Act Nat) :=
  choose 0 10 ++ push 1 20 ++ [.step .close] ++ push 1 30 ++ [.step (.claim 0), .step (.store 0)] ++ w 0 15 ++ w 1 10 ++
  (List.range 6).flatMap (fun n => w (n + 2) 2) ++ push 1 40 ++ choose 0 50 ++ [.step (.claim 0), .leave]

end Ex

example : ∃ s : Dying Nat, Reach 2 8 true anyStep s ∧ s.gone = true ∧ s.st.pushed = [20, 30, 10, 40, 50] ∧
    s.late = [40, 50] ∧ (s.st.qs 0).handled = [20, 10] ∧ (s.st.qs 1).handled = [30] ∧
    s.cut 0 = some 2 ∧ s.cut 1 = some 1 ∧ ∀ n c, n < 8 → s.cut n = some c → c ≤ 2 := by
  obtain ⟨s, h, h1, h2, h3, h4, h5, h6, h7, h8⟩ := follow_ex (b := 2) (size := 8) (tf := true)
    (P := fun s : Dying Nat => s.gone = true ∧ s.st.pushed = [20, 30, 10, 40, 50] ∧
      s.late = [40, 50] ∧ (s.st.qs 0).handled = [20, 10] ∧ (s.st.qs 1).handled = [30] ∧
      s.cut 0 = some 2 ∧ s.cut 1 = some 1 ∧ (List.range 8).all (fun n => decide ((s.cut n).getD 0 ≤ 2)) = true) Ex.both (by decide +kernel)
  exact ⟨s, h, h1, h2, h3, h4, h5, h6, h7, fun n c hn hc => by
    simpa [hc] using List.all_eq_true.1 h8 n (List.mem_range.2 hn)⟩

/-- Queues of one slot, filled several times: two laps of queue 0, the second one after `closed_` was set. -/
example : ∃ s : Dying Nat, Reach 1 8 true calm s ∧ s.gone = true ∧ s.st.pushed = [10, 20, 30] ∧ s.late = [30] ∧
    (s.st.qs 0).handled = [10, 20] ∧ s.cut 0 = some 2 :=
  followCalm_ex (m := 1) (Ex.push 0 10 ++ Ex.w 0 6 ++ [.step .close] ++ Ex.push 0 20 ++ Ex.w 0 8 ++
    (List.range 7).flatMap (fun n => Ex.w (n + 1) 2) ++ Ex.push 0 30 ++ [.leave]) (by decide +kernel)

example : ∃ s : Dying Nat, Reach 2 8 true anyStep s ∧ s.gone = false ∧ s.st.closed = true ∧
    (match s.st.prod 0 with | .chosen 10 0 _ => True | _ => False) := by
  obtain ⟨s, h, h1, h2, h3⟩ := follow_ex (b := 2) (size := 8) (tf := true)
    (P := fun s : Dying Nat => s.gone = false ∧ s.st.closed = true ∧
      (match s.st.prod 0 with | .chosen 10 0 _ => true | _ => false) = true) (Ex.both.take 38) (by decide +kernel)
  refine ⟨s, h, h1, h2, ?_⟩
  split at h3 <;> simp_all

/-- For every number of workers: a push that has begun before the destructor did, and has returned before it returns, may be
lost, even though it is the only one: the worker of the queue that it chose had left its loop. -/
theorem C144_lost_refuted (size : Nat) (hs : size ≤ 8) (tf : Bool) : ∃ s s' : Dying Nat, Reach 1 size tf anyStep s ∧
    s.st.closed = false ∧ s.st.prod 0 = .scan 7 0 (intMax, 0) [] ∧ Reach 1 size tf anyStep s' ∧ s'.gone = true ∧
    s'.st.pushed = [7] ∧ s'.st.prod 0 = .idle ∧ ∀ k, k < 8 → (s'.st.qs k).handled = [] := by
  have h1 : Reach 1 size tf anyStep (Dying.new (α := Nat) 1) := .new
  have h2 := Reach.step _ _ _ h1 trivial (Step.start (size := size) (tailFirst := tf) _ 0 7 rfl rfl)
  obtain ⟨s', h3, h4, h5, h6, h7⟩ := follow_ex (b := 1) (size := size) (tf := tf)
    (P := fun s : Dying Nat => s.gone = true ∧ s.st.pushed = [7] ∧
      (match s.st.prod 0 with | .idle => true | _ => false) = true ∧ ∀ k, k < 8 → (s.st.qs k).handled = [])
    ([.step (.start 0 7), .step .close] ++ (List.range size).flatMap (fun n => Ex.w n 2) ++
      List.replicate 16 (.step (.scan 0)) ++ [.step (.claim 0), .step (.store 0), .leave])
    (by clear h2 h1; revert tf; revert size; decide +kernel)
  refine ⟨_, s', h2, rfl, rfl, h3, h4, h5, ?_, h7⟩
  revert h6
  split
  · intro _; assumption
  · intro h; cases h

/-- A push that has begun before the destructor did may go on with a pool that is gone: with reading the counters, with
incrementing one, with the store. -/
theorem C144_undefined_refuted (size : Nat) (hs : size ≤ 8) (tf : Bool) :
    (∃ s : Dying Nat, Reach 1 size tf anyStep s ∧ s.gone = true ∧ Step size tf s (.step (.scan 0)) .ub) ∧
    (∃ s : Dying Nat, Reach 1 size tf anyStep s ∧ s.gone = true ∧ Step size tf s (.step (.claim 0)) .ub) ∧
    (∃ s : Dying Nat, Reach 1 size tf anyStep s ∧ s.gone = true ∧ Step size tf s (.step (.store 0)) .ub) := by
  refine ⟨?_, ?_, ?_⟩
  · obtain ⟨s, h3, h4, h6⟩ := follow_ex (b := 1) (size := size) (tf := tf)
      (P := fun s : Dying Nat => s.gone = true ∧ (match s.st.prod 0 with | .scan _ _ _ _ => true | _ => false) = true)
      ([.step (.start 0 7), .step .close] ++ (List.range size).flatMap (fun n => Ex.w n 2) ++ [.leave])
      (by revert tf; revert size; decide +kernel)
    split at h6
    · rename_i x k acc seen hp
      have := Step.scan (size := size) (tailFirst := tf) s 0 x k acc seen hp
      rw [if_pos h4] at this
      exact ⟨s, h3, h4, this⟩
    · cases h6
  · obtain ⟨s, h3, h4, h6⟩ := follow_ex (b := 1) (size := size) (tf := tf)
      (P := fun s : Dying Nat => s.gone = true ∧ (match s.st.prod 0 with | .chosen _ _ _ => true | _ => false) = true)
      (Ex.choose 0 7 ++ [.step .close] ++ (List.range size).flatMap (fun n => Ex.w n 2) ++ [.leave])
      (by revert tf; revert size; decide +kernel)
    split at h6
    · rename_i x id seen hp
      have := Step.claim (size := size) (tailFirst := tf) s 0 x id seen hp
      rw [if_pos h4] at this
      exact ⟨s, h3, h4, this⟩
    · cases h6
  · obtain ⟨s, h3, h4, h6⟩ := follow_ex (b := 1) (size := size) (tf := tf)
      (P := fun s : Dying Nat => s.gone = true ∧ (match s.st.prod 0 with | .claimed _ _ _ => true | _ => false) = true)
      (Ex.choose 0 7 ++ [.step .close] ++ (List.range size).flatMap (fun n => Ex.w n 2) ++ [.step (.claim 0), .leave])
      (by revert tf; revert size; decide +kernel)
    split at h6
    · rename_i x id i hp
      have := Step.store (size := size) (tailFirst := tf) s 0 x id i hp
      rw [if_pos h4] at this
      exact ⟨s, h3, h4, this⟩
    · cases h6

/-- The choice of the shortest queue prefers the queues of workers that have ended: while worker 0 still has an item to handle
and all others have ended, an item goes into queue 1 and is lost. -/
theorem C144_shortest_refuted (tf : Bool) : ∃ s s' : Dying Nat, Reach 4 8 tf anyStep s ∧ s.st.closed = true ∧
    (s.st.qs 0).pc = .outer ∧ (s.st.qs 1).pc = .ended ∧ s.st.pushed = [7] ∧ (s.st.qs 0).handled = [] ∧
    Reach 4 8 tf anyStep s' ∧ s'.gone = true ∧ s'.st.pushed = [7, 8] ∧ (s'.st.qs 0).handled = [7] ∧
    (s'.st.qs 1).pushed = [8] ∧ (s'.st.qs 1).handled = [] := by
  obtain ⟨s, h1, h2⟩ := follow_ex (b := 4) (size := 8) (tf := tf)
    (P := fun s : Dying Nat => s.st.closed = true ∧ (s.st.qs 0).pc = .outer ∧ (s.st.qs 1).pc = .ended ∧ s.st.pushed = [7] ∧
      (s.st.qs 0).handled = [])
    (Ex.push 0 7 ++ [.step .close] ++ (List.range 7).flatMap (fun n => Ex.w (n + 1) 2)) (by revert tf; decide +kernel)
  obtain ⟨s', h3, h4⟩ := follow_ex (b := 4) (size := 8) (tf := tf)
    (P := fun s : Dying Nat => s.gone = true ∧ s.st.pushed = [7, 8] ∧ (s.st.qs 0).handled = [7] ∧
      (s.st.qs 1).pushed = [8] ∧ (s.st.qs 1).handled = [])
    (Ex.push 0 7 ++ [.step .close] ++ (List.range 7).flatMap (fun n => Ex.w (n + 1) 2) ++ Ex.push 0 8 ++ Ex.w 0 10 ++ [.leave])
    (by clear h1; revert tf; decide +kernel)
  exact ⟨s, s', h1, h2.1, h2.2.1, h2.2.2.1, h2.2.2.2.1, h2.2.2.2.2, h3, h4⟩

/-- After the first lap even a push that has incremented its counter before the destructor began may be lost, and store into a
pool that is gone: the worker finds the slot filled from the lap before and does not wait for the store. -/
theorem C144_overrun_refuted (tf : Bool) : ∃ s s' : Dying Nat, Reach 1 8 tf anyStep s ∧ s.st.closed = false ∧
    s.st.prod 0 = .claimed 8 0 1 ∧ Reach 1 8 tf anyStep s' ∧ s'.gone = true ∧ s'.st.prod 0 = .claimed 8 0 1 ∧
    s'.st.pushed = [7, 8] ∧ s'.late = [] ∧ (s'.st.qs 0).handled = [7, 7] ∧ Step 8 tf s' (.step (.store 0)) .ub := by
  have get : ∀ s : Dying Nat, (match s.st.prod 0 with | .claimed 8 0 1 => true | _ => false) = true →
      s.st.prod 0 = .claimed 8 0 1 := by
    intro s h
    split at h
    · assumption
    · cases h
  obtain ⟨s, h1, h2, h3⟩ := follow_ex (b := 1) (size := 8) (tf := tf)
    (P := fun s : Dying Nat => s.st.closed = false ∧ (match s.st.prod 0 with | .claimed 8 0 1 => true | _ => false) = true)
    (Ex.push 0 7 ++ Ex.w 0 6 ++ Ex.choose 0 8 ++ [.step (.claim 0)]) (by clear get; revert tf; decide +kernel)
  obtain ⟨s', h4, h5, h6, h7⟩ := follow_ex (b := 1) (size := 8) (tf := tf)
    (P := fun s : Dying Nat => s.gone = true ∧ (match s.st.prod 0 with | .claimed 8 0 1 => true | _ => false) = true ∧
      s.st.pushed = [7, 8] ∧ s.late = [] ∧ (s.st.qs 0).handled = [7, 7])
    (Ex.push 0 7 ++ Ex.w 0 6 ++ Ex.choose 0 8 ++ [.step (.claim 0), .step .close] ++ Ex.w 0 8 ++
      (List.range 7).flatMap (fun n => Ex.w (n + 1) 2) ++ [.leave]) (by clear get h1; revert tf; decide +kernel)
  have := Step.store (size := 8) (tailFirst := tf) s' 0 8 0 1 (get s' h6)
  rw [if_pos h5] at this
  exact ⟨s, s', h1, h2, get s h3, h4, h5, get s' h6, h7.1, h7.2.1, h7.2.2, this⟩

end Verif.Pipeline.Pool.Ending
