import Verif.Pipeline.Props
/-!
`pipeline_stage_pool` (`include/xitren/comm/pipeline_stage_pool.hpp`): eight queues whatever the number
of workers, worker `n` serves queue `n`.  The assumptions are those of the single stage.
-/
namespace Verif.Pipeline.Pool
open Verif Verif.Pipeline
variable {α : Type}

/-- `std::numeric_limits<int>::max()` (pipeline_stage_pool.hpp:164). -/
def intMax : Nat := 2147483647

/-- One round of the loop of `min_thread` (pipeline_stage_pool.hpp:168-174): `acc` is `(min, min_i)`. -/
def minStep (acc : Nat × Nat) (i size : Nat) : Nat × Nat :=
  if acc.1 > size then (size, i) else acc

/-- Where a producer stands.  `scan k`: in `min_thread`, about to read queue `k`; `read k v`: has read
one of the two counters of queue `k`, its value being `v`; `chosen`: `min_thread` has returned `id`;
`claimed`: has incremented the counter of queue `id` and not yet stored.  `acc` is `(min, min_i)`, `seen`
records the sizes read so far (pipeline_stage_pool.hpp:112-129, 161-178). -/
inductive Prod (α : Type) where
  | idle
  | scan (x : α) (k : Nat) (acc : Nat × Nat) (seen : List Nat)
  | read (x : α) (k v : Nat) (acc : Nat × Nat) (seen : List Nat)
  | chosen (x : α) (id : Nat) (seen : List Nat)
  | claimed (x : α) (id i : Nat)

/-- The pool (pipeline_stage_pool.hpp:153-159).  `pushed` records all items in the order in which the
pushes incremented a counter. -/
structure State (α : Type) where
  qs : Nat → Q α
  closed : Bool
  prod : Nat → Prod α
  pushed : List α

/-- A new pool (pipeline_stage_pool.hpp:55-99). -/
def State.new (b : Nat) : State α := ⟨fun _ => Q.new b, false, fun _ => .idle, []⟩

/-- Replace one value of a function (no code). -/
def upd {β : Type} (f : Nat → β) (k : Nat) (v : β) : Nat → β := fun j => if j = k then v else f j

/-- The steps (pipeline_stage_pool.hpp:55-129). -/
inductive Label (α : Type) where
  | start (p : Nat) (x : α)
  | scan (p : Nat)
  | claim (p : Nat)
  | store (p : Nat)
  | close
  | work (n : Nat) (e : Int)

/-- What a producer does next when it has read the size of queue `k` (pipeline_stage_pool.hpp:169-176,
114). -/
def nextScan (x : α) (k size : Nat) (acc : Nat × Nat) (seen : List Nat) : Prod α :=
  if k + 1 < 8 then .scan x (k + 1) (minStep acc k size) (seen ++ [size])
  else .chosen x (minStep acc k size).2 (seen ++ [size])

/-- One step of a pool with `size` workers.  `tailFirst` says in which order `item.tail - item.head`
reads the counters, which the language leaves open (pipeline_stage_pool.hpp:55-178). -/
inductive Step (size : Nat) (tailFirst : Bool) : State α → Label α → Res (State α) → Prop
  /-- `push(x)` begins, `min_thread()` initialises its variables (pipeline_stage_pool.hpp:114, 164-167). -/
  | start (s : State α) (p : Nat) (x : α) : s.closed = false → s.prod p = .idle →
      Step size tailFirst s (.start p x) (.ok
        { s with prod := upd s.prod p (.scan x 0 (intMax, 0) []) })
  /-- The first counter of queue `k` is read (pipeline_stage_pool.hpp:169). -/
  | scan (s : State α) (p : Nat) (x : α) (k : Nat) (acc : Nat × Nat) (seen : List Nat) :
      s.prod p = .scan x k acc seen →
      Step size tailFirst s (.scan p) (.ok
        { s with
          prod := upd s.prod p (.read x k (if tailFirst then (s.qs k).tail else (s.qs k).head) acc seen) })
  /-- The second counter is read and the minimum updated (pipeline_stage_pool.hpp:169-174). -/
  | read (s : State α) (p : Nat) (x : α) (k v : Nat) (acc : Nat × Nat) (seen : List Nat) :
      s.prod p = .read x k v acc seen →
      Step size tailFirst s (.scan p) (.ok
        { s with
          prod := upd s.prod p (nextScan x k
            (if tailFirst then (v + word - (s.qs k).head) % word else ((s.qs k).tail + word - v) % word)
            acc seen) })
  /-- `i = tail++` (pipeline_stage_pool.hpp:115, 126). -/
  | claim (s : State α) (p : Nat) (x : α) (id : Nat) (seen : List Nat) :
      s.prod p = .chosen x id seen →
      Step size tailFirst s (.claim p) (.ok
        { s with
          qs := upd s.qs id ((s.qs id).claim x)
          prod := upd s.prod p (.claimed x id (s.qs id).tail)
          pushed := s.pushed ++ [x] })
  /-- The store (pipeline_stage_pool.hpp:116, 127). -/
  | store (s : State α) (p : Nat) (x : α) (id i : Nat) : s.prod p = .claimed x id i →
      Step size tailFirst s (.store p) (do
        let q ← (s.qs id).store i x
        return { s with qs := upd s.qs id q, prod := upd s.prod p .idle })
  /-- The destructor sets `closed_` (pipeline_stage_pool.hpp:103). -/
  | close (s : State α) : s.closed = false → (∀ p, s.prod p = .idle) →
      Step size tailFirst s .close (.ok { s with closed := true })
  /-- A step of worker `n`; `pool_[n]` does not exist if `n ≥ 8` (pipeline_stage_pool.hpp:61). -/
  | work (s : State α) (n : Nat) (e : Int) : n < size → (s.qs n).pc ≠ .ended →
      Step size tailFirst s (.work n e) (
        if n < 8 then do
          let q ← (s.qs n).work s.closed e
          return { s with qs := upd s.qs n q }
        else .ub)

/-- The states a pool can reach. -/
inductive Reach (b size : Nat) (tailFirst : Bool) : State α → Prop
  | new : Reach b size tailFirst (State.new b)
  | step (s s' : State α) (l : Label α) : Reach b size tailFirst s →
      Step size tailFirst s l (.ok s') → Reach b size tailFirst s'

/-- The pushes into queue `k` that have incremented its counter and not yet stored. -/
def pendOf (prod : Nat → Prod α) (k : Nat) : Nat → Option (Nat × α) := fun p =>
  match prod p with
  | .claimed x id i => if id = k then some (i, x) else none
  | _ => none

/-- No half-done push of producer `p`. -/
def Prod.quiet : Prod α → Prop
  | .claimed _ _ _ => False
  | _ => True

theorem pendOf_quiet {prod : Nat → Prod α} {p : Nat} {st : Prod α} (h1 : (prod p).quiet)
    (h2 : st.quiet) (k : Nat) : pendOf (upd prod p st) k = pendOf prod k := by
  funext p'
  simp only [pendOf, upd]
  by_cases hp : p' = p
  · subst hp
    rw [if_pos rfl]
    cases st <;> cases hq : prod p' <;> simp_all [Prod.quiet]
  · rw [if_neg hp]

theorem pendOf_claim {prod : Nat → Prod α} {p : Nat} (h1 : (prod p).quiet) (x : α) (id i k : Nat) :
    pendOf (upd prod p (.claimed x id i)) k =
      if id = k then setAt (pendOf prod k) p (some (i, x)) else pendOf prod k := by
  funext p'
  by_cases hp : p' = p
  · subst hp
    by_cases hk : id = k
    · simp [pendOf, upd, setAt, hk]
    · cases hq : prod p' <;> simp_all [pendOf, upd, Prod.quiet]
  · by_cases hk : id = k
    · simp [pendOf, upd, setAt, hk, hp]
    · simp [pendOf, upd, hk, hp]

theorem pendOf_store {prod : Nat → Prod α} {p : Nat} {x : α} {id i : Nat}
    (h1 : prod p = .claimed x id i) (k : Nat) :
    pendOf (upd prod p .idle) k =
      if id = k then setAt (pendOf prod k) p none else pendOf prod k := by
  funext p'
  by_cases hp : p' = p
  · subst hp
    by_cases hk : id = k
    · simp [pendOf, upd, setAt, hk]
    · simp [pendOf, upd, h1, hk]
  · by_cases hk : id = k
    · simp [pendOf, upd, setAt, hk, hp]
    · simp [pendOf, upd, hk, hp]

/-- Where producers may stand. -/
def Prod.Ok : Prod α → Prop
  | .idle => True
  | .scan _ k acc _ => k < 8 ∧ acc.2 < 8
  | .read _ k _ acc _ => k < 8 ∧ acc.2 < 8
  | .chosen _ id _ => id < 8
  | .claimed _ id _ => id < 8

theorem nextScan_ok (x : α) (k size : Nat) (acc : Nat × Nat) (seen : List Nat) (hk : k < 8)
    (ha : acc.2 < 8) : (nextScan x k size acc seen).Ok ∧ (nextScan x k size acc seen).quiet := by
  have hm : (minStep acc k size).2 < 8 := by
    unfold minStep
    split
    · exact hk
    · exact ha
  unfold nextScan
  split
  · rename_i h
    exact ⟨⟨h, hm⟩, trivial⟩
  · exact ⟨hm, trivial⟩

/-- The cases of a successful step. -/
theorem Step.cases_ok {size : Nat} {tf : Bool} {s s' : State α} {l : Label α}
    (h : Step size tf s l (.ok s')) :
    (∃ p st, (s.prod p).quiet ∧ st.quiet ∧ (s.closed = false ∨ s.prod p ≠ .idle) ∧
      ((s.prod p).Ok → st.Ok) ∧ s' = { s with prod := upd s.prod p st }) ∨
    (∃ p x id seen, s.prod p = .chosen x id seen ∧
      s' = { s with
              qs := upd s.qs id ((s.qs id).claim x)
              prod := upd s.prod p (.claimed x id (s.qs id).tail)
              pushed := s.pushed ++ [x] }) ∨
    (∃ p x id i q, s.prod p = .claimed x id i ∧ (s.qs id).store i x = .ok q ∧
      s' = { s with qs := upd s.qs id q, prod := upd s.prod p .idle }) ∨
    (s.closed = false ∧ (∀ p, s.prod p = .idle) ∧ s' = { s with closed := true }) ∨
    (∃ n e q, n < size ∧ n < 8 ∧ (s.qs n).pc ≠ .ended ∧ (s.qs n).work s.closed e = .ok q ∧
      s' = { s with qs := upd s.qs n q }) := by
  generalize hr : Res.ok s' = r at h
  cases h with
  | start p x h1 h2 =>
    cases hr
    exact .inl ⟨p, .scan x 0 (intMax, 0) [], by rw [h2]; trivial, trivial, .inl h1,
      fun _ => ⟨by omega, by simp⟩, rfl⟩
  | scan p x k acc seen h1 =>
    cases hr
    exact .inl ⟨p, .read x k (if tf then (s.qs k).tail else (s.qs k).head) acc seen,
      by rw [h1]; trivial, trivial, .inr (by simp [h1]), fun ho => by rw [h1] at ho; exact ho, rfl⟩
  | read p x k v acc seen h1 =>
    cases hr
    refine .inl ⟨p, _, by rw [h1]; trivial, ?_, .inr (by simp [h1]), fun ho => ?_, rfl⟩
    · unfold nextScan
      split <;> trivial
    · rw [h1] at ho
      exact (nextScan_ok _ _ _ _ _ ho.1 ho.2).1
  | claim p x id seen h1 =>
    cases hr
    exact .inr (.inl ⟨p, x, id, seen, h1, rfl⟩)
  | store p x id i h1 =>
    cases hq : (s.qs id).store i x with
    | ub => rw [hq] at hr; cases hr
    | hang => rw [hq] at hr; cases hr
    | ok q =>
      rw [hq] at hr
      simp only [Res.ok_bind, Res.pure_eq, Res.ok.injEq] at hr
      exact .inr (.inr (.inl ⟨p, x, id, i, q, h1, hq, hr⟩))
  | close h1 h2 =>
    cases hr
    exact .inr (.inr (.inr (.inl ⟨h1, h2, rfl⟩)))
  | work n e h1 h2 =>
    split at hr
    · rename_i h8
      cases hq : (s.qs n).work s.closed e with
      | ub => rw [hq] at hr; cases hr
      | hang => rw [hq] at hr; cases hr
      | ok q =>
        rw [hq] at hr
        simp only [Res.ok_bind, Res.pure_eq, Res.ok.injEq] at hr
        exact .inr (.inr (.inr (.inr ⟨n, e, q, h1, h8, h2, hq, hr⟩)))
    · cases hr

theorem upd_same {β : Type} (f : Nat → β) (k : Nat) (v : β) : upd f k v k = v := if_pos rfl

theorem upd_other {β : Type} (f : Nat → β) {k j : Nat} (v : β) (h : j ≠ k) : upd f k v j = f j :=
  if_neg h

/-- Pushes only add to each queue; the number of slots never changes. -/
theorem Step.mono {size : Nat} {tf : Bool} {s s' : State α} {l : Label α}
    (h : Step size tf s l (.ok s')) (k : Nat) :
    (s.qs k).pushed.length ≤ (s'.qs k).pushed.length ∧
    (s'.qs k).slots.length = (s.qs k).slots.length := by
  rcases h.cases_ok with ⟨p, st, _, _, _, _, rfl⟩ | ⟨p, x, id, seen, _, rfl⟩ |
    ⟨p, x, id, i, q, _, hq, rfl⟩ | ⟨_, _, rfl⟩ | ⟨n, e, q, _, _, _, hq, rfl⟩
  · exact ⟨Nat.le_refl _, rfl⟩
  · by_cases hk : k = id
    · subst hk
      simp [upd_same, Q.claim]
    · simp [upd_other _ _ hk]
  · by_cases hk : k = id
    · subst hk
      have := Q.store_same hq
      subst this
      simp [upd_same]
    · simp [upd_other _ _ hk]
  · exact ⟨Nat.le_refl _, rfl⟩
  · by_cases hk : k = n
    · subst hk
      obtain ⟨_, h2, h3⟩ := Q.work_same hq
      simp [upd_same, h2, h3]
    · simp [upd_other _ _ hk]

theorem Reach.slots {b size : Nat} {tf : Bool} {s : State α} (h : Reach b size tf s) (k : Nat) :
    (s.qs k).slots.length = b := by
  induction h with
  | new => simp [State.new, Q.new]
  | step s s' l _ hs ih => rw [(hs.mono k).2, ih]

theorem Reach.inv {b size : Nat} (hb : 0 < b) {tf : Bool} {s : State α} (h : Reach b size tf s)
    (hw : ∀ k, (s.qs k).pushed.length < word) :
    (∀ k, QInv s.closed (s.qs k) (pendOf s.prod k)) ∧
    (s.closed = true → ∀ p, s.prod p = .idle) ∧ (∀ p, (s.prod p).Ok) := by
  induction h with
  | new =>
    exact ⟨fun k => QInv.new b hb _ fun p => rfl, (fun h => by cases h), fun p => trivial⟩
  | step s s' l _ hs ih =>
    obtain ⟨i1, i2, i3⟩ := ih fun k => Nat.lt_of_le_of_lt (hs.mono k).1 (hw k)
    rcases hs.cases_ok with ⟨p, st, hq1, hq2, hc, hok, rfl⟩ | ⟨p, x, id, seen, hp, rfl⟩ |
      ⟨p, x, id, i, q, hp, hq, rfl⟩ | ⟨hc, hp, rfl⟩ | ⟨n, e, q, _, _, _, hq, rfl⟩
    · refine ⟨fun k => ?_, fun hcl => ?_, fun p' => ?_⟩
      · rw [pendOf_quiet hq1 hq2]
        exact i1 k
      · rcases hc with hc | hc
        · rw [hc] at hcl
          cases hcl
        · exact absurd (i2 hcl p) hc
      · simp only [upd]
        split
        · exact hok (i3 p)
        · exact i3 p'
    · have hcf : s.closed = false := by
        cases hc : s.closed with
        | false => rfl
        | true =>
          have := i2 hc p
          rw [hp] at this
          cases this
      refine ⟨fun k => ?_, fun hcl => ?_, fun p' => ?_⟩
      · have hwk := hw k
        have hi := i1 k
        simp only at hwk
        rw [pendOf_claim (by rw [hp]; trivial)]
        by_cases hk : id = k
        · subst hk
          rw [if_pos rfl]
          simp only [upd_same] at hwk ⊢
          rw [hcf] at hi ⊢
          refine hi.claim p x (by simpa [Q.claim] using hwk) ?_
          simp [pendOf, hp]
        · rw [if_neg hk]
          simp only [upd_other _ _ (fun h : k = id => hk h.symm)]
          exact hi
      · simp only at hcl
        rw [hcf] at hcl
        cases hcl
      · simp only [upd]
        split
        · have := i3 p
          rw [hp] at this
          exact this
        · exact i3 p'
    · refine ⟨fun k => ?_, fun hcl => ?_, fun p' => ?_⟩
      · have hi := i1 k
        rw [pendOf_store hp]
        by_cases hk : id = k
        · subst hk
          rw [if_pos rfl]
          simp only [upd_same]
          exact hi.store p i x (by simp [pendOf, hp]) hq
        · rw [if_neg hk]
          simp only [upd_other _ _ (fun h : k = id => hk h.symm)]
          exact hi
      · have := i2 hcl p
        rw [hp] at this
        cases this
      · simp only [upd]
        split
        · trivial
        · exact i3 p'
    · refine ⟨fun k => ?_, fun _ => hp, i3⟩
      have hi := i1 k
      rw [hc] at hi
      exact hi.close
    · refine ⟨fun k => ?_, i2, i3⟩
      have hi := i1 k
      by_cases hk : k = n
      · subst hk
        simp only [upd_same]
        exact hi.work e hq
      · simp only [upd_other _ _ hk]
        exact hi

theorem Reach.firstLap {b size : Nat} (hb : 0 < b) {tf : Bool} {s : State α} (h : Reach b size tf s)
    (hw : ∀ k, (s.qs k).pushed.length < word) (hl : ∀ k, (s.qs k).pushed.length ≤ b) (k : Nat) :
    FirstLap (s.qs k) := by
  induction h with
  | new => exact FirstLap.new b
  | step s s' l hr hs ih =>
    have ih := ih (fun k => Nat.lt_of_le_of_lt (hs.mono k).1 (hw k))
      (fun k => Nat.le_trans (hs.mono k).1 (hl k))
    have hi := (hr.inv hb fun k => Nat.lt_of_le_of_lt (hs.mono k).1 (hw k)).1 k
    have hlk := Nat.le_trans (hs.mono k).1 (hl k)
    have hsl := hr.slots k
    rcases hs.cases_ok with ⟨p, st, hq1, hq2, hc, hok, rfl⟩ | ⟨p, x, id, seen, hp, rfl⟩ |
      ⟨p, x, id, i, q, hp, hq, rfl⟩ | ⟨hc, hp, rfl⟩ | ⟨n, e, q, _, _, _, hq, rfl⟩
    · exact ih
    · by_cases hk : k = id
      · subst hk
        simp only [upd_same]
        exact ih.claim hi x
      · simp only [upd_other _ _ hk]
        exact ih
    · by_cases hk : k = id
      · subst hk
        simp only [upd_same]
        exact ih.store hi (by omega) p i x (by simp [pendOf, hp]) hq
      · simp only [upd_other _ _ hk]
        exact ih
    · exact ih
    · by_cases hk : k = n
      · subst hk
        simp only [upd_same]
        exact ih.work hi (by omega) hq
      · simp only [upd_other _ _ hk]
        exact ih

/-- The items of the eight queues. -/
def allOf (f : Q α → List α) (qs : Nat → Q α) : List α := (List.range 8).flatMap fun k => f (qs k)

theorem flatMap_congr' {f g : Nat → List α} : ∀ {l : List Nat}, (∀ j ∈ l, f j = g j) →
    l.flatMap f = l.flatMap g
  | [], _ => rfl
  | k :: l, h => by
    rw [List.flatMap_cons, List.flatMap_cons, h k (by simp),
      flatMap_congr' fun j hj => h j (by simp [hj])]

theorem flatMap_upd (f : Q α → List α) (qs : Nat → Q α) (id : Nat) (q : Q α) (x : α)
    (hq : f q = f (qs id) ++ [x]) : ∀ l : List Nat, l.Nodup → id ∈ l →
    (l.flatMap fun k => f (upd qs id q k)).Perm ((l.flatMap fun k => f (qs k)) ++ [x])
  | [], _, h => by simp at h
  | k :: l, hn, hm => by
    rw [List.nodup_cons] at hn
    simp only [List.flatMap_cons]
    by_cases hk : k = id
    · subst hk
      have hsame : (l.flatMap fun j => f (upd qs k q j)) = l.flatMap fun j => f (qs j) := by
        refine flatMap_congr' fun j hj => ?_
        rw [upd_other _ _ (fun h : j = k => hn.1 (h ▸ hj))]
      rw [hsame, upd_same, hq, List.append_assoc, List.append_assoc]
      exact List.Perm.append_left _ List.perm_append_comm
    · have hm' : id ∈ l := by
        rcases List.mem_cons.1 hm with h | h
        · exact absurd h.symm hk
        · exact h
      rw [upd_other _ _ hk, List.append_assoc]
      exact List.Perm.append_left _ (flatMap_upd f qs id q x hq l hn.2 hm')

theorem flatMap_same (f : Q α → List α) (qs : Nat → Q α) (id : Nat) (q : Q α)
    (hq : f q = f (qs id)) : allOf f (upd qs id q) = allOf f qs := by
  refine flatMap_congr' fun j _ => ?_
  by_cases h : j = id
  · subst h
    rw [upd_same, hq]
  · rw [upd_other _ _ h]

/-- Every push went into one of the eight queues. -/
theorem Reach.placed {b size : Nat} {tf : Bool} {s : State α} (h : Reach b size tf s) :
    (allOf Q.pushed s.qs).Perm s.pushed ∧ (∀ p, (s.prod p).Ok) := by
  induction h with
  | new => exact ⟨by simp [allOf, State.new, Q.new], fun _ => trivial⟩
  | step s s' l hr hs ih =>
    obtain ⟨ih, i3⟩ := ih
    rcases hs.cases_ok with ⟨p, st, hq1, hq2, hc, hok, rfl⟩ | ⟨p, x, id, seen, hp, rfl⟩ |
      ⟨p, x, id, i, q, hp, hq, rfl⟩ | ⟨hc, hp, rfl⟩ | ⟨n, e, q, _, _, _, hq, rfl⟩
    · refine ⟨ih, fun p' => ?_⟩
      simp only [upd]
      split
      · exact hok (i3 p)
      · exact i3 p'
    · have hid := i3 p
      rw [hp] at hid
      refine ⟨?_, fun p' => ?_⟩
      · refine (flatMap_upd Q.pushed s.qs id _ x rfl _ List.nodup_range ?_).trans
          (ih.append_right [x])
        exact List.mem_range.2 hid
      · simp only [upd]
        split
        · exact hid
        · exact i3 p'
    · have := Q.store_same hq
      subst this
      refine ⟨?_, fun p' => ?_⟩
      · refine List.Perm.trans (List.Perm.of_eq (flatMap_same Q.pushed s.qs id _ ?_)) ih
        rfl
      simp only [upd]
      split
      · trivial
      · exact i3 p'
    · exact ⟨ih, i3⟩
    · refine ⟨?_, i3⟩
      rw [flatMap_same Q.pushed s.qs n q (Q.work_same hq).2.2]
      exact ih

/-- Queues that do not exist stay as they were. -/
theorem Reach.outside {b size : Nat} {tf : Bool} {s : State α} (h : Reach b size tf s) (k : Nat)
    (hk : 8 ≤ k) : s.qs k = Q.new b := by
  induction h with
  | new => rfl
  | step s s' l hr hs ih =>
    have i3 := hr.placed.2
    rcases hs.cases_ok with ⟨p, st, hq1, hq2, hc, hok, rfl⟩ | ⟨p, x, id, seen, hp, rfl⟩ |
      ⟨p, x, id, i, q, hp, hq, rfl⟩ | ⟨hc, hp, rfl⟩ | ⟨n, e, q, _, _, _, hq, rfl⟩
    · exact ih
    · have hid := i3 p
      rw [hp] at hid
      simp only [Prod.Ok] at hid
      exact (upd_other _ _ (by omega)).trans ih
    · have hid := i3 p
      rw [hp] at hid
      simp only [Prod.Ok] at hid
      exact (upd_other _ _ (by omega)).trans ih
    · exact ih
    · exact (upd_other _ _ (by omega)).trans ih

theorem length_le_flatMap (f : Nat → List α) : ∀ (l : List Nat) (k : Nat), k ∈ l →
    (f k).length ≤ (l.flatMap f).length
  | [], _, h => by simp at h
  | j :: l, k, h => by
    rw [List.flatMap_cons, List.length_append]
    rcases List.mem_cons.1 h with h | h
    · subst h
      omega
    · have := length_le_flatMap f l k h
      omega

/-- No queue got more than all pushes together. -/
theorem Reach.queue_le {b size : Nat} {tf : Bool} {s : State α} (h : Reach b size tf s) (k : Nat) :
    (s.qs k).pushed.length ≤ s.pushed.length := by
  by_cases hk : k < 8
  · have h1 := length_le_flatMap (fun k => (s.qs k).pushed) (List.range 8) k (List.mem_range.2 hk)
    rw [← h.placed.1.length_eq]
    exact h1
  · rw [h.outside k (by omega)]
    simp [Q.new]

end Verif.Pipeline.Pool
