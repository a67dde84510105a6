import Verif.Pipeline.Stage
/-!
Pushes into a `pipeline_stage` (`include/xitren/comm/pipeline_stage.hpp`) while another thread destroys
it.

`Stage` lets the destructor begin only when no push is under way and none begins afterwards.  Here a push
may begin at any time before the destructor has returned, and may be under way when it returns.  As in
`Stage`, every atomic operation and every access to a slot is one step.  A push that begins after the
destructor has returned is not modelled: it is a call of a member function of an object that does not
exist.
-/
namespace Verif.Pipeline
open Verif

variable {α : Type}

/-- A stage, and how far its destruction is (pipeline_stage.hpp:48-54).  `gone`: the destructor has
returned.  `cut` only records what happened: the number of pushes that had incremented `queue_.tail` when
the worker left its loop. -/
structure Late (α : Type) where
  st : Stage α
  cut : Option Nat
  gone : Bool

/-- A stage with `b` slots whose constructor has returned (pipeline_stage.hpp:46, 96-103). -/
def Late.new (b : Nat) : Late α := ⟨Stage.new b, none, false⟩

/-- The steps of `Stage`, and the return of the destructor (pipeline_stage.hpp:48-54). -/
inductive Late.Act (α : Type) where
  | step (l : Label α)
  | leave

/-- The number of pushes that have begun, once the worker has left its loop (pipeline_stage.hpp:108). -/
def Late.mark (q : Q α) : Option Nat := if q.pc = .ended then some q.pushed.length else none

/-- The steps.  `begin`: a push increments `queue_.tail` (pipeline_stage.hpp:59, 69), also after `closed_`
was set.  `store`: it stores its item (pipeline_stage.hpp:60, 70); after the destructor has returned the
array is gone and the store is undefined.  `close`: the destructor sets `closed_` (pipeline_stage.hpp:50),
whatever pushes are under way.  `work`: one step of the worker (pipeline_stage.hpp:108-133).  `leave`:
`join` returns because the worker has ended, and the members are destroyed (pipeline_stage.hpp:51-54,
96-100). -/
inductive Late.Step : Late α → Late.Act α → Res (Late α) → Prop
  | begin (s : Late α) (p : Nat) (x : α) : s.gone = false → s.st.pend p = none →
      Step s (.step (.begin p x)) (.ok
        { s with st :=
          { s.st with
            q := s.st.q.claim x
            pend := setAt s.st.pend p (some (s.st.q.tail, x)) } })
  | store (s : Late α) (p i : Nat) (x : α) : s.st.pend p = some (i, x) →
      Step s (.step (.store p)) (if s.gone then .ub else do
        let q ← s.st.q.store i x
        return { s with st :=
          { s.st with
            q := q
            pend := setAt s.st.pend p none } })
  | close (s : Late α) : s.st.closed = false →
      Step s (.step .close) (.ok { s with st := { s.st with closed := true } })
  | work (s : Late α) (e : Int) : s.st.q.pc ≠ .ended →
      Step s (.step (.work e)) (do
        let q ← s.st.q.work s.st.closed e
        return { s with st := { s.st with q := q }, cut := Late.mark q })
  | leave (s : Late α) : s.gone = false → s.st.closed = true → s.st.q.pc = .ended →
      Step s .leave (.ok { s with gone := true })

/-- The states that can be reached by steps that satisfy `G` (pipeline_stage.hpp:45-133). -/
inductive Late.Reach (b : Nat) (G : Late α → Late.Act α → Prop) : Late α → Prop
  | new : Reach b G (Late.new b)
  | step (s s' : Late α) (l : Late.Act α) : Reach b G s → G s l → Step s l (.ok s') → Reach b G s'

/-- No restriction. -/
def Late.anyStep : Late α → Late.Act α → Prop := fun _ _ => True

/-- The restriction `tame` of `Stage`, until the worker has ended: a push begins only while fewer items
than slots are unhandled, and the worker takes an index only when its store is complete. -/
def Late.tame : Late α → Late.Act α → Prop
  | s, .step l => s.st.q.pc ≠ .ended → Pipeline.tame s.st l
  | _, .leave => True

theorem Late.Step.cases_ok {s s' : Late α} {l : Late.Act α} (h : Step s l (.ok s')) :
    (∃ p x, l = .step (.begin p x) ∧ s.gone = false ∧ s.st.pend p = none ∧
      s' = { s with st := { s.st with q := s.st.q.claim x, pend := setAt s.st.pend p (some (s.st.q.tail, x)) } }) ∨
    (∃ p i x q, l = .step (.store p) ∧ s.gone = false ∧ s.st.pend p = some (i, x) ∧
      s.st.q.store i x = .ok q ∧
      s' = { s with st := { s.st with q := q, pend := setAt s.st.pend p none } }) ∨
    (l = .step .close ∧ s.st.closed = false ∧ s' = { s with st := { s.st with closed := true } }) ∨
    (∃ e q, l = .step (.work e) ∧ s.st.q.pc ≠ .ended ∧ s.st.q.work s.st.closed e = .ok q ∧
      s' = { s with st := { s.st with q := q }, cut := Late.mark q }) ∨
    (l = .leave ∧ s.gone = false ∧ s.st.closed = true ∧ s.st.q.pc = .ended ∧
      s' = { s with gone := true }) := by
  generalize hr : Res.ok s' = r at h
  cases h with
  | begin p x h1 h2 =>
    cases hr
    exact .inl ⟨p, x, rfl, h1, h2, rfl⟩
  | store p i x h1 =>
    cases hg : s.gone with
    | true => rw [hg, if_pos rfl] at hr; cases hr
    | false =>
    rw [hg, if_neg (by decide)] at hr
    cases hq : s.st.q.store i x with
    | ub => rw [hq] at hr; cases hr
    | hang => rw [hq] at hr; cases hr
    | ok q =>
      rw [hq] at hr
      simp only [Res.ok_bind, Res.pure_eq, Res.ok.injEq] at hr
      exact .inr (.inl ⟨p, i, x, q, rfl, rfl, h1, hq, hr⟩)
  | close h1 =>
    cases hr
    exact .inr (.inr (.inl ⟨rfl, h1, rfl⟩))
  | work e h1 =>
    cases hq : s.st.q.work s.st.closed e with
    | ub => rw [hq] at hr; cases hr
    | hang => rw [hq] at hr; cases hr
    | ok q =>
      rw [hq] at hr
      simp only [Res.ok_bind, Res.pure_eq, Res.ok.injEq] at hr
      exact .inr (.inr (.inr (.inl ⟨e, q, rfl, h1, hq, hr⟩)))
  | leave h1 h2 h3 =>
    cases hr
    exact .inr (.inr (.inr (.inr ⟨rfl, h1, h2, h3, rfl⟩)))

/-- Pushes only add; the number of slots never changes. -/
theorem Late.Step.mono {s s' : Late α} {l : Late.Act α} (h : Step s l (.ok s')) :
    s.st.q.pushed.length ≤ s'.st.q.pushed.length ∧ s'.st.q.slots.length = s.st.q.slots.length := by
  rcases h.cases_ok with ⟨p, x, _, _, _, rfl⟩ | ⟨p, i, x, q, _, _, _, hq, rfl⟩ | ⟨_, _, rfl⟩ |
      ⟨e, q, _, _, hq, rfl⟩ | ⟨_, _, _, _, rfl⟩
  · simp [Q.claim]
  · have := Q.store_same hq
    subst this
    simp
  · simp
  · obtain ⟨_, h2, h3⟩ := Q.work_same hq
    simp only [h2, h3]
    simp
  · simp

theorem Late.Reach.slots {b : Nat} {G : Late α → Late.Act α → Prop} {s : Late α} (h : Reach b G s) :
    s.st.q.slots.length = b := by
  induction h with
  | new => simp [Late.new, Stage.new, Q.new]
  | step s s' l _ _ hs ih => rw [hs.mono.2, ih]

/-- Before the worker ends all is as in `Stage`; afterwards the queue only grows behind its back. -/
structure LInv (s : Late α) : Prop where
  len : 0 < s.st.q.slots.length
  live : s.cut = none → s.st.q.pc ≠ .ended ∧ s.gone = false ∧ QInv s.st.closed s.st.q s.st.pend
  over : ∀ n, s.cut = some n → s.st.q.pc = .ended ∧ s.st.closed = true ∧ s.st.q.handled.length = n ∧
    n ≤ s.st.q.pushed.length
  tail : s.st.q.tail = s.st.q.pushed.length
  pendOk : ∀ p i x, s.st.pend p = some (i, x) → s.st.q.pushed[i]? = some x

theorem Late.Reach.linv {b : Nat} (hb : 0 < b) {G : Late α → Late.Act α → Prop} {s : Late α}
    (h : Reach b G s) (hw : s.st.q.pushed.length < word) : LInv s := by
  induction h with
  | new =>
    refine ⟨by simpa [Late.new, Stage.new, Q.new] using hb, fun _ => ⟨by simp [Late.new, Stage.new, Q.new], rfl, QInv.new b hb _ fun _ => rfl⟩,
      fun n h => (by cases h), rfl, fun p i x h => (by cases h)⟩
  | step s s' l _ _ hs ih =>
    have hm := hs.mono
    have ih := ih (Nat.lt_of_le_of_lt hm.1 hw)
    rcases hs.cases_ok with ⟨p, x, _, hg, hp, rfl⟩ | ⟨p, i, x, q, _, hg, hp, hq, rfl⟩ | ⟨_, hc, rfl⟩ |
      ⟨e, q, _, hpc, hq, rfl⟩ | ⟨_, hg, hc, hpc, rfl⟩
    · have hw' : s.st.q.pushed.length + 1 < word := by simpa [Q.claim] using hw
      refine ⟨ih.len, fun hcut => ?_, fun n hcut => ?_, ?_, ?_⟩
      · obtain ⟨a1, a2, a3⟩ := ih.live hcut
        exact ⟨a1, a2, a3.claimOpen p x hw' hp a1⟩
      · obtain ⟨a1, a2, a3, a4⟩ := ih.over n hcut
        exact ⟨a1, a2, a3, by simp [Q.claim]; omega⟩
      · simp only [Q.claim, List.length_append, List.length_singleton]
        rw [ih.tail, Nat.mod_eq_of_lt hw']
      · intro p' i y hy
        simp only [setAt] at hy
        simp only [Q.claim]
        split at hy
        · simp only [Option.some.injEq, Prod.mk.injEq] at hy
          obtain ⟨rfl, rfl⟩ := hy
          rw [ih.tail]
          simp
        · have := ih.pendOk p' i y hy
          rw [List.getElem?_append_left (List.getElem?_eq_some_iff.1 this).1]
          exact this
    · have hsm := Q.store_same hq
      refine ⟨by rw [hm.2]; exact ih.len, fun hcut => ?_, fun n hcut => ?_, ?_, ?_⟩
      · obtain ⟨a1, a2, a3⟩ := ih.live hcut
        exact ⟨by rw [hsm]; exact a1, a2, a3.store p i x hp hq⟩
      · obtain ⟨a1, a2, a3, a4⟩ := ih.over n hcut
        subst hsm
        exact ⟨a1, a2, a3, a4⟩
      · subst hsm
        exact ih.tail
      · intro p' j y hy
        simp only [setAt] at hy
        split at hy
        · cases hy
        · subst hsm
          exact ih.pendOk p' j y hy
    · refine ⟨ih.len, fun hcut => ?_, fun n hcut => ?_, ih.tail, ih.pendOk⟩
      · obtain ⟨a1, a2, a3⟩ := ih.live hcut
        rw [hc] at a3
        exact ⟨a1, a2, a3.close⟩
      · have := (ih.over n hcut).2.1
        rw [hc] at this
        cases this
    · have hcut : s.cut = none := by
        cases hcut : s.cut with
        | none => rfl
        | some n => exact absurd (ih.over n hcut).1 hpc
      obtain ⟨_, a2, a3⟩ := ih.live hcut
      have a4 := a3.work e hq
      obtain ⟨w1, w2, w3⟩ := Q.work_same hq
      refine ⟨by rw [hm.2]; exact ih.len, fun h => ?_, fun n h => ?_, ?_, ?_⟩
      · simp only [Late.mark] at h
        split at h
        · cases h
        · rename_i hne
          exact ⟨hne, a2, a4⟩
      · simp only [Late.mark] at h
        split at h
        · rename_i he
          cases h
          obtain ⟨e1, e2⟩ := a4.ended he
          have e3 := a4.head
          have e4 := a4.tail
          rw [he] at e3
          simp only [Pc.taken] at e3
          have e5 : q.handled.length = q.pushed.length := by omega
          exact ⟨he, e1, e5, Nat.le_refl _⟩
        · cases h
      · simp only [w1, w3]
        exact ih.tail
      · simp only [w3]
        exact ih.pendOk
    · have hcut : s.cut ≠ none := fun h => (ih.live h).1 hpc
      exact ⟨ih.len, fun h => absurd h hcut, ih.over, ih.tail, ih.pendOk⟩

/-! ### The first lap -/

/-- In the first lap a slot is empty until the push that owns it stores. -/
structure Waits (q : Q α) (pend : Nat → Option (Nat × α)) : Prop where
  inj : ∀ p p' i x y, pend p = some (i, x) → pend p' = some (i, y) → p = p'
  empty : ∀ p i x, pend p = some (i, x) → q.slots[i]? = some none
  fresh : ∀ i, q.tail ≤ i → i < q.slots.length → q.slots[i]? = some none
  ahead : ∀ p i x, pend p = some (i, x) → q.head ≤ i

theorem Waits.new (b : Nat) (pend : Nat → Option (Nat × α)) (hp : ∀ p, pend p = none) :
    Waits (Q.new b) pend := by
  constructor <;> simp [Q.new, hp]
  exact fun i hi => by rw [List.getElem?_replicate, if_pos hi]

theorem Waits.claim {c : Bool} {q : Q α} {pend : Nat → Option (Nat × α)} (hi : QInv c q pend)
    (h : Waits q pend) (p : Nat) (x : α) (hs : q.pushed.length + 1 < word)
    (hlap : q.pushed.length + 1 ≤ q.slots.length) :
    Waits (q.claim x) (setAt pend p (some (q.tail, x))) := by
  have ht := hi.tail
  have hle := hi.le
  have htail : (q.tail + 1) % word = q.tail + 1 := Nat.mod_eq_of_lt (by omega)
  have hlt : ∀ p i x, pend p = some (i, x) → i < q.tail := by
    intro p i x hp
    rw [ht]
    exact (List.getElem?_eq_some_iff.1 (hi.pendOk p i x hp)).1
  constructor
  · intro p1 p2 i y z h1 h2
    simp only [setAt] at h1 h2
    split at h1 <;> split at h2
    · omega
    · simp only [Option.some.injEq, Prod.mk.injEq] at h1
      have := hlt _ _ _ h2
      omega
    · simp only [Option.some.injEq, Prod.mk.injEq] at h2
      have := hlt _ _ _ h1
      omega
    · exact h.inj _ _ _ _ _ h1 h2
  · intro p1 i y h1
    simp only [setAt] at h1
    simp only [Q.claim]
    split at h1
    · simp only [Option.some.injEq, Prod.mk.injEq] at h1
      exact h.fresh i (by omega) (by omega)
    · exact h.empty _ _ _ h1
  · intro i h1 h2
    simp only [Q.claim, htail] at h1 h2 ⊢
    exact h.fresh i (by omega) h2
  · intro p1 i y h1
    simp only [setAt] at h1
    simp only [Q.claim]
    split at h1
    · simp only [Option.some.injEq, Prod.mk.injEq] at h1
      omega
    · exact h.ahead _ _ _ h1

theorem Waits.store {c : Bool} {q q' : Q α} {pend : Nat → Option (Nat × α)} (hi : QInv c q pend)
    (h : Waits q pend) (hlap : q.pushed.length ≤ q.slots.length) (p i : Nat) (x : α)
    (hp : pend p = some (i, x)) (hq : q.store i x = .ok q') : Waits q' (setAt pend p none) := by
  have := Q.store_same hq
  subst this
  have ht := hi.tail
  have hlt : i < q.pushed.length := (List.getElem?_eq_some_iff.1 (hi.pendOk p i x hp)).1
  have hmod : i % q.slots.length = i := Nat.mod_eq_of_lt (by omega)
  constructor
  · intro p1 p2 j y z h1 h2
    simp only [setAt] at h1 h2
    split at h1
    · cases h1
    split at h2
    · cases h2
    exact h.inj _ _ _ _ _ h1 h2
  · intro p1 j y h1
    simp only [setAt] at h1
    split at h1
    · cases h1
    · rename_i hne
      have hij : i ≠ j := fun e => hne (h.inj _ _ _ _ _ h1 (e ▸ hp))
      simp only [hmod]
      rw [List.getElem?_set, if_neg hij]
      exact h.empty _ _ _ h1
  · intro j h1 h2
    simp only [List.length_set] at h2
    simp only [hmod]
    rw [List.getElem?_set, if_neg (by simp only at h1; omega)]
    exact h.fresh j h1 h2
  · intro p1 j y h1
    simp only [setAt] at h1
    split at h1
    · cases h1
    · exact h.ahead _ _ _ h1

theorem Waits.work {c : Bool} {e : Int} {q q' : Q α} {pend : Nat → Option (Nat × α)}
    (hi : QInv c q pend) (h : Waits q pend) (hlap : q.pushed.length ≤ q.slots.length)
    (hq : q.work c e = .ok q') : Waits q' pend := by
  obtain ⟨w1, w2, w3⟩ := Q.work_same hq
  have hsl : q'.slots = q.slots := by first | exact w2 | rw [w2]
  refine ⟨h.inj, by rw [hsl]; exact h.empty, by rw [hsl, w1]; exact h.fresh, fun p i x hp => ?_⟩
  have ha := h.ahead p i x hp
  rcases Q.work_head hi hq with hh | ⟨hpc, hh⟩
  · omega
  · have hb := hi.busy (.inr hpc)
    have ht := hi.tail
    obtain ⟨v, hv⟩ := hi.ready hpc
    rw [Nat.mod_eq_of_lt (by omega)] at hv
    have he := h.empty p i x hp
    have : i ≠ q.head := by
      intro e
      rw [e, hv] at he
      cases he
    omega

/-- What the first lap guarantees. -/
def Late.lap (s : Late α) : Prop :=
  match s.cut with
  | none => s.st.q.pushed.length ≤ s.st.q.slots.length → FirstLap s.st.q ∧ Waits s.st.q s.st.pend
  | some n => n ≤ s.st.q.slots.length → s.st.q.handled = s.st.q.pushed.take n ∧
      ∀ p i x, s.st.pend p = some (i, x) → n ≤ i

/-- The step at which the worker ends leaves a first lap in order. -/
theorem Late.done_of {q : Q α} {c : Bool} {pend : Nat → Option (Nat × α)} (hi : QInv c q pend)
    (he : q.pc = .ended) (ho : q.handled = q.pushed.take q.handled.length)
    (ha : ∀ p i x, pend p = some (i, x) → q.head ≤ i) :
    q.handled = q.pushed.take q.pushed.length ∧
      ∀ p i x, pend p = some (i, x) → q.pushed.length ≤ i := by
  obtain ⟨_, e2⟩ := hi.ended he
  have e3 := hi.head
  have e4 := hi.tail
  rw [he] at e3
  simp only [Pc.taken] at e3
  have : q.handled.length = q.pushed.length := by omega
  rw [this] at ho
  refine ⟨ho, fun p i x hp => ?_⟩
  have := ha p i x hp
  omega

/-- Once the worker has ended, a push that begins does not change what it left. -/
theorem Late.after_claim {q : Q α} {pend : Nat → Option (Nat × α)} {n : Nat} (p : Nat) (x : α)
    (ht : q.tail = q.pushed.length) (hn : n ≤ q.pushed.length)
    (h : q.handled = q.pushed.take n ∧ ∀ p i x, pend p = some (i, x) → n ≤ i) :
    (q.claim x).handled = (q.claim x).pushed.take n ∧
      ∀ p' i y, setAt pend p (some (q.tail, x)) p' = some (i, y) → n ≤ i := by
  refine ⟨?_, fun p' i y hy => ?_⟩
  · simp only [Q.claim]
    rw [List.take_append_of_le_length hn]
    exact h.1
  · simp only [setAt] at hy
    split at hy
    · simp only [Option.some.injEq, Prod.mk.injEq] at hy
      omega
    · exact h.2 _ _ _ hy

/-- Once the worker has ended, a store does not change what it left. -/
theorem Late.after_store {q q' : Q α} {pend : Nat → Option (Nat × α)} {n : Nat} (p : Nat)
    (hh : q'.handled = q.handled) (hp : q'.pushed = q.pushed)
    (h : q.handled = q.pushed.take n ∧ ∀ p i x, pend p = some (i, x) → n ≤ i) :
    q'.handled = q'.pushed.take n ∧ ∀ p' i y, setAt pend p none p' = some (i, y) → n ≤ i := by
  refine ⟨by rw [hh, hp]; exact h.1, fun p' i y hy => ?_⟩
  simp only [setAt] at hy
  split at hy
  · cases hy
  · exact h.2 _ _ _ hy

theorem Late.Reach.lap {b : Nat} (hb : 0 < b) {G : Late α → Late.Act α → Prop} {s : Late α}
    (h : Reach b G s) (hw : s.st.q.pushed.length < word) : s.lap := by
  induction h with
  | new => exact fun _ => ⟨FirstLap.new b, Waits.new b _ fun _ => rfl⟩
  | step s s' l hr _ hs ih =>
    have hm := hs.mono
    have hws : s.st.q.pushed.length < word := Nat.lt_of_le_of_lt hm.1 hw
    have ih := ih hws
    have hi := hr.linv hb hws
    have hsl := hm.2
    unfold Late.lap at ih ⊢
    rcases hs.cases_ok with ⟨p, x, _, hg, hp, rfl⟩ | ⟨p, i, x, q, _, hg, hp, hq, rfl⟩ | ⟨_, hc, rfl⟩ |
      ⟨e, q, _, hpc, hq, rfl⟩ | ⟨_, hg, hc, hpc, rfl⟩
    · have hw' : s.st.q.pushed.length + 1 < word := by simpa [Q.claim] using hw
      cases hcut : s.cut with
      | none =>
        rw [hcut] at ih
        intro hl
        have hl : s.st.q.pushed.length + 1 ≤ s.st.q.slots.length := by simpa [Q.claim] using hl
        obtain ⟨f, w⟩ := ih (by omega)
        have hq := (hi.live hcut).2.2
        exact ⟨f.claim hq x, w.claim hq p x hw' hl⟩
      | some n =>
        rw [hcut] at ih
        intro hl
        exact Late.after_claim p x hi.tail (hi.over n hcut).2.2.2 (ih hl)
    · have hsm := Q.store_same hq
      cases hcut : s.cut with
      | none =>
        rw [hcut] at ih
        intro hl
        have hl : s.st.q.pushed.length ≤ s.st.q.slots.length := by
          rw [hsm] at hl
          simpa using hl
        obtain ⟨f, w⟩ := ih hl
        have hqi := (hi.live hcut).2.2
        exact ⟨f.store hqi hl p i x hp hq, w.store hqi hl p i x hp hq⟩
      | some n =>
        rw [hcut] at ih
        intro hl
        exact Late.after_store p (by rw [hsm]) (by rw [hsm]) (ih (by simpa [hsl] using hl))
    · exact ih
    · have hcut : s.cut = none := by
        cases hcut : s.cut with
        | none => rfl
        | some n => exact absurd (hi.over n hcut).1 hpc
      rw [hcut] at ih
      obtain ⟨_, _, hqi⟩ := hi.live hcut
      obtain ⟨w1, w2, w3⟩ := Q.work_same hq
      by_cases he : q.pc = .ended
      · simp only [Late.mark, if_pos he]
        intro hl
        have hl : s.st.q.pushed.length ≤ s.st.q.slots.length := by
          rw [w2, w3] at hl
          exact hl
        obtain ⟨f, w⟩ := ih hl
        exact Late.done_of (hqi.work e hq) he (f.work hqi hl hq).order (w.work hqi hl hq).ahead
      · simp only [Late.mark, if_neg he]
        intro hl
        have hl : s.st.q.pushed.length ≤ s.st.q.slots.length := by
          rw [w2, w3] at hl
          exact hl
        obtain ⟨f, w⟩ := ih hl
        exact ⟨f.work hqi hl hq, w.work hqi hl hq⟩
    · exact ih

/-! ### Any number of laps, without overrun -/

/-- What `tame` guarantees. -/
def Late.noOverrun (s : Late α) : Prop :=
  match s.cut with
  | none => NoOverrun s.st.q s.st.pend
  | some n => s.st.q.handled = s.st.q.pushed.take n ∧ ∀ p i x, s.st.pend p = some (i, x) → n ≤ i

theorem Late.Reach.noOverrun {b : Nat} (hb : 0 < b) {s : Late α}
    (h : Reach b Late.tame s) (hw : s.st.q.pushed.length < word) : s.noOverrun := by
  induction h with
  | new => exact NoOverrun.new b _ fun _ => rfl
  | step s s' l hr hG hs ih =>
    have hm := hs.mono
    have hws : s.st.q.pushed.length < word := Nat.lt_of_le_of_lt hm.1 hw
    have ih := ih hws
    have hi := hr.linv hb hws
    unfold Late.noOverrun at ih ⊢
    rcases hs.cases_ok with ⟨p, x, rfl, hg, hp, rfl⟩ | ⟨p, i, x, q, rfl, hg, hp, hq, rfl⟩ | ⟨_, hc, rfl⟩ |
      ⟨e, q, rfl, hpc, hq, rfl⟩ | ⟨_, hg, hc, hpc, rfl⟩
    · have hw' : s.st.q.pushed.length + 1 < word := by simpa [Q.claim] using hw
      cases hcut : s.cut with
      | none =>
        rw [hcut] at ih
        obtain ⟨hne, _, hqi⟩ := hi.live hcut
        exact NoOverrun.claim hqi ih p x hw' hp (hG hne)
      | some n =>
        rw [hcut] at ih
        exact Late.after_claim p x hi.tail (hi.over n hcut).2.2.2 ih
    · have hsm := Q.store_same hq
      cases hcut : s.cut with
      | none =>
        rw [hcut] at ih
        exact NoOverrun.store (hi.live hcut).2.2 ih p i x hp hq
      | some n =>
        rw [hcut] at ih
        exact Late.after_store p (by rw [hsm]) (by rw [hsm]) ih
    · exact ih
    · have hcut : s.cut = none := by
        cases hcut : s.cut with
        | none => rfl
        | some n => exact absurd (hi.over n hcut).1 hpc
      rw [hcut] at ih
      obtain ⟨_, _, hqi⟩ := hi.live hcut
      have hn := NoOverrun.work hqi ih (hG hpc) hq
      by_cases he : q.pc = .ended
      · simp only [Late.mark, if_pos he]
        exact Late.done_of (hqi.work e hq) he hn.order hn.ahead
      · simp only [Late.mark, if_neg he]
        exact hn
    · exact ih
end Verif.Pipeline
