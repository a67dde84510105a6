import Verif.Pipeline.Stage
/-! The properties of `pipeline_stage`. -/
namespace Verif.Pipeline
open Verif
variable {α : Type}

namespace Ex

/-- `n` steps of the worker, with handler calls that take `e` milliseconds. -/
def w (n : Nat) (e : Int := 0) : List (Label Nat) := List.replicate n (.work e)

/-- Two producers on two slots: the second one stores first, and the worker waits for the first. -/
def two : List (Label Nat) :=
  [.begin 0 10, .begin 1 20, .store 1] ++ w 3 ++ [.store 0] ++ w 11 ++ [.close] ++ w 2

/-- What is to be seen of a state. -/
def view (s : Stage Nat) : List Nat × List Nat × Bool := (s.q.pushed, s.q.handled, s.q.pc = .ended)

end Ex

/-! ### C54 -/

/-- C54, for fewer than 2^64 pushes: when the worker has ended, destruction has begun and the handler
has been invoked exactly as many times as `push` was called.  What is missing is the case of 2^64 and
more pushes, for which the counters wrap around, see `C54_wrap_refuted`. -/
theorem C54_counted_partial {b : Nat} (hb : 0 < b) {s : Stage α} (h : Stage.Reach b anyStep s)
    (hw : s.q.pushed.length < 2 ^ 64) (he : s.q.pc = .ended) :
    s.closed = true ∧ s.q.handled.length = s.q.pushed.length := by
  have hi := (h.inv hb hw).1
  obtain ⟨h1, h2⟩ := hi.ended he
  have h3 := hi.head
  have h4 := hi.tail
  rw [he] at h3
  simp only [Pc.taken] at h3
  exact ⟨h1, by omega⟩

example : ∃ s, Stage.Reach 2 anyStep s ∧ Ex.view s = ([10, 20], [10, 20], true) :=
  Stage.follow_ex (n := 2) Ex.two (by decide +kernel)

/-- Any number of pushes while the worker does not run. -/
theorem many_pushes (b : Nat) (hb : 0 < b) (x : α) (n : Nat) : ∃ s : Stage α,
    Stage.Reach b anyStep s ∧ s.closed = false ∧ (∀ p, s.pend p = none) ∧ s.q.pc = .outer ∧
    s.q.head = 0 ∧ s.q.tail = n % word ∧ s.q.pushed.length = n ∧ s.q.handled = [] ∧
    s.q.slots.length = b := by
  induction n with
  | zero =>
    exact ⟨Stage.new b, .new, rfl, fun _ => rfl, rfl, rfl, rfl, rfl, rfl, by simp [Stage.new, Q.new]⟩
  | succ n ih =>
    obtain ⟨s, h1, h2, h3, h4, h5, h6, h7, h8, h9⟩ := ih
    let s1 : Stage α := { s with q := s.q.claim x, pend := setAt s.pend 0 (some (s.q.tail, x)) }
    have r1 : Stage.Reach b anyStep s1 := .step s s1 (.begin 0 x) h1 trivial (.begin s 0 x h2 (h3 0))
    have hst : s1.q.store s.q.tail x =
        .ok { s1.q with slots := s.q.slots.set (s.q.tail % s.q.slots.length) (some x) } := by
      rw [Q.store]
      rw [if_pos (Nat.mod_lt _ (by show 0 < s.q.slots.length; omega))]
      rfl
    have r2 := Stage.Step.store s1 0 s.q.tail x (by simp [s1, setAt])
    rw [hst] at r2
    refine ⟨_, .step s1 _ (.store 0) r1 trivial r2, h2, ?_, h4, h5, ?_, ?_, h8, ?_⟩
    · intro p
      simp only [setAt, s1]
      split
      · rfl
      · exact h3 p
    · simp only [s1, Q.claim, h6]
      rw [Nat.mod_add_mod]
    · simp [s1, Q.claim, h7]
    · simp [h9]

/-- C54 refuted for 2^64 pushes: if they all come before the worker looks, the counter is back at zero
and the worker ends without having handled anything. -/
theorem C54_wrap_refuted (b : Nat) (hb : 0 < b) (x : α) : ∃ s : Stage α,
    Stage.Reach b anyStep s ∧ s.q.pc = .ended ∧ s.q.pushed.length = 2 ^ 64 ∧ s.q.handled = [] := by
  obtain ⟨s, h1, h2, h3, h4, h5, h6, h7, h8, h9⟩ := many_pushes b hb x (2 ^ 64)
  have r1 : Stage.Reach b anyStep { s with closed := true } :=
    .step s _ .close h1 trivial (.close s h2 h3)
  let s2 : Stage α := { s with closed := true, q := { s.q with pc := .drain } }
  have r2 : Stage.Reach b anyStep s2 := by
    have st := Stage.Step.work { s with closed := true } 0 (by simp [h4])
    simp only [Q.work, h4, Res.ok_bind, Res.pure_eq] at st
    exact .step _ _ (.work 0) r1 trivial st
  let s3 : Stage α := { s with closed := true, q := { s.q with pc := .ended } }
  have h6' : s.q.tail = 0 := by
    rw [h6, word]
  have r3 : Stage.Reach b anyStep s3 := by
    have st := Stage.Step.work s2 0 (by simp [s2])
    have hz : ¬ (s.q.tail + word - s.q.head) % word > 0 := by
      rw [h5, h6', Nat.zero_add, Nat.sub_zero, Nat.mod_self]
      exact Nat.lt_irrefl 0
    simp only [Q.work, s2] at st
    simp only [if_neg hz, Res.ok_bind, Res.pure_eq] at st
    exact .step _ _ (.work 0) r2 trivial st
  exact ⟨s3, r3, rfl, h7, h8⟩

/-! ### C55 -/

/-- C55, while there were no more pushes than slots: whatever the schedule, the items handed to the
handler are an initial part of those pushed, in the order of the pushes, and all of them when the worker
has ended.  What is missing is everything after the first lap, see `C55_stale_refuted` and
`C55_overwritten_refuted`. -/
theorem C55_first_lap_partial {b : Nat} (hb : 0 < b) {s : Stage α}
    (h : Stage.Reach b anyStep s) (hl : s.q.pushed.length ≤ b) (hw : s.q.pushed.length < 2 ^ 64) :
    s.q.handled = s.q.pushed.take s.q.handled.length ∧
    (s.q.pc = .ended → s.q.handled = s.q.pushed) := by
  have hf := h.firstLap hb hw hl
  refine ⟨hf.order, fun he => ?_⟩
  have := (C54_counted_partial hb h hw he).2
  rw [hf.order, this, List.take_length]

example : ∃ s, Stage.Reach 2 anyStep s ∧ s.q.pushed.length ≤ 2 ∧
    Ex.view s = ([10, 20], [10, 20], true) :=
  Stage.follow_ex (n := 2) Ex.two (by decide +kernel)

/-- C55 for any number of laps, under two restrictions on the schedule (`tame`): a push begins only
while fewer items than slots are unhandled, and the worker takes an index only when the store for it is
complete.  The code enforces neither of the two. -/
theorem C55_tame_partial {b : Nat} (hb : 0 < b) {s : Stage α} (h : Stage.Reach b tame s)
    (hw : s.q.pushed.length < 2 ^ 64) :
    s.q.handled = s.q.pushed.take s.q.handled.length ∧
    (s.q.pc = .ended → s.q.handled = s.q.pushed) := by
  have hn := h.noOverrun hb hw
  refine ⟨hn.order, fun he => ?_⟩
  have := (C54_counted_partial hb (h.mono fun _ _ _ => trivial) hw he).2
  rw [hn.order, this, List.take_length]

/-- Three laps on one slot. -/
example : ∃ s, Stage.Reach 1 tame s ∧ Ex.view s = ([10, 20, 30], [10, 20, 30], true) :=
  Stage.follow_tame (n := 1) ([.begin 0 10, .store 0] ++ Ex.w 6 ++ [.begin 0 20, .store 0] ++ Ex.w 5 ++
    [.begin 0 30, .store 0] ++ Ex.w 6 ++ [.close] ++ Ex.w 2) (by decide +kernel)

/-- C55 refuted by a stale slot: with one slot, one producer and at most one unhandled item at any time,
the worker reads the slot again between the two halves of the second push, hands over the first item a
second time, and the second item is never handled. -/
theorem C55_stale_refuted : ∃ s : Stage Nat, Stage.Reach 1 anyStep s ∧ s.q.pc = .ended ∧
    s.q.pushed = [10, 20] ∧ s.q.handled = [10, 10] :=
  Stage.follow_ex (n := 1)
    ([.begin 0 10, .store 0] ++ Ex.w 7 ++ [.begin 0 20] ++ Ex.w 5 ++ [.store 0] ++ Ex.w 2 ++ [.close] ++
      Ex.w 2) (by decide +kernel)

/-- C55 refuted by an overrun: with one slot, a second push before the worker has read the first
overwrites it, and the second item is handled twice. -/
theorem C55_overwritten_refuted : ∃ s : Stage Nat, Stage.Reach 1 anyStep s ∧ s.q.pc = .ended ∧
    s.q.pushed = [10, 20] ∧ s.q.handled = [20, 20] :=
  Stage.follow_ex (n := 1)
    ([.begin 0 10, .store 0, .begin 0 20, .store 0] ++ Ex.w 12 ++ [.close] ++ Ex.w 2) (by decide +kernel)

/-! ### C56 -/

/-- C56: under every schedule and after any number of pushes, every value handed to the handler was
passed to an earlier `push`, and when the worker is about to hand over slot `i` the slot is filled, with
a value that was pushed. -/
theorem C56_only_pushed {b : Nat} (hb : 0 < b) {s : Stage α} (h : Stage.Reach b anyStep s) :
    (∀ v ∈ s.q.handled, v ∈ s.q.pushed) ∧
    ∀ i, s.q.pc = .call i → ∃ v, s.q.slots[i % b]? = some (some v) ∧ v ∈ s.q.pushed := by
  have hs := h.sinv hb
  have hl := h.slots
  refine ⟨hs.hmem, fun i hi => ?_⟩
  obtain ⟨v, hv⟩ := hs.readyCall i hi
  rw [hl] at hv
  exact ⟨v, hv, hs.mem v (List.mem_of_getElem? hv)⟩

example : ∃ s : Stage Nat, Stage.Reach 1 anyStep s ∧ s.q.pc = .call 1 ∧ s.q.handled = [10] ∧
    s.q.pushed = [10, 20] :=
  Stage.follow_ex (n := 1) ([.begin 0 10, .store 0] ++ Ex.w 7 ++ [.begin 0 20] ++ Ex.w 4)
    (by decide +kernel)

/-! ### C57 -/

/-- `n` steps, with handler calls that take at most two and a half days each. -/
inductive Stage.Run : Stage α → Nat → Stage α → Prop
  | nil (s : Stage α) : Run s 0 s
  | step (s s1 s2 : Stage α) (n : Nat) (l : Label α) : short s l → Step s l (.ok s1) →
      Run s1 n s2 → Run s (n + 1) s2

/-- C57, while there were at most 214748364 pushes and handler calls take at most 214748364 ms: once
destruction has begun, no schedule takes more than `5 * pushed + 12` further steps; as long as the worker
has not ended it can take its next step; and when it has ended everything pushed has been handled (in
number).  What is missing is the overflow of the statistics, see `C57_overflow_refuted`. -/
theorem C57_drains_partial {b : Nat} (hb : 0 < b) {s : Stage α} (h : Stage.Reach b short s)
    (hc : s.closed = true) (hn : s.q.pushed.length ≤ 214748364) {n : Nat} {s' : Stage α}
    (hr : Stage.Run s n s') :
    n ≤ 5 * s.q.pushed.length + 12 ∧ s'.q.pushed = s.q.pushed ∧
    (s'.q.pc ≠ .ended → ∀ e, ∃ s'', Stage.Step s' (.work e) (.ok s'')) ∧
    (s'.q.pc = .ended → s'.q.handled.length = s.q.pushed.length) := by
  have key : Stage.Reach b short s' ∧ s'.closed = true ∧ s'.q.pushed = s.q.pushed ∧
      n + s'.q.fuel ≤ s.q.fuel := by
    induction hr with
    | nil s => exact ⟨h, hc, rfl, by omega⟩
    | step s s1 s2 n l hg hs _ ih =>
      have hw : s.q.pushed.length < word := by
        simp only [word]
        omega
      have hi := h.inv hb hw
      have h1 : Stage.Reach b short s1 := .step s s1 l h hg hs
      rcases hs.cases_ok with ⟨p, x, _, hc', _⟩ | ⟨p, i, x, q, _, hp, _⟩ | ⟨_, hc', _⟩ |
        ⟨e, q, _, _, hq, hs1⟩
      · rw [hc] at hc'
        cases hc'
      · rw [hi.2 hc p] at hp
        cases hp
      · rw [hc] at hc'
        cases hc'
      · have hsame := Q.work_same hq
        have hi1 := hi.1
        rw [hc] at hq hi1
        have hlt := hi1.fuel_lt (hi.2 hc) hq
        have e1 : s1.q = q := by rw [hs1]
        have e2 : s1.closed = true := by rw [hs1]; exact hc
        have e3 : s1.q.pushed = s.q.pushed := by rw [e1]; exact hsame.2.2
        obtain ⟨i1, i2, i3, i4⟩ := ih h1 e2 (by rw [e3]; exact hn)
        rw [e1] at i4
        exact ⟨i1, i2, by rw [i3, e3], by omega⟩
  obtain ⟨k1, k2, k3, k4⟩ := key
  have hw : s.q.pushed.length < word := by
    simp only [word]
    omega
  have hi := (h.inv hb hw).1
  have hi' := (k1.inv hb (by rw [k3]; exact hw)).1
  refine ⟨?_, k3, fun hne e => ?_, fun he => ?_⟩
  · have ht := hi.tail
    have : s.q.fuel ≤ 5 * s.q.pushed.length + 12 := by
      unfold Q.fuel
      split <;> (try split) <;> omega
    omega
  · obtain ⟨q', hq'⟩ := hi'.progress (k1.smallSamples hb (by rw [k3]; exact hn)) e hne
    have st := Stage.Step.work s' e hne
    rw [hq'] at st
    exact ⟨_, st⟩
  · have h1 := (hi'.ended he).2
    have h2 := hi'.head
    have h3 := hi'.tail
    rw [he] at h2
    simp only [Pc.taken] at h2
    rw [k3] at h3
    omega

/-- Destruction begins while the worker has handled nothing. -/
example : ∃ s, Stage.Reach 2 short s ∧ s.closed = true ∧ Ex.view s = ([10, 20, 30], [], false) :=
  Stage.follow_short (n := 1) [.begin 0 10, .store 0, .begin 0 20, .store 0, .begin 0 30, .store 0,
    .close] (by decide +kernel)

/-- C57 refuted: after two handler calls of 2147483647 ms each (24.8 days) the sum of the samples
overflows, and the next step of the worker is undefined. -/
theorem C57_overflow_refuted : ∃ s : Stage Nat, Stage.Reach 4 anyStep s ∧ s.closed = true ∧
    s.q.pc ≠ .ended ∧ s.q.handled.length < s.q.pushed.length ∧
    ∀ e, Stage.Step s (.work e) .ub := by
  obtain ⟨s, hr, h1, h2, h3, h4, h5⟩ : ∃ s : Stage Nat, Stage.Reach 4 anyStep s ∧ s.closed = true ∧
      s.q.pc = .call 2 ∧ s.q.handled.length < s.q.pushed.length ∧
      s.q.slots[2 % s.q.slots.length]? = some (some 30) ∧ timeForUnit s.q.stat = .ub :=
    Stage.follow_ex (n := 1) ([.begin 0 10, .store 0, .begin 0 20, .store 0, .begin 0 30,
      .store 0] ++ Ex.w 12 2147483647 ++ [.close] ++ Ex.w 2) (by decide +kernel)
  refine ⟨s, hr, h1, by simp [h2], h3, fun e => ?_⟩
  have st := Stage.Step.work s e (by simp [h2])
  simpa only [Q.work, h2, h4, h5, Res.ub_bind] using st

/-! ### C58 -/

/-- The sum of a list of numbers. -/
def total (l : List Int) : Int := l.foldl (· + ·) 0

theorem sumInt_eq : ∀ (l : List Int) (acc r : Int), sumInt acc l = .ok r → r = l.foldl (· + ·) acc
  | [], acc, r, h => by
    rw [sumInt] at h
    cases h
    rfl
  | x :: xs, acc, r, h => by
    rw [sumInt] at h
    split at h
    · exact sumInt_eq xs _ r h
    · cases h

theorem sumInt_defined : ∀ (l : List Int) (acc : Int),
    (∀ k, k ≤ l.length → -2147483648 ≤ (l.take k).foldl (· + ·) acc ∧
      (l.take k).foldl (· + ·) acc < 2147483648) → sumInt acc l = .ok (l.foldl (· + ·) acc)
  | [], acc, _ => rfl
  | x :: xs, acc, h => by
    have h1 := h 1 (by simp)
    simp only [List.take_succ_cons, List.take_zero, List.foldl_cons, List.foldl_nil] at h1
    rw [sumInt, if_pos h1, List.foldl_cons]
    refine sumInt_defined xs (acc + x) fun k hk => ?_
    have := h (k + 1) (by simpa using hk)
    simpa using this

/-- C58, as long as no partial sum overflows `int`: the two statistics are the sums of the newest
`min 10 handled` samples divided by ten (towards zero); there is one sample for each handled item (the
one just being handled excepted), so older samples have no influence.  What is missing is the overflow,
see `C58_overflow_refuted`. -/
theorem C58_window_partial {b : Nat} (hb : 0 < b) {s : Stage α} (h : Stage.Reach b anyStep s) :
    s.q.samples.length = s.q.handled.length - (if s.q.pc = .stat then 1 else 0) ∧
    s.q.stat.length = min 10 s.q.samples.length ∧
    (∀ r, timeForUnit s.q.stat = .ok r → r = (total ((s.q.samples.take 10).map Prod.fst)).tdiv 10) ∧
    (∀ r, bufferUtilization s.q.stat = .ok r →
      r = (total ((s.q.samples.take 10).map Prod.snd)).tdiv 10) ∧
    ((∀ k, k ≤ 10 → -2147483648 ≤ total ((s.q.samples.take k).map Prod.fst) ∧
        total ((s.q.samples.take k).map Prod.fst) < 2147483648) →
      timeForUnit s.q.stat = .ok ((total ((s.q.samples.take 10).map Prod.fst)).tdiv 10)) ∧
    ((∀ k, k ≤ 10 → -2147483648 ≤ total ((s.q.samples.take k).map Prod.snd) ∧
        total ((s.q.samples.take k).map Prod.snd) < 2147483648) →
      bufferUtilization s.q.stat = .ok ((total ((s.q.samples.take 10).map Prod.snd)).tdiv 10)) := by
  have hs := h.sinv hb
  have hsamp := hs.samples
  refine ⟨?_, by rw [hs.stat, List.length_take], ?_, ?_, ?_, ?_⟩
  · cases hpc : s.q.pc <;> simp [hpc, Pc.unsampled] at hsamp ⊢ <;> omega
  · intro r hr
    rw [timeForUnit, hs.stat] at hr
    cases hc : sumInt 0 ((s.q.samples.take 10).map Prod.fst) with
    | ub => rw [hc] at hr; cases hr
    | hang => rw [hc] at hr; cases hr
    | ok c =>
      rw [hc] at hr
      cases hr
      rw [sumInt_eq _ _ _ hc]
      rfl
  · intro r hr
    rw [bufferUtilization, hs.stat] at hr
    cases hc : sumInt 0 ((s.q.samples.take 10).map Prod.snd) with
    | ub => rw [hc] at hr; cases hr
    | hang => rw [hc] at hr; cases hr
    | ok c =>
      rw [hc] at hr
      cases hr
      rw [sumInt_eq _ _ _ hc]
      rfl
  · intro hk
    rw [timeForUnit, hs.stat, sumInt_defined]
    · rfl
    · intro k hk'
      simp only [List.length_map, List.length_take] at hk'
      have := hk k (by omega)
      rw [← List.map_take, List.take_take, Nat.min_eq_left (by omega)]
      exact this
  · intro hk
    rw [bufferUtilization, hs.stat, sumInt_defined]
    · rfl
    · intro k hk'
      simp only [List.length_map, List.length_take] at hk'
      have := hk k (by omega)
      rw [← List.map_take, List.take_take, Nat.min_eq_left (by omega)]
      exact this

/-- C58, what a sample is: when the handler has returned after `e` milliseconds, the worker adds exactly one sample, in
front; its parts are `int`s that agree, modulo 2^32, with `e` and with the number of items pushed but not handled. -/
theorem C58_sample {b : Nat} (hb : 0 < b) {s s' : Stage α} (h : Stage.Reach b anyStep s)
    (hw : s.q.pushed.length < 2 ^ 64) (hpc : s.q.pc = .stat) {e : Int} (hs : Stage.Step s (.work e) (.ok s')) :
    ∃ t w : Int, s'.q.samples = (t, w) :: s.q.samples ∧
      (-2147483648 ≤ t ∧ t < 2147483648 ∧ ∃ k, t = e + 4294967296 * k) ∧
      (-2147483648 ≤ w ∧ w < 2147483648 ∧
        ∃ k, w = (s.q.pushed.length : Int) - s.q.handled.length + 4294967296 * k) := by
  have hi := (h.inv hb hw).1
  have hback := hi.backlog
  have h1 := hi.head
  have h2 := hi.tail
  have h3 := hi.le
  rw [hpc] at h1
  simp only [Pc.taken] at h1
  have key : ∀ n : Int, -2147483648 ≤ toInt n ∧ toInt n < 2147483648 ∧ ∃ k, toInt n = n + 4294967296 * k := fun n =>
    ⟨by unfold toInt; omega, by unfold toInt; omega, -((n + 2147483648) / 4294967296), by unfold toInt; omega⟩
  rcases hs.cases_ok with ⟨p, x, hl, -⟩ | ⟨p, i, x, q, hl, -⟩ | ⟨hl, -⟩ | ⟨e', q, hl, -, hq, rfl⟩
  · cases hl
  · cases hl
  · cases hl
  · cases hl
    simp only [Q.work, hpc, hback, Res.ok.injEq] at hq
    subst hq
    refine ⟨_, _, rfl, key e, ?_⟩
    have e1 : ((s.q.tail - s.q.head : Nat) : Int) = (s.q.pushed.length : Int) - s.q.handled.length := by omega
    rw [← e1]
    exact key _

/-- A handler that took 5000000000 ms, with one item waiting: the recorded time is 705032704. -/
example : ∃ s : Stage Nat, Stage.Reach 4 anyStep s ∧ s.q.samples = [(705032704, 1)] :=
  Stage.follow_ex (n := 1) ([.begin 0 10, .store 0, .begin 0 20, .store 0] ++ Ex.w 6 5000000000) (by decide +kernel)

/-- Two samples of 15 ms and 15 ms, with two and one items waiting. -/
example : ∃ s : Stage Nat, Stage.Reach 4 anyStep s ∧ s.q.samples = [(15, 1), (15, 2)] ∧
    timeForUnit s.q.stat = .ok 3 ∧ bufferUtilization s.q.stat = .ok 0 :=
  Stage.follow_ex (n := 1) ([.begin 0 10, .store 0, .begin 0 20, .store 0, .begin 0 30,
    .store 0] ++ Ex.w 12 15) (by decide +kernel)

/-- C58 refuted: with two samples of 2147483647 ms `time_for_unit()` is undefined. -/
theorem C58_overflow_refuted : ∃ s : Stage Nat, Stage.Reach 4 anyStep s ∧
    s.q.samples.map Prod.fst = [2147483647, 2147483647] ∧ timeForUnit s.q.stat = .ub :=
  Stage.follow_ex (n := 1) ([.begin 0 10, .store 0, .begin 0 20, .store 0, .begin 0 30,
    .store 0] ++ Ex.w 12 2147483647) (by decide +kernel)

/-! ### C77 -/

/-- Producer `p` is about to write a slot that the worker is about to read, and nothing orders the two:
a data race.  (For accesses that do not overlap see `Verif.Pipeline.Races`.) -/
def Stage.Race (s : Stage α) (p : Nat) : Prop :=
  ∃ i x j, s.pend p = some (i, x) ∧ ((s.q.pc = .check ∧ j = s.q.head) ∨ s.q.pc = .call j) ∧
    i % s.q.slots.length = j % s.q.slots.length

/-- C77, as far as it holds: in schedules that satisfy `tame` the read that hands an item to the handler
does not overlap with any push.  What is missing is the look at the slot before, see `C77_refuted`, and an order between
store and look, see `HB.C77_last_refuted`. -/
theorem C77_handover_partial {b : Nat} (hb : 0 < b) {s : Stage α} (h : Stage.Reach b tame s)
    (hw : s.q.pushed.length < 2 ^ 64) (i : Nat) (hi : s.q.pc = .call i) (p : Nat) : ¬ s.Race p := by
  rintro ⟨j, x, k, hp, hk, hm⟩
  have hn := h.noOverrun hb hw
  have hq := (h.inv hb hw).1
  have hki : k = i := by
    rcases hk with ⟨hk, _⟩ | hk
    · rw [hi] at hk
      cases hk
    · rw [hi] at hk
      cases hk
      rfl
  subst hki
  have h1 := hn.ahead p j x hp
  have h2 := hq.callIdx k hi
  have h3 := hq.head
  have h4 := hn.room
  have h5 : j < s.q.pushed.length := (List.getElem?_eq_some_iff.1 (hq.pendOk p j x hp)).1
  have h6 := hq.tail
  rw [hi] at h3
  simp only [Pc.taken] at h3
  have := mod_inj (n := s.q.slots.length) (a := k) (i := j) (j := k) (by omega) (by omega) (by omega)
    (by have := hq.len; omega) hm
  omega

/-- The worker hands over the first item while a second push is half done. -/
example : ∃ s : Stage Nat, Stage.Reach 2 tame s ∧ s.q.pc = .call 0 ∧ (s.pend 0).isSome :=
  Stage.follow_tame (n := 1) ([.begin 0 10, .store 0] ++ Ex.w 4 ++ [.begin 0 20]) (by decide +kernel)

/-- C77 refuted, for every number of slots and already by the first push: the worker looks at the slot
while the producer fills it. -/
theorem C77_refuted (b : Nat) (x : α) : ∃ s : Stage α, Stage.Reach b anyStep s ∧ s.Race 0 := by
  let s1 : Stage α := ⟨(Q.new b).claim x, false, setAt (fun _ => none) 0 (some (0, x))⟩
  have r1 : Stage.Reach b anyStep s1 := .step _ _ (.begin 0 x) .new trivial (.begin _ 0 x rfl rfl)
  let s2 : Stage α := { s1 with q := { s1.q with pc := .inner } }
  have r2 : Stage.Reach b anyStep s2 := by
    have st := Stage.Step.work s1 0 (by simp [s1, Q.claim, Q.new])
    exact .step _ _ (.work 0) r1 trivial st
  let s3 : Stage α := { s1 with q := { s1.q with pc := .check } }
  have r3 : Stage.Reach b anyStep s3 := by
    have st := Stage.Step.work s2 0 (by simp [s2])
    have hlt : s2.q.head < s2.q.tail := by
      show 0 < (0 + 1) % word
      decide
    simp only [Q.work, s2] at st
    simp only [s2] at hlt
    simp only [if_pos hlt] at st
    exact .step _ _ (.work 0) r2 trivial st
  exact ⟨s3, r3, 0, x, 0, by simp [s3, s1, setAt], .inl ⟨rfl, rfl⟩, rfl⟩

end Verif.Pipeline
