import Verif.Basic
/-!
The queue and the worker loop that `pipeline_stage` (`include/xitren/comm/pipeline_stage.hpp`) and
`pipeline_stage_pool` (`include/xitren/comm/pipeline_stage_pool.hpp`) have in common.

Every atomic operation and every access to a slot is a step of its own; threads interleave these steps
(sequential consistency).  The counters are `std::size_t` and wrap around.  What the handler does is not
modelled except that it returns after some time; handlers that push are in `Net`.
-/
namespace Verif.Pipeline
open Verif

/-- The number of values of `std::size_t` (pipeline_stage.hpp:39-42, pipeline_stage_pool.hpp:43-48). -/
def word : Nat := 18446744073709551616

/-- Where the worker stands (pipeline_stage.hpp:103-138, pipeline_stage_pool.hpp:63-90).
`outer`: about to read `closed_`; `drain`: about to compare the counters; `inner`: about to evaluate the
condition of the inner loop; `check`: about to look whether the slot is filled; `take`: about to
increment its counter; `call i`: about to hand slot `i` to the handler; `stat`: the handler has
returned; `ended`: the thread has ended. -/
inductive Pc where
  | outer
  | drain
  | inner
  | check
  | take
  | call (i : Nat)
  | stat
  | ended
  deriving DecidableEq

/-- A queue and its worker.  `tail` is `queue_.tail`, `head` is the worker's counter (`tail_` in
pipeline_stage.hpp:97, `head` in pipeline_stage_pool.hpp:47), `slots` is the array of optionals, `stat`
the deque of samples.  `pushed`, `handled` and `samples` only record what happened: the items in the
order in which the pushes incremented `tail`, the items handed to the handler, and all samples, the
newest first. -/
structure Q (α : Type) where
  tail : Nat
  head : Nat
  slots : List (Option α)
  pc : Pc
  stat : List (Int × Int)
  pushed : List α
  handled : List α
  samples : List (Int × Int)

variable {α : Type}

/-- A queue with `b` slots and a worker that has just started (pipeline_stage.hpp:39-42, 96-108, pipeline_stage_pool.hpp:43-63). -/
def Q.new (b : Nat) : Q α := ⟨0, 0, List.replicate b none, .outer, [], [], [], []⟩

/-- Conversion to `int`, modulo 2^32 (pipeline_stage.hpp:126-127, pipeline_stage_pool.hpp:81-85). -/
def toInt (n : Int) : Int := (n + 2147483648) % 4294967296 - 2147483648

/-- `calc += …` over the samples in `int` (pipeline_stage.hpp:79-82, 89-92,
pipeline_stage_pool.hpp:136-139, 146-149): overflow is undefined behaviour. -/
def sumInt : Int → List Int → Res Int
  | acc, [] => .ok acc
  | acc, x :: xs =>
    if -2147483648 ≤ acc + x ∧ acc + x < 2147483648 then sumInt (acc + x) xs else .ub

/-- `time_for_unit()` (pipeline_stage.hpp:76-84, pipeline_stage_pool.hpp:133-141). -/
def timeForUnit (stat : List (Int × Int)) : Res Int := do
  let c ← sumInt 0 (stat.map Prod.fst)
  return c.tdiv 10

/-- `buffer_utilization()` (pipeline_stage.hpp:86-94, pipeline_stage_pool.hpp:143-151). -/
def bufferUtilization (stat : List (Int × Int)) : Res Int := do
  let c ← sumInt 0 (stat.map Prod.snd)
  return c.tdiv 10

/-- A new sample: `push_front`, and `pop_back` if there are more than ten (pipeline_stage.hpp:126-130,
pipeline_stage_pool.hpp:81-88). -/
def addSample (x : Int × Int) (stat : List (Int × Int)) : List (Int × Int) :=
  if (x :: stat).length > 10 then (x :: stat).dropLast else x :: stat

/-- The first half of `push`: `i = tail++` (pipeline_stage.hpp:59, 69, pipeline_stage_pool.hpp:115,
126). -/
def Q.claim (q : Q α) (x : α) : Q α :=
  { q with
    tail := (q.tail + 1) % word
    pushed := q.pushed ++ [x] }

/-- The second half of `push`: the store into slot `i % size` (pipeline_stage.hpp:60, 70,
pipeline_stage_pool.hpp:116, 127). -/
def Q.store (q : Q α) (i : Nat) (x : α) : Res (Q α) :=
  if i % q.slots.length < q.slots.length then
    .ok { q with slots := q.slots.set (i % q.slots.length) (some x) }
  else .ub

/-- One step of the worker (pipeline_stage.hpp:108-133, pipeline_stage_pool.hpp:63-90).  `closed` is the
value of `closed_`, `e` the time in milliseconds that the handler took (used only when it has returned).
`data.value()` on an empty slot would throw out of the thread, which terminates the program; like
undefined behaviour it is `ub` here. -/
def Q.work (closed : Bool) (e : Int) (q : Q α) : Res (Q α) :=
  match q.pc with
  | .outer => .ok { q with pc := if closed then .drain else .inner }
  | .drain => .ok { q with pc := if (q.tail + word - q.head) % word > 0 then .inner else .ended }
  | .inner => .ok { q with pc := if q.head < q.tail then .check else .outer }
  | .check =>
    match q.slots[q.head % q.slots.length]? with
    | some (some _) => .ok { q with pc := .take }
    | some none => .ok { q with pc := .inner }
    | none => .ub
  | .take => .ok
      { q with
        head := (q.head + 1) % word
        pc := .call q.head }
  | .call i =>
    match q.slots[i % q.slots.length]? with
    | some (some v) => do
      let _ ← timeForUnit q.stat
      let _ ← bufferUtilization q.stat
      .ok
        { q with
          handled := q.handled ++ [v]
          pc := .stat }
    | _ => .ub
  | .stat => .ok
      { q with
        stat := addSample (toInt e, toInt ((q.tail + word - q.head) % word : Nat)) q.stat
        samples := (toInt e, toInt ((q.tail + word - q.head) % word : Nat)) :: q.samples
        pc := .inner }
  | .ended => .ub

/-! ### Invariant -/

/-- Items taken off the queue but not yet handed over. -/
def Pc.taken : Pc → Nat
  | .call _ => 1
  | _ => 0

/-- Items handed over whose sample is not yet recorded. -/
def Pc.unsampled : Pc → Nat
  | .stat => 1
  | _ => 0

/-- What always holds while fewer than 2^64 items were pushed; `pend` are the pushes that have
incremented `tail` and not yet stored, by producer. -/
structure QInv (closed : Bool) (q : Q α) (pend : Nat → Option (Nat × α)) : Prop where
  len : 0 < q.slots.length
  tail : q.tail = q.pushed.length
  small : q.pushed.length < word
  head : q.head = q.handled.length + q.pc.taken
  le : q.head ≤ q.tail
  callIdx : ∀ i, q.pc = .call i → i + 1 = q.head
  busy : q.pc = .check ∨ q.pc = .take → q.head < q.tail
  ready : q.pc = .take → ∃ v, q.slots[q.head % q.slots.length]? = some (some v)
  readyCall : ∀ i, q.pc = .call i → ∃ v, q.slots[i % q.slots.length]? = some (some v)
  mem : ∀ v, some v ∈ q.slots → v ∈ q.pushed
  pendOk : ∀ p i x, pend p = some (i, x) → q.pushed[i]? = some x
  filled : ∀ j, j < q.tail → j < q.slots.length → q.slots[j]? = some none →
    ∃ p x, pend p = some (j, x)
  hmem : ∀ v ∈ q.handled, v ∈ q.pushed
  stat : q.stat = q.samples.take 10
  samples : q.samples.length + q.pc.unsampled = q.handled.length
  drain : q.pc = .drain → closed = true
  ended : q.pc = .ended → closed = true ∧ q.head = q.tail

theorem QInv.new (b : Nat) (hb : 0 < b) (pend : Nat → Option (Nat × α)) (hp : ∀ p, pend p = none) :
    QInv false (Q.new b) pend := by
  constructor <;> simp [Q.new, hb, Pc.taken, Pc.unsampled, hp, word]

/-- A producer's pending push. -/
def setAt (pend : Nat → Option (Nat × α)) (p : Nat) (v : Option (Nat × α)) : Nat → Option (Nat × α) :=
  fun p' => if p' = p then v else pend p'

/-- A push may also begin after `closed_` was set, as long as the worker has not ended. -/
theorem QInv.claimOpen {c : Bool} {q : Q α} {pend : Nat → Option (Nat × α)} (h : QInv c q pend) (p : Nat)
    (x : α) (hs : q.pushed.length + 1 < word) (hp : pend p = none) (hne : q.pc ≠ .ended) :
    QInv c (q.claim x) (setAt pend p (some (q.tail, x))) := by
  have ht := h.tail
  have htail : (q.tail + 1) % word = q.tail + 1 := Nat.mod_eq_of_lt (by omega)
  constructor
  · exact h.len
  · simp only [Q.claim, htail, List.length_append, List.length_cons, List.length_nil]
    omega
  · simpa [Q.claim] using hs
  · exact h.head
  · simp only [Q.claim, htail]
    exact Nat.le_succ_of_le h.le
  · exact h.callIdx
  · intro hb
    have := h.busy hb
    simp only [Q.claim, htail]
    omega
  · exact h.ready
  · exact h.readyCall
  · intro v hv
    exact List.mem_append_left _ (h.mem v hv)
  · intro p' i y hy
    simp only [setAt] at hy
    simp only [Q.claim]
    split at hy
    · simp only [Option.some.injEq, Prod.mk.injEq] at hy
      obtain ⟨rfl, rfl⟩ := hy
      rw [ht]
      simp
    · have := h.pendOk p' i y hy
      have hlt : i < q.pushed.length := (List.getElem?_eq_some_iff.1 this).1
      rw [List.getElem?_append_left hlt]
      exact this
  · intro j hj1 hj2 hj3
    simp only [Q.claim, htail] at hj1 hj2 hj3
    by_cases hj : j = q.tail
    · exact ⟨p, x, by simp [setAt, hj]⟩
    · obtain ⟨p', y, hy⟩ := h.filled j (by omega) hj2 hj3
      refine ⟨p', y, ?_⟩
      have : p' ≠ p := fun e => by rw [e, hp] at hy; cases hy
      simpa [setAt, this] using hy
  · intro v hv
    exact List.mem_append_left _ (h.hmem v hv)
  · exact h.stat
  · exact h.samples
  · exact h.drain
  · exact fun he => absurd he hne

theorem QInv.claim {q : Q α} {pend : Nat → Option (Nat × α)} (h : QInv false q pend) (p : Nat) (x : α)
    (hs : q.pushed.length + 1 < word) (hp : pend p = none) :
    QInv false (q.claim x) (setAt pend p (some (q.tail, x))) :=
  h.claimOpen p x hs hp fun he => by cases (h.ended he).1

theorem QInv.storeOk {c : Bool} {q : Q α} {pend : Nat → Option (Nat × α)} (h : QInv c q pend)
    (i : Nat) (x : α) :
    q.store i x = .ok { q with slots := q.slots.set (i % q.slots.length) (some x) } := by
  rw [Q.store, if_pos (Nat.mod_lt _ h.len)]

theorem set_some (l : List (Option α)) (k j : Nat) (x : α) (h : ∃ v, l[j]? = some (some v)) :
    ∃ v, (l.set k (some x))[j]? = some (some v) := by
  obtain ⟨v, hv⟩ := h
  have hj : j < l.length := (List.getElem?_eq_some_iff.1 hv).1
  rw [List.getElem?_set]
  by_cases hk : k = j
  · exact ⟨x, by simp [hk, hj]⟩
  · exact ⟨v, by rw [if_neg hk, hv]⟩

theorem QInv.store {c : Bool} {q q' : Q α} {pend : Nat → Option (Nat × α)} (h : QInv c q pend) (p i : Nat)
    (x : α) (hp : pend p = some (i, x)) (hq : q.store i x = .ok q') :
    QInv c q' (setAt pend p none) := by
  rw [h.storeOk] at hq
  cases hq
  have hx := h.pendOk p i x hp
  constructor
  · simpa using h.len
  · exact h.tail
  · exact h.small
  · exact h.head
  · exact h.le
  · exact h.callIdx
  · exact h.busy
  · intro ht
    simp only [List.length_set]
    exact set_some _ _ _ _ (h.ready ht)
  · intro j hj
    simp only [List.length_set]
    exact set_some _ _ _ _ (h.readyCall j hj)
  · intro v hv
    simp only at hv ⊢
    rcases List.mem_or_eq_of_mem_set hv with hv | hv
    · exact h.mem v hv
    · cases hv
      exact List.mem_of_getElem? hx
  · intro p' j y hy
    simp only [setAt] at hy
    split at hy
    · cases hy
    · exact h.pendOk p' j y hy
  · intro j hj1 hj2 hj3
    simp only [List.length_set] at hj1 hj2 hj3
    rw [List.getElem?_set] at hj3
    by_cases hij : i % q.slots.length = j
    · rw [if_pos hij] at hj3
      split at hj3 <;> simp at hj3
    · rw [if_neg hij] at hj3
      obtain ⟨p', y, hy⟩ := h.filled j hj1 hj2 hj3
      refine ⟨p', y, ?_⟩
      have : p' ≠ p := by
        rintro rfl
        rw [hp] at hy
        simp only [Option.some.injEq, Prod.mk.injEq] at hy
        rw [hy.1, Nat.mod_eq_of_lt hj2] at hij
        exact hij rfl
      simpa [setAt, this] using hy
  · exact h.hmem
  · exact h.stat
  · exact h.samples
  · exact h.drain
  · exact h.ended

/-- The backlog as the code computes it. -/
theorem QInv.backlog {c : Bool} {q : Q α} {pend : Nat → Option (Nat × α)} (h : QInv c q pend) :
    (q.tail + word - q.head) % word = q.tail - q.head := by
  have h1 := h.tail
  have h2 := h.small
  have h3 := h.le
  have : q.tail + word - q.head = (q.tail - q.head) + word := by omega
  rw [this, Nat.add_mod_right, Nat.mod_eq_of_lt (by omega)]

theorem addSample_take (x : Int × Int) (l : List (Int × Int)) :
    addSample x (l.take 10) = (x :: l).take 10 := by
  rw [addSample]
  by_cases h : 10 ≤ l.length
  · rw [if_pos (by simp; omega), List.dropLast_eq_take]
    simp only [List.length_cons, List.length_take, Nat.add_one_sub_one]
    rw [Nat.min_eq_left h]
    simp [List.take_take, List.take_cons]
  · rw [if_neg (by simp; omega), List.take_of_length_le (by omega),
      List.take_of_length_le (by simp; omega)]

theorem QInv.work {c : Bool} {q q' : Q α} {pend : Nat → Option (Nat × α)} (h : QInv c q pend) (e : Int)
    (hq : q.work c e = .ok q') : QInv c q' pend := by
  have ht := h.tail
  have hsm := h.small
  have hle := h.le
  have hback := h.backlog
  have hhead := h.head
  have hsamp := h.samples
  cases hpc : q.pc with
  | outer =>
    simp only [Q.work, hpc, Res.ok.injEq] at hq
    rw [hpc] at hhead hsamp
    subst hq
    cases c <;>
    (constructor <;> try first
      | exact h.len | exact ht | exact hsm | exact hle | exact h.mem | exact h.pendOk
      | exact h.filled | exact h.hmem | exact h.stat)
    all_goals simp_all [Pc.taken, Pc.unsampled]
  | drain =>
    simp only [Q.work, hpc, hback, Res.ok.injEq] at hq
    rw [hpc] at hhead hsamp
    have hc := h.drain hpc
    subst hq
    by_cases hz : q.tail - q.head > 0
    · simp only [if_pos hz]
      constructor <;> try first
        | exact h.len | exact ht | exact hsm | exact hle | exact h.mem | exact h.pendOk
        | exact h.filled | exact h.hmem | exact h.stat
      all_goals simp_all [Pc.taken, Pc.unsampled]
    · simp only [if_neg hz]
      constructor <;> try first
        | exact h.len | exact ht | exact hsm | exact hle | exact h.mem | exact h.pendOk
        | exact h.filled | exact h.hmem | exact h.stat
      · exact hhead
      · simp
      · simp
      · simp
      · simp
      · exact hsamp
      · simp
      · exact fun _ => ⟨hc, by simp only; omega⟩
  | inner =>
    simp only [Q.work, hpc, Res.ok.injEq] at hq
    rw [hpc] at hhead hsamp
    subst hq
    by_cases hz : q.head < q.tail
    · simp only [if_pos hz]
      constructor <;> try first
        | exact h.len | exact ht | exact hsm | exact hle | exact h.mem | exact h.pendOk
        | exact h.filled | exact h.hmem | exact h.stat
      · exact hhead
      · simp
      · exact fun _ => hz
      · simp
      · simp
      · exact hsamp
      · simp
      · simp
    · simp only [if_neg hz]
      constructor <;> try first
        | exact h.len | exact ht | exact hsm | exact hle | exact h.mem | exact h.pendOk
        | exact h.filled | exact h.hmem | exact h.stat
      · exact hhead
      · simp
      · simp
      · simp
      · simp
      · exact hsamp
      · simp
      · simp
  | check =>
    have hb := h.busy (.inl hpc)
    rw [hpc] at hhead hsamp
    cases hs : q.slots[q.head % q.slots.length]? with
    | none => simp [Q.work, hpc, hs] at hq
    | some o =>
      cases o with
      | none =>
        simp only [Q.work, hpc, hs, Res.ok.injEq] at hq
        subst hq
        constructor <;> try first
          | exact h.len | exact ht | exact hsm | exact hle | exact h.mem | exact h.pendOk
          | exact h.filled | exact h.hmem | exact h.stat
        · exact hhead
        · simp
        · simp
        · simp
        · simp
        · exact hsamp
        · simp
        · simp
      | some v =>
        simp only [Q.work, hpc, hs, Res.ok.injEq] at hq
        subst hq
        constructor <;> try first
          | exact h.len | exact ht | exact hsm | exact hle | exact h.mem | exact h.pendOk
          | exact h.filled | exact h.hmem | exact h.stat
        · exact hhead
        · simp
        · exact fun _ => hb
        · exact fun _ => ⟨v, hs⟩
        · simp
        · exact hsamp
        · simp
        · simp
  | take =>
    have hb := h.busy (.inr hpc)
    have hr := h.ready hpc
    rw [hpc] at hhead hsamp
    simp only [Q.work, hpc, Res.ok.injEq] at hq
    have hh : (q.head + 1) % word = q.head + 1 := Nat.mod_eq_of_lt (by omega)
    rw [hh] at hq
    subst hq
    constructor <;> try first
      | exact h.len | exact ht | exact hsm | exact h.mem | exact h.pendOk
      | exact h.filled | exact h.hmem | exact h.stat
    · simp only [Pc.taken] at hhead ⊢
      omega
    · exact hb
    · intro i hi
      simp only [Pc.call.injEq] at hi ⊢
      omega
    · simp
    · simp
    · intro i hi
      simp only [Pc.call.injEq] at hi
      rw [← hi]
      exact hr
    · exact hsamp
    · simp
    · simp
  | call i =>
    have hi := h.callIdx i hpc
    rw [hpc] at hhead hsamp
    cases hs : q.slots[i % q.slots.length]? with
    | none => simp [Q.work, hpc, hs] at hq
    | some o =>
      cases o with
      | none => simp [Q.work, hpc, hs] at hq
      | some v =>
        simp only [Q.work, hpc, hs] at hq
        cases h1 : timeForUnit q.stat with
        | ub => simp [h1] at hq
        | hang => simp [h1] at hq
        | ok a =>
        cases h2 : bufferUtilization q.stat with
        | ub => simp [h1, h2] at hq
        | hang => simp [h1, h2] at hq
        | ok b =>
        simp only [h1, h2, Res.ok_bind, Res.ok.injEq] at hq
        subst hq
        constructor <;> try first
          | exact h.len | exact ht | exact hsm | exact hle | exact h.mem | exact h.pendOk
          | exact h.filled | exact h.stat
        · simp only [Pc.taken, List.length_append, List.length_cons, List.length_nil] at hhead ⊢
          omega
        · simp
        · simp
        · simp
        · simp
        · intro w hw
          rcases List.mem_append.1 hw with hw | hw
          · exact h.hmem w hw
          · simp only [List.mem_singleton] at hw
            subst hw
            exact h.mem _ (List.mem_of_getElem? hs)
        · simp only [Pc.unsampled, List.length_append, List.length_cons, List.length_nil] at hsamp ⊢
          omega
        · simp
        · simp
  | stat =>
    rw [hpc] at hhead hsamp
    simp only [Q.work, hpc, Res.ok.injEq] at hq
    subst hq
    constructor <;> try first
      | exact h.len | exact ht | exact hsm | exact hle | exact h.mem | exact h.pendOk
      | exact h.filled | exact h.hmem
    · exact hhead
    · simp
    · simp
    · simp
    · simp
    · simp only [h.stat]
      exact addSample_take _ _
    · simp only [Pc.unsampled, List.length_cons] at hsamp ⊢
      omega
    · simp
    · simp
  | ended => simp [Q.work, hpc] at hq

theorem QInv.close {q : Q α} {pend : Nat → Option (Nat × α)} (h : QInv false q pend) :
    QInv true q pend :=
  { h with
    drain := fun _ => rfl
    ended := fun he => ⟨rfl, (h.ended he).2⟩ }

/-! ### The first lap -/

/-- What holds as long as there were no more pushes than slots: nothing is overwritten. -/
structure FirstLap (q : Q α) : Prop where
  slot : ∀ (j : Nat) (v : α), q.slots[j]? = some (some v) → q.pushed[j]? = some v
  order : q.handled = q.pushed.take q.handled.length

theorem FirstLap.new (b : Nat) : FirstLap (Q.new (α := α) b) := by
  refine ⟨fun j v h => ?_, rfl⟩
  simp only [Q.new] at h
  have := List.mem_of_getElem? h
  simp at this

theorem FirstLap.claim {c : Bool} {q : Q α} {pend : Nat → Option (Nat × α)} (hi : QInv c q pend)
    (h : FirstLap q) (x : α) : FirstLap (q.claim x) := by
  refine ⟨fun j v hj => ?_, ?_⟩
  · have := h.slot j v hj
    simp only [Q.claim]
    rw [List.getElem?_append_left (List.getElem?_eq_some_iff.1 this).1]
    exact this
  · simp only [Q.claim]
    have h1 := hi.head
    have h2 := hi.le
    have h3 := hi.tail
    rw [List.take_append_of_le_length (by omega)]
    exact h.order

theorem FirstLap.store {c : Bool} {q q' : Q α} {pend : Nat → Option (Nat × α)} (hi : QInv c q pend)
    (h : FirstLap q) (hlap : q.pushed.length ≤ q.slots.length) (p i : Nat) (x : α)
    (hp : pend p = some (i, x)) (hq : q.store i x = .ok q') : FirstLap q' := by
  rw [hi.storeOk] at hq
  cases hq
  have hx := hi.pendOk p i x hp
  have hlt : i < q.pushed.length := (List.getElem?_eq_some_iff.1 hx).1
  refine ⟨fun j v hj => ?_, h.order⟩
  simp only at hj ⊢
  rw [Nat.mod_eq_of_lt (by omega), List.getElem?_set] at hj
  by_cases hij : i = j
  · subst hij
    rw [if_pos rfl, if_pos (by omega)] at hj
    cases hj
    exact hx
  · rw [if_neg hij] at hj
    exact h.slot j v hj

/-- The fields that no step of the worker changes. -/
theorem Q.work_same {c : Bool} {e : Int} {q q' : Q α} (hq : q.work c e = .ok q') :
    q'.tail = q.tail ∧ q'.slots = q.slots ∧ q'.pushed = q.pushed := by
  cases hpc : q.pc with
  | outer => simp only [Q.work, hpc, Res.ok.injEq] at hq; subst hq; exact ⟨rfl, rfl, rfl⟩
  | drain => simp only [Q.work, hpc, Res.ok.injEq] at hq; subst hq; exact ⟨rfl, rfl, rfl⟩
  | inner => simp only [Q.work, hpc, Res.ok.injEq] at hq; subst hq; exact ⟨rfl, rfl, rfl⟩
  | take => simp only [Q.work, hpc, Res.ok.injEq] at hq; subst hq; exact ⟨rfl, rfl, rfl⟩
  | stat => simp only [Q.work, hpc, Res.ok.injEq] at hq; subst hq; exact ⟨rfl, rfl, rfl⟩
  | ended => simp [Q.work, hpc] at hq
  | check =>
    cases hs : q.slots[q.head % q.slots.length]? with
    | none => simp [Q.work, hpc, hs] at hq
    | some o => cases o <;> (simp only [Q.work, hpc, hs, Res.ok.injEq] at hq; subst hq; exact ⟨rfl, rfl, rfl⟩)
  | call i =>
    cases hs : q.slots[i % q.slots.length]? with
    | none => simp [Q.work, hpc, hs] at hq
    | some o =>
      cases o with
      | none => simp [Q.work, hpc, hs] at hq
      | some v =>
        simp only [Q.work, hpc, hs] at hq
        cases h1 : timeForUnit q.stat with
        | ub => simp [h1] at hq
        | hang => simp [h1] at hq
        | ok a =>
        cases h2 : bufferUtilization q.stat with
        | ub => simp [h1, h2] at hq
        | hang => simp [h1, h2] at hq
        | ok b =>
        simp only [h1, h2, Res.ok_bind, Res.ok.injEq] at hq
        subst hq
        exact ⟨rfl, rfl, rfl⟩

/-- The handler is called only at `call`, with the content of the slot. -/
theorem Q.work_handled {c : Bool} {e : Int} {q q' : Q α} (hq : q.work c e = .ok q') :
    (q'.handled = q.handled ∧ ∀ i, q.pc ≠ .call i) ∨
    ∃ i v, q.pc = .call i ∧ q.slots[i % q.slots.length]? = some (some v) ∧
      q'.handled = q.handled ++ [v] := by
  cases hpc : q.pc with
  | outer => simp only [Q.work, hpc, Res.ok.injEq] at hq; subst hq; exact .inl ⟨rfl, by simp⟩
  | drain => simp only [Q.work, hpc, Res.ok.injEq] at hq; subst hq; exact .inl ⟨rfl, by simp⟩
  | inner => simp only [Q.work, hpc, Res.ok.injEq] at hq; subst hq; exact .inl ⟨rfl, by simp⟩
  | take => simp only [Q.work, hpc, Res.ok.injEq] at hq; subst hq; exact .inl ⟨rfl, by simp⟩
  | stat => simp only [Q.work, hpc, Res.ok.injEq] at hq; subst hq; exact .inl ⟨rfl, by simp⟩
  | ended => simp [Q.work, hpc] at hq
  | check =>
    cases hs : q.slots[q.head % q.slots.length]? with
    | none => simp [Q.work, hpc, hs] at hq
    | some o => cases o <;> (simp only [Q.work, hpc, hs, Res.ok.injEq] at hq; subst hq; exact .inl ⟨rfl, by simp⟩)
  | call i =>
    cases hs : q.slots[i % q.slots.length]? with
    | none => simp [Q.work, hpc, hs] at hq
    | some o =>
      cases o with
      | none => simp [Q.work, hpc, hs] at hq
      | some v =>
        simp only [Q.work, hpc, hs] at hq
        cases h1 : timeForUnit q.stat with
        | ub => simp [h1] at hq
        | hang => simp [h1] at hq
        | ok a =>
        cases h2 : bufferUtilization q.stat with
        | ub => simp [h1, h2] at hq
        | hang => simp [h1, h2] at hq
        | ok b =>
        simp only [h1, h2, Res.ok_bind, Res.ok.injEq] at hq
        subst hq
        exact .inr ⟨i, v, rfl, hs, rfl⟩

/-- Handing over the right item keeps the order. -/
theorem order_snoc {l p : List α} {v : α} (h : l = p.take l.length) (hv : p[l.length]? = some v) :
    l ++ [v] = p.take (l ++ [v]).length := by
  have hlt : l.length < p.length := (List.getElem?_eq_some_iff.1 hv).1
  have he : p[l.length] = v := (List.getElem?_eq_some_iff.1 hv).2
  rw [List.length_append, List.length_cons, List.length_nil, Nat.zero_add,
    List.take_succ_eq_append_getElem hlt, he, ← h]

theorem FirstLap.work {c : Bool} {e : Int} {q q' : Q α} {pend : Nat → Option (Nat × α)}
    (hi : QInv c q pend) (h : FirstLap q) (hlap : q.pushed.length ≤ q.slots.length)
    (hq : q.work c e = .ok q') : FirstLap q' := by
  obtain ⟨h1, h2, h3⟩ := Q.work_same hq
  refine ⟨by rw [h2, h3]; exact h.slot, ?_⟩
  rcases Q.work_handled hq with ⟨h4, _⟩ | ⟨i, v, hpc, hs, h4⟩
  · rw [h3, h4]
    exact h.order
  · rw [h3, h4]
    have a1 := hi.callIdx i hpc
    have a2 := hi.head
    have a3 := hi.le
    have a4 := hi.tail
    rw [hpc] at a2
    simp only [Pc.taken] at a2
    rw [Nat.mod_eq_of_lt (by omega)] at hs
    have hl : i = q.handled.length := by omega
    subst hl
    exact order_snoc h.order (h.slot _ _ hs)

/-! ### Any number of laps, without overrun -/

/-- What holds as long as pushes do not outrun the worker by more than the number of slots and the
worker takes an index only when its store is complete. -/
structure NoOverrun (q : Q α) (pend : Nat → Option (Nat × α)) : Prop where
  room : q.tail ≤ q.handled.length + q.slots.length
  ahead : ∀ p i x, pend p = some (i, x) → q.head ≤ i
  content : ∀ i, q.handled.length ≤ i → i < q.tail → (∃ p x, pend p = some (i, x)) ∨
    ∃ v, q.pushed[i]? = some v ∧ q.slots[i % q.slots.length]? = some (some v)
  order : q.handled = q.pushed.take q.handled.length

theorem NoOverrun.new (b : Nat) (pend : Nat → Option (Nat × α)) (hp : ∀ p, pend p = none) :
    NoOverrun (Q.new b) pend := by
  constructor <;> simp [Q.new, hp]

theorem NoOverrun.claim {c : Bool} {q : Q α} {pend : Nat → Option (Nat × α)} (hi : QInv c q pend)
    (h : NoOverrun q pend) (p : Nat) (x : α) (hs : q.pushed.length + 1 < word) (hp : pend p = none)
    (hroom : q.tail < q.handled.length + q.slots.length) :
    NoOverrun (q.claim x) (setAt pend p (some (q.tail, x))) := by
  have ht := hi.tail
  have hle := hi.le
  have hh := hi.head
  have htail : (q.tail + 1) % word = q.tail + 1 := Nat.mod_eq_of_lt (by omega)
  constructor
  · simp only [Q.claim, htail]
    exact hroom
  · intro p' i y hy
    simp only [setAt] at hy
    simp only [Q.claim]
    split at hy
    · simp only [Option.some.injEq, Prod.mk.injEq] at hy
      omega
    · exact h.ahead p' i y hy
  · intro i hi1 hi2
    simp only [Q.claim, htail] at hi1 hi2 ⊢
    by_cases hit : i = q.tail
    · exact .inl ⟨p, x, by simp [setAt, hit]⟩
    · rcases h.content i hi1 (by omega) with ⟨p', y, hy⟩ | ⟨v, hv1, hv2⟩
      · left
        refine ⟨p', y, ?_⟩
        have : p' ≠ p := fun e => by rw [e, hp] at hy; cases hy
        simpa [setAt, this] using hy
      · right
        refine ⟨v, ?_, hv2⟩
        rw [List.getElem?_append_left (by omega)]
        exact hv1
  · simp only [Q.claim]
    rw [List.take_append_of_le_length (by omega)]
    exact h.order

theorem mod_inj {n i j a : Nat} (h1 : a ≤ i) (h2 : i < a + n) (h3 : a ≤ j) (h4 : j < a + n)
    (h : i % n = j % n) : i = j := by
  have key : ∀ i j : Nat, a ≤ i → j < a + n → i ≤ j → i % n = j % n → i = j := by
    intro i j hi hj hij h
    have hd : (j - i) % n = 0 := Nat.sub_mod_eq_zero_of_mod_eq h.symm
    have : (j - i) % n = j - i := Nat.mod_eq_of_lt (by omega)
    omega
  rcases Nat.le_total i j with hij | hij
  · exact key i j h1 h4 hij h
  · exact (key j i h3 h2 hij h.symm).symm

theorem NoOverrun.store {c : Bool} {q q' : Q α} {pend : Nat → Option (Nat × α)} (hi : QInv c q pend)
    (h : NoOverrun q pend) (p i : Nat) (x : α)
    (hp : pend p = some (i, x)) (hq : q.store i x = .ok q') :
    NoOverrun q' (setAt pend p none) := by
  rw [hi.storeOk] at hq
  cases hq
  have hx := hi.pendOk p i x hp
  have hlt : i < q.pushed.length := (List.getElem?_eq_some_iff.1 hx).1
  have hge := h.ahead p i x hp
  have hh := hi.head
  have ht := hi.tail
  have hroom := h.room
  constructor
  · simpa using hroom
  · intro p' j y hy
    simp only [setAt] at hy
    split at hy
    · cases hy
    · exact h.ahead p' j y hy
  · intro j hj1 hj2
    simp only at hj1 hj2
    simp only [List.length_set]
    by_cases hij : j = i
    · subst hij
      right
      refine ⟨x, hx, ?_⟩
      rw [List.getElem?_set, if_pos rfl, if_pos (Nat.mod_lt _ hi.len)]
    · rcases h.content j hj1 hj2 with ⟨p', y, hy⟩ | ⟨v, hv1, hv2⟩
      · left
        refine ⟨p', y, ?_⟩
        have : p' ≠ p := by
          rintro rfl
          rw [hp] at hy
          simp only [Option.some.injEq, Prod.mk.injEq] at hy
          exact hij hy.1.symm
        simpa [setAt, this] using hy
      · right
        refine ⟨v, hv1, ?_⟩
        rw [List.getElem?_set, if_neg, hv2]
        intro hm
        exact hij (mod_inj hj1 (by omega) (by omega) (by omega) hm.symm)
  · exact h.order

theorem Q.work_head {c : Bool} {e : Int} {q q' : Q α} {pend : Nat → Option (Nat × α)}
    (hi : QInv c q pend) (hq : q.work c e = .ok q') :
    q'.head = q.head ∨ (q.pc = .take ∧ q'.head = q.head + 1) := by
  have hi' := hi.work e hq
  obtain ⟨h1, h2, h3⟩ := Q.work_same hq
  cases hpc : q.pc with
  | outer => simp only [Q.work, hpc, Res.ok.injEq] at hq; subst hq; exact .inl rfl
  | drain => simp only [Q.work, hpc, Res.ok.injEq] at hq; subst hq; exact .inl rfl
  | inner => simp only [Q.work, hpc, Res.ok.injEq] at hq; subst hq; exact .inl rfl
  | take =>
    simp only [Q.work, hpc, Res.ok.injEq] at hq
    subst hq
    have a1 := hi.busy (.inr hpc)
    have a2 := hi.tail
    have a3 := hi.small
    exact .inr ⟨rfl, Nat.mod_eq_of_lt (by omega)⟩
  | stat => simp only [Q.work, hpc, Res.ok.injEq] at hq; subst hq; exact .inl rfl
  | ended => simp [Q.work, hpc] at hq
  | check =>
    cases hs : q.slots[q.head % q.slots.length]? with
    | none => simp [Q.work, hpc, hs] at hq
    | some o => cases o <;> (simp only [Q.work, hpc, hs, Res.ok.injEq] at hq; subst hq; exact .inl rfl)
  | call i =>
    rcases Q.work_handled hq with ⟨h4, h5⟩ | ⟨i, v, hpc', hs, h4⟩
    · exact absurd hpc (h5 i)
    · left
      have b1 := hi.callIdx i hpc'
      simp only [Q.work, hpc', hs] at hq
      cases h1 : timeForUnit q.stat with
      | ub => simp [h1] at hq
      | hang => simp [h1] at hq
      | ok a =>
      cases h2 : bufferUtilization q.stat with
      | ub => simp [h1, h2] at hq
      | hang => simp [h1, h2] at hq
      | ok b =>
      simp only [h1, h2, Res.ok_bind, Res.ok.injEq] at hq
      subst hq
      rfl

theorem NoOverrun.work {c : Bool} {e : Int} {q q' : Q α} {pend : Nat → Option (Nat × α)}
    (hi : QInv c q pend) (h : NoOverrun q pend)
    (hg : q.pc = .take → ∀ p x, pend p ≠ some (q.head, x))
    (hq : q.work c e = .ok q') : NoOverrun q' pend := by
  obtain ⟨h1, h2, h3⟩ := Q.work_same hq
  have hroom := h.room
  have hahead : ∀ p i x, pend p = some (i, x) → q'.head ≤ i := by
    intro p i x hp
    have a := h.ahead p i x hp
    rcases Q.work_head hi hq with hh | ⟨ht, hh⟩
    · omega
    · have : i ≠ q.head := fun e => hg ht p x (e ▸ hp)
      omega
  rcases Q.work_handled hq with ⟨h4, _⟩ | ⟨i, v, hpc, hs, h4⟩
  · refine ⟨by rw [h1, h2, h4]; exact hroom, hahead, ?_, by rw [h3, h4]; exact h.order⟩
    rw [h1, h2, h3, h4]
    exact h.content
  · have a1 := hi.callIdx i hpc
    have a2 := hi.head
    have a3 := hi.le
    rw [hpc] at a2
    simp only [Pc.taken] at a2
    have hl : i = q.handled.length := by omega
    refine ⟨by rw [h1, h2, h4, List.length_append]; omega, hahead, ?_, ?_⟩
    · rw [h1, h2, h3, h4, List.length_append]
      exact fun j hj1 hj2 => h.content j (by omega) hj2
    · rw [h3, h4]
      subst hl
      refine order_snoc h.order ?_
      rcases h.content _ (Nat.le_refl _) (by omega) with ⟨p, x, hp⟩ | ⟨w, hw1, hw2⟩
      · have := h.ahead p _ x hp
        omega
      · rw [hs] at hw2
        cases hw2
        exact hw1

/-! ### Termination -/

/-- A bound on the steps the worker still needs once nobody pushes any more. -/
def Q.fuel (q : Q α) : Nat :=
  match q.pc with
  | .outer => 5 * (q.tail - q.head) + 2 + if q.head < q.tail then 10 else 0
  | .drain => 5 * (q.tail - q.head) + 1 + if q.head < q.tail then 10 else 0
  | .inner => 5 * (q.tail - q.head) + 3
  | .check => 5 * (q.tail - q.head) + 2
  | .take => 5 * (q.tail - q.head) + 1
  | .call _ => 5 * (q.tail - q.head) + 5
  | .stat => 5 * (q.tail - q.head) + 4
  | .ended => 0

/-- Without pending pushes the slot the worker waits for is filled. -/
theorem QInv.slot_filled {c : Bool} {q : Q α} {pend : Nat → Option (Nat × α)} (h : QInv c q pend)
    (hp : ∀ p, pend p = none) (hb : q.head < q.tail) :
    ∃ v, q.slots[q.head % q.slots.length]? = some (some v) := by
  have hlt := Nat.mod_lt q.head h.len
  have hle : q.head % q.slots.length ≤ q.head := Nat.mod_le _ _
  have hg : q.slots[q.head % q.slots.length]? = some q.slots[q.head % q.slots.length] :=
    List.getElem?_eq_getElem hlt
  cases hv : q.slots[q.head % q.slots.length] with
  | some v => exact ⟨v, by rw [hg, hv]⟩
  | none =>
    obtain ⟨p, x, hx⟩ := h.filled _ (by omega) hlt (by rw [hg, hv])
    rw [hp p] at hx
    cases hx

theorem QInv.fuel_lt_of {q q' : Q α} {pend : Nat → Option (Nat × α)} (h : QInv true q pend)
    (hp : q.pc = .check → q.slots[q.head % q.slots.length]? ≠ some none) {e : Int} (hq : q.work true e = .ok q') :
    q'.fuel < q.fuel := by
  have hback := h.backlog
  have h1 := h.tail
  have h2 := h.small
  have h3 := h.le
  cases hpc : q.pc with
  | outer =>
    simp only [Q.work, hpc, Res.ok.injEq, if_true] at hq
    subst hq
    simp only [Q.fuel, hpc]
    omega
  | drain =>
    simp only [Q.work, hpc, hback, Res.ok.injEq] at hq
    subst hq
    by_cases hz : q.tail - q.head > 0
    · simp only [Q.fuel, hpc, if_pos hz]
      rw [if_pos (by omega)]
      omega
    · simp only [Q.fuel, hpc, if_neg hz]
      omega
  | inner =>
    simp only [Q.work, hpc, Res.ok.injEq] at hq
    subst hq
    by_cases hz : q.head < q.tail
    · simp only [Q.fuel, hpc, if_pos hz]
      omega
    · simp only [Q.fuel, hpc, if_neg hz]
      omega
  | check =>
    rcases hv : q.slots[q.head % q.slots.length]? with _ | _ | v
    · simp [Q.work, hpc, hv] at hq
    · exact absurd hv (hp hpc)
    · simp only [Q.work, hpc, hv, Res.ok.injEq] at hq
      subst hq
      simp only [Q.fuel, hpc]
      omega
  | take =>
    have hb := h.busy (.inr hpc)
    have hh : (q.head + 1) % word = q.head + 1 := Nat.mod_eq_of_lt (by omega)
    simp only [Q.work, hpc, hh, Res.ok.injEq] at hq
    subst hq
    simp only [Q.fuel, hpc]
    omega
  | call i =>
    obtain ⟨v, hv⟩ := h.readyCall i hpc
    simp only [Q.work, hpc, hv] at hq
    cases h1 : timeForUnit q.stat with
    | ub => simp [h1] at hq
    | hang => simp [h1] at hq
    | ok a =>
    cases h2 : bufferUtilization q.stat with
    | ub => simp [h1, h2] at hq
    | hang => simp [h1, h2] at hq
    | ok b =>
    simp only [h1, h2, Res.ok_bind, Res.ok.injEq] at hq
    subst hq
    simp only [Q.fuel, hpc]
    omega
  | stat =>
    simp only [Q.work, hpc, Res.ok.injEq] at hq
    subst hq
    simp only [Q.fuel, hpc]
    omega
  | ended => simp [Q.work, hpc] at hq

theorem QInv.fuel_lt {q q' : Q α} {pend : Nat → Option (Nat × α)} (h : QInv true q pend)
    (hp : ∀ p, pend p = none) {e : Int} (hq : q.work true e = .ok q') : q'.fuel < q.fuel :=
  h.fuel_lt_of (fun hpc => by
    obtain ⟨v, hv⟩ := h.slot_filled hp (h.busy (.inl hpc))
    simp [hv]) hq

/-! ### Sums of samples -/

theorem sumInt_small (b : Int) (hb : 0 ≤ b) : ∀ (l : List Int) (acc : Int), 0 ≤ acc →
    (∀ x ∈ l, 0 ≤ x ∧ x ≤ b) → acc + l.length * b < 2147483648 → ∃ r, sumInt acc l = .ok r
  | [], acc, _, _, _ => ⟨acc, rfl⟩
  | x :: xs, acc, h0, hx, hs => by
    obtain ⟨hx1, hx2⟩ := hx x (by simp)
    have hl : ((x :: xs).length : Int) * b = xs.length * b + b := by
      rw [List.length_cons, Int.natCast_add, Int.add_mul]
      simp
    have hn : 0 ≤ (xs.length : Int) * b := Int.mul_nonneg (by omega) hb
    rw [hl] at hs
    rw [sumInt, if_pos (by omega)]
    exact sumInt_small b hb xs (acc + x) (by omega) (fun y hy => hx y (by simp [hy])) (by omega)

/-- Samples so small that their sums cannot overflow. -/
def SmallSamples (l : List (Int × Int)) : Prop :=
  ∀ x ∈ l, 0 ≤ x.1 ∧ x.1 ≤ 214748364 ∧ 0 ≤ x.2 ∧ x.2 ≤ 214748364

theorem SmallSamples.measures {l : List (Int × Int)} (h : SmallSamples l) (hl : l.length ≤ 10) :
    (∃ a, timeForUnit l = .ok a) ∧ ∃ a, bufferUtilization l = .ok a := by
  have hb : ∀ k : List Int, k.length = l.length → (0 : Int) + k.length * 214748364 < 2147483648 := by
    intro k hk
    omega
  obtain ⟨r, hr⟩ := sumInt_small 214748364 (by omega) (l.map Prod.fst) 0 (by omega)
    (fun x hx => by
      obtain ⟨y, hy, rfl⟩ := List.mem_map.1 hx
      have := h y hy
      omega) (hb _ (by simp))
  obtain ⟨r', hr'⟩ := sumInt_small 214748364 (by omega) (l.map Prod.snd) 0 (by omega)
    (fun x hx => by
      obtain ⟨y, hy, rfl⟩ := List.mem_map.1 hx
      have := h y hy
      omega) (hb _ (by simp))
  exact ⟨⟨_, by rw [timeForUnit, hr]; rfl⟩, ⟨_, by rw [bufferUtilization, hr']; rfl⟩⟩

/-- The worker can always take its next step unless it has ended. -/
theorem QInv.progress {c : Bool} {q : Q α} {pend : Nat → Option (Nat × α)} (h : QInv c q pend)
    (hs : SmallSamples q.samples) (e : Int) (hne : q.pc ≠ .ended) : ∃ q', q.work c e = .ok q' := by
  cases hpc : q.pc with
  | outer => exact ⟨_, by simp only [Q.work, hpc]; rfl⟩
  | drain => exact ⟨_, by simp only [Q.work, hpc]; rfl⟩
  | inner => exact ⟨_, by simp only [Q.work, hpc]; rfl⟩
  | take => exact ⟨_, by simp only [Q.work, hpc]; rfl⟩
  | stat => exact ⟨_, by simp only [Q.work, hpc]; rfl⟩
  | ended => exact absurd hpc hne
  | check =>
    have hlt := Nat.mod_lt q.head h.len
    have hg : q.slots[q.head % q.slots.length]? = some q.slots[q.head % q.slots.length] :=
      List.getElem?_eq_getElem hlt
    cases hv : q.slots[q.head % q.slots.length] with
    | some v => exact ⟨_, by simp only [Q.work, hpc, hg, hv]; rfl⟩
    | none => exact ⟨_, by simp only [Q.work, hpc, hg, hv]; rfl⟩
  | call i =>
    obtain ⟨v, hv⟩ := h.readyCall i hpc
    have hst : SmallSamples q.stat := fun x hx => hs x (by
      rw [h.stat] at hx
      exact List.mem_of_mem_take hx)
    have hl : q.stat.length ≤ 10 := by
      rw [h.stat, List.length_take]
      omega
    obtain ⟨⟨a, ha⟩, b, hb⟩ := hst.measures hl
    exact ⟨_, by simp only [Q.work, hpc, hv, ha, hb, Res.ok_bind]; rfl⟩

theorem toInt_small {n : Int} (h1 : 0 ≤ n) (h2 : n < 2147483648) : toInt n = n := by
  unfold toInt
  omega

theorem SmallSamples.work {c : Bool} {e : Int} {q q' : Q α} {pend : Nat → Option (Nat × α)}
    (hi : QInv c q pend) (h : SmallSamples q.samples) (he : 0 ≤ e ∧ e ≤ 214748364)
    (hn : q.pushed.length ≤ 214748364) (hq : q.work c e = .ok q') : SmallSamples q'.samples := by
  cases hpc : q.pc with
  | outer => simp only [Q.work, hpc, Res.ok.injEq] at hq; subst hq; exact h
  | drain => simp only [Q.work, hpc, Res.ok.injEq] at hq; subst hq; exact h
  | inner => simp only [Q.work, hpc, Res.ok.injEq] at hq; subst hq; exact h
  | take => simp only [Q.work, hpc, Res.ok.injEq] at hq; subst hq; exact h
  | stat =>
    have hback := hi.backlog
    have ht := hi.tail
    simp only [Q.work, hpc, hback, Res.ok.injEq] at hq
    subst hq
    intro x hx
    rcases List.mem_cons.1 hx with rfl | hx
    · have e1 := toInt_small he.1 (by omega)
      have e2 := toInt_small (n := ((q.tail - q.head : Nat) : Int)) (by omega) (by omega)
      simp only [e1, e2]
      omega
    · exact h x hx
  | ended => simp [Q.work, hpc] at hq
  | check =>
    cases hs : q.slots[q.head % q.slots.length]? with
    | none => simp [Q.work, hpc, hs] at hq
    | some o => cases o <;> (simp only [Q.work, hpc, hs, Res.ok.injEq] at hq; subst hq; exact h)
  | call i =>
    obtain ⟨v, hv⟩ := hi.readyCall i hpc
    simp only [Q.work, hpc, hv] at hq
    cases h1 : timeForUnit q.stat with
    | ub => simp [h1] at hq
    | hang => simp [h1] at hq
    | ok a =>
    cases h2 : bufferUtilization q.stat with
    | ub => simp [h1, h2] at hq
    | hang => simp [h1, h2] at hq
    | ok b =>
    simp only [h1, h2, Res.ok_bind, Res.ok.injEq] at hq
    subst hq
    exact h

end Verif.Pipeline
