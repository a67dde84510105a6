import Verif.Pipeline.Pool
/-! The properties of `pipeline_stage_pool`. -/
namespace Verif.Pipeline.Pool
open Verif Verif.Pipeline
variable {α : Type}

/-! ### An executable scheduler, for the examples -/

/-- The result of a step, if it is possible; the producers are those below `m`. -/
def fire (size : Nat) (tf : Bool) (m : Nat) (s : State α) : Label α → Option (State α)
  | .start p x =>
    match s.prod p with
    | .idle => if p < m ∧ s.closed = false then
        some { s with prod := upd s.prod p (.scan x 0 (intMax, 0) []) } else none
    | _ => none
  | .scan p =>
    match s.prod p with
    | .scan x k acc seen =>
      some { s with
              prod := upd s.prod p
                (.read x k (if tf then (s.qs k).tail else (s.qs k).head) acc seen) }
    | .read x k v acc seen =>
      some { s with
              prod := upd s.prod p (nextScan x k
                (if tf then (v + word - (s.qs k).head) % word else ((s.qs k).tail + word - v) % word)
                acc seen) }
    | _ => none
  | .claim p =>
    match s.prod p with
    | .chosen x id _ =>
      some { s with
              qs := upd s.qs id ((s.qs id).claim x)
              prod := upd s.prod p (.claimed x id (s.qs id).tail)
              pushed := s.pushed ++ [x] }
    | _ => none
  | .store p =>
    match s.prod p with
    | .claimed x id i =>
      match (s.qs id).store i x with
      | .ok q => some { s with qs := upd s.qs id q, prod := upd s.prod p .idle }
      | _ => none
    | _ => none
  | .close =>
    if s.closed = false ∧ (List.range m).all (fun p => match s.prod p with
      | .idle => true
      | _ => false) then some { s with closed := true } else none
  | .work n e =>
    if n < size ∧ n < 8 ∧ (s.qs n).pc ≠ .ended then
      match (s.qs n).work s.closed e with
      | .ok q => some { s with qs := upd s.qs n q }
      | _ => none
    else none

theorem fire_step {size : Nat} {tf : Bool} {m : Nat} {s s' : State α} {l : Label α}
    (hi : ∀ p, m ≤ p → s.prod p = .idle) (h : fire size tf m s l = some s') :
    Step size tf s l (.ok s') ∧ ∀ p, m ≤ p → s'.prod p = .idle := by
  have keep : ∀ (p : Nat) (st : Prod α), s.prod p ≠ .idle → ∀ p', m ≤ p' →
      upd s.prod p st p' = .idle := by
    intro p st hp p' hp'
    rw [upd_other _ _ (fun e : p' = p => hp (e ▸ hi p' hp'))]
    exact hi p' hp'
  cases l with
  | start p x =>
    simp only [fire] at h
    split at h
    · rename_i hp
      split at h
      · rename_i hc
        cases h
        refine ⟨.start s p x hc.2 hp, fun p' hp' => ?_⟩
        simp only
        rw [upd_other _ _ (by omega)]
        exact hi p' hp'
      · cases h
    · cases h
  | scan p =>
    simp only [fire] at h
    split at h
    · rename_i x k acc seen hp
      cases h
      exact ⟨.scan s p x k acc seen hp, keep p _ (by simp [hp])⟩
    · rename_i x k v acc seen hp
      cases h
      exact ⟨.read s p x k v acc seen hp, keep p _ (by simp [hp])⟩
    · cases h
  | claim p =>
    simp only [fire] at h
    split at h
    · rename_i x id seen hp
      cases h
      exact ⟨.claim s p x id seen hp, keep p _ (by simp [hp])⟩
    · cases h
  | store p =>
    simp only [fire] at h
    split at h
    · rename_i x id i hp
      split at h
      · rename_i q hq
        cases h
        have := Step.store (size := size) (tailFirst := tf) s p x id i hp
        rw [hq] at this
        exact ⟨this, keep p _ (by simp [hp])⟩
      · cases h
    · cases h
  | close =>
    simp only [fire] at h
    split at h
    · rename_i hc
      cases h
      refine ⟨.close s hc.1 fun p => ?_, hi⟩
      by_cases hp : m ≤ p
      · exact hi p hp
      · have := hc.2
        simp only [List.all_eq_true, List.mem_range] at this
        have := this p (by omega)
        split at this
        · assumption
        · cases this
    · cases h
  | work n e =>
    simp only [fire] at h
    split at h
    · rename_i hc
      split at h
      · rename_i q hq
        cases h
        have := Step.work (size := size) (tailFirst := tf) s n e hc.1 hc.2.2
        rw [if_pos hc.2.1, hq] at this
        exact ⟨this, hi⟩
      · cases h
    · cases h

/-- Follow a schedule. -/
def follow (size : Nat) (tf : Bool) (m : Nat) : State α → List (Label α) → Option (State α)
  | s, [] => some s
  | s, l :: ls =>
    match fire size tf m s l with
    | some s' => follow size tf m s' ls
    | none => none

theorem follow_reach {b size : Nat} {tf : Bool} {m : Nat} {s s' : State α} (ls : List (Label α))
    (h : Reach b size tf s) (hi : ∀ p, m ≤ p → s.prod p = .idle)
    (hf : follow size tf m s ls = some s') : Reach b size tf s' := by
  induction ls generalizing s with
  | nil => cases hf; exact h
  | cons l ls ih =>
    rw [follow] at hf
    split at hf
    · rename_i s1 h1
      obtain ⟨hs, hi'⟩ := fire_step hi h1
      exact ih (.step s s1 l h hs) hi' hf
    · cases hf

/-- A schedule as a witness. -/
theorem follow_ex {b size : Nat} {tf : Bool} {m : Nat} {P : State α → Prop} [DecidablePred P]
    (ls : List (Label α))
    (h : (follow size tf m (State.new b) ls).any (fun s => decide (P s)) = true) :
    ∃ s, Reach b size tf s ∧ P s := by
  cases hf : follow size tf m (State.new b) ls with
  | none => rw [hf] at h; cases h
  | some s =>
    rw [hf] at h
    exact ⟨s, follow_reach ls .new (fun _ _ => rfl) hf, by simpa using h⟩

namespace Ex

/-- A whole push by producer `p`. -/
def push (p x : Nat) : List (Label Nat) :=
  [.start p x] ++ List.replicate 16 (.scan p) ++ [.claim p, .store p]

/-- `k` steps of worker `n`. -/
def w (n k : Nat) : List (Label Nat) := List.replicate k (.work n 0)

end Ex

example : ∃ s : State Nat, Reach 2 8 true s ∧ s.pushed = [10, 20] ∧
    (∀ n, n < 8 → (s.qs n).pc = .ended) ∧ allOf Q.handled s.qs = [10, 20] :=
  follow_ex (m := 1) (Ex.push 0 10 ++ Ex.push 0 20 ++ [.close] ++ Ex.w 0 10 ++ Ex.w 1 10 ++
    (List.range 6).flatMap fun n => Ex.w (n + 2) 2) (by decide +kernel)

/-! ### C59 -/

theorem Reach.all_le {b size : Nat} {tf : Bool} {s : State α} (h : Reach b size tf s) {m : Nat}
    (hl : ∀ k, k < 8 → (s.qs k).pushed.length ≤ m) (k : Nat) : (s.qs k).pushed.length ≤ m := by
  by_cases hk : k < 8
  · exact hl k hk
  · rw [h.outside k (by omega)]
    exact Nat.zero_le _

theorem Reach.all_lt {b size : Nat} {tf : Bool} {s : State α} (h : Reach b size tf s)
    (hw : s.pushed.length < 2 ^ 64) (k : Nat) : (s.qs k).pushed.length < word :=
  Nat.lt_of_le_of_lt (h.queue_le k) hw

theorem flatMap_length_congr {f g : Nat → List α} : ∀ {l : List Nat},
    (∀ j ∈ l, (f j).length = (g j).length) → (l.flatMap f).length = (l.flatMap g).length
  | [], _ => rfl
  | k :: l, h => by
    rw [List.flatMap_cons, List.flatMap_cons, List.length_append, List.length_append, h k (by simp),
      flatMap_length_congr fun j hj => h j (by simp [hj])]

/-- C59, the number of handler calls, for `PoolSize = 8` and fewer than 2^64 pushes: when the destructor
has joined the eight workers, the handler was invoked exactly as many times as `push` was called, for
each queue and altogether. -/
theorem C59_counted_partial {b : Nat} (hb : 0 < b) {tf : Bool} {s : State α} (h : Reach b 8 tf s)
    (hw : s.pushed.length < 2 ^ 64) (he : ∀ n, n < 8 → (s.qs n).pc = .ended) :
    s.closed = true ∧ (∀ n, n < 8 → (s.qs n).handled.length = (s.qs n).pushed.length) ∧
    (allOf Q.handled s.qs).length = s.pushed.length := by
  have hi := (h.inv hb (h.all_lt hw)).1
  have key : ∀ n, n < 8 → s.closed = true ∧ (s.qs n).handled.length = (s.qs n).pushed.length := by
    intro n hn
    obtain ⟨h1, h2⟩ := (hi n).ended (he n hn)
    have h3 := (hi n).head
    have h4 := (hi n).tail
    rw [he n hn] at h3
    simp only [Pc.taken] at h3
    exact ⟨h1, by omega⟩
  refine ⟨(key 0 (by omega)).1, fun n hn => (key n hn).2, ?_⟩
  rw [← h.placed.1.length_eq]
  exact flatMap_length_congr fun j hj => (key j (List.mem_range.1 hj)).2

example : ∃ s : State Nat, Reach 2 8 true s ∧ s.pushed = [10, 20] ∧
    (∀ n, n < 8 → (s.qs n).pc = .ended) ∧ allOf Q.handled s.qs = [10, 20] :=
  follow_ex (m := 1) (Ex.push 0 10 ++ Ex.push 0 20 ++ [.close] ++ Ex.w 0 10 ++ Ex.w 1 10 ++
    (List.range 6).flatMap fun n => Ex.w (n + 2) 2) (by decide +kernel)

/-- C59, for `PoolSize = 8` and at most `BufferSize` items in each queue: whatever the schedule and the
producers, when the destructor has joined the workers every item pushed was handled exactly once, and
the items of one queue in the order of their pushes.  What is missing: other pool sizes, see
`C59_fewer_refuted` and `C59_more_refuted`, and queues that wrap around, see `C59_overrun_refuted`. -/
theorem C59_exactly_once_partial {b : Nat} (hb : 0 < b) {tf : Bool} {s : State α}
    (h : Reach b 8 tf s) (hw : s.pushed.length < 2 ^ 64)
    (hl : ∀ k, k < 8 → (s.qs k).pushed.length ≤ b) (he : ∀ n, n < 8 → (s.qs n).pc = .ended) :
    (allOf Q.handled s.qs).Perm s.pushed ∧ ∀ n, n < 8 → (s.qs n).handled = (s.qs n).pushed := by
  have hc := (C59_counted_partial hb h hw he).2.1
  have key : ∀ n, n < 8 → (s.qs n).handled = (s.qs n).pushed := by
    intro n hn
    have hf := h.firstLap hb (h.all_lt hw) (h.all_le hl) n
    rw [hf.order, hc n hn, List.take_length]
  refine ⟨?_, key⟩
  have hall : allOf Q.handled s.qs = allOf Q.pushed s.qs :=
    flatMap_congr' fun j hj => key j (List.mem_range.1 hj)
  rw [hall]
  exact h.placed.1

/-- Two producers that scan at the same time choose the same queue. -/
example : ∃ s : State Nat, Reach 2 8 true s ∧ s.pushed = [20, 10, 30] ∧
    (∀ k, k < 8 → (s.qs k).pushed.length ≤ 2) ∧ (∀ n, n < 8 → (s.qs n).pc = .ended) ∧
    (s.qs 0).handled = [20, 10] ∧ (s.qs 1).handled = [30] :=
  follow_ex (m := 2) ([.start 0 10] ++ List.replicate 16 (.scan 0) ++ Ex.push 1 20 ++
    [.claim 0, .store 0] ++ Ex.push 1 30 ++ [.close] ++ Ex.w 0 15 ++ Ex.w 1 10 ++
    (List.range 6).flatMap fun n => Ex.w (n + 2) 2) (by decide +kernel)

/-- C59 refuted for every `PoolSize` below 8: of `PoolSize + 1` items pushed while no worker runs, the
last goes into a queue that has no worker; all workers end and it was never handled. -/
theorem C59_fewer_refuted (size : Nat) (hs : size < 8) (tf : Bool) : ∃ s : State Nat,
    Reach 1 size tf s ∧ (s.closed = true ∧ (∀ n, n < size → (s.qs n).pc = .ended) ∧
    s.pushed = List.range (size + 1) ∧ allOf Q.handled s.qs = List.range size) := by
  refine follow_ex (m := 1) ((List.range (size + 1)).flatMap (fun x => Ex.push 0 x) ++ [.close] ++
    (List.range size).flatMap (fun n => Ex.w n 10)) ?_
  revert tf
  revert hs
  revert size
  decide +kernel

/-- C59 refuted for every `PoolSize` above 8: the ninth worker uses `pool_[8]`, which does not exist. -/
theorem C59_more_refuted (b size : Nat) (hs : 8 < size) (tf : Bool) (e : Int) :
    Step size tf (State.new (α := α) b) (.work 8 e) .ub := by
  have := Step.work (size := size) (tailFirst := tf) (State.new (α := α) b) 8 e hs
    (by simp [State.new, Q.new])
  rwa [if_neg (by omega)] at this

/-- C59 refuted for `PoolSize = 8` when a queue wraps around: the ninth push overwrites the first item,
which is lost, and the ninth item is handled twice. -/
theorem C59_overrun_refuted : ∃ s : State Nat, Reach 1 8 true s ∧ s.pushed = List.range 9 ∧
    (∀ n, n < 8 → (s.qs n).pc = .ended) ∧ allOf Q.handled s.qs = [8, 8, 1, 2, 3, 4, 5, 6, 7] :=
  follow_ex (m := 1) ((List.range 9).flatMap (fun x => Ex.push 0 x) ++ [.close] ++ Ex.w 0 15 ++
    (List.range 7).flatMap (fun n => Ex.w (n + 1) 10)) (by decide +kernel)

/-! ### C60 -/

/-- The number of items in a queue that no worker has taken. -/
def backlog (q : Q α) : Nat := (q.tail + word - q.head) % word

/-- What the variables of `min_thread` say about the sizes read so far. -/
def MinSpec (seen : List Nat) (acc : Nat × Nat) : Prop :=
  (acc = (intMax, 0) ∧ ∀ v ∈ seen, intMax ≤ v) ∨
  (acc.1 < intMax ∧ seen[acc.2]? = some acc.1 ∧ (∀ v ∈ seen, acc.1 ≤ v) ∧
    ∀ (j v : Nat), j < acc.2 → seen[j]? = some v → acc.1 < v)

theorem MinSpec.step {seen : List Nat} {acc : Nat × Nat} (h : MinSpec seen acc) (v : Nat) :
    MinSpec (seen ++ [v]) (minStep acc seen.length v) := by
  have get : ∀ (j u : Nat), seen[j]? = some u → (seen ++ [v])[j]? = some u := by
    intro j u hj
    rw [List.getElem?_append_left (List.getElem?_eq_some_iff.1 hj).1]
    exact hj
  unfold minStep
  rcases h with ⟨rfl, h2⟩ | ⟨h1, h2, h3, h4⟩
  · split
    · rename_i hlt
      refine .inr ⟨hlt, by simp, ?_, ?_⟩
      · intro u hu
        rcases List.mem_append.1 hu with hu | hu
        · exact Nat.le_trans (Nat.le_of_lt hlt) (h2 u hu)
        · simp only [List.mem_singleton] at hu
          simp [hu]
      · intro j u hj hju
        simp only at hj
        rw [List.getElem?_append_left hj] at hju
        exact Nat.lt_of_lt_of_le hlt (h2 u (List.mem_of_getElem? hju))
    · rename_i hlt
      refine .inl ⟨rfl, ?_⟩
      intro u hu
      rcases List.mem_append.1 hu with hu | hu
      · exact h2 u hu
      · simp only [List.mem_singleton] at hu
        subst hu
        exact Nat.not_lt.1 hlt
  · split
    · rename_i hlt
      refine .inr ⟨Nat.lt_trans hlt h1, by simp, ?_, ?_⟩
      · intro u hu
        rcases List.mem_append.1 hu with hu | hu
        · exact Nat.le_trans (Nat.le_of_lt hlt) (h3 u hu)
        · simp only [List.mem_singleton] at hu
          simp [hu]
      · intro j u hj hju
        simp only at hj
        rw [List.getElem?_append_left hj] at hju
        exact Nat.lt_of_lt_of_le hlt (h3 u (List.mem_of_getElem? hju))
    · rename_i hlt
      refine .inr ⟨h1, get _ _ h2, ?_, ?_⟩
      · intro u hu
        rcases List.mem_append.1 hu with hu | hu
        · exact h3 u hu
        · simp only [List.mem_singleton] at hu
          subst hu
          exact Nat.not_lt.1 hlt
      · intro j u hj hju
        have hlen := (List.getElem?_eq_some_iff.1 h2).1
        rw [List.getElem?_append_left (by omega)] at hju
        exact h4 j u hj hju

/-- What is known of a producer. -/
def Prod.Min : Prod α → Prop
  | .scan _ k acc seen => k < 8 ∧ seen.length = k ∧ MinSpec seen acc
  | .read _ k _ acc seen => k < 8 ∧ seen.length = k ∧ MinSpec seen acc
  | .chosen _ id seen => seen.length = 8 ∧ ∃ m, MinSpec seen (m, id)
  | _ => True

theorem nextScan_min (x : α) {k : Nat} (size : Nat) {acc : Nat × Nat} {seen : List Nat} (hk : k < 8)
    (hl : seen.length = k) (h : MinSpec seen acc) : (nextScan x k size acc seen).Min := by
  have hm := h.step size
  rw [hl] at hm
  unfold nextScan
  split
  · rename_i h8
    exact ⟨h8, by simp [hl], hm⟩
  · refine ⟨?_, (minStep acc k size).1, hm⟩
    simp only [List.length_append, List.length_singleton]
    omega

theorem Reach.minSpec {b size : Nat} {tf : Bool} {s : State α} (h : Reach b size tf s) (p : Nat) :
    (s.prod p).Min := by
  induction h with
  | new => trivial
  | step s s' l hr hs ih =>
    have keep : ∀ (p' : Nat) (st : Prod α), (p = p' → st.Min) → (upd s.prod p' st p).Min := by
      intro p' st hst
      simp only [upd]
      split
      · exact hst ‹_›
      · exact ih
    generalize hrr : Res.ok s' = r at hs
    cases hs with
    | start p' x h1 h2 =>
      cases hrr
      exact keep p' _ fun _ => ⟨by omega, rfl, .inl ⟨rfl, by simp⟩⟩
    | scan p' x k acc seen h1 =>
      cases hrr
      refine keep p' _ fun e => ?_
      subst e
      rw [h1] at ih
      exact ih
    | read p' x k v acc seen h1 =>
      cases hrr
      refine keep p' _ fun e => ?_
      subst e
      rw [h1] at ih
      exact nextScan_min x _ ih.1 ih.2.1 ih.2.2
    | claim p' x id seen h1 =>
      cases hrr
      exact keep p' _ fun _ => trivial
    | store p' x id i h1 =>
      cases hq : (s.qs id).store i x with
      | ub => rw [hq] at hrr; cases hrr
      | hang => rw [hq] at hrr; cases hrr
      | ok q =>
        rw [hq] at hrr
        cases hrr
        exact keep p' _ fun _ => trivial
    | close h1 h2 =>
      cases hrr
      exact ih
    | work n e h1 h2 =>
      split at hrr
      · cases hq : (s.qs n).work s.closed e with
        | ub => rw [hq] at hrr; cases hrr
        | hang => rw [hq] at hrr; cases hrr
        | ok q =>
          rw [hq] at hrr
          cases hrr
          exact ih
      · cases hrr

/-- C60, for every schedule: a push reads one size for each of the eight queues; if one of them is below
2^31-1 then the queue chosen is the lowest-numbered of those whose size read is minimal, otherwise it is
queue 0. -/
theorem C60_choice {b size : Nat} {tf : Bool} {s : State α} (h : Reach b size tf s) {p id : Nat} {x : α}
    {seen : List Nat} (hp : s.prod p = .chosen x id seen) :
    seen.length = 8 ∧ ((∃ v ∈ seen, v < 2 ^ 31 - 1) → ∃ m, seen[id]? = some m ∧ (∀ v ∈ seen, m ≤ v) ∧
      ∀ (j v : Nat), j < id → seen[j]? = some v → m < v) ∧
    ((∀ v ∈ seen, 2 ^ 31 - 1 ≤ v) → id = 0) := by
  have hm := h.minSpec p
  rw [hp] at hm
  obtain ⟨hl, m, hm⟩ := hm
  refine ⟨hl, fun hv => ?_, fun hv => ?_⟩
  · obtain ⟨v, hv, hlt⟩ := hv
    rcases hm with ⟨_, h2⟩ | ⟨_, h2, h3, h4⟩
    · have := h2 v hv
      simp only [intMax] at this
      omega
    · exact ⟨m, h2, h3, h4⟩
  · rcases hm with ⟨h1, _⟩ | ⟨h1, h2, h3, h4⟩
    · cases h1
      rfl
    · have := hv m (List.mem_of_getElem? h2)
      simp only [intMax] at h1
      omega

/-- What is to be seen of a producer that has chosen. -/
def chosenOf (s : State Nat) (p : Nat) : Option (Nat × List Nat) :=
  match s.prod p with
  | .chosen _ id seen => some (id, seen)
  | _ => none

example : ∃ s : State Nat, Reach 4 8 true s ∧
    chosenOf s 0 = some (2, [1, 1, 0, 0, 0, 0, 0, 0]) :=
  follow_ex (m := 1) (Ex.push 0 10 ++ Ex.push 0 20 ++ [.start 0 30] ++ List.replicate 16 (.scan 0))
    (by decide +kernel)

/-- A sequence of steps. -/
inductive Run (size : Nat) (tf : Bool) : State α → List (Label α) → State α → Prop
  | nil (s : State α) : Run size tf s [] s
  | cons (s s1 s2 : State α) (l : Label α) (ls : List (Label α)) : Step size tf s l (.ok s1) →
      Run size tf s1 ls s2 → Run size tf s (l :: ls) s2

theorem Run.reach {b size : Nat} {tf : Bool} {s s' : State α} {ls : List (Label α)}
    (hr : Run size tf s ls s') (h : Reach b size tf s) : Reach b size tf s' := by
  induction hr with
  | nil => exact h
  | cons s s1 s2 l ls hs _ ih => exact ih (.step s s1 l h hs)

theorem Run.two {size : Nat} {tf : Bool} {s s' : State α} {p : Nat} {ls : List (Label α)} {x : α}
    {k : Nat} {acc : Nat × Nat} {seen : List Nat} (hp : s.prod p = .scan x k acc seen)
    (hr : Run size tf s (.scan p :: .scan p :: ls) s') : ∃ s1 : State α, s1.qs = s.qs ∧
      s1.prod p = nextScan x k (backlog (s.qs k)) acc seen ∧ Run size tf s1 ls s' := by
  generalize hls : Label.scan p :: .scan p :: ls = l0 at hr
  cases hr with
  | nil => cases hls
  | cons _ s1 _ l ls' hs hr =>
    cases hls
    generalize hrr : Res.ok s1 = r at hs
    cases hs with
    | read _ x' k' v' acc' seen' h1 => rw [hp] at h1; cases h1
    | scan _ x' k' acc' seen' h1 =>
      rw [hp] at h1
      cases h1
      cases hrr
      generalize hls : Label.scan p :: ls = l0 at hr
      cases hr with
      | nil => cases hls
      | cons _ s2 _ l ls' hs hr =>
        cases hls
        generalize hrr : Res.ok s2 = r at hs
        cases hs with
        | scan _ x' k' acc' seen' h1 =>
          simp only [upd_same] at h1
          cases h1
        | read _ x' k' v' acc' seen' h1 =>
          simp only [upd_same] at h1
          cases h1
          cases hrr
          refine ⟨_, ?_, ?_, hr⟩
          · rfl
          · simp only [upd_same]
            cases tf
            · simp only [backlog, Bool.false_eq_true, if_false]
            · simp only [backlog, if_true]

theorem Run.rest {size : Nat} {tf : Bool} {p : Nat} {x : α} (n : Nat) : ∀ {s s' : State α} {k : Nat}
    {acc : Nat × Nat} {seen : List Nat}, k + (n + 1) = 8 → s.prod p = .scan x k acc seen →
    Run size tf s (List.replicate (2 * (n + 1)) (.scan p)) s' → s'.qs = s.qs ∧
      ∃ id, s'.prod p = .chosen x id (seen ++ (List.range' k (n + 1)).map fun j => backlog (s.qs j)) := by
  induction n with
  | zero =>
    intro s s' k acc seen hk hp hr
    obtain ⟨s1, h1, h2, h3⟩ := Run.two hp hr
    generalize hls : List.replicate 0 (Label.scan p) = l0 at h3
    cases h3 with
    | cons => cases hls
    | nil =>
      refine ⟨h1, (minStep acc k (backlog (s.qs k))).2, ?_⟩
      rw [h2, nextScan, if_neg (by omega)]
      rfl
  | succ n ih =>
    intro s s' k acc seen hk hp hr
    obtain ⟨s1, h1, h2, h3⟩ := Run.two hp hr
    rw [nextScan, if_pos (by omega)] at h2
    obtain ⟨i1, id, i2⟩ := ih (by omega) h2 h3
    refine ⟨i1.trans h1, id, ?_⟩
    rw [i2, h1, List.range'_succ (s := k), List.map_cons, List.append_assoc]
    rfl

/-- C60, when nothing else happens during the scan: the push goes into the lowest-numbered queue of
minimal backlog, provided some backlog is below 2^31-1.  What is missing: scans during which other
threads push or take, see `C60_scan_refuted`, and backlogs of 2^31-1 and more, see
`C60_long_refuted`. -/
theorem C60_minimal_partial {b size : Nat} {tf : Bool} {s s' : State α} (h : Reach b size tf s) {p : Nat}
    {x : α} (hr : Run size tf s (.start p x :: List.replicate 16 (.scan p)) s')
    (hs : ∃ k, k < 8 ∧ backlog (s.qs k) < 2 ^ 31 - 1) : s'.qs = s.qs ∧ ∃ id seen,
      id < 8 ∧ s'.prod p = .chosen x id seen ∧ (∀ k, k < 8 → backlog (s.qs id) ≤ backlog (s.qs k)) ∧
      ∀ k, k < id → backlog (s.qs id) < backlog (s.qs k) := by
  have hreach := hr.reach h
  generalize hls : Label.start p x :: List.replicate 16 (.scan p) = l0 at hr
  cases hr with
  | nil => cases hls
  | cons s s1 s2 l ls hst hr =>
    cases hls
    generalize hrr : Res.ok s1 = r at hst
    cases hst with
    | start _ _ h1 h2 =>
      cases hrr
      obtain ⟨hq, id, hp⟩ := Run.rest (p := p) (x := x) 7 (k := 0) (acc := (intMax, 0)) (seen := [])
        (by omega) (by simp [upd_same]) hr
      simp only [List.nil_append] at hp
      obtain ⟨_, hm, _⟩ := C60_choice hreach hp
      have hget : ∀ j, j < 8 →
          ((List.range' 0 8).map fun j => backlog (s.qs j))[j]? = some (backlog (s.qs j)) := by
        intro j hj
        rw [List.getElem?_map, List.getElem?_range' hj]
        simp
      obtain ⟨k, hk, hkl⟩ := hs
      obtain ⟨m, m1, m2, m3⟩ := hm ⟨_, List.mem_of_getElem? (hget k hk), hkl⟩
      have hid : id < 8 := by
        have := (List.getElem?_eq_some_iff.1 m1).1
        simpa using this
      have hmid : m = backlog (s.qs id) := by
        have := hget id hid
        rw [show (7 + 1) = 8 from rfl] at m1
        rw [m1] at this
        exact Option.some.inj this
      subst hmid
      exact ⟨hq, id, _, hid, hp, fun k hk => m2 _ (List.mem_of_getElem? (hget k hk)),
        fun k hk => m3 k _ hk (hget k (by omega))⟩

theorem follow_run {size : Nat} {tf : Bool} {m : Nat} {s s' : State α} (ls : List (Label α))
    (hi : ∀ p, m ≤ p → s.prod p = .idle)
    (hf : follow size tf m s ls = some s') : Run size tf s ls s' ∧ ∀ p, m ≤ p → s'.prod p = .idle := by
  induction ls generalizing s with
  | nil => cases hf; exact ⟨.nil _, hi⟩
  | cons l ls ih =>
    rw [follow] at hf
    split at hf
    · rename_i s1 h1
      obtain ⟨hs, hi'⟩ := fire_step hi h1
      have := ih hi' hf
      exact ⟨.cons _ s1 s' l ls hs this.1, this.2⟩
    · cases hf

/-- Two schedules, one after the other, as a witness. -/
theorem follow_ex2 {b size : Nat} {tf : Bool} {m : Nat} {P : State α → State α → Prop}
    [∀ s s', Decidable (P s s')] (ls ls' : List (Label α))
    (h : (follow size tf m (State.new b) ls).any (fun s => (follow size tf m s ls').any
      fun s' => decide (P s s')) = true) :
    ∃ s s', Reach b size tf s ∧ Run size tf s ls' s' ∧ P s s' := by
  cases hf : follow size tf m (State.new b) ls with
  | none => rw [hf] at h; cases h
  | some s =>
    rw [hf] at h
    simp only [Option.any_some] at h
    cases hf' : follow size tf m s ls' with
    | none => rw [hf'] at h; cases h
    | some s' =>
      rw [hf'] at h
      have hr := follow_run ls (fun _ _ => rfl) hf
      exact ⟨s, s', hr.1.reach .new, (follow_run ls' hr.2 hf').1, by simpa using h⟩

example : ∃ s s' : State Nat, Reach 4 8 true s ∧
    Run 8 true s (.start 0 30 :: List.replicate 16 (.scan 0)) s' ∧
    ((∃ k, k < 8 ∧ backlog (s.qs k) < 2 ^ 31 - 1) ∧ chosenOf s' 0 = some (2, [1, 1, 0, 0, 0, 0, 0, 0])) :=
  follow_ex2 (m := 1) (Ex.push 0 10 ++ Ex.push 0 20) _ (by decide +kernel)

/-- The backlogs of the eight queues. -/
def backlogs (s : State α) : List Nat := (List.range 8).map fun k => backlog (s.qs k)

/-- C60 refuted when a worker and another producer run during the scan, for both orders in which the
counters may be read: all along queue 0 holds at most one item and every other queue one, before and
after queue 0 is empty, and the scan picks queue 1. -/
theorem C60_scan_refuted (tf : Bool) : ∃ s s' : State Nat, Reach 8 8 tf s ∧
    Run 8 tf s ([.start 0 9, .scan 0] ++ Ex.push 1 10 ++ Ex.w 0 5 ++ Ex.push 1 11 ++ Ex.w 0 5 ++
      List.replicate 15 (.scan 0)) s' ∧
    backlogs s = [0, 1, 1, 1, 1, 1, 1, 1] ∧ backlogs s' = [0, 1, 1, 1, 1, 1, 1, 1] ∧
    (chosenOf s' 0).map Prod.fst = some 1 := by
  refine follow_ex2 (m := 2) ((List.range 8).flatMap (fun x => Ex.push 0 x) ++ Ex.w 0 6) _ ?_
  revert tf
  decide +kernel

theorem scan_alone {size : Nat} {tf : Bool} {p : Nat} {x : α} (n : Nat) : ∀ {s : State α} {k : Nat}
    {acc : Nat × Nat} {seen : List Nat}, k + (n + 1) = 8 → s.prod p = .scan x k acc seen →
    ∃ st, Run size tf s (List.replicate (2 * (n + 1)) (.scan p)) { s with prod := upd s.prod p st } := by
  have over : ∀ (f : Nat → Prod α) (a b : Prod α), upd (upd f p a) p b = upd f p b := by
    intro f a b
    funext j
    simp only [upd]
    split <;> rfl
  have two : ∀ {s : State α} {k : Nat} {acc : Nat × Nat} {seen : List Nat},
      s.prod p = .scan x k acc seen → ∀ {ls : List (Label α)} {s' : State α},
      Run size tf { s with prod := upd s.prod p (nextScan x k (backlog (s.qs k)) acc seen) } ls s' →
      Run size tf s (.scan p :: .scan p :: ls) s' := by
    intro s k acc seen hp ls s' hr
    refine .cons _ _ _ _ _ (.scan s p x k acc seen hp) (.cons _ _ _ _ _
      (.read _ p x k _ acc seen (by simp only [upd_same]; rfl)) ?_)
    simp only [over]
    have : (if tf = true then
        ((if tf = true then (s.qs k).tail else (s.qs k).head) + word - (s.qs k).head) % word
      else ((s.qs k).tail + word - if tf = true then (s.qs k).tail else (s.qs k).head) % word) =
        backlog (s.qs k) := by
      cases tf
      · simp only [backlog, Bool.false_eq_true, if_false]
      · simp only [backlog, if_true]
    rw [this]
    exact hr
  induction n with
  | zero =>
    intro s k acc seen hk hp
    exact ⟨_, two hp (.nil _)⟩
  | succ n ih =>
    intro s k acc seen hk hp
    have := ih (s := { s with prod := upd s.prod p (nextScan x k (backlog (s.qs k)) acc seen) })
      (k := k + 1) (by omega) (by simp only [upd_same, nextScan]; rw [if_pos (by omega)])
    obtain ⟨st, h⟩ := this
    simp only [over] at h
    exact ⟨st, two hp h⟩

/-- The scan of a push that no other thread disturbs is possible. -/
theorem start_alone {size : Nat} {tf : Bool} {p : Nat} (x : α) {s : State α} (hc : s.closed = false)
    (hp : s.prod p = .idle) :
    ∃ st, Run size tf s (.start p x :: List.replicate 16 (.scan p)) { s with prod := upd s.prod p st } := by
  obtain ⟨st, h⟩ := scan_alone (size := size) (tf := tf) (p := p) (x := x) 7
    (s := { s with prod := upd s.prod p (.scan x 0 (intMax, 0) []) }) (k := 0) (acc := (intMax, 0))
    (seen := []) (by omega) (by simp only [upd_same])
  refine ⟨st, .cons _ _ _ _ _ (.start s p x hc hp) ?_⟩
  have over : upd (upd s.prod p (.scan x 0 (intMax, 0) [])) p st = upd s.prod p st := by
    funext j
    simp only [upd]
    split <;> rfl
  simp only [over] at h
  exact h

/-- An undisturbed scan when every backlog is 2^31-1 or more. -/
theorem long_scan {b size : Nat} {tf : Bool} {s s' : State α} (hr : Reach b size tf s) {x : α}
    (hrun : Run size tf s (.start 0 x :: List.replicate 16 (.scan 0)) s')
    (hq : ∀ k, k < 8 → 2 ^ 31 - 1 ≤ backlog (s.qs k)) : ∃ seen, s'.prod 0 = .chosen x 0 seen := by
  have hreach := hrun.reach hr
  generalize hls : Label.start 0 x :: List.replicate 16 (.scan 0) = l0 at hrun
  cases hrun with
  | nil => cases hls
  | cons _ s1 s2 l ls hst hrun =>
    cases hls
    generalize hrr : Res.ok s1 = r at hst
    cases hst with
    | start _ _ h1 h2 =>
      cases hrr
      obtain ⟨_, id, hch⟩ := Run.rest (p := 0) (x := x) 7 (k := 0) (acc := (intMax, 0)) (seen := [])
        (by omega) (by simp [upd_same]) hrun
      have hid := (C60_choice hreach hch).2.2 fun v hv => by
        simp only [List.nil_append, List.mem_map, List.mem_range'_1] at hv
        obtain ⟨j, hj, rfl⟩ := hv
        exact hq j (by omega)
      subst hid
      exact ⟨_, hch⟩

/-- `n` pushes, one after the other while no worker runs, are spread evenly. -/
theorem even_pushes {b size : Nat} (hb : 0 < b) {tf : Bool} (x : α) (n : Nat)
    (hn : n ≤ 8 * (2 ^ 31 - 1) + 1) : ∃ s : State α, Reach b size tf s ∧ s.closed = false ∧
    (∀ p, s.prod p = .idle) ∧ ∀ k, k < 8 → (s.qs k).head = 0 ∧ (s.qs k).tail = (n + 7 - k) / 8 ∧
      backlog (s.qs k) = (n + 7 - k) / 8 := by
  induction n with
  | zero =>
    refine ⟨State.new b, .new, rfl, fun _ => rfl, fun k hk => ?_⟩
    have h0 : (0 + 7 - k) / 8 = 0 := by omega
    rw [h0]
    refine ⟨rfl, rfl, ?_⟩
    simp only [backlog, State.new, Q.new, Nat.zero_add, Nat.sub_zero, Nat.mod_self]
  | succ n ih =>
    obtain ⟨s, hr, hc, hp, hq⟩ := ih (by omega)
    obtain ⟨st, hrun⟩ := start_alone (size := size) (tf := tf) x hc (hp 0)
    have h7 := hq 7 (by omega)
    obtain ⟨id, seen, hch, hidn⟩ : ∃ id seen,
        ({ s with prod := upd s.prod 0 st } : State α).prod 0 = .chosen x id seen ∧ id = n % 8 := by
      by_cases hlt : n < 8 * (2 ^ 31 - 1)
      · obtain ⟨_, id, seen, hid, hch, hmin, hlow⟩ := C60_minimal_partial hr hrun
          ⟨7, by omega, by omega⟩
        refine ⟨id, seen, hch, ?_⟩
        have h1 := hmin (n % 8) (by omega)
        have h2 := fun h => hlow (n % 8) h
        have e1 := (hq id hid).2.2
        have e2 := (hq (n % 8) (by omega)).2.2
        rw [e1, e2] at h1 h2
        omega
      · obtain ⟨seen, hch⟩ := long_scan hr hrun fun k hk => by
          rw [(hq k hk).2.2]
          omega
        exact ⟨0, seen, hch, by omega⟩
    simp only [upd_same] at hch
    subst hch
    have r1 := hrun.reach hr
    have st1 := Step.claim (size := size) (tailFirst := tf)
      { s with prod := upd s.prod 0 (.chosen x id seen) } 0 x id seen (by simp only [upd_same])
    have r2 := Reach.step _ _ _ r1 st1
    have st2 := Step.store (size := size) (tailFirst := tf)
      { s with
        qs := upd s.qs id ((s.qs id).claim x)
        prod := upd (upd s.prod 0 (.chosen x id seen)) 0 (.claimed x id (s.qs id).tail)
        pushed := s.pushed ++ [x] } 0 x id (s.qs id).tail (by simp only [upd_same])
    have hsl : (s.qs id).slots.length = b := hr.slots id
    simp only [upd_same, Q.store, Q.claim, hsl, if_pos (Nat.mod_lt _ hb), Res.ok_bind,
      Res.pure_eq] at st2
    have r3 := Reach.step _ _ _ r2 st2
    refine ⟨_, r3, hc, fun p => ?_, fun k hk => ?_⟩
    · simp only [upd]
      split
      · rfl
      · exact hp p
    · have hk' := hq k hk
      by_cases hki : k = id
      · subst hki
        simp only [upd_same]
        have ht : ((s.qs k).tail + 1) % word = (n + 1 + 7 - k) / 8 := by
          rw [hk'.2.1, Nat.mod_eq_of_lt (by simp only [word]; omega)]
          omega
        refine ⟨hk'.1, ht, ?_⟩
        simp only [backlog, ht, hk'.1]
        rw [Nat.sub_zero, Nat.add_mod_right, Nat.mod_eq_of_lt (by simp only [word]; omega)]
      · simp only [upd_other _ _ hki]
        have : (n + 1 + 7 - k) / 8 = (n + 7 - k) / 8 := by omega
        rw [this]
        exact hk'

/-- C60 refuted for backlogs of 2^31-1 and more: after `8 * (2^31-1) + 1` pushes queue 0 holds one item
more than the others, and an undisturbed scan picks queue 0 again. -/
theorem C60_long_refuted {b size : Nat} (hb : 0 < b) {tf : Bool} (x : α) : ∃ s s' : State α,
    Reach b size tf s ∧ Run size tf s (.start 0 x :: List.replicate 16 (.scan 0)) s' ∧
    (∃ seen, s'.prod 0 = .chosen x 0 seen) ∧
    ∀ k, 0 < k → k < 8 → backlog (s.qs k) < backlog (s.qs 0) := by
  obtain ⟨s, hr, hc, hp, hq⟩ := even_pushes (size := size) (tf := tf) hb x _ (Nat.le_refl _)
  obtain ⟨st, hrun⟩ := start_alone (size := size) (tf := tf) x hc (hp 0)
  refine ⟨s, _, hr, hrun, long_scan hr hrun fun k hk => ?_, fun k h0 h8 => ?_⟩
  · rw [(hq k hk).2.2]
    omega
  · rw [(hq k h8).2.2, (hq 0 (by omega)).2.2]
    omega

end Verif.Pipeline.Pool
