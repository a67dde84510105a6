import Verif.Pipeline.PoolPush
/-! The properties of a pool whose handler pushes into it. -/
namespace Verif.Pipeline.Pool.Push
open Verif Verif.Pipeline Verif.Pipeline.Pool
variable {α : Type}

/-! ### What holds without any restriction -/

/-- What always holds of the handlers, the destructor and the records. -/
structure Ctl (b size : Nat) (h : Handler α) (s : State α) : Prop where
  slots : ∀ k, (s.qs k).slots.length = b
  ok : ∀ j, (s.prod j).Ok
  busy : ∀ n, s.todo n ≠ [] ∨ s.prod (2 * n) ≠ .idle → n < size ∧ n < 8 ∧ (s.qs n).pc = .stat
  made : ∀ n, s.made n ++ ((s.prod (2 * n)).coming ++ s.todo n) = (s.qs n).handled.flatMap (h n)
  outside : s.closed = true → ∀ p, s.prod (2 * p + 1) = .idle
  split : ∀ k, s.inTime k ++ s.late k = (s.qs k).pushed
  ended : ∀ k, (s.qs k).pc = .drain ∨ (s.qs k).pc = .ended → s.closed = true
  alive : ∀ k, (s.qs k).pc ≠ .ended → s.late k = []
  entry : ∀ t ∈ s.log, t.q < 8 ∧ (t.late = true → s.closed = true ∧ ∃ m, t.from_ = some m ∧ m ≠ t.q) ∧
    ∀ m, t.from_ = some m → m < size ∧ m < 8

theorem Ctl.new (b size : Nat) (h : Handler α) : Ctl b size h (State.new b) := by
  constructor <;> simp [State.new, Q.new, State.made, State.inTime, State.late, Prod.coming, Prod.Ok]

/-- What a step of a worker does to the record of the handler. -/
theorem work_asked' {c : Bool} {e : Int} {q q' : Q α} (h : α → List α) (hq : q.work c e = .ok q') :
    q'.handled.flatMap h = q.handled.flatMap h ++ asked h q ∧ (asked h q ≠ [] → q'.pc = .stat) := by
  have := work_asked (fun x => (h x).map fun y => (0, y)) hq
  have ha : Pipeline.asked (fun x => (h x).map fun y => (0, y)) q = (asked h q).map fun y => (0, y) := by
    unfold Pipeline.asked asked
    cases hpc : q.pc <;> simp only [List.map_nil]
    rename_i k
    rcases q.slots[k % q.slots.length]? with _ | _ | v <;> rfl
  rw [ha] at this
  obtain ⟨h1, h2⟩ := this
  refine ⟨?_, fun hne => h2 (by simpa using hne)⟩
  have := congrArg (List.map Prod.snd) h1
  simpa [List.map_flatMap, Function.comp_def] using this

theorem origin_even (n : Nat) : origin (2 * n) = some n := by
  simp [origin]

theorem origin_odd (p : Nat) : origin (2 * p + 1) = none := by
  unfold origin
  rw [if_neg (by omega)]

theorem even_or_odd (j : Nat) : (∃ n, j = 2 * n) ∨ ∃ p, j = 2 * p + 1 := by
  rcases Nat.mod_two_eq_zero_or_one j with hj | hj
  · exact .inl ⟨j / 2, by omega⟩
  · exact .inr ⟨j / 2, by omega⟩

theorem upd_cases {β : Type} (P : β → Prop) (f : Nat → β) (k : Nat) (v : β) (j : Nat) (h1 : j = k → P v)
    (h2 : j ≠ k → P (f j)) : P (upd f k v j) := by
  by_cases hj : j = k
  · subst hj; rw [upd_same]; exact h1 rfl
  · rw [upd_other _ _ hj]; exact h2 hj

theorem made_snoc (s : State α) (qs : Nat → Q α) (prod : Nat → Prod α) (t : Entry α) (n : Nat) :
    State.made { s with qs := qs, prod := prod, log := s.log ++ [t] } n =
      s.made n ++ if t.from_ = some n then [t.item] else [] := by
  simp only [State.made, List.filter_append, List.map_append]
  by_cases h : t.from_ = some n <;> simp [h]

theorem inTime_snoc (s : State α) (qs : Nat → Q α) (prod : Nat → Prod α) (t : Entry α) (n : Nat) :
    State.inTime { s with qs := qs, prod := prod, log := s.log ++ [t] } n =
      s.inTime n ++ if t.q = n ∧ t.late = false then [t.item] else [] := by
  simp only [State.inTime, List.filter_append, List.map_append]
  by_cases h : t.q = n ∧ t.late = false
  · simp [h]
  · rw [if_neg h]
    simp [List.filter_cons, h]

theorem late_snoc (s : State α) (qs : Nat → Q α) (prod : Nat → Prod α) (t : Entry α) (n : Nat) :
    State.late { s with qs := qs, prod := prod, log := s.log ++ [t] } n =
      s.late n ++ if t.q = n ∧ t.late = true then [t.item] else [] := by
  simp only [State.late, List.filter_append, List.map_append]
  by_cases h : t.q = n ∧ t.late = true
  · simp [h]
  · rw [if_neg h]
    simp [List.filter_cons, h]

theorem Ctl.step {b size : Nat} {tf : Bool} {h : Handler α} {s s' : State α} {l : Label α} (hc : Ctl b size h s)
    (hs : Step size tf h s l (.ok s')) : Ctl b size h s' := by
  rcases hs.cases_ok with ⟨p, x, -, h1, h2, rfl⟩ | ⟨n, x, rest, -, h1, h2, rfl⟩ |
    ⟨j, st, -, h1, h2, h3, h3', h4, h5, rfl⟩ | ⟨j, x, id, seen, -, h1, rfl⟩ | ⟨j, x, id, i, q, -, h1, hq, rfl⟩ |
    ⟨-, h1, h2, rfl⟩ | ⟨n, e, q, -, h1, h2, h3, h4, h5, hq, rfl⟩
  · refine { hc with ok := fun j => ?_, busy := fun n hn => ?_, made := fun n => ?_, outside := fun hcl => ?_ }
    · exact upd_cases Prod.Ok _ _ _ _ (fun _ => ⟨by omega, by simp⟩) fun _ => hc.ok j
    · simp only [upd_other s.prod _ (show 2 * n ≠ 2 * p + 1 by omega)] at hn
      exact hc.busy n hn
    · simp only [upd_other s.prod _ (show 2 * n ≠ 2 * p + 1 by omega)]
      exact hc.made n
    · rw [h1] at hcl; cases hcl
  · refine { hc with ok := fun j => ?_, busy := fun m hn => ?_, made := fun m => ?_, outside := fun hcl p => ?_ }
    · exact upd_cases Prod.Ok _ _ _ _ (fun _ => ⟨by omega, by simp⟩) fun _ => hc.ok j
    · by_cases hm : m = n
      · subst hm
        exact hc.busy m (.inl (by rw [h1]; simp))
      · simp only [upd_other s.prod _ (show 2 * m ≠ 2 * n by omega), upd_other s.todo _ hm] at hn
        exact hc.busy m hn
    · by_cases hm : m = n
      · subst hm
        have := hc.made m
        rw [h1, h2] at this
        simp only [upd_same]
        exact this
      · simp only [upd_other s.prod _ (show 2 * m ≠ 2 * n by omega), upd_other s.todo _ hm]
        exact hc.made m
    · simp only [upd_other s.prod _ (show 2 * p + 1 ≠ 2 * n by omega)]
      exact hc.outside hcl p
  · refine { hc with ok := fun j' => ?_, busy := fun m hn => ?_, made := fun m => ?_, outside := fun hcl p => ?_ }
    · exact upd_cases Prod.Ok _ _ _ _ (fun _ => h5 (hc.ok j)) fun _ => hc.ok j'
    · by_cases hm : 2 * m = j
      · subst hm
        exact hc.busy m (.inr h3)
      · simp only [upd_other s.prod _ hm] at hn
        exact hc.busy m hn
    · by_cases hm : 2 * m = j
      · subst hm
        simp only [upd_same, h4]
        exact hc.made m
      · simp only [upd_other s.prod _ hm]
        exact hc.made m
    · by_cases hp : 2 * p + 1 = j
      · subst hp
        exact absurd (hc.outside hcl p) h3
      · simp only [upd_other s.prod _ hp]
        exact hc.outside hcl p
  · have hid := hc.ok j
    rw [h1] at hid
    simp only [Prod.Ok] at hid
    have hpc : ∀ k, (upd s.qs id ((s.qs id).claim x) k).pc = (s.qs k).pc := fun k =>
      upd_cases (fun q : Q α => q.pc = (s.qs k).pc) _ _ _ _ (fun hk => by rw [hk]; rfl) fun _ => rfl
    have hhd : ∀ k, (upd s.qs id ((s.qs id).claim x) k).handled = (s.qs k).handled := fun k =>
      upd_cases (fun q : Q α => q.handled = (s.qs k).handled) _ _ _ _ (fun hk => by rw [hk]; rfl) fun _ => rfl
    constructor
    · intro k
      exact upd_cases (fun q : Q α => q.slots.length = b) _ _ _ _ (fun _ => hc.slots id) fun _ => hc.slots k
    · intro j'
      exact upd_cases Prod.Ok _ _ _ _ (fun _ => hid) fun _ => hc.ok j'
    · intro m hn
      simp only [hpc]
      by_cases hm : 2 * m = j
      · subst hm
        exact hc.busy m (.inr (by rw [h1]; simp))
      · simp only [upd_other s.prod _ hm] at hn
        exact hc.busy m hn
    · intro m
      rw [made_snoc]
      simp only [hhd]
      have := hc.made m
      by_cases hm : 2 * m = j
      · subst hm
        rw [h1] at this
        simp only [upd_same, origin_even, if_true, ← this, Prod.coming, List.nil_append, List.append_assoc]
      · simp only [upd_other s.prod _ hm]
        rw [if_neg, List.append_nil]
        · exact this
        · rcases even_or_odd j with ⟨n, rfl⟩ | ⟨p, rfl⟩
          · rw [origin_even]
            intro hx
            simp only [Option.some.injEq] at hx
            omega
          · rw [origin_odd]; simp
    · intro hcl p
      by_cases hp : 2 * p + 1 = j
      · subst hp
        have := hc.outside hcl p
        rw [h1] at this
        cases this
      · simp only [upd_other s.prod _ hp]
        exact hc.outside hcl p
    · intro k
      rw [inTime_snoc, late_snoc]
      by_cases hk : k = id
      · subst hk
        simp only [upd_same, Q.claim, true_and]
        rw [← hc.split k]
        by_cases he : (s.qs k).pc = .ended
        · simp [he]
        · simp [he, hc.alive k he]
      · simp only [upd_other s.qs _ hk, show id ≠ k from fun h => hk h.symm, false_and, if_false, List.append_nil]
        exact hc.split k
    · intro k hk
      simp only [hpc] at hk
      exact hc.ended k hk
    · intro k hk
      simp only [hpc] at hk
      rw [late_snoc, hc.alive k hk, if_neg, List.append_nil]
      rintro ⟨rfl, h2⟩
      simp [hk] at h2
    · intro t ht
      rcases List.mem_append.1 ht with ht | ht
      · exact hc.entry t ht
      · rw [List.mem_singleton] at ht
        subst ht
        rcases even_or_odd j with ⟨n, rfl⟩ | ⟨p, rfl⟩
        · obtain ⟨b1, b2, b3⟩ := hc.busy n (.inr (by rw [h1]; simp))
          refine ⟨hid, fun hl => ?_, fun m hm => ?_⟩
          · simp only [decide_eq_true_eq] at hl
            refine ⟨hc.ended id (.inr hl), n, origin_even n, ?_⟩
            rintro rfl
            rw [b3] at hl
            cases hl
          · rw [origin_even] at hm
            cases hm
            exact ⟨b1, b2⟩
        · refine ⟨hid, fun hl => ?_, fun m hm => ?_⟩
          · simp only [decide_eq_true_eq] at hl
            have := hc.outside (hc.ended id (.inr hl)) p
            rw [h1] at this
            cases this
          · rw [origin_odd] at hm
            cases hm
  · have hst := Q.store_same hq
    have hpc : ∀ k, (upd s.qs id q k).pc = (s.qs k).pc := fun k =>
      upd_cases (fun q : Q α => q.pc = (s.qs k).pc) _ _ _ _ (fun hk => by rw [hk, hst]) fun _ => rfl
    have hhd : ∀ k, (upd s.qs id q k).handled = (s.qs k).handled := fun k =>
      upd_cases (fun q : Q α => q.handled = (s.qs k).handled) _ _ _ _ (fun hk => by rw [hk, hst]) fun _ => rfl
    have hpu : ∀ k, (upd s.qs id q k).pushed = (s.qs k).pushed := fun k =>
      upd_cases (fun q : Q α => q.pushed = (s.qs k).pushed) _ _ _ _ (fun hk => by rw [hk, hst]) fun _ => rfl
    constructor
    · intro k
      exact upd_cases (fun q : Q α => q.slots.length = b) _ _ _ _ (fun _ => by rw [hst]; simpa using hc.slots id) fun _ => hc.slots k
    · intro j'
      exact upd_cases Prod.Ok _ _ _ _ (fun _ => trivial) fun _ => hc.ok j'
    · intro m hn
      simp only [hpc]
      by_cases hm : 2 * m = j
      · subst hm
        exact hc.busy m (.inr (by rw [h1]; simp))
      · simp only [upd_other s.prod _ hm] at hn
        exact hc.busy m hn
    · intro m
      simp only [hhd]
      have := hc.made m
      by_cases hm : 2 * m = j
      · subst hm
        rw [h1] at this
        simp only [upd_same]
        exact this
      · simp only [upd_other s.prod _ hm]
        exact this
    · intro hcl p
      by_cases hp : 2 * p + 1 = j
      · subst hp
        simp only [upd_same]
      · simp only [upd_other s.prod _ hp]
        exact hc.outside hcl p
    · intro k
      simp only [hpu]
      exact hc.split k
    · intro k hk
      simp only [hpc] at hk
      exact hc.ended k hk
    · intro k hk
      simp only [hpc] at hk
      exact hc.alive k hk
    · exact hc.entry
  · exact { hc with
      outside := fun _ p => h2 p
      ended := fun _ _ => rfl
      entry := fun t ht => ⟨(hc.entry t ht).1, fun hl => ⟨rfl, ((hc.entry t ht).2.1 hl).2⟩, (hc.entry t ht).2.2⟩ }
  · obtain ⟨w1, w2, w3⟩ := Q.work_same hq
    obtain ⟨a1, a2⟩ := work_asked' (h n) hq
    obtain ⟨p1, p2⟩ := work_pc hq
    constructor
    · intro k
      exact upd_cases (fun q : Q α => q.slots.length = b) _ _ _ _ (fun _ => by rw [w2]; exact hc.slots n) fun _ => hc.slots k
    · exact hc.ok
    · intro m hn
      by_cases hm : m = n
      · subst hm
        simp only [upd_same, h5, ne_eq, not_true_eq_false, or_false] at hn ⊢
        exact ⟨h1, h2, a2 hn⟩
      · simp only [upd_other s.todo _ hm] at hn
        simp only [upd_other s.qs _ hm]
        exact hc.busy m hn
    · intro m
      by_cases hm : m = n
      · subst hm
        have := hc.made m
        rw [h4, h5] at this
        simp only [upd_same, h5, a1, ← this, Prod.coming, List.nil_append, List.append_nil]
        rfl
      · simp only [upd_other s.todo _ hm, upd_other s.qs _ hm]
        exact hc.made m
    · exact hc.outside
    · intro k
      have : (upd s.qs n q k).pushed = (s.qs k).pushed :=
        upd_cases (fun q : Q α => q.pushed = (s.qs k).pushed) _ _ _ _ (fun hk => by rw [hk, w3]) fun _ => rfl
      simp only [this]
      exact hc.split k
    · intro k hk
      by_cases hkn : k = n
      · subst hkn
        simp only [upd_same] at hk
        rcases hk with hk | hk
        · exact p1 hk
        · exact hc.ended k (.inl (p2 hk))
      · simp only [upd_other s.qs _ hkn] at hk
        exact hc.ended k hk
    · intro k hk
      by_cases hkn : k = n
      · subst hkn
        exact hc.alive k h3
      · simp only [upd_other s.qs _ hkn] at hk
        exact hc.alive k hk
    · exact hc.entry

/-! ### One queue of the pool -/

/-- A queue with its worker, the destructor and the half-done pushes into it. -/
def lane (s : State α) (k : Nat) : Stage α := ⟨s.qs k, s.closed, pendOf s.prod k⟩

/-- A step does to a queue whose worker has not ended what a step of a single stage may do. -/
theorem Step.lane {size : Nat} {tf : Bool} {h : Handler α} {s s' : State α} {l : Label α}
    (hs : Step size tf h s l (.ok s')) (k : Nat) (hne : (s.qs k).pc ≠ .ended) :
    Stage.Move (lane s k) (lane s' k) := by
  rcases hs.cases_ok with ⟨p, x, -, h1, h2, rfl⟩ | ⟨n, x, rest, -, h1, h2, rfl⟩ |
    ⟨j, st, -, h1, h2, h3, h3', h4, h5, rfl⟩ | ⟨j, x, id, seen, -, h1, rfl⟩ | ⟨j, x, id, i, q, -, h1, hq, rfl⟩ |
    ⟨-, h1, h2, rfl⟩ | ⟨n, e, q, -, h1, h2, h3, h4, h5, hq, rfl⟩
  · simp only [Push.lane, pendOf_quiet (prod := s.prod) (p := 2 * p + 1) (st := .scan x 0 (intMax, 0) [])
      (by rw [h2]; trivial) trivial k]
    exact .same _
  · simp only [Push.lane, pendOf_quiet (prod := s.prod) (p := 2 * n) (st := .scan x 0 (intMax, 0) [])
      (by rw [h2]; trivial) trivial k]
    exact .same _
  · simp only [Push.lane, pendOf_quiet h1 h2 k]
    exact .same _
  · simp only [Push.lane, pendOf_claim (prod := s.prod) (p := j) (by rw [h1]; trivial)]
    by_cases hk : id = k
    · subst hk
      rw [if_pos rfl]
      simp only [upd_same]
      exact .enter (Push.lane s id) j x (by simp [Push.lane, pendOf, h1]) hne
    · rw [if_neg hk]
      simp only [upd_other s.qs _ (fun h : k = id => hk h.symm)]
      exact .same _
  · simp only [Push.lane, pendOf_store h1]
    by_cases hk : id = k
    · subst hk
      rw [if_pos rfl]
      simp only [upd_same]
      exact .store (Push.lane s id) j i x q (by simp [Push.lane, pendOf, h1]) hq
    · rw [if_neg hk]
      simp only [upd_other s.qs _ (fun h : k = id => hk h.symm)]
      exact .same _
  · exact .close (Push.lane s k) h1
  · by_cases hk : k = n
    · subst hk
      simp only [Push.lane, upd_same]
      exact .work (Push.lane s k) e q hq
    · simp only [Push.lane, upd_other s.qs _ hk]
      exact .same _

/-- A queue whose worker has ended only gets more items. -/
theorem Step.dead {size : Nat} {tf : Bool} {h : Handler α} {s s' : State α} {l : Label α}
    (hs : Step size tf h s l (.ok s')) (k : Nat) (he : (s.qs k).pc = .ended) :
    (s'.qs k).pc = .ended ∧ (s'.qs k).handled = (s.qs k).handled ∧ (s'.qs k).samples = (s.qs k).samples ∧
    (s'.qs k).head = (s.qs k).head ∧ (∃ l, (s'.qs k).pushed = (s.qs k).pushed ++ l) ∧ s'.inTime k = s.inTime k := by
  rcases hs.cases_ok with ⟨p, x, -, h1, h2, rfl⟩ | ⟨n, x, rest, -, h1, h2, rfl⟩ |
    ⟨j, st, -, h1, h2, h3, h3', h4, h5, rfl⟩ | ⟨j, x, id, seen, -, h1, rfl⟩ | ⟨j, x, id, i, q, -, h1, hq, rfl⟩ |
    ⟨-, h1, h2, rfl⟩ | ⟨n, e, q, -, h1, h2, h3, h4, h5, hq, rfl⟩
  · exact ⟨he, rfl, rfl, rfl, ⟨[], by simp⟩, rfl⟩
  · exact ⟨he, rfl, rfl, rfl, ⟨[], by simp⟩, rfl⟩
  · exact ⟨he, rfl, rfl, rfl, ⟨[], by simp⟩, rfl⟩
  · rw [inTime_snoc]
    by_cases hk : k = id
    · subst hk
      simp only [upd_same]
      exact ⟨he, rfl, rfl, rfl, ⟨[x], rfl⟩, by simp [he]⟩
    · simp only [upd_other s.qs _ hk, true_and]
      exact ⟨he, ⟨[], by simp⟩, by simp [show id ≠ k from fun h => hk h.symm]⟩
  · have := Q.store_same hq
    subst this
    by_cases hk : k = id
    · subst hk
      simp only [upd_same, true_and]
      exact ⟨he, ⟨[], by simp⟩, rfl⟩
    · simp only [upd_other s.qs _ hk, true_and]
      exact ⟨he, ⟨[], by simp⟩, rfl⟩
  · exact ⟨he, rfl, rfl, rfl, ⟨[], by simp⟩, rfl⟩
  · by_cases hk : k = n
    · subst hk
      exact absurd he h3
    · simp only [upd_other s.qs _ hk, true_and]
      exact ⟨he, ⟨[], by simp⟩, rfl⟩

theorem Step.pushed_le {size : Nat} {tf : Bool} {h : Handler α} {s s' : State α} {l : Label α}
    (hs : Step size tf h s l (.ok s')) (k : Nat) : (s.qs k).pushed.length ≤ (s'.qs k).pushed.length := by
  by_cases he : (s.qs k).pc = .ended
  · obtain ⟨_, _, _, _, ⟨l, hl⟩, _⟩ := hs.dead k he
    rw [hl, List.length_append]
    omega
  · exact (hs.lane k he).pushed_le.1

theorem Reach.ctl {b size : Nat} {tf : Bool} {h : Handler α} {G : State α → Label α → Prop} {s : State α}
    (hr : Reach b size tf h G s) : Ctl b size h s := by
  induction hr with
  | new => exact Ctl.new b size h
  | step s s' l _ _ hs ih => exact ih.step hs

/-- What holds of one queue while fewer than 2^64 items were pushed into it. -/
theorem Reach.queue {b size : Nat} (hb : 0 < b) {tf : Bool} {h : Handler α} {G : State α → Label α → Prop} {s : State α}
    (hr : Reach b size tf h G s) (k : Nat) (hw : (s.qs k).pushed.length < word) :
    ((s.qs k).pc ≠ .ended → QInv s.closed (s.qs k) (pendOf s.prod k)) ∧
    ((s.qs k).pc = .ended → (s.qs k).handled.length = (s.inTime k).length ∧
      ∀ v ∈ (s.qs k).handled, v ∈ (s.qs k).pushed) := by
  induction hr with
  | new => exact ⟨fun _ => QInv.new b hb _ fun _ => rfl, fun he => by cases he⟩
  | step s s' l hr hg hs ih =>
    have hle := hs.pushed_le k
    obtain ⟨i1, i2⟩ := ih (by omega)
    by_cases he : (s.qs k).pc = .ended
    · obtain ⟨d1, d2, _, _, ⟨l, d3⟩, d4⟩ := hs.dead k he
      refine ⟨fun hne => absurd d1 hne, fun _ => ?_⟩
      obtain ⟨j1, j2⟩ := i2 he
      rw [d2, d4]
      exact ⟨j1, fun v hv => by rw [d3]; exact List.mem_append_left _ (j2 v hv)⟩
    · have hq : QInv s'.closed (s'.qs k) (pendOf s'.prod k) := (hs.lane k he).inv (i1 he) hw
      refine ⟨fun _ => hq, fun he' => ⟨?_, hq.hmem⟩⟩
      have hc' := hr.ctl.step hs
      have q1 := (hq.ended he').2
      have q2 := hq.head
      have q3 := hq.tail
      have q4 := hc'.split k
      rw [he'] at q2
      simp only [Pc.taken] at q2
      -- the step that ends the worker adds nothing, so that nothing is late yet
      have hlate : s'.late k = [] := by
        rcases hs.cases_ok with ⟨p, x, -, h1, h2, rfl⟩ | ⟨n, x, rest, -, h1, h2, rfl⟩ |
          ⟨j, st, -, h1, h2, h3, h3', h4, h5, rfl⟩ | ⟨j, x, id, seen, -, h1, rfl⟩ | ⟨j, x, id, i, q, -, h1, hst, rfl⟩ |
          ⟨-, h1, h2, rfl⟩ | ⟨n, e, q, -, h1, h2, h3, h4, h5, hwk, rfl⟩
        · exact hr.ctl.alive k he
        · exact hr.ctl.alive k he
        · exact hr.ctl.alive k he
        · exfalso
          by_cases hk : k = id
          · subst hk
            simp only [upd_same] at he'
            exact he he'
          · simp only [upd_other s.qs _ hk] at he'
            exact he he'
        · exact hr.ctl.alive k he
        · exact hr.ctl.alive k he
        · exact hr.ctl.alive k he
      rw [hlate, List.append_nil] at q4
      rw [q4]
      omega

/-- The order in a queue that was not filled more than once. -/
theorem Reach.order {b size : Nat} (hb : 0 < b) {tf : Bool} {h : Handler α} {G : State α → Label α → Prop} {s : State α}
    (hr : Reach b size tf h G s) (k : Nat) (hw : (s.qs k).pushed.length < word) (hl : (s.qs k).pushed.length ≤ b) :
    ((s.qs k).pc ≠ .ended → FirstLap (s.qs k)) ∧
    (s.qs k).handled = (s.qs k).pushed.take (s.qs k).handled.length := by
  induction hr with
  | new => exact ⟨fun _ => FirstLap.new b, rfl⟩
  | step s s' l hr hg hs ih =>
    have hle := hs.pushed_le k
    obtain ⟨i1, i2⟩ := ih (by omega) (by omega)
    by_cases he : (s.qs k).pc = .ended
    · obtain ⟨d1, d2, _, _, ⟨l, d3⟩, d4⟩ := hs.dead k he
      refine ⟨fun hne => absurd d1 hne, ?_⟩
      have := congrArg List.length i2
      simp only [List.length_take] at this
      rw [d2, d3, List.take_append_of_le_length (by omega)]
      exact i2
    · have hf : FirstLap (s'.qs k) := (hs.lane k he).firstLap ((hr.queue hb k (by omega)).1 he) (i1 he) (by
        have := (hs.lane k he).pushed_le.2
        have h1 := hr.ctl.slots k
        simp only [lane] at this ⊢
        omega)
      exact ⟨fun _ => hf, hf.order⟩

/-! ### Counting -/

theorem perm_by_key {β : Type} (f : β → Nat) : ∀ (n : Nat) (l : List β), (∀ t ∈ l, f t < n) →
    ((List.range n).flatMap fun k => l.filter fun t => f t = k).Perm l
  | 0, l, hl => by
    cases l with
    | nil => simp
    | cons t l => exact absurd (hl t (by simp)) (by omega)
  | n + 1, l, hl => by
    have ih := perm_by_key f n (l.filter fun t => f t < n) fun t ht => by
      have := (List.mem_filter.1 ht).2
      simpa using this
    rw [List.range_succ, List.flatMap_append]
    have h1 : ((List.range n).flatMap fun k => (l.filter fun t => f t < n).filter fun t => f t = k) =
        (List.range n).flatMap fun k => l.filter fun t => f t = k := by
      refine flatMap_congr' fun k hk => ?_
      rw [List.filter_filter]
      refine List.filter_congr fun t _ => ?_
      have := List.mem_range.1 hk
      by_cases ht : f t = k
      · simp [ht, this]
      · simp [ht]
    rw [h1] at ih
    have h2 : (l.filter fun t => f t = n) = l.filter fun t => !decide (f t < n) := by
      refine List.filter_congr fun t ht => ?_
      have := hl t ht
      by_cases he : f t = n
      · simp [he]
      · have : f t < n := by omega
        simp [he, this]
    simp only [List.flatMap_cons, List.flatMap_nil, List.append_nil]
    rw [h2]
    exact (ih.append_right _).trans (List.filter_append_perm _ _)

/-- What was pushed comes from outside or from a handler. -/
theorem items_origin {s : State α} (hq : ∀ t ∈ s.log, ∀ m, t.from_ = some m → m < 8) :
    (s.given ++ (List.range 8).flatMap fun n => s.made n).Perm s.items := by
  have h1 := (perm_by_key (fun t : Entry α => t.from_.elim 8 id) 9 s.log (fun t ht => by
    cases hf : t.from_ with
    | none => simp
    | some m =>
      have := hq t ht m hf
      simp only [Option.elim_some, id]
      omega)).map Entry.item
  refine List.Perm.trans ?_ h1
  rw [List.map_flatMap, List.range_succ (n := 8), List.flatMap_append]
  refine List.perm_append_comm.trans ?_
  refine List.Perm.append ?_ ?_
  · refine List.Perm.of_eq (flatMap_congr' fun n hn => ?_)
    rw [State.made]
    congr 1
    refine List.filter_congr fun t _ => ?_
    have := List.mem_range.1 hn
    cases hf : t.from_ with
    | none =>
      have : ¬ 8 = n := by omega
      simp [this]
    | some m => exact decide_eq_decide.2 (by simp)
  · simp only [List.flatMap_cons, List.flatMap_nil, List.append_nil, State.given]
    refine List.Perm.of_eq ?_
    congr 1
    refine List.filter_congr fun t ht => ?_
    cases hf : t.from_ with
    | none => simp
    | some m =>
      have := hq t ht m hf
      have : ¬ m = 8 := by omega
      simp [this]

theorem filter_two {β : Type} (p q : β → Bool) (l : List β) (h : ∀ t ∈ l, p t = true → q t = false) :
    (l.filter p).length + (l.filter q).length ≤ l.length := by
  induction l with
  | nil => simp
  | cons t l ih =>
    have ih := ih fun t ht => h t (by simp [ht])
    have ht := h t (by simp)
    simp only [List.filter_cons]
    cases hp : p t with
    | true => rw [ht hp]; simp; omega
    | false => cases hq : q t <;> simp <;> omega

/-- No queue got more than all pushes together. -/
theorem Ctl.queue_le {b size : Nat} {h : Handler α} {s : State α} (hc : Ctl b size h s) (k : Nat) :
    (s.qs k).pushed.length ≤ s.log.length := by
  rw [← hc.split k, List.length_append, State.inTime, State.late, List.length_map, List.length_map]
  refine filter_two _ _ _ fun t _ h1 => ?_
  simp only [decide_eq_true_eq] at h1
  simp [h1.2]

theorem Ctl.queue_len {b size : Nat} {h : Handler α} {s : State α} (hc : Ctl b size h s) (k : Nat) :
    (s.qs k).pushed.length ≤ (s.log.filter fun t => t.q = k).length := by
  rw [← hc.split k, List.length_append, State.inTime, State.late, List.length_map, List.length_map]
  have := filter_two (fun t : Entry α => decide (t.late = false)) (fun t => decide (t.late = true))
    (s.log.filter fun t => t.q = k) fun t _ h1 => by simpa using h1
  rw [List.filter_filter, List.filter_filter] at this
  refine Nat.le_trans (Nat.le_of_eq ?_) this
  congr 2
  · refine List.filter_congr fun t _ => ?_
    by_cases a : t.q = k <;> cases hb : t.late <;> simp [a]
  · refine List.filter_congr fun t _ => ?_
    by_cases a : t.q = k <;> cases hb : t.late <;> simp [a]

/-- If the handlers add nothing once destruction has begun, nothing comes too late. -/
theorem Reach.punctual {b size : Nat} {tf : Bool} {h : Handler α} {s : State α} (hr : Reach b size tf h settled s) :
    ∀ t ∈ s.log, t.late = false := by
  induction hr with
  | new => simp [State.new]
  | step s s' l hr hg hs ih =>
    rcases hs.cases_ok with ⟨p, x, -, h1, h2, rfl⟩ | ⟨n, x, rest, -, h1, h2, rfl⟩ |
      ⟨j, st, -, h1, h2, h3, h3', h4, h5, rfl⟩ | ⟨j, x, id, seen, rfl, h1, rfl⟩ | ⟨j, x, id, i, q, -, h1, hst, rfl⟩ |
      ⟨-, h1, h2, rfl⟩ | ⟨n, e, q, -, h1, h2, h3, h4, h5, hwk, rfl⟩
    · exact ih
    · exact ih
    · exact ih
    · intro t ht
      rcases List.mem_append.1 ht with ht | ht
      · exact ih t ht
      · rw [List.mem_singleton] at ht
        subst ht
        simp only [decide_eq_false_iff_not]
        intro he
        have := hr.ctl.ended id (.inr he)
        simp only [settled] at hg
        rw [hg] at this
        cases this
    · exact ih
    · exact ih
    · exact ih

/-! ### Schedules -/

/-- Take a step in which at most the first `m` threads outside push. -/
def fire (size : Nat) (tf : Bool) (h : Handler α) (m : Nat) (s : State α) : Label α → Option (State α)
  | .start p x =>
    match s.prod (2 * p + 1) with
    | .idle => if p < m ∧ s.closed = false then
        some { s with prod := upd s.prod (2 * p + 1) (.scan x 0 (intMax, 0) []) } else none
    | _ => none
  | .begin n =>
    match s.todo n, s.prod (2 * n) with
    | x :: rest, .idle =>
      some { s with
              prod := upd s.prod (2 * n) (.scan x 0 (intMax, 0) [])
              todo := upd s.todo n rest }
    | _, _ => none
  | .scan j =>
    match s.prod j with
    | .scan x k acc seen =>
      some { s with
              prod := upd s.prod j
                (.read x k (if tf then (s.qs k).tail else (s.qs k).head) acc seen) }
    | .read x k v acc seen =>
      some { s with
              prod := upd s.prod j (nextScan x k
                (if tf then (v + word - (s.qs k).head) % word else ((s.qs k).tail + word - v) % word)
                acc seen) }
    | _ => none
  | .claim j =>
    match s.prod j with
    | .chosen x id _ =>
      some { s with
              qs := upd s.qs id ((s.qs id).claim x)
              prod := upd s.prod j (.claimed x id (s.qs id).tail)
              log := s.log ++ [⟨origin j, id, x, decide ((s.qs id).pc = .ended)⟩] }
    | _ => none
  | .store j =>
    match s.prod j with
    | .claimed x id i =>
      match (s.qs id).store i x with
      | .ok q => some { s with qs := upd s.qs id q, prod := upd s.prod j .idle }
      | _ => none
    | _ => none
  | .close =>
    if s.closed = false ∧ (List.range m).all (fun p => match s.prod (2 * p + 1) with
      | .idle => true
      | _ => false) then some { s with closed := true } else none
  | .work n e =>
    match s.todo n, s.prod (2 * n) with
    | [], .idle =>
      if n < size ∧ n < 8 ∧ (s.qs n).pc ≠ .ended then
        match (s.qs n).work s.closed e with
        | .ok q =>
          some { s with
                  qs := upd s.qs n q
                  todo := upd s.todo n (asked (h n) (s.qs n)) }
        | _ => none
      else none
    | _, _ => none

theorem fire_step {size : Nat} {tf : Bool} {h : Handler α} {m : Nat} {s s' : State α} {l : Label α}
    (hi : ∀ p, m ≤ p → s.prod (2 * p + 1) = .idle) (hf : fire size tf h m s l = some s') :
    Step size tf h s l (.ok s') ∧ ∀ p, m ≤ p → s'.prod (2 * p + 1) = .idle := by
  have keep : ∀ (j : Nat) (st : Prod α), s.prod j ≠ .idle → ∀ p, m ≤ p →
      upd s.prod j st (2 * p + 1) = .idle := by
    intro j st hj p hp
    rw [upd_other _ _ (fun e : 2 * p + 1 = j => hj (e ▸ hi p hp))]
    exact hi p hp
  cases l with
  | start p x =>
    simp only [fire] at hf
    split at hf
    · rename_i hp
      split at hf
      · rename_i hc
        cases hf
        refine ⟨.start s p x hc.2 hp, fun p' hp' => ?_⟩
        simp only
        rw [upd_other _ _ (by omega)]
        exact hi p' hp'
      · cases hf
    · cases hf
  | begin n =>
    simp only [fire] at hf
    split at hf
    · rename_i x rest h1 h2
      cases hf
      refine ⟨.begin s n x rest h1 h2, fun p' hp' => ?_⟩
      simp only
      rw [upd_other _ _ (by omega)]
      exact hi p' hp'
    · cases hf
  | scan j =>
    simp only [fire] at hf
    split at hf
    · rename_i x k acc seen hp
      cases hf
      exact ⟨.scan s j x k acc seen hp, keep j _ (by simp [hp])⟩
    · rename_i x k v acc seen hp
      cases hf
      exact ⟨.read s j x k v acc seen hp, keep j _ (by simp [hp])⟩
    · cases hf
  | claim j =>
    simp only [fire] at hf
    split at hf
    · rename_i x id seen hp
      cases hf
      exact ⟨.claim s j x id seen hp, keep j _ (by simp [hp])⟩
    · cases hf
  | store j =>
    simp only [fire] at hf
    split at hf
    · rename_i x id i hp
      split at hf
      · rename_i q hq
        cases hf
        have := Step.store (size := size) (tailFirst := tf) (h := h) s j x id i hp
        rw [hq] at this
        exact ⟨this, keep j _ (by simp [hp])⟩
      · cases hf
    · cases hf
  | close =>
    simp only [fire] at hf
    split at hf
    · rename_i hc
      cases hf
      refine ⟨.close s hc.1 fun p => ?_, hi⟩
      by_cases hp : m ≤ p
      · exact hi p hp
      · have := hc.2
        simp only [List.all_eq_true, List.mem_range] at this
        have := this p (by omega)
        split at this
        · assumption
        · cases this
    · cases hf
  | work n e =>
    simp only [fire] at hf
    split at hf
    · rename_i h1 h2
      split at hf
      · rename_i hc
        split at hf
        · rename_i q hq
          cases hf
          have := Step.work (size := size) (tailFirst := tf) (h := h) s n e hc.1 hc.2.2 h1 h2
          rw [if_pos hc.2.1, hq] at this
          exact ⟨this, hi⟩
        · cases hf
      · cases hf
    · cases hf

/-- Follow a schedule whose steps pass the check `g`. -/
def follow (size : Nat) (tf : Bool) (h : Handler α) (m : Nat) (g : State α → Label α → Bool) :
    State α → List (Label α) → Option (State α)
  | s, [] => some s
  | s, l :: ls =>
    match g s l, fire size tf h m s l with
    | true, some s' => follow size tf h m g s' ls
    | _, _ => none

theorem follow_reach {b size : Nat} {tf : Bool} {h : Handler α} {m : Nat} {G : State α → Label α → Prop}
    {g : State α → Label α → Bool} (hg : ∀ s l, g s l = true → G s l) {s s' : State α} (ls : List (Label α))
    (hr : Reach b size tf h G s) (hi : ∀ p, m ≤ p → s.prod (2 * p + 1) = .idle)
    (hf : follow size tf h m g s ls = some s') : Reach b size tf h G s' := by
  induction ls generalizing s with
  | nil => cases hf; exact hr
  | cons l ls ih =>
    rw [follow] at hf
    split at hf
    · rename_i s1 hg1 h1
      obtain ⟨hs, hi'⟩ := fire_step hi h1
      exact ih (.step s s1 l hr (hg s l hg1) hs) hi' hf
    · cases hf

/-- A schedule as a witness. -/
theorem follow_ex {b size : Nat} {tf : Bool} {h : Handler α} {P : State α → Prop} [DecidablePred P] (m : Nat)
    (ls : List (Label α))
    (hf : (follow size tf h m (fun _ _ => true) (State.new b) ls).any (fun s => decide (P s)) = true) :
    ∃ s, Reach b size tf h anyStep s ∧ P s := by
  cases hs : follow size tf h m (fun _ _ => true) (State.new b) ls with
  | none => rw [hs] at hf; cases hf
  | some s =>
    rw [hs] at hf
    exact ⟨s, follow_reach (fun _ _ _ => trivial) ls .new (fun _ _ => rfl) hs, by simpa using hf⟩

/-- A schedule in which no push happens after destruction has begun. -/
theorem follow_settled {b size : Nat} {tf : Bool} {h : Handler α} {P : State α → Prop} [DecidablePred P] (m : Nat)
    (ls : List (Label α))
    (hf : (follow size tf h m (fun s l => match l with
      | .claim _ => !s.closed
      | _ => true) (State.new b) ls).any (fun s => decide (P s)) = true) :
    ∃ s, Reach b size tf h settled s ∧ P s := by
  cases hs : follow size tf h m (fun s l => match l with
      | .claim _ => !s.closed
      | _ => true) (State.new b) ls with
  | none => rw [hs] at hf; cases hf
  | some s =>
    rw [hs] at hf
    refine ⟨s, follow_reach (fun s l hg => ?_) ls .new (fun _ _ => rfl) hs, by simpa using hf⟩
    cases l <;> simp only [settled]
    simpa using hg

namespace Ex

/-- A whole push by thread `p` outside. -/
def push (p x : Nat) : List (Label Nat) :=
  [.start p x] ++ List.replicate 16 (.scan (2 * p + 1)) ++ [.claim (2 * p + 1), .store (2 * p + 1)]

/-- A whole push by the handler called by worker `n`. -/
def back (n : Nat) : List (Label Nat) :=
  [.begin n] ++ List.replicate 16 (.scan (2 * n)) ++ [.claim (2 * n), .store (2 * n)]

/-- `k` steps of worker `n`. -/
def w (n k : Nat) : List (Label Nat) := List.replicate k (.work n 0)

/-- A handler that splits 10 into 4 and 6. -/
def split : Handler Nat := fun _ x => if x = 10 then [4, 6] else []

/-- A handler that counts on. -/
def next : Handler Nat := fun _ x => [x + 1]

end Ex

/-! ### C120 -/

/-- C120: a push by a handler into its own pool is never undefined, also while the pool is being destroyed and also if the worker
of the queue it chooses has ended; with at most eight workers and fewer than 2^64 pushes no step is, but for the sums of the
statistics. -/
theorem C120_safe {b size : Nat} (hb : 0 < b) (hsz : size ≤ 8) {tf : Bool} {h : Handler α} {s : State α}
    (hr : Reach b size tf h anyStep s) (hw : s.log.length < 2 ^ 64) {l : Label α} (hs : Step size tf h s l .ub) :
    ∃ n e, l = .work n e ∧ (timeForUnit (s.qs n).stat = .ub ∨ bufferUtilization (s.qs n).stat = .ub) := by
  have hc := hr.ctl
  generalize hres : (Res.ub : Res (State α)) = r at hs
  cases hs with
  | start => cases hres
  | begin => cases hres
  | scan => cases hres
  | read => cases hres
  | claim => cases hres
  | close => cases hres
  | store j x id i h1 =>
    have hl := hc.slots id
    rw [Q.store, if_pos (Nat.mod_lt _ (by omega))] at hres
    cases hres
  | work n e h1 h2 h3 h4 =>
    refine ⟨n, e, rfl, ?_⟩
    have hq := (hr.queue hb n (Nat.lt_of_le_of_lt (hc.queue_le n) hw)).1 h2
    rw [if_pos (by omega)] at hres
    have hub : (s.qs n).work s.closed e = .ub := by
      cases hk : (s.qs n).work s.closed e with
      | ub => rfl
      | ok q => rw [hk] at hres; cases hres
      | hang => rw [hk] at hres; cases hres
    clear hres
    unfold Q.work at hub
    split at hub
    · cases hub
    · cases hub
    · cases hub
    · rename_i hpc
      have hlt := Nat.mod_lt (s.qs n).head hq.len
      rcases hv : (s.qs n).slots[(s.qs n).head % (s.qs n).slots.length]? with _ | _ | v
      · rw [List.getElem?_eq_none_iff] at hv
        omega
      · rw [hv] at hub; cases hub
      · rw [hv] at hub; cases hub
    · cases hub
    · rename_i i hpc
      obtain ⟨v, hv⟩ := hq.readyCall i hpc
      rw [hv] at hub
      simp only at hub
      cases ht : timeForUnit (s.qs n).stat with
      | ub => exact .inl rfl
      | hang => rw [ht] at hub; cases hub
      | ok t =>
        cases hu : bufferUtilization (s.qs n).stat with
        | ub => exact .inr rfl
        | hang => rw [ht, hu] at hub; cases hub
        | ok u => rw [ht, hu] at hub; cases hub
    · cases hub
    · rename_i hpc
      exact absurd hpc h2

/-- A handler called during destruction is about to push, and the worker of queue 1 has ended. -/
example : ∃ s, Reach 4 8 true Ex.split anyStep s ∧ s.closed = true ∧ s.todo 0 = [4, 6] ∧ (s.qs 1).pc = .ended :=
  follow_ex 1 (Ex.push 0 10 ++ [.close] ++ Ex.w 0 6 ++ Ex.w 1 2) (by decide +kernel)

/-- C120: a worker that has ended handled as many items as were pushed into its queue before, every one of them an item of
this queue; its handler made all the pushes that its items ask for, in their order. -/
theorem C120_ended {b size : Nat} (hb : 0 < b) {tf : Bool} {h : Handler α} {s : State α} (hr : Reach b size tf h anyStep s)
    (hw : s.log.length < 2 ^ 64) {n : Nat} (he : (s.qs n).pc = .ended) :
    s.closed = true ∧
    (s.qs n).handled.length = (s.log.filter fun t => t.q = n ∧ t.late = false).length ∧
    (∀ v ∈ (s.qs n).handled, ∃ t ∈ s.log, t.q = n ∧ t.item = v) ∧
    (s.log.filter fun t => t.from_ = some n).map Entry.item = (s.qs n).handled.flatMap (h n) := by
  have hc := hr.ctl
  obtain ⟨h1, h2⟩ := (hr.queue hb n (Nat.lt_of_le_of_lt (hc.queue_le n) hw)).2 he
  refine ⟨hc.ended n (.inr he), ?_, fun v hv => ?_, ?_⟩
  · rw [h1, State.inTime, List.length_map]
  · have := h2 v hv
    rw [← hc.split n, List.mem_append, State.inTime, State.late, List.mem_map, List.mem_map] at this
    rcases this with ⟨t, ht, rfl⟩ | ⟨t, ht, rfl⟩
    · rw [List.mem_filter] at ht
      exact ⟨t, ht.1, (of_decide_eq_true ht.2).1, rfl⟩
    · rw [List.mem_filter] at ht
      exact ⟨t, ht.1, (of_decide_eq_true ht.2).1, rfl⟩
  · have hm := hc.made n
    have hbusy : s.todo n = [] ∧ s.prod (2 * n) = .idle := by
      refine ⟨Classical.byContradiction fun h0 => ?_, Classical.byContradiction fun h0 => ?_⟩
      · have := (hc.busy n (.inl h0)).2.2
        rw [he] at this
        cases this
      · have := (hc.busy n (.inr h0)).2.2
        rw [he] at this
        cases this
    rw [hbusy.1, hbusy.2] at hm
    simpa [Prod.coming, State.made] using hm

/-- The handler splits 10 during destruction, the worker still handles the parts that went into its queue. -/
example : ∃ s, Reach 4 8 true Ex.split anyStep s ∧ (s.qs 0).pc = .ended ∧ (s.qs 0).handled = [10, 4] ∧
    s.log = [⟨none, 0, 10, false⟩, ⟨some 0, 0, 4, false⟩, ⟨some 0, 1, 6, false⟩] :=
  follow_ex 1 (Ex.push 0 10 ++ [.close] ++ Ex.w 0 6 ++ Ex.back 0 ++ Ex.back 0 ++ Ex.w 0 9) (by decide +kernel)

/-- C120, for queues that are not filled more than once: a worker that has ended handled exactly what was pushed into its queue
before, in this order.  What is missing: queues that wrap around, where an item may be overwritten as in
`C59_overrun_refuted`. -/
theorem C120_order_partial {b size : Nat} (hb : 0 < b) {tf : Bool} {h : Handler α} {s : State α}
    (hr : Reach b size tf h anyStep s) (hw : s.log.length < 2 ^ 64) {n : Nat} (he : (s.qs n).pc = .ended)
    (hl : (s.log.filter fun t => t.q = n).length ≤ b) :
    (s.qs n).handled = (s.log.filter fun t => t.q = n ∧ t.late = false).map Entry.item := by
  have hc := hr.ctl
  have hpw := Nat.lt_of_le_of_lt (hc.queue_le n) hw
  have hpl : (s.qs n).pushed.length ≤ b := Nat.le_trans (hc.queue_len n) hl
  have h1 := (hr.order hb n hpw hpl).2
  have h2 := ((hr.queue hb n hpw).2 he).1
  rw [h2, ← hc.split n, List.take_left' rfl] at h1
  exact h1

example : ∃ s, Reach 4 8 true Ex.split anyStep s ∧ (s.qs 0).pc = .ended ∧ (s.qs 0).handled = [10, 4] ∧
    (s.log.filter fun t => t.q = 0).length ≤ 4 :=
  follow_ex 1 (Ex.push 0 10 ++ [.close] ++ Ex.w 0 6 ++ Ex.back 0 ++ Ex.back 0 ++ Ex.w 0 9) (by decide +kernel)

/-- C120: a push that finds the worker of its queue ended is one of a handler called by another worker, and the pool is being
destroyed.  So a worker never misses what its own handler or a thread outside pushes into its queue. -/
theorem C120_late {b size : Nat} {tf : Bool} {h : Handler α} {s : State α} (hr : Reach b size tf h anyStep s) {t : Entry α}
    (ht : t ∈ s.log) (hlate : t.late = true) : s.closed = true ∧ ∃ m, m < 8 ∧ t.from_ = some m ∧ m ≠ t.q := by
  obtain ⟨_, h2, h3⟩ := hr.ctl.entry t ht
  obtain ⟨h4, m, h5, h6⟩ := h2 hlate
  exact ⟨h4, m, (h3 m h5).2, h5, h6⟩

example : ∃ s, Reach 4 8 true Ex.split anyStep s ∧ s.closed = true ∧ ⟨some 0, 1, 6, true⟩ ∈ s.log :=
  follow_ex 1 (Ex.push 0 10 ++ [.close] ++ Ex.w 0 6 ++ Ex.w 1 2 ++ Ex.back 0 ++ Ex.back 0) (by decide +kernel)

/-! ### C121 -/

/-- When each worker handled what came in time for it, nothing is missing but what came too late. -/
theorem accounted {b : Nat} (hb : 0 < b) {tf : Bool} {h : Handler α} {s : State α}
    (hr : Reach b 8 tf h anyStep s) (hw : s.log.length < 2 ^ 64) (he : ∀ n, n < 8 → (s.qs n).pc = .ended)
    (hord : ∀ n, n < 8 → (s.qs n).handled = (s.log.filter fun t => t.q = n ∧ t.late = false).map Entry.item) :
    (((List.range 8).flatMap fun n => (s.qs n).handled) ++ (s.log.filter fun t => t.late = true).map Entry.item).Perm
      (s.log.map Entry.item) ∧
    ((s.log.filter fun t => t.from_ = none).map Entry.item ++
      (List.range 8).flatMap fun n => (s.qs n).handled.flatMap (h n)).Perm (s.log.map Entry.item) := by
  have hc := hr.ctl
  have hq8 : ∀ t ∈ s.log, t.q < 8 := fun t ht => (hc.entry t ht).1
  constructor
  · have e1 : ((List.range 8).flatMap fun n => (s.qs n).handled) =
        (List.range 8).flatMap fun n => (s.log.filter fun t => t.q = n ∧ t.late = false).map Entry.item :=
      flatMap_congr' fun n hn => hord n (List.mem_range.1 hn)
    have e2 : ((List.range 8).flatMap fun n => (s.log.filter fun t => t.q = n ∧ t.late = false).map Entry.item).Perm
        ((s.log.filter fun t => t.late = false).map Entry.item) := by
      have := (perm_by_key Entry.q 8 (s.log.filter fun t => t.late = false) fun t ht =>
        hq8 t (List.mem_filter.1 ht).1).map Entry.item
      rw [List.map_flatMap] at this
      refine List.Perm.trans (List.Perm.of_eq (flatMap_congr' fun n _ => ?_)) this
      rw [List.filter_filter]
      congr 1
      refine List.filter_congr fun t _ => ?_
      by_cases a : t.q = n <;> cases hb : t.late <;> simp [a]
    rw [e1]
    refine (e2.append_right _).trans ?_
    rw [← List.map_append]
    refine List.Perm.map _ ?_
    have := List.filter_append_perm (fun t : Entry α => decide (t.late = false)) s.log
    refine List.Perm.trans (List.Perm.of_eq ?_) this
    congr 1
    refine List.filter_congr fun t _ => ?_
    cases hb : t.late <;> simp
  · have := items_origin fun t ht m hm => ((hc.entry t ht).2.2 m hm).2
    refine List.Perm.trans (List.Perm.of_eq ?_) this
    rw [State.given]
    congr 1
    refine flatMap_congr' fun n hn => ?_
    exact (C120_ended hb hr hw (he n (List.mem_range.1 hn))).2.2.2.symm

/-- C121, for `PoolSize = 8` and queues not filled more than once: when all workers have ended, the items handled together with
those that came too late for their worker are the items pushed, each as often as it was pushed, and the items pushed are those
pushed from outside and those that the handlers made of the items handled.  What is missing: the items that came too late
are lost, see `C121_lost_refuted`; other pool sizes and queues that wrap around, see `C59_fewer_refuted` and
`C59_overrun_refuted`. -/
theorem C121_accounted_partial {b : Nat} (hb : 0 < b) {tf : Bool} {h : Handler α} {s : State α}
    (hr : Reach b 8 tf h anyStep s) (hw : s.log.length < 2 ^ 64) (he : ∀ n, n < 8 → (s.qs n).pc = .ended)
    (hl : ∀ n, n < 8 → (s.log.filter fun t => t.q = n).length ≤ b) :
    (((List.range 8).flatMap fun n => (s.qs n).handled) ++ (s.log.filter fun t => t.late = true).map Entry.item).Perm
      (s.log.map Entry.item) ∧
    ((s.log.filter fun t => t.from_ = none).map Entry.item ++
      (List.range 8).flatMap fun n => (s.qs n).handled.flatMap (h n)).Perm (s.log.map Entry.item) :=
  accounted hb hr hw he fun n hn => C120_order_partial hb hr hw (he n hn) (hl n hn)

/-- Ten and its parts, one of which came too late. -/
example : ∃ s, Reach 4 8 true Ex.split anyStep s ∧ (∀ n, n < 8 → (s.qs n).pc = .ended) ∧
    (∀ n, n < 8 → (s.log.filter fun t => t.q = n).length ≤ 4) ∧
    s.log = [⟨none, 0, 10, false⟩, ⟨some 0, 0, 4, false⟩, ⟨some 0, 1, 6, true⟩] :=
  follow_ex 1 (Ex.push 0 10 ++ [.close] ++ Ex.w 0 6 ++ Ex.w 1 2 ++ Ex.back 0 ++ Ex.back 0 ++ Ex.w 0 9 ++
    (List.range 6).flatMap fun n => Ex.w (n + 2) 2) (by decide +kernel)

/-- C121, if in addition no handler pushes once destruction has begun: everything pushed, from outside and by handlers, was
handled, each item as often as it was pushed.  What is missing: see `C121_accounted_partial`. -/
theorem C121_settled_partial {b : Nat} (hb : 0 < b) {tf : Bool} {h : Handler α} {s : State α}
    (hr : Reach b 8 tf h settled s) (hw : s.log.length < 2 ^ 64) (he : ∀ n, n < 8 → (s.qs n).pc = .ended)
    (hl : ∀ n, n < 8 → (s.log.filter fun t => t.q = n).length ≤ b) :
    ((List.range 8).flatMap fun n => (s.qs n).handled).Perm
      ((s.log.filter fun t => t.from_ = none).map Entry.item ++
        (List.range 8).flatMap fun n => (s.qs n).handled.flatMap (h n)) := by
  obtain ⟨h1, h2⟩ := C121_accounted_partial hb (hr.mono fun _ _ _ => trivial) hw he hl
  have h3 : (s.log.filter fun t => t.late = true) = [] := by
    rw [List.filter_eq_nil_iff]
    intro t ht
    simp [hr.punctual t ht]
  rw [h3, List.map_nil, List.append_nil] at h1
  exact h1.trans h2.symm

/-- Ten is split before destruction begins; its parts are handled during destruction. -/
example : ∃ s, Reach 4 8 true Ex.split settled s ∧ (∀ n, n < 8 → (s.qs n).pc = .ended) ∧
    (∀ n, n < 8 → (s.log.filter fun t => t.q = n).length ≤ 4) ∧
    (s.qs 0).handled = [10, 4] ∧ (s.qs 1).handled = [6] :=
  follow_settled 1 (Ex.push 0 10 ++ Ex.w 0 5 ++ Ex.back 0 ++ Ex.back 0 ++ [.close] ++ Ex.w 0 9 ++ Ex.w 1 10 ++
    (List.range 6).flatMap fun n => Ex.w (n + 2) 2) (by decide +kernel)

/-- C121 refuted: the handler is called during destruction and splits its item; one part goes into a queue whose worker has
found nothing to do and has ended.  All workers end, and this part was never handled. -/
theorem C121_lost_refuted (tf : Bool) : ∃ s, Reach 4 8 tf Ex.split anyStep s ∧ (∀ n, n < 8 → (s.qs n).pc = .ended) ∧
    s.log.map Entry.item = [10, 4, 6] ∧ ((List.range 8).flatMap fun n => (s.qs n).handled) = [10, 4] := by
  refine follow_ex 1 (Ex.push 0 10 ++ [.close] ++ Ex.w 0 6 ++ Ex.w 1 2 ++ Ex.back 0 ++ Ex.back 0 ++ Ex.w 0 9 ++
    (List.range 6).flatMap fun n => Ex.w (n + 2) 2) ?_
  revert tf
  decide +kernel

/-! ### C122 -/

/-- The producer has looked at queue 0 and did not find it empty. -/
def _root_.Verif.Pipeline.Pool.Prod.far : Prod α → Prop
  | .scan _ k acc _ => 0 < k ∧ acc ≠ (0, 0)
  | .read _ k _ acc _ => 0 < k ∧ acc ≠ (0, 0)
  | .chosen _ id _ => id ≠ 0
  | _ => False

/-- The producer begins with the largest `int`, and of a queue 0 without a push it has read nothing else but 0. -/
def _root_.Verif.Pipeline.Pool.Prod.near (q : Q α) : Prod α → Prop
  | .scan _ k acc _ => k = 0 → acc = (intMax, 0)
  | .read _ k v acc _ => k = 0 → acc = (intMax, 0) ∧ (q.pushed = [] → v = 0)
  | _ => True

theorem minStep_zero {acc : Nat × Nat} {k size : Nat} (hk : 0 < k) (h : minStep acc k size ≠ (0, 0)) : acc ≠ (0, 0) := by
  rintro rfl
  exact h (by simp [minStep])

theorem minStep_first {size : Nat} (h : minStep (intMax, 0) 0 size ≠ (0, 0)) : size ≠ 0 := by
  rintro rfl
  exact h (by simp [minStep, intMax])

theorem minStep_snd {acc : Nat × Nat} {k size : Nat} (h : (minStep acc k size).2 ≠ 0) : minStep acc k size ≠ (0, 0) := by
  intro h0
  rw [h0] at h
  exact h rfl

theorem nextScan_far {x : α} {k size : Nat} {acc : Nat × Nat} {seen : List Nat} (h : (nextScan x k size acc seen).far) :
    minStep acc k size ≠ (0, 0) := by
  unfold nextScan at h
  split at h
  · exact h.2
  · exact minStep_snd h

theorem nextScan_near (q : Q α) (x : α) (k size : Nat) (acc : Nat × Nat) (seen : List Nat) :
    (nextScan x k size acc seen).near q := by
  unfold nextScan
  split
  · intro h; omega
  · trivial

theorem Prod.near_mono {q q' : Q α} (h : q'.pushed = [] → q.pushed = []) : ∀ {st : Prod α}, st.near q → st.near q'
  | .idle, _ => trivial
  | .scan .., hn => hn
  | .read .., hn => fun hk => ⟨(hn hk).1, fun he => (hn hk).2 (h he)⟩
  | .chosen .., _ => trivial
  | .claimed .., _ => trivial

/-- While every call of worker 0 pushes something: queue 0 got the first item, and worker 0 always has something left to do. -/
structure Busy (tf : Bool) (s : State α) : Prop where
  first : s.log ≠ [] → (s.qs 0).pushed ≠ []
  zero : (s.qs 0).pushed = [] → (s.qs 0).tail = 0 ∧ (s.qs 0).head = 0
  near : ∀ j, (s.prod j).near (s.qs 0)
  own : ∀ x v acc seen, s.prod 0 = .read x 0 v acc seen →
    if tf then (s.qs 0).head ≤ v ∧ v ≤ (s.qs 0).tail else v = (s.qs 0).head
  far : ∀ j, (s.prod j).far → (s.qs 0).pushed ≠ []
  left : (s.prod 0).far → (s.qs 0).head < (s.qs 0).tail
  goes : (s.qs 0).pushed ≠ [] → (∃ i, (s.qs 0).pc = .call i) ∨ s.todo 0 ≠ [] ∨ (s.prod 0).coming ≠ [] ∨
    (s.qs 0).head < (s.qs 0).tail
  pc : s.log ≠ [] → (s.qs 0).pc ≠ .ended

/-- A step of worker 0. -/
theorem work_busy {c : Bool} {e : Int} {q q' : Q α} {pend : Nat → Option (Nat × α)} {h : α → List α} (hh : ∀ x, h x ≠ [])
    (hi : QInv c q pend) (hne : q.pc ≠ .ended) (hwk : q.work c e = .ok q')
    (hgo : q.pushed ≠ [] → (∃ i, q.pc = .call i) ∨ q.head < q.tail) :
    q'.pushed = q.pushed ∧ q'.tail = q.tail ∧ (q.pushed = [] → q'.head = q.head) ∧
    (q.pushed ≠ [] → q'.pc ≠ .ended ∧ ((∃ i, q'.pc = .call i) ∨ asked h q ≠ [] ∨ q'.head < q'.tail)) := by
  have h1 := hi.le
  have h2 := hi.small
  have h3 := hi.tail
  have hlen : q.pushed = [] → q.tail = 0 := fun h0 => by rw [h3, h0]; rfl
  unfold Q.work at hwk
  split at hwk
  · rename_i hpc
    cases hwk
    refine ⟨rfl, rfl, fun _ => rfl, fun hp => ⟨by simp only; split <;> simp, .inr (.inr ?_)⟩⟩
    rcases hgo hp with ⟨i, hc⟩ | hlt
    · rw [hpc] at hc; cases hc
    · exact hlt
  · rename_i hpc
    cases hwk
    have key : q.pushed ≠ [] → q.head < q.tail := fun hp => by
      rcases hgo hp with ⟨i, hc⟩ | hlt
      · rw [hpc] at hc; cases hc
      · exact hlt
    refine ⟨rfl, rfl, fun _ => rfl, fun hp => ⟨?_, .inr (.inr (key hp))⟩⟩
    have hlt := key hp
    have : (q.tail + word - q.head) % word > 0 := by
      have : q.tail + word - q.head = q.tail - q.head + word := by omega
      rw [this, Nat.add_mod_right, Nat.mod_eq_of_lt (by omega)]
      omega
    simp only [if_pos this]
    simp
  · rename_i hpc
    cases hwk
    refine ⟨rfl, rfl, fun _ => rfl, fun hp => ⟨by simp only; split <;> simp, .inr (.inr ?_)⟩⟩
    rcases hgo hp with ⟨i, hc⟩ | hlt
    · rw [hpc] at hc; cases hc
    · exact hlt
  · rename_i hpc
    have key : q.pushed ≠ [] → q.head < q.tail := fun hp => by
      rcases hgo hp with ⟨i, hc⟩ | hlt
      · rw [hpc] at hc; cases hc
      · exact hlt
    split at hwk
    · cases hwk
      exact ⟨rfl, rfl, fun _ => rfl, fun hp => ⟨by simp, .inr (.inr (key hp))⟩⟩
    · cases hwk
      exact ⟨rfl, rfl, fun _ => rfl, fun hp => ⟨by simp, .inr (.inr (key hp))⟩⟩
    · cases hwk
  · rename_i hpc
    cases hwk
    have := hi.busy (.inr hpc)
    refine ⟨rfl, rfl, fun h0 => ?_, fun _ => ⟨by simp, .inl ⟨_, rfl⟩⟩⟩
    have := hlen h0
    omega
  · rename_i i hpc
    obtain ⟨v, hv⟩ := hi.readyCall i hpc
    rw [hv] at hwk
    simp only at hwk
    cases ht : timeForUnit q.stat with
    | ub => rw [ht] at hwk; cases hwk
    | hang => rw [ht] at hwk; cases hwk
    | ok t =>
      cases hu : bufferUtilization q.stat with
      | ub => rw [ht, hu] at hwk; cases hwk
      | hang => rw [ht, hu] at hwk; cases hwk
      | ok u =>
        rw [ht, hu] at hwk
        cases hwk
        refine ⟨rfl, rfl, fun _ => rfl, fun _ => ⟨by simp, .inr (.inl ?_)⟩⟩
        simp only [asked, hpc, hv]
        exact hh v
  · rename_i hpc
    cases hwk
    refine ⟨rfl, rfl, fun _ => rfl, fun hp => ⟨by simp, .inr (.inr ?_)⟩⟩
    rcases hgo hp with ⟨i, hc⟩ | hlt
    · rw [hpc] at hc; cases hc
    · exact hlt
  · rename_i hpc
    exact absurd hpc hne

theorem Reach.endless {b size : Nat} (hb : 0 < b) {tf : Bool} {h : Handler α} (hh : ∀ x, h 0 x ≠ [])
    {G : State α → Label α → Prop} {s : State α} (hr : Reach b size tf h G s) (hw : s.log.length < 2 ^ 64) : Busy tf s := by
  induction hr with
  | new => constructor <;> simp [State.new, Q.new, Prod.near, Prod.far]
  | step s s' l hr hg hs ih =>
    have hc := hr.ctl
    have hc' := hc.step hs
    generalize hres : Res.ok s' = r at hs
    cases hs with
    | start p x h1 h2 =>
      cases hres
      have ih := ih hw
      have h0 : upd s.prod (2 * p + 1) (.scan x 0 (intMax, 0) []) 0 = s.prod 0 := upd_other _ _ (by omega)
      refine ⟨ih.first, ih.zero, fun j => ?_, ?_, fun j => ?_, ?_, ?_, ih.pc⟩
      · exact upd_cases (fun st : Prod α => st.near (s.qs 0)) _ _ _ _ (fun _ _ => rfl) fun _ => ih.near j
      · simp only [h0]; exact ih.own
      · exact upd_cases (fun st : Prod α => st.far → (s.qs 0).pushed ≠ []) _ _ _ _
          (fun _ hf => absurd hf.1 (by omega)) fun _ => ih.far j
      · simp only [h0]; exact ih.left
      · simp only [h0]; exact ih.goes
    | begin n x rest h1 h2 =>
      cases hres
      have ih := ih hw
      refine ⟨ih.first, ih.zero, fun j => ?_, ?_, fun j => ?_, ?_, ?_, ih.pc⟩
      · exact upd_cases (fun st : Prod α => st.near (s.qs 0)) _ _ _ _ (fun _ _ => rfl) fun _ => ih.near j
      · refine upd_cases (fun st : Prod α => ∀ x v acc seen, st = .read x 0 v acc seen →
          if tf then (s.qs 0).head ≤ v ∧ v ≤ (s.qs 0).tail else v = (s.qs 0).head) _ _ _ _ (fun _ => ?_) fun _ => ih.own
        intro _ _ _ _ h0
        cases h0
      · exact upd_cases (fun st : Prod α => st.far → (s.qs 0).pushed ≠ []) _ _ _ _
          (fun _ hf => absurd hf.1 (by omega)) fun _ => ih.far j
      · exact upd_cases (fun st : Prod α => st.far → (s.qs 0).head < (s.qs 0).tail) _ _ _ _
          (fun _ hf => absurd hf.1 (by omega)) fun _ => ih.left
      · intro hp
        by_cases hn : n = 0
        · subst hn
          refine .inr (.inr (.inl ?_))
          simp only [Nat.mul_zero, upd_same]
          simp [Prod.coming]
        · simp only [upd_other s.prod _ (show 0 ≠ 2 * n by omega), upd_other s.todo _ (show 0 ≠ n by omega)]
          exact ih.goes hp
    | scan j x k acc seen h1 =>
      cases hres
      have ih := ih hw
      have hn := ih.near j
      have hf := ih.far j
      rw [h1] at hn hf
      refine ⟨ih.first, ih.zero, fun i => ?_, ?_, fun i => ?_, ?_, ?_, ih.pc⟩
      · refine upd_cases (fun st : Prod α => st.near (s.qs 0)) _ _ _ _ (fun _ hk => ⟨hn hk, fun h0 => ?_⟩) fun _ => ih.near i
        subst hk
        have := ih.zero h0
        split
        · exact this.1
        · exact this.2
      · by_cases hj : 0 = j
        · subst hj
          simp only [upd_same]
          intro x' v' acc' seen' he
          cases he
          have hpc := (hc.busy 0 (.inr (by rw [Nat.mul_zero, h1]; simp))).2.2
          have hq := (hr.queue hb 0 (Nat.lt_of_le_of_lt (hc.queue_le 0) hw)).1 (by rw [hpc]; simp)
          cases tf
          · simp
          · simpa using hq.le
        · simp only [upd_other s.prod _ hj]
          exact ih.own
      · exact upd_cases (fun st : Prod α => st.far → (s.qs 0).pushed ≠ []) _ _ _ _ (fun _ => hf) fun _ => ih.far i
      · by_cases hj : 0 = j
        · subst hj
          simp only [upd_same]
          have := ih.left
          rw [h1] at this
          exact this
        · simp only [upd_other s.prod _ hj]
          exact ih.left
      · by_cases hj : 0 = j
        · subst hj
          simp only [upd_same]
          have := ih.goes
          rw [h1] at this
          exact this
        · simp only [upd_other s.prod _ hj]
          exact ih.goes
    | read j x k v acc seen h1 =>
      cases hres
      have ih := ih hw
      have hn := ih.near j
      have hf := ih.far j
      rw [h1] at hn hf
      refine ⟨ih.first, ih.zero, fun i => ?_, ?_, fun i => ?_, ?_, ?_, ih.pc⟩
      · exact upd_cases (fun st : Prod α => st.near (s.qs 0)) _ _ _ _ (fun _ => nextScan_near ..) fun _ => ih.near i
      · refine upd_cases (fun st : Prod α => ∀ x v acc seen, st = .read x 0 v acc seen →
          if tf then (s.qs 0).head ≤ v ∧ v ≤ (s.qs 0).tail else v = (s.qs 0).head) _ _ _ _ (fun _ => ?_) fun _ => ih.own
        intro _ _ _ _ h0
        unfold nextScan at h0
        split at h0 <;> cases h0
      · refine upd_cases (fun st : Prod α => st.far → (s.qs 0).pushed ≠ []) _ _ _ _ (fun _ hff => ?_) fun _ => ih.far i
        have hm := nextScan_far hff
        by_cases hk : k = 0
        · subst hk
          obtain ⟨ha, hv⟩ := hn rfl
          subst ha
          intro h0
          refine minStep_first hm ?_
          rw [hv h0, (ih.zero h0).1, (ih.zero h0).2]
          split <;> rfl
        · exact hf ⟨by omega, minStep_zero (by omega) hm⟩
      · by_cases hj : 0 = j
        · subst hj
          simp only [upd_same]
          intro hff
          have hm := nextScan_far hff
          by_cases hk : k = 0
          · subst hk
            obtain ⟨ha, -⟩ := hn rfl
            subst ha
            have hsz := minStep_first hm
            have hpc := (hc.busy 0 (.inr (by rw [Nat.mul_zero, h1]; simp))).2.2
            have hq := (hr.queue hb 0 (Nat.lt_of_le_of_lt (hc.queue_le 0) hw)).1 (by rw [hpc]; simp)
            have hle := hq.le
            have hown := ih.own x v _ seen h1
            refine Classical.byContradiction fun hlt => hsz ?_
            cases tf
            · simp only [Bool.false_eq_true, if_false] at hown ⊢
              have : (s.qs 0).tail + word - v = word := by omega
              rw [this, Nat.mod_self]
            · simp only [if_true] at hown ⊢
              have : v + word - (s.qs 0).head = word := by omega
              rw [this, Nat.mod_self]
          · have := ih.left
            rw [h1] at this
            exact this ⟨by omega, minStep_zero (by omega) hm⟩
        · simp only [upd_other s.prod _ hj]
          exact ih.left
      · by_cases hj : 0 = j
        · subst hj
          simp only [upd_same]
          intro hp
          exact .inr (.inr (.inl (by rw [nextScan_coming]; simp)))
        · simp only [upd_other s.prod _ hj]
          exact ih.goes
    | claim j x id seen h1 =>
      cases hres
      have hw' : s.log.length < 2 ^ 64 := by
        simp only [List.length_append, List.length_cons, List.length_nil] at hw
        omega
      have ih := ih hw'
      have hlive : (s.qs 0).pc ≠ .ended := by
        by_cases hl : s.log = []
        · intro he
          have hcl := hc.ended 0 (.inr he)
          rcases even_or_odd j with ⟨n, rfl⟩ | ⟨p, rfl⟩
          · have hm := hc.made n
            have hb1 := hc.busy n (.inr (by rw [h1]; simp))
            have hq := (hr.queue hb n (Nat.lt_of_le_of_lt (hc.queue_le n) hw')).1 (by rw [hb1.2.2]; simp)
            have e1 := hc.queue_le n
            have e2 := hq.head
            have e3 := hq.le
            have e4 := hq.tail
            rw [hl] at e1
            simp only [List.length_nil] at e1
            have e5 : (s.qs n).handled = [] := List.eq_nil_of_length_eq_zero (by omega)
            rw [e5, h1] at hm
            simp [Prod.coming] at hm
          · have := hc.outside hcl p
            rw [h1] at this
            cases this
        · exact ih.pc hl
      have hq := (hr.queue hb 0 (Nat.lt_of_le_of_lt (hc.queue_le 0) hw')).1 hlive
      by_cases hid : 0 = id
      · subst hid
        have hl := hq.le
        have ht := hq.tail
        have hle := hc'.queue_le 0
        simp only [upd_same, Q.claim, List.length_append, List.length_cons, List.length_nil] at hle hw
        have htail : ((s.qs 0).tail + 1) % word = (s.qs 0).tail + 1 := Nat.mod_eq_of_lt (by
          simp only [word]
          omega)
        have hne : (s.qs 0).pushed ++ [x] ≠ [] := by simp
        refine ⟨fun _ => ?_, fun h0 => ?_, fun i => ?_, ?_, fun i _ => ?_, fun _ => ?_, fun _ => .inr (.inr (.inr ?_)), fun _ => ?_⟩
        · simp only [upd_same, Q.claim]; exact hne
        · simp only [upd_same, Q.claim] at h0; exact absurd h0 hne
        · refine upd_cases (fun st : Prod α => st.near _) _ _ _ _ (fun _ => trivial) fun _ => ?_
          refine Prod.near_mono (fun h0 => ?_) (ih.near i)
          simp only [upd_same, Q.claim] at h0
          exact absurd h0 hne
        · simp only [upd_same, Q.claim, htail]
          intro x' v' acc' seen' he
          by_cases hj : 0 = j
          · subst hj
            simp only [upd_same] at he
            cases he
          · simp only [upd_other s.prod _ hj] at he
            have := ih.own _ _ _ _ he
            cases tf
            · simpa using this
            · simp only [if_true] at this ⊢
              omega
        · simp only [upd_same, Q.claim]; exact hne
        · simp only [upd_same, Q.claim, htail]; omega
        · simp only [upd_same, Q.claim, htail]; omega
        · simp only [upd_same, Q.claim]; exact hlive
      · have hfar : (s.prod j).far := by
          rw [h1]
          exact fun h0 => hid h0.symm
        have hp := ih.far j hfar
        have h0 : upd s.qs id ((s.qs id).claim x) 0 = s.qs 0 := upd_other _ _ hid
        refine ⟨fun _ => by simp only [h0]; exact hp, fun hz => by simp only [h0] at hz; exact absurd hz hp, fun i => ?_, ?_,
          fun _ _ => by simp only [h0]; exact hp, ?_, fun _ => ?_, fun _ => by simp only [h0]; exact hlive⟩
        · simp only [upd_other s.qs _ hid]
          exact upd_cases (fun st : Prod α => st.near (s.qs 0)) _ _ _ _ (fun _ => trivial) fun _ => ih.near i
        · simp only [upd_other s.qs _ hid]
          refine upd_cases (fun st : Prod α => ∀ x v acc seen, st = .read x 0 v acc seen →
            if tf then (s.qs 0).head ≤ v ∧ v ≤ (s.qs 0).tail else v = (s.qs 0).head) _ _ _ _ (fun _ => ?_) fun _ => ih.own
          intro _ _ _ _ h0
          cases h0
        · simp only [upd_other s.qs _ hid]
          exact upd_cases (fun st : Prod α => st.far → (s.qs 0).head < (s.qs 0).tail) _ _ _ _
            (fun _ hf => absurd hf (by simp [Prod.far])) fun _ => ih.left
        · simp only [upd_other s.qs _ hid]
          by_cases hj : 0 = j
          · subst hj
            exact .inr (.inr (.inr (ih.left hfar)))
          · simp only [upd_other s.prod _ hj]
            exact ih.goes hp
    | store j x id i h1 =>
      cases hq : (s.qs id).store i x with
      | ub => rw [hq] at hres; cases hres
      | hang => rw [hq] at hres; cases hres
      | ok q =>
        rw [hq] at hres
        simp only [Res.ok_bind, Res.pure_eq, Res.ok.injEq] at hres
        subst hres
        have ih := ih hw
        have hsame : ∃ sl, upd s.qs id q 0 = { s.qs 0 with slots := sl } := by
          by_cases hid : 0 = id
          · subst hid
            unfold Q.store at hq
            split at hq
            · cases hq
              exact ⟨_, upd_same ..⟩
            · cases hq
          · exact ⟨(s.qs 0).slots, upd_other _ _ hid⟩
        obtain ⟨sl, hsl⟩ := hsame
        refine ⟨?_, ?_, fun i => ?_, ?_, fun i => ?_, ?_, ?_, ?_⟩
        · simp only [hsl]; exact ih.first
        · simp only [hsl]; exact ih.zero
        · simp only [hsl]
          exact upd_cases (fun st : Prod α => st.near _) _ _ _ _ (fun _ => trivial) fun _ =>
            Prod.near_mono (fun h0 => h0) (ih.near i)
        · simp only [hsl]
          refine upd_cases (fun st : Prod α => ∀ x v acc seen, st = .read x 0 v acc seen →
            if tf then (s.qs 0).head ≤ v ∧ v ≤ (s.qs 0).tail else v = (s.qs 0).head) _ _ _ _ (fun _ => ?_) fun _ => ih.own
          intro _ _ _ _ h0
          cases h0
        · simp only [hsl]
          exact upd_cases (fun st : Prod α => st.far → (s.qs 0).pushed ≠ []) _ _ _ _
            (fun _ hf => absurd hf (by simp [Prod.far])) fun _ => ih.far i
        · simp only [hsl]
          exact upd_cases (fun st : Prod α => st.far → (s.qs 0).head < (s.qs 0).tail) _ _ _ _
            (fun _ hf => absurd hf (by simp [Prod.far])) fun _ => ih.left
        · simp only [hsl]
          by_cases hj : 0 = j
          · subst hj
            have := ih.goes
            rw [h1] at this
            simp only [upd_same]
            exact this
          · simp only [upd_other s.prod _ hj]
            exact ih.goes
        · simp only [hsl]; exact ih.pc
    | close h1 h2 =>
      cases hres
      have ih := ih hw
      exact ⟨ih.first, ih.zero, ih.near, ih.own, ih.far, ih.left, ih.goes, ih.pc⟩
    | work n e h1 h2 h3 h4 =>
      split at hres
      · cases hq : (s.qs n).work s.closed e with
        | ub => rw [hq] at hres; cases hres
        | hang => rw [hq] at hres; cases hres
        | ok q =>
          rw [hq] at hres
          simp only [Res.ok_bind, Res.pure_eq, Res.ok.injEq] at hres
          subst hres
          have ih := ih hw
          by_cases hn : 0 = n
          · subst hn
            rw [Nat.mul_zero] at h4
            have hi := (hr.queue hb 0 (Nat.lt_of_le_of_lt (hc.queue_le 0) hw)).1 h2
            obtain ⟨k1, k2, k3, k4⟩ := work_busy hh hi h2 hq fun hp => by
              rcases ih.goes hp with hg | hg | hg | hg
              · exact .inl hg
              · exact absurd h3 hg
              · rw [h4] at hg
                simp [Prod.coming] at hg
              · exact .inr hg
            refine ⟨?_, ?_, fun i => ?_, ?_, ?_, ?_, ?_, ?_⟩
            · simp only [upd_same, k1]; exact ih.first
            · simp only [upd_same, k1, k2]
              intro h0
              rw [k3 h0]
              exact ih.zero h0
            · simp only [upd_same]
              exact Prod.near_mono (fun h0 => by rwa [k1] at h0) (ih.near i)
            · intro _ _ _ _ h0
              simp only [h4] at h0
              cases h0
            · simp only [upd_same, k1]; exact ih.far
            · simp only [h4]
              exact fun h0 => absurd h0 (by simp [Prod.far])
            · simp only [upd_same, k1]
              intro hp
              rcases (k4 hp).2 with hg | hg | hg
              · exact .inl hg
              · exact .inr (.inl hg)
              · exact .inr (.inr (.inr hg))
            · simp only [upd_same]
              exact fun hl => (k4 (ih.first hl)).1
          · refine ⟨?_, ?_, fun i => ?_, ?_, ?_, ?_, ?_, ?_⟩
            · simp only [upd_other s.qs _ hn]; exact ih.first
            · simp only [upd_other s.qs _ hn]; exact ih.zero
            · simp only [upd_other s.qs _ hn]; exact ih.near i
            · simp only [upd_other s.qs _ hn]; exact ih.own
            · simp only [upd_other s.qs _ hn]; exact ih.far
            · simp only [upd_other s.qs _ hn]; exact ih.left
            · simp only [upd_other s.qs _ hn, upd_other s.todo _ hn]; exact ih.goes
            · simp only [upd_other s.qs _ hn]; exact ih.pc
      · cases hres

/-- C122: if the handler pushes something whenever worker 0 calls it, and anything was pushed at all, then worker 0 never ends,
however long the destructor waits for it: an empty queue 0 is what a push prefers, so that worker 0 always finds its own
push there or something else. -/
theorem C122_endless {b size : Nat} (hb : 0 < b) {tf : Bool} {h : Handler α} (hh : ∀ x, h 0 x ≠ []) {s : State α}
    (hr : Reach b size tf h anyStep s) (hw : s.log.length < 2 ^ 64) (hne : s.log ≠ []) : (s.qs 0).pc ≠ .ended :=
  (hr.endless hb hh hw).pc hne

/-- A handler that counts on: all other workers have ended, and worker 0 is at 4. -/
example : ∃ s, Reach 4 8 true Ex.next anyStep s ∧ s.closed = true ∧ (∀ n, n < 7 → (s.qs (n + 1)).pc = .ended) ∧
    (s.qs 0).handled = [1, 2, 3, 4] :=
  follow_ex 1 (Ex.push 0 1 ++ [.close] ++ (List.range 7).flatMap (fun n => Ex.w (n + 1) 2) ++ Ex.w 0 6 ++ Ex.back 0 ++
    Ex.w 0 5 ++ Ex.back 0 ++ Ex.w 0 5 ++ Ex.back 0 ++ Ex.w 0 5) (by decide +kernel)

end Verif.Pipeline.Pool.Push
