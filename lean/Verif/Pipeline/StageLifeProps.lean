import Verif.Pipeline.StageLife
import Verif.Pipeline.PoolVisible
/-!
What the handler of a stage may use (C125-C127).
-/
namespace Verif.Pipeline.Life
open Verif Verif.HB Verif.Pipeline
variable {α : Type}

/-! ### Facts about steps -/

/-- The stage before and after a step. -/
inductive Change (m m' : State α) (l : Lbl α) : Prop
  | same : m'.st = m.st → l.stage = none → m.allows l → Change m m' l
  | claim (p : Nat) (x : α) : l = .base (.begin p x) → m.st.closed = false → m.st.pend p = none →
      m'.st = { m.st with q := m.st.q.claim x, pend := setAt m.st.pend p (some (m.st.q.tail, x)) } → Change m m' l
  | store (p : Nat) (i : Nat) (x : α) : l = .base (.store p) → m.st.pend p = some (i, x) →
      m'.st = { m.st with
        q := { m.st.q with slots := m.st.q.slots.set (i % m.st.q.slots.length) (some x) }
        pend := setAt m.st.pend p none } → Change m m' l
  | close (p : Nat) : l = .base (.close p) → m.st.closed = false → (∀ p, m.st.pend p = none) →
      m'.st = { m.st with closed := true } → Change m m' l
  | work (e : Int) (q : Q α) : l = .base (.work e) → m.st.q.pc ≠ .ended → m.st.q.work m.st.closed e = .ok q →
      m'.st = { m.st with q := q } → Change m m' l

theorem Step.change {m m' : State α} {l : Lbl α} (h : Step m l m') : Change m m' l := by
  obtain ⟨h1, -⟩ := h
  have key : ∀ sl, l.stage = some sl → Stage.Step m.st sl (.ok m'.st) := fun sl e => by
    simpa only [StageStep, e] using h1
  have none' : l.stage = none → Change m m' l := fun e => by
    simp only [StageStep, e] at h1
    exact .same h1.2 e h1.1
  cases l with
  | join p => exact none' rfl
  | touch t d w => exact none' rfl
  | base l =>
    cases l with
    | begin p x =>
      rcases Stage.Step.cases_ok (key _ rfl) with ⟨p', x', hl, hc, hp, hst⟩ | ⟨p, i, x, q, hl, -⟩ | ⟨hl, -⟩ | ⟨e, q, hl, -⟩ <;>
        cases hl
      exact .claim p x rfl hc hp hst
    | store p =>
      rcases Stage.Step.cases_ok (key _ rfl) with ⟨p', x', hl, -⟩ | ⟨p', i, x, q, hl, hp, hq, hst⟩ | ⟨hl, -⟩ | ⟨e, q, hl, -⟩ <;>
        cases hl
      have := Q.store_same hq
      subst this
      exact .store p i x rfl hp hst
    | close p =>
      rcases Stage.Step.cases_ok (key _ rfl) with ⟨p', x', hl, -⟩ | ⟨p, i, x, q, hl, -⟩ | ⟨hl, hc, hp, hst⟩ | ⟨e, q, hl, -⟩ <;>
        cases hl
      exact .close p rfl hc hp hst
    | work e =>
      rcases Stage.Step.cases_ok (key _ rfl) with ⟨p', x', hl, -⟩ | ⟨p, i, x, q, hl, -⟩ | ⟨hl, -⟩ | ⟨e', q, hl, hne, hq, hst⟩ <;>
        cases hl
      exact .work e q rfl hne hq hst
    | ask p => exact none' rfl
    | self => exact none' rfl
    | rel t n => exact none' rfl
    | acq t n => exact none' rfl

theorem Run.stage {b : Nat} {G : State α → Lbl α → Prop} {ls : List (Lbl α)} {m : State α} (h : Run b G ls m) :
    Stage.Reach b anyStep m.st := by
  induction h with
  | new => exact .new
  | step ls m m' l _ _ hs ih =>
    have h1 := hs.1
    unfold StageStep at h1
    split at h1
    · exact .step _ _ _ ih trivial h1
    · rw [h1.2]; exact ih

theorem Run.memOk {b : Nat} {G : State α → Lbl α → Prop} {ls : List (Lbl α)} {m : State α} (h : Run b G ls m) :
    m.mem.Ok := by
  induction h with
  | new => exact Mem.Ok.new
  | step ls m m' l _ _ hs ih => rw [hs.2.1]; exact ih.run _ _

theorem Run.mono {b : Nat} {G G' : State α → Lbl α → Prop} (hG : ∀ m l, G m l → G' m l) {ls : List (Lbl α)} {m : State α}
    (h : Run b G ls m) : Run b G' ls m := by
  induction h with
  | new => exact .new
  | step ls m m' l _ hg hs ih => exact .step _ _ _ _ ih (hG _ _ hg) hs

theorem Run.later {b : Nat} {ls : List (Lbl α)} {m m' : State α} (h : Run b anyLbl ls m) (hl : Later m m') :
    ∃ ls', Run b anyLbl ls' m' := by
  induction hl with
  | refl => exact ⟨ls, h⟩
  | step m1 m2 l _ hs ih =>
    obtain ⟨ls', ih⟩ := ih
    exact ⟨l :: ls', .step _ _ _ _ ih trivial hs⟩

/-- Where the operations of a step come from. -/
theorem mem_ops {m : State α} {l : HB.Lbl α} {o : Op Loc Obj} (h : o ∈ ops m (.base l)) :
    (∃ o' ∈ HB.ops ⟨m.st, Mem.new⟩ l, o = lift o') ∨ o = .rel .done := by
  simp only [ops, List.mem_append, List.mem_map] at h
  rcases h with ⟨o', h1, h2⟩ | h
  · exact .inl ⟨o', h1, h2.symm⟩
  · right
    unfold ending at h
    split at h
    · split at h
      · simpa using h
      · cases h
    · cases h

theorem mem_workOps {m : HB.State α} {o : Op HB.Loc HB.Obj} (h : o ∈ HB.workOps m) :
    o = .acq .closed ∨ o = .acq .tail ∨ ∃ l w i, o = .acc l w i := by
  unfold HB.workOps at h
  split at h
  · split at h <;> simp at h
    exact .inl h
  all_goals simp at h
  · exact .inr (.inl h)
  · exact .inr (.inl h)
  · exact .inr (.inr ⟨_, _, _, h⟩)
  · rcases h with h | h <;> exact .inr (.inr ⟨_, _, _, h⟩)
  · rcases h with h | h
    · exact .inr (.inl h)
    · exact .inr (.inr ⟨_, _, _, h⟩)

theorem no_sto {m : State α} {l : Lbl α} (o : Obj) : .sto o ∉ ops m l := by
  intro h
  cases l with
  | join p => simp [ops] at h
  | touch t d w => simp [ops] at h
  | base l =>
    rcases mem_ops h with ⟨o', h1, h2⟩ | h
    · cases l with
      | store p =>
        simp only [HB.ops, HB.storeOps] at h1
        split at h1 <;> simp at h1
        subst h1; cases h2
      | work e => rcases mem_workOps h1 with rfl | rfl | ⟨_, _, _, rfl⟩ <;> cases h2
      | begin p x =>
        simp only [HB.ops, List.mem_cons, List.not_mem_nil, or_false] at h1
        rcases h1 with rfl | rfl <;> cases h2
      | _ =>
        simp only [HB.ops, List.mem_cons, List.not_mem_nil, or_false] at h1
        subst h1; cases h2
    · cases h

/-- What threads and objects know only grows. -/
theorem Step.grow {m m' : State α} {l : Lbl α} (h : Step m l m') :
    (∀ t u, m.mem.clk t u ≤ m'.mem.clk t u) ∧ ∀ o u, m.mem.sync o u ≤ m'.mem.sync o u := by
  rw [h.2.1]
  exact ⟨fun t u => Mem.clk_run _ _ _ _ _, fun o u => Mem.sync_run _ _ _ _ _ (no_sto o)⟩

/-- The record of pushes only grows. -/
theorem Step.claims {m m' : State α} {l : Lbl α} (h : Step m l m') : ∀ c ∈ m.claims, c ∈ m'.claims := by
  intro c hc
  rw [h.2.2.2]
  unfold record
  split
  · exact List.mem_cons_of_mem _ hc
  · exact hc

theorem Later.claims {m m' : State α} (h : Later m m') : ∀ c ∈ m.claims, c ∈ m'.claims := by
  induction h with
  | refl => exact fun c hc => hc
  | step m1 m2 l _ hs ih => exact fun c hc => hs.claims c (ih c hc)

theorem Step.pushed {m m' : State α} {l : Lbl α} (h : Step m l m') :
    m.st.q.pushed.length ≤ m'.st.q.pushed.length ∧ (m.st.closed = true → m'.st.closed = true) := by
  cases h.change with
  | same h1 => rw [h1]; exact ⟨Nat.le_refl _, id⟩
  | claim p x _ _ _ h1 => rw [h1]; exact ⟨by simp [Q.claim], id⟩
  | store p i x _ _ h1 => rw [h1]; exact ⟨Nat.le_refl _, id⟩
  | close p _ _ _ h1 => rw [h1]; exact ⟨Nat.le_refl _, fun _ => rfl⟩
  | work e q _ _ hq h1 => rw [h1]; exact ⟨by simp only [(Q.work_same hq).2.2]; exact Nat.le_refl _, id⟩

theorem Later.pushed {m m' : State α} (h : Later m m') : m.st.q.pushed.length ≤ m'.st.q.pushed.length := by
  induction h with
  | refl => exact Nat.le_refl _
  | step m1 m2 l _ hs ih => exact Nat.le_trans ih hs.pushed.1

/-- `queue_.tail` carries more only after a push. -/
theorem Step.tail_same {m m' : State α} {l : Lbl α} (h : Step m l m') (hl : ∀ p x, l ≠ .base (.begin p x)) :
    m'.mem.sync (.own .tail) = m.mem.sync (.own .tail) := by
  rw [h.2.1]
  refine Mem.sync_other _ _ _ _ fun o ho => ⟨?_, fun e => no_sto _ (e ▸ ho)⟩
  rintro rfl
  cases l with
  | join p => simp [ops] at ho
  | touch t d w => simp [ops] at ho
  | base l =>
    rcases mem_ops ho with ⟨o', h1, h2⟩ | h
    · cases l with
      | store p =>
        simp only [HB.ops, HB.storeOps] at h1
        split at h1 <;> simp at h1
        subst h1; cases h2
      | work e => rcases mem_workOps h1 with rfl | rfl | ⟨_, _, _, rfl⟩ <;> cases h2
      | begin p x => exact hl p x rfl
      | _ =>
        simp only [HB.ops, List.mem_cons, List.not_mem_nil, or_false] at h1
        subst h1; cases h2
    · cases h

/-- After `closed_ = true` nobody pushes; only then the worker leaves its loop; only the destructor sets it. -/
structure Shut (m : State α) : Prop where
  idle : m.st.closed = true → ∀ p, m.st.pend p = none
  left : m.st.q.pc = .drain ∨ m.st.q.pc = .ended → m.st.closed = true
  dtor : m.dtor ≠ none → m.st.closed = true

theorem Run.shut {b : Nat} {G : State α → Lbl α → Prop} {ls : List (Lbl α)} {m : State α} (h : Run b G ls m) : Shut m := by
  induction h with
  | new => exact ⟨fun h => (by cases h), fun h => (by rcases h with h | h <;> cases h), fun h => absurd rfl h⟩
  | step ls m m' l hr hg hs ih =>
    have hd : m'.dtor ≠ none → m'.st.closed = true := by
      intro hd
      rw [hs.2.2.1] at hd
      have old : m.dtor ≠ none → m'.st.closed = true := fun h => hs.pushed.2 (ih.dtor h)
      unfold dtorAfter at hd
      split at hd
      · cases hs.change with
        | same _ h1 _ => cases h1
        | close p _ _ _ h1 => rw [h1]
        | claim p x h1 => cases h1
        | store p i x h1 => cases h1
        | work e q h1 => cases h1
      · cases hs.change with
        | same _ _ h1 => exact old (by rw [h1.1]; simp)
        | claim p x h1 => cases h1
        | close p h1 => cases h1
        | store p i x h1 => cases h1
        | work e q h1 => cases h1
      · exact old hd
    cases hs.change with
    | same h1 => exact ⟨by rw [h1]; exact ih.idle, by rw [h1]; exact ih.left, hd⟩
    | claim p x _ h2 _ h1 =>
      refine ⟨?_, ?_, hd⟩ <;> rw [h1]
      · intro h; simp only [h2] at h; cases h
      · exact ih.left
    | store p i x _ h2 h1 =>
      refine ⟨?_, ?_, hd⟩ <;> rw [h1]
      · intro h
        have := ih.idle h p
        rw [h2] at this
        cases this
      · exact ih.left
    | close p _ _ h2 h1 =>
      refine ⟨?_, ?_, hd⟩ <;> rw [h1]
      · exact fun _ => h2
      · exact fun _ => rfl
    | work e q _ _ hq h1 =>
      refine ⟨?_, ?_, hd⟩ <;> rw [h1]
      · exact ih.idle
      · intro hn
        cases Pool.HB.moves hq with
        | outer k1 k2 k3 =>
          cases hc : m.st.closed with
          | true => rfl
          | false => simp only [k2, hc] at hn; simp at hn
        | drain k1 k2 k3 => exact ih.left (.inl k1)
        | inner k1 k2 k3 => simp only [k2] at hn; split at hn <;> simp at hn
        | check k1 k2 k3 => rcases k2 with k2 | k2 <;> simp only [k2] at hn <;> simp at hn
        | take k1 k2 k3 => simp only [k2] at hn; simp at hn
        | call i v k1 k2 k3 => simp only [k2] at hn; simp at hn
        | stat k1 k2 k3 => simp only [k2] at hn; simp at hn

/-! ### C125: after the destructor -/

/-- What holds of a worker that has ended. -/
structure Ends (m : State α) : Prop where
  know : ∀ c ∈ m.claims, ∀ u, c.know u ≤ m.mem.sync (.own .tail) u
  done : m.st.q.pc = .ended → ∀ u, m.mem.clk none u ≤ m.mem.sync .done u ∧ m.mem.sync (.own .tail) u ≤ m.mem.clk none u
  joined : ∀ p, m.dtor = some (p, true) → m.st.q.pc = .ended ∧ ∀ u, m.mem.clk none u ≤ m.mem.clk (some p) u

theorem Step.ended {m m' : State α} {l : Lbl α} (h : Step m l m') (hn : m.st.q.pc = .ended) :
    m'.st.q.pc = .ended ∧ m'.mem.clk none = m.mem.clk none := by
  refine ⟨?_, ?_⟩
  · cases h.change with
    | same h1 => rw [h1]; exact hn
    | claim p x _ _ _ h1 => rw [h1]; exact hn
    | store p i x _ _ h1 => rw [h1]; exact hn
    | close p _ _ _ h1 => rw [h1]; exact hn
    | work e q _ h2 => exact absurd hn h2
  · rw [h.2.1]
    refine Mem.clk_other _ (fun e => ?_) _
    have stat : m.free none → False := fun hf => by simp only [State.free, hn] at hf; cases hf
    cases h.change with
    | same _ h2 h1 =>
      cases l with
      | join p => cases e
      | touch t d w => simp only [Lbl.who] at e; subst e; exact stat h1
      | base l =>
        cases l with
        | self => exact stat h1
        | rel t n => simp only [Lbl.who, HB.Lbl.who] at e; subst e; exact stat h1
        | acq t n => simp only [Lbl.who, HB.Lbl.who] at e; subst e; exact stat h1
        | work e => cases h2
        | _ => cases e
    | claim p x h1 => subst h1; cases e
    | store p i x h1 => subst h1; cases e
    | close p h1 => subst h1; cases e
    | work e q _ h2 => exact h2 hn

theorem Run.ends {b : Nat} {G : State α → Lbl α → Prop} {ls : List (Lbl α)} {m : State α} (h : Run b G ls m) : Ends m := by
  induction h with
  | new => exact ⟨fun c hc => (by cases hc), fun hn => (by cases hn), fun p hk => (by cases hk)⟩
  | step ls m m' l hr hg hs ih =>
    have hsh := hr.shut
    obtain ⟨g1, g2⟩ := hs.grow
    refine ⟨fun c hc u => ?_, fun hn u => ?_, fun p hk => ?_⟩
    · rw [hs.2.2.2] at hc
      have old : c ∈ m.claims → c.know u ≤ m'.mem.sync (.own .tail) u := fun hc => Nat.le_trans (ih.know c hc u) (g2 _ _)
      unfold record at hc
      split at hc
      · rename_i p x
        rcases List.mem_cons.1 hc with rfl | hc
        · rw [hs.2.1]
          simp only [ops, HB.ops, ending, List.map_cons, List.map_nil, lift, List.append_nil, Lbl.who, HB.Lbl.who, Mem.run,
            Mem.op, put_same]
          omega
        · exact old hc
      · exact old hc
    · by_cases hp : m.st.q.pc = .ended
      · have hc := hsh.left (.inr hp)
        have h1 := ih.done hp u
        rw [(hs.ended hp).2, hs.tail_same]
        · exact ⟨Nat.le_trans h1.1 (g2 _ _), h1.2⟩
        · rintro p x rfl
          cases hs.change with
          | claim p x _ h2 => rw [hc] at h2; cases h2
          | same _ h2 => cases h2
          | store p i x h1 => cases h1
          | close p h1 => cases h1
          | work e q h1 => cases h1
      · cases hs.change with
        | same h1 => rw [h1] at hn; exact absurd hn hp
        | claim p x _ _ _ h1 => rw [h1] at hn; exact absurd hn hp
        | store p i x _ _ h1 => rw [h1] at hn; exact absurd hn hp
        | close p _ _ _ h1 => rw [h1] at hn; exact absurd hn hp
        | work e q h1 h2 hq h3 =>
          rw [h3] at hn
          simp only at hn
          cases Pool.HB.moves hq with
          | outer k1 k2 k3 => rw [k2] at hn; split at hn <;> simp at hn
          | inner k1 k2 k3 => rw [k2] at hn; split at hn <;> simp at hn
          | check k1 k2 k3 => rcases k2 with k2 | k2 <;> rw [k2] at hn <;> simp at hn
          | take k1 k2 k3 => rw [k2] at hn; simp at hn
          | call i v k1 k2 k3 => rw [k2] at hn; simp at hn
          | stat k1 k2 k3 => rw [k2] at hn; simp at hn
          | drain k1 k2 k3 =>
            subst h1
            have hz : (m.st.q.tail + word - m.st.q.head) % word = 0 := by
              refine Nat.eq_zero_of_not_pos fun hz => ?_
              rw [k2, if_pos hz] at hn
              cases hn
            have hops : ops m (.base (.work e)) = [.acq (.own .tail), .rel .done] := by
              simp only [ops, HB.ops, HB.workOps, k1, ending, hz, and_self, if_true, List.map_cons, List.map_nil, lift]
              rfl
            rw [hs.2.1, hops]
            have hd : Obj.own .tail ≠ .done := by simp
            simp only [Mem.run, Mem.op, put_same, Lbl.who, HB.Lbl.who, put_ne _ _ hd]
            omega
    · have hd := hs.2.2.1
      rw [hk] at hd
      unfold dtorAfter at hd
      split at hd
      · cases hd
      · rename_i q
        cases hd
        cases hs.change with
        | same _ _ h1 =>
          obtain ⟨h2, h3⟩ := h1
          obtain ⟨h4, h5⟩ := hs.ended h3
          refine ⟨h4, fun u => ?_⟩
          rw [h5, hs.2.1]
          have h6 := (ih.done h3 u).1
          simp only [ops, Lbl.who, Mem.run, Mem.op, put_same]
          omega
        | claim p x h1 => cases h1
        | store p i x h1 => cases h1
        | close p h1 => cases h1
        | work e q h1 => cases h1
      · obtain ⟨h1, h2⟩ := ih.joined p hd.symm
        obtain ⟨h3, h4⟩ := hs.ended h1
        exact ⟨h3, fun u => by rw [h4]; exact Nat.le_trans (h2 u) (g1 _ _)⟩

/-- **C125**: when the destructor of a stage has returned, everything that the worker did, its handler included, happens
before what the thread does that ran the destructor. -/
theorem C125_handlers {b : Nat} {ls : List (Lbl α)} {m : State α} (h : Run b anyLbl ls m) {p : Nat}
    (hd : m.dtor = some (p, true)) : ∀ a ∈ m.mem.log, a.who = none → a.time ≤ m.mem.clk (some p) none := by
  intro a ha hn
  have := h.memOk.log a ha
  rw [hn] at this
  exact Nat.le_trans this ((h.ends.joined p hd).2 _)

/-- **C125**: a use of data by that thread, after the destructor, races at most with other threads outside the stage, never
with the handler. -/
theorem C125_data {b : Nat} {ls : List (Lbl α)} {m m' : State α} (h : Run b anyLbl ls m) {p d : Nat} {wr : Bool}
    (hd : m.dtor = some (p, true)) (_ : Step m (.touch (some p) d wr) m')
    (hr : Race (fun _ => True) m (.touch (some p) d wr)) :
    ∃ a ∈ m.mem.log, ∃ q, a.who = some q ∧ q ≠ p ∧ a.loc = .data d := by
  rcases hr with ⟨-, a, ha, hl, -, hlt⟩ | hr
  · cases hw : a.who with
    | none =>
      have := C125_handlers h hd a ha hw
      rw [hw] at hlt
      simp only [Lbl.who] at hlt
      omega
    | some q =>
      refine ⟨a, ha, q, hw, ?_, hl⟩
      rintro rfl
      have := h.memOk.log a ha
      rw [hw] at hlt this
      simp only [Lbl.who] at hlt
      omega
  · exact hr.elim

/-- **C125**: also everything that a thread came after when it pushed happens before what follows the destructor. -/
theorem C125_pushes {b : Nat} {ls : List (Lbl α)} {m m1 m2 : State α} (h : Run b anyLbl ls m) {p p' : Nat} {x : α}
    (hs : Step m (.base (.begin p x)) m1) (hl : Later m1 m2) (hd : m2.dtor = some (p', true)) (t : HB.Thr) :
    m.mem.clk (some p) t ≤ m2.mem.clk (some p') t := by
  have h1 : Run b anyLbl _ m1 := .step _ _ _ _ h trivial hs
  obtain ⟨ls', h2⟩ := h1.later hl
  have hc : ⟨m.st.q.tail, x, m.mem.clk (some p)⟩ ∈ m2.claims := hl.claims _ (by rw [hs.2.2.2]; exact List.mem_cons_self)
  have he := h2.ends
  obtain ⟨k1, k2⟩ := he.joined p' hd
  exact Nat.le_trans (he.know _ hc t) (Nat.le_trans (he.done k1 t).2 (k2 t))

/-! ### C126: before a push -/

/-- What the pushes recorded and the worker knows. -/
structure Vis (m : State α) : Prop where
  known : ∀ c ∈ m.claims, c.i < m.st.q.handled.length + Pool.HB.ahead m.st.q.pc → ∀ u, c.know u ≤ m.mem.clk none u
  all : ∀ i x, m.st.q.pushed[i]? = some x → ∃ c ∈ m.claims, c.i = i ∧ c.item = x
  few : ∀ c ∈ m.claims, c.i < m.st.q.pushed.length

theorem Run.vis {b : Nat} (hb : 0 < b) {G : State α → Lbl α → Prop} {ls : List (Lbl α)} {m : State α} (h : Run b G ls m)
    (hw : m.st.q.pushed.length < word) : Vis m := by
  induction h with
  | new =>
    refine ⟨fun c hc => (by cases hc), fun i x h => ?_, fun c hc => (by cases hc)⟩
    simp [State.new, Stage.new, Q.new] at h
  | step ls m m' l hr hg hs ih =>
    have hw0 : m.st.q.pushed.length < word := Nat.lt_of_le_of_lt hs.pushed.1 hw
    have ih := ih hw0
    have hi := (hr.stage.inv hb hw0).1
    obtain ⟨g1, g2⟩ := hs.grow
    have hcl : ∀ c ∈ m.claims, c ∈ m'.claims := hs.claims
    have keep : m'.st.q.handled = m.st.q.handled → m'.st.q.pc = m.st.q.pc → m'.st.q.pushed = m.st.q.pushed →
        (∀ p x, l ≠ .base (.begin p x)) → Vis m' := by
      intro e1 e2 e3 hl
      have e4 : m'.claims = m.claims := by
        rw [hs.2.2.2]
        unfold record
        split
        · exact absurd rfl (hl _ _)
        · rfl
      refine ⟨fun c hc hlt u => ?_, fun i x hx => ?_, fun c hc => ?_⟩
      · rw [e1, e2] at hlt
        exact Nat.le_trans (ih.known c (e4 ▸ hc) hlt u) (g1 _ _)
      · rw [e4]; exact ih.all i x (e3 ▸ hx)
      · rw [e3]; exact ih.few c (e4 ▸ hc)
    cases hs.change with
    | same h1 h2 => exact keep (by rw [h1]) (by rw [h1]) (by rw [h1]) (by rintro p x rfl; cases h2)
    | store p i x h2 _ h1 => exact keep (by rw [h1]) (by rw [h1]) (by rw [h1]) (by rintro p x rfl; cases h2)
    | close p h2 _ _ h1 => exact keep (by rw [h1]) (by rw [h1]) (by rw [h1]) (by rintro p x rfl; cases h2)
    | claim p x h1 h2 h3 h4 =>
      subst h1
      have e4 : m'.claims = ⟨m.st.q.tail, x, m.mem.clk (some p)⟩ :: m.claims := hs.2.2.2
      have h5 := hi.head
      have h6 := hi.le
      have h7 := hi.tail
      have h8 := hi.busy
      refine ⟨fun c hc hlt u => ?_, fun i y hy => ?_, fun c hc => ?_⟩
      · rw [h4] at hlt
        simp only [Q.claim] at hlt
        rw [e4] at hc
        rcases List.mem_cons.1 hc with rfl | hc
        · exfalso
          simp only at hlt
          cases hpc : m.st.q.pc <;> simp only [hpc, Pool.HB.ahead, Pc.taken] at hlt h5 h8
          all_goals first
            | omega
            | (have := h8 (by simp); omega)
        · exact Nat.le_trans (ih.known c hc hlt u) (g1 _ _)
      · rw [h4] at hy
        simp only [Q.claim] at hy
        rw [e4]
        by_cases e : i < m.st.q.pushed.length
        · rw [List.getElem?_append_left e] at hy
          obtain ⟨c, hc, h⟩ := ih.all i y hy
          exact ⟨c, List.mem_cons_of_mem _ hc, h⟩
        · rw [List.getElem?_append_right (by omega)] at hy
          obtain ⟨hlt, hy⟩ := List.getElem?_eq_some_iff.1 hy
          simp only [List.length_singleton] at hlt
          simp only [List.getElem_singleton] at hy
          exact ⟨_, List.mem_cons_self, by simp only; omega, hy⟩
      · rw [h4]
        simp only [Q.claim, List.length_append, List.length_singleton]
        rw [e4] at hc
        rcases List.mem_cons.1 hc with rfl | hc
        · simp only; omega
        · have := ih.few c hc; omega
    | work e q h1 h2 hq h3 =>
      subst h1
      have e4 : m'.claims = m.claims := hs.2.2.2
      have e3 : m'.st.q.pushed = m.st.q.pushed := by rw [h3]; exact (Q.work_same hq).2.2
      refine ⟨fun c hc hlt u => ?_, fun i x hx => by rw [e4]; exact ih.all i x (e3 ▸ hx), fun c hc => by
        rw [e3]; exact ih.few c (e4 ▸ hc)⟩
      rw [e4] at hc
      rw [h3] at hlt
      simp only at hlt
      have keep : c.i < m.st.q.handled.length + Pool.HB.ahead m.st.q.pc → c.know u ≤ m'.mem.clk none u := fun h =>
        Nat.le_trans (ih.known c hc h u) (g1 _ _)
      cases Pool.HB.moves hq with
      | outer k1 k2 k3 =>
        refine keep ?_
        rw [k2, k3] at hlt
        rw [k1]
        split at hlt <;> exact hlt
      | drain k1 k2 k3 =>
        refine keep ?_
        rw [k2, k3] at hlt
        rw [k1]
        split at hlt <;> exact hlt
      | check k1 k2 k3 =>
        refine keep ?_
        rw [k3] at hlt
        rw [k1]
        rcases k2 with k2 | k2 <;> rw [k2] at hlt <;> simp only [Pool.HB.ahead] at hlt ⊢ <;> omega
      | take k1 k2 k3 =>
        refine keep ?_
        rw [k2, k3] at hlt
        rw [k1]
        exact hlt
      | call i v k1 k2 k3 =>
        refine keep ?_
        rw [k2, k3] at hlt
        rw [k1]
        simpa [Pool.HB.ahead] using hlt
      | stat k1 k2 k3 =>
        refine keep ?_
        rw [k2, k3] at hlt
        rw [k1]
        exact hlt
      | inner k1 k2 k3 =>
        have h4 := hr.ends.know c hc u
        have hops : ops m (.base (.work e)) = [.acq (.own .tail)] := by
          simp only [ops, HB.ops, HB.workOps, k1, ending, List.map_cons, List.map_nil, lift]
          simp
        rw [hs.2.1, hops]
        simp only [Mem.run, Mem.op, put_same, Lbl.who, HB.Lbl.who]
        omega

/-- **C126**: everything that a thread came after when it pushed an item happens before what the worker does once it has begun
to handle the item with this number, for stages that get fewer than 2^64 items. -/
theorem C126_visible {b : Nat} (hb : 0 < b) {ls : List (Lbl α)} {m m1 m2 : State α} (h : Run b anyLbl ls m) {p : Nat} {x : α}
    (hs : Step m (.base (.begin p x)) m1) (hl : Later m1 m2) (hw : m2.st.q.pushed.length < 2 ^ 64)
    (hh : m.st.q.pushed.length < m2.st.q.handled.length) (t : HB.Thr) : m.mem.clk (some p) t ≤ m2.mem.clk none t := by
  have h1 : Run b anyLbl _ m1 := .step _ _ _ _ h trivial hs
  obtain ⟨ls', h2⟩ := h1.later hl
  have hc : ⟨m.st.q.tail, x, m.mem.clk (some p)⟩ ∈ m2.claims := hl.claims _ (by rw [hs.2.2.2]; exact List.mem_cons_self)
  have ht := (h.stage.inv hb (Nat.lt_of_le_of_lt (Nat.le_trans hs.pushed.1 hl.pushed) hw)).1.tail
  exact (h2.vis hb hw).known _ hc (by simp only; omega) t

/-- **C126** (partial: while a stage has not got more items than it has slots; false otherwise, `C126_overrun_refuted`): each item
handled is one that was pushed, and what the pushing thread came after happens before what its handler does. -/
theorem C126_items_partial {b : Nat} (hb : 0 < b) {ls : List (Lbl α)} {m : State α} (h : Run b anyLbl ls m)
    (hw : m.st.q.pushed.length < 2 ^ 64) (hl : m.st.q.pushed.length ≤ b) {j : Nat} {x : α}
    (hx : m.st.q.handled[j]? = some x) :
    ∃ c ∈ m.claims, c.i = j ∧ c.item = x ∧ ∀ t, c.know t ≤ m.mem.clk none t := by
  have hf := h.stage.firstLap hb hw hl
  have hv := h.vis hb hw
  have hlt := (List.getElem?_eq_some_iff.1 hx).1
  have hpx : m.st.q.pushed[j]? = some x := by
    rw [hf.order, List.getElem?_take, if_pos hlt] at hx
    exact hx
  obtain ⟨c, hc, h2, h3⟩ := hv.all j x hpx
  exact ⟨c, hc, h2, h3, hv.known c hc (by omega)⟩

/-! ### C127: data that goes with an item -/

/-- Data `d` is used by thread `p0` before it makes push number `i`; by the handler of this item and of later ones; after the
destructor by the thread that ran it, which is `p0` if there was no such push.  The others use what they like, but not `d`. -/
def handed (d i p0 : Nat) (m : State α) : Lbl α → Prop
  | .touch none d' _ => d' = d → i < m.st.q.handled.length
  | .touch (some p) d' _ => d' = d → (p = p0 ∧ m.st.q.pushed.length ≤ i ∧ m.dtor = none) ∨
      (m.dtor = some (p, true) ∧ (p = p0 ∨ i < m.st.q.pushed.length))
  | .base (.begin p _) => m.st.q.pushed.length = i → p = p0
  | _ => True

/-- Who has used the data so far. -/
structure Handed (d i p0 : Nat) (m : State α) : Prop where
  used : ∀ a ∈ m.mem.log, a.loc = .data d → (a.who = none ∧ i < m.st.q.handled.length) ∨
    (∃ p, m.dtor = some (p, true) ∧ a.who = some p) ∨ a.who = some p0
  known : ∀ a ∈ m.mem.log, a.loc = .data d → a.who = some p0 → i < m.st.q.pushed.length → m.dtor ≠ some (p0, true) →
    ∃ c ∈ m.claims, c.i = i ∧ a.time ≤ c.know (some p0)

theorem data_ops {m : State α} {l : Lbl α} {d : Nat} {w : Bool} {i : Nat} (h : .acc (.data d) w i ∈ ops m l) :
    ∃ t, l = .touch t d w := by
  cases l with
  | join p => simp [ops] at h
  | touch t d' w' =>
    simp only [ops, List.mem_singleton, Op.acc.injEq, Loc.data.injEq] at h
    obtain ⟨rfl, rfl, -⟩ := h
    exact ⟨t, rfl⟩
  | base l =>
    rcases mem_ops h with ⟨o', -, h2⟩ | h
    · cases o' <;> cases h2
    · cases h

/-- The destructor joins once. -/
theorem Run.joined {b : Nat} {G : State α → Lbl α → Prop} {ls : List (Lbl α)} {m m' : State α} {l : Lbl α}
    (h : Run b G ls m) (hs : Step m l m') {p : Nat} (hd : m.dtor = some (p, true)) : m'.dtor = some (p, true) := by
  rw [hs.2.2.1]
  unfold dtorAfter
  split
  · cases hs.change with
    | close p' _ h1 => rw [h.shut.dtor (by rw [hd]; simp)] at h1; cases h1
    | same _ h1 => cases h1
    | claim p x h1 => cases h1
    | store p i x h1 => cases h1
    | work e q h1 => cases h1
  · cases hs.change with
    | same _ _ h1 => rw [h1.1] at hd; cases hd
    | claim p x h1 => cases h1
    | store p i x h1 => cases h1
    | close p h1 => cases h1
    | work e q h1 => cases h1
  · exact hd

theorem Step.handled {m m' : State α} {l : Lbl α} (h : Step m l m') : m.st.q.handled.length ≤ m'.st.q.handled.length := by
  cases h.change with
  | same h1 => rw [h1]; exact Nat.le_refl _
  | claim p x _ _ _ h1 => rw [h1]; exact Nat.le_refl _
  | store p i x _ _ h1 => rw [h1]; exact Nat.le_refl _
  | close p _ _ _ h1 => rw [h1]; exact Nat.le_refl _
  | work e q _ _ hq h1 =>
    rw [h1]
    rcases Q.work_handled hq with ⟨h4, -⟩ | ⟨i, v, -, -, h4⟩ <;> simp [h4]

theorem Run.handed {b : Nat} (hb : 0 < b) {d i p0 : Nat} {ls : List (Lbl α)} {m : State α} (h : Run b (handed d i p0) ls m)
    (hw : m.st.q.pushed.length < word) : Handed d i p0 m := by
  induction h with
  | new => exact ⟨fun a ha => (by cases ha), fun a ha => (by cases ha)⟩
  | step ls m m' l hr hg hs ih =>
    have hw0 : m.st.q.pushed.length < word := Nat.lt_of_le_of_lt hs.pushed.1 hw
    have ih := ih hw0
    have hi := (hr.stage.inv hb hw0).1
    have hok := hr.memOk
    have hd : ∀ p, m.dtor = some (p, true) → m'.dtor = some (p, true) := fun p => hr.joined hs
    have hcl := hs.claims
    have hha := hs.handled
    have hpu := hs.pushed.1
    -- accesses made before
    have old : ∀ a ∈ m.mem.log, a.loc = .data d → (a.who = none ∧ i < m'.st.q.handled.length) ∨
        (∃ p, m'.dtor = some (p, true) ∧ a.who = some p) ∨ a.who = some p0 := by
      intro a ha hl
      rcases ih.used a ha hl with ⟨h1, h2⟩ | ⟨p, h1, h2⟩ | h1
      · exact .inl ⟨h1, by omega⟩
      · exact .inr (.inl ⟨p, hd p h1, h2⟩)
      · exact .inr (.inr h1)
    have old' : i < m.st.q.pushed.length → ∀ a ∈ m.mem.log, a.loc = .data d → a.who = some p0 →
        m'.dtor ≠ some (p0, true) → ∃ c ∈ m'.claims, c.i = i ∧ a.time ≤ c.know (some p0) := by
      intro hlt a ha hl hwho hne
      obtain ⟨c, hc, h1⟩ := ih.known a ha hl hwho hlt fun e => hne (hd p0 e)
      exact ⟨c, hcl c hc, h1⟩
    by_cases ht : ∃ t w, l = .touch t d w
    · obtain ⟨t, w, rfl⟩ := ht
      have hst : m'.st = m.st := by
        cases hs.change with
        | same h1 => exact h1
        | claim p x h1 => cases h1
        | store p i x h1 => cases h1
        | close p h1 => cases h1
        | work e q h1 => cases h1
      have hdt : m'.dtor = m.dtor := hs.2.2.1
      have hlog : m'.mem.log = ⟨t, m.mem.clk t t + 1, .data d, w, 0⟩ :: m.mem.log := by rw [hs.2.1]; rfl
      refine ⟨fun a ha hl => ?_, fun a ha hl hwho hlt hne => ?_⟩
      · rw [hlog] at ha
        rcases List.mem_cons.1 ha with rfl | ha
        · cases t with
          | none => exact .inl ⟨rfl, by rw [hst]; exact hg rfl⟩
          | some p =>
            rcases hg rfl with ⟨rfl, -, -⟩ | ⟨h1, -⟩
            · exact .inr (.inr rfl)
            · exact .inr (.inl ⟨p, by rw [hdt]; exact h1, rfl⟩)
        · exact old a ha hl
      · rw [hlog] at ha
        rw [hst] at hlt
        rcases List.mem_cons.1 ha with rfl | ha
        · simp only at hwho
          subst hwho
          rcases hg rfl with ⟨-, h1, -⟩ | ⟨h1, -⟩
          · omega
          · exact absurd (hdt ▸ h1) hne
        · exact old' hlt a ha hl hwho hne
    · have hlog : ∀ a ∈ m'.mem.log, a.loc = .data d → a ∈ m.mem.log := by
        intro a ha hl
        rw [hs.2.1] at ha
        rcases Mem.log_run_cases _ _ _ a ha with ha | ⟨-, -, h3⟩
        · exact ha
        · rw [hl] at h3
          obtain ⟨t, e⟩ := data_ops h3
          exact absurd ⟨t, _, e⟩ ht
      refine ⟨fun a ha hl => old a (hlog a ha hl) hl, fun a ha hl hwho hlt hne => ?_⟩
      by_cases e : i < m.st.q.pushed.length
      · exact old' e a (hlog a ha hl) hl hwho hne
      · cases hs.change with
        | same h1 => rw [h1] at hlt; exact absurd hlt e
        | store p i x _ _ h1 => rw [h1] at hlt; exact absurd hlt e
        | close p _ _ _ h1 => rw [h1] at hlt; exact absurd hlt e
        | work e' q _ _ hq h1 =>
          rw [h1] at hlt
          simp only [(Q.work_same hq).2.2] at hlt
          exact absurd hlt e
        | claim p x h1 h2 h3 h4 =>
          subst h1
          rw [h4] at hlt
          simp only [Q.claim, List.length_append, List.length_singleton] at hlt
          have he : m.st.q.pushed.length = i := by omega
          have hp : p = p0 := hg he
          subst hp
          refine ⟨⟨m.st.q.tail, x, m.mem.clk (some p)⟩, by rw [hs.2.2.2]; exact List.mem_cons_self, ?_, ?_⟩
          · simp only [hi.tail, he]
          · have := hok.log a (hlog a ha hl)
            rw [hwho] at this
            exact this

/-- **C127**: data that goes with an item is free of data races: a thread uses it before it pushes the item with number `i`, the
handler of this item and of later items uses it, and after the destructor the thread that ran it.  For stages that get fewer
than 2^64 items. -/
theorem C127_handed_over {b : Nat} (hb : 0 < b) {d i p0 : Nat} {ls : List (Lbl α)} {m m' : State α} {l : Lbl α}
    (h : Run b (handed d i p0) ls m) (hw : m.st.q.pushed.length < 2 ^ 64) (hl : handed d i p0 m l) (hs : Step m l m') :
    ¬ Race (fun l => l = .data d) m l := by
  refine Mem.Races.known h.memOk fun a ha hR hne w j hin hww => ?_
  rw [hR] at hin
  obtain ⟨t, rfl⟩ := data_ops hin
  have hh := h.handed hb hw
  have hv := h.vis hb hw
  have hi := (h.stage.inv hb hw).1
  have he := h.ends
  have hle : m.st.q.handled.length ≤ m.st.q.pushed.length := by
    have h1 := hi.head
    have h2 := hi.le
    have h3 := hi.tail
    omega
  have hal : m.free t := by
    cases hs.change with
    | same _ _ h1 => exact h1
    | claim p x h1 => cases h1
    | store p i x h1 => cases h1
    | close p h1 => cases h1
    | work e q h1 => cases h1
  simp only [Lbl.who] at hne ⊢
  cases t with
  | none =>
    have hlt : i < m.st.q.handled.length := hl rfl
    have hpc : m.st.q.pc = .stat := hal
    rcases hh.used a ha hR with ⟨h1, -⟩ | ⟨p, h1, -⟩ | h1
    · exact absurd h1 hne
    · have := (he.joined p h1).1
      rw [hpc] at this
      cases this
    · obtain ⟨c, hc, h2, h3⟩ := hh.known a ha hR h1 (by omega) fun e => by
        have := (he.joined p0 e).1
        rw [hpc] at this
        cases this
      rw [h1]
      exact Nat.le_trans h3 (hv.known c hc (by omega) _)
  | some p =>
    rcases hl rfl with ⟨rfl, h1, h2⟩ | ⟨h1, h2⟩
    · rcases hh.used a ha hR with ⟨-, h3⟩ | ⟨q, h3, -⟩ | h3
      · omega
      · rw [h2] at h3; cases h3
      · exact absurd h3 hne
    · rcases hh.used a ha hR with ⟨h3, -⟩ | ⟨q, h3, h4⟩ | h3
      · have := h.memOk.log a ha
        rw [h3] at this ⊢
        exact Nat.le_trans this ((he.joined p h1).2 _)
      · rw [h1] at h3
        cases h3
        exact absurd h4 hne
      · by_cases e : p = p0
        · subst e; exact absurd h3 hne
        · have hlt : i < m.st.q.pushed.length := h2.resolve_left e
          obtain ⟨c, hc, -, h5⟩ := hh.known a ha hR h3 hlt fun e' => by
            rw [h1] at e'
            simp only [Option.some.injEq, Prod.mk.injEq, and_true] at e'
            exact e e'
          obtain ⟨k1, k2⟩ := he.joined p h1
          rw [h3]
          exact Nat.le_trans h5 (Nat.le_trans (he.know c hc _) (Nat.le_trans (he.done k1 _).2 (k2 _)))

/-- **C127**: data that only the handler uses is free of data races, however many items there are. -/
theorem C127_own {b : Nat} {d : Nat} {ls : List (Lbl α)} {m m' : State α} {l : Lbl α}
    (h : Run b (fun _ l => ∀ p w, l ≠ .touch (some p) d w) ls m) (hs : Step m l m') (hl : ∀ p w, l ≠ .touch (some p) d w) :
    ¬ Race (fun l => l = .data d) m l := by
  have key : ∀ a ∈ m.mem.log, a.loc = .data d → a.who = none := by
    clear hl hs
    induction h with
    | new => exact fun a ha => (by cases ha)
    | step ls m m' l hr hg hs ih =>
      intro a ha hR
      rw [hs.2.1] at ha
      rcases Mem.log_run_cases _ _ _ a ha with ha | ⟨h1, -, h3⟩
      · exact ih a ha hR
      · rw [hR] at h3
        obtain ⟨t, rfl⟩ := data_ops h3
        cases t with
        | none => exact h1
        | some p => exact absurd rfl (hg p _)
  refine Mem.Races.known h.memOk fun a ha hR hne w j hin hww => ?_
  rw [hR] at hin
  obtain ⟨t, rfl⟩ := data_ops hin
  cases t with
  | none => exact absurd (key a ha hR) hne
  | some p => exact absurd rfl (hl p w)

/-- The handler tells nobody anything. -/
def quiet : State α → Lbl α → Prop := fun _ l => ∀ n, l ≠ .base (.rel none n)

/-- Only the destructor learns what the worker did. -/
theorem Run.secret {b : Nat} {ls : List (Lbl α)} {m : State α} (h : Run b quiet ls m)
    (hd : ∀ q, m.dtor ≠ some (q, true)) : (∀ p, m.mem.clk (some p) none = 0) ∧ ∀ o, o ≠ .done → m.mem.sync o none = 0 := by
  induction h with
  | new => exact ⟨fun _ => rfl, fun _ _ => rfl⟩
  | step ls m m' l hr hg hs ih =>
    have hd0 : ∀ q, m.dtor ≠ some (q, true) := fun q e => hd q (hr.joined hs e)
    obtain ⟨i1, i2⟩ := ih hd0
    -- the worker releases nothing but its end, the others only what they know
    have key : ∀ (os : List (Op Loc Obj)) (mm : Mem HB.Thr Loc Obj), (∀ p, mm.clk (some p) none = 0) →
        (∀ o, o ≠ .done → mm.sync o none = 0) →
        (l.who = none → ∀ o, .rel o ∈ os → o = .done) → (∀ p, l.who = some p → .acq .done ∉ os) → (∀ o, .sto o ∉ os) →
        (∀ p, (mm.run l.who os).clk (some p) none = 0) ∧ ∀ o, o ≠ .done → (mm.run l.who os).sync o none = 0 := by
      intro os
      induction os with
      | nil => exact fun mm h1 h2 _ _ _ => ⟨h1, h2⟩
      | cons x os ih =>
        intro mm h1 h2 h3 h4 h5
        refine ih _ (fun p => ?_) (fun o ho => ?_) (fun e o ho => h3 e o (List.mem_cons_of_mem _ ho))
          (fun p e ho => h4 p e (List.mem_cons_of_mem _ ho)) (fun o ho => h5 o (List.mem_cons_of_mem _ ho))
        · cases x with
          | acq o =>
            by_cases e : some p = l.who
            · have ho : o ≠ .done := fun e' => h4 p e.symm (by rw [e']; exact List.mem_cons_self)
              have := h1 p
              have := h2 o ho
              rw [e] at *
              simp only [Mem.op, put_same]
              omega
            · simp only [Mem.op, put_ne _ _ e]; exact h1 p
          | acc lo w i =>
            by_cases e : some p = l.who
            · have := h1 p
              rw [← e]
              simp only [Mem.op, put_same, put_ne _ _ (show (none : HB.Thr) ≠ some p by simp)]
              exact this
            · simp only [Mem.op, put_ne _ _ e]; exact h1 p
          | rel o => exact h1 p
          | sto o => exact h1 p
        · cases x with
          | rel o' =>
            by_cases e : o = o'
            · subst e
              cases hw : l.who with
              | none => exact absurd (h3 hw o List.mem_cons_self) ho
              | some p =>
                have := h1 p
                have := h2 o ho
                simp only [Mem.op, put_same]
                omega
            · simp only [Mem.op, put_ne _ _ e]; exact h2 o ho
          | sto o' => exact absurd List.mem_cons_self (h5 o')
          | acq o' => exact h2 o ho
          | acc lo w i => exact h2 o ho
    rw [hs.2.1]
    refine key _ _ i1 i2 (fun e o ho => ?_) (fun p e ho => ?_) fun o => no_sto o
    · cases l with
      | join p => cases e
      | touch t d w => simp [ops] at ho
      | base l =>
        rcases mem_ops ho with ⟨o', h1, h2⟩ | h
        · exfalso
          cases l with
          | work e => rcases mem_workOps h1 with rfl | rfl | ⟨_, _, _, rfl⟩ <;> cases h2
          | self => simp only [HB.ops, List.mem_singleton] at h1; subst h1; cases h2
          | rel t n =>
            simp only [Lbl.who, HB.Lbl.who] at e
            subst e
            exact hg n rfl
          | acq t n => simp only [HB.ops, List.mem_singleton] at h1; subst h1; cases h2
          | _ => cases e
        · cases h; rfl
    · cases l with
      | join q => exact hd q hs.2.2.1
      | touch t d w => simp [ops] at ho
      | base l =>
        rcases mem_ops ho with ⟨o', -, h2⟩ | h
        · cases o' <;> cases h2
        · cases h

/-- **C127**: there is no way back before the end: once the handler has used data, a write to it by any thread outside is a data
race until this thread has run the destructor, unless the handler releases something by itself. -/
theorem C127_back_races {b : Nat} {ls : List (Lbl α)} {m : State α} (h : Run b quiet ls m) {d : Nat}
    {a : Access HB.Thr Loc} (ha : a ∈ m.mem.log) (hw : a.who = none) (hl : a.loc = .data d)
    (hd : ∀ q, m.dtor ≠ some (q, true)) (p : Nat) : Race (fun l => l = .data d) m (.touch (some p) d true) := by
  refine .inl ⟨rfl, a, ha, hl, .inr rfl, ?_⟩
  have := (h.secret hd).1 p
  have := h.memOk.pos a ha
  rw [hw]
  simp only [Lbl.who]
  omega

end Verif.Pipeline.Life
