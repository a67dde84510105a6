import Verif.Pipeline.PoolRacesProps
/-!
What is visible to the handlers of a pool and after its destruction (C117, C118), and pools whose slots are free of races (C116).
-/
namespace Verif.Pipeline.Pool.HB
open Verif Verif.HB Verif.Pipeline Verif.Pipeline.Pool
variable {α : Type}

/-! ### Facts about steps -/

/-- How a worker moves on. -/
inductive Moves (c : Bool) (q q' : Q α) : Prop
  | outer : q.pc = .outer → q'.pc = (if c then .drain else .inner) → q'.handled = q.handled → Moves c q q'
  | drain : q.pc = .drain → q'.pc = (if (q.tail + word - q.head) % word > 0 then .inner else .ended) →
      q'.handled = q.handled → Moves c q q'
  | inner : q.pc = .inner → q'.pc = (if q.head < q.tail then .check else .outer) → q'.handled = q.handled → Moves c q q'
  | check : q.pc = .check → q'.pc = .take ∨ q'.pc = .inner → q'.handled = q.handled → Moves c q q'
  | take : q.pc = .take → q'.pc = .call q.head → q'.handled = q.handled → Moves c q q'
  | call (i : Nat) (v : α) : q.pc = .call i → q'.pc = .stat → q'.handled = q.handled ++ [v] → Moves c q q'
  | stat : q.pc = .stat → q'.pc = .inner → q'.handled = q.handled → Moves c q q'

theorem moves {c : Bool} {e : Int} {q q' : Q α} (hq : q.work c e = .ok q') : Moves c q q' := by
  cases hpc : q.pc with
  | outer => simp only [Q.work, hpc, Res.ok.injEq] at hq; subst hq; exact .outer hpc rfl rfl
  | drain => simp only [Q.work, hpc, Res.ok.injEq] at hq; subst hq; exact .drain hpc rfl rfl
  | inner => simp only [Q.work, hpc, Res.ok.injEq] at hq; subst hq; exact .inner hpc rfl rfl
  | take => simp only [Q.work, hpc, Res.ok.injEq] at hq; subst hq; exact .take hpc rfl rfl
  | stat => simp only [Q.work, hpc, Res.ok.injEq] at hq; subst hq; exact .stat hpc rfl rfl
  | ended => simp [Q.work, hpc] at hq
  | check =>
    cases hs : q.slots[q.head % q.slots.length]? with
    | none => simp [Q.work, hpc, hs] at hq
    | some o =>
      cases o <;> (simp only [Q.work, hpc, hs, Res.ok.injEq] at hq; subst hq)
      · exact .check hpc (.inr rfl) rfl
      · exact .check hpc (.inl rfl) rfl
  | call i =>
    cases hs : q.slots[i % q.slots.length]? with
    | none => simp [Q.work, hpc, hs] at hq
    | some o =>
      cases o with
      | none => simp [Q.work, hpc, hs] at hq
      | some v =>
        simp only [Q.work, hpc, hs] at hq
        cases h1 : timeForUnit q.stat with
        | ub => simp [h1] at hq
        | hang => simp [h1] at hq
        | ok a =>
        cases h2 : bufferUtilization q.stat with
        | ub => simp [h1, h2] at hq
        | hang => simp [h1, h2] at hq
        | ok b =>
        simp only [h1, h2, Res.ok_bind, Res.ok.injEq] at hq
        subst hq
        exact .call i v hpc rfl rfl

/-- Later steps, whatever they are. -/
inductive Later (size : Nat) (tf : Bool) (m : State α) : State α → Prop
  | refl : Later size tf m m
  | step (m1 m2 : State α) (l : Lbl α) : Later size tf m m1 → Step size tf m1 l m2 → Later size tf m m2

theorem Run.later {b size : Nat} {tf : Bool} {ls : List (Lbl α)} {m m' : State α} (h : Run b size tf noLoc anyLbl ls m)
    (hl : Later size tf m m') : ∃ ls', Run b size tf noLoc anyLbl ls' m' := by
  induction hl with
  | refl => exact ⟨ls, h⟩
  | step m1 m2 l _ hs ih =>
    obtain ⟨ls', ih⟩ := ih
    exact ⟨l :: ls', .step _ _ _ _ ih trivial hs (Mem.Races.nowhere (fun _ h => h) _ _)⟩

theorem no_sto {tf : Bool} {m : State α} {l : Lbl α} (o : Obj) : .sto o ∉ ops tf m l := by
  intro h
  cases l with
  | scan p => obtain ⟨_, h⟩ := mem_scanOps h; cases h
  | claim p => simp only [ops, claimOps] at h; split at h <;> simp at h
  | store p => simp only [ops, storeOps] at h; split at h <;> simp at h
  | work k e =>
    rcases mem_workOps h with h | h | h | h | h | ⟨_, h⟩ | ⟨_, _, h⟩ | ⟨_, h⟩ <;> cases h
  | join p => simp only [ops, joinOps] at h; split at h <;> simp at h
  | _ => simp [ops] at h

/-- What threads and objects know only grows. -/
theorem Step.grow {size : Nat} {tf : Bool} {m m' : State α} {l : Lbl α} (h : Step size tf m l m') :
    (∀ t u, m.mem.clk t u ≤ m'.mem.clk t u) ∧ ∀ o u, m.mem.sync o u ≤ m'.mem.sync o u := by
  rw [h.2.1]
  exact ⟨fun t u => Mem.clk_run _ _ _ _ _, fun o u => Mem.sync_run _ _ _ _ _ (no_sto o)⟩

/-- The record of pushes only grows. -/
theorem Step.claims {size : Nat} {tf : Bool} {m m' : State α} {l : Lbl α} (h : Step size tf m l m') :
    ∀ c ∈ m.claims, c ∈ m'.claims := by
  intro c hc
  rw [h.2.2.2]
  cases l with
  | claim p =>
    simp only [record]
    split
    · exact List.mem_cons_of_mem _ hc
    · exact hc
  | _ => exact hc

theorem Later.claims {size : Nat} {tf : Bool} {m m' : State α} (h : Later size tf m m') :
    ∀ c ∈ m.claims, c ∈ m'.claims := by
  induction h with
  | refl => exact fun c hc => hc
  | step m1 m2 l _ hs ih => exact fun c hc => hs.claims c (ih c hc)

theorem Later.pushed {size : Nat} {tf : Bool} {m m' : State α} (h : Later size tf m m') :
    m.st.pushed.length ≤ m'.st.pushed.length := by
  induction h with
  | refl => exact Nat.le_refl _
  | step m1 m2 l _ hs ih => exact Nat.le_trans ih hs.mono.2

/-- The queue `n` before and after a step: it is claimed, written, worked on, or stays as it is. -/
inductive Change (m m' : State α) (l : Lbl α) (n : Nat) : Prop
  | same : m'.st.qs n = m.st.qs n → (∀ e, l ≠ .work n e) → Change m m' l n
  | claim (p : Nat) (x : α) (seen : List Nat) : l = .claim p → m.st.prod p = .chosen x n seen →
      m'.st.qs n = (m.st.qs n).claim x → Change m m' l n
  | store (p : Nat) (x : α) (i : Nat) : l = .store p → m.st.prod p = .claimed x n i →
      m'.st.qs n = { m.st.qs n with slots := (m.st.qs n).slots.set (i % (m.st.qs n).slots.length) (some x) } →
      Change m m' l n
  | work (e : Int) : l = .work n e → (m.st.qs n).pc ≠ .ended → (m.st.qs n).work m.st.closed e = .ok (m'.st.qs n) →
      Change m m' l n

theorem Step.change {size : Nat} {tf : Bool} {m m' : State α} {l : Lbl α} (h : Step size tf m l m') (n : Nat) :
    Change m m' l n := by
  obtain ⟨h1, -⟩ := h
  cases l with
  | start p x =>
    obtain ⟨-, -, h3⟩ := effect (l := .start p x) h1
    exact .same (by rw [h3]) (by simp)
  | scan p =>
    obtain ⟨-, st, -, h3⟩ := effect (l := .scan p) h1
    exact .same (by rw [h3]) (by simp)
  | claim p =>
    obtain ⟨x, id, seen, h2, h3⟩ := effect (l := .claim p) h1
    by_cases e : id = n
    · subst e; exact .claim p x seen rfl h2 (by rw [h3]; simp [upd_same])
    · exact .same (by rw [h3]; simp [upd_other _ _ (Ne.symm e)]) (by simp)
  | store p =>
    obtain ⟨x, id, i, h2, h3⟩ := effect (l := .store p) h1
    by_cases e : id = n
    · subst e; exact .store p x i rfl h2 (by rw [h3]; simp [upd_same])
    · exact .same (by rw [h3]; simp [upd_other _ _ (Ne.symm e)]) (by simp)
  | close p =>
    obtain ⟨-, -, h3⟩ := effect (l := .close) h1
    exact .same (by rw [h3]) (by simp)
  | work k e =>
    obtain ⟨q, h2, h8, hne, hq, h3⟩ := effect (l := .work k e) h1
    by_cases ek : k = n
    · subst ek; exact .work e rfl hne (by rw [h3]; simpa [upd_same] using hq)
    · exact .same (by rw [h3]; simp [upd_other _ _ (Ne.symm ek)]) (by simp [ek])
  | join p => exact .same (by rw [h1.2]) (by simp)
  | touch t d w => exact .same (by rw [h1.2]) (by simp)
  | rel t u => exact .same (by rw [h1.2]) (by simp)
  | acq t u => exact .same (by rw [h1.2]) (by simp)

/-- The counter of a queue that is not claimed carries the same. -/
theorem Step.tail_same {size : Nat} {tf : Bool} {m m' : State α} {l : Lbl α} (h : Step size tf m l m') (n : Nat)
    (hn : ∀ p x seen, m.st.prod p ≠ .chosen x n seen) : m'.mem.sync (.tail n) = m.mem.sync (.tail n) := by
  rw [h.2.1]
  refine Mem.sync_other _ _ _ _ fun o ho => ⟨?_, fun e => no_sto _ (e ▸ ho)⟩
  rintro rfl
  cases l with
  | scan p => obtain ⟨_, h⟩ := mem_scanOps ho; cases h
  | claim p =>
    simp only [ops, claimOps] at ho
    split at ho <;> simp at ho
    rename_i x id seen hx
    subst ho
    exact hn _ _ _ hx
  | store p => simp only [ops, storeOps] at ho; split at ho <;> simp at ho
  | work k e =>
    rcases mem_workOps ho with h | h | h | h | h | ⟨_, h⟩ | ⟨_, _, h⟩ | ⟨_, h⟩ <;> cases h
  | join p => simp only [ops, joinOps] at ho; split at ho <;> simp at ho
  | _ => simp [ops] at ho

/-- After `closed_ = true` nobody pushes; and only then workers leave their loop. -/
theorem Run.closing {b size : Nat} {tf : Bool} {R : Loc → Prop} {G : State α → Lbl α → Prop} {ls : List (Lbl α)}
    {m : State α} (h : Run b size tf R G ls m) : (m.st.closed = true → ∀ p, m.st.prod p = .idle) ∧
    ∀ n, (m.st.qs n).pc = .drain ∨ (m.st.qs n).pc = .ended → m.st.closed = true := by
  induction h with
  | new => exact ⟨fun h => (by cases h), fun n h => (by rcases h with h | h <;> cases h)⟩
  | step ls m m' l hr hg hs hnr ih =>
    obtain ⟨ih1, ih2⟩ := ih
    have hmono := hs.mono
    refine ⟨fun hc p => ?_, fun n hn => ?_⟩
    · have key : ∀ pl, Pool.Step size tf m.st pl (.ok m'.st) → m'.st.prod p = .idle := by
        intro pl hp
        rcases hp.cases_ok with ⟨p', st, _, _, h3, _, e⟩ | ⟨p', x, id, seen, h3, e⟩ | ⟨p', x, id, i, q, h3, hq, e⟩ |
          ⟨_, h3, e⟩ | ⟨n, e', q, _, _, _, hq, e⟩ <;> rw [e] at hc ⊢
        · rcases h3 with h3 | h3
          · simp only [h3] at hc; cases hc
          · exact absurd (ih1 hc p') h3
        · have := ih1 hc p'; rw [h3] at this; cases this
        · have := ih1 hc p'; rw [h3] at this; cases this
        · exact h3 p
        · exact ih1 hc p
      have h1 := hs.1
      cases l with
      | start p x => exact key _ h1
      | scan p => exact key _ h1
      | claim p => exact key _ h1
      | store p => exact key _ h1
      | close p => exact key _ h1
      | work n e => exact key _ h1
      | join p => rw [h1.2] at hc ⊢; exact ih1 hc _
      | touch t d w => rw [h1.2] at hc ⊢; exact ih1 hc _
      | rel t u => rw [h1.2] at hc ⊢; exact ih1 hc _
      | acq t u => rw [h1.2] at hc ⊢; exact ih1 hc _
    · refine hmono.1 ?_
      cases hs.change n with
      | same h1 h2 => rw [h1] at hn; exact ih2 n hn
      | claim p x seen h1 h2 h3 => rw [h3] at hn; exact ih2 n hn
      | store p x i h1 h2 h3 => rw [h3] at hn; exact ih2 n hn
      | work e h1 h2 h3 =>
        cases moves h3 with
        | outer k1 k2 k3 =>
          cases hc : m.st.closed with
          | true => rfl
          | false => rw [k2, hc] at hn; simp at hn
        | drain k1 k2 k3 => exact ih2 n (.inl k1)
        | inner k1 k2 k3 => rw [k2] at hn; split at hn <;> simp at hn
        | check k1 k2 k3 => rcases k2 with k2 | k2 <;> rw [k2] at hn <;> simp at hn
        | take k1 k2 k3 => rw [k2] at hn; simp at hn
        | call i v k1 k2 k3 => rw [k2] at hn; simp at hn
        | stat k1 k2 k3 => rw [k2] at hn; simp at hn

/-! ### C117: after the destructor -/

/-- What holds of workers that have ended. -/
structure Ends (size : Nat) (m : State α) : Prop where
  know : ∀ c ∈ m.claims, ∀ u, c.know u ≤ m.mem.sync (.tail c.q) u
  done : ∀ n, (m.st.qs n).pc = .ended → ∀ u, m.mem.clk (.worker n) u ≤ m.mem.sync (.done n) u ∧
    m.mem.sync (.tail n) u ≤ m.mem.clk (.worker n) u
  joined : ∀ p k, m.dtor = some (p, k) → ∀ j, j < k → (m.st.qs j).pc = .ended ∧
    ∀ u, m.mem.clk (.worker j) u ≤ m.mem.clk (.out p) u
  exist : ∀ n, (m.st.qs n).pc ≠ .outer → n < size
  made : ∀ a ∈ m.mem.log, ∀ n, a.who = .worker n → n < size

theorem Step.ended {size : Nat} {tf : Bool} {m m' : State α} {l : Lbl α} (h : Step size tf m l m') {n : Nat}
    (hn : (m.st.qs n).pc = .ended) : (m'.st.qs n).pc = .ended ∧ m'.mem.clk (.worker n) = m.mem.clk (.worker n) := by
  refine ⟨?_, ?_⟩
  · cases h.change n with
    | same h1 h2 => rw [h1]; exact hn
    | claim p x seen h1 h2 h3 => rw [h3]; exact hn
    | store p x i h1 h2 h3 => rw [h3]; exact hn
    | work e h1 h2 h3 => exact absurd hn h2
  · rw [h.2.1]
    refine Mem.clk_other _ (fun e => ?_) _
    have h1 := h.1
    cases l with
    | work k e' =>
      cases e
      obtain ⟨q, h2, h8, hne, -⟩ := effect (l := .work n e') h1
      exact hne hn
    | touch t d w =>
      simp only [Lbl.who] at e
      have := h1.1
      rw [← e] at this
      simp only [State.allows, State.free] at this
      rw [hn] at this
      cases this
    | rel t d =>
      simp only [Lbl.who] at e
      have := h1.1
      rw [← e] at this
      simp only [State.allows, State.free] at this
      rw [hn] at this
      cases this
    | acq t d =>
      simp only [Lbl.who] at e
      have := h1.1
      rw [← e] at this
      simp only [State.allows, State.free] at this
      rw [hn] at this
      cases this
    | _ => cases e

theorem Run.ends {b size : Nat} {tf : Bool} {R : Loc → Prop} {G : State α → Lbl α → Prop} {ls : List (Lbl α)}
    {m : State α} (h : Run b size tf R G ls m) : Ends size m := by
  induction h with
  | new =>
    exact ⟨fun c hc => (by cases hc), fun n hn => (by cases hn), fun p k hk => (by cases hk), fun n hn => absurd rfl hn,
      fun a ha => (by cases ha)⟩
  | step ls m m' l hr hg hs hnr ih =>
    obtain ⟨hidle, hclose⟩ := hr.closing
    obtain ⟨g1, g2⟩ := hs.grow
    have hexist : ∀ n, (m'.st.qs n).pc ≠ .outer → n < size := by
      intro n hn
      cases hs.change n with
      | same h1 h2 => rw [h1] at hn; exact ih.exist n hn
      | claim p x seen h1 h2 h3 => rw [h3] at hn; exact ih.exist n hn
      | store p x i h1 h2 h3 => rw [h3] at hn; exact ih.exist n hn
      | work e h1 h2 h3 =>
        subst h1
        obtain ⟨q, k2, -⟩ := effect (l := .work n e) hs.1
        exact k2
    refine ⟨fun c hc u => ?_, fun n hn u => ?_, fun p k hk j hj => ?_, hexist, fun a ha n hn => ?_⟩
    · rw [hs.2.2.2] at hc
      have old : c ∈ m.claims → c.know u ≤ m'.mem.sync (.tail c.q) u := fun hc =>
        Nat.le_trans (ih.know c hc u) (g2 _ _)
      cases l with
      | claim p =>
        simp only [record] at hc
        split at hc
        · rename_i x id seen hx
          rcases List.mem_cons.1 hc with rfl | hc
          · have hops : ops tf m (.claim p) = [.acq (.tail id), .rel (.tail id)] := by simp [ops, claimOps, hx]
            rw [hs.2.1, hops]
            simp only [Mem.run, Mem.op, put_same, Lbl.who]
            omega
          · exact old hc
        · exact old hc
      | _ => exact old hc
    · by_cases hp : (m.st.qs n).pc = .ended
      · have hc := hclose n (.inr hp)
        have h1 := ih.done n hp u
        rw [(hs.ended hp).2, hs.tail_same n fun p x seen => by rw [hidle hc p]; simp]
        exact ⟨Nat.le_trans h1.1 (g2 _ _), h1.2⟩
      · cases hs.change n with
        | same h1 h2 => rw [h1] at hn; exact absurd hn hp
        | claim p x seen h1 h2 h3 => rw [h3] at hn; exact absurd hn hp
        | store p x i h1 h2 h3 => rw [h3] at hn; exact absurd hn hp
        | work e h1 h2 h3 =>
          cases moves h3 with
          | outer k1 k2 k3 => rw [k2] at hn; split at hn <;> simp at hn
          | inner k1 k2 k3 => rw [k2] at hn; split at hn <;> simp at hn
          | check k1 k2 k3 => rcases k2 with k2 | k2 <;> rw [k2] at hn <;> simp at hn
          | take k1 k2 k3 => rw [k2] at hn; simp at hn
          | call i v k1 k2 k3 => rw [k2] at hn; simp at hn
          | stat k1 k2 k3 => rw [k2] at hn; simp at hn
          | drain k1 k2 k3 =>
            subst h1
            have hz : ¬ ((m.st.qs n).tail + word - (m.st.qs n).head) % word > 0 := by
              intro hz
              rw [k2, if_pos hz] at hn
              cases hn
            have hops : ops tf m (.work n e) = [.acq (.tail n), .acq (.head n), .rel (.done n)] := by
              simp only [ops, workOps, k1, if_neg hz]
              rfl
            rw [hs.2.1, hops]
            have hd : Obj.tail n ≠ .done n := by simp
            simp only [Mem.run, Mem.op, put_same, Lbl.who, put_ne _ _ hd]
            omega
    · have hd := hs.2.2.1
      rw [hk] at hd
      have old : ∀ k0, m.dtor = some (p, k0) → j < k0 → (m'.st.qs j).pc = .ended ∧
          ∀ u, m'.mem.clk (.worker j) u ≤ m'.mem.clk (.out p) u := by
        intro k0 hk0 hj0
        obtain ⟨h1, h2⟩ := ih.joined p k0 hk0 j hj0
        obtain ⟨h3, h4⟩ := hs.ended h1
        exact ⟨h3, fun u => by rw [h4]; exact Nat.le_trans (h2 u) (g1 _ _)⟩
      cases l with
      | close q =>
        simp only [dtorAfter, Option.some.injEq, Prod.mk.injEq] at hd
        omega
      | join q =>
        obtain ⟨⟨k0, hk0, -, hpc⟩, hst⟩ := hs.1
        simp only [dtorAfter, hk0, Option.map_some, Option.some.injEq, Prod.mk.injEq] at hd
        obtain ⟨rfl, rfl⟩ := hd
        by_cases e : j < k0
        · exact old k0 hk0 e
        · have : j = k0 := by omega
          subst this
          obtain ⟨h3, h4⟩ := hs.ended hpc
          refine ⟨h3, fun u => ?_⟩
          rw [h4, hs.2.1]
          have h5 := (ih.done j hpc u).1
          have hops : ops tf m (.join p) = [.acq (.done j)] := by simp [ops, joinOps, hk0]
          rw [hops]
          simp only [Mem.run, Mem.op, put_same, Lbl.who]
          omega
      | _ => exact old k hd.symm hj
    · rw [hs.2.1] at ha
      rcases Mem.log_run_cases _ _ _ a ha with ha | ⟨h1, -, -⟩
      · exact ih.made a ha n hn
      · rw [h1] at hn
        have free : m.free size l.who → n < size := by
          rw [hn]
          intro hf
          simp only [State.free] at hf
          exact ih.exist n (by rw [hf]; simp)
        have k1 := hs.1
        cases l with
        | work k e =>
          obtain ⟨q, k2, -⟩ := effect (l := .work k e) k1
          cases hn
          exact k2
        | touch t d w => exact free k1.1
        | rel t d => exact free k1.1
        | acq t d => exact free k1.1
        | _ => cases hn

/-- **C117**: when the destructor of a pool has returned, everything that the workers did, their handlers included, happens
before what the thread does that ran the destructor. -/
theorem C117_handlers {b size : Nat} {tf : Bool} {ls : List (Lbl α)} {m : State α} (h : Run b size tf noLoc anyLbl ls m)
    {p : Nat} (hd : m.dtor = some (p, size)) : ∀ a ∈ m.mem.log, ∀ n, a.who = .worker n →
    a.time ≤ m.mem.clk (.out p) (.worker n) := by
  intro a ha n hn
  have := h.memOk.log a ha
  rw [hn] at this
  exact Nat.le_trans this ((h.ends.joined p size hd n (h.ends.made a ha n hn)).2 _)

/-- **C117**: a use of data by that thread, after the destructor, races at most with other threads outside the pool, never with
a handler. -/
theorem C117_data {b size : Nat} {tf : Bool} {ls : List (Lbl α)} {m m' : State α} (h : Run b size tf noLoc anyLbl ls m)
    {p d : Nat} {wr : Bool} (hd : m.dtor = some (p, size)) (_ : Step size tf m (.touch (.out p) d wr) m')
    (hr : Race (fun _ => True) tf m (.touch (.out p) d wr)) :
    ∃ a ∈ m.mem.log, ∃ q, a.who = .out q ∧ q ≠ p ∧ a.loc = .data d := by
  rcases hr with ⟨-, a, ha, hl, -, hlt⟩ | hr
  · cases hw : a.who with
    | worker n =>
      have := C117_handlers h hd a ha n hw
      rw [hw] at hlt
      simp only [Lbl.who] at hlt
      omega
    | out q =>
      refine ⟨a, ha, q, hw, ?_, hl⟩
      rintro rfl
      have := h.memOk.log a ha
      rw [hw] at hlt this
      simp only [Lbl.who] at hlt
      omega
  · exact hr.elim

/-- **C117**: nothing that the workers or the destructor do is left to be a race later: also everything that a thread came after
when it pushed into the queue of one of the workers happens before what follows the destructor. -/
theorem C117_pushes {b size : Nat} {tf : Bool} {ls : List (Lbl α)} {m m1 m2 : State α} (h : Run b size tf noLoc anyLbl ls m)
    {p p' n : Nat} {x : α} {seen : List Nat} (hp : m.st.prod p = .chosen x n seen) (hn : n < size)
    (hs : Step size tf m (.claim p) m1) (hl : Later size tf m1 m2) (hd : m2.dtor = some (p', size)) (t : Thr) :
    m.mem.clk (.out p) t ≤ m2.mem.clk (.out p') t := by
  have h1 : Run b size tf noLoc anyLbl _ m1 := .step _ _ _ _ h trivial hs (Mem.Races.nowhere (fun _ h => h) _ _)
  obtain ⟨ls', h2⟩ := h1.later hl
  have hc : ⟨n, (m.st.qs n).tail, x, m.mem.clk (.out p)⟩ ∈ m2.claims := by
    have h3 : ⟨n, (m.st.qs n).tail, x, m.mem.clk (.out p)⟩ ∈ m1.claims := by
      rw [hs.2.2.2]
      simp [record, hp]
    exact hl.claims _ h3
  have he := h2.ends
  obtain ⟨k1, k2⟩ := he.joined p' size hd n hn
  exact Nat.le_trans (he.know _ hc t) (Nat.le_trans (he.done n k1 t).2 (k2 t))

/-! ### C118: before a push -/

/-- Items that the worker is about to handle. -/
def ahead : Pc → Nat
  | .check | .take | .call _ => 1
  | _ => 0

/-- What the pushes recorded and the worker knows. -/
structure Vis (m : State α) : Prop where
  known : ∀ c ∈ m.claims, c.i < (m.st.qs c.q).handled.length + ahead (m.st.qs c.q).pc →
    ∀ u, c.know u ≤ m.mem.clk (.worker c.q) u
  all : ∀ n i x, (m.st.qs n).pushed[i]? = some x → ∃ c ∈ m.claims, c.q = n ∧ c.i = i ∧ c.item = x

theorem Run.vis {b size : Nat} (hb : 0 < b) {tf : Bool} {R : Loc → Prop} {G : State α → Lbl α → Prop} {ls : List (Lbl α)}
    {m : State α} (h : Run b size tf R G ls m) (hw : m.st.pushed.length < word) : Vis m := by
  induction h with
  | new =>
    refine ⟨fun c hc => (by cases hc), fun n i x h => ?_⟩
    simp [State.new, Pool.State.new, Q.new] at h
  | step ls m m' l hr hg hs hnr ih =>
    have hw0 : m.st.pushed.length < word := Nat.lt_of_le_of_lt hs.mono.2 hw
    have ih := ih hw0
    have hi := fun k => hr.qinv hb hw0 k
    obtain ⟨g1, g2⟩ := hs.grow
    have hcl : ∀ c ∈ m.claims, c ∈ m'.claims := hs.claims
    refine ⟨fun c hc => ?_, fun n i x hx => ?_⟩
    · have old : c ∈ m.claims → c.i < (m'.st.qs c.q).handled.length + ahead (m'.st.qs c.q).pc →
          ∀ u, c.know u ≤ m'.mem.clk (.worker c.q) u := by
        intro hc hlt u
        have keep : c.i < (m.st.qs c.q).handled.length + ahead (m.st.qs c.q).pc →
            c.know u ≤ m'.mem.clk (.worker c.q) u := fun h => Nat.le_trans (ih.known c hc h u) (g1 _ _)
        cases hs.change c.q with
        | same h1 h2 => rw [h1] at hlt; exact keep hlt
        | claim p x seen h1 h2 h3 => rw [h3] at hlt; exact keep hlt
        | store p x i h1 h2 h3 => rw [h3] at hlt; exact keep hlt
        | work e h1 h2 h3 =>
          cases moves h3 with
          | outer k1 k2 k3 =>
            refine keep ?_
            rw [k2, k3] at hlt
            rw [k1]
            split at hlt <;> exact hlt
          | drain k1 k2 k3 =>
            refine keep ?_
            rw [k2, k3] at hlt
            rw [k1]
            split at hlt <;> exact hlt
          | check k1 k2 k3 =>
            refine keep ?_
            rw [k3] at hlt
            rw [k1]
            rcases k2 with k2 | k2 <;> rw [k2] at hlt <;> simp only [ahead] at hlt ⊢ <;> omega
          | take k1 k2 k3 =>
            refine keep ?_
            rw [k2, k3] at hlt
            rw [k1]
            exact hlt
          | call i v k1 k2 k3 =>
            refine keep ?_
            rw [k2, k3] at hlt
            rw [k1]
            simpa [ahead] using hlt
          | stat k1 k2 k3 =>
            refine keep ?_
            rw [k2, k3] at hlt
            rw [k1]
            exact hlt
          | inner k1 k2 k3 =>
            have h4 := hr.ends.know c hc u
            have hops : ops tf m (.work c.q e) = [.acq (.head c.q), .acq (.tail c.q)] := by simp only [ops, workOps, k1]
            rw [hs.2.1, h1, hops]
            simp only [Mem.run, Mem.op, put_same, Lbl.who]
            omega
      rw [hs.2.2.2] at hc
      cases l with
      | claim p =>
        simp only [record] at hc
        split at hc
        · rename_i x id seen hx
          rcases List.mem_cons.1 hc with rfl | hc
          · intro hlt
            exfalso
            obtain ⟨x', id', seen', h2, h3⟩ := effect (l := .claim p) hs.1
            rw [hx] at h2
            cases h2
            rw [h3] at hlt
            simp only [upd_same, Q.claim] at hlt
            have h4 := (hi id).head
            have h5 := (hi id).le
            have h6 := (hi id).busy
            cases hpc : (m.st.qs id).pc <;> simp only [hpc, ahead, Pc.taken] at hlt h4 h6
            all_goals first
              | omega
              | (have := h6 (by simp); omega)
          · exact old hc
        · exact old hc
      | _ => exact old hc
    · have old : (m.st.qs n).pushed[i]? = some x → ∃ c ∈ m'.claims, c.q = n ∧ c.i = i ∧ c.item = x := by
        intro hx
        obtain ⟨c, hc, h⟩ := ih.all n i x hx
        exact ⟨c, hcl c hc, h⟩
      cases hs.change n with
      | same h1 h2 => rw [h1] at hx; exact old hx
      | store p x i h1 h2 h3 => rw [h3] at hx; exact old hx
      | work e h1 h2 h3 => rw [(Q.work_same h3).2.2] at hx; exact old hx
      | claim p y seen h1 h2 h3 =>
        rw [h3] at hx
        simp only [Q.claim] at hx
        by_cases e : i < (m.st.qs n).pushed.length
        · rw [List.getElem?_append_left e] at hx
          exact old hx
        · rw [List.getElem?_append_right (by omega)] at hx
          obtain ⟨hlt, hx⟩ := List.getElem?_eq_some_iff.1 hx
          simp only [List.length_singleton] at hlt
          simp only [List.getElem_singleton] at hx
          subst h1
          refine ⟨⟨n, (m.st.qs n).tail, y, m.mem.clk (.out p)⟩, ?_, rfl, ?_, hx⟩
          · rw [hs.2.2.2]; simp [record, h2]
          · have := (hi n).tail
            simp only
            omega

/-- **C118**: everything that a thread came after when it pushed an item into queue `n` happens before what the worker of this
queue does once it has begun to handle the item with this number, for pools that get fewer than 2^64 items. -/
theorem C118_visible {b size : Nat} (hb : 0 < b) {tf : Bool} {ls : List (Lbl α)} {m m1 m2 : State α}
    (h : Run b size tf noLoc anyLbl ls m) {p n : Nat} {x : α} {seen : List Nat} (hp : m.st.prod p = .chosen x n seen)
    (hs : Step size tf m (.claim p) m1) (hl : Later size tf m1 m2) (hw : m2.st.pushed.length < 2 ^ 64)
    (hh : (m.st.qs n).pushed.length < (m2.st.qs n).handled.length) (t : Thr) :
    m.mem.clk (.out p) t ≤ m2.mem.clk (.worker n) t := by
  have h1 : Run b size tf noLoc anyLbl _ m1 := .step _ _ _ _ h trivial hs (Mem.Races.nowhere (fun _ h => h) _ _)
  obtain ⟨ls', h2⟩ := h1.later hl
  have hc : ⟨n, (m.st.qs n).tail, x, m.mem.clk (.out p)⟩ ∈ m2.claims := by
    have h3 : ⟨n, (m.st.qs n).tail, x, m.mem.clk (.out p)⟩ ∈ m1.claims := by
      rw [hs.2.2.2]
      simp [record, hp]
    exact hl.claims _ h3
  have hw0 : m.st.pushed.length < word := Nat.lt_of_le_of_lt (Nat.le_trans hs.mono.2 hl.pushed) hw
  have ht := (h.qinv hb hw0 n).tail
  exact (h2.vis hb hw).known _ hc (by simp only; omega) t

/-- **C118** (partial: while no queue has got more items than it has slots; false otherwise, `C118_overrun_refuted`): each item
handled is one that was pushed into this queue, and what the pushing thread came after happens before what its handler does. -/
theorem C118_items_partial {b size : Nat} (hb : 0 < b) {tf : Bool} {ls : List (Lbl α)} {m : State α}
    (h : Run b size tf noLoc anyLbl ls m) (hw : m.st.pushed.length < 2 ^ 64) (hl : ∀ k, (m.st.qs k).pushed.length ≤ b)
    {n j : Nat} {x : α} (hx : (m.st.qs n).handled[j]? = some x) :
    ∃ c ∈ m.claims, c.q = n ∧ c.i = j ∧ c.item = x ∧ ∀ t, c.know t ≤ m.mem.clk (.worker n) t := by
  have hf := h.reach.firstLap hb (fun k => Nat.lt_of_le_of_lt (h.reach.queue_le k) hw) hl n
  have hv := h.vis hb hw
  have hlt := (List.getElem?_eq_some_iff.1 hx).1
  have hpx : (m.st.qs n).pushed[j]? = some x := by
    rw [hf.order, List.getElem?_take, if_pos hlt] at hx
    exact hx
  obtain ⟨c, hc, h1, h2, h3⟩ := hv.all n j x hpx
  refine ⟨c, hc, h1, h2, h3, ?_⟩
  subst h1
  exact hv.known c hc (by omega)

/-! ### C116: pools without races on the slots -/

/-- The workers do not run before `closed_ = true`, and everything that was stored by then happens before it. -/
def late (m : State α) : Lbl α → Prop
  | .work _ _ => m.st.closed = true
  | .close p => ∀ a ∈ m.mem.log, slots a.loc → a.time ≤ m.mem.clk (.out p) a.who
  | _ => True

/-- One thread, `p`, makes all pushes. -/
def alone (p : Nat) : Lbl α → Prop
  | .start p' _ => p' = p
  | _ => True

/-- What holds of the slots then. -/
structure Late (m : State α) : Prop where
  writes : ∀ a ∈ m.mem.log, slots a.loc → a.wr = true → (∃ p, a.who = .out p) ∧
    (m.st.closed = true → a.time ≤ m.mem.sync .closed a.who)
  reads : ∀ a ∈ m.mem.log, ∀ n k, a.loc = .slot n k → a.wr = false → a.who = .worker n ∧ m.st.closed = true
  start : m.st.closed = false → ∀ n, (m.st.qs n).pc = .outer
  past : ∀ n, (m.st.qs n).pc ≠ .outer → ∀ u, m.mem.sync .closed u ≤ m.mem.clk (.worker n) u

/-- Slots are written by stores and read by workers. -/
theorem slot_ops {size : Nat} {tf : Bool} {m m' : State α} {l : Lbl α} (h : Step size tf m l m') {n k : Nat} {w : Bool}
    {i : Nat} (ha : .acc (.slot n k) w i ∈ ops tf m l) :
    (∃ p x, l = .store p ∧ m.st.prod p = .claimed x n i ∧ w = true ∧ k = i % (m.st.qs n).slots.length) ∨
    ∃ e, l = .work n e ∧ w = false ∧ (m.st.qs n).pc ≠ .outer := by
  cases l with
  | scan p => obtain ⟨_, h⟩ := mem_scanOps ha; cases h
  | claim p => simp only [ops, claimOps] at ha; split at ha <;> simp at ha
  | store p =>
    simp only [ops, storeOps] at ha
    split at ha <;> simp at ha
    rename_i x id j hx
    obtain ⟨⟨rfl, rfl⟩, rfl, rfl⟩ := ha
    exact .inl ⟨p, x, rfl, hx, rfl, rfl⟩
  | work j e =>
    refine .inr ?_
    have hw : n = j ∧ w = false := by
      rcases mem_workOps ha with h | h | h | h | h | ⟨_, h⟩ | ⟨_, _, h⟩ | ⟨_, h⟩ <;> cases h <;> exact ⟨rfl, rfl⟩
    obtain ⟨rfl, rfl⟩ := hw
    refine ⟨e, rfl, rfl, fun hpc => ?_⟩
    simp only [ops, workOps, hpc] at ha
    split at ha <;> simp at ha
  | join p => simp only [ops, joinOps] at ha; split at ha <;> simp at ha
  | _ => simp [ops] at ha

/-- Only the destructor releases `closed_`. -/
theorem Step.closed_same {size : Nat} {tf : Bool} {m m' : State α} {l : Lbl α} (h : Step size tf m l m')
    (hl : ∀ p, l ≠ .close p) : m'.mem.sync .closed = m.mem.sync .closed ∧ m'.st.closed = m.st.closed := by
  refine ⟨?_, ?_⟩
  · rw [h.2.1]
    refine Mem.sync_other _ _ _ _ fun o ho => ⟨?_, fun e => no_sto _ (e ▸ ho)⟩
    rintro rfl
    cases l with
    | scan p => obtain ⟨_, h⟩ := mem_scanOps ho; cases h
    | claim p => simp only [ops, claimOps] at ho; split at ho <;> simp at ho
    | store p => simp only [ops, storeOps] at ho; split at ho <;> simp at ho
    | work k e => rcases mem_workOps ho with h | h | h | h | h | ⟨_, h⟩ | ⟨_, _, h⟩ | ⟨_, h⟩ <;> cases h
    | join p => simp only [ops, joinOps] at ho; split at ho <;> simp at ho
    | close p => exact hl p rfl
    | _ => simp [ops] at ho
  · have h1 := h.1
    cases l with
    | start p x => obtain ⟨-, -, h3⟩ := effect (l := .start p x) h1; rw [h3]
    | scan p => obtain ⟨-, st, -, h3⟩ := effect (l := .scan p) h1; rw [h3]
    | claim p => obtain ⟨x, id, seen, h2, h3⟩ := effect (l := .claim p) h1; rw [h3]
    | store p => obtain ⟨x, id, i, h2, h3⟩ := effect (l := .store p) h1; rw [h3]
    | close p => exact absurd rfl (hl p)
    | work k e => obtain ⟨q, h2, h8, hne, hq, h3⟩ := effect (l := .work k e) h1; rw [h3]
    | join p => rw [h1.2]
    | touch t d w => rw [h1.2]
    | rel t u => rw [h1.2]
    | acq t u => rw [h1.2]

theorem Run.late {b size : Nat} {tf : Bool} {R : Loc → Prop} {G : State α → Lbl α → Prop} (hG : ∀ m l, G m l → late m l)
    {ls : List (Lbl α)} {m : State α} (h : Run b size tf R G ls m) : Late m := by
  induction h with
  | new =>
    refine ⟨fun a ha => (by cases ha), fun a ha => (by cases ha), fun _ n => rfl, fun n hn => absurd rfl hn⟩
  | step ls m m' l hr hg hs hnr ih =>
    have hg := hG _ _ hg
    obtain ⟨hidle, -⟩ := hr.closing
    obtain ⟨g1, g2⟩ := hs.grow
    have hmono := hs.mono.1
    -- the accesses of this step
    have hnew : ∀ a ∈ m'.mem.log, ∀ n k, a.loc = .slot n k → a ∈ m.mem.log ∨
        (a.wr = true ∧ (∃ p, a.who = .out p) ∧ m'.st.closed = false) ∨
        (a.wr = false ∧ a.who = .worker n ∧ m'.st.closed = true) := by
      intro a ha n k hl
      rw [hs.2.1] at ha
      rcases Mem.log_run_cases _ _ _ a ha with ha | ⟨h1, -, h3⟩
      · exact .inl ha
      · rw [hl] at h3
        rcases slot_ops hs h3 with ⟨p, x, rfl, hx, hw, -⟩ | ⟨e, rfl, hw, -⟩
        · refine .inr (.inl ⟨hw, ⟨p, h1⟩, ?_⟩)
          rw [(hs.closed_same (by simp)).2]
          cases hc : m.st.closed with
          | false => rfl
          | true => have := hidle hc p; rw [hx] at this; cases this
        · exact .inr (.inr ⟨hw, h1, hmono hg⟩)
    refine ⟨fun a ha hsl hw => ?_, fun a ha n k hl hw => ?_, fun hc n => ?_, fun n hn u => ?_⟩
    · obtain ⟨n, k, hl⟩ := hsl
      rcases hnew a ha n k hl with ha' | ⟨h1, h2, h3⟩ | ⟨h1, -⟩
      · obtain ⟨h1, h2⟩ := ih.writes a ha' ⟨n, k, hl⟩ hw
        refine ⟨h1, fun hc => ?_⟩
        by_cases hcl : ∃ p, l = .close p
        · obtain ⟨p, rfl⟩ := hcl
          have h4 := hg a ha' ⟨n, k, hl⟩
          rw [hs.2.1]
          simp only [ops, Mem.run, Mem.op, put_same, Lbl.who]
          omega
        · have hsame := hs.closed_same fun p e => hcl ⟨p, e⟩
          rw [hsame.1]
          exact h2 (by rw [← hsame.2]; exact hc)
      · exact ⟨h2, fun hc => by rw [h3] at hc; cases hc⟩
      · rw [hw] at h1; cases h1
    · rcases hnew a ha n k hl with ha' | ⟨h1, h2, h3⟩ | ⟨h1, h2, h3⟩
      · obtain ⟨h1, h2⟩ := ih.reads a ha' n k hl hw
        exact ⟨h1, hmono h2⟩
      · rw [hw] at h1; cases h1
      · exact ⟨h2, h3⟩
    · have hc0 : m.st.closed = false := by
        cases e : m.st.closed with
        | false => rfl
        | true => rw [hmono e] at hc; cases hc
      cases hs.change n with
      | same h1 h2 => rw [h1]; exact ih.start hc0 n
      | claim p x seen h1 h2 h3 => rw [h3]; exact ih.start hc0 n
      | store p x i h1 h2 h3 => rw [h3]; exact ih.start hc0 n
      | work e h1 h2 h3 =>
        subst h1
        have : m.st.closed = true := hg
        rw [hc0] at this
        cases this
    · by_cases hcl : ∃ p, l = .close p
      · obtain ⟨p, rfl⟩ := hcl
        exfalso
        obtain ⟨hc, -, h3⟩ := effect (l := .close) hs.1
        rw [h3] at hn
        exact hn (ih.start hc n)
      · have hsame := hs.closed_same fun p e => hcl ⟨p, e⟩
        rw [hsame.1]
        have old : (m.st.qs n).pc ≠ .outer → m.mem.sync .closed u ≤ m'.mem.clk (.worker n) u := fun h =>
          Nat.le_trans (ih.past n h u) (g1 _ _)
        cases hs.change n with
        | same h1 h2 => rw [h1] at hn; exact old hn
        | claim p x seen h1 h2 h3 => rw [h3] at hn; exact old hn
        | store p x i h1 h2 h3 => rw [h3] at hn; exact old hn
        | work e h1 h2 h3 =>
          by_cases hp : (m.st.qs n).pc = .outer
          · subst h1
            have hc : m.st.closed = true := hg
            have hops : ops tf m (.work n e) = [.acq .closed] := by simp [ops, workOps, hp, hc]
            rw [hs.2.1, hops]
            simp only [Mem.run, Mem.op, put_same, Lbl.who]
            omega
          · exact old hp

/-- Then the only accesses that could race are two stores. -/
theorem Late.noRace {size : Nat} {tf : Bool} {m m' : State α} {l : Lbl α} (h : Late m) (hok : m.mem.Ok)
    (hidle : m.st.closed = true → ∀ p, m.st.prod p = .idle) (hs : Step size tf m l m')
    (hst : ∀ p x n i, l = .store p → m.st.prod p = .claimed x n i → ∀ a ∈ m.mem.log, a.wr = true →
      a.loc = .slot n (i % (m.st.qs n).slots.length) → a.who ≠ .out p → a.time ≤ m.mem.clk (.out p) a.who) :
    ¬ Race slots tf m l := by
  refine Mem.Races.known hok fun a ha hR hne w i hin hw => ?_
  obtain ⟨n, k, hl⟩ := hR
  rw [hl] at hin
  rcases slot_ops hs hin with ⟨p, x, rfl, hx, -, hk⟩ | ⟨e, rfl, hwf, hpc⟩
  · cases haw : a.wr with
    | true => exact hst p x n i rfl hx a ha haw (by rw [hl, hk]) hne
    | false =>
      have := hidle (h.reads a ha n k hl haw).2 p
      rw [hx] at this
      cases this
  · rcases hw with hw | hw
    · have hc : m.st.closed = true := by
        cases hc : m.st.closed with
        | true => rfl
        | false => exact absurd (h.start hc n) hpc
      exact Nat.le_trans ((h.writes a ha ⟨n, k, hl⟩ hw).2 hc) (h.past n hpc _)
    · rw [hwf] at hw; cases hw

/-- **C116** (partial): a pool whose workers happen not to run before the destructor begins, and for which one thread makes all
pushes, which happen before the destructor, has no data race on the slots.  Missing: workers that run earlier, for which the
claim is false (`C116_last_refuted`, `C116_race_refuted`). -/
theorem C116_late_partial {b size : Nat} {tf : Bool} {p : Nat} {ls : List (Lbl α)} {m m' : State α} {l : Lbl α}
    (h : Run b size tf noLoc (fun m l => late m l ∧ alone p l) ls m) (hs : Step size tf m l m') :
    ¬ Race slots tf m l := by
  have hone : (∀ q, q ≠ p → m.st.prod q = .idle) ∧ ∀ a ∈ m.mem.log, slots a.loc → a.wr = true → a.who = .out p := by
    clear hs
    induction h with
    | new => exact ⟨fun q _ => rfl, fun a ha => (by cases ha)⟩
    | step ls m m1 l hr hg hs hnr ih =>
      obtain ⟨ih1, ih2⟩ := ih
      have h1 := hs.1
      refine ⟨fun q hq => ?_, fun a ha hsl hw => ?_⟩
      · have busy : ∀ (r : Nat) (st : Prod α), m.st.prod r ≠ .idle → upd m.st.prod r st q = .idle := by
          intro r st hr
          rw [upd_other _ _ (fun e : q = r => hr (by rw [← e]; exact ih1 q hq))]
          exact ih1 q hq
        cases l with
        | start r x =>
          obtain ⟨-, -, h3⟩ := effect (l := .start r x) h1
          rw [h3]
          have : r = p := hg.2
          subst this
          simp only [upd_other _ _ hq]
          exact ih1 q hq
        | scan r =>
          obtain ⟨⟨x, k, acc, seen, h2⟩, st, -, h3⟩ := effect (l := .scan r) h1
          rw [h3]
          refine busy r st fun e => ?_
          rcases h2 with h2 | ⟨v, h2⟩ <;> rw [h2] at e <;> cases e
        | claim r =>
          obtain ⟨x, id, seen, h2, h3⟩ := effect (l := .claim r) h1
          rw [h3]
          exact busy r _ (by simp [h2])
        | store r =>
          obtain ⟨x, id, i, h2, h3⟩ := effect (l := .store r) h1
          rw [h3]
          exact busy r _ (by simp [h2])
        | close r => obtain ⟨-, -, h3⟩ := effect (l := .close) h1; rw [h3]; exact ih1 q hq
        | work k e => obtain ⟨_, _, _, _, _, h3⟩ := effect (l := .work k e) h1; rw [h3]; exact ih1 q hq
        | join r => rw [h1.2]; exact ih1 q hq
        | touch t d w => rw [h1.2]; exact ih1 q hq
        | rel t u => rw [h1.2]; exact ih1 q hq
        | acq t u => rw [h1.2]; exact ih1 q hq
      · rw [hs.2.1] at ha
        rcases Mem.log_run_cases _ _ _ a ha with ha | ⟨k1, -, k3⟩
        · exact ih2 a ha hsl hw
        · obtain ⟨n, k, hl⟩ := hsl
          rw [hl] at k3
          rcases slot_ops hs k3 with ⟨r, x, rfl, hx, -⟩ | ⟨e, -, hwf, -⟩
          · by_cases e : r = p
            · rw [k1, e]; rfl
            · rw [ih1 r e] at hx; cases hx
          · rw [hw] at hwf; cases hwf
  refine (h.late fun m l h => h.1).noRace h.memOk h.closing.1 hs fun q x n i _ hx a ha hw hl hne => ?_
  exfalso
  have e : q = p := by
    by_cases e : q = p
    · exact e
    · rw [hone.1 q e] at hx; cases hx
  exact hne (by rw [e]; exact hone.2 a ha ⟨_, _, hl⟩ hw)

/-- **C116** (partial): so has one for which several threads push at the same time, if no queue gets more items than it has
slots (and fewer than 2^64 in all) and all pushes happen before the destructor. -/
theorem C116_joined_partial {b size : Nat} (hb : 0 < b) {tf : Bool} {ls : List (Lbl α)} {m m' : State α} {l : Lbl α}
    (h : Run b size tf noLoc late ls m) (hs : Step size tf m l m') (hw : m.st.pushed.length < 2 ^ 64)
    (hle : ∀ k, (m.st.qs k).pushed.length ≤ b) : ¬ Race slots tf m l := by
  have hone : (∀ a ∈ m.mem.log, ∀ n k, a.loc = .slot n k → a.wr = true → k < (m.st.qs n).pushed.length ∧
      ∀ p x, m.st.prod p ≠ .claimed x n k) ∧
      ∀ p p' x x' n i, m.st.prod p = .claimed x n i → m.st.prod p' = .claimed x' n i → p = p' := by
    clear hs
    induction h with
    | new => exact ⟨fun a ha => (by cases ha), fun p p' x x' n i h => (by cases h)⟩
    | step ls m m1 l hr hg hs hnr ih =>
      have hw0 : m.st.pushed.length < word := Nat.lt_of_le_of_lt hs.mono.2 hw
      have hle0 : ∀ k, (m.st.qs k).pushed.length ≤ (m1.st.qs k).pushed.length := by
        intro k
        cases hs.change k with
        | same h1 h2 => rw [h1]; exact Nat.le_refl _
        | claim p x seen h1 h2 h3 => rw [h3]; simp [Q.claim]
        | store p x i h1 h2 h3 => rw [h3]; exact Nat.le_refl _
        | work e h1 h2 h3 => rw [(Q.work_same h3).2.2]; exact Nat.le_refl _
      have hi := fun k => hr.qinv hb hw0 k
      have hlt : ∀ p x n i, m.st.prod p = .claimed x n i → i < (m.st.qs n).pushed.length := by
        intro p x n i hp
        have := (hi n).pendOk p i x (by simp [pendOf, hp])
        exact (List.getElem?_eq_some_iff.1 this).1
      obtain ⟨ih1, ih2⟩ := ih hw0 fun k => Nat.le_trans (hle0 k) (hle k)
      have h1 := hs.1
      -- who is in the middle of a push now
      have hprod : (∀ p x n i, m1.st.prod p = .claimed x n i → m.st.prod p = .claimed x n i) ∨
          ∃ p0 n0, ∀ p x n i, m1.st.prod p = .claimed x n i → m.st.prod p = .claimed x n i ∨
            (p = p0 ∧ n = n0 ∧ i = (m.st.qs n0).pushed.length) := by
        have quiet : ∀ (r : Nat) (st : Prod α), st.quiet → m1.st.prod = upd m.st.prod r st →
            ∀ p x n i, m1.st.prod p = .claimed x n i → m.st.prod p = .claimed x n i := by
          intro r st hq e p x n i hp
          rw [e] at hp
          by_cases er : p = r
          · subst er; rw [upd_same] at hp; rw [hp] at hq; exact hq.elim
          · rwa [upd_other _ _ er] at hp
        cases l with
        | start r x =>
          obtain ⟨-, -, h3⟩ := effect (l := .start r x) h1
          exact .inl (quiet r (.scan x 0 (intMax, 0) []) trivial (by rw [h3]))
        | scan r =>
          obtain ⟨-, st, hq, h3⟩ := effect (l := .scan r) h1
          exact .inl (quiet r st hq (by rw [h3]))
        | claim r =>
          obtain ⟨x, id, seen, h2, h3⟩ := effect (l := .claim r) h1
          refine .inr ⟨r, id, fun p x' n i hp => ?_⟩
          rw [h3] at hp
          by_cases er : p = r
          · subst er
            simp only [upd_same] at hp
            cases hp
            exact .inr ⟨rfl, rfl, (hi id).tail⟩
          · simp only [upd_other _ _ er] at hp
            exact .inl hp
        | store r =>
          obtain ⟨x, id, i, h2, h3⟩ := effect (l := .store r) h1
          exact .inl (quiet r .idle trivial (by rw [h3]))
        | close r => obtain ⟨-, -, h3⟩ := effect (l := .close) h1; rw [h3]; exact .inl fun _ _ _ _ h => h
        | work k e => obtain ⟨_, _, _, _, _, h3⟩ := effect (l := .work k e) h1; rw [h3]; exact .inl fun _ _ _ _ h => h
        | join r => rw [h1.2]; exact .inl fun _ _ _ _ h => h
        | touch t d w => rw [h1.2]; exact .inl fun _ _ _ _ h => h
        | rel t u => rw [h1.2]; exact .inl fun _ _ _ _ h => h
        | acq t u => rw [h1.2]; exact .inl fun _ _ _ _ h => h
      refine ⟨fun a ha n k hl hwr => ?_, fun p p' x x' n i hp hp' => ?_⟩
      · rw [hs.2.1] at ha
        rcases Mem.log_run_cases _ _ _ a ha with ha | ⟨-, -, k3⟩
        · obtain ⟨k1, k2⟩ := ih1 a ha n k hl hwr
          refine ⟨Nat.lt_of_lt_of_le k1 (hle0 n), fun p x hp => ?_⟩
          rcases hprod with hprod | ⟨p0, n0, hprod⟩
          · exact k2 p x (hprod p x n k hp)
          · rcases hprod p x n k hp with hp | ⟨-, rfl, rfl⟩
            · exact k2 p x hp
            · omega
        · rw [hl] at k3
          rcases slot_ops hs k3 with ⟨r, x, rfl, hx, -, hk⟩ | ⟨e, -, hwf, -⟩
          · have k4 := hlt r x n _ hx
            have k5 : a.tag % (m.st.qs n).slots.length = a.tag := by
              rw [hr.reach.slots n]
              have := hle0 n
              have := hle n
              exact Nat.mod_eq_of_lt (by omega)
            rw [k5] at hk
            refine ⟨by have := hle0 n; omega, fun p y hp => ?_⟩
            obtain ⟨x', id, i, h2, h3⟩ := effect (l := .store r) h1
            rw [h3] at hp
            by_cases er : p = r
            · subst er; simp only [upd_same] at hp; cases hp
            · simp only [upd_other _ _ er] at hp
              rw [hk] at hp
              exact er (ih2 p r y x n a.tag hp hx)
          · rw [hwr] at hwf; cases hwf
      · rcases hprod with hprod | ⟨p0, n0, hprod⟩
        · exact ih2 p p' x x' n i (hprod _ _ _ _ hp) (hprod _ _ _ _ hp')
        · rcases hprod p x n i hp with hp | ⟨rfl, rfl, hi1⟩ <;> rcases hprod p' x' n i hp' with hp' | ⟨h5, h6, hi2⟩
          · exact ih2 p p' x x' n i hp hp'
          · have := hlt p x n i hp
            subst h6
            omega
          · have := hlt p' x' n i hp'
            omega
          · exact h5.symm
  refine (h.late fun m l h => h).noRace h.memOk h.closing.1 hs fun q x n i _ hx a ha hwr hl hne => ?_
  exfalso
  have h1 := (h.qinv hb hw n).pendOk q i x (by simp [pendOf, hx])
  have h2 := (List.getElem?_eq_some_iff.1 h1).1
  have h3 : i % (m.st.qs n).slots.length = i := by
    rw [h.reach.slots n]
    have := hle n
    exact Nat.mod_eq_of_lt (by omega)
  rw [h3] at hl
  exact (hone.1 a ha n i hl hwr).2 q x hx

/-! ### C119: data of the handler -/

/-- Only handlers use data `d`. -/
def handlersOnly (d : Nat) : State α → Lbl α → Prop := fun _ l => ∀ p wr, l ≠ .touch (.out p) d wr

/-- Data of the user's is used only by `touch`. -/
theorem data_ops {tf : Bool} {m : State α} {l : Lbl α} {d : Nat} {w : Bool} {i : Nat} (h : .acc (.data d) w i ∈ ops tf m l) :
    ∃ t, l = .touch t d w := by
  cases l with
  | scan p => obtain ⟨_, h⟩ := mem_scanOps h; cases h
  | claim p => simp only [ops, claimOps] at h; split at h <;> simp at h
  | store p => simp only [ops, storeOps] at h; split at h <;> simp at h
  | work k e => rcases mem_workOps h with h | h | h | h | h | ⟨_, h⟩ | ⟨_, _, h⟩ | ⟨_, h⟩ <;> cases h
  | join p => simp only [ops, joinOps] at h; split at h <;> simp at h
  | touch t d' w' =>
    simp only [ops, List.mem_singleton, Op.acc.injEq, Loc.data.injEq] at h
    obtain ⟨rfl, rfl, -⟩ := h
    exact ⟨t, rfl⟩
  | _ => simp [ops] at h

/-- **C119** (partial): in a pool with one worker, data that only the handler uses is free of data races.  Missing: more workers,
for which the claim is false (`C119_refuted`). -/
theorem C119_one_worker_partial {b : Nat} {tf : Bool} {d : Nat} {ls : List (Lbl α)} {m m' : State α} {l : Lbl α}
    (h : Run b 1 tf noLoc (handlersOnly d) ls m) (hg : handlersOnly d m l) (hs : Step 1 tf m l m') :
    ¬ Race (fun x => x = .data d) tf m l := by
  have hown : ∀ a ∈ m.mem.log, a.loc = .data d → a.who = .worker 0 := by
    have hw : ∀ a ∈ m.mem.log, a.loc = .data d → ∃ n, a.who = .worker n := by
      clear hg hs
      induction h with
      | new => exact fun a ha => (by cases ha)
      | step ls m m1 l hr hg hs hnr ih =>
        intro a ha hl
        rw [hs.2.1] at ha
        rcases Mem.log_run_cases _ _ _ a ha with ha | ⟨h1, -, h3⟩
        · exact ih a ha hl
        · rw [hl] at h3
          obtain ⟨t, rfl⟩ := data_ops h3
          cases t with
          | worker n => exact ⟨n, h1⟩
          | out p => exact absurd rfl (hg p _)
    intro a ha hl
    obtain ⟨n, hn⟩ := hw a ha hl
    have := h.ends.made a ha n hn
    have : n = 0 := by omega
    rw [hn, this]
  refine Mem.Races.known h.memOk fun a ha hR hne w i hin _ => ?_
  exfalso
  rw [hR] at hin
  obtain ⟨t, rfl⟩ := data_ops hin
  cases t with
  | out p => exact hg p _ rfl
  | worker n =>
    have h1 : (m.st.qs n).pc = .stat := hs.1.1
    have h2 := h.ends.exist n (by rw [h1]; simp)
    have : n = 0 := by omega
    subst this
    exact hne (hown a ha hR)

end Verif.Pipeline.Pool.HB
