import Verif.Pipeline.RacesDemo
import Verif.Pipeline.PoolRacesProps
/-!
C77 once more: the handler may tell others what it likes; as long as it does not listen to anybody, the item pushed last is
not handled without a data race.
-/
namespace Verif.Pipeline.HB
open Verif Verif.HB Verif.Pipeline
variable {α : Type}

/-- The handler acquires nothing, and no thread acquires anything in the middle of its own push. -/
def deaf : List (Lbl α) → State α → Lbl α → Prop := fun _ m l =>
  ∀ n, l ≠ .acq none n ∧ ∀ p, l = .acq (some p) n → m.st.pend p = none

/-- What holds of the accesses to the slots until the destructor begins. -/
structure Deaf (b : Nat) (m : State α) : Prop where
  reads : ∀ a ∈ m.mem.log, a.who = none → slots a.loc → a.tag < m.st.q.pushed.length ∧ a.loc = .slot (a.tag % b)
  fresh : ∀ p x i, m.st.pend p = some (i, x) → ∀ r ∈ m.mem.log, r.who = none → slots r.loc → r.tag = i →
    m.mem.clk (some p) none < r.time
  writes : ∀ a ∈ m.mem.log, a.wr = true → slots a.loc → a.who ≠ none ∧ a.tag < m.st.q.pushed.length ∧
    a.loc = .slot (a.tag % b) ∧ (a.tag + 1 = m.st.q.pushed.length → m.mem.sync .tail a.who < a.time ∧
      m.mem.clk none a.who < a.time ∧ ∀ r ∈ m.mem.log, r.who = none → slots r.loc → r.tag ≠ a.tag)
  stored : ∀ i, i < m.st.q.pushed.length → (∃ p x, m.st.pend p = some (i, x)) ∨
    ∃ a ∈ m.mem.log, a.wr = true ∧ slots a.loc ∧ a.tag = i
  handled : ∀ i, i < m.st.q.handled.length → ∃ a ∈ m.mem.log, a.who = none ∧ slots a.loc ∧ a.tag = i

theorem Deaf.new (b : Nat) : Deaf b (State.new b : State α) := by
  refine ⟨?_, ?_, ?_, ?_, ?_⟩ <;> simp [State.new, Mem.new, Stage.new, Q.new]

/-- Steps that do not concern the slots. -/
theorem Deaf.other {b : Nat} {m m' : State α} (h : Deaf b m) (t : Thr) (os : List (Op Loc Obj))
    (hmem : m'.mem = m.mem.run t os) (hst : m'.st = m.st)
    (hos : ∀ o ∈ os, o ≠ .rel .tail ∧ o ≠ .sto .tail ∧ (∀ k w i, o ≠ .acc (.slot k) w i))
    (hacq : ∀ o, .acq o ∈ os → t ≠ none ∧ ∀ p, t = some p → m.st.pend p = none) : Deaf b m' := by
  have hlog : ∀ a ∈ m'.mem.log, slots a.loc → a ∈ m.mem.log := by
    intro a ha hq
    rw [hmem] at ha
    rcases Mem.log_run_cases _ _ _ a ha with ha | ⟨-, -, h3⟩
    · exact ha
    · obtain ⟨k, hk⟩ := hq
      rw [hk] at h3
      exact absurd rfl ((hos _ h3).2.2 k _ _)
  have hmono : ∀ a ∈ m.mem.log, a ∈ m'.mem.log := by rw [hmem]; exact Mem.log_mono _ _ _
  have htail : m'.mem.sync .tail = m.mem.sync .tail := by
    rw [hmem]
    exact Mem.sync_other _ _ _ _ fun x hx => ⟨(hos x hx).1, (hos x hx).2.1⟩
  have hclk : ∀ u, u ≠ none → m'.mem.clk none u ≤ m.mem.clk none u := by
    intro u hu
    rw [hmem]
    by_cases ht : none = t
    · subst ht
      exact Mem.clk_run_le _ _ _ hu _ _ (Nat.le_refl _) fun o ho => absurd rfl (hacq o ho).1
    · rw [Mem.clk_other _ ht]; exact Nat.le_refl _
  refine ⟨fun a ha hw hq => ?_, fun p x i hx r hr hw hq ht => ?_, fun a ha hw hq => ?_, fun i hi => ?_, fun i hi => ?_⟩
  · rw [hst]
    exact h.reads a (hlog a ha hq) hw hq
  · rw [hst] at hx
    have h1 := h.fresh p x i hx r (hlog r hr hq) hw hq ht
    refine Nat.lt_of_le_of_lt ?_ h1
    rw [hmem]
    by_cases ht : some p = t
    · subst ht
      refine Mem.clk_run_le _ _ _ (by simp) _ _ (Nat.le_refl _) fun o ho => ?_
      have := (hacq o ho).2 p rfl
      rw [hx] at this
      cases this
    · rw [Mem.clk_other _ ht]; exact Nat.le_refl _
  · obtain ⟨h1, h2, h3, h4⟩ := h.writes a (hlog a ha hq) hw hq
    rw [hst, htail]
    refine ⟨h1, h2, h3, fun e => ?_⟩
    obtain ⟨h5, h6, h7⟩ := h4 e
    exact ⟨h5, Nat.lt_of_le_of_lt (hclk _ h1) h6, fun r hr hrw hrq => h7 r (hlog r hr hrq) hrw hrq⟩
  · rw [hst] at hi ⊢
    rcases h.stored i hi with hpx | ⟨a, ha, ha'⟩
    · exact .inl hpx
    · exact .inr ⟨a, hmono a ha, ha'⟩
  · rw [hst] at hi
    obtain ⟨a, ha, ha'⟩ := h.handled i hi
    exact ⟨a, hmono a ha, ha'⟩

/-- A push increments the counter. -/
theorem Deaf.claim {b : Nat} {m m' : State α} (h : Deaf b m) (p : Nat) (x : α)
    (hmem : m'.mem = m.mem.run (some p) [.acq .tail, .rel .tail]) (hpend : m.st.pend p = none)
    (htl : m.st.q.tail = m.st.q.pushed.length)
    (hst : m'.st = { m.st with q := m.st.q.claim x, pend := setAt m.st.pend p (some (m.st.q.tail, x)) }) : Deaf b m' := by
  have hlog : m'.mem.log = m.mem.log := by rw [hmem]; rfl
  have hclk : ∀ t, t ≠ some p → m'.mem.clk t = m.mem.clk t := fun t ht => by rw [hmem]; exact Mem.clk_other _ ht _
  have hlen : m'.st.q.pushed.length = m.st.q.pushed.length + 1 := by rw [hst]; simp [Q.claim]
  have hh : m'.st.q.handled = m.st.q.handled := by rw [hst]; rfl
  have hprod : m'.st.pend = setAt m.st.pend p (some (m.st.q.tail, x)) := by rw [hst]
  refine ⟨fun a ha hw hq => ?_, fun p' x' i hx r hr hw hq ht => ?_, fun a ha hw hq => ?_, fun i hi => ?_, fun i hi => ?_⟩
  · rw [hlog] at ha
    obtain ⟨h1, h2⟩ := h.reads a ha hw hq
    exact ⟨by omega, h2⟩
  · rw [hlog] at hr
    rw [hprod] at hx
    by_cases e : p' = p
    · subst e
      simp only [setAt, if_true, Option.some.injEq, Prod.mk.injEq] at hx
      have := (h.reads r hr hw hq).1
      omega
    · simp only [setAt, if_neg e] at hx
      rw [hclk _ (by simpa using e)]
      exact h.fresh p' x' i hx r hr hw hq ht
  · rw [hlog] at ha
    obtain ⟨h1, h2, h3, h4⟩ := h.writes a ha hw hq
    exact ⟨h1, by omega, h3, fun e => by omega⟩
  · by_cases e : i = m.st.q.pushed.length
    · exact .inl ⟨p, x, by rw [hprod, e, ← htl]; simp [setAt]⟩
    · rcases h.stored i (by omega) with ⟨p', x', hpx⟩ | ⟨a, ha⟩
      · refine .inl ⟨p', x', ?_⟩
        have : p' ≠ p := by
          rintro rfl
          rw [hpx] at hpend
          cases hpend
        rw [hprod]
        simpa [setAt, this] using hpx
      · exact .inr ⟨a, by rw [hlog]; exact ha⟩
  · rw [hh] at hi
    rw [hlog]
    exact h.handled i hi

/-- A push stores, without a race. -/
theorem Deaf.store {b : Nat} {m m' : State α} (h : Deaf b m) (hok : m.mem.Ok) (p : Nat) (x : α) (i : Nat)
    (hpx : m.st.pend p = some (i, x)) (hi : i < m.st.q.pushed.length)
    (hmem : m'.mem = m.mem.run (some p) [.acc (.slot (i % b)) true i])
    (hp : m'.st.q.pushed = m.st.q.pushed) (hh : m'.st.q.handled = m.st.q.handled)
    (hprod : m'.st.pend = setAt m.st.pend p none)
    (hnr : ¬ m.mem.Conflict (some p) (.slot (i % b)) true) : Deaf b m' := by
  have hlog : m'.mem.log = ⟨some p, m.mem.clk (some p) (some p) + 1, .slot (i % b), true, i⟩ :: m.mem.log := by
    rw [hmem]; rfl
  have hclk : ∀ t, t ≠ some p → m'.mem.clk t = m.mem.clk t := fun t ht => by rw [hmem]; exact Mem.clk_other _ ht _
  have hsync : m'.mem.sync = m.mem.sync := by rw [hmem]; rfl
  refine ⟨fun a ha hw hq => ?_, fun p' x' j hx r hr hw hq ht => ?_, fun a ha hw hq => ?_, fun j hj => ?_, fun j hj => ?_⟩
  · rw [hlog, List.mem_cons] at ha
    rcases ha with rfl | ha
    · cases hw
    · rw [hp]; exact h.reads a ha hw hq
  · rw [hlog, List.mem_cons] at hr
    rcases hr with rfl | hr
    · cases hw
    · rw [hprod] at hx
      by_cases e : p' = p
      · subst e; simp [setAt] at hx
      · simp only [setAt, if_neg e] at hx
        rw [hclk _ (by simpa using e)]
        exact h.fresh p' x' j hx r hr hw hq ht
  · rw [hlog, List.mem_cons] at ha
    rcases ha with rfl | ha
    · refine ⟨by simp, by rw [hp]; exact hi, rfl, fun _ => ?_⟩
      have h1 := hok.sync .tail (some p)
      have h2 := hok.clk none (some p)
      refine ⟨by rw [hsync]; simp only; omega, by rw [hclk _ (by simp)]; simp only; omega, fun r hr hrw hrq hrt => ?_⟩
      rw [hlog, List.mem_cons] at hr
      rcases hr with rfl | hr
      · cases hrw
      · simp only at hrt
        have h3 := h.fresh p x i hpx r hr hrw hrq hrt
        have h4 := (h.reads r hr hrw hrq).2
        refine hnr ⟨r, hr, by rw [h4, hrt], .inr rfl, ?_⟩
        rw [hrw]
        exact h3
    · obtain ⟨h1, h2, h3, h4⟩ := h.writes a ha hw hq
      rw [hp, hsync, hclk _ (by simp)]
      refine ⟨h1, h2, h3, fun e => ?_⟩
      obtain ⟨h5, h6, h7⟩ := h4 e
      refine ⟨h5, h6, fun r hr hrw hrq => ?_⟩
      rw [hlog, List.mem_cons] at hr
      rcases hr with rfl | hr
      · cases hrw
      · exact h7 r hr hrw hrq
  · rw [hp] at hj
    rw [hlog]
    rcases h.stored j hj with ⟨p', x', hx⟩ | ⟨a, ha, ha'⟩
    · by_cases e : p' = p
      · subst e
        rw [hpx] at hx
        cases hx
        exact .inr ⟨_, List.mem_cons_self, rfl, ⟨_, rfl⟩, rfl⟩
      · exact .inl ⟨p', x', by rw [hprod]; simpa [setAt, e] using hx⟩
    · exact .inr ⟨a, List.mem_cons_of_mem _ ha, ha'⟩
  · rw [hh] at hj
    rw [hlog]
    obtain ⟨a, ha, ha'⟩ := h.handled j hj
    exact ⟨a, List.mem_cons_of_mem _ ha, ha'⟩

/-- The worker, which acquires nothing but the counter and reads nothing but one slot, without a race. -/
theorem Deaf.work {b : Nat} {m m' : State α} (h : Deaf b m) (hok : m.mem.Ok) (os : List (Op Loc Obj))
    (hmem : m'.mem = m.mem.run none os) (hp : m'.st.q.pushed = m.st.q.pushed) (hprod : m'.st.pend = m.st.pend)
    (hos : ∀ o ∈ os, o ≠ .rel .tail ∧ (∀ o', o ≠ .sto o') ∧ (∀ o', o = .acq o' → o' = .tail) ∧
      ∀ k w i, o = .acc (.slot k) w i → w = false ∧ k = i % b ∧ i < m.st.q.pushed.length)
    (hh : ∀ i, i < m'.st.q.handled.length → i < m.st.q.handled.length ∨ .acc (.slot (i % b)) false i ∈ os)
    (hnr : ¬ m.mem.Races slots none os) : Deaf b m' := by
  have hlog : ∀ a ∈ m'.mem.log, slots a.loc → a ∈ m.mem.log ∨ (a.who = none ∧ a.wr = false ∧
      a.loc = .slot (a.tag % b) ∧ a.tag < m.st.q.pushed.length ∧ m.mem.clk none none < a.time ∧
      .acc a.loc false a.tag ∈ os) := by
    intro a ha hq
    rw [hmem] at ha
    rcases Mem.log_run_cases _ _ _ a ha with ha | ⟨h1, h2, h3⟩
    · exact .inl ha
    · obtain ⟨k, hk⟩ := hq
      rw [hk] at h3
      obtain ⟨h4, h5, h6⟩ := (hos _ h3).2.2.2 k _ _ rfl
      refine .inr ⟨h1, h4, by rw [hk, h5], h6, h2, ?_⟩
      rw [hk, ← h4]
      exact h3
  have hmono : ∀ a ∈ m.mem.log, a ∈ m'.mem.log := by rw [hmem]; exact Mem.log_mono _ _ _
  have htail : m'.mem.sync .tail = m.mem.sync .tail := by
    rw [hmem]
    exact Mem.sync_other _ _ _ _ fun x hx => ⟨(hos x hx).1, (hos x hx).2.1 _⟩
  -- the newest store is not known, and so its slot is not read
  have hclk : ∀ a ∈ m.mem.log, a.wr = true → slots a.loc → a.tag + 1 = m.st.q.pushed.length →
      ∀ os', (∀ o ∈ os', o ∈ os) → (m.mem.run none os').clk none a.who < a.time := by
    intro a ha hw hq e os' hos'
    obtain ⟨h1, h2, h3, h4⟩ := h.writes a ha hw hq
    obtain ⟨h5, h6, h7⟩ := h4 e
    have := Mem.clk_run_le m.mem none a.who h1 (a.time - 1) os' (by omega) (fun o ho => by
      rw [(hos _ (hos' _ ho)).2.2.1 o rfl]
      omega)
    omega
  have hread : ∀ a ∈ m.mem.log, a.wr = true → slots a.loc → a.tag + 1 = m.st.q.pushed.length →
      .acc a.loc false a.tag ∉ os := by
    intro a ha hw hq e hin
    obtain ⟨os1, os2, hsplit⟩ := List.append_of_mem hin
    refine hnr ?_
    rw [hsplit]
    have key : ∀ (os1 : List (Op Loc Obj)) (mm : Mem Thr Loc Obj), a ∈ mm.log →
        (mm.run none os1).clk none a.who < a.time → mm.Races slots none (os1 ++ .acc a.loc false a.tag :: os2) := by
      intro os1
      induction os1 with
      | nil =>
        intro mm hmm hlt
        exact .inl ⟨hq, a, hmm, rfl, .inl hw, hlt⟩
      | cons o os1 ih =>
        intro mm hmm hlt
        have hmm' : a ∈ (mm.op none o).log := Mem.log_mono mm none [o] a hmm
        have := ih (mm.op none o) hmm' hlt
        cases o with
        | acc l w i => exact .inr this
        | _ => exact this
    refine key os1 m.mem ha (hclk a ha hw hq e os1 fun o ho => ?_)
    rw [hsplit]
    exact List.mem_append_left _ ho
  refine ⟨fun a ha hw hq => ?_, fun p x i hx r hr hw hq ht => ?_, fun a ha hw hq => ?_, fun i hi => ?_, fun i hi => ?_⟩
  · rw [hp]
    rcases hlog a ha hq with ha | ⟨h1, h2, h3, h4, -⟩
    · exact h.reads a ha hw hq
    · exact ⟨h4, h3⟩
  · rw [hprod] at hx
    have hc : m'.mem.clk (some p) = m.mem.clk (some p) := by rw [hmem]; exact Mem.clk_other _ (by simp) _
    rw [hc]
    rcases hlog r hr hq with hr | ⟨h1, h2, h3, h4, h5, -⟩
    · exact h.fresh p x i hx r hr hw hq ht
    · have := hok.clk (some p) none
      omega
  · rcases hlog a ha hq with ha | ⟨h1, h2, -⟩
    · obtain ⟨h1, h2, h3, h4⟩ := h.writes a ha hw hq
      rw [hp, htail]
      refine ⟨h1, h2, h3, fun e => ?_⟩
      obtain ⟨h5, h6, h7⟩ := h4 e
      refine ⟨h5, by rw [hmem]; exact hclk a ha hw hq e os fun o ho => ho, fun r hr hrw hrq => ?_⟩
      rcases hlog r hr hrq with hr | ⟨-, -, k3, -, -, k6⟩
      · exact h7 r hr hrw hrq
      · intro e'
        rw [k3, e', ← h3] at k6
        exact hread a ha hw hq e k6
    · rw [hw] at h2; cases h2
  · rw [hp] at hi
    rw [hprod]
    rcases h.stored i hi with hx | ⟨a, ha, ha'⟩
    · exact .inl hx
    · exact .inr ⟨a, hmono a ha, ha'⟩
  · rcases hh i hi with hi | hin
    · obtain ⟨a, ha, ha'⟩ := h.handled i hi
      exact ⟨a, hmono a ha, ha'⟩
    · rw [hmem]
      have key : ∀ (os : List (Op Loc Obj)) (mm : Mem Thr Loc Obj) (l : Loc) (w : Bool) (i : Nat), .acc l w i ∈ os →
          ∃ a ∈ (mm.run none os).log, a.who = none ∧ a.loc = l ∧ a.tag = i := by
        intro os
        induction os with
        | nil => intro mm l w i hin; cases hin
        | cons o os ih =>
          intro mm l w i hin
          rcases List.mem_cons.1 hin with rfl | hin
          · exact ⟨⟨none, mm.clk none none + 1, l, w, i⟩,
              Mem.log_mono (mm.op none (.acc l w i)) none os _ List.mem_cons_self, rfl, rfl, rfl⟩
          · exact ih _ l w i hin
      obtain ⟨a, ha, h1, h2, h3⟩ := key os m.mem _ _ _ hin
      exact ⟨a, ha, h1, ⟨_, h2⟩, h3⟩

theorem Run.deaf {b : Nat} (hb : 0 < b) {ls : List (Lbl α)} {m : State α} (h : Run b slots deaf ls m)
    (hw : m.st.q.pushed.length < word) (hc : m.st.closed = false) : Deaf b m := by
  induction h with
  | new => exact Deaf.new b
  | step ls m m' l hr hg hs hnr ih =>
    have hreach := hr.stage
    have hmem := hs.2
    have hsl := hreach.slots
    rcases hs.cases with ⟨p, x, rfl, h1, h2, hst, hm⟩ | ⟨p, i, x, rfl, h1, hst, hm⟩ | ⟨p, rfl, h1, h2, hst, hm⟩ |
      ⟨e, q, rfl, h1, hq, hst, hm⟩ | ⟨p, rfl, h1, hst, hm⟩ | ⟨rfl, h1, hst, hm⟩ | ⟨t, n, rfl, h1, hst, hm⟩ |
      ⟨t, n, rfl, h1, hst, hm⟩
    · rw [hst] at hw hc
      simp only [Q.claim, List.length_append, List.length_singleton] at hw
      exact (ih (by omega) hc).claim p x hmem h2 (hreach.inv hb (by omega)).1.tail hst
    · rw [hst] at hw hc
      simp only at hw
      have hi := (hreach.inv hb hw).1
      have hops : ops m (.store p) = [.acc (.slot (i % b)) true i] := by simp [ops, storeOps, h1, hsl]
      rw [hops] at hmem
      refine (ih hw hc).store hr.memOk p x i h1 (List.getElem?_eq_some_iff.1 (hi.pendOk p i x h1)).1 hmem (by rw [hst])
        (by rw [hst]) (by rw [hst]) fun hcf => hnr ?_
      rw [Race, hops]
      exact .inl ⟨⟨_, rfl⟩, hcf⟩
    · rw [hst] at hc
      cases hc
    · obtain ⟨hlen, hpush, -⟩ := Q.work_len hq
      rw [hst] at hw hc
      simp only [hpush] at hw
      have hc0 : m.st.closed = false := hc
      have hi := (hreach.inv hb hw).1
      refine (ih hw hc).work hr.memOk _ hmem (by rw [hst]; exact hpush) (by rw [hst]) (fun o ho => ?_) (fun i hlt => ?_) hnr
      · have ho' : o ∈ workOps m := ho
        unfold workOps at ho'
        simp only [hc0, hsl] at ho'
        split at ho' <;> simp at ho'
        · subst ho'; simp
        · subst ho'; simp
        · rename_i hpc
          subst ho'
          have := hi.busy (.inl hpc)
          have := hi.tail
          simp only [Op.acc.injEq, Loc.slot.injEq]
          refine ⟨by simp, by simp, by simp, ?_⟩
          rintro k w' i' ⟨rfl, rfl, rfl⟩
          exact ⟨rfl, rfl, by omega⟩
        · rename_i j hpc
          have := hi.callIdx _ hpc
          have := hi.le
          have := hi.tail
          rcases ho' with rfl | rfl
          · simp only [Op.acc.injEq, Loc.slot.injEq]
            refine ⟨by simp, by simp, by simp, ?_⟩
            rintro k w' i' ⟨rfl, rfl, rfl⟩
            exact ⟨rfl, rfl, by omega⟩
          · simp
        · rcases ho' with rfl | rfl <;> simp
      · rw [hst] at hlt
        rcases Q.work_handled hq with ⟨hh, -⟩ | ⟨j, v, hpc, -, hh⟩
        · rw [hh] at hlt; exact .inl hlt
        · rw [hh] at hlt
          simp only [List.length_append, List.length_singleton] at hlt
          by_cases e' : i < m.st.q.handled.length
          · exact .inl e'
          · refine .inr ?_
            have h4 := hi.callIdx _ hpc
            have h5 := hi.head
            rw [hpc] at h5
            simp only [Pc.taken] at h5
            have : i = j := by omega
            subst this
            simp [ops, workOps, hpc, hsl]
    · rw [hst] at hw hc
      exact (ih hw hc).other _ _ hmem hst (by simp [ops]) (by simp [ops])
    · rw [hst] at hw hc
      exact (ih hw hc).other _ _ hmem hst (by simp [ops]) (by simp [ops])
    · rw [hst] at hw hc
      exact (ih hw hc).other _ _ hmem hst (by simp [ops]) (by simp [ops])
    · rw [hst] at hw hc
      refine (ih hw hc).other _ _ hmem hst (by simp [ops]) fun o ho => ?_
      simp only [Lbl.who]
      exact ⟨fun e => (hg n).1 (by rw [e]), fun p e => (hg n).2 p (by rw [e])⟩

/-- **C77** refuted for every use in which the handler does not wait for the threads that push: it may release what it likes, but
it acquires nothing.  While nobody has begun to destroy the stage and no push is under way, an execution without a data race on
the slots has not handled everything that was pushed. -/
theorem C77_deaf_refuted {b : Nat} (hb : 0 < b) {ls : List (Lbl α)} {m : State α} (h : Run b slots deaf ls m)
    (hw : m.st.q.pushed.length < 2 ^ 64) (hc : m.st.closed = false) (hp : ∀ p, m.st.pend p = none)
    (hne : m.st.q.pushed ≠ []) : m.st.q.handled.length < m.st.q.pushed.length := by
  have hd := h.deaf hb hw hc
  have hi := (h.stage.inv hb hw).1
  have h1 := hi.head
  have h2 := hi.le
  have h3 := hi.tail
  have h4 := List.length_pos_iff.2 hne
  by_cases hlt : m.st.q.handled.length < m.st.q.pushed.length
  · exact hlt
  · rcases hd.stored (m.st.q.pushed.length - 1) (by omega) with ⟨p, x, hx⟩ | ⟨a, ha, haw, haq, hat⟩
    · rw [hp p] at hx
      cases hx
    · obtain ⟨r, hr, hrw, hrq, hrt⟩ := hd.handled (m.st.q.pushed.length - 1) (by omega)
      exact absurd (hrt.trans hat.symm) (((hd.writes a ha haw haq).2.2.2 (by omega)).2.2 r hr hrw hrq)

/-- `deaf`, computed. -/
def deafB (_ : List (Lbl α)) (m : State α) : Lbl α → Bool
  | .acq none _ => false
  | .acq (some p) _ => (m.st.pend p).isNone
  | _ => true

theorem deafB_spec (ls : List (Lbl α)) (m : State α) (l : Lbl α) (h : deafB ls m l = true) : deaf ls m l := by
  intro n
  refine ⟨?_, ?_⟩
  · rintro rfl; cases h
  · rintro p rfl
    simpa [deafB] using h

/-- Two slots: the handler of the first item tells thread 0, which waits for this before it pushes the third; three items pushed,
two handled, no race so far. -/
example : ∃ (ls : List (Lbl Nat)) (m : State Nat), Run 2 slots deaf ls m ∧ m.st.q.pushed = [10, 20, 30] ∧
    m.st.q.handled = [10, 20] ∧ m.st.closed = false ∧ m.st.pend 0 = none := by
  obtain ⟨ls, m, h, hP⟩ := follow_ex (R := fun l => match l with | .slot _ => true | .stat => false) (g := deafB) (G := deaf)
    (n := 1) (b := 2) deafB_spec
    (P := fun m : State Nat => m.st.q.pushed = [10, 20, 30] ∧ m.st.q.handled = [10, 20] ∧ m.st.closed = false ∧
      m.st.pend 0 = none)
    ([.begin 0 10, .store 0, .begin 0 20, .store 0] ++ w 5 ++ [.rel none 3, .acq (some 0) 3, .begin 0 30, .store 0] ++ w 5)
    (by decide +kernel)
  exact ⟨ls, m, h.congr fun l hl => by obtain ⟨k, rfl⟩ := hl; rfl, hP⟩

end Verif.Pipeline.HB
