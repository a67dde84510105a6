import Verif.Values.RacesProps
/-!
`values::observable` used by several threads: what a thread that reads a value may rely on (C112), and whether the
`on_update` functions can overlap (C113).
-/
namespace Verif.Values.HB
open Verif Verif.HB Verif.Values

variable {T : IntTy} {i m m' : State} {G : State → Lbl → Prop} {ls : List Lbl} {l : Lbl}

/-! ### C112 -/

/-- The updates back to the newest assignment. -/
def since : List Update → List Update
  | [] => []
  | k :: ks =>
    k :: match k.op with
      | .assign _ => []
      | _ => since ks

theorem config_keeps {s : St} {op : Values.Op} (h : isUpdate op = false) {r : St × Ret} (he : exec T s op = .ok r) :
    r.1.value = s.value ∧ r.1.held = s.held := by
  cases op with
  | add o =>
    simp only [exec, errOf, add] at he
    cases hr : s.reg with
    | fixed arr n =>
      simp only [hr] at he
      split at he
      · rw [Res.ok_bind] at he; cases he; exact ⟨rfl, rfl⟩
      · cases hc : containsArr o arr n 0 with
        | ok b => cases b <;> simp [hc, Res.ok_bind] at he <;> cases he <;> exact ⟨rfl, rfl⟩
        | ub => rw [hc] at he; cases he
        | hang => rw [hc] at he; cases he
    | dyn vec =>
      simp only [hr] at he
      split at he <;> rw [Res.ok_bind] at he <;> cases he <;> exact ⟨rfl, rfl⟩
  | remove o =>
    simp only [exec, errOf, remove] at he
    cases hr : s.reg with
    | fixed arr n =>
      simp only [hr] at he
      (repeat' split at he) <;> rw [Res.ok_bind] at he <;> cases he <;> exact ⟨rfl, rfl⟩
    | dyn vec =>
      simp only [hr] at he
      (repeat' split at he) <;> rw [Res.ok_bind] at he <;> cases he <;> exact ⟨rfl, rfl⟩
  | clear =>
    simp only [exec, Values.clear] at he
    cases hr : s.reg with
    | fixed arr n =>
      simp only [hr] at he
      cases hc : clearArr arr n 0 with
      | ok b => simp only [hc, Res.ok_bind] at he; cases he; exact ⟨rfl, rfl⟩
      | ub => rw [hc] at he; cases he
      | hang => rw [hc] at he; cases he
    | dyn vec => simp only [hr, Res.ok_bind] at he; cases he; exact ⟨rfl, rfl⟩
  | onUpdate o b => cases he; exact ⟨rfl, rfl⟩
  | _ => cases h

/-- What the atomics carry. -/
structure Vis (st0 : St) (m : State) : Prop where
  value : ∀ k ∈ since m.updates, ∀ u, k.before u ≤ m.mem.sync .value u
  head : ∀ k ks, m.updates = k :: ks → m.st.value = k.result
  none : m.updates = [] → m.st.value = st0.value
  frames : ∀ t, ∀ f ∈ m.pc t, ∃ k ∈ m.updates, k.sends = f.sends ∧ ∀ u, k.before u ≤ m.mem.clk t u
  held : ∀ o, m.st.held o ≠ st0.held o →
    ∃ k ∈ m.updates, k.sends = m.st.held o ∧ ∀ u, k.before u ≤ m.mem.sync (.held o) u

theorem Vis.start (st : St) : Vis st (State.start st) := by
  constructor <;> simp [State.start, since]

/-- A step that starts no update, delivers nothing and pushes nothing. -/
theorem Vis.other {st0 : St} (h : Vis st0 m) {t : Nat} {os : List MOp} (hmem : m'.mem = m.mem.run t os)
    (ho : ∀ x, (x = .value ∨ ∃ o, x = .held o) → .rel x ∉ os ∧ .sto x ∉ os) (hu : m'.updates = m.updates)
    (hv : m'.st.value = m.st.value) (hh : m'.st.held = m.st.held)
    (hp : ∀ v, ∀ f ∈ m'.pc v, ∃ f' ∈ m.pc v, f'.sends = f.sends) : Vis st0 m' := by
  have hs : ∀ x, (x = .value ∨ ∃ o, x = .held o) → m'.mem.sync x = m.mem.sync x := fun x hx => by
    rw [hmem]
    exact Mem.sync_other _ _ _ _ fun y hy => ⟨fun e => (ho x hx).1 (e ▸ hy), fun e => (ho x hx).2 (e ▸ hy)⟩
  refine ⟨?_, ?_, ?_, ?_, ?_⟩
  · rw [hu, hs _ (.inl rfl)]; exact h.value
  · rw [hu, hv]; exact h.head
  · rw [hu, hv]; exact h.none
  · intro v f hf
    obtain ⟨f', hf', he⟩ := hp v f hf
    obtain ⟨k, h1, h2, h3⟩ := h.frames v f' hf'
    refine ⟨k, by rw [hu]; exact h1, by rw [h2, he], fun u => Nat.le_trans (h3 u) ?_⟩
    rw [hmem]
    exact m.mem.clk_run _ _ _ _
  · intro o
    rw [hu, hh, hs _ (.inr ⟨o, rfl⟩)]
    exact h.held o

theorem pop_frames {pc : Nat → List Frame} {t : Nat} {f : Frame} {fs : List Frame} (h : pc t = f :: fs) {gs : List Frame}
    (hg : ∀ g ∈ gs, g.sends = f.sends ∨ g ∈ fs) : ∀ v, ∀ g ∈ put pc t gs v, ∃ f' ∈ pc v, f'.sends = g.sends := by
  intro v g hgv
  by_cases e : v = t
  · subst e
    rw [put_same] at hgv
    rw [h]
    rcases hg g hgv with h1 | h1
    · exact ⟨f, List.mem_cons_self, h1.symm⟩
    · exact ⟨g, List.mem_cons_of_mem _ h1, rfl⟩
  · rw [put_ne _ _ e] at hgv
    exact ⟨g, hgv, rfl⟩

theorem Vis.step {st0 : St} (h : Vis st0 m) (hs : HB.step T m l = some m') : Vis st0 m' := by
  obtain ⟨r, he, rfl⟩ := step_eq hs
  have same : ∀ (t : Nat), ∀ v, ∀ f ∈ put m.pc t (m.pc t) v, ∃ f' ∈ m.pc v, f'.sends = f.sends := by
    intro t v f hf
    by_cases e : v = t
    · subst e; rw [put_same] at hf; exact ⟨f, hf, rfl⟩
    · rw [put_ne _ _ e] at hf; exact ⟨f, hf, rfl⟩
  cases l with
  | begin t op =>
    simp only [effect] at he
    split at he
    · next hc =>
      simp only [Bool.and_eq_true] at hc
      cases hsent : sent T m.st.value op with
      | ok v =>
        rw [hsent] at he
        cases he
        simp only [record, hsent, Lbl.who, ops]
        have hheld : ∀ o, (m.mem.run t (updateOps op)).sync (.held o) = m.mem.sync (.held o) := by
          intro o
          refine Mem.sync_other _ _ _ _ fun x hx => ?_
          cases op <;> simp [updateOps] at hx <;> (try rcases hx with rfl | rfl) <;> (try subst hx) <;> simp
        refine ⟨?_, ?_, by simp, ?_, ?_⟩
        · by_cases ha : ∃ w, op = .assign w
          · obtain ⟨w, rfl⟩ := ha
            intro k hk u
            simp only [since, List.mem_cons, List.not_mem_nil, or_false] at hk
            subst hk
            simp [updateOps, Mem.run, Mem.op, put]
          · have hops : updateOps op = [.acq .value, .rel .value] := by
              cases op <;> first | rfl | exact absurd ⟨_, rfl⟩ ha
            have hsin : since (⟨op, T.wrap (exact m.st.value op), v, m.mem.clk t⟩ :: m.updates) =
                ⟨op, T.wrap (exact m.st.value op), v, m.mem.clk t⟩ :: since m.updates := by
              cases op <;> first | rfl | exact absurd ⟨_, rfl⟩ ha
            rw [hsin, hops]
            intro k hk u
            simp only [Mem.run, Mem.op, put_same]
            rcases List.mem_cons.1 hk with rfl | hk
            · simp only; omega
            · have := h.value k hk u; omega
        · intro k ks hk
          cases hk
          rfl
        · intro w f hf
          simp only at hf
          by_cases e : w = t
          · subst e
            rw [put_same] at hf
            rcases List.mem_cons.1 hf with rfl | hf
            · exact ⟨_, List.mem_cons_self, rfl, fun u => m.mem.clk_run _ _ _ _⟩
            · obtain ⟨k, h1, h2, h3⟩ := h.frames w f hf
              exact ⟨k, List.mem_cons_of_mem _ h1, h2, fun u => Nat.le_trans (h3 u) (m.mem.clk_run _ _ _ _)⟩
          · rw [put_ne _ _ e] at hf
            obtain ⟨k, h1, h2, h3⟩ := h.frames w f hf
            exact ⟨k, List.mem_cons_of_mem _ h1, h2, fun u => Nat.le_trans (h3 u) (m.mem.clk_run _ _ _ _)⟩
        · intro o ho
          obtain ⟨k, h1, h2, h3⟩ := h.held o ho
          exact ⟨k, List.mem_cons_of_mem _ h1, h2, by rw [hheld]; exact h3⟩
      | ub => rw [hsent] at he; cases he
      | hang => rw [hsent] at he; cases he
    · cases he
  | enter t =>
    simp only [effect] at he
    split at he
    · next v fs hpc =>
      cases he
      refine h.other (t := t) rfl (fun x _ => not_releases (l := .enter t) id m x) rfl rfl rfl (pop_frames hpc ?_)
      intro g hg
      rcases List.mem_cons.1 hg with rfl | hg
      · exact .inl rfl
      · exact .inr hg
    · cases he
  | back t =>
    simp only [effect] at he
    split at he
    · next v i n fs hpc =>
      cases he
      refine h.other (t := t) rfl (fun x _ => not_releases (l := .back t) id m x) rfl rfl rfl (pop_frames hpc ?_)
      intro g hg
      rcases List.mem_cons.1 hg with rfl | hg
      · exact .inl rfl
      · exact .inr hg
    · cases he
  | leave t =>
    simp only [effect] at he
    split at he
    · next v i n fs hpc =>
      split at he
      · cases he
      · cases he
        exact h.other (t := t) rfl (fun x _ => not_releases (l := .leave t) id m x) rfl rfl rfl
          (pop_frames hpc fun g hg => .inr hg)
    · cases he
  | deliver t o =>
    simp only [effect] at he
    split at he
    · next v i n fs hpc =>
      split at he
      · cases he
        have hops : ops m (.deliver t o) = .acc (.slot i) false 0 :: .sto (.held o) :: .acc (.fn o) false 0 ::
            if m.st.fn o then [.acc (.fn o) false 0] else [] := by
          simp [ops, hpc, deliverOps]
        have hoth : ∀ x, x ≠ .held o → (m.mem.run t (ops m (.deliver t o))).sync x = m.mem.sync x := by
          intro x hx
          refine Mem.sync_other _ _ _ _ fun y hy => ?_
          rw [hops] at hy
          split at hy <;> simp only [List.mem_cons, List.not_mem_nil, or_false] at hy
          · rcases hy with rfl | rfl | rfl | rfl <;> simp [Ne.symm hx]
          · rcases hy with rfl | rfl | rfl <;> simp [Ne.symm hx]
        have hself : ∀ u, m.mem.clk t u ≤ (m.mem.run t (ops m (.deliver t o))).sync (.held o) u := by
          intro u
          have h1 : ∀ (rest : List MOp), (∀ y ∈ rest, y ≠ .rel (.held o) ∧ y ≠ .sto (.held o)) →
              m.mem.clk t u ≤ (m.mem.run t (.acc (.slot i) false 0 :: .sto (.held o) :: rest)).sync (.held o) u := by
            intro rest hr
            simp only [Mem.run]
            rw [Mem.sync_other _ _ _ _ hr]
            have := m.mem.op_clk_le t (.acc (.slot i) false 0) t u
            simpa [Mem.op, put] using this
          rw [hops]
          refine h1 _ ?_
          split <;> simp
        have hfr : ∀ w, ∀ f ∈ put m.pc t (⟨v, if m.st.fn o then .call i n else .loop (i + 1) n⟩ :: fs) w,
            ∃ f' ∈ m.pc w, f'.sends = f.sends := by
          refine pop_frames hpc ?_
          intro g hg
          rcases List.mem_cons.1 hg with rfl | hg
          · exact .inl rfl
          · exact .inr hg
        refine ⟨?_, h.head, h.none, ?_, ?_⟩
        · intro k hk u
          simp only [Lbl.who]
          rw [hoth .value (by simp)]
          exact h.value k hk u
        · intro w f hf
          obtain ⟨f', hf', hfe⟩ := hfr w f hf
          obtain ⟨k, h1, h2, h3⟩ := h.frames w f' hf'
          exact ⟨k, h1, by rw [h2, hfe], fun u => Nat.le_trans (h3 u) (m.mem.clk_run _ _ _ _)⟩
        · intro p hp
          simp only [Values.deliver, record, Lbl.who] at hp ⊢
          by_cases e : p = o
          · subst e
            obtain ⟨k, h1, h2, h3⟩ := h.frames t ⟨v, .loop i n⟩ (by rw [hpc]; exact List.mem_cons_self)
            exact ⟨k, h1, by simpa using h2, fun u => Nat.le_trans (h3 u) (hself u)⟩
          · rw [if_neg e] at hp ⊢
            rw [hoth _ (by simpa using e)]
            exact h.held p hp
      · cases he
    · cases he
  | config t op =>
    simp only [effect] at he
    split at he
    · next hc =>
      simp only [Bool.and_eq_true, Bool.not_eq_eq_eq_not, Bool.not_true] at hc
      cases hx : exec T m.st op with
      | ok x =>
        rw [hx] at he
        cases he
        obtain ⟨h1, h2⟩ := config_keeps hc.2 hx
        exact h.other (t := t) rfl (fun x _ => not_releases (l := .config t op) id m x) rfl h1 h2 (same t)
      | ub => rw [hx] at he; cases he
      | hang => rw [hx] at he; cases he
    · cases he
  | value t =>
    simp only [effect] at he
    split at he
    · cases he
      exact h.other (t := t) rfl (fun x _ => not_releases (l := .value t) id m x) rfl rfl rfl (same t)
    · cases he
  | held t o =>
    simp only [effect] at he
    split at he
    · cases he
      exact h.other (t := t) rfl (fun x _ => not_releases (l := .held t o) id m x) rfl rfl rfl (same t)
    · cases he
  | touch t n wr =>
    simp only [effect] at he
    split at he
    · cases he
      exact h.other (t := t) rfl (fun x _ => not_releases (l := .touch t n wr) id m x) rfl rfl rfl (same t)
    · cases he
  | acq t n =>
    simp only [effect] at he
    split at he
    · cases he
      exact h.other (t := t) rfl (fun x _ => not_releases (l := .acq t n) id m x) rfl rfl rfl (same t)
    · cases he
  | rel t n =>
    simp only [effect] at he
    split at he
    · cases he
      refine h.other (t := t) rfl (fun x hx => ?_) rfl rfl rfl (same t)
      rcases hx with rfl | ⟨o, rfl⟩ <;> simp [ops]
    · cases he

theorem Run.vis {st : St} (h : Run T (State.start st) G ls m) : Vis st m := by
  induction h with
  | start => exact Vis.start st
  | step _ _ _ _ _ _ hs ih => exact ih.step hs

/-- **C112, the observable**: in every execution, a thread that reads `value()` gets the value that the newest update left,
and what it does next comes after everything that happened before that update, and before each of the updates back to the
newest assignment. -/
theorem C112_value {st : St} (h : Run T (State.start st) G ls m) {t : Nat} (hs : step T m (.value t) = some m') :
    (∀ k ks, m.updates = k :: ks → m.st.value = k.result) ∧
      ∀ k ∈ since m.updates, ∀ u, k.before u ≤ m'.mem.clk t u := by
  refine ⟨h.vis.head, fun k hk u => ?_⟩
  rw [step_mem hs]
  have := h.vis.value k hk u
  simp only [ops, Lbl.who, Mem.run, Mem.op, put_same]
  omega

/-- **C112, an observed**: a thread that reads a `value()` of an observed other than the one it had at first gets what some
update sent, and what it does next comes after everything that happened before that update. -/
theorem C112_observed {st : St} (h : Run T (State.start st) G ls m) {t o : Nat} (hs : step T m (.held t o) = some m')
    (hne : m.st.held o ≠ st.held o) :
    ∃ k ∈ m.updates, k.sends = m.st.held o ∧ ∀ u, k.before u ≤ m'.mem.clk t u := by
  obtain ⟨k, h1, h2, h3⟩ := h.vis.held o hne
  refine ⟨k, h1, h2, fun u => ?_⟩
  rw [step_mem hs]
  have := h3 u
  simp only [ops, Lbl.who, Mem.run, Mem.op, put_same]
  omega

/-- What the records mean: the accesses that the updating thread made before, and those that it came after. -/
theorem C112_before {st : St} (h : Run T (State.start st) G ls m) {t : Nat} {op : Values.Op}
    (hs : step T m (.begin t op) = some m') : ∃ k, m'.updates = k :: m.updates ∧ k.op = op ∧ m'.st.value = k.result ∧
      m'.pc t = ⟨k.sends, .enter⟩ :: m.pc t ∧ k.before = m.mem.clk t ∧
      ∀ a ∈ m.mem.log, a.who = t → a.time ≤ k.before t := by
  obtain ⟨r, he, rfl⟩ := step_eq hs
  simp only [effect] at he
  split at he
  · cases hsent : sent T m.st.value op with
    | ok v =>
      rw [hsent] at he
      cases he
      simp only [record, hsent, Lbl.who, put_same]
      exact ⟨_, rfl, rfl, rfl, rfl, rfl, fun a ha hw => by have := (h.memOk Mem.Ok.new).log a ha; rwa [hw] at this⟩
    | ub => rw [hsent] at he; cases he
    | hang => rw [hsent] at he; cases he
  · cases he

theorem Run.trans {i0 : State} {G0 : State → Lbl → Prop} {ls0 : List Lbl} (h0 : Run T i0 G0 ls0 i) (h : Run T i G ls m) :
    Run T i0 anyLbl (ls ++ ls0) m := by
  induction h with
  | start =>
    rw [List.nil_append]
    induction h0 with
    | start => exact .start
    | step ls m m' l _ _ hs ih => exact .step _ _ _ _ ih trivial hs
  | step ls m m' l _ _ hs ih => exact .step _ _ _ _ ih trivial hs

/-- No assignment. -/
def noAssign : State → Lbl → Prop
  | _, .begin _ (.assign _) => False
  | _, _ => True

/-- **C112, for the user**: thread `t` does something, then updates the observable; then there are updates of all kinds
except assignments, by any threads; then thread `u` reads `value()`.  What `t` did before its update happens before what
`u` does next, so that data written by `t` can be read by `u`. -/
theorem C112_message {st : St} {m0 m1 : State} {G0 : State → Lbl → Prop} {ls0 : List Lbl}
    (h0 : Run T (State.start st) G0 ls0 m0) {t u : Nat} {op : Values.Op} (h1 : step T m0 (.begin t op) = some m1)
    (h : Run T m1 noAssign ls m) (h2 : step T m (.value u) = some m') :
    ∀ a ∈ m0.mem.log, a.who = t → a.time ≤ m'.mem.clk u t := by
  obtain ⟨k, hk1, -, -, -, -, hk⟩ := C112_before h0 h1
  have hall : Run T (State.start st) anyLbl (ls ++ .begin t op :: ls0) m :=
    (Run.step (G := anyLbl) _ _ _ _ (by simpa using h0.trans (.start (G := anyLbl))) trivial h1).trans h
  have hin : k ∈ since m.updates := by
    clear hall h2
    induction h with
    | start => rw [hk1]; simp [since]
    | step ls m m2 l _ hg hs ih =>
      obtain ⟨r, he, rfl⟩ := step_eq hs
      cases l with
      | begin v op' =>
        simp only [record]
        split
        · cases op' <;> first | exact hg.elim | exact List.mem_cons_of_mem _ ih
        · exact ih
      | _ => exact ih
  intro a ha hw
  exact Nat.le_trans (hk a ha hw) ((C112_value hall h2).2 k hin t)

/-! ### C113 -/

/-- Only thread `t` updates, and not from inside an `on_update` function. -/
def oneThread (t : Nat) (m : State) : Lbl → Prop
  | .begin v _ => v = t ∧ m.pc t = []
  | _ => True

/-- Data `n` is touched only by `on_update` functions. -/
def inside (n : Nat) (m : State) : Lbl → Prop
  | .touch v n' _ => n' = n → m.pc v ≠ []
  | _ => True

theorem Run.single {st : St} {t : Nat} (h : Run T (State.start st) G ls m) (hG : ∀ m l, G m l → oneThread t m l) :
    (∀ v, v ≠ t → m.pc v = []) ∧ (m.pc t).length ≤ 1 := by
  induction h with
  | start => exact ⟨fun _ _ => rfl, by simp [State.start]⟩
  | step ls m m' l _ hg hs ih =>
    have hg := hG _ _ hg
    obtain ⟨r, he, rfl⟩ := step_eq hs
    have other : ∀ fs : List Frame, l.who ≠ t ∧ fs = [] ∨ l.who = t ∧ fs.length ≤ 1 →
        (∀ v, v ≠ t → put m.pc l.who fs v = []) ∧ (put m.pc l.who fs t).length ≤ 1 := by
      rintro fs (⟨h1, rfl⟩ | ⟨h1, h2⟩)
      · refine ⟨fun v hv => ?_, by rw [put_ne _ _ (Ne.symm h1)]; exact ih.2⟩
        by_cases e : v = l.who
        · rw [e, put_same]
        · rw [put_ne _ _ e]; exact ih.1 v hv
      · rw [h1]
        exact ⟨fun v hv => by rw [put_ne _ _ hv]; exact ih.1 v hv, by rw [put_same]; exact h2⟩
    refine other r.2 ?_
    have keep : r.2 = m.pc l.who → l.who ≠ t ∧ r.2 = [] ∨ l.who = t ∧ r.2.length ≤ 1 := by
      intro e
      by_cases hw : l.who = t
      · exact .inr ⟨hw, by rw [e, hw]; exact ih.2⟩
      · exact .inl ⟨hw, by rw [e]; exact ih.1 _ hw⟩
    have pop : ∀ f fs, m.pc l.who = f :: fs → l.who = t ∧ fs = [] := by
      intro f fs e
      by_cases hw : l.who = t
      · have := ih.2
        rw [← hw, e] at this
        simp only [List.length_cons] at this
        exact ⟨hw, List.length_eq_zero_iff.1 (by omega)⟩
      · rw [ih.1 _ hw] at e; cases e
    cases l with
    | begin v op =>
      obtain ⟨rfl, hpc⟩ := hg
      simp only [effect] at he
      split at he
      · split at he
        · cases he; exact .inr ⟨rfl, by simp [hpc]⟩
        · cases he
      · cases he
    | enter v =>
      simp only [effect] at he
      split at he
      · next hpc => cases he; obtain ⟨h1, rfl⟩ := pop _ _ hpc; exact .inr ⟨h1, by simp⟩
      · cases he
    | deliver v o =>
      simp only [effect] at he
      split at he
      · next hpc =>
        split at he
        · cases he; obtain ⟨h1, rfl⟩ := pop _ _ hpc; exact .inr ⟨h1, by simp⟩
        · cases he
      · cases he
    | back v =>
      simp only [effect] at he
      split at he
      · next hpc => cases he; obtain ⟨h1, rfl⟩ := pop _ _ hpc; exact .inr ⟨h1, by simp⟩
      · cases he
    | leave v =>
      simp only [effect] at he
      split at he
      · next hpc =>
        split at he
        · cases he
        · cases he; obtain ⟨h1, rfl⟩ := pop _ _ hpc; exact .inr ⟨h1, by simp⟩
      · cases he
    | config v op =>
      simp only [effect] at he
      split at he
      · split at he
        · cases he; exact keep rfl
        · cases he
      · cases he
    | _ =>
      simp only [effect] at he
      split at he
      · cases he; exact keep rfl
      · cases he

/-- C113, as far as it holds: if only one thread updates, and not from inside a function, then no two `on_update`
functions, and no two updates, run at the same time. -/
theorem C113_one_thread_partial {st : St} {t : Nat} (h : Run T (State.start st) (oneThread t) ls m) {v w : Nat}
    {f g : Frame} (hf : f ∈ m.pc v) (hg : g ∈ m.pc w) : v = w ∧ f = g := by
  obtain ⟨h1, h2⟩ := h.single fun _ _ h => h
  have hv : v = t := Classical.byContradiction fun e => by rw [h1 v e] at hf; cases hf
  have hw : w = t := Classical.byContradiction fun e => by rw [h1 w e] at hg; cases hg
  refine ⟨hv.trans hw.symm, ?_⟩
  rw [hv] at hf
  rw [hw] at hg
  cases hp : m.pc t with
  | nil => rw [hp] at hf; cases hf
  | cons x xs =>
    have hx : xs = [] := by
      rw [hp, List.length_cons] at h2
      exact List.length_eq_zero_iff.1 (by omega)
    rw [hp, hx, List.mem_singleton] at hf hg
    rw [hf, hg]

/-- Data that only `on_update` functions touch is then free of data races. -/
theorem C113_data_partial {st : St} {t n : Nat} (h : Run T (State.start st) (fun m l => oneThread t m l ∧ inside n m l) ls m)
    (hl : inside n m l) (hst : step T m l = some m') : ¬ Race (fun x => x = .data n) m l := by
  have hsing := (h.single (t := t) fun _ _ h => h.1).1
  have hok := h.memOk Mem.Ok.new
  have mine : ∀ (m : State) (l : Lbl), (∀ v, v ≠ t → m.pc v = []) → inside n m l → ∀ wr tag,
      .acc (.data n) wr tag ∈ ops m l → l.who = t ∧ ∃ v n' w, l = .touch v n' w := by
    intro m l hs hin wr tag hm
    have hre : ∀ (i k : Nat), .acc (.data n) wr tag ∉ readOps i k := by
      intro i k
      induction k generalizing i with
      | zero => simp [readOps]
      | succ n ih => simp [readOps, ih]
    have hfi : ∀ (p : Nat) (l : List (Option Nat)) (i : Nat), .acc (.data n) wr tag ∉ findOps p l i := by
      intro p l
      induction l with
      | nil => simp [findOps]
      | cons a l ih => intro i; simp only [findOps]; split <;> simp [ih]
    have hrm : ∀ (p : Nat) (l : List (Option Nat)) (i w : Nat), .acc (.data n) wr tag ∉ removeOps p l i w := by
      intro p l
      induction l with
      | nil => simp [removeOps]
      | cons a l ih => intro i w; simp only [removeOps]; (repeat' split) <;> simp [ih]
    cases l with
    | touch v n' w =>
      simp only [ops, List.mem_singleton] at hm
      cases hm
      refine ⟨Classical.byContradiction fun e => hin rfl (hs v e), _, _, _, rfl⟩
    | begin v op => cases op <;> simp [ops, updateOps] at hm
    | enter v => simp only [ops] at hm; split at hm <;> simp at hm
    | deliver v o =>
      simp only [ops] at hm
      split at hm
      · simp only [deliverOps] at hm; split at hm <;> simp at hm
      · simp at hm
    | config v op =>
      exfalso
      revert hm
      cases op with
      | add p =>
        simp only [ops, configOps]
        cases m.st.reg <;> simp only [addOps] <;> (repeat' split) <;> simp [hfi]
      | remove p =>
        simp only [ops, configOps]
        cases m.st.reg <;> simp only [rmOps] <;> (repeat' split) <;> simp [hrm]
      | clear =>
        simp only [ops, configOps]
        cases m.st.reg <;> simp [clearOps, hre]
      | _ => simp [ops, configOps]
    | _ => simp [ops] at hm
  have hlog : ∀ a ∈ m.mem.log, a.loc = .data n → a.who = t := by
    clear hl hok hsing hst
    induction h with
    | start => intro a ha; cases ha
    | step ls m m1 l1 hr hg hs ih =>
      intro a ha hal
      rw [step_mem hs] at ha
      rcases log_run _ _ _ _ ha with ha | ⟨h1, h2⟩
      · exact ih a ha hal
      · rw [hal] at h2
        rw [h1]
        exact (mine m l1 (hr.single (t := t) fun _ _ h => h.1).1 hg.2 _ _ h2).1
  intro hrace
  by_cases ht : ∃ v n' w, l = .touch v n' w
  · obtain ⟨v, n', w, rfl⟩ := ht
    simp only [Race, ops, Mem.Races, Lbl.who, or_false] at hrace
    obtain ⟨hloc, a, ha, hal, -, hlt⟩ := hrace
    have hv : v = t := Classical.byContradiction fun e => hl (by simpa using hloc) (hsing v e)
    have h1 := hlog a ha (by rw [hal, hloc])
    have h2 := hok.log a ha
    rw [h1] at h2 hlt
    rw [hv] at hlt
    omega
  · have none : ∀ (os : List MOp) (m : Mem Nat Loc Obj) (t : Nat), (∀ wr tag, .acc (.data n) wr tag ∉ os) →
        ¬ m.Races (fun x => x = .data n) t os := by
      intro os
      induction os with
      | nil => intro m t _; exact id
      | cons o os ih =>
        intro m t hno
        have ih := ih (m.op t o) t fun wr tag h => hno wr tag (List.mem_cons_of_mem _ h)
        cases o with
        | acc loc wr tag =>
          rintro (⟨rfl, -⟩ | h)
          · exact hno wr tag List.mem_cons_self
          · exact ih h
        | _ => exact ih
    exact none _ _ _ (fun wr tag h => ht (mine m l hsing hl wr tag h).2) hrace

end Verif.Values.HB
