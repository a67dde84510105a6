import Verif.Lru.Threads
import Verif.Lru.Props
/-! Property C131: `cache::lru` used by several threads. -/
namespace Verif.Lru.Conc
open Verif Verif.HB

variable {K V : Type} [DecidableEq K] {p : Par} {G : State K V → Lbl K V → Prop} {m m' : State K V} {l : Lbl K V}

/-! ### The rest of a call -/

/-- What the rest of a call does if nobody else interferes and the clock reads `now`. -/
def rest (p : Par) (now : Int) (c : Cache K V) : Call K V → Pc K V → Res (Cache K V × Ret K V)
  | call, .enter => call.alone p c now
  | call, .look => call.alone p c now
  | .put k _, .find =>
    match c.list.find? fun i => i.key = k with
    | some obj => .ok (⟨obj :: c.list.eraseP fun i => i.key = k, setMap c.map k obj⟩, .put (.value ()))
    | none => .ok (c, .put (if p.exc then .missed else .value ()))
  | .put k _, .erase obj => .ok (⟨obj :: c.list.eraseP fun i => i.key = k, setMap c.map k obj⟩, .put (.value ()))
  | .put k v, .size =>
    if c.list.length ≥ p.size then
      if c.list = [] then .ub
      else .ok (⟨⟨k, v, now⟩ :: c.list.dropLast, setMap c.map k ⟨k, v, now⟩⟩, .put (.value ()))
    else .ok (⟨⟨k, v, now⟩ :: c.list, setMap c.map k ⟨k, v, now⟩⟩, .put (.value ()))
  | .put k v, .pop =>
    if c.list = [] then .ub
    else .ok (⟨⟨k, v, now⟩ :: c.list.dropLast, setMap c.map k ⟨k, v, now⟩⟩, .put (.value ()))
  | .put k v, .clock => .ok (⟨⟨k, v, now⟩ :: c.list, setMap c.map k ⟨k, v, now⟩⟩, .put (.value ()))
  | .put k _, .front obj => .ok (⟨obj :: c.list, setMap c.map k obj⟩, .put (.value ()))
  | .put k _, .store obj => .ok (⟨c.list, setMap c.map k obj⟩, .put (.value ()))
  | .get k, .fetch =>
    match findMap c.map k with
    | some o => if now - o.time ≥ p.expiry then .ok (c, .get (if p.exc then .timeout else .value none)) else .ub
    | none => .ub
  | .get _, .age time =>
    if now - time ≥ p.expiry then .ok (c, .get (if p.exc then .timeout else .value none)) else .ub
  | _, .leave r => .ok (c, r)
  | _, _ => .ub

theorem find_of_contains {c : Cache K V} {k : K} : c.contains k = (findMap c.map k).isSome := by
  unfold Cache.contains findMap
  generalize c.map = l
  induction l with
  | nil => rfl
  | cons a l ih =>
    simp only [List.any_cons, List.find?_cons]
    by_cases h : a.1 = k
    · simp [h]
    · simpa [h] using ih

/-- A step on the containers is the first step of the rest of the call. -/
theorem body_rest {c c' : Cache K V} {now n : Int} {call : Call K V} {pc pc' : Pc K V}
    (h : body p c now call pc = some (c', pc')) (hn : pc.timed = true → n = now) :
    rest p n c call pc = rest p n c' call pc' := by
  cases call with
  | put k v =>
    cases pc with
    | look =>
      simp only [body, Option.some.injEq, Prod.mk.injEq] at h
      obtain ⟨rfl, rfl⟩ := h
      simp only [rest, Call.alone, Lru.put, branch]
      by_cases hc : c.contains k = true
      · simp only [hc, if_true]
        cases hf : c.list.find? fun i => decide (i.key = k) <;> simp
      · simp only [hc, Bool.false_eq_true, if_false]
        by_cases h1 : c.list.length ≥ p.size
        · by_cases h2 : c.list = []
          · simp only [if_pos h1, if_pos h2]; rfl
          · simp only [if_pos h1, if_neg h2]; rfl
        · simp only [if_neg h1]; rfl
    | find =>
      simp only [body] at h
      simp only [rest]
      cases hf : c.list.find? fun i => decide (i.key = k) with
      | none => simp only [hf, Option.some.injEq, Prod.mk.injEq] at h; obtain ⟨rfl, rfl⟩ := h; rfl
      | some obj => simp only [hf, Option.some.injEq, Prod.mk.injEq] at h; obtain ⟨rfl, rfl⟩ := h; rfl
    | size =>
      simp only [body, Option.some.injEq, Prod.mk.injEq] at h
      obtain ⟨rfl, rfl⟩ := h
      simp only [rest]
      by_cases h1 : c.list.length ≥ p.size
      · simp only [if_pos h1]
      · simp only [if_neg h1]
    | pop =>
      simp only [body] at h
      simp only [rest]
      split at h
      · cases h
      · next h1 =>
        simp only [Option.some.injEq, Prod.mk.injEq] at h
        obtain ⟨rfl, rfl⟩ := h
        simp only [if_neg h1]
    | clock =>
      simp only [body, Option.some.injEq, Prod.mk.injEq] at h
      obtain ⟨rfl, rfl⟩ := h
      rw [hn rfl]
      rfl
    | erase obj | front obj | store obj =>
      simp only [body, Option.some.injEq, Prod.mk.injEq] at h
      obtain ⟨rfl, rfl⟩ := h
      rfl
    | enter | fetch | age | leave => simp [body] at h
  | get k =>
    cases pc with
    | look =>
      simp only [body, Option.some.injEq, Prod.mk.injEq] at h
      obtain ⟨rfl, rfl⟩ := h
      simp only [rest, Call.alone, Lru.get, branch, find_of_contains]
      cases hf : findMap c.map k with
      | none => rfl
      | some o =>
        simp only [Option.isSome_some, if_true, hf]
        by_cases h1 : n - o.time ≥ p.expiry
        · simp only [if_pos h1]; rfl
        · simp only [if_neg h1]; rfl
    | fetch =>
      simp only [body] at h
      simp only [rest]
      cases hf : findMap c.map k with
      | none => simp [hf] at h
      | some o => simp only [hf, Option.some.injEq, Prod.mk.injEq] at h; obtain ⟨rfl, rfl⟩ := h; rfl
    | age time =>
      simp only [body] at h
      simp only [rest]
      rw [hn rfl]
      split at h
      · next h1 =>
        simp only [Option.some.injEq, Prod.mk.injEq] at h
        obtain ⟨rfl, rfl⟩ := h
        rw [if_pos h1]
      · cases h
    | _ => simp [body] at h

/-- A step that is undefined makes the rest of the call undefined. -/
theorem body_none {c : Cache K V} {now : Int} {call : Call K V} {pc : Pc K V} (h : body p c now call pc = none)
    (h1 : pc ≠ .enter) (h2 : ∀ r, pc ≠ .leave r) : rest p now c call pc = .ub := by
  cases call with
  | put k v =>
    cases pc with
    | enter => exact absurd rfl h1
    | leave r => exact absurd rfl (h2 r)
    | find =>
      simp only [body] at h
      cases hf : c.list.find? fun i => decide (i.key = k) <;> simp [hf] at h
    | pop =>
      simp only [body] at h
      split at h
      · next h3 => simp only [rest, if_pos h3]
      · cases h
    | look | erase | size | clock | front | store => simp [body] at h
    | fetch | age => rfl
  | get k =>
    cases pc with
    | enter => exact absurd rfl h1
    | leave r => exact absurd rfl (h2 r)
    | look => simp [body] at h
    | fetch =>
      simp only [body] at h
      simp only [rest]
      cases hf : findMap c.map k with
      | none => rfl
      | some o => simp [hf] at h
    | age time =>
      simp only [body] at h
      split at h
      · cases h
      · next h3 => simp only [rest, if_neg h3]
    | _ => rfl

/-! ### With the mutex -/

/-- The call is past the lock. -/
def Frame.within (f : Frame K V) : Prop := match f.pc with
  | .enter => False
  | _ => True

/-- The rest of the call of `f` in the cache `c` does what the whole call does in the cache `w`. -/
def Frame.Agrees (p : Par) (f : Frame K V) (c w : Cache K V) : Prop :=
  ∀ now, f.now = none ∨ f.now = some now → rest p now c f.call f.pc = f.call.alone p w now

/-- The clock is not read any more. -/
def Pc.late : Pc K V → Bool
  | .front _ | .store _ | .leave _ => true
  | _ => false

structure Inv (p : Par) (m : State K V) : Prop where
  outside : ∀ t f, m.pc t = some f → m.holder ≠ some t → ¬ f.within ∧ f.now = none
  free : m.holder = none → Explains p m.hist m.cache ∧ ∀ a ∈ m.mem.log, a.time ≤ m.mem.sync .mutex a.who
  held : ∀ t, m.holder = some t → (∀ a ∈ m.mem.log, a.time ≤ m.mem.clk t a.who) ∧
    ∃ f w, m.pc t = some f ∧ f.within ∧ Explains p m.hist w ∧ f.Agrees p m.cache w ∧ (f.pc.late = false → f.now = none)

omit [DecidableEq K] in
/-- Steps between the lock and its release make at most one access and do not synchronise. -/
theorem ops_body {mtx : Bool} {pc : Pc K V} (h1 : pc ≠ .enter) (h2 : ∀ r, pc ≠ .leave r) :
    pc.ops mtx = [] ∨ ∃ loc wr, pc.ops mtx = [.acc loc wr 0] := by
  cases pc with
  | enter => exact absurd rfl h1
  | leave r => exact absurd rfl (h2 r)
  | clock | age => exact .inl rfl
  | _ => exact .inr ⟨_, _, rfl⟩

/-- A step of a call past the lock and before its release. -/
theorem act_body {t : Nat} {now : Int} {f : Frame K V} (h1 : f.pc ≠ .enter) (h2 : ∀ r, f.pc ≠ .leave r) :
    act p m t now f = (body p m.cache now f.call f.pc).map fun r =>
      { m with mem := m.mem.run t (f.pc.ops p.mtx), cache := r.1,
               pc := HB.put m.pc t (some ⟨f.call, r.2, if f.pc.timed then some now else f.now⟩) } := by
  unfold act
  split
  · next h => exact absurd h h1
  · next r h => exact absurd h (h2 r)
  · rfl

omit [DecidableEq K] in
theorem within_iff {f : Frame K V} : f.within ↔ f.pc ≠ .enter := by
  unfold Frame.within
  split
  · next h => simp [h]
  · next h => exact ⟨fun _ e => h e, fun _ => trivial⟩

/-- The next step of a call past the lock is not the lock again. -/
theorem body_within {c c' : Cache K V} {now : Int} {call : Call K V} {pc pc' : Pc K V}
    (h : body p c now call pc = some (c', pc')) : pc' ≠ .enter := by
  rintro rfl
  cases call with
  | put k v =>
    cases pc with
    | look =>
      simp only [body, branch, Option.some.injEq, Prod.mk.injEq] at h
      have := h.2
      split at this <;> cases this
    | find =>
      simp only [body] at h
      split at h <;> simp at h
    | size =>
      simp only [body, Option.some.injEq, Prod.mk.injEq] at h
      have := h.2
      split at this <;> cases this
    | pop =>
      simp only [body] at h
      split at h <;> simp at h
    | _ => simp [body] at h
  | get k =>
    cases pc with
    | look =>
      simp only [body, branch, Option.some.injEq, Prod.mk.injEq] at h
      have := h.2
      split at this <;> cases this
    | fetch =>
      simp only [body] at h
      split at h <;> simp at h
    | age =>
      simp only [body] at h
      split at h <;> simp at h
    | _ => simp [body] at h

/-- The clock is read at most once in a call. -/
theorem body_late {c c' : Cache K V} {now : Int} {call : Call K V} {pc pc' : Pc K V}
    (h : body p c now call pc = some (c', pc')) (hl : pc'.late = false) : pc.late = false ∧ pc.timed = false := by
  cases call with
  | put k v =>
    cases pc with
    | clock | erase | store | front =>
      simp only [body, Option.some.injEq, Prod.mk.injEq] at h
      rw [← h.2] at hl
      cases hl
    | leave | age => simp [body] at h
    | _ => exact ⟨rfl, rfl⟩
  | get k =>
    cases pc with
    | age =>
      simp only [body] at h
      split at h
      · simp only [Option.some.injEq, Prod.mk.injEq] at h
        rw [← h.2] at hl
        cases hl
      · cases h
    | clock | store | front | leave => simp [body] at h
    | _ => exact ⟨rfl, rfl⟩

theorem run_ok (r : Run p G m) : m.mem.Ok := by
  induction r with
  | start => exact Mem.Ok.new
  | step m m' l _ _ hs ih =>
    cases l with
    | call t c =>
      simp only [step] at hs
      split at hs
      · cases hs
      · cases hs; exact ih
    | rel t n =>
      simp only [step] at hs
      split at hs
      · cases hs
      · cases hs; exact ih.run t _
    | acq t n =>
      simp only [step] at hs
      split at hs
      · cases hs
      · cases hs; exact ih.run t _
    | act t now =>
      simp only [step, Option.bind_eq_some_iff] at hs
      obtain ⟨f, _, hs⟩ := hs
      by_cases h1 : f.pc = .enter
      · simp only [act, h1] at hs
        split at hs
        · cases hs
        · cases hs; exact ih.run t _
      · by_cases h2 : ∃ r, f.pc = .leave r
        · obtain ⟨r, h2⟩ := h2
          simp only [act, h2, Option.some.injEq] at hs
          cases hs; exact ih.run t _
        · rw [act_body h1 fun r e => h2 ⟨r, e⟩, Option.map_eq_some_iff] at hs
          obtain ⟨r, _, rfl⟩ := hs
          exact ih.run t _

theorem inv_step (hm : p.mtx = true) (ok : m.mem.Ok) (i : Inv p m) (hs : step p m l = some m') : Inv p m' := by
  cases l with
  | call t c =>
    simp only [step] at hs
    split at hs
    · cases hs
    next hp =>
    cases hs
    have hp : m.pc t = none := by simpa using hp
    have hne : m.holder ≠ some t := by
      intro e
      obtain ⟨_, f, w, h, _⟩ := i.held t e
      rw [hp] at h
      cases h
    refine ⟨fun u f hf hu => ?_, i.free, fun u hu => ?_⟩
    · by_cases e : u = t
      · subst e
        simp only [put_same, Option.some.injEq] at hf
        subst hf
        exact ⟨fun h => h, rfl⟩
      · rw [show (State.pc _) u = HB.put m.pc t _ u from rfl, put_ne _ _ e] at hf
        exact i.outside u f hf hu
    · obtain ⟨h1, f, w, h2, h3⟩ := i.held u hu
      refine ⟨h1, f, w, ?_, h3⟩
      have e : u ≠ t := fun e => hne (e ▸ hu)
      exact (put_ne _ _ e).trans h2
  | rel t n =>
    simp only [step] at hs
    split at hs
    · cases hs
    next hp =>
    cases hs
    refine ⟨i.outside, fun hf => ⟨(i.free hf).1, fun a ha => ?_⟩, fun u hu => ?_⟩
    · rw [show (Mem.run m.mem t [.rel (.other n)]).sync .mutex = m.mem.sync .mutex from
        Mem.sync_other _ _ _ _ (by simp)]
      exact (i.free hf).2 a ha
    · obtain ⟨h1, h2⟩ := i.held u hu
      exact ⟨h1, h2⟩
  | acq t n =>
    simp only [step] at hs
    split at hs
    · cases hs
    next hp =>
    cases hs
    refine ⟨i.outside, fun hf => ⟨(i.free hf).1, fun a ha => (i.free hf).2 a ha⟩, fun u hu => ?_⟩
    obtain ⟨h1, h2⟩ := i.held u hu
    exact ⟨fun a ha => Nat.le_trans (h1 a ha) (Mem.clk_run _ _ _ _ _), h2⟩
  | act t now =>
    simp only [step, Option.bind_eq_some_iff] at hs
    obtain ⟨f, hf, hs⟩ := hs
    by_cases h1 : f.pc = .enter
    · simp only [act, h1, hm, true_and, if_true, Pc.ops] at hs
      split at hs
      · cases hs
      next hh =>
      have hh : m.holder = none := by simpa using hh
      cases hs
      obtain ⟨hx, hl⟩ := i.free hh
      have hnow := (i.outside t f hf (by rw [hh]; simp)).2
      refine ⟨fun u g hg hu => ?_, fun e => by simp at e, fun u hu => ?_⟩
      · have e : u ≠ t := fun e => hu (by rw [e])
        exact i.outside u g ((put_ne _ _ e).symm.trans hg) (by rw [hh]; simp)
      · have e : u = t := (Option.some.inj hu).symm
        subst e
        refine ⟨fun a ha => ?_, ⟨f.call, .look, f.now⟩, m.cache, put_same _ _ _, trivial, hx, fun n _ => rfl, fun _ => hnow⟩
        simp only [Mem.run, Mem.op, put_same]
        exact Nat.le_trans (hl a ha) (Nat.le_max_right _ _)
    · have hown : m.holder = some t := Classical.byContradiction fun e =>
        (i.outside t f hf e).1 (within_iff.2 h1)
      obtain ⟨hl, f', w, hf', hw, hx, hag, hlate⟩ := i.held t hown
      rw [hf] at hf'
      cases hf'
      have others : ∀ u g, u ≠ t → m.pc u = some g → ¬ g.within ∧ g.now = none := fun u g hu hg =>
        i.outside u g hg (by rw [hown]; simpa using fun e => hu e.symm)
      by_cases h2 : ∃ r, f.pc = .leave r
      · obtain ⟨r, h2⟩ := h2
        simp only [act, h2, hm, if_true, Pc.ops, Option.some.injEq] at hs
        subst hs
        refine ⟨fun u g hg _ => ?_, fun _ => ⟨.call _ hx fun n hn => ?_, fun a ha => ?_⟩, fun u hu => by simp at hu⟩
        · by_cases e : u = t
          · subst e
            simp at hg
          · exact others u g e ((put_ne _ _ e).symm.trans hg)
        · rw [← hag n hn, h2]
          cases f.call <;> rfl
        · simp only [Mem.run, Mem.op, put_same]
          exact Nat.le_trans (hl a ha) (Nat.le_max_right _ _)
      · have h2' : ∀ r, f.pc ≠ .leave r := fun r e => h2 ⟨r, e⟩
        rw [act_body h1 h2', Option.map_eq_some_iff] at hs
        obtain ⟨⟨c', pc'⟩, hb, rfl⟩ := hs
        refine ⟨fun u g hg hu => ?_, fun e => absurd (hown.symm.trans e) (by simp), fun u hu => ?_⟩
        · have e : u ≠ t := fun e => hu (by rw [e]; exact hown)
          exact others u g e ((put_ne _ _ e).symm.trans hg)
        · have e : u = t := by
            rw [show m.holder = some u from hu] at hown
            exact Option.some.inj hown
          subst e
          refine ⟨fun a ha => ?_, _, w, put_same _ _ _, within_iff.2 (body_within hb), hx, fun n hn => ?_, fun e => ?_⟩
          · rcases ops_body (mtx := p.mtx) h1 h2' with ho | ⟨loc, wr, ho⟩
            · simp only [ho, Mem.run] at ha ⊢
              exact hl a ha
            · have ok' := ok.op u (.acc loc wr 0)
              simp only [ho, Mem.run] at ha ⊢
              simp only [Mem.op, List.mem_cons] at ha
              rcases ha with rfl | ha
              · simp [Mem.op]
              · exact Nat.le_trans (hl a ha) (Mem.op_clk_le _ _ _ _ _)
          · have hn' : f.pc.timed = true → n = now := by
              intro e
              simp only [e, if_true] at hn
              rcases hn with hn | hn
              · cases hn
              · exact (Option.some.inj hn).symm
            rw [← body_rest hb hn']
            refine hag n ?_
            by_cases e : f.pc.timed = true
            · exact .inl (hlate (by cases hp : f.pc <;> simp_all [Pc.timed, Pc.late]))
            · simpa [e] using hn
          · obtain ⟨e1, e2⟩ := body_late hb e
            simpa [e2] using hlate e1

theorem run_inv (hm : p.mtx = true) (r : Run p G m) : Inv p m := by
  induction r with
  | start =>
    refine ⟨fun t f hf => ?_, fun _ => ⟨.new, fun a ha => ?_⟩, fun t ht => ?_⟩
    · simp [State.new] at hf
    · simp [State.new, Mem.new] at ha
    · simp [State.new] at ht
  | step m m' l r _ hs ih => exact inv_step hm (run_ok r) ih hs

/-- What one client can do is what `Lru.Reach` describes. -/
theorem Explains.reach {es : List (Event K V)} {c : Cache K V} (h : Explains p es c) : ∃ ks, Lru.Reach p.size p.exc ks c := by
  induction h with
  | new => exact ⟨[], .new⟩
  | @call es c c' e _ ha ih =>
    obtain ⟨ks, hk⟩ := ih
    have ha := ha (e.now.getD 0) (by cases e.now <;> simp)
    cases hc : e.call with
    | put k v =>
      rw [hc, Call.alone] at ha
      cases hq : Lru.put p.size p.exc c k v (e.now.getD 0) with
      | ok r =>
        rw [hq, Res.ok_bind, Res.ok.injEq, Prod.mk.injEq] at ha
        rw [← ha.1]
        exact ⟨k :: ks, .put ks c r.1 k v _ r.2 hk hq⟩
      | ub => rw [hq] at ha; cases ha
      | hang => rw [hq] at ha; cases ha
    | get k =>
      rw [hc, Call.alone] at ha
      cases hq : Lru.get p.exc p.expiry c k (e.now.getD 0) with
      | ok r =>
        rw [hq, Res.ok_bind, Res.ok.injEq, Prod.mk.injEq] at ha
        rw [← ha.1]
        exact ⟨ks, hk⟩
      | ub => rw [hq] at ha; cases ha
      | hang => rw [hq] at ha; cases ha

/-- **C131, no races.** With the mutex no step is a data race, whatever threads call and however they synchronise. -/
theorem C131_no_race_partial (hm : p.mtx = true) (r : Run p anyStep m) (l : Lbl K V) : ¬ Race p m l := by
  have i := run_inv hm r
  cases l with
  | call | rel | acq => simp [Race, ops, Mem.Races]
  | act t now =>
    unfold Race ops
    dsimp only
    cases hf : m.pc t with
    | none => simp [Mem.Races]
    | some f =>
      dsimp only
      by_cases h1 : f.pc = .enter
      · simp [h1, Pc.ops, hm, Mem.Races]
      · by_cases h2 : ∃ r, f.pc = .leave r
        · obtain ⟨r, h2⟩ := h2
          simp [h2, Pc.ops, hm, Mem.Races]
        · have hown : m.holder = some t := Classical.byContradiction fun e =>
            (i.outside t f hf e).1 (within_iff.2 h1)
          rcases ops_body (mtx := p.mtx) h1 fun r e => h2 ⟨r, e⟩ with ho | ⟨loc, wr, ho⟩
          · simp [ho, Mem.Races]
          · simp only [ho, Mem.Races, or_false, true_and]
            rintro ⟨a, ha, -, -, hlt⟩
            exact Nat.not_lt.2 ((i.held t hown).1 a ha) hlt

/-- **C131, one after another.** With the mutex the calls that have returned have the results they have when one client makes
them one after another, in the order in which they returned, and when no call is past the lock the cache is the one that client
gets. -/
theorem C131_one_after_another_partial (hm : p.mtx = true) (r : Run p anyStep m) :
    ∃ w, Explains p m.hist w ∧ ((∀ t f, m.pc t = some f → f.pc = .enter) → m.cache = w) := by
  have i := run_inv hm r
  cases hh : m.holder with
  | none => exact ⟨_, (i.free hh).1, fun _ => rfl⟩
  | some t =>
    obtain ⟨_, f, w, hf, hw, hx, _⟩ := i.held t hh
    exact ⟨w, hx, fun h => absurd (h t f hf) (within_iff.1 hw)⟩

/-- Calls that return later come later in the history. -/
theorem step_hist (hs : step p m l = some m') : ∃ es, m'.hist = es ++ m.hist := by
  cases l with
  | call t c =>
    simp only [step] at hs
    split at hs
    · cases hs
    · cases hs; exact ⟨[], rfl⟩
  | rel t n =>
    simp only [step] at hs
    split at hs
    · cases hs
    · cases hs; exact ⟨[], rfl⟩
  | acq t n =>
    simp only [step] at hs
    split at hs
    · cases hs
    · cases hs; exact ⟨[], rfl⟩
  | act t now =>
    simp only [step, Option.bind_eq_some_iff] at hs
    obtain ⟨f, _, hs⟩ := hs
    by_cases h1 : f.pc = .enter
    · simp only [act, h1] at hs
      split at hs
      · cases hs
      · cases hs; exact ⟨[], rfl⟩
    · by_cases h2 : ∃ r, f.pc = .leave r
      · obtain ⟨r, h2⟩ := h2
        simp only [act, h2, Option.some.injEq] at hs
        cases hs; exact ⟨[_], rfl⟩
      · rw [act_body h1 fun r e => h2 ⟨r, e⟩, Option.map_eq_some_iff] at hs
        obtain ⟨r, _, rfl⟩ := hs
        exact ⟨[], rfl⟩

/-- **C131, the history is what threads observe.** A call enters the history when it returns, with its thread, its arguments and its
result, and only then; a call in progress is the one that its thread made. -/
theorem C131_recorded (hs : step p m l = some m') :
    (∀ t f, m.pc t = some f → m'.pc t = none →
      ∃ r, f.pc = .leave r ∧ m'.hist = ⟨t, f.call, f.now, r⟩ :: m.hist) ∧
    (∀ t f f', m.pc t = some f → m'.pc t = some f' → f'.call = f.call) ∧
    (∀ t f', m.pc t = none → m'.pc t = some f' → l = .call t f'.call) ∧
    ((∀ t, m.pc t ≠ none → m'.pc t ≠ none) → m'.hist = m.hist) := by
  have put_at : ∀ {t u : Nat} {x : Option (Frame K V)}, HB.put m.pc t x u = if u = t then x else m.pc u := fun {t u x} => rfl
  cases l with
  | call t c =>
    simp only [step] at hs
    split at hs
    · cases hs
    · rename_i hn
      have hn : m.pc t = none := by simpa using hn
      cases hs
      refine ⟨fun u f h1 h2 => ?_, fun u f f' h1 h2 => ?_, fun u f' h1 h2 => ?_, fun _ => rfl⟩
      · simp only [put_at] at h2
        split at h2
        · cases h2
        · rw [h1] at h2; cases h2
      · simp only [put_at] at h2
        split at h2
        · rename_i e; rw [e, hn] at h1; cases h1
        · rw [h1] at h2; cases h2; rfl
      · simp only [put_at] at h2
        split at h2
        · rename_i e; cases h2; rw [e]
        · rw [h1] at h2; cases h2
  | rel t n =>
    simp only [step] at hs
    split at hs
    · cases hs
    · cases hs
      exact ⟨fun u f h1 h2 => (by rw [h1] at h2; cases h2), fun u f f' h1 h2 => (by rw [h1] at h2; cases h2; rfl),
        fun u f' h1 h2 => (by rw [h1] at h2; cases h2), fun _ => rfl⟩
  | acq t n =>
    simp only [step] at hs
    split at hs
    · cases hs
    · cases hs
      exact ⟨fun u f h1 h2 => (by rw [h1] at h2; cases h2), fun u f f' h1 h2 => (by rw [h1] at h2; cases h2; rfl),
        fun u f' h1 h2 => (by rw [h1] at h2; cases h2), fun _ => rfl⟩
  | act t now =>
    simp only [step, Option.bind_eq_some_iff] at hs
    obtain ⟨f, hf, hs⟩ := hs
    have going : ∀ g : Frame K V, g.call = f.call → m'.pc = HB.put m.pc t (some g) → m'.hist = m.hist →
        (∀ t f, m.pc t = some f → m'.pc t = none →
          ∃ r, f.pc = .leave r ∧ m'.hist = ⟨t, f.call, f.now, r⟩ :: m.hist) ∧
        (∀ t f f', m.pc t = some f → m'.pc t = some f' → f'.call = f.call) ∧
        (∀ t' f', m.pc t' = none → m'.pc t' = some f' → (Lbl.act t now : Lbl K V) = .call t' f'.call) ∧
        ((∀ t, m.pc t ≠ none → m'.pc t ≠ none) → m'.hist = m.hist) := by
      intro g hg hpc hh
      rw [hpc]
      refine ⟨fun u f' h1 h2 => ?_, fun u f1 f2 h1 h2 => ?_, fun u f' h1 h2 => ?_, fun _ => hh⟩
      · simp only [put_at] at h2
        split at h2
        · cases h2
        · rw [h1] at h2; cases h2
      · simp only [put_at] at h2
        split at h2
        · rename_i e
          rw [e, hf] at h1
          cases h1; cases h2
          exact hg
        · rw [h1] at h2; cases h2; rfl
      · simp only [put_at] at h2
        split at h2
        · rename_i e; rw [e, hf] at h1; cases h1
        · rw [h1] at h2; cases h2
    by_cases h1 : f.pc = .enter
    · simp only [act, h1] at hs
      split at hs
      · cases hs
      · cases hs
        exact going ⟨f.call, .look, f.now⟩ rfl rfl rfl
    · by_cases h2 : ∃ r, f.pc = .leave r
      · obtain ⟨r, h2⟩ := h2
        simp only [act, h2, Option.some.injEq] at hs
        cases hs
        refine ⟨fun u f' h3 h4 => ?_, fun u f1 f2 h3 h4 => ?_, fun u f' h3 h4 => ?_, fun h => ?_⟩
        · simp only [put_at] at h4
          split at h4
          · rename_i e
            rw [e, hf] at h3
            cases h3
            exact ⟨r, h2, by rw [e]⟩
          · rw [h3] at h4; cases h4
        · simp only [put_at] at h4
          split at h4
          · cases h4
          · rw [h3] at h4; cases h4; rfl
        · simp only [put_at] at h4
          split at h4
          · cases h4
          · rw [h3] at h4; cases h4
        · exact absurd (by simp) (h t (by rw [hf]; simp))
      · rw [act_body h1 fun r e => h2 ⟨r, e⟩, Option.map_eq_some_iff] at hs
        obtain ⟨r, _, rfl⟩ := hs
        exact going ⟨f.call, r.2, if f.pc.timed then some now else f.now⟩ rfl rfl rfl

/-- **C131, calls go on.** With the mutex, if a call is in progress then the call that is past the lock can take its next step,
or any call can if there is none; unless the call that is past the lock is undefined for one client alone as well. -/
theorem C131_goes_on_partial (hm : p.mtx = true) (r : Run p anyStep m) {t : Nat} {f : Frame K V} (hf : m.pc t = some f)
    (now : Int) :
    (∃ m', step p m (.act t now) = some m') ∨ ∃ u g, m.pc u = some g ∧ g.pc ≠ .enter ∧
      ((∃ m', step p m (.act u now) = some m') ∨
        ∃ w now', Explains p m.hist w ∧ g.call.alone p w now' = .ub) := by
  have i := run_inv hm r
  cases hh : m.holder with
  | none =>
    have h1 : f.pc = .enter := by
      have := (i.outside t f hf (by rw [hh]; simp)).1
      rw [within_iff] at this
      exact Classical.not_not.1 this
    left
    simp only [step, hf, Option.bind_some, act, h1, hh, ne_eq, not_true_eq_false, and_false, if_false]
    exact ⟨_, rfl⟩
  | some u =>
    obtain ⟨_, g, w, hg, hw, hx, hag, hlate⟩ := i.held u hh
    have h1 := within_iff.1 hw
    refine .inr ⟨u, g, hg, h1, ?_⟩
    simp only [step, hg, Option.bind_some]
    by_cases h2 : ∃ r, g.pc = .leave r
    · obtain ⟨r, h2⟩ := h2
      left
      simp only [act, h2]
      exact ⟨_, rfl⟩
    · have h2 : ∀ r, g.pc ≠ .leave r := fun r e => h2 ⟨r, e⟩
      rw [act_body h1 h2]
      cases hb : body p m.cache now g.call g.pc with
      | some r => exact .inl ⟨_, rfl⟩
      | none =>
        right
        by_cases he : g.pc.late = true
        · have hb' : body p m.cache (g.now.getD 0) g.call g.pc = none := by
            cases hc : g.call <;> cases hp : g.pc <;> simp_all [Pc.late, body]
          exact ⟨w, g.now.getD 0, hx, by rw [← hag _ (by cases g.now <;> simp), body_none hb' h1 h2]⟩
        · exact ⟨w, now, hx, by rw [← hag now (.inl (hlate (by simpa using he))), body_none hb h1 h2]⟩

/-! ### Without the mutex -/

/-- Thread `t` has accessed the map, writing it if `wr`. -/
def Touched (m : State K V) (t : Nat) (wr : Bool) : Prop :=
  ∃ a ∈ m.mem.log, a.who = t ∧ a.loc = .map ∧ (wr = true → a.wr = true)

/-- What a call in progress has accessed. -/
structure Frame.Did (f : Frame K V) (m : State K V) (t : Nat) : Prop where
  looked : f.pc ≠ .enter → f.pc ≠ .look → Touched m t false
  early : f.pc.late = false → f.now = none
  got : (∃ n, f.pc = .age n) → Touched m t true
  left : (∃ r, f.pc = .leave r) → f.now ≠ none → Touched m t true

/-- Threads that do not synchronise and do not race: they know nothing of each other. -/
structure Apart (m : State K V) : Prop where
  clk : ∀ t u, u ≠ t → m.mem.clk t u = 0
  pair : ∀ a ∈ m.mem.log, ∀ b ∈ m.mem.log, a.loc = b.loc → a.wr = true ∨ b.wr = true → a.who = b.who
  pc : ∀ t f, m.pc t = some f → f.Did m t
  hist : ∀ e ∈ m.hist, Touched m e.who false ∧ (e.now ≠ none → Touched m e.who true)

omit [DecidableEq K] in
theorem Touched.mono {t : Nat} {wr : Bool} (h : Touched m t wr) (hl : ∀ a ∈ m.mem.log, a ∈ m'.mem.log) :
    Touched m' t wr :=
  let ⟨a, ha, h1, h2, h3⟩ := h
  ⟨a, hl a ha, h1, h2, h3⟩

omit [DecidableEq K] in
theorem Frame.Did.mono {f : Frame K V} {t : Nat} (h : f.Did m t) (hl : ∀ a ∈ m.mem.log, a ∈ m'.mem.log) : f.Did m' t :=
  ⟨fun h1 h2 => (h.looked h1 h2).mono hl, h.early, fun h1 => (h.got h1).mono hl, fun h1 h2 => (h.left h1 h2).mono hl⟩

/-- One access that does not race keeps threads apart. -/
theorem apart_acc {M : HB.Mem Nat Loc Obj} (ok : M.Ok) {t : Nat} {loc : Loc} {wr : Bool}
    (clk : ∀ v u, u ≠ v → M.clk v u = 0)
    (pair : ∀ a ∈ M.log, ∀ b ∈ M.log, a.loc = b.loc → a.wr = true ∨ b.wr = true → a.who = b.who)
    (hr : ¬ M.Conflict t loc wr) :
    (∀ v u, u ≠ v → (M.op t (.acc loc wr 0)).clk v u = 0) ∧
    ∀ a ∈ (M.op t (.acc loc wr 0)).log, ∀ b ∈ (M.op t (.acc loc wr 0)).log, a.loc = b.loc → a.wr = true ∨ b.wr = true →
      a.who = b.who := by
  have key : ∀ a ∈ M.log, a.loc = loc → a.wr = true ∨ wr = true → a.who = t := fun a ha h1 h2 =>
    Classical.byContradiction fun e => hr ⟨a, ha, h1, h2, by rw [clk t a.who e]; exact ok.pos a ha⟩
  refine ⟨fun v u h => ?_, fun a ha b hb h1 h2 => ?_⟩
  · by_cases e : v = t
    · subst e
      simp only [Mem.op, put_same, put_ne _ _ h]
      exact clk v u h
    · simp only [Mem.op, put_ne _ _ e]
      exact clk v u h
  · simp only [Mem.op, List.mem_cons] at ha hb
    rcases ha with rfl | ha
    · rcases hb with rfl | hb
      · rfl
      · exact (key b hb h1.symm h2.symm).symm
    · rcases hb with rfl | hb
      · exact key a ha h1 h2
      · exact pair a ha b hb h1 h2

theorem apart_step (hm : p.mtx = false) (ok : m.mem.Ok) (x : Apart m) (hp : l.Plain) (hr : ¬ Race p m l)
    (hs : step p m l = some m') : Apart m' := by
  cases l with
  | rel | acq => exact absurd hp id
  | call t c =>
    simp only [step] at hs
    split at hs
    · cases hs
    cases hs
    refine ⟨x.clk, x.pair, fun u f hf => ?_, x.hist⟩
    by_cases e : u = t
    · subst e
      simp only [put_same, Option.some.injEq] at hf
      subst hf
      exact ⟨fun h => absurd rfl h, fun _ => rfl, fun ⟨n, h⟩ => by simp at h, fun ⟨r, h⟩ => by simp at h⟩
    · exact (x.pc u f ((put_ne _ _ e).symm.trans hf)).mono fun _ h => h
  | act t now =>
    simp only [step, Option.bind_eq_some_iff] at hs
    obtain ⟨f, hf, hs⟩ := hs
    have hd := x.pc t f hf
    by_cases h1 : f.pc = .enter
    · simp only [act, h1, hm, Pc.ops, Bool.false_eq_true, false_and, if_false, Option.some.injEq] at hs
      subst hs
      refine ⟨x.clk, x.pair, fun u g hg => ?_, x.hist⟩
      by_cases e : u = t
      · subst e
        simp only [put_same, Option.some.injEq] at hg
        subst hg
        exact ⟨fun _ h => absurd rfl h, fun _ => hd.early (by rw [h1]; rfl), fun ⟨n, h⟩ => by simp at h,
          fun ⟨r, h⟩ => by simp at h⟩
      · exact (x.pc u g ((put_ne _ _ e).symm.trans hg)).mono fun _ h => h
    · by_cases h2 : ∃ r, f.pc = .leave r
      · obtain ⟨r, h2⟩ := h2
        simp only [act, h2, hm, Pc.ops, Bool.false_eq_true, if_false, Option.some.injEq] at hs
        subst hs
        refine ⟨x.clk, x.pair, fun u g hg => ?_, fun e he => ?_⟩
        · by_cases e : u = t
          · subst e
            simp at hg
          · exact (x.pc u g ((put_ne _ _ e).symm.trans hg)).mono fun _ h => h
        · rcases List.mem_cons.1 he with rfl | he
          · exact ⟨hd.looked h1 (by rw [h2]; simp), fun h => hd.left ⟨r, h2⟩ h⟩
          · exact x.hist e he
      · have h2' : ∀ r, f.pc ≠ .leave r := fun r e => h2 ⟨r, e⟩
        rw [act_body h1 h2', Option.map_eq_some_iff] at hs
        obtain ⟨⟨c', pc'⟩, hb, rfl⟩ := hs
        have hmono : ∀ a ∈ m.mem.log, a ∈ (m.mem.run t (f.pc.ops p.mtx)).log := Mem.log_mono _ _ _
        have hnew : ∀ wr, f.pc.ops p.mtx = [.acc .map wr 0] → ∀ wr', (wr' = true → wr = true) →
            ∃ a ∈ (m.mem.run t (f.pc.ops p.mtx)).log, a.who = t ∧ a.loc = .map ∧ (wr' = true → a.wr = true) := by
          intro wr ho wr' hw
          rw [ho]
          exact ⟨_, List.mem_cons_self, rfl, rfl, hw⟩
        have hmem : (∀ v u, u ≠ v → (m.mem.run t (f.pc.ops p.mtx)).clk v u = 0) ∧
            ∀ a ∈ (m.mem.run t (f.pc.ops p.mtx)).log, ∀ b ∈ (m.mem.run t (f.pc.ops p.mtx)).log, a.loc = b.loc →
              a.wr = true ∨ b.wr = true → a.who = b.who := by
          rcases ops_body (mtx := p.mtx) h1 h2' with ho | ⟨loc, wr, ho⟩
          · rw [ho]
            exact ⟨x.clk, x.pair⟩
          · rw [ho]
            refine apart_acc ok x.clk x.pair fun hc => hr ?_
            simp only [Race, ops, hf, ho, Mem.Races, Lbl.who]
            exact .inl ⟨trivial, hc⟩
        refine ⟨hmem.1, hmem.2, fun u g hg => ?_, fun e he => ?_⟩
        · by_cases e : u = t
          · subst e
            simp only [put_same, Option.some.injEq] at hg
            subst hg
            refine ⟨fun _ _ => ?_, fun hl => ?_, fun ⟨n, hn⟩ => ?_, fun ⟨r, hn⟩ hnow => ?_⟩
            · by_cases h3 : f.pc = .look
              · exact hnew false (by rw [h3]; rfl) false (by simp)
              · exact (hd.looked h1 h3).mono hmono
            · obtain ⟨e1, e2⟩ := body_late hb hl
              simpa [e2] using hd.early e1
            · simp only at hn
              subst hn
              refine hnew true ?_ true (fun _ => rfl)
              cases hc : f.call <;> cases hpc : f.pc <;> simp only [hc, hpc, body, branch] at hb <;>
                first
                | rfl
                | (split at hb <;> simp at hb)
                | (simp at hb; done)
                | (simp only [Option.some.injEq, Prod.mk.injEq] at hb; have := hb.2; split at this <;> cases this)
            · simp only at hn hnow
              subst hn
              by_cases ha : ∃ n, f.pc = .age n
              · exact (hd.got ha).mono hmono
              · refine hnew true ?_ true (fun _ => rfl)
                cases hpc : f.pc with
                | store => rfl
                | fetch => rfl
                | age n => exact absurd ⟨n, hpc⟩ ha
                | enter => exact absurd hpc h1
                | leave r => exact absurd hpc (h2' r)
                | look | find =>
                  exact absurd (hd.early (by rw [hpc]; rfl)) (by simpa [hpc, Pc.timed] using hnow)
                | _ =>
                  exfalso
                  cases hc : f.call <;> simp only [hc, hpc, body] at hb <;>
                    first
                    | (simp at hb; done)
                    | (split at hb <;> simp at hb; done)
                    | (simp only [Option.some.injEq, Prod.mk.injEq] at hb; have := hb.2; split at this <;> cases this)
          · exact (x.pc u g ((put_ne _ _ e).symm.trans hg)).mono hmono
        · exact ⟨(x.hist e he).1.mono hmono, fun h => ((x.hist e he).2 h).mono hmono⟩

theorem run_apart (hm : p.mtx = false) (r : Run p (fun m l => l.Plain ∧ ¬ Race p m l) m) : Apart m := by
  induction r with
  | start =>
    refine ⟨fun t u _ => rfl, fun a ha => ?_, fun t f hf => ?_, fun e he => ?_⟩
    · simp [State.new, Mem.new] at ha
    · simp [State.new] at hf
    · simp [State.new] at he
  | step m m' l r hg hs ih => exact apart_step hm (run_ok r) ih hg.1 hg.2 hs

/-- **C131 refuted without the mutex.** In an execution without data races in which threads do not synchronise outside the cache,
once a call has put a new key or found its key only its thread has completed any call at all. -/
theorem C131_race_refuted (hm : p.mtx = false) (r : Run p (fun m l => l.Plain ∧ ¬ Race p m l) m) {e d : Event K V}
    (he : e ∈ m.hist) (hn : e.now ≠ none) (hd : d ∈ m.hist) : e.who = d.who := by
  have x := run_apart hm r
  obtain ⟨a, ha, h1, h2, h3⟩ := (x.hist e he).2 hn
  obtain ⟨b, hb, h4, h5, _⟩ := (x.hist d hd).1
  rw [← h1, ← h4]
  exact x.pair a ha b hb (h2.trans h5.symm) (.inl (h3 rfl))

/-- Steps of two threads that synchronise only through the cache. -/
def two : State K V → Lbl K V → Prop := fun _ l => l.Plain ∧ l.who < 2

/-- A call gets as far as finding that there is room for a new key. -/
theorem put_begins (hm : p.mtx = false) (r : Run p two m) {t : Nat} (ht : t < 2) (hp : m.pc t = none) {k : K} (v : V)
    (hc : m.cache.contains k = false) (hl : m.cache.list.length < p.size) :
    ∃ m', Run p two m' ∧ m'.cache = m.cache ∧ m'.pc t = some ⟨.put k v, .front ⟨k, v, 0⟩, some 0⟩ ∧
      ∀ u, u ≠ t → m'.pc u = m.pc u := by
  have r1 : Run p two _ := .step _ _ (.call t (.put k v)) r ⟨trivial, ht⟩ (by rw [step, if_neg (by simp [hp])])
  have r2 : Run p two _ := .step _ _ (.act t 0) r1 ⟨trivial, ht⟩ (by
    simp only [step, put_same, Option.bind_some, act, hm, Bool.false_eq_true, false_and, if_false]; rfl)
  have r3 : Run p two _ := .step _ _ (.act t 0) r2 ⟨trivial, ht⟩ (by
    simp only [step, put_same, Option.bind_some, act, body, hc, branch, Option.map_some]; rfl)
  have r4 : Run p two _ := .step _ _ (.act t 0) r3 ⟨trivial, ht⟩ (by
    simp only [step, put_same, Option.bind_some, act, body, Bool.false_eq_true, if_false, Option.map_some]
    rw [if_neg (Nat.not_le.2 hl)])
  have r5 : Run p two _ := .step _ _ (.act t 0) r4 ⟨trivial, ht⟩ (by
    simp only [step, put_same, Option.bind_some, act, body, Option.map_some]; rfl)
  refine ⟨_, r5, rfl, put_same _ _ _, fun u hu => ?_⟩
  simp only [put_ne _ _ hu]

/-- The rest of that call. -/
theorem put_ends (hm : p.mtx = false) (r : Run p two m) {t : Nat} (ht : t < 2) {k : K} {v : V} {obj : Item K V}
    {now : Option Int} (hp : m.pc t = some ⟨.put k v, .front obj, now⟩) :
    ∃ m', Run p two m' ∧ m'.cache = ⟨obj :: m.cache.list, setMap m.cache.map k obj⟩ ∧ m'.pc t = none ∧
      ∀ u, u ≠ t → m'.pc u = m.pc u := by
  have r1 : Run p two _ := .step _ _ (.act t 0) r ⟨trivial, ht⟩ (by
    simp only [step, hp, Option.bind_some, act, body, Option.map_some]; rfl)
  have r2 : Run p two _ := .step _ _ (.act t 0) r1 ⟨trivial, ht⟩ (by
    simp only [step, put_same, Option.bind_some, act, body, Option.map_some]; rfl)
  have r3 : Run p two _ := .step _ _ (.act t 0) r2 ⟨trivial, ht⟩ (by
    simp only [step, put_same, Option.bind_some, act, hm, Bool.false_eq_true, if_false]; rfl)
  refine ⟨_, r3, rfl, put_same _ _ _, fun u hu => ?_⟩
  simp only [put_ne _ _ hu]

theorem setMap_keys (l : List (K × Item K V)) (k : K) (o : Item K V) {q : K × Item K V} (h : q ∈ setMap l k o) :
    q.1 = k ∨ q ∈ l := by
  induction l with
  | nil =>
    simp only [setMap, List.mem_singleton] at h
    exact .inl (by rw [h])
  | cons a l ih =>
    simp only [setMap] at h
    split at h
    · rcases List.mem_cons.1 h with rfl | h
      · exact .inl rfl
      · exact .inr (List.mem_cons_of_mem _ h)
    · rcases List.mem_cons.1 h with rfl | h
      · exact .inr List.mem_cons_self
      · rcases ih h with h | h
        · exact .inl h
        · exact .inr (List.mem_cons_of_mem _ h)

theorem filled (hm : p.mtx = false) (v : V) : ∀ n, n ≤ p.size → ∃ m : State Nat V, Run p two m ∧ (∀ t, m.pc t = none) ∧
    m.cache.list.length = n ∧ ∀ q ∈ m.cache.map, q.1 < n
  | 0, _ => ⟨_, .start, fun _ => rfl, rfl, fun q hq => by simp [State.new, Cache.new] at hq⟩
  | n + 1, hn => by
    obtain ⟨m, r, h1, h2, h3⟩ := filled hm v n (by omega)
    have hc : m.cache.contains n = false := by
      simp only [Cache.contains, List.any_eq_false, decide_eq_true_eq]
      exact fun q hq e => absurd (h3 q hq) (by omega)
    obtain ⟨m1, r1, c1, f1, o1⟩ := put_begins hm r (t := 0) (by omega) (h1 0) v hc (by omega)
    obtain ⟨m2, r2, c2, f2, o2⟩ := put_ends hm r1 (by omega) f1
    refine ⟨m2, r2, fun t => ?_, by rw [c2, c1]; simp [h2], fun q hq => ?_⟩
    · by_cases e : t = 0
      · rw [e, f2]
      · rw [o2 t e, o1 t e, h1]
    · rw [c2, c1] at hq
      rcases setMap_keys _ _ _ hq with e | e
      · omega
      · have := h3 q e
        omega

/-- **C131 refuted without the mutex, overfull.** Even if every operation on a container were atomic, two threads could leave more
than `Size` entries in the cache. -/
theorem C131_overfull_refuted (hm : p.mtx = false) (hs : 0 < p.size) (v : V) :
    ∃ m : State Nat V, Run p two m ∧ (∀ t, m.pc t = none) ∧ m.cache.list.length = p.size + 1 := by
  obtain ⟨m, r, h1, h2, h3⟩ := filled hm v (p.size - 1) (by omega)
  have hc : ∀ k, p.size - 1 ≤ k → m.cache.contains k = false := by
    intro k hk
    simp only [Cache.contains, List.any_eq_false, decide_eq_true_eq]
    exact fun q hq e => absurd (h3 q hq) (by omega)
  obtain ⟨m1, r1, c1, f1, o1⟩ := put_begins hm r (t := 0) (by omega) (h1 0) v (hc _ (Nat.le_refl _)) (by omega)
  obtain ⟨m2, r2, c2, f2, o2⟩ := put_begins hm r1 (t := 1) (by omega) ((o1 1 (by omega)).trans (h1 1)) v
    (by rw [c1]; exact hc p.size (by omega)) (by rw [c1]; omega)
  obtain ⟨m3, r3, c3, f3, o3⟩ := put_ends hm r2 (by omega) ((o2 0 (by omega)).trans f1)
  obtain ⟨m4, r4, c4, f4, o4⟩ := put_ends hm r3 (by omega) ((o3 1 (by omega)).trans f2)
  refine ⟨m4, r4, fun t => ?_, ?_⟩
  · by_cases e : t = 1
    · rw [e, f4]
    · by_cases e' : t = 0
      · rw [e', o4 0 (by omega), f3]
      · rw [o4 t e, o3 t e', o2 t e, o1 t e', h1]
  · rw [c4, c3, c2, c1]
    simp only [List.length_cons]
    omega

/-- With the mutex that cannot happen: between calls there are at most `Size` entries, with different keys. -/
theorem C131_bounded_partial (hm : p.mtx = true) (hs : 0 < p.size) (r : Run p anyStep m) (hi : ∀ t, m.pc t = none) :
    m.cache.list.length ≤ p.size ∧ (m.cache.list.map (·.key)).Nodup := by
  obtain ⟨w, hx, hw⟩ := C131_one_after_another_partial hm r
  obtain ⟨ks, hk⟩ := hx.reach
  have h := C66_bounded_partial hs hk
  rw [hw fun t f hf => by rw [hi t] at hf; cases hf]
  exact ⟨h.1, h.2.1⟩

/-! ### Examples -/
namespace Ex

/-- Do these steps if they are possible. -/
def go (p : Par) (m : State K V) : List (Lbl K V) → Option (State K V)
  | [] => some m
  | l :: ls => (step p m l).bind fun m => go p m ls

theorem go_run {p : Par} : ∀ (ls : List (Lbl K V)) {m m' : State K V}, Run p anyStep m → go p m ls = some m' →
    Run p anyStep m'
  | [], m, m', r, h => by cases h; exact r
  | l :: ls, m, m', r, h => by
    simp only [go, Option.bind_eq_some_iff] at h
    obtain ⟨m1, h1, h2⟩ := h
    exact go_run ls (.step _ _ l r trivial h1) h2

/-- The same for steps that do not race and do not synchronise. -/
def goSafe (p : Par) (m : State K V) : List (Lbl K V) → Option (State K V)
  | [] => some m
  | l :: ls =>
    if m.mem.racesB (fun _ => true) l.who (ops p m l) then none
    else match l with
      | .rel _ _ | .acq _ _ => none
      | _ => (step p m l).bind fun m => goSafe p m ls

theorem goSafe_run {p : Par} : ∀ (ls : List (Lbl K V)) {m m' : State K V}, Run p (fun m l => l.Plain ∧ ¬ Race p m l) m →
    goSafe p m ls = some m' → Run p (fun m l => l.Plain ∧ ¬ Race p m l) m'
  | [], m, m', r, h => by cases h; exact r
  | l :: ls, m, m', r, h => by
    simp only [goSafe] at h
    split at h
    · cases h
    next hr =>
    have hr : ¬ Race p m l := by
      intro hc
      exact hr ((Mem.racesB_iff _ _ _ _).2 (by simpa [Race] using hc))
    cases l with
    | rel | acq => cases h
    | call | act =>
      simp only [Option.bind_eq_some_iff] at h
      obtain ⟨m1, h1, h2⟩ := h
      refine goSafe_run ls (.step _ _ _ r ?_ h1) h2
      exact ⟨trivial, hr⟩

/-- Thread 0 puts key 1 while thread 1 waits for the mutex with a lookup of it, and gets on afterwards. -/
def steps : List (Lbl Nat Nat) :=
  [.call 0 (.put 1 10), .act 0 0, .act 0 0, .call 1 (.get 1), .act 0 0, .act 0 5, .act 0 0, .act 0 0, .act 0 0,
    .act 1 0, .act 1 0, .act 1 0, .act 1 9, .act 1 0]

/-- The mutex, two places, exceptions, three ticks. -/
def par : Par := ⟨true, 2, true, 3⟩

end Ex

/-- The hypotheses can be met: the lookup throws because the entry has expired. -/
example : ∃ m : State Nat Nat, Run Ex.par anyStep m ∧ m.cache.list = [⟨1, 10, 5⟩] ∧
    m.hist = [⟨1, .get 1, some 9, .get .timeout⟩, ⟨0, .put 1 10, some 5, .put (.value ())⟩] ∧ m.pc 0 = none ∧ m.pc 1 = none :=
  ⟨_, Ex.go_run Ex.steps .start rfl, rfl, rfl, rfl, rfl⟩

/-- A lookup by another thread waits. -/
example : (Ex.go Ex.par (.new : State Nat Nat) ((Ex.steps.take 4) ++ [.act 1 0])).isNone = true := by decide +kernel

/-- Without the mutex: executions as in `C131_race_refuted`, in which one thread has put a key and looked it up. -/
example : ∃ m : State Nat Nat, Run { Ex.par with mtx := false } (fun m l => l.Plain ∧ ¬ Race { Ex.par with mtx := false } m l) m ∧
    m.hist = [⟨0, .get 1, some 9, .get .timeout⟩, ⟨0, .put 1 10, some 5, .put (.value ())⟩] :=
  ⟨_, Ex.goSafe_run [.call 0 (.put 1 10), .act 0 0, .act 0 0, .act 0 0, .act 0 5, .act 0 0, .act 0 0, .act 0 0,
    .call 0 (.get 1), .act 0 0, .act 0 0, .act 0 0, .act 0 9, .act 0 0] .start rfl, rfl⟩

/-- Lookups of the same key by two threads race as well: `map_[key]` is not a read. -/
example : ∃ m m' : State Nat Nat, Ex.go { Ex.par with mtx := false } .new
      [.call 0 (.put 1 10), .act 0 0, .act 0 0, .act 0 0, .act 0 5, .act 0 0, .act 0 0, .act 0 0, .rel 0 0, .acq 1 0, .acq 2 0,
        .call 1 (.get 1), .call 2 (.get 1), .act 1 0, .act 2 0, .act 1 0, .act 2 0] = some m ∧
    m.mem.racesB (fun _ => true) 1 (ops { Ex.par with mtx := false } m (.act 1 0)) = true ∧
    step { Ex.par with mtx := false } m (.act 1 0) = some m' :=
  ⟨_, _, rfl, rfl, rfl⟩

end Verif.Lru.Conc
