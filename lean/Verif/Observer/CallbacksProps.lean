import Verif.Observer.Callbacks
/-!
Properties C89-C91 of the unbounded observable without a mutex, with callbacks that call back.

The statements speak about the log: `regs log` lists the observers registered after it, `depth log` is the number
of callbacks in progress, `top 0 log` the callbacks begun by the outermost call.
-/
namespace Verif.Observer.Cb
open Verif

variable {V U : Type}

/-- What a call adds to the log, and how the object changes with it. -/
structure Ran (s s' : St V U) (new : List (Ev V)) : Prop where
  log : s'.log = s.log ++ new
  self : s'.self = s.self
  obs : s'.obs = new.foldl regEv s.obs
  zero : depth new = 0
  mono : s.gen ≤ s'.gen
  quiet : Quiet s.obs new
  still : s'.gen = s.gen → Still s.obs new
  bal : ∀ d rest, top (d + 1) (new ++ rest) = top (d + 1) rest

theorem Ran.refl (s : St V U) (u : U) : Ran s { s with user := u } [] where
  log := by simp
  self := rfl
  obs := rfl
  zero := rfl
  mono := Nat.le_refl _
  quiet := by intro pre op e post h; simp at h
  still := by intro _ pre op e post h; simp at h
  bal := fun _ _ => rfl

theorem Ran.trans {s t u : St V U} {a b : List (Ev V)} (h1 : Ran s t a) (h2 : Ran t u b) : Ran s u (a ++ b) where
  log := by rw [h2.log, h1.log, List.append_assoc]
  self := by rw [h2.self, h1.self]
  obs := by rw [h2.obs, h1.obs, List.foldl_append]
  zero := by rw [depth_append, h1.zero, h2.zero]; rfl
  mono := Nat.le_trans h1.mono h2.mono
  quiet := h1.quiet.append h1.zero (by rw [← h1.obs]; exact h2.quiet)
  still := by
    intro h
    have m1 := h1.mono
    have m2 := h2.mono
    have s1 := h1.still (by omega)
    have s2 := h2.still (by omega)
    rw [h1.obs, s1.regs] at s2
    exact s1.append s2
  bal := by
    intro d rest
    rw [List.append_assoc, h1.bal, h2.bal]

/-- A way of running calls that keeps the books. -/
def Good (ex : Ex V U) : Prop := ∀ s op s' e, ex s op = .ok (s', e) → ∃ new, Ran s s' new

theorem runProg_ran {ex : Ex V U} (hex : Good ex) (p : Prog V U) (s s' : St V U) (h : runProg ex p s = .ok s') :
    ∃ new, Ran s s' new := by
  induction p generalizing s with
  | ret u =>
    simp only [runProg, Res.ok.injEq] at h
    subst h
    exact ⟨[], .refl s u⟩
  | set u k ih =>
    obtain ⟨b, hb⟩ := ih { s with user := u } h
    exact ⟨[] ++ b, (Ran.refl s u).trans hb⟩
  | call op k ih =>
    simp only [runProg] at h
    cases hr : ex s op with
    | ub => rw [hr] at h; cases h
    | hang => rw [hr] at h; cases h
    | ok r =>
      obtain ⟨t, e⟩ := r
      rw [hr, Res.ok_bind] at h
      obtain ⟨a, ha⟩ := hex s op t e hr
      obtain ⟨b, hb⟩ := ih e t.user t h
      exact ⟨a ++ b, ha.trans hb⟩

/-- The events that start a callback. -/
def Ev.starts : Ev V → Prop
  | .enter _ _ _ => True
  | .disc _ _ => True
  | _ => False

theorem Ev.starts.reg {e : Ev V} (h : e.starts) (l : List Nat) : regEv l e = l := by
  cases e <;> first | rfl | exact h.elim

theorem Ev.starts.depth {e : Ev V} (h : e.starts) : Cb.depth [e] = 1 := by
  cases e <;> first | rfl | exact h.elim

theorem Ev.starts.top_zero {e : Ev V} (h : e.starts) (es : List (Ev V)) : top 0 (e :: es) = e :: top 1 es := by
  cases e <;> first | rfl | exact h.elim

theorem Ev.starts.top_succ {e : Ev V} (h : e.starts) (d : Nat) (es : List (Ev V)) :
    top (d + 1) (e :: es) = top (d + 2) es := by
  cases e with
  | enter s o v => simp [Cb.top]
  | disc s o => simp [Cb.top]
  | leave o => exact h.elim
  | ret op e => exact h.elim

/-- A callback, seen from outside. -/
theorem callback_ran {ex : Ex V U} (hex : Good ex) {e : Ev V} (he : e.starts) (p : U → Prog V U) (o : Nat)
    (s s' : St V U) (h : callback ex e p o s = .ok s') :
    ∃ new, s'.log = s.log ++ new ∧ s'.self = s.self ∧ depth new = 0 ∧ s.gen ≤ s'.gen ∧
      (s'.gen = s.gen → Still s.obs new ∧ s'.obs = s.obs) ∧
      (∀ rest, top 0 (new ++ rest) = e :: top 0 rest) ∧ ∀ d rest, top (d + 1) (new ++ rest) = top (d + 1) rest := by
  simp only [callback] at h
  cases hr : runProg ex (p s.user) (s.emit e) with
  | ub => rw [hr] at h; cases h
  | hang => rw [hr] at h; cases h
  | ok t =>
    rw [hr, Res.ok_bind, Res.ok.injEq] at h
    subst h
    obtain ⟨a, ha⟩ := runProg_ran hex _ _ _ hr
    refine ⟨[e] ++ (a ++ [.leave o]), ?_, ha.self, ?_, ha.mono, ?_, ?_, ?_⟩
    · show t.log ++ [.leave o] = _
      rw [ha.log]
      simp [St.emit]
    · rw [depth_append, depth_append, he.depth, ha.zero]
      rfl
    · intro hg
      have hs : Still s.obs a := ha.still hg
      refine ⟨(Still.single (he.reg _)).append (hs.append (Still.single rfl)), ?_⟩
      show t.obs = s.obs
      rw [ha.obs]
      exact hs.regs
    · intro rest
      simp only [List.cons_append, List.nil_append, List.append_assoc]
      rw [he.top_zero, ha.bal]
      rfl
    · intro d rest
      simp only [List.cons_append, List.nil_append, List.append_assoc]
      rw [he.top_succ, ha.bal]
      rfl

/-- A loop that ends: the vector was not changed meanwhile, and every element was called once. -/
theorem loop_ran {ex : Ex V U} (hex : Good ex) {e : St V U → Nat → Ev V} (he : ∀ s o, (e s o).starts)
    (hself : ∀ s t o, s.self = t.self → e s o = e t o) (p : Nat → U → Prog V U) (g i left : Nat) (s s' : St V U)
    (hl : i + left = s.obs.length) (h : loop ex e p g i left s = .ok s') :
    s.gen = g ∧ s'.gen = g ∧ s'.obs = s.obs ∧ ∃ new, s'.log = s.log ++ new ∧ s'.self = s.self ∧ depth new = 0 ∧
      Still s.obs new ∧ (∀ rest, top 0 (new ++ rest) = (s.obs.drop i).map (e s) ++ top 0 rest) ∧
      ∀ d rest, top (d + 1) (new ++ rest) = top (d + 1) rest := by
  induction left generalizing i s with
  | zero =>
    simp only [loop] at h
    by_cases hg : s.gen = g
    · rw [if_pos hg, Res.ok.injEq] at h
      subst h
      refine ⟨hg, hg, rfl, [], by simp, rfl, rfl, by intro pre op e post h; simp at h, ?_, fun _ _ => rfl⟩
      intro rest
      rw [List.drop_eq_nil_of_le (by omega)]
      rfl
    · rw [if_neg hg] at h
      cases h
  | succ left ih =>
    simp only [loop] at h
    by_cases hg : s.gen = g
    · rw [if_pos hg] at h
      have hi : i < s.obs.length := by omega
      simp only [deref, List.getElem?_eq_getElem hi, Res.ok_bind] at h
      cases hc : callback ex (e s s.obs[i]) (p s.obs[i]) s.obs[i] s with
      | ub => rw [hc] at h; cases h
      | hang => rw [hc] at h; cases h
      | ok t =>
        rw [hc, Res.ok_bind] at h
        obtain ⟨a, a1, a2, a3, a4, a5, a6, a7⟩ := callback_ran hex (he _ _) _ _ _ _ hc
        -- the length of the vector matters only if it is still the same one
        by_cases ht : t.gen = g
        · obtain ⟨b1, b2⟩ := a5 (by omega)
          obtain ⟨_, c2, c3, b, d1, d2, d3, d4, d5, d6⟩ := ih (i + 1) t (by rw [b2]; omega) h
          rw [b2] at c3 d4 d5
          refine ⟨hg, c2, c3, a ++ b, by rw [d1, a1, List.append_assoc], by rw [d2, a2], ?_, b1.append d4, ?_, ?_⟩
          · rw [depth_append, a3, d3]; rfl
          · intro rest
            rw [List.append_assoc, a6, d5, List.drop_eq_getElem_cons hi, List.map_cons, List.cons_append]
            congr 2
            exact List.map_congr_left fun o _ => hself t s o a2
          · intro d rest
            rw [List.append_assoc, a7, d6]
        · exfalso
          cases left with
          | zero => simp only [loop, if_neg ht] at h; cases h
          | succ left => simp only [loop, if_neg ht] at h; cases h
    · rw [if_neg hg] at h
      cases h

theorem add_ran (s : St V U) (o : Nat) : (add s o).1.log = s.log ∧ (add s o).1.self = s.self ∧
    (add s o).1.obs = Dyn.next (V := V) s.obs (.add o) ∧ (add s o).2 = Dyn.result (V := V) s.obs (.add o) ∧
    s.gen ≤ (add s o).1.gen ∧
    ((add s o).1.gen = s.gen ↔ Dyn.next (V := V) s.obs (.add o) = s.obs) := by
  by_cases h : o ∈ s.obs
  · have h1 : add s o = (s, .alreadyContains) := by rw [add, (Dyn.scan_iff o s.obs).2 h]; rfl
    rw [h1]
    simp [Dyn.next, Dyn.result, h]
  · have hs : Dyn.scan o s.obs = false := by
      cases hs : Dyn.scan o s.obs
      · rfl
      · exact absurd ((Dyn.scan_iff o s.obs).1 hs) h
    have h1 : add s o = ({ s with obs := s.obs ++ [o], gen := s.gen + 1 }, .ok) := by rw [add, hs]; rfl
    rw [h1]
    simp [Dyn.next, Dyn.result, h]

theorem remove_ran (s : St V U) (o : Nat) : (remove s o).1.log = s.log ∧ (remove s o).1.self = s.self ∧
    (remove s o).1.obs = Dyn.next (V := V) s.obs (.remove o) ∧
    (remove s o).2 = Dyn.result (V := V) s.obs (.remove o) ∧ s.gen ≤ (remove s o).1.gen ∧
    ((remove s o).1.gen = s.gen ↔ Dyn.next (V := V) s.obs (.remove o) = s.obs) := by
  obtain ⟨e1, e2⟩ := Dyn.erase_length o s.obs
  have hn : Dyn.next (V := V) s.obs (.remove o) = Dyn.erase o s.obs := (Dyn.erase_eq o s.obs).symm
  rw [hn]
  by_cases h : o ∈ s.obs
  · have hlt := e1 h
    have h1 : remove s o = ({ s with obs := Dyn.erase o s.obs, gen := s.gen + 1 }, .ok) := by
      rw [remove]
      exact if_neg (by omega)
    rw [h1]
    refine ⟨rfl, rfl, rfl, by simp [Dyn.result, h], Nat.le_succ _, ?_⟩
    constructor
    · intro hg
      exact absurd hg (Nat.succ_ne_self _)
    · intro he
      rw [he] at hlt
      omega
  · have h1 : remove s o = (s, .notFound) := by
      rw [remove]
      exact if_pos (by rw [e2 h]; omega)
    rw [h1]
    exact ⟨rfl, rfl, (e2 h).symm, by simp [Dyn.result, h], Nat.le_refl _, by simp [e2 h]⟩

/-- The events of a call without callbacks. -/
theorem ran_ret {s t : St V U} {op : Op V} (e : Err) (h1 : t.log = s.log) (h2 : t.self = s.self)
    (h3 : t.obs = Dyn.next s.obs op) (h4 : s.gen ≤ t.gen) (h5 : t.gen = s.gen → Dyn.next s.obs op = s.obs) :
    Ran s (t.emit (.ret op e)) [.ret op e] where
  log := by rw [← h1]; rfl
  self := h2
  obs := h3
  zero := rfl
  mono := h4
  quiet := Quiet.ret (a := []) (by intro pre op e post h; simp at h) rfl op e
  still := fun hg => Still.single (h5 hg)
  bal := fun _ _ => rfl

theorem starts_enter (v : V) (s : St V U) (o : Nat) : (Ev.enter s.self o v).starts := trivial
theorem starts_disc (s : St V U) (o : Nat) : (Ev.disc s.self o : Ev V).starts := trivial

/-- What `notify_observers` does when it returns. -/
theorem notify_ran {ex : Ex V U} (hex : Good ex) {H : Handlers V U} {s t : St V U} {v : V} {e : Err}
    (h : Cb.notify ex H s v = .ok (t, e)) : e = .ok ∧ t.gen = s.gen ∧ t.obs = s.obs ∧
      ∃ new, t.log = s.log ++ new ∧ t.self = s.self ∧ depth new = 0 ∧ Still s.obs new ∧
        (∀ rest, top 0 (new ++ rest) = s.obs.map (fun o => Ev.enter s.self o v) ++ top 0 rest) ∧
        ∀ d rest, top (d + 1) (new ++ rest) = top (d + 1) rest := by
  simp only [Cb.notify] at h
  cases hr : loop ex (fun s o => .enter s.self o v) (fun o u => H.data u o v) s.gen 0 s.obs.length s with
  | ub => rw [hr] at h; cases h
  | hang => rw [hr] at h; cases h
  | ok r =>
    rw [hr, Res.ok_bind, Res.ok.injEq, Prod.mk.injEq] at h
    obtain ⟨rfl, rfl⟩ := h
    obtain ⟨_, b, c, new, d⟩ := loop_ran hex (fun s o => starts_enter v s o)
      (fun s t o h => by simp only [h]) _ _ _ _ _ _ (by simp) hr
    exact ⟨rfl, b, c, new, d⟩

/-- What `clear_observers` does when it returns. -/
theorem clear_ran {ex : Ex V U} (hex : Good ex) {H : Handlers V U} {s t : St V U} {e : Err}
    (h : Cb.clear ex H s = .ok (t, e)) : e = .ok ∧ t.gen = s.gen + 1 ∧ t.obs = [] ∧
      ∃ new, t.log = s.log ++ new ∧ t.self = s.self ∧ depth new = 0 ∧ Still s.obs new ∧
        (∀ rest, top 0 (new ++ rest) = s.obs.map (fun o => Ev.disc s.self o) ++ top 0 rest) ∧
        ∀ d rest, top (d + 1) (new ++ rest) = top (d + 1) rest := by
  simp only [Cb.clear] at h
  cases hr : loop ex (fun s o => .disc s.self o) (fun o u => H.disconnect u o) s.gen 0 s.obs.length s with
  | ub => rw [hr] at h; cases h
  | hang => rw [hr] at h; cases h
  | ok r =>
    rw [hr, Res.ok_bind, Res.ok.injEq, Prod.mk.injEq] at h
    obtain ⟨rfl, rfl⟩ := h
    obtain ⟨_, b, _, new, d⟩ := loop_ran hex (fun s o => starts_disc s o)
      (fun s t o h => by simp only [h]) _ _ _ _ _ _ (by simp) hr
    exact ⟨rfl, by show r.gen + 1 = _; rw [b], rfl, new, d⟩

theorem execStep_ran {ex : Ex V U} (hex : Good ex) (H : Handlers V U) : Good (execStep ex H) := by
  intro s op s' e h
  simp only [execStep] at h
  cases hb : body ex H s op with
  | ub => rw [hb] at h; cases h
  | hang => rw [hb] at h; cases h
  | ok r =>
    obtain ⟨t, e'⟩ := r
    rw [hb, Res.ok_bind, Res.ok.injEq, Prod.mk.injEq] at h
    obtain ⟨rfl, rfl⟩ := h
    have loops : ∀ new, t.log = s.log ++ new → t.self = s.self → depth new = 0 → Still s.obs new →
        t.obs = Dyn.next s.obs op → s.gen ≤ t.gen → (t.gen = s.gen → Dyn.next s.obs op = s.obs) →
        (∀ d rest, top (d + 1) (new ++ rest) = top (d + 1) rest) → ∃ new, Ran s (t.emit (.ret op e')) new := by
      intro new h1 h2 h3 h4 h5 h6 h7 h8
      refine ⟨new ++ [.ret op e'], ?_, h2, ?_, ?_, h6, ?_, ?_, ?_⟩
      · show t.log ++ _ = _
        rw [h1, List.append_assoc]
      · rw [List.foldl_append, h4.regs]
        exact h5
      · rw [depth_append, h3]; rfl
      · exact h4.quiet.ret h3 op e'
      · intro hg
        exact h4.append (Still.single (h7 hg))
      · intro d rest
        rw [List.append_assoc, h8]
        rfl
    cases op with
    | add o =>
      simp only [body, Res.ok.injEq] at hb
      obtain ⟨h1, h2, h3, _, h5, h6⟩ := add_ran s o
      rw [hb] at h1 h2 h3 h5 h6
      exact ⟨_, ran_ret e' h1 h2 h3 h5 h6.1⟩
    | remove o =>
      simp only [body, Res.ok.injEq] at hb
      obtain ⟨h1, h2, h3, _, h5, h6⟩ := remove_ran s o
      rw [hb] at h1 h2 h3 h5 h6
      exact ⟨_, ran_ret e' h1 h2 h3 h5 h6.1⟩
    | clear =>
      obtain ⟨_, h2, h3, new, d1, d2, d3, d4, _, d6⟩ := clear_ran hex hb
      exact loops new d1 d2 d3 d4 h3 (by omega) (fun hg => by omega) d6
    | notify v =>
      obtain ⟨_, h2, h3, new, d1, d2, d3, d4, _, d6⟩ := notify_ran hex hb
      exact loops new d1 d2 d3 d4 h3 (by omega) (fun _ => rfl) d6

theorem exec_ran (H : Handlers V U) (n : Nat) : Good (exec H n) := by
  induction n with
  | zero => intro s op s' e h; cases h
  | succ n ih => exact execStep_ran ih H

/-- What is registered is what the log says, no callback is in progress between calls, and no call inside a callback
changed the registered observers. -/
theorem Reach.inv {H : Handlers V U} {s : St V U} (h : Reach H s) :
    s.obs = regs s.log ∧ depth s.log = 0 ∧ Quiet [] s.log := by
  induction h with
  | new self u => exact ⟨rfl, rfl, by intro pre op e post h; simp [St.new] at h⟩
  | call s s' n op e _ hx ih =>
    obtain ⟨new, hr⟩ := exec_ran H n s op s' e hx
    obtain ⟨i1, i2, i3⟩ := ih
    refine ⟨?_, ?_, ?_⟩
    · rw [hr.obs, i1, hr.log, regs_append]
    · rw [hr.log, depth_append, i2, hr.zero]; rfl
    · rw [hr.log]
      refine i3.append i2 ?_
      have := hr.quiet
      rwa [i1] at this
  | user s u _ ih => exact ih

/-! ### C89 -/

/-- Every call that callbacks of `H` can make satisfies `P`. -/
def Only (P : Op V → Prop) (H : Handlers V U) : Prop :=
  (∀ u o v, (H.data u o v).Only P) ∧ ∀ u o, (H.disconnect u o).Only P

/-- A call that leaves the registered observers as they are does not invalidate iterators. -/
theorem exec_keeps {H : Handlers V U} {n : Nat} {s s' : St V U} {op : Op V} {e : Err} (hne : s.obs ≠ [])
    (hop : Dyn.next s.obs op = s.obs) (h : exec H n s op = .ok (s', e)) : s'.gen = s.gen ∧ s'.obs = s.obs := by
  cases n with
  | zero => cases h
  | succ n =>
    simp only [exec, execStep] at h
    cases hb : body (exec H n) H s op with
    | ub => rw [hb] at h; cases h
    | hang => rw [hb] at h; cases h
    | ok r =>
      obtain ⟨t, e'⟩ := r
      rw [hb, Res.ok_bind, Res.ok.injEq, Prod.mk.injEq] at h
      obtain ⟨rfl, rfl⟩ := h
      show t.gen = s.gen ∧ t.obs = s.obs
      cases op with
      | add o =>
        simp only [body, Res.ok.injEq] at hb
        obtain ⟨_, _, h3, _, _, h6⟩ := add_ran s o
        rw [hb] at h3 h6
        exact ⟨h6.2 hop, by rw [← hop]; exact h3⟩
      | remove o =>
        simp only [body, Res.ok.injEq] at hb
        obtain ⟨_, _, h3, _, _, h6⟩ := remove_ran s o
        rw [hb] at h3 h6
        exact ⟨h6.2 hop, by rw [← hop]; exact h3⟩
      | clear => exact absurd hop.symm hne
      | notify v =>
        obtain ⟨_, h2, h3, _⟩ := notify_ran (exec_ran H n) hb
        exact ⟨h2, h3⟩

theorem runProg_safe {H : Handlers V U} {n : Nat} {l : List Nat} (hne : l ≠ [])
    (ih : ∀ s op, s.obs = l → exec H n s op ≠ .ub) (p : Prog V U) (hp : p.Only fun op => Dyn.next l op = l)
    (s : St V U) (hs : s.obs = l) : runProg (exec H n) p s ≠ .ub ∧
      ∀ s', runProg (exec H n) p s = .ok s' → s'.gen = s.gen ∧ s'.obs = l := by
  induction p generalizing s with
  | ret u =>
    refine ⟨by simp [runProg], fun s' h => ?_⟩
    simp only [runProg, Res.ok.injEq] at h
    subst h
    exact ⟨rfl, hs⟩
  | set u k ihk => exact ihk hp { s with user := u } hs
  | call op k ihk =>
    simp only [runProg]
    cases hr : exec H n s op with
    | ub => exact absurd hr (ih s op hs)
    | hang => simp
    | ok r =>
      obtain ⟨t, e⟩ := r
      have hk := exec_keeps (by rw [hs]; exact hne) (by rw [hs]; exact hp.1) hr
      rw [hs] at hk
      obtain ⟨a, b⟩ := ihk e t.user (hp.2 e t.user) t hk.2
      simp only [Res.ok_bind]
      exact ⟨a, fun s' h => ⟨by rw [(b s' h).1, hk.1], (b s' h).2⟩⟩

theorem loop_safe {H : Handlers V U} {n : Nat} {l : List Nat} (ih : ∀ s op, s.obs = l → exec H n s op ≠ .ub)
    (e : St V U → Nat → Ev V) (p : Nat → U → Prog V U) (hp : ∀ o u, (p o u).Only fun op => Dyn.next l op = l)
    (g i left : Nat) (s : St V U) (hs : s.obs = l) (hg : s.gen = g) (hl : i + left = l.length) :
    loop (exec H n) e p g i left s ≠ .ub := by
  induction left generalizing i s with
  | zero => simp [loop, hg]
  | succ left ihl =>
    have hi : i < s.obs.length := by rw [hs]; omega
    have hne : l ≠ [] := by
      intro h
      rw [h] at hl
      simp at hl
    simp only [loop, if_pos hg, deref, List.getElem?_eq_getElem hi, Res.ok_bind, callback]
    obtain ⟨a, b⟩ := runProg_safe hne ih (p s.obs[i] s.user) (hp _ _) (s.emit (e s s.obs[i])) hs
    cases hr : runProg (exec H n) (p s.obs[i] s.user) (s.emit (e s s.obs[i])) with
    | ub => exact absurd hr a
    | hang => simp
    | ok t =>
      obtain ⟨c, d⟩ := b t hr
      simp only [Res.ok_bind]
      exact ihl (i + 1) (t.emit (.leave s.obs[i])) d (by show t.gen = g; rw [c]; exact hg) (by omega)

theorem exec_safe {H : Handlers V U} {l : List Nat} (hH : Only (fun op => Dyn.next l op = l) H) (n : Nat)
    (s : St V U) (op : Op V) (hs : s.obs = l) : exec H n s op ≠ .ub := by
  induction n generalizing s op with
  | zero => simp [exec]
  | succ n ih =>
    have hb : body (exec H n) H s op ≠ .ub := by
      cases op with
      | add o => simp [body]
      | remove o => simp [body]
      | clear =>
        simp only [body, Cb.clear]
        have := loop_safe ih (fun s o => .disc s.self o) (fun o u => H.disconnect u o) (fun o u => hH.2 u o)
          s.gen 0 s.obs.length s hs rfl (by rw [hs]; omega)
        cases hr : loop (exec H n) (fun s o => .disc s.self o) (fun o u => H.disconnect u o) s.gen 0 s.obs.length s
          with
        | ub => exact absurd hr this
        | hang => simp
        | ok r => simp
      | notify v =>
        simp only [body, Cb.notify]
        have := loop_safe ih (fun s o => .enter s.self o v) (fun o u => H.data u o v) (fun o u => hH.1 u o v)
          s.gen 0 s.obs.length s hs rfl (by rw [hs]; omega)
        cases hr : loop (exec H n) (fun s o => .enter s.self o v) (fun o u => H.data u o v) s.gen 0 s.obs.length s
          with
        | ub => exact absurd hr this
        | hang => simp
        | ok r => simp
    simp only [exec, execStep]
    cases hr : body (exec H n) H s op with
    | ub => exact absurd hr hb
    | hang => simp
    | ok r => simp

/-- **C89 as far as it holds**: if no call that a callback can make changes which observers are registered
(notifications, subscriptions of registered observers, removals of others), no call is undefined.

Missing: callbacks that subscribe, unsubscribe or clear with effect.  `C89_defined_only_if` shows that no call in
which that happens is ever completed with defined behaviour; `C89_unsubscribe_refuted`, `C89_subscribe_refuted` and
`C89_disconnect_refuted` give examples. -/
theorem C89_callbacks_partial {H : Handlers V U} {s : St V U} (h : Reach H s)
    (hH : Only (fun op => Dyn.next (regs s.log) op = regs s.log) H) (n : Nat) (op : Op V) :
    exec H n s op ≠ .ub := exec_safe hH n s op h.inv.1

/-- The condition of `C89_callbacks_partial` is necessary: in every history that was completed with defined
behaviour, each call made inside a callback left the registered observers as they were. -/
theorem C89_defined_only_if {H : Handlers V U} {s : St V U} (h : Reach H s) (pre post : List (Ev V)) (op : Op V)
    (e : Err) (hl : s.log = pre ++ .ret op e :: post) (hd : 0 < depth pre) :
    Dyn.next (regs pre) op = regs pre := h.inv.2.2 pre op e post hl hd

/-! ### Concrete objects -/

/-- Callbacks of `data` that make one call, chosen by observer. -/
def oneCall (f : Nat → Option (Op Nat)) : Handlers Nat Unit :=
  ⟨fun _ o _ => match f o with
    | some op => .call op (fun _ _ => .ret ())
    | none => .ret (), fun _ _ => .ret ()⟩

/-- Observers that unsubscribe when they are disconnected. -/
def leaver : Handlers Nat Unit := ⟨fun _ _ _ => .ret (), fun _ o => .call (.remove o) (fun _ _ => .ret ())⟩

/-- An object with observers 1, 2, 3. -/
def three : St Nat Unit := ⟨100, [1, 2, 3], 3, (), [.ret (.add 1) .ok, .ret (.add 2) .ok, .ret (.add 3) .ok]⟩

theorem three_reach (H : Handlers Nat Unit) : Reach H three :=
  .call ⟨100, [1, 2], 2, (), [.ret (.add 1) .ok, .ret (.add 2) .ok]⟩ _ 1 (.add 3) .ok
    (.call ⟨100, [1], 1, (), [.ret (.add 1) .ok]⟩ _ 1 (.add 2) .ok (.call _ _ 1 (.add 1) .ok (.new 100 ()) rfl) rfl) rfl

/-- Observer 1 notifies no one but subscribes itself again, observer 2 removes a stranger: all defined. -/
def polite : Handlers Nat Unit := oneCall fun o => if o = 1 then some (.add 1) else if o = 2 then some (.remove 9) else none

theorem polite_only : Only (fun op => Dyn.next (regs three.log) op = regs three.log) polite := by
  refine ⟨fun _ o _ => ?_, fun _ _ => trivial⟩
  simp only [polite, oneCall]
  by_cases h1 : o = 1
  · simp only [if_pos h1]
    exact ⟨rfl, fun _ _ => trivial⟩
  · by_cases h2 : o = 2
    · simp only [if_neg h1, if_pos h2]
      exact ⟨rfl, fun _ _ => trivial⟩
    · simp only [if_neg h1, if_neg h2]
      trivial

example : exec polite 5 three (.notify 7) ≠ .ub := C89_callbacks_partial (three_reach _) polite_only 5 _

/-- A completed history in which callbacks made calls. -/
example : ∃ s, exec polite 5 three (.notify 7) = .ok (s, .ok) ∧ Reach polite s ∧ ∃ pre post,
    s.log = pre ++ .ret (.add 1) .alreadyContains :: post ∧ 0 < depth pre :=
  ⟨_, rfl, .call three _ 5 (.notify 7) .ok (three_reach _) rfl,
    [.ret (.add 1) .ok, .ret (.add 2) .ok, .ret (.add 3) .ok, .enter 100 1 7], _, rfl, by decide⟩

/-- **C89 is false**: an observer that unsubscribes itself when it is notified makes the notification undefined. -/
theorem C89_unsubscribe_refuted (n : Nat) :
    exec (oneCall fun o => if o = 2 then some (.remove 2) else none) (n + 2) three (.notify 7) = .ub := rfl

/-- **C89 is false**: so does an observer that subscribes another one. -/
theorem C89_subscribe_refuted (n : Nat) :
    exec (oneCall fun o => if o = 2 then some (.add 4) else none) (n + 2) three (.notify 7) = .ub := rfl

/-- **C89 is false**: `clear_observers` and the destructor are undefined if an observer unsubscribes in
`disconnect`. -/
theorem C89_disconnect_refuted (n : Nat) : exec leaver (n + 2) three .clear = .ub := rfl

/-! ### C90 -/

/-- **C90**: a notification that is completed has called `data` of each registered observer exactly once, in the
order of subscription, with the value and this object as the source, whatever the callbacks did; a completed
`clear_observers` has called `disconnect` likewise, and then no one is registered. -/
theorem C90_each_once {H : Handlers V U} {s s' : St V U} (h : Reach H s) {n : Nat} {e : Err} :
    (∀ v, exec H n s (.notify v) = .ok (s', e) → e = .ok ∧ regs s'.log = regs s.log ∧
      ∃ new, s'.log = s.log ++ new ∧ top 0 new = (regs s.log).map fun o => .enter s.self o v) ∧
    (exec H n s .clear = .ok (s', e) → e = .ok ∧ regs s'.log = [] ∧
      ∃ new, s'.log = s.log ++ new ∧ top 0 new = (regs s.log).map fun o => .disc s.self o) := by
  have hi := h.inv.1
  cases n with
  | zero =>
    constructor
    · intro v hx
      cases hx
    · intro hx
      cases hx
  | succ n =>
    constructor
    · intro v hx
      have hr := (Reach.call s s' (n + 1) (.notify v) e h hx).inv.1
      simp only [exec, execStep, body] at hx
      cases hb : Cb.notify (exec H n) H s v with
      | ub => rw [hb] at hx; cases hx
      | hang => rw [hb] at hx; cases hx
      | ok r =>
        obtain ⟨t, e'⟩ := r
        rw [hb, Res.ok_bind, Res.ok.injEq, Prod.mk.injEq] at hx
        obtain ⟨rfl, rfl⟩ := hx
        obtain ⟨he, _, ho, new, hl, _, _, _, ht, _⟩ := notify_ran (exec_ran H n) hb
        refine ⟨he, by rw [← hr, ← hi]; exact ho, new ++ [.ret (.notify v) e'], ?_, ?_⟩
        · show t.log ++ _ = _
          rw [hl, List.append_assoc]
        · rw [ht, ← hi]
          exact List.append_nil _
    · intro hx
      have hr := (Reach.call s s' (n + 1) .clear e h hx).inv.1
      simp only [exec, execStep, body] at hx
      cases hb : Cb.clear (exec H n) H s with
      | ub => rw [hb] at hx; cases hx
      | hang => rw [hb] at hx; cases hx
      | ok r =>
        obtain ⟨t, e'⟩ := r
        rw [hb, Res.ok_bind, Res.ok.injEq, Prod.mk.injEq] at hx
        obtain ⟨rfl, rfl⟩ := hx
        obtain ⟨he, _, ho, new, hl, _, _, _, ht, _⟩ := clear_ran (exec_ran H n) hb
        refine ⟨he, by rw [← hr]; exact ho, new ++ [.ret .clear e'], ?_, ?_⟩
        · show t.log ++ _ = _
          rw [hl, List.append_assoc]
        · rw [ht, ← hi]
          exact List.append_nil _

/-- Observer 2 notifies in turn, once: the outer notification reaches 1, 2 and 3, and so does the inner one. -/
def nested : Handlers Nat Unit :=
  ⟨fun _ o v => if o = 2 ∧ v = 7 then .call (.notify 8) (fun _ _ => .ret ()) else .ret (), fun _ _ => .ret ()⟩

example : ∃ s, exec nested 3 three (.notify 7) = .ok (s, .ok) ∧ s.log = three.log ++
    [.enter 100 1 7, .leave 1, .enter 100 2 7, .enter 100 1 8, .leave 1, .enter 100 2 8, .leave 2, .enter 100 3 8,
      .leave 3, .ret (.notify 8) .ok, .leave 2, .enter 100 3 7, .leave 3, .ret (.notify 7) .ok] := ⟨_, rfl, rfl⟩

example : ∃ s, exec nested 3 three (.notify 7) = .ok (s, .ok) ∧ ∃ new, s.log = three.log ++ new ∧
    top 0 new = [.enter 100 1 7, .enter 100 2 7, .enter 100 3 7] := by
  have h : ∃ s, exec nested 3 three (.notify 7) = .ok (s, .ok) := ⟨_, rfl⟩
  obtain ⟨s, hs⟩ := h
  obtain ⟨_, _, new, h1, h2⟩ := (C90_each_once (three_reach nested)).1 7 hs
  exact ⟨s, hs, new, h1, h2⟩

/-! ### C91 -/

/-- Subscriptions and removals. -/
def Plain : Op V → Prop
  | .add _ => True
  | .remove _ => True
  | _ => False

theorem runProg_returns {H : Handlers V U} {l : List Nat} (hne : l ≠ []) (n : Nat) (p : Prog V U)
    (hp : p.Only fun op => Plain op ∧ Dyn.next l op = l) (s : St V U) (hs : s.obs = l) :
    ∃ s', runProg (exec H (n + 1)) p s = .ok s' ∧ s'.gen = s.gen ∧ s'.obs = l := by
  induction p generalizing s with
  | ret u => exact ⟨_, rfl, rfl, hs⟩
  | set u k ih => exact ih hp { s with user := u } hs
  | call op k ih =>
    obtain ⟨⟨h1, h2⟩, h3⟩ := hp
    have hx : ∃ r, exec H (n + 1) s op = .ok r := by
      cases op with
      | add o => exact ⟨_, rfl⟩
      | remove o => exact ⟨_, rfl⟩
      | clear => exact h1.elim
      | notify v => exact h1.elim
    obtain ⟨⟨t, e⟩, hr⟩ := hx
    have hk := exec_keeps (by rw [hs]; exact hne) (by rw [hs]; exact h2) hr
    rw [hs] at hk
    obtain ⟨s', a, b, c⟩ := ih e t.user (h3 e t.user) t hk.2
    exact ⟨s', by simp only [runProg, hr, Res.ok_bind, a], by rw [b, hk.1], c⟩

theorem loop_returns {H : Handlers V U} {l : List Nat} (n : Nat) (e : St V U → Nat → Ev V) (p : Nat → U → Prog V U)
    (hp : ∀ o u, (p o u).Only fun op => Plain op ∧ Dyn.next l op = l) (g i left : Nat) (s : St V U) (hs : s.obs = l)
    (hg : s.gen = g) (hl : i + left = l.length) : ∃ s', loop (exec H (n + 1)) e p g i left s = .ok s' := by
  induction left generalizing i s with
  | zero => exact ⟨s, by simp [loop, hg]⟩
  | succ left ih =>
    have hi : i < s.obs.length := by rw [hs]; omega
    have hne : l ≠ [] := by
      intro h
      rw [h] at hl
      simp at hl
    obtain ⟨t, a, b, c⟩ := runProg_returns (H := H) hne n (p s.obs[i] s.user) (hp _ _) (s.emit (e s s.obs[i])) hs
    obtain ⟨s', h'⟩ := ih (i + 1) (t.emit (.leave s.obs[i])) c (by show t.gen = g; rw [b]; exact hg) (by omega)
    exact ⟨s', by simp only [loop, if_pos hg, deref, List.getElem?_eq_getElem hi, Res.ok_bind, callback, a, h']⟩

/-- **C91 as far as it holds**: if callbacks only subscribe registered observers and remove others, every call
returns (with two levels of calls).

Missing: callbacks that notify.  Nothing detects the recursion (`C91_endless_refuted`), and a notification made
inside a callback is carried out (second example of C90). -/
theorem C91_returns_partial {H : Handlers V U} {s : St V U} (h : Reach H s)
    (hH : Only (fun op => Plain op ∧ Dyn.next (regs s.log) op = regs s.log) H) (n : Nat) (op : Op V) :
    ∃ s' e, exec H (n + 2) s op = .ok (s', e) := by
  have hi := h.inv.1
  cases op with
  | add o => exact ⟨_, _, rfl⟩
  | remove o => exact ⟨_, _, rfl⟩
  | clear =>
    obtain ⟨t, ht⟩ := loop_returns (H := H) n (fun s o => .disc s.self o) (fun o u => H.disconnect u o)
      (fun o u => hH.2 u o) s.gen 0 s.obs.length s hi rfl (by rw [hi]; omega)
    exact ⟨({ t with obs := [], gen := t.gen + 1 } : St V U).emit (.ret .clear .ok), .ok,
      by rw [exec.eq_2]; simp only [execStep, body, Cb.clear, ht, Res.ok_bind]⟩
  | notify v =>
    obtain ⟨t, ht⟩ := loop_returns (H := H) n (fun s o => .enter s.self o v) (fun o u => H.data u o v)
      (fun o u => hH.1 u o v) s.gen 0 s.obs.length s hi rfl (by rw [hi]; omega)
    exact ⟨t.emit (.ret (.notify v) .ok), .ok,
      by rw [exec.eq_2]; simp only [execStep, body, Cb.notify, ht, Res.ok_bind]⟩

example : ∃ s e, exec polite 2 three (.notify 7) = .ok (s, e) := by
  refine C91_returns_partial (three_reach polite) (H := polite) ⟨fun _ o _ => ?_, fun _ _ => trivial⟩ 0 _
  simp only [polite, oneCall]
  by_cases h1 : o = 1
  · simp only [if_pos h1]
    exact ⟨⟨trivial, rfl⟩, fun _ _ => trivial⟩
  · by_cases h2 : o = 2
    · simp only [if_neg h1, if_pos h2]
      exact ⟨⟨trivial, rfl⟩, fun _ _ => trivial⟩
    · simp only [if_neg h1, if_neg h2]
      trivial

/-- **C91 is false**: if each observer notifies when it is notified, a notification never returns, and no call is
told that there is a recursion. -/
theorem C91_endless_refuted (n : Nat) (s : St Nat Unit) (hs : s.obs ≠ []) (v : Nat) :
    exec (oneCall fun _ => some (.notify v)) n s (.notify v) = .hang := by
  induction n generalizing s with
  | zero => rfl
  | succ n ih =>
    obtain ⟨o, l, ho⟩ := List.exists_cons_of_ne_nil hs
    have h1 : loop (exec (oneCall fun _ => some (.notify v)) n) (fun s o => .enter s.self o v)
        (fun o u => (oneCall fun _ => some (.notify v)).data u o v) s.gen 0 s.obs.length s = .hang := by
      have hlen : s.obs.length = l.length + 1 := by rw [ho]; rfl
      have h0 : s.obs[0]? = some o := by rw [ho]; rfl
      have hp : runProg (exec (oneCall fun _ => some (.notify v)) n)
          ((oneCall fun _ => some (.notify v)).data s.user o v) (s.emit (.enter s.self o v)) = .hang := by
        show (exec (oneCall fun _ => some (.notify v)) n (s.emit (.enter s.self o v)) (.notify v) >>= _) = _
        rw [ih (s.emit (.enter s.self o v)) hs, Res.hang_bind]
      rw [hlen]
      simp only [loop, if_true, deref, h0, Res.ok_bind, callback, hp, Res.hang_bind]
    rw [exec.eq_2]
    simp only [execStep, body, Cb.notify, h1, Res.hang_bind]

example : exec (oneCall fun _ => some (.notify 7)) 50 three (.notify 7) = .hang :=
  C91_endless_refuted 50 three (by decide) 7

/-! ### Agreement with the model of C39 -/

/-- The model of C39 records a notification as a start followed by an end, and only the start of a disconnection. -/
def plainLog : List (Ev V) → List (Observer.Ev V)
  | [] => []
  | .enter s o v :: es => .enter s o v :: .leave o :: plainLog es
  | .disc s o :: es => .disc s o :: plainLog es
  | .leave _ :: es => plainLog es
  | .ret op e :: es => .ret op e :: plainLog es

theorem plainLog_append (a b : List (Ev V)) : plainLog (a ++ b) = plainLog a ++ plainLog b := by
  induction a with
  | nil => rfl
  | cons e a ih => cases e <;> simp [plainLog, ih]

/-- The state of the model of C39. -/
def plain (s : St V U) : Dyn V := ⟨s.self, s.obs, plainLog s.log⟩

theorem Only.silent {p : Prog V U} (h : p.Only fun _ => False) :
    ∃ u, ∀ (ex : Ex V U) (s : St V U), runProg ex p s = .ok { s with user := u } := by
  induction p with
  | ret u => exact ⟨u, fun _ _ => rfl⟩
  | set u k ih =>
    obtain ⟨w, hw⟩ := ih h
    exact ⟨w, fun ex s => hw ex { s with user := u }⟩
  | call op k => exact h.1.elim

theorem plain_notify {ex : Ex V U} {H : Handlers V U} (hH : Only (fun _ => False) H) (v : V) (g i left : Nat)
    (s : St V U) (hg : s.gen = g) (hl : i + left = s.obs.length) :
    ∃ t, loop ex (fun s o => .enter s.self o v) (fun o u => H.data u o v) g i left s = .ok t ∧
      plain t = Dyn.notifyLoop v (s.obs.drop i) (plain s) := by
  induction left generalizing i s with
  | zero => exact ⟨s, by simp [loop, hg], by rw [List.drop_eq_nil_of_le (by omega)]; rfl⟩
  | succ left ih =>
    have hi : i < s.obs.length := by omega
    obtain ⟨u, hu⟩ := Only.silent (hH.1 s.user s.obs[i] v)
    obtain ⟨t, h1, h2⟩ := ih (i + 1)
      ({ s.emit (.enter s.self s.obs[i] v) with user := u } |>.emit (.leave s.obs[i])) hg (by
        show i + 1 + left = s.obs.length
        omega)
    refine ⟨t, ?_, ?_⟩
    · simp only [loop, if_pos hg, deref, List.getElem?_eq_getElem hi, Res.ok_bind, callback, hu, h1]
    · rw [h2, List.drop_eq_getElem_cons hi, Dyn.notifyLoop]
      simp [plain, St.emit, plainLog_append, plainLog]

theorem plain_clear {ex : Ex V U} {H : Handlers V U} (hH : Only (fun _ => False) H) (g i left : Nat)
    (s : St V U) (hg : s.gen = g) (hl : i + left = s.obs.length) :
    ∃ t, loop ex (fun s o => .disc s.self o) (fun o u => H.disconnect u o) g i left s = .ok t ∧
      plain t = Dyn.clearLoop (s.obs.drop i) (plain s) := by
  induction left generalizing i s with
  | zero => exact ⟨s, by simp [loop, hg], by rw [List.drop_eq_nil_of_le (by omega)]; rfl⟩
  | succ left ih =>
    have hi : i < s.obs.length := by omega
    obtain ⟨u, hu⟩ := Only.silent (hH.2 s.user s.obs[i])
    obtain ⟨t, h1, h2⟩ := ih (i + 1)
      ({ s.emit (.disc s.self s.obs[i]) with user := u } |>.emit (.leave s.obs[i])) hg (by
        show i + 1 + left = s.obs.length
        omega)
    refine ⟨t, ?_, ?_⟩
    · simp only [loop, if_pos hg, deref, List.getElem?_eq_getElem hi, Res.ok_bind, callback, hu, h1]
    · rw [h2, List.drop_eq_getElem_cons hi, Dyn.clearLoop]
      simp [plain, St.emit, plainLog_append, plainLog]

/-- If no callback makes calls, this model and that of C39 agree. -/
theorem agrees {H : Handlers V U} (hH : Only (fun _ => False) H) (n : Nat) (s : St V U) (op : Op V) :
    ∃ t e, exec H (n + 1) s op = .ok (t, e) ∧ (plain s).call op = (plain t, e) := by
  have hret : ∀ (t : St V U) (e : Err), plain (t.emit (.ret op e)) =
      { plain t with log := (plain t).log ++ [.ret op e] } := by
    intro t e
    simp [plain, St.emit, plainLog_append, plainLog]
  cases op with
  | add o =>
    refine ⟨_, _, rfl, ?_⟩
    rw [hret, Dyn.call]
    have : (plain s).add o = (plain (add s o).1, (add s o).2) := by
      rw [Dyn.add_eq]
      obtain ⟨h1, h2, h3, h4, _, _⟩ := add_ran s o
      simp only [plain, h1, h2, h3, h4]
    rw [this]
  | remove o =>
    refine ⟨_, _, rfl, ?_⟩
    rw [hret, Dyn.call]
    have : (plain s).remove o = (plain (remove s o).1, (remove s o).2) := by
      rw [Dyn.remove_eq]
      obtain ⟨h1, h2, h3, h4, _, _⟩ := remove_ran s o
      simp only [plain, h1, h2, h3, h4]
    rw [this]
  | clear =>
    obtain ⟨t, h1, h2⟩ := plain_clear (ex := exec H n) hH s.gen 0 s.obs.length s rfl (by simp)
    refine ⟨({ t with obs := [], gen := t.gen + 1 } : St V U).emit (.ret .clear .ok), .ok, ?_, ?_⟩
    · simp only [exec, execStep, body, Cb.clear, h1, Res.ok_bind]
    · rw [hret, Dyn.call]
      simp only [Dyn.clear]
      rw [List.drop_zero] at h2
      show (_ : Dyn V × Err) = _
      have h3 : Dyn.clearLoop (plain s).obs (plain s) = plain t := h2.symm
      rw [h3]
      rfl
  | notify v =>
    obtain ⟨t, h1, h2⟩ := plain_notify (ex := exec H n) hH v s.gen 0 s.obs.length s rfl (by simp)
    refine ⟨t.emit (.ret (.notify v) .ok), .ok, ?_, ?_⟩
    · simp only [exec, execStep, body, Cb.notify, h1, Res.ok_bind]
    · rw [hret, Dyn.call]
      simp only [Dyn.notify]
      rw [List.drop_zero] at h2
      have h3 : Dyn.notifyLoop v (plain s).obs (plain s) = plain t := h2.symm
      rw [h3]

end Verif.Observer.Cb
