import Verif.Values.DynReentrant
import Verif.Values.ReentrantProps
/-!
Properties C92 and C93 of `values::observable<T, 0>` with functions that call back.

The statements speak about the log: `depth log` is the number of functions in progress after it, `top 0 log` what the
outermost call told, `regs log` the objects registered after it if nothing was removed.
-/
namespace Verif.Values.Re.Vec
open Verif

variable {U : Type}

/-! ### Lemmas about logs -/

theorem depth_from (b : List Ev) (d : Int) : b.foldl depthEv d = d + b.foldl depthEv 0 := by
  induction b generalizing d with
  | nil => simp
  | cons e b ih =>
    simp only [List.foldl_cons]
    rw [ih (depthEv d e), ih (depthEv 0 e)]
    cases e <;> simp only [depthEv] <;> omega

theorem depth_append (a b : List Ev) : depth (a ++ b) = depth a + depth b := by
  simp only [depth, List.foldl_append]
  exact depth_from b _

/-- Nothing invalidated the iterators of a loop while a function begun in `new` was running. -/
def Quiet (new : List Ev) : Prop := ∀ pre e post, new = pre ++ e :: post → 0 < depth pre → ¬ e.Invalidates

/-- Nothing invalidated iterators. -/
def Still (new : List Ev) : Prop := ∀ e ∈ new, ¬ e.Invalidates

theorem Still.append {a b : List Ev} (ha : Still a) (hb : Still b) : Still (a ++ b) := by
  intro e he
  rcases List.mem_append.1 he with h | h
  · exact ha e h
  · exact hb e h

theorem Still.quiet {a : List Ev} (h : Still a) : Quiet a := fun pre e post hp _ => h e (by rw [hp]; simp)

theorem Still.nil : Still [] := by intro e he; simp at he

theorem Still.single {e : Ev} (h : ¬ e.Invalidates) : Still [e] := by
  intro x hx
  rw [List.mem_singleton.1 hx]
  exact h

theorem Quiet.append {a b : List Ev} (ha : Quiet a) (hd : depth a = 0) (hb : Quiet b) : Quiet (a ++ b) := by
  intro pre e post hp hpos
  rcases List.append_eq_append_iff.1 hp with ⟨c, h1, h2⟩ | ⟨c, h1, h2⟩
  · rw [h1, depth_append, hd] at hpos
    exact hb c e post h2 (by omega)
  · cases c with
    | nil =>
      rw [List.append_nil] at h1
      rw [← h1] at hpos
      omega
    | cons x c =>
      simp only [List.cons_append, List.cons.injEq] at h2
      obtain ⟨rfl, _⟩ := h2
      exact ha pre e c h1 hpos

theorem Quiet.single (e : Ev) : Quiet [e] := by
  intro pre x post hp hpos
  cases pre with
  | nil => exact absurd hpos (by decide)
  | cons y pre => simp at hp

/-- No removal was made. -/
def NoRem (new : List Ev) : Prop := ∀ e ∈ new, ¬ e.Removal

theorem NoRem.left {a b : List Ev} (h : NoRem (a ++ b)) : NoRem a := fun e he => h e (List.mem_append_left _ he)
theorem NoRem.right {a b : List Ev} (h : NoRem (a ++ b)) : NoRem b := fun e he => h e (List.mem_append_right _ he)

/-! ### What calls add to the log -/

/-- What a call adds to the log, and how the object changes with it. -/
structure Ran (s s' : St U) (new : List Ev) : Prop where
  log : s'.log = s.log ++ new
  zero : depth new = 0
  mono : s.gen ≤ s'.gen
  quiet : Quiet new
  still : s'.gen = s.gen → Still new ∧ s'.vec.length = s.vec.length
  reg : NoRem new → s'.vec = new.foldl regEv s.vec
  keep : NoRem new → s'.gen = s.gen → s'.vec = s.vec
  bal : ∀ d rest, top (d + 1) (new ++ rest) = top (d + 1) rest

theorem Ran.refl (s : St U) (u : U) : Ran s { s with user := u } [] where
  log := by simp
  zero := rfl
  mono := Nat.le_refl _
  quiet := Still.nil.quiet
  still := fun _ => ⟨Still.nil, rfl⟩
  reg := fun _ => rfl
  keep := fun _ _ => rfl
  bal := fun _ _ => rfl

theorem Ran.trans {s t u : St U} {a b : List Ev} (h1 : Ran s t a) (h2 : Ran t u b) : Ran s u (a ++ b) where
  log := by rw [h2.log, h1.log, List.append_assoc]
  zero := by rw [depth_append, h1.zero, h2.zero]; rfl
  mono := Nat.le_trans h1.mono h2.mono
  quiet := h1.quiet.append h1.zero h2.quiet
  still := by
    intro h
    have m1 := h1.mono
    have m2 := h2.mono
    obtain ⟨s1, l1⟩ := h1.still (by omega)
    obtain ⟨s2, l2⟩ := h2.still (by omega)
    exact ⟨s1.append s2, by omega⟩
  reg := by
    intro h
    rw [h2.reg h.right, h1.reg h.left, List.foldl_append]
  keep := by
    intro h hg
    have m1 := h1.mono
    have m2 := h2.mono
    rw [h2.keep h.right (by omega), h1.keep h.left (by omega)]
  bal := by
    intro d rest
    rw [List.append_assoc, h1.bal, h2.bal]

/-- A way of running calls that keeps the books. -/
def Good (ex : Ex U) : Prop := ∀ s op s' r, ex s op = .ok (s', r) → ∃ new, Ran s s' new

theorem runProg_ran {ex : Ex U} (hex : Good ex) (p : Prog U) (s s' : St U) (h : runProg ex p s = .ok s') :
    ∃ new, Ran s s' new := by
  induction p generalizing s with
  | ret u =>
    simp only [runProg, Res.ok.injEq] at h
    subst h
    exact ⟨[], .refl s u⟩
  | set u k ih =>
    obtain ⟨b, hb⟩ := ih { s with user := u } h
    exact ⟨[] ++ b, (Ran.refl s u).trans hb⟩
  | call op k ih =>
    simp only [runProg] at h
    cases hr : ex s op with
    | ub => rw [hr] at h; cases h
    | hang => rw [hr] at h; cases h
    | ok r =>
      obtain ⟨t, e⟩ := r
      rw [hr, Res.ok_bind] at h
      obtain ⟨a, ha⟩ := hex s op t e hr
      obtain ⟨b, hb⟩ := ih e t.user t h
      exact ⟨a ++ b, ha.trans hb⟩

/-- The events that start a function. -/
def Ev.Starts : Ev → Prop
  | .told _ _ => True
  | .disc _ => True
  | _ => False

/-- The body of a loop, seen from outside; `e` is the event it starts with. -/
structure Pass (e : Ev) (s s' : St U) (new : List Ev) : Prop where
  log : s'.log = s.log ++ new
  zero : depth new = 0
  mono : s.gen ≤ s'.gen
  still : s'.gen = s.gen → Still new ∧ s'.vec.length = s.vec.length
  reg : NoRem new → s'.vec = new.foldl regEv s.vec
  keep : NoRem new → s'.gen = s.gen → s'.vec = s.vec
  one : ∀ rest, top 0 (new ++ rest) = e :: top 0 rest
  bal : ∀ d rest, top (d + 1) (new ++ rest) = top (d + 1) rest

theorem Pass.mk' {e : Ev} (he : e.Starts) {s t u : St U} {a : List Ev} (h : Ran t u a) (hl : t.log = s.log ++ [e])
    (hg : t.gen = s.gen) (hv : t.vec = s.vec) (o : Nat) :
    Pass e s (u.emit (.leave o)) ([e] ++ (a ++ [.leave o])) where
  log := by
    show u.log ++ _ = _
    rw [h.log, hl]
    simp
  zero := by
    rw [depth_append, depth_append, h.zero]
    cases e with
    | told o v => rfl
    | disc o => rfl
    | leave o => exact he.elim
    | ret op r => exact he.elim
  mono := by
    rw [← hg]
    exact h.mono
  still := by
    intro hs
    obtain ⟨s1, l1⟩ := h.still (by rw [hg]; exact hs)
    rw [hv] at l1
    refine ⟨(Still.single ?_).append (s1.append (Still.single (by simp [Ev.Invalidates]))), l1⟩
    cases e with
    | told o v => simp [Ev.Invalidates]
    | disc o => simp [Ev.Invalidates]
    | leave o => exact he.elim
    | ret op r => exact he.elim
  reg := by
    intro hn
    have h1 := h.reg hn.right.left
    rw [hv] at h1
    rw [List.foldl_append, List.foldl_append]
    show u.vec = _
    rw [h1]
    cases e with
    | told o v => rfl
    | disc o => rfl
    | leave o => exact he.elim
    | ret op r => exact he.elim
  keep := by
    intro hn hs
    rw [← hv]
    exact h.keep hn.right.left (by rw [hg]; exact hs)
  one := by
    intro rest
    simp only [List.cons_append, List.nil_append, List.append_assoc]
    cases e with
    | told o v =>
      show _ :: top (0 + 1) _ = _
      rw [h.bal]
      rfl
    | disc o =>
      show _ :: top (0 + 1) _ = _
      rw [h.bal]
      rfl
    | leave o => exact he.elim
    | ret op r => exact he.elim
  bal := by
    intro d rest
    simp only [List.cons_append, List.nil_append, List.append_assoc]
    cases e with
    | told o v =>
      simp only [top]
      rw [if_neg (by omega), h.bal]
      rfl
    | disc o =>
      simp only [top]
      rw [if_neg (by omega), h.bal]
      rfl
    | leave o => exact he.elim
    | ret op r => exact he.elim

theorem tell_pass {ex : Ex U} (hex : Good ex) (H : Handlers U) (v : Int) (o : Nat) (s s' : St U)
    (h : tell ex H v o s = .ok s') : ∃ new, Pass (.told o v) s s' new := by
  simp only [tell] at h
  cases hr : runProg ex (H.update s.user o v)
      ({ s with held := fun p => if p = o then v else s.held p }.emit (.told o v)) with
  | ub => rw [hr] at h; cases h
  | hang => rw [hr] at h; cases h
  | ok t =>
    rw [hr, Res.ok_bind, Res.ok.injEq] at h
    subst h
    obtain ⟨a, ha⟩ := runProg_ran hex _ _ _ hr
    exact ⟨[.told o v] ++ (a ++ [.leave o]), Pass.mk' (e := .told o v) (s := s) trivial ha rfl rfl rfl o⟩

theorem disconnect_pass {ex : Ex U} (hex : Good ex) (H : Handlers U) (o : Nat) (s s' : St U)
    (h : disconnect ex H o s = .ok s') : ∃ new, Pass (.disc o) s s' new := by
  simp only [disconnect] at h
  cases hr : runProg ex (H.disconnect s.user o) (s.emit (.disc o)) with
  | ub => rw [hr] at h; cases h
  | hang => rw [hr] at h; cases h
  | ok t =>
    rw [hr, Res.ok_bind, Res.ok.injEq] at h
    subst h
    obtain ⟨a, ha⟩ := runProg_ran hex _ _ _ hr
    exact ⟨[.disc o] ++ (a ++ [.leave o]), Pass.mk' (e := .disc o) (s := s) trivial ha rfl rfl rfl o⟩

/-- A loop that ends. -/
theorem loop_ran {f : Nat → St U → Res (St U)} {e : Nat → Ev}
    (hf : ∀ o s s', f o s = .ok s' → ∃ new, Pass (e o) s s' new) (g i left : Nat) (s s' : St U)
    (hl : i + left = s.vec.length) (h : loop f g i left s = .ok s') :
    s.gen = g ∧ s'.gen = g ∧ s'.vec.length = s.vec.length ∧ ∃ new, s'.log = s.log ++ new ∧ depth new = 0 ∧
      Still new ∧ (NoRem new → s'.vec = s.vec ∧ s'.vec = new.foldl regEv s.vec ∧
        ∀ rest, top 0 (new ++ rest) = (s.vec.drop i).map e ++ top 0 rest) ∧
      ∀ d rest, top (d + 1) (new ++ rest) = top (d + 1) rest := by
  induction left generalizing i s with
  | zero =>
    simp only [loop] at h
    by_cases hg : s.gen = g
    · rw [if_pos hg, Res.ok.injEq] at h
      subst h
      refine ⟨hg, hg, rfl, [], by simp, rfl, Still.nil, fun _ => ⟨rfl, rfl, fun rest => ?_⟩, fun _ _ => rfl⟩
      rw [List.drop_eq_nil_of_le (by omega)]
      rfl
    · rw [if_neg hg] at h
      cases h
  | succ left ih =>
    simp only [loop] at h
    by_cases hg : s.gen = g
    · rw [if_pos hg] at h
      have hi : i < s.vec.length := by omega
      simp only [deref, List.getElem?_eq_getElem hi, Res.ok_bind] at h
      cases hc : f s.vec[i] s with
      | ub => rw [hc] at h; cases h
      | hang => rw [hc] at h; cases h
      | ok t =>
        rw [hc, Res.ok_bind] at h
        obtain ⟨a, p⟩ := hf _ _ _ hc
        by_cases ht : t.gen = g
        · obtain ⟨b1, b2⟩ := p.still (by omega)
          obtain ⟨_, c2, c3, b, d1, d2, d3, d4, d5⟩ := ih (i + 1) t (by omega) h
          refine ⟨hg, c2, by omega, a ++ b, by rw [d1, p.log, List.append_assoc], ?_, b1.append d3, ?_, ?_⟩
          · rw [depth_append, p.zero, d2]; rfl
          · intro hn
            have hv := p.keep hn.left (by omega)
            obtain ⟨e1, e3, e2⟩ := d4 hn.right
            rw [p.reg hn.left, ← List.foldl_append] at e3
            rw [hv] at e1 e2
            refine ⟨e1, e3, fun rest => ?_⟩
            rw [List.append_assoc, p.one, e2, List.drop_eq_getElem_cons hi, List.map_cons, List.cons_append]
          · intro d rest
            rw [List.append_assoc, p.bal, d5]
        · exfalso
          cases left with
          | zero => simp only [loop, if_neg ht] at h; cases h
          | succ left => simp only [loop, if_neg ht] at h; cases h
    · rw [if_neg hg] at h
      cases h

theorem containsVec_iff (o : Nat) (l : List Nat) : containsVec o l = true ↔ o ∈ l := by
  induction l with
  | nil => simp [containsVec]
  | cons a l ih =>
    simp only [containsVec, List.mem_cons]
    by_cases h : a = o
    · simp [h]
    · rw [if_neg h, ih]
      constructor
      · exact Or.inr
      · rintro (h' | h')
        · exact absurd h'.symm h
        · exact h'

theorem add_in {s : St U} {o : Nat} (h : o ∈ s.vec) : add s o = (s, .err .alreadyContains) := by
  rw [add, (containsVec_iff o s.vec).2 h]
  rfl

theorem add_new {s : St U} {o : Nat} (h : o ∉ s.vec) :
    add s o = ({ s with vec := s.vec ++ [o], gen := s.gen + 1 }, .err .ok) := by
  have : containsVec o s.vec = false := by
    cases hs : containsVec o s.vec
    · rfl
    · exact absurd ((containsVec_iff o s.vec).1 hs) h
  rw [add, this]
  rfl

theorem remove_keeps (s : St U) (o : Nat) : (remove s o).1.log = s.log ∧ (remove s o).1.gen = s.gen ∧
    (remove s o).1.vec.length = s.vec.length ∧ ∀ p ∈ s.vec, p ≠ o → p ∈ (remove s o).1.vec := by
  have hlen : (stdRemove o s.vec).1.length = s.vec.length := by
    have := List.length_filter_le (fun y => decide (y ≠ o)) s.vec
    simp only [stdRemove, List.length_append, List.length_drop]
    omega
  have hmem : ∀ p ∈ s.vec, p ≠ o → p ∈ (stdRemove o s.vec).1 := by
    intro p hp hne
    simp only [stdRemove]
    exact List.mem_append_left _ (List.mem_filter.2 ⟨hp, by simpa using hne⟩)
  by_cases h : s.vec = []
  · rw [remove, if_pos h]
    exact ⟨rfl, rfl, rfl, fun p hp _ => hp⟩
  · rw [remove, if_neg h]
    by_cases h2 : (stdRemove o s.vec).2 ≠ s.vec.length
    · rw [if_pos h2]
      exact ⟨rfl, rfl, hlen, hmem⟩
    · rw [if_neg h2]
      exact ⟨rfl, rfl, hlen, hmem⟩

/-- The state in which the loop of an update starts, and what it leaves. -/
theorem update_ran {ex : Ex U} (hex : Good ex) {H : Handlers U} {T : IntTy} {s t : St U} {u : Upd} {r : Ret}
    (h : update ex H T s u = .ok (t, r)) : ∃ v, r = .val v ∧ t.gen = s.gen ∧ t.vec.length = s.vec.length ∧
      ∃ new, t.log = s.log ++ new ∧ depth new = 0 ∧ Still new ∧ (NoRem new → t.vec = s.vec ∧
        t.vec = new.foldl regEv s.vec ∧ ∀ rest, top 0 (new ++ rest) = s.vec.map (fun o => Ev.told o v) ++ top 0 rest) ∧
      ∀ d rest, top (d + 1) (new ++ rest) = top (d + 1) rest := by
  simp only [update] at h
  cases hv : result T s.value u with
  | ub => rw [hv] at h; cases h
  | hang => rw [hv] at h; cases h
  | ok v =>
    rw [hv, Res.ok_bind] at h
    cases hr : loop (tell ex H v) s.gen 0 s.vec.length { s with value := stored T s.value u } with
    | ub => rw [hr] at h; cases h
    | hang => rw [hr] at h; cases h
    | ok q =>
      rw [hr, Res.ok_bind, Res.ok.injEq, Prod.mk.injEq] at h
      obtain ⟨rfl, rfl⟩ := h
      obtain ⟨_, b, c⟩ := loop_ran (e := fun o => .told o v) (fun o s s' h => tell_pass hex H v o s s' h) _ _ _ _ _
        (by simp) hr
      exact ⟨v, rfl, b, c⟩

theorem clear_ran {ex : Ex U} (hex : Good ex) {H : Handlers U} {s t : St U} {r : Ret}
    (h : clear ex H s = .ok (t, r)) : t.gen = s.gen + 1 ∧ t.vec = [] ∧
      ∃ new, t.log = s.log ++ new ∧ depth new = 0 ∧ Still new ∧ (NoRem new →
        ∀ rest, top 0 (new ++ rest) = s.vec.map (fun o => Ev.disc o) ++ top 0 rest) ∧
      ∀ d rest, top (d + 1) (new ++ rest) = top (d + 1) rest := by
  simp only [clear] at h
  cases hr : loop (disconnect ex H) s.gen 0 s.vec.length s with
  | ub => rw [hr] at h; cases h
  | hang => rw [hr] at h; cases h
  | ok q =>
    rw [hr, Res.ok_bind, Res.ok.injEq, Prod.mk.injEq] at h
    obtain ⟨rfl, rfl⟩ := h
    obtain ⟨_, b, _, new, d1, d2, d3, d4, d5⟩ := loop_ran (e := fun o => .disc o)
      (fun o s s' h => disconnect_pass hex H o s s' h) _ _ _ _ _ (by simp) hr
    exact ⟨by show q.gen + 1 = _; rw [b], rfl, new, d1, d2, d3, fun hn => (d4 hn).2.2, d5⟩

theorem execStep_ran {ex : Ex U} (hex : Good ex) (H : Handlers U) (T : IntTy) : Good (execStep ex H T) := by
  intro s op s' r h
  simp only [execStep] at h
  cases hb : body ex H T s op with
  | ub => rw [hb] at h; cases h
  | hang => rw [hb] at h; cases h
  | ok q =>
    obtain ⟨t, r'⟩ := q
    rw [hb, Res.ok_bind, Res.ok.injEq, Prod.mk.injEq] at h
    obtain ⟨rfl, rfl⟩ := h
    cases op with
    | add o =>
      simp only [body, Res.ok.injEq] at hb
      by_cases ho : o ∈ s.vec
      · rw [add_in ho, Prod.mk.injEq] at hb
        obtain ⟨rfl, rfl⟩ := hb
        exact ⟨[.ret (.add o) (.err .alreadyContains)], rfl, rfl, Nat.le_refl _, Quiet.single _,
          fun _ => ⟨Still.single (fun h => h rfl), rfl⟩,
          fun _ => by simp [regEv, ho, St.emit], fun _ _ => rfl, fun _ _ => rfl⟩
      · rw [add_new ho, Prod.mk.injEq] at hb
        obtain ⟨rfl, rfl⟩ := hb
        exact ⟨[.ret (.add o) (.err .ok)], rfl, rfl, Nat.le_succ _, Quiet.single _,
          fun hg => absurd hg (Nat.succ_ne_self _), fun _ => by simp [regEv, ho, St.emit],
          fun _ hg => absurd hg (Nat.succ_ne_self _), fun _ _ => rfl⟩
    | remove o =>
      simp only [body, Res.ok.injEq] at hb
      obtain ⟨h1, h2, h3, _⟩ := remove_keeps s o
      rw [hb] at h1 h2 h3
      have hno : ¬ NoRem [Ev.ret (.remove o) r'] := fun hn => hn _ (List.mem_singleton.2 rfl) trivial
      exact ⟨[.ret (.remove o) r'], by rw [← h1]; rfl, rfl, Nat.le_of_eq h2.symm, Quiet.single _,
        fun _ => ⟨Still.single (by simp [Ev.Invalidates]), h3⟩, fun hn => absurd hn hno, fun hn => absurd hn hno,
        fun _ _ => rfl⟩
    | clear =>
      obtain ⟨h2, h3, new, d1, d2, d3, _, d5⟩ := clear_ran hex hb
      refine ⟨new ++ [.ret .clear r'], ?_, ?_, ?_, d3.quiet.append d2 (Quiet.single _), ?_, ?_, ?_, ?_⟩
      · show t.log ++ _ = _
        rw [d1, List.append_assoc]
      · rw [depth_append, d2]; rfl
      · show s.gen ≤ t.gen
        omega
      · intro hg
        have : t.gen = s.gen := hg
        omega
      · intro _
        rw [List.foldl_append]
        exact h3
      · intro _ hg
        have : t.gen = s.gen := hg
        omega
      · intro d rest
        rw [List.append_assoc, d5]
        rfl
    | upd u =>
      obtain ⟨v, _, h2, h3, new, d1, d2, d3, d4, d5⟩ := update_ran hex hb
      refine ⟨new ++ [.ret (.upd u) r'], ?_, ?_, Nat.le_of_eq h2.symm, d3.quiet.append d2 (Quiet.single _), ?_, ?_, ?_,
        ?_⟩
      · show t.log ++ _ = _
        rw [d1, List.append_assoc]
      · rw [depth_append, d2]; rfl
      · intro _
        exact ⟨d3.append (Still.single (by simp [Ev.Invalidates])), h3⟩
      · intro hn
        rw [List.foldl_append]
        exact (d4 hn.left).2.1
      · intro hn _
        exact (d4 hn.left).1
      · intro d rest
        rw [List.append_assoc, d5]
        rfl

theorem exec_ran (H : Handlers U) (T : IntTy) (n : Nat) : Good (exec H T n) := by
  induction n with
  | zero => intro s op s' r h; cases h
  | succ n ih => exact execStep_ran ih H T

theorem Reach.inv {H : Handlers U} {T : IntTy} {s : St U} (h : Reach H T s) :
    depth s.log = 0 ∧ Quiet s.log ∧ (NoRem s.log → s.vec = regs s.log) := by
  induction h with
  | new u => exact ⟨rfl, Still.nil.quiet, fun _ => rfl⟩
  | call s s' n op r _ hr ih =>
    obtain ⟨new, hn⟩ := exec_ran H T n s op s' r hr
    obtain ⟨a, b, c⟩ := ih
    rw [hn.log]
    refine ⟨by rw [depth_append, a, hn.zero]; rfl, b.append a hn.quiet, fun hno => ?_⟩
    rw [hn.reg hno.right, c hno.left, regs, regs, List.foldl_append]
  | user s u _ ih => exact ih

/-! ### C92 -/

/-- Calls of functions that are harmless if the objects of `K` are registered: updates without overflow,
registrations of objects of `K`, removals of other objects. -/
def Mild (T : IntTy) (K : List Nat) : Op → Prop
  | .upd u => (Op.upd u).Safe T
  | .add o => o ∈ K
  | .remove o => o ∉ K
  | .clear => False

/-- A way of running calls that is harmless while the objects of `K` are registered. -/
def Tame (T : IntTy) (K : List Nat) (ex : Ex U) : Prop := ∀ s op, (∀ o ∈ K, o ∈ s.vec) → Mild T K op →
  ex s op ≠ .ub ∧ ∀ s' r, ex s op = .ok (s', r) →
    s'.gen = s.gen ∧ s'.vec.length = s.vec.length ∧ ∀ o ∈ K, o ∈ s'.vec

theorem runProg_tame {T : IntTy} {K : List Nat} {ex : Ex U} (hex : Tame T K ex) (p : Prog U) (hp : p.Only (Mild T K))
    (s : St U) (hs : ∀ o ∈ K, o ∈ s.vec) : runProg ex p s ≠ .ub ∧ ∀ s', runProg ex p s = .ok s' →
      s'.gen = s.gen ∧ s'.vec.length = s.vec.length ∧ ∀ o ∈ K, o ∈ s'.vec := by
  induction p generalizing s with
  | ret u =>
    refine ⟨by simp [runProg], fun s' h => ?_⟩
    simp only [runProg, Res.ok.injEq] at h
    subst h
    exact ⟨rfl, rfl, hs⟩
  | set u k ih => exact ih hp { s with user := u } hs
  | call op k ih =>
    obtain ⟨a, b⟩ := hex s op hs hp.1
    simp only [runProg]
    cases hr : ex s op with
    | ub => exact absurd hr a
    | hang => simp
    | ok q =>
      obtain ⟨t, e⟩ := q
      obtain ⟨b1, b2, b3⟩ := b t e hr
      obtain ⟨c, d⟩ := ih e t.user (hp.2 e t.user) t b3
      simp only [Res.ok_bind]
      refine ⟨c, fun s' h => ?_⟩
      obtain ⟨d1, d2, d3⟩ := d s' h
      exact ⟨by omega, by omega, d3⟩

theorem loop_tame {K : List Nat} {f : Nat → St U → Res (St U)}
    (hf : ∀ o s, (∀ p ∈ K, p ∈ s.vec) → f o s ≠ .ub ∧ ∀ s', f o s = .ok s' →
      s'.gen = s.gen ∧ s'.vec.length = s.vec.length ∧ ∀ p ∈ K, p ∈ s'.vec)
    (i left : Nat) (s : St U) (hl : i + left = s.vec.length) (hs : ∀ p ∈ K, p ∈ s.vec) :
    loop f s.gen i left s ≠ .ub ∧ ∀ s', loop f s.gen i left s = .ok s' →
      s'.gen = s.gen ∧ s'.vec.length = s.vec.length ∧ ∀ p ∈ K, p ∈ s'.vec := by
  induction left generalizing i s with
  | zero =>
    simp only [loop, if_true]
    refine ⟨by simp, fun s' h => ?_⟩
    simp only [Res.ok.injEq] at h
    subst h
    exact ⟨rfl, rfl, hs⟩
  | succ left ih =>
    have hi : i < s.vec.length := by omega
    simp only [loop, if_true, deref, List.getElem?_eq_getElem hi, Res.ok_bind]
    obtain ⟨a, b⟩ := hf s.vec[i] s hs
    cases hr : f s.vec[i] s with
    | ub => exact absurd hr a
    | hang => simp
    | ok t =>
      obtain ⟨b1, b2, b3⟩ := b t hr
      have := ih (i + 1) t (by omega) b3
      rw [b1, b2] at this
      exact this

theorem tell_tame {T : IntTy} {K : List Nat} {ex : Ex U} (hex : Tame T K ex) {H : Handlers U} (hH : H.Only (Mild T K))
    (v : Int) (o : Nat) (s : St U) (hs : ∀ p ∈ K, p ∈ s.vec) : tell ex H v o s ≠ .ub ∧
      ∀ s', tell ex H v o s = .ok s' → s'.gen = s.gen ∧ s'.vec.length = s.vec.length ∧ ∀ p ∈ K, p ∈ s'.vec := by
  obtain ⟨a, b⟩ := runProg_tame hex (H.update s.user o v) (hH.1 _ _ _)
    ({ s with held := fun p => if p = o then v else s.held p }.emit (.told o v)) hs
  simp only [tell]
  cases hr : runProg ex (H.update s.user o v)
      ({ s with held := fun p => if p = o then v else s.held p }.emit (.told o v)) with
  | ub => exact absurd hr a
  | hang => simp
  | ok t =>
    refine ⟨by simp, fun s' h => ?_⟩
    simp only [Res.ok_bind, Res.ok.injEq] at h
    subst h
    exact b t hr

theorem disconnect_tame {T : IntTy} {K : List Nat} {ex : Ex U} (hex : Tame T K ex) {H : Handlers U}
    (hH : H.Only (Mild T K)) (o : Nat) (s : St U) (hs : ∀ p ∈ K, p ∈ s.vec) : disconnect ex H o s ≠ .ub ∧
      ∀ s', disconnect ex H o s = .ok s' → s'.gen = s.gen ∧ s'.vec.length = s.vec.length ∧ ∀ p ∈ K, p ∈ s'.vec := by
  obtain ⟨a, b⟩ := runProg_tame hex (H.disconnect s.user o) (hH.2 _ _) (s.emit (.disc o)) hs
  simp only [disconnect]
  cases hr : runProg ex (H.disconnect s.user o) (s.emit (.disc o)) with
  | ub => exact absurd hr a
  | hang => simp
  | ok t =>
    refine ⟨by simp, fun s' h => ?_⟩
    simp only [Res.ok_bind, Res.ok.injEq] at h
    subst h
    exact b t hr

theorem update_tame {T : IntTy} {K : List Nat} {ex : Ex U} (hex : Tame T K ex) {H : Handlers U} (hH : H.Only (Mild T K))
    (s : St U) (hs : ∀ p ∈ K, p ∈ s.vec) (u : Upd) (hu : (Op.upd u).Safe T) : update ex H T s u ≠ .ub ∧
      ∀ s' r, update ex H T s u = .ok (s', r) →
        s'.gen = s.gen ∧ s'.vec.length = s.vec.length ∧ ∀ p ∈ K, p ∈ s'.vec := by
  simp only [update]
  cases hv : result T s.value u with
  | ub => exact absurd hv (result_safe _ hu)
  | hang => simp
  | ok v =>
    obtain ⟨a, b⟩ := loop_tame (K := K) (f := tell ex H v) (tell_tame hex hH v) 0 s.vec.length
      { s with value := stored T s.value u } (by simp) hs
    simp only [Res.ok_bind]
    cases hr : loop (tell ex H v) s.gen 0 s.vec.length { s with value := stored T s.value u } with
    | ub => exact absurd hr a
    | hang => simp
    | ok t =>
      refine ⟨by simp, fun s' r h => ?_⟩
      simp only [Res.ok_bind, Res.ok.injEq, Prod.mk.injEq] at h
      obtain ⟨rfl, _⟩ := h
      exact b t hr

theorem body_safe {T : IntTy} {K : List Nat} {ex : Ex U} (hex : Tame T K ex) {H : Handlers U} (hH : H.Only (Mild T K))
    (s : St U) (hs : ∀ p ∈ K, p ∈ s.vec) (op : Op) (ho : op.Safe T) : body ex H T s op ≠ .ub := by
  cases op with
  | upd u => exact (update_tame hex hH s hs u ho).1
  | add o => simp [body]
  | remove o => simp [body]
  | clear =>
    have a := (loop_tame (K := K) (f := disconnect ex H) (disconnect_tame hex hH) 0 s.vec.length s (by simp) hs).1
    simp only [body, clear]
    cases hr : loop (disconnect ex H) s.gen 0 s.vec.length s with
    | ub => exact absurd hr a
    | hang => simp
    | ok t => simp

theorem Mild.safe {T : IntTy} {K : List Nat} {op : Op} (h : Mild T K op) : op.Safe T := by
  cases op with
  | upd u => exact h
  | add o => trivial
  | remove o => trivial
  | clear => exact h.elim

theorem exec_tame {H : Handlers U} {T : IntTy} {K : List Nat} (hH : H.Only (Mild T K)) (n : Nat) :
    Tame T K (exec H T n) := by
  induction n with
  | zero => intro s op _ _; exact ⟨by simp [exec], by simp [exec]⟩
  | succ n ih =>
    intro s op hs ho
    have hb := body_safe ih hH s hs op ho.safe
    simp only [exec, execStep]
    cases hr : body (exec H T n) H T s op with
    | ub => exact absurd hr hb
    | hang => simp
    | ok q =>
      obtain ⟨t, r'⟩ := q
      refine ⟨by simp, fun s' r h => ?_⟩
      simp only [Res.ok_bind, Res.ok.injEq, Prod.mk.injEq] at h
      obtain ⟨rfl, _⟩ := h
      cases op with
      | upd u => exact (update_tame ih hH s hs u ho).2 t r' hr
      | add o =>
        simp only [body, Res.ok.injEq] at hr
        rw [add_in (hs o ho), Prod.mk.injEq] at hr
        obtain ⟨rfl, _⟩ := hr
        exact ⟨rfl, rfl, hs⟩
      | remove o =>
        simp only [body, Res.ok.injEq] at hr
        obtain ⟨_, h2, h3, h4⟩ := remove_keeps s o
        rw [hr] at h2 h3 h4
        exact ⟨h2, h3, fun p hp => h4 p (hs p hp) (fun he => ho (he ▸ hp))⟩
      | clear => exact ho.elim

/-- **C92 as far as it holds**: let `K` be objects that are registered (another registration would be refused).  If
the functions only make updates without overflow, registrations of objects of `K` and removals of others, no call is
undefined.

Missing: functions that register an object or clear.  `C92_defined_only_if` shows that no call in which that happens
is ever completed with defined behaviour; `C92_register_refuted` and `C92_clear_refuted` give examples. -/
theorem C92_callbacks_partial {H : Handlers U} {T : IntTy} {s : St U} {K : List Nat}
    (hK : ∀ o ∈ K, ∃ t, exec H T 1 s (.add o) = .ok (t, .err .alreadyContains)) (hH : H.Only (Mild T K)) (n : Nat)
    (op : Op) (ho : op.Safe T) : exec H T n s op ≠ .ub := by
  have hs : ∀ o ∈ K, o ∈ s.vec := by
    intro o hk
    obtain ⟨t, ht⟩ := hK o hk
    apply Classical.byContradiction
    intro hno
    simp only [exec, execStep, body, add_new hno, Res.ok_bind, Res.ok.injEq, Prod.mk.injEq] at ht
    cases ht.2
  cases n with
  | zero => simp [exec]
  | succ n =>
    have hb := body_safe (exec_tame hH n) hH s hs op ho
    simp only [exec, execStep]
    cases hr : body (exec H T n) H T s op with
    | ub => exact absurd hr hb
    | hang => simp
    | ok q => simp

/-- The condition of `C92_callbacks_partial` on registrations and `clear_observers` is necessary: in every history
that was completed with defined behaviour, no function registered a new object and none cleared. -/
theorem C92_defined_only_if {H : Handlers U} {T : IntTy} {s : St U} (h : Reach H T s) (pre post : List Ev) (op : Op)
    (r : Ret) (hl : s.log = pre ++ .ret op r :: post) (hd : 0 < depth pre) :
    op ≠ .clear ∧ ∀ o, op = .add o → r = .err .alreadyContains := by
  have hq := h.inv.2.1 pre _ post hl hd
  refine ⟨fun hc => ?_, fun o hc => ?_⟩
  · subst hc
    exact hq trivial
  · subst hc
    exact Classical.byContradiction hq

/-! ### C93 -/

/-- **C93 as far as it holds**: an update that is completed, in a history without removals, has told each registered
object exactly once, in the order of registration, the value that it returns, whatever else the functions did.

Missing: histories with removals; see `C93_leaver_refuted`. -/
theorem C93_once_partial {H : Handlers U} {T : IntTy} {s s' : St U} (h : Reach H T s) {n : Nat} {u : Upd} {r : Ret}
    (hr : exec H T n s (.upd u) = .ok (s', r)) (hno : ∀ e ∈ s'.log, ¬ e.Removal) :
    regs s'.log = regs s.log ∧ ∃ v new, r = .val v ∧ s'.log = s.log ++ new ∧
      top 0 new = (regs s.log).map fun o => .told o v := by
  cases n with
  | zero => cases hr
  | succ n =>
    simp only [exec, execStep, body] at hr
    cases hb : update (exec H T n) H T s u with
    | ub => rw [hb] at hr; cases hr
    | hang => rw [hb] at hr; cases hr
    | ok q =>
      obtain ⟨t, r'⟩ := q
      rw [hb, Res.ok_bind, Res.ok.injEq, Prod.mk.injEq] at hr
      obtain ⟨rfl, rfl⟩ := hr
      obtain ⟨v, hv, h2, h3, new, d1, d2, d3, d4, d5⟩ := update_ran (exec_ran H T n) hb
      have hlog : (t.emit (.ret (.upd u) r')).log = s.log ++ (new ++ [.ret (.upd u) r']) := by
        show t.log ++ _ = _
        rw [d1, List.append_assoc]
      rw [hlog] at hno ⊢
      have hno1 : NoRem s.log := fun e he => hno e (List.mem_append_left _ he)
      have hno2 : NoRem new := fun e he => hno e (List.mem_append_right _ (List.mem_append_left _ he))
      have hreg := h.inv.2.2 hno1
      obtain ⟨e1, e2, e3⟩ := d4 hno2
      refine ⟨?_, v, _, hv, rfl, ?_⟩
      · rw [regs, List.foldl_append, List.foldl_append]
        show new.foldl regEv (regs s.log) = _
        rw [← hreg, ← e2, e1]
      · rw [e3, hreg]
        simp [top]

/-! ### Concrete objects -/

/-- Functions that make one call, chosen by object. -/
def oneCall (f : Nat → Option Op) : Handlers Unit :=
  ⟨fun _ o _ => match f o with
    | some op => .call op (fun _ _ => .ret ())
    | none => .ret (), fun _ _ => .ret ()⟩

/-- An observable with objects 1, 2, 3. -/
def three : St Unit := ⟨0, [1, 2, 3], 3, fun _ => 0, (),
  [.ret (.add 1) (.err .ok), .ret (.add 2) (.err .ok), .ret (.add 3) (.err .ok)]⟩

theorem three_reach (H : Handlers Unit) : Reach H .int three :=
  .call ⟨0, [1, 2], 2, fun _ => 0, (), [.ret (.add 1) (.err .ok), .ret (.add 2) (.err .ok)]⟩ _ 1 (.add 3) (.err .ok)
    (.call ⟨0, [1], 1, fun _ => 0, (), [.ret (.add 1) (.err .ok)]⟩ _ 1 (.add 2) (.err .ok)
      (.call _ _ 1 (.add 1) (.err .ok) (.new ()) rfl) rfl) rfl

/-- Object 1 registers itself again, object 2 removes a stranger. -/
def polite : Handlers Unit := oneCall fun o => if o = 1 then some (.add 1) else if o = 2 then some (.remove 9) else none

theorem polite_only : polite.Only (Mild .int [1, 3]) := by
  refine ⟨fun _ o _ => ?_, fun _ _ => trivial⟩
  simp only [polite, oneCall]
  by_cases h1 : o = 1
  · simp only [if_pos h1]
    exact ⟨by simp [Mild], fun _ _ => trivial⟩
  · by_cases h2 : o = 2
    · simp only [if_neg h1, if_pos h2]
      exact ⟨by simp [Mild], fun _ _ => trivial⟩
    · simp only [if_neg h1, if_neg h2]
      trivial

theorem three_holds (H : Handlers Unit) :
    ∀ o ∈ [1, 3], ∃ t, exec H .int 1 three (.add o) = .ok (t, .err .alreadyContains) := by
  intro o ho
  rcases List.mem_cons.1 ho with rfl | ho
  · exact ⟨_, rfl⟩
  · rw [List.mem_singleton.1 ho]
    exact ⟨_, rfl⟩

example : exec polite .int 5 three (.upd (.assign 7)) ≠ .ub :=
  C92_callbacks_partial (three_holds _) polite_only 5 _ trivial

/-- A completed history in which functions made calls. -/
example : ∃ s r, exec polite .int 5 three (.upd (.assign 7)) = .ok (s, r) ∧ Reach polite .int s ∧ ∃ pre post,
    s.log = pre ++ .ret (.add 1) (.err .alreadyContains) :: post ∧ 0 < depth pre :=
  ⟨_, _, rfl, .call three _ 5 (.upd (.assign 7)) _ (three_reach _) rfl,
    [.ret (.add 1) (.err .ok), .ret (.add 2) (.err .ok), .ret (.add 3) (.err .ok), .told 1 7], _, rfl, by decide⟩

/-- **C92 is false**: a function that registers another object makes the update undefined. -/
theorem C92_register_refuted (n : Nat) :
    exec (oneCall fun o => if o = 2 then some (.add 4) else none) .int (n + 2) three (.upd (.assign 7)) = .ub := rfl

/-- **C92 is false**: so does a function that calls `clear_observers`. -/
theorem C92_clear_refuted (n : Nat) :
    exec (oneCall fun o => if o = 2 then some .clear else none) .int (n + 2) three (.upd (.assign 7)) = .ub := rfl

/-- Object 3 adds 1 to the value until it is 9. -/
def counter : Handlers Unit :=
  ⟨fun _ o v => if o = 3 ∧ v < 9 then .call (.upd (.addEq 1)) (fun _ _ => .ret ()) else .ret (), fun _ _ => .ret ()⟩

/-- Removals can be recognised. -/
instance : DecidablePred Ev.Removal
  | .ret (.remove _) _ => isTrue trivial
  | .ret (.add _) _ => isFalse id
  | .ret (.upd _) _ => isFalse id
  | .ret .clear _ => isFalse id
  | .told _ _ => isFalse id
  | .disc _ => isFalse id
  | .leave _ => isFalse id

/-- A nested update: the outer one still tells each object once. -/
example : ∃ s' new, exec counter .int 5 three (.upd (.assign 8)) = .ok (s', .val 8) ∧ s'.value = 9 ∧
    s'.log = three.log ++ new ∧ top 0 new = [.told 1 8, .told 2 8, .told 3 8] ∧ (∀ e ∈ s'.log, ¬ e.Removal) := by
  refine ⟨_, _, rfl, rfl, rfl, rfl, ?_⟩
  decide

/-- **C93 is false**: object 1 removes itself when it is told; then object 2 is not told at all and object 3 is told
twice, and no call is undefined. -/
theorem C93_leaver_refuted : ∃ s' new,
    exec (oneCall fun o => if o = 1 then some (.remove 1) else none) .int 3 three (.upd (.assign 7)) =
      .ok (s', .val 7) ∧ s'.log = three.log ++ new ∧ top 0 new = [.told 1 7, .told 3 7, .told 3 7] ∧
      s'.held 2 = 0 ∧ s'.value = 7 := ⟨_, _, rfl, rfl, rfl, rfl, rfl⟩

/-! ### C86 for the vector -/

/-- Every object of the vector holds the value. -/
def InStep (s : St U) : Prop := ∀ o ∈ s.vec, s.held o = s.value

theorem runProg_none (ex : Ex U) (p : Prog U) (hp : p.Only fun _ => False) (s : St U) :
    ∃ u, runProg ex p s = .ok { s with user := u } := by
  induction p generalizing s with
  | ret u => exact ⟨u, rfl⟩
  | set u k ih => exact ih hp { s with user := u }
  | call op k => exact hp.1.elim

theorem runProg_inStep {ex : Ex U} {l : List Nat}
    (hex : ∀ s op s' r, s.vec = l → op.Tracks → ex s op = .ok (s', r) → s'.vec = l ∧ InStep s') (p : Prog U)
    (hp : p.Only Op.Tracks) (s s' : St U) (h1 : s.vec = l) (h2 : InStep s) (h : runProg ex p s = .ok s') :
    s'.vec = l ∧ InStep s' := by
  induction p generalizing s with
  | ret u =>
    simp only [runProg, Res.ok.injEq] at h
    subst h
    exact ⟨h1, h2⟩
  | set u k ih => exact ih hp { s with user := u } h1 h2 h
  | call op k ih =>
    simp only [runProg] at h
    cases hr : ex s op with
    | ub => rw [hr] at h; cases h
    | hang => rw [hr] at h; cases h
    | ok q =>
      obtain ⟨t, e⟩ := q
      rw [hr, Res.ok_bind] at h
      obtain ⟨a, b⟩ := hex s op t e h1 hp.1 hr
      exact ih e t.user (hp.2 e t.user) t a b h

/-- The loop of an update when only the last object's function makes calls. -/
theorem loop_inStep {ex : Ex U} {H : Handlers U} {rs : List Nat} {last : Nat}
    (hex : ∀ s op s' r, s.vec = rs ++ [last] → op.Tracks → ex s op = .ok (s', r) → s'.vec = rs ++ [last] ∧ InStep s')
    (hq : ∀ o ∈ rs, ∀ u v, (H.update u o v).Only fun _ => False)
    (hlast : ∀ u v, (H.update u last v).Only Op.Tracks) (v : Int) (g left i : Nat) (s s' : St U)
    (hl : i + left = rs.length + 1) (hi : i ≤ rs.length) (h1 : s.vec = rs ++ [last]) (h2 : s.value = v)
    (h3 : ∀ o ∈ rs.take i, s.held o = v) (h : loop (tell ex H v) g i left s = .ok s') :
    s'.vec = rs ++ [last] ∧ InStep s' := by
  induction left generalizing i s with
  | zero => omega
  | succ left ih =>
    simp only [loop] at h
    by_cases hg : s.gen = g
    · rw [if_pos hg] at h
      by_cases hi' : i < rs.length
      · have hget : s.vec[i]? = some rs[i] := by
          rw [h1, List.getElem?_append_left hi', List.getElem?_eq_getElem hi']
        simp only [deref, hget, Res.ok_bind, tell] at h
        obtain ⟨u, hu⟩ := runProg_none ex (H.update s.user rs[i] v) (hq _ (List.getElem_mem hi') _ _)
          ({ s with held := fun p => if p = rs[i] then v else s.held p }.emit (.told rs[i] v))
        rw [hu] at h
        simp only [Res.ok_bind] at h
        have h3' : ∀ o ∈ rs.take (i + 1), (if o = rs[i] then v else s.held o) = v := ?_
        · exact ih (i + 1) ⟨s.value, s.vec, s.gen, fun p => if p = rs[i] then v else s.held p, u,
            s.log ++ [Ev.told rs[i] v] ++ [Ev.leave rs[i]]⟩ (by omega) hi' h1 h2 h3' h
        intro o ho
        by_cases ho' : o = rs[i]
        · rw [if_pos ho']
        · rw [if_neg ho']
          rw [List.take_succ_eq_append_getElem hi'] at ho
          rcases List.mem_append.1 ho with ho | ho
          · exact h3 o ho
          · exact absurd (List.mem_singleton.1 ho) ho'
      · have hie : i = rs.length := by omega
        have hget : s.vec[i]? = some last := by
          rw [h1, hie, List.getElem?_append_right (Nat.le_refl _)]
          simp
        simp only [deref, hget, Res.ok_bind, tell] at h
        have hz : left = 0 := by omega
        subst hz
        cases hr : runProg ex (H.update s.user last v)
            ({ s with held := fun p => if p = last then v else s.held p }.emit (.told last v)) with
        | ub => rw [hr] at h; cases h
        | hang => rw [hr] at h; cases h
        | ok t =>
          obtain ⟨a, b⟩ := runProg_inStep hex _ (hlast _ _)
            ({ s with held := fun p => if p = last then v else s.held p }.emit (.told last v)) t h1 (by
            intro o ho
            show (if o = last then v else s.held o) = s.value
            by_cases ho' : o = last
            · rw [if_pos ho', h2]
            · rw [if_neg ho', h2]
              have ho2 : o ∈ rs ++ [last] := h1 ▸ ho
              rcases List.mem_append.1 ho2 with ho2 | ho2
              · exact h3 o (by rw [hie, List.take_length]; exact ho2)
              · exact absurd (List.mem_singleton.1 ho2) ho') hr
          rw [hr] at h
          simp only [Res.ok_bind, loop] at h
          by_cases hg2 : (t.emit (.leave last)).gen = g
          · rw [if_pos hg2, Res.ok.injEq] at h
            subst h
            exact ⟨a, b⟩
          · rw [if_neg hg2] at h
            cases h
    · rw [if_neg hg] at h
      cases h

theorem exec_inStep {T : IntTy} (hT : T.Valid) {H : Handlers U} {rs : List Nat} {last : Nat}
    (hq : ∀ o ∈ rs, ∀ u v, (H.update u o v).Only fun _ => False)
    (hlast : ∀ u v, (H.update u last v).Only Op.Tracks) (n : Nat) :
    ∀ s op s' r, s.vec = rs ++ [last] → op.Tracks → exec H T n s op = .ok (s', r) →
      s'.vec = rs ++ [last] ∧ InStep s' := by
  induction n with
  | zero => intro s op s' r _ _ h; cases h
  | succ n ih =>
    intro s op s' r h1 ho h
    cases op with
    | add o => exact ho.elim
    | remove o => exact ho.elim
    | clear => exact ho.elim
    | upd u =>
      simp only [exec, execStep, body, update] at h
      cases hv : result T s.value u with
      | ub => rw [hv] at h; cases h
      | hang => rw [hv] at h; cases h
      | ok v =>
        rw [hv, Res.ok_bind] at h
        cases hr : loop (tell (exec H T n) H v) s.gen 0 s.vec.length { s with value := stored T s.value u } with
        | ub => rw [hr] at h; cases h
        | hang => rw [hr] at h; cases h
        | ok t =>
          rw [hr] at h
          simp only [Res.ok_bind, Res.ok.injEq, Prod.mk.injEq] at h
          obtain ⟨rfl, _⟩ := h
          exact loop_inStep ih hq hlast v s.gen s.vec.length 0 { s with value := stored T s.value u } t
            (by rw [h1]; simp) (Nat.zero_le _) h1 (result_stored hT ho hv) (by simp) hr

/-- **C86 for the vector, when only the object registered last updates back**: as `C86_in_step_partial`, for
histories without removals.

Missing: as there, the claim for functions of other objects and that the update returns
(`C86_vector_endless_refuted`). -/
theorem C86_vector_in_step_partial {T : IntTy} (hT : T.Valid) {H : Handlers U} {s : St U} (h : Reach H T s)
    (hno : ∀ e ∈ s.log, ¬ e.Removal) {rs : List Nat} {last : Nat} (hrs : regs s.log = rs ++ [last])
    (hq : ∀ o ∈ rs, ∀ u v, (H.update u o v).Only fun _ => False)
    (hlast : ∀ u v, (H.update u last v).Only fun op => (∃ v, op = .upd (.assign v)) ∨ (∃ n, op = .upd (.addEq n)) ∨
      (∃ n, op = .upd (.subEq n)) ∨ op = .upd .preInc)
    {u : Upd} (hu : (∃ v, u = .assign v) ∨ (∃ n, u = .addEq n) ∨ (∃ n, u = .subEq n) ∨ u = .preInc)
    {n : Nat} {s' : St U} {r : Ret} (hr : exec H T n s (.upd u) = .ok (s', r)) :
    ∀ o ∈ regs s.log, s'.held o = s'.value := by
  have hmono : ∀ p : Prog U, (p.Only fun op => (∃ v, op = .upd (.assign v)) ∨ (∃ n, op = .upd (.addEq n)) ∨
      (∃ n, op = .upd (.subEq n)) ∨ op = .upd .preInc) → p.Only Op.Tracks := by
    intro p
    induction p with
    | ret u => exact fun _ => trivial
    | set u k ih => exact ih
    | call op k ih =>
      intro hp
      refine ⟨?_, fun r u => ih r u (hp.2 r u)⟩
      rcases hp.1 with ⟨v, h⟩ | ⟨v, h⟩ | ⟨v, h⟩ | h <;> subst h <;> trivial
  have hu' : (Op.upd u).Tracks := by
    rcases hu with ⟨v, h⟩ | ⟨v, h⟩ | ⟨v, h⟩ | h <;> subst h <;> trivial
  obtain ⟨a, b⟩ := exec_inStep hT hq (fun u v => hmono _ (hlast u v)) n s _ s' r ((h.inv.2.2 hno).trans hrs) hu' hr
  intro o ho
  exact b o (by rw [a, ← hrs]; exact ho)

/-- Object 3, registered last, counts up to 9: all objects hold 9 at the end. -/
example : (∃ s' r, exec counter .int 5 three (.upd (.assign 8)) = .ok (s', r) ∧ s'.value = 9 ∧ s'.held 1 = 9) ∧
    ∀ s' r, exec counter .int 5 three (.upd (.assign 8)) = .ok (s', r) → ∀ o ∈ [1, 2, 3], s'.held o = s'.value :=
  ⟨⟨_, _, rfl, rfl, rfl⟩, fun s' r hr => C86_vector_in_step_partial (T := .int) (by simp [IntTy.Valid, IntTy.int])
    (three_reach counter) (by decide) (rs := [1, 2]) (last := 3) rfl
    (by
      intro o ho u v
      have : o ≠ 3 := by rintro rfl; exact absurd ho (by decide)
      simp only [counter]
      rw [if_neg (fun h => this h.1)]
      trivial)
    (by
      intro u v
      simp only [counter, true_and]
      by_cases hv : v < 9
      · rw [if_pos hv]
        exact ⟨Or.inr (Or.inl ⟨1, rfl⟩), fun _ _ => trivial⟩
      · rw [if_neg hv]
        trivial)
    (Or.inl ⟨8, rfl⟩) hr⟩

/-- **C86 is false for the vector**: if object 1 assigns what it is told back, no update ever returns, though the
documentation of `notify_observers` (observable.hpp:464-471) promises an error on recursion. -/
theorem C86_vector_endless_refuted (v : Int) (n : Nat) :
    exec echo .int n three (.upd (.assign v)) = .hang := by
  have key : ∀ n, ∀ s : St Unit, s.vec = [1, 2, 3] → exec echo .int n s (.upd (.assign v)) = .hang := by
    intro n
    induction n with
    | zero => intro s _; rfl
    | succ n ih =>
      intro s hs
      have h1 : tell (exec echo .int n) echo v 1 { s with value := v } = .hang := by
        have := ih ({ s with value := v, held := fun p => if p = 1 then v else s.held p }.emit (.told 1 v)) hs
        simp only [tell, echo, if_true, runProg]
        simp only [echo] at this
        rw [this]
        rfl
      simp only [exec, execStep, body, update, result, stored, Res.ok_bind, hs, List.length_cons, List.length_nil,
        loop, if_true, deref, List.getElem?_cons_zero]
      rw [hs] at h1
      rw [h1]
      rfl
  exact key n three rfl

/-! ### Agreement with the model without calls back -/

/-- The deliveries of a log. -/
def plainLog : List Ev → List (Nat × Int)
  | [] => []
  | .told o v :: es => (o, v) :: plainLog es
  | _ :: es => plainLog es

theorem plainLog_append (a b : List Ev) : plainLog (a ++ b) = plainLog a ++ plainLog b := by
  induction a with
  | nil => rfl
  | cons e a ih => cases e <;> simp [plainLog, ih]

/-- The state of the model of C43 to C46; every object has a function. -/
def plain (s : St U) : Values.St := ⟨s.value, .dyn s.vec, s.held, fun _ => true, plainLog s.log⟩

theorem loop_plain (ex : Ex U) {H : Handlers U} (hH : H.Only fun _ => False) (v : Int) (left i : Nat) (s : St U)
    (hl : i + left = s.vec.length) : ∃ t, loop (tell ex H v) s.gen i left s = .ok t ∧
      plain t = Values.notifyVec v (s.vec.drop i) (plain s) := by
  induction left generalizing i s with
  | zero =>
    refine ⟨s, by simp [loop], ?_⟩
    rw [List.drop_eq_nil_of_le (by omega)]
    rfl
  | succ left ih =>
    have hi : i < s.vec.length := by omega
    obtain ⟨u, hu⟩ := runProg_none ex (H.update s.user s.vec[i] v) (hH.1 _ _ _)
      ({ s with held := fun p => if p = s.vec[i] then v else s.held p }.emit (.told s.vec[i] v))
    obtain ⟨t, h1, h2⟩ := ih (i + 1) (({ ({ s with held := fun p => if p = s.vec[i] then v else s.held p }.emit
      (.told s.vec[i] v)) with user := u } : St U).emit (.leave s.vec[i])) (by show i + 1 + left = s.vec.length; omega)
    refine ⟨t, ?_, ?_⟩
    · simp only [loop, if_true, deref, List.getElem?_eq_getElem hi, Res.ok_bind, tell, hu]
      exact h1
    · rw [h2, List.drop_eq_getElem_cons hi, Values.notifyVec]
      simp [plain, St.emit, Values.deliver, plainLog_append, plainLog]

theorem loop_disc (ex : Ex U) {H : Handlers U} (hH : H.Only fun _ => False) (left i : Nat) (s : St U)
    (hl : i + left = s.vec.length) : ∃ t, loop (disconnect ex H) s.gen i left s = .ok t ∧ plain t = plain s := by
  induction left generalizing i s with
  | zero => exact ⟨s, by simp [loop], rfl⟩
  | succ left ih =>
    have hi : i < s.vec.length := by omega
    obtain ⟨u, hu⟩ := runProg_none ex (H.disconnect s.user s.vec[i]) (hH.2 _ _) (s.emit (.disc s.vec[i]))
    obtain ⟨t, h1, h2⟩ := ih (i + 1) (({ (s.emit (.disc s.vec[i])) with user := u } : St U).emit (.leave s.vec[i]))
      (by show i + 1 + left = s.vec.length; omega)
    refine ⟨t, ?_, ?_⟩
    · simp only [loop, if_true, deref, List.getElem?_eq_getElem hi, Res.ok_bind, disconnect, hu]
      exact h1
    · rw [h2]
      simp [plain, St.emit, plainLog_append, plainLog]

theorem plain_ret (s : St U) (op : Op) (r : Ret) : plain (s.emit (.ret op r)) = plain s := by
  simp [plain, St.emit, plainLog_append, plainLog]

/-- If no function makes calls, this model and the model of `Values/Model.lean` agree. -/
theorem agrees {H : Handlers U} (hH : H.Only fun _ => False) (T : IntTy) (s : St U) (op : Op) (n : Nat) :
    (do let p ← exec H T (n + 1) s op; Res.ok (plain p.1, p.2)) = Values.exec T (plain s) op.plain := by
  have hV : ∀ (w v : Int), ∃ t, loop (tell (exec H T n) H v) s.gen 0 s.vec.length { s with value := w } = .ok t ∧
      Values.notify { plain s with value := w } v = .ok (plain t) := by
    intro w v
    obtain ⟨t, h1, h2⟩ := loop_plain (exec H T n) hH v s.vec.length 0 { s with value := w } (by simp)
    exact ⟨t, h1, by rw [h2]; rfl⟩
  have hE : ∀ (u : Upd) (k : Res (Values.St × Int)), (k = do
      let v ← result T s.value u
      let t ← Values.notify { plain s with value := stored T s.value u } v
      Res.ok (t, v)) →
      (do let p ← exec H T (n + 1) s (.upd u); Res.ok (plain p.1, p.2)) = valOf k := by
    intro u k hk
    simp only [exec, execStep, body, update, hk]
    cases result T s.value u with
    | ub => rfl
    | hang => rfl
    | ok v =>
      obtain ⟨t, h1, h2⟩ := hV (stored T s.value u) v
      simp only [Res.ok_bind, h1, h2, plain_ret, valOf]
  have hb : ∀ (r : Res Int) (f : Int → Int) (w : Int), (do
      let x ← r
      let t ← Values.notify { plain s with value := w } (f x)
      Res.ok (t, f x)) = (do
      let v ← (do let x ← r; Res.ok (f x))
      let t ← Values.notify { plain s with value := w } v
      Res.ok (t, v)) := by
    intro r f w
    cases r <;> rfl
  cases op with
  | upd u =>
    cases u with
    | assign v => exact hE _ _ rfl
    | addEq k => exact hE (.addEq k) _ (hb _ _ _)
    | subEq k => exact hE (.subEq k) _ (hb _ _ _)
    | preInc => exact hE .preInc _ (hb _ _ _)
    | preDec => exact hE .preDec _ (hb _ _ _)
    | postInc => exact hE _ _ rfl
    | postDec => exact hE _ _ rfl
  | add o =>
    by_cases ho : o ∈ s.vec
    · have h2 : Values.add (plain s) o = .ok (plain s, .alreadyContains) := by
        simp only [Values.add, plain, (containsVec_iff o s.vec).2 ho]
        rfl
      simp only [exec, execStep, body, add_in ho, Op.plain, Values.exec, h2, Res.ok_bind, plain_ret, errOf]
    · have hc : containsVec o s.vec = false := by
        cases hs : containsVec o s.vec
        · rfl
        · exact absurd ((containsVec_iff o s.vec).1 hs) ho
      have h2 : Values.add (plain s) o = .ok (plain { s with vec := s.vec ++ [o], gen := s.gen + 1 }, .ok) := by
        simp only [Values.add, plain, hc]
        rfl
      simp only [exec, execStep, body, add_new ho, Op.plain, Values.exec, h2, Res.ok_bind, plain_ret, errOf]
  | remove o =>
    have h2 : errOf (Values.remove (plain s) o) = .ok (plain (remove s o).1, (remove s o).2) := by
      by_cases h : s.vec = []
      · rw [remove, if_pos h]
        simp [Values.remove, plain, h, errOf]
      · rw [remove, if_neg h]
        by_cases h3 : (stdRemove o s.vec).2 ≠ s.vec.length
        · simp [Values.remove, plain, h, h3, errOf]
        · simp only [ne_eq, Decidable.not_not] at h3
          simp [Values.remove, plain, h, h3, errOf]
    simp only [exec, execStep, body, Op.plain, Values.exec, h2, Res.ok_bind, plain_ret]
  | clear =>
    obtain ⟨t, h1, h2⟩ := loop_disc (exec H T n) hH s.vec.length 0 s (by simp)
    simp only [exec, execStep, body, clear, h1, Res.ok_bind, plain_ret, Op.plain, Values.exec, Values.clear]
    have : plain { t with vec := [], gen := t.gen + 1 } = { plain t with reg := .dyn [] } := rfl
    rw [this, h2]
    rfl

end Verif.Values.Re.Vec
