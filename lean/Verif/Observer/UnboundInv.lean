import Verif.Observer.Unbound
/-! Invariants of `Unbound.lean`: what holds for every client, and what holds for clients that keep to the rule `careful`. -/
namespace Verif.Observer.World.Unb
open Verif Verif.Observer

variable {V U : Type}

theorem view_snoc (l : List (Ev V)) (e : Ev V) : view (l ++ [e]) = (view l).see e := by
  simp [view, List.foldl_append]

@[simp] theorem view_emit (s : St V U) (e : Ev V) : view (s.emit e).log = (view s.log).see e :=
  view_snoc _ _

theorem scan_iff (o : Nat) (l : List Nat) : Dyn.scan o l = true ↔ o ∈ l := by
  induction l with
  | nil => simp [Dyn.scan]
  | cons p l ih =>
    unfold Dyn.scan
    by_cases h : p = o
    · simp [h]
    · rw [if_neg h, ih]
      simp [Ne.symm h]

theorem erase_eq (o : Nat) (l : List Nat) : Dyn.erase o l = l.filter (· != o) := by
  induction l with
  | nil => rfl
  | cons p l ih =>
    unfold Dyn.erase
    by_cases h : p = o
    · simp [h, ih]
    · simp [h, ih]

theorem erase_none {o : Nat} {l : List Nat} : l.length - (Dyn.erase o l).length = 0 ↔ o ∉ l := by
  rw [erase_eq]
  have hle := List.length_filter_le (· != o) l
  constructor
  · intro h ho
    have := List.length_filter_lt_length_iff_exists (p := (· != o)) (l := l) |>.2 ⟨o, ho, by simp⟩
    omega
  · intro h
    rw [List.filter_eq_self.2 fun x hx => by simpa using fun e : x = o => h (e ▸ hx)]
    omega

/-! ### Every client -/

/-- What the operation does to `a`, when it returns `e`, invalidates iterators of `a`. -/
def Changes (a : Nat) : Op V → Err → Prop
  | .make b, _ | .copy b _, _ | .assign b _, _ | .destroy b, _ | .clear b, _ => b = a
  | .add b _, .ok | .remove b _, .ok => b = a
  | _, _ => False

/-- In this part of the log `a` is changed. -/
def Touched (a : Nat) (new : List (Ev V)) : Prop := ∃ op e, .ret op e ∈ new ∧ Changes a op e

/-- What the operation reports, given who is registered. -/
def Right (v : View) : Op V → Err → Prop
  | .add a o, e => e = if o ∈ v.reg a then .alreadyContains else .ok
  | .remove a o, e => e = if o ∈ v.reg a then .ok else .notFound
  | _, e => e = .ok

/-- The callbacks that the operation makes, and for which observable. -/
def calls : Op V → Option (Nat × (Nat → Ev V))
  | .notify a v => some (a, fun o => .data a o v)
  | .clear a | .destroy a => some (a, fun o => .disc a o)
  | _ => none

/-- How logs are made.  After the events `pre` the events `new` are: with `none`, a sequence of complete operations; with `some
(ev, l)`, calls of those in `l`, once each, in order, where what a callback does is between its start and its end.
An operation that calls observers calls those who were registered when it began, and meanwhile the observable is not changed. -/
inductive Tree : List (Ev V) → Option ((Nat → Ev V) × List Nat) → List (Ev V) → Prop
  | done (pre : List (Ev V)) : Tree pre none []
  | quick (pre rest : List (Ev V)) (op : Op V) (e : Err) : calls op = none → Right (view pre) op e →
      Tree (pre ++ [.began op, .ret op e]) none rest → Tree pre none (.began op :: .ret op e :: rest)
  | round (pre inner rest : List (Ev V)) (op : Op V) (a : Nat) (ev : Nat → Ev V) : calls op = some (a, ev) →
      Tree (pre ++ [.began op]) (some (ev, (view pre).reg a)) inner → ¬ Touched a inner →
      Tree (pre ++ (.began op :: inner ++ [.ret op .ok])) none rest →
      Tree pre none (.began op :: inner ++ .ret op .ok :: rest)
  | stop (pre : List (Ev V)) (ev : Nat → Ev V) : Tree pre (some (ev, [])) []
  | call (pre inner rest : List (Ev V)) (ev : Nat → Ev V) (o : Nat) (l : List Nat) :
      Tree (pre ++ [ev o]) none inner → Tree (pre ++ (ev o :: inner ++ [.leave o])) (some (ev, l)) rest →
      Tree pre (some (ev, o :: l)) (ev o :: inner ++ .leave o :: rest)

theorem Tree.append {pre new : List (Ev V)} {w : Option ((Nat → Ev V) × List Nat)} (h : Tree pre w new) :
    w = none → ∀ k, Tree (pre ++ new) none k → Tree pre none (new ++ k) := by
  induction h with
  | done pre => intro _ k hk; simpa using hk
  | quick pre rest op e hc hr _ ih =>
    intro _ k hk
    exact .quick pre _ op e hc hr (ih rfl k (by simpa using hk))
  | round pre inner rest op a ev hc hi ht _ _ ih =>
    intro _ k hk
    have := Tree.round pre inner (rest ++ k) op a ev hc hi ht (ih rfl k (by simpa using hk))
    simpa using this
  | stop => intro h; cases h
  | call => intro h; cases h

/-- The vectors are what the log tells, and stamps are new. -/
structure Sound (s : St V U) : Prop where
  obs : ∀ a x, s.objs a = some x → x.obs = (view s.log).reg a
  stamp : ∀ a x, s.objs a = some x → x.stamp < s.fresh

/-- From `s` to `t`, with the events `new`: an object of `t` is either one of `s`, not touched in between, or its vector is new. -/
structure Grows (s t : St V U) (new : List (Ev V)) : Prop where
  log : t.log = s.log ++ new
  fresh : s.fresh ≤ t.fresh
  same : ∀ a y, t.objs a = some y → s.fresh ≤ y.stamp ∨
    (¬ Touched a new ∧ ∃ x, s.objs a = some x ∧ x.stamp = y.stamp ∧ x.obs = y.obs)

theorem touched_append {a : Nat} {l k : List (Ev V)} (h : Touched a (l ++ k)) : Touched a l ∨ Touched a k := by
  obtain ⟨op, e, hm, hc⟩ := h
  rcases List.mem_append.1 hm with hm | hm
  · exact .inl ⟨op, e, hm, hc⟩
  · exact .inr ⟨op, e, hm, hc⟩

theorem Grows.refl (s : St V U) : Grows s s [] where
  log := by simp
  fresh := Nat.le_refl _
  same a y h := .inr ⟨fun ⟨_, _, hm, _⟩ => by simp at hm, y, h, rfl, rfl⟩

theorem Grows.trans {s t u : St V U} {l k : List (Ev V)} (h : Grows s t l) (g : Grows t u k) : Grows s u (l ++ k) where
  log := by rw [g.log, h.log, List.append_assoc]
  fresh := Nat.le_trans h.fresh g.fresh
  same a z hz := by
    rcases g.same a z hz with h1 | ⟨h1, y, hy, h2, h3⟩
    · exact .inl (Nat.le_trans h.fresh h1)
    · rcases h.same a y hy with h4 | ⟨h4, x, hx, h5, h6⟩
      · exact .inl (by rw [← h2]; exact h4)
      · exact .inr ⟨fun ht => (touched_append ht).elim h4 h1, x, hx, h5.trans h2, h6.trans h3⟩

/-- An event without a meaning for the view. -/
theorem Grows.emit (s : St V U) (e : Ev V) (he : ∀ op r, e ≠ .ret op r) : Grows s (s.emit e) [e] where
  log := rfl
  fresh := Nat.le_refl _
  same _ y h := .inr ⟨fun ⟨op, r, hm, _⟩ => he op r (List.mem_singleton.1 hm).symm, y, h, rfl, rfl⟩

theorem Sound.emit {s : St V U} (h : Sound s) (e : Ev V) (he : ((view s.log).see e).reg = (view s.log).reg) : Sound (s.emit e) where
  obs a x hx := by rw [view_emit, he]; exact h.obs a x hx
  stamp := h.stamp

theorem Sound.new (u : U) : Sound (St.new u : St V U) :=
  ⟨fun a x h => by simp [St.new] at h, fun a x h => by simp [St.new] at h⟩

theorem Sound.user {s : St V U} (h : Sound s) (u : U) : Sound { s with user := u } := ⟨h.obs, h.stamp⟩

/-- What every operation does. -/
def ExAny (ex : Ex V U) : Prop :=
  ∀ s op r, Sound s → ex s op = .ok r → Sound r.1 ∧ ∃ new, Grows s r.1 new ∧ Tree s.log none new

theorem runProg_any {ex : Ex V U} (hex : ExAny ex) (p : Prog V U) : ∀ (s t : St V U), Sound s → runProg ex p s = .ok t →
    Sound t ∧ ∃ new, Grows s t new ∧ Tree s.log none new := by
  induction p with
  | ret u =>
    intro s t h ht
    cases ht
    exact ⟨h.user u, [], ⟨by simp, Nat.le_refl _, (Grows.refl s).same⟩, .done _⟩
  | set u k ih =>
    intro s t h ht
    obtain ⟨h1, new, h2, h3⟩ := ih _ _ (h.user u) ht
    exact ⟨h1, new, ⟨h2.log, h2.fresh, h2.same⟩, h3⟩
  | call op k ih =>
    intro s t h ht
    simp only [runProg] at ht
    cases hr : ex s op with
    | ok r =>
      rw [hr] at ht
      obtain ⟨h1, n1, h2, h3⟩ := hex s op r h hr
      obtain ⟨h4, n2, h5, h6⟩ := ih r.2 r.1.user r.1 t h1 ht
      exact ⟨h4, n1 ++ n2, h2.trans h5, h3.append rfl n2 (h2.log ▸ h6)⟩
    | ub => rw [hr] at ht; simp at ht
    | deep => rw [hr] at ht; simp at ht
    | foul => rw [hr] at ht; simp at ht

theorem valid_ok {s : St V U} {a g : Nat} {x : Obj} (h : valid s a g = .ok x) : s.objs a = some x ∧ x.stamp = g := by
  unfold valid St.get at h
  cases ha : s.objs a with
  | none => rw [ha] at h; simp at h
  | some y =>
    rw [ha] at h
    simp only [Out.ok_bind] at h
    split at h
    · cases h; exact ⟨rfl, by assumption⟩
    · cases h

theorem loop_any {ex : Ex V U} (hex : ExAny ex) {ev : Nat → Ev V} (p : U → Nat → Prog V U) {a g : Nat}
    (hret : ∀ o op r, ev o ≠ .ret op r) (hsee : ∀ (w : View) o, w.see (ev o) = w)
    (l : List Nat) : ∀ (left i : Nat) (s t : St V U) (x : Obj), Sound s → s.objs a = some x → x.stamp = g → x.obs = l →
      i + left = l.length → loop ex ev p a g i left s = .ok t →
      Sound t ∧ (∃ y, t.objs a = some y ∧ y.stamp = g ∧ y.obs = l) ∧
        ∃ new, Grows s t new ∧ Tree s.log (some (ev, l.drop i)) new ∧ ¬ Touched a new := by
  intro left
  induction left with
  | zero =>
    intro i s t x hs hx hg hl hi ht
    simp only [loop] at ht
    cases hv : valid s a g with
    | ok y =>
      rw [hv] at ht
      simp only [Out.ok_bind, Out.ok.injEq] at ht
      subst ht
      refine ⟨hs, ⟨x, hx, hg, hl⟩, [], Grows.refl s, ?_, fun ⟨_, _, hm, _⟩ => by simp at hm⟩
      rw [List.drop_of_length_le (by omega)]
      exact .stop _ _
    | ub => rw [hv] at ht; simp at ht
    | deep => rw [hv] at ht; simp at ht
    | foul => rw [hv] at ht; simp at ht
  | succ left ih =>
    intro i s t x hs hx hg hl hi ht
    have hil : i < l.length := by omega
    simp only [loop] at ht
    have hv : valid s a g = .ok x := by simp [valid, St.get, hx, hg]
    have hd : deref x i = .ok l[i] := by simp [deref, hl, hil]
    rw [hv] at ht
    simp only [Out.ok_bind, hd] at ht
    by_cases hal : l[i] ∈ s.alive
    · simp only [St.enter, if_pos hal, Out.ok_bind] at ht
      have hs1 : Sound (s.emit (ev l[i])) := hs.emit _ (by rw [hsee])
      cases hr : runProg ex (p (s.emit (ev l[i])).user l[i]) (s.emit (ev l[i])) with
      | ok u =>
        rw [hr] at ht
        simp only [Out.ok_bind] at ht
        obtain ⟨h1, n1, h2, h3⟩ := runProg_any hex _ _ _ hs1 hr
        have hs2 : Sound (u.emit (.leave l[i])) := h1.emit _ rfl
        have g2 : Grows s (u.emit (.leave l[i])) ([ev l[i]] ++ n1 ++ [.leave l[i]]) :=
          ((Grows.emit s (ev l[i]) (hret _)).trans h2).trans (Grows.emit u _ (by intros; simp))
        -- what is at `a` now has the old stamp
        have : ∃ y, (u.emit (.leave l[i])).objs a = some y ∧ y.stamp = g := by
          cases left with
          | zero =>
            simp only [loop] at ht
            cases hv : valid (u.emit (.leave l[i])) a g with
            | ok y => exact ⟨y, valid_ok hv⟩
            | ub => rw [hv] at ht; simp at ht
            | deep => rw [hv] at ht; simp at ht
            | foul => rw [hv] at ht; simp at ht
          | succ left =>
            simp only [loop] at ht
            cases hv : valid (u.emit (.leave l[i])) a g with
            | ok y => exact ⟨y, valid_ok hv⟩
            | ub => rw [hv] at ht; simp at ht
            | deep => rw [hv] at ht; simp at ht
            | foul => rw [hv] at ht; simp at ht
        obtain ⟨y, hy, hyg⟩ := this
        have hlt := hs.stamp a x hx
        rcases g2.same a y hy with h4 | ⟨h4, x', hx', h5, h6⟩
        · omega
        · have hxx : x' = x := Option.some.inj (hx'.symm.trans hx)
          subst hxx
          obtain ⟨h7, h8, n2, h9, h10, h11⟩ := ih (i + 1) _ t y hs2 hy hyg (h6.symm.trans hl) (by omega) ht
          refine ⟨h7, h8, [ev l[i]] ++ n1 ++ [.leave l[i]] ++ n2, g2.trans h9, ?_, fun hT => ?_⟩
          · rw [List.drop_eq_getElem_cons hil]
            have := Tree.call s.log n1 n2 ev l[i] (l.drop (i + 1)) h3 (by rw [g2.log] at h10; simpa using h10)
            simpa using this
          · exact (touched_append hT).elim h4 h11
      | ub => rw [hr] at ht; simp at ht
      | deep => rw [hr] at ht; simp at ht
      | foul => rw [hr] at ht; simp at ht
    · simp only [St.enter, if_neg hal, Out.ub_bind, reduceCtorEq] at ht

/-- An operation returns. -/
theorem Grows.ret {s t : St V U} {new : List (Ev V)} (h : Grows s t new) (op : Op V) (e : Err)
    (hc : ∀ a y, t.objs a = some y → Changes a op e → s.fresh ≤ y.stamp) :
    Grows s (t.emit (.ret op e)) (new ++ [.ret op e]) where
  log := by simp [St.emit, h.log]
  fresh := h.fresh
  same a y hy := by
    rcases h.same a y hy with h1 | ⟨h1, x, hx⟩
    · exact .inl h1
    · by_cases hch : Changes a op e
      · exact .inl (hc a y hy hch)
      · refine .inr ⟨fun hT => ?_, x, hx⟩
        rcases touched_append hT with hT | ⟨op', e', hm, hc'⟩
        · exact h1 hT
        · simp only [List.mem_singleton, Ev.ret.injEq] at hm
          obtain ⟨rfl, rfl⟩ := hm
          exact hch hc'

theorem began_reg (w : View) (op : Op V) : (w.see (.began op)).reg = w.reg := by cases op <;> rfl

/-- What `body` and `execStep` do, for one operation. -/
def Done (s : St V U) (op : Op V) (r : St V U × Err) : Prop :=
  Sound (r.1.emit (.ret op r.2)) ∧ ∃ new, Grows s (r.1.emit (.ret op r.2)) new ∧ Tree s.log none new

/-- An operation that does nothing to the vectors. -/
theorem done_same {s : St V U} (h : Sound s) {op : Op V} {e : Err} (hc : calls op = none)
    (hr : Right (view s.log) op e) (hn : ∀ a, ¬ Changes a op e) (hv : ((view s.log).ended op e).reg = (view s.log).reg)
    {t : St V U} (ht : t.objs = s.objs) (hf : t.fresh = s.fresh) (hl : t.log = s.log ++ [.began op])
    : Done s op (t, e) := by
  have hb : ((view s.log).see (.began op)) = view s.log := by cases op <;> first | rfl | simp [calls] at hc
  have hvt : view (t.emit (.ret op e)).log = (view s.log).ended op e := by
    rw [view_emit, hl, view_snoc, hb]; rfl
  refine ⟨⟨?_, ?_⟩, [.began op, .ret op e], ?_, .quick _ _ op e hc hr (.done _)⟩
  · intro a x hx
    rw [hvt, hv]
    exact h.obs a x (ht ▸ hx)
  · intro a x hx
    show x.stamp < t.fresh
    rw [hf]; exact h.stamp a x (ht ▸ hx)
  · have g : Grows s t [.began op] := ⟨hl, by rw [hf]; exact Nat.le_refl _,
      fun a y hy => .inr ⟨fun ⟨o, r, hm, _⟩ => by simp at hm, y, ht ▸ hy, rfl, rfl⟩⟩
    exact g.ret op e fun a y _ hch => absurd hch (hn a)

/-- An operation that gives `a` another vector. -/
theorem done_fill {s : St V U} (h : Sound s) {op : Op V} {e : Err} {a : Nat} {l : List Nat} {k : Bool}
    (hc : calls op = none) (hr : Right (view s.log) op e) (hn : ∀ b, Changes b op e → b = a)
    (hv : ((view s.log).ended op e).reg = upd (view s.log).reg a l) :
    Done s op ((s.emit (.began op)).fill a l k, e) := by
  have hb : ((view s.log).see (.began op)) = view s.log := by cases op <;> first | rfl | simp [calls] at hc
  have hvt : view (((s.emit (.began op)).fill a l k).emit (.ret op e)).log = (view s.log).ended op e := by
    rw [view_emit]
    show ((view (s.emit (.began op)).log).see _) = _
    rw [view_emit, hb]; rfl
  refine ⟨⟨?_, ?_⟩, [.began op, .ret op e], ?_, .quick _ _ op e hc hr (.done _)⟩
  · intro b x hx
    rw [hvt, hv]
    by_cases hba : b = a
    · subst hba
      simp only [St.emit, St.fill, upd_same, Option.some.injEq] at hx
      rw [upd_same, ← hx]
    · simp only [St.emit, St.fill, upd_other _ _ hba] at hx
      rw [upd_other _ _ hba]
      exact h.obs b x hx
  · intro b x hx
    show x.stamp < s.fresh + 1
    by_cases hba : b = a
    · subst hba
      simp only [St.emit, St.fill, upd_same, Option.some.injEq] at hx
      rw [← hx]; exact Nat.lt_succ_self _
    · simp only [St.emit, St.fill, upd_other _ _ hba] at hx
      exact Nat.lt_succ_of_lt (h.stamp b x hx)
  · have g : Grows s ((s.emit (.began op)).fill a l k) [.began op] := by
      refine ⟨rfl, Nat.le_succ _, fun b y hy => ?_⟩
      by_cases hba : b = a
      · subst hba
        simp only [St.emit, St.fill, upd_same, Option.some.injEq] at hy
        exact .inl (by rw [← hy]; exact Nat.le_refl _)
      · simp only [St.emit, St.fill, upd_other _ _ hba] at hy
        exact .inr ⟨fun ⟨o, r, hm, _⟩ => by simp at hm, y, hy, rfl, rfl⟩
    refine g.ret op e fun b y hy hch => ?_
    have := hn b hch
    subst this
    simp only [St.emit, St.fill, upd_same, Option.some.injEq] at hy
    rw [← hy]; exact Nat.le_refl _

theorem Sound.hold {s : St V U} (h : Sound s) {a : Nat} {x : Obj} (hx : s.objs a = some x) (b : Bool) : Sound (s.hold a x b) where
  obs c y hy := by
    by_cases hca : c = a
    · subst hca
      simp only [St.hold, upd_same, Option.some.injEq] at hy
      rw [← hy]; exact h.obs c x hx
    · simp only [St.hold, upd_other _ _ hca] at hy
      exact h.obs c y hy
  stamp c y hy := by
    by_cases hca : c = a
    · subst hca
      simp only [St.hold, upd_same, Option.some.injEq] at hy
      rw [← hy]; exact h.stamp c x hx
    · simp only [St.hold, upd_other _ _ hca] at hy
      exact h.stamp c y hy

theorem Grows.hold (s : St V U) {a : Nat} {x : Obj} (hx : s.objs a = some x) (b : Bool) : Grows s (s.hold a x b) [] where
  log := by simp [St.hold]
  fresh := Nat.le_refl _
  same c y hy := by
    refine .inr ⟨fun ⟨_, _, hm, _⟩ => by simp at hm, ?_⟩
    by_cases hca : c = a
    · subst hca
      simp only [St.hold, upd_same, Option.some.injEq] at hy
      exact ⟨x, hx, by rw [← hy], by rw [← hy]⟩
    · simp only [St.hold, upd_other _ _ hca] at hy
      exact ⟨y, hy, rfl, rfl⟩

theorem get_ok {s : St V U} {a : Nat} {x : Obj} (h : s.get a = .ok x) : s.objs a = some x := by
  unfold St.get at h
  cases ha : s.objs a with
  | none => rw [ha] at h; cases h
  | some y => rw [ha] at h; cases h; rfl

theorem Out.bind_eq_ok {α β : Type} {x : Out α} {f : α → Out β} {b : β} (h : (x >>= f) = .ok b) : ∃ a, x = .ok a ∧ f a = .ok b := by
  cases x with
  | ok a => exact ⟨a, rfl, h⟩
  | ub => cases h
  | deep => cases h
  | foul => cases h

/-- A loop over the observers of `a`, from the call of the operation on. -/
theorem visit_any {ex : Ex V U} (hex : ExAny ex) {ev : Nat → Ev V} (p : U → Nat → Prog V U) {a : Nat} {op : Op V} {k : Bool}
    {s t : St V U} {x : Obj} (hc : calls op = some (a, ev)) (h : Sound s) (hx : s.objs a = some x)
    (ht : loop ex ev p a x.stamp 0 x.obs.length ((s.emit (.began op)).hold a x k) = .ok t) :
    Sound t ∧ (∃ y, t.objs a = some y ∧ y.stamp = x.stamp ∧ y.obs = x.obs) ∧
      ∃ new, Grows s t (.began op :: new) ∧ Tree (s.log ++ [.began op]) (some (ev, (view s.log).reg a)) new ∧
        ¬ Touched a new := by
  have hret : ∀ o op' r, ev o ≠ .ret op' r := by
    intro o op' r
    cases op <;> simp only [calls, Option.some.injEq, Prod.mk.injEq, reduceCtorEq] at hc <;> simp [← hc.2]
  have hsee : ∀ (w : View) o, w.see (ev o) = w := by
    intro w o
    cases op <;> simp only [calls, Option.some.injEq, Prod.mk.injEq, reduceCtorEq] at hc <;> simp [← hc.2, View.see]
  have h0 : Sound (s.emit (.began op)) := h.emit _ (began_reg _ op)
  have hx0 : (s.emit (.began op)).objs a = some x := hx
  obtain ⟨h1, h2, new, h3, h4, h5⟩ := loop_any hex p hret hsee x.obs x.obs.length 0 _ t { x with locked := k }
    (h0.hold hx0 k) (by simp [St.hold]) rfl rfl (by simp) ht
  refine ⟨h1, h2, new, ?_, ?_, h5⟩
  · have := ((Grows.emit s (.began op) (by simp)).trans (Grows.hold _ hx0 k)).trans h3
    simpa using this
  · have hl : ((s.emit (.began op)).hold a x k).log = s.log ++ [.began op] := rfl
    rw [hl, List.drop_zero, h.obs a x hx] at h4
    exact h4

theorem done_round {s t u : St V U} {op : Op V} {a : Nat} {ev : Nat → Ev V} {new : List (Ev V)}
    (hc : calls op = some (a, ev)) (hg : Grows s t (.began op :: new))
    (hT : Tree (s.log ++ [.began op]) (some (ev, (view s.log).reg a)) new) (hn : ¬ Touched a new)
    (hu : Grows t u []) (hs : Sound (u.emit (.ret op .ok)))
    (hch : ∀ y, u.objs a = some y → Changes a op .ok → s.fresh ≤ y.stamp) : Done s op (u, .ok) := by
  refine ⟨hs, .began op :: new ++ [.ret op .ok], ?_, ?_⟩
  · have := hg.trans hu
    rw [List.append_nil] at this
    refine this.ret op .ok fun b y hy hcb => ?_
    have hba : b = a := by
      cases op <;> simp only [calls, Option.some.injEq, Prod.mk.injEq, reduceCtorEq] at hc <;>
        simp only [Changes] at hcb <;> first | exact (hcb.symm.trans hc.1) | exact hcb.elim
    subst hba
    exact hch y hy hcb
  · exact .round s.log new [] op a ev hc hT hn (.done _)

theorem body_any {ex : Ex V U} (hex : ExAny ex) (lock : Bool) (H : Handlers V U) {s : St V U} (h : Sound s)
    (op : Op V) (r : St V U × Err) (hr : body lock ex H (s.emit (.began op)) op = .ok r) : Done s op r := by
  cases op with
  | make a =>
    simp only [body, Out.ok.injEq] at hr
    subst hr
    exact done_fill h rfl rfl (fun b hb => Eq.symm hb) rfl
  | copy a b =>
    obtain ⟨x, hx, hr⟩ := Out.bind_eq_ok hr
    simp only [Out.ok.injEq] at hr
    subst hr
    exact done_fill h rfl rfl (fun b hb => Eq.symm hb) (by rw [h.obs b x (get_ok hx)]; rfl)
  | assign a b =>
    obtain ⟨x, hx, hr⟩ := Out.bind_eq_ok hr
    obtain ⟨y, hy, hr⟩ := Out.bind_eq_ok hr
    simp only [Out.ok.injEq] at hr
    subst hr
    exact done_fill h rfl rfl (fun b hb => Eq.symm hb) (by rw [h.obs b x (get_ok hx)]; rfl)
  | born o =>
    simp only [body, Out.ok.injEq] at hr
    subst hr
    exact done_same (op := .born o) (e := .ok) h rfl rfl (fun _ hc => hc) rfl rfl rfl rfl
  | die o =>
    simp only [body, Out.ok.injEq] at hr
    subst hr
    exact done_same (op := .die o) (e := .ok) h rfl rfl (fun _ hc => hc) rfl rfl rfl rfl
  | add a o =>
    simp only [body, addObs] at hr
    obtain ⟨x, hx, hr⟩ := Out.bind_eq_ok hr
    obtain ⟨_, _, hr⟩ := Out.bind_eq_ok hr
    have hreg := h.obs a x (get_ok hx)
    by_cases hm : o ∈ x.obs
    · rw [(scan_iff o x.obs).2 hm] at hr
      simp only [Bool.not_true, Bool.false_eq_true, if_false, Out.ok.injEq] at hr
      subst hr
      exact done_same (op := .add a o) (e := .alreadyContains) h rfl (by simp [Right, ← hreg, hm]) (fun _ hc => hc) rfl rfl rfl rfl
    · have : Dyn.scan o x.obs = false := by
        cases hb : Dyn.scan o x.obs with
        | false => rfl
        | true => exact absurd ((scan_iff o x.obs).1 hb) hm
      rw [this] at hr
      simp only [Bool.not_false, if_true, Out.ok.injEq] at hr
      subst hr
      exact done_fill h rfl (by simp [Right, ← hreg, hm]) (fun b hb => Eq.symm hb) (by rw [hreg]; rfl)
  | remove a o =>
    simp only [body, removeObs] at hr
    obtain ⟨x, hx, hr⟩ := Out.bind_eq_ok hr
    obtain ⟨_, _, hr⟩ := Out.bind_eq_ok hr
    have hreg := h.obs a x (get_ok hx)
    by_cases hm : o ∈ x.obs
    · rw [if_neg (fun hz => erase_none.1 hz hm)] at hr
      simp only [Out.ok.injEq] at hr
      subst hr
      exact done_fill h rfl (by simp [Right, ← hreg, hm]) (fun b hb => Eq.symm hb) (by rw [erase_eq, hreg]; rfl)
    · rw [if_pos (erase_none.2 hm)] at hr
      simp only [Out.ok.injEq] at hr
      subst hr
      exact done_same (op := .remove a o) (e := .notFound) h rfl (by simp [Right, ← hreg, hm]) (fun _ hc => hc) rfl rfl rfl rfl
  | notify a v =>
    simp only [body, notifyObs] at hr
    obtain ⟨w, hw, hr⟩ := Out.bind_eq_ok hr
    simp only [Out.ok.injEq] at hr
    subst hr
    obtain ⟨x, hx, hw⟩ := Out.bind_eq_ok hw
    obtain ⟨_, _, hw⟩ := Out.bind_eq_ok hw
    obtain ⟨t, ht, hw⟩ := Out.bind_eq_ok hw
    obtain ⟨y, hy, hw⟩ := Out.bind_eq_ok hw
    simp only [Out.ok.injEq] at hw
    subst hw
    obtain ⟨h1, _, new, h3, h4, h5⟩ := visit_any hex _ (op := .notify a v) rfl h (get_ok hx) ht
    exact done_round rfl h3 h4 h5 (Grows.hold t (get_ok hy) _) ((h1.hold (get_ok hy) _).emit _ rfl) fun _ _ hc => hc.elim
  | clear a =>
    simp only [body, clearObs] at hr
    obtain ⟨w, hw, hr⟩ := Out.bind_eq_ok hr
    simp only [Out.ok.injEq] at hr
    subst hr
    obtain ⟨x, hx, hw⟩ := Out.bind_eq_ok hw
    obtain ⟨_, _, hw⟩ := Out.bind_eq_ok hw
    obtain ⟨t, ht, hw⟩ := Out.bind_eq_ok hw
    simp only [Out.ok.injEq] at hw
    subst hw
    obtain ⟨h1, _, new, h3, h4, h5⟩ := visit_any hex _ (op := .clear a) rfl h (get_ok hx) ht
    refine done_round rfl h3 h4 h5 ?_ ?_ ?_
    · refine ⟨by simp [St.fill], Nat.le_succ _, fun b y hy => ?_⟩
      by_cases hba : b = a
      · subst hba
        simp only [St.fill, upd_same, Option.some.injEq] at hy
        exact .inl (by rw [← hy]; exact Nat.le_refl _)
      · simp only [St.fill, upd_other _ _ hba] at hy
        exact .inr ⟨fun ⟨o, r, hm, _⟩ => by simp at hm, y, hy, rfl, rfl⟩
    · refine ⟨fun b y hy => ?_, fun b y hy => ?_⟩
      · rw [view_emit]
        show y.obs = upd (view t.log).reg a [] b
        by_cases hba : b = a
        · subst hba
          simp only [St.emit, St.fill, upd_same, Option.some.injEq] at hy
          rw [← hy, upd_same]
        · simp only [St.emit, St.fill, upd_other _ _ hba] at hy
          rw [upd_other _ _ hba]; exact h1.obs b y hy
      · show y.stamp < t.fresh + 1
        by_cases hba : b = a
        · subst hba
          simp only [St.emit, St.fill, upd_same, Option.some.injEq] at hy
          rw [← hy]; exact Nat.lt_succ_self _
        · simp only [St.emit, St.fill, upd_other _ _ hba] at hy
          exact Nat.lt_succ_of_lt (h1.stamp b y hy)
    · intro y hy _
      simp only [St.fill, upd_same, Option.some.injEq] at hy
      rw [← hy]; exact h3.fresh
  | destroy a =>
    simp only [body, clearObs] at hr
    obtain ⟨w, hw, hr⟩ := Out.bind_eq_ok hr
    simp only [Out.ok.injEq] at hr
    subst hr
    obtain ⟨x, hx, hw⟩ := Out.bind_eq_ok hw
    obtain ⟨_, _, hw⟩ := Out.bind_eq_ok hw
    obtain ⟨t, ht, hw⟩ := Out.bind_eq_ok hw
    simp only [Out.ok.injEq] at hw
    subst hw
    obtain ⟨h1, _, new, h3, h4, h5⟩ := visit_any hex _ (op := .destroy a) rfl h (get_ok hx) ht
    have hne : ∀ {b : Nat} {y : Obj}, ((t.fill a [] x.locked).drop a).objs b = some y → b ≠ a ∧ t.objs b = some y := by
      intro b y hy
      by_cases hba : b = a
      · subst hba; simp [St.drop] at hy
      · simp only [St.drop, St.fill, upd_other _ _ hba] at hy
        exact ⟨hba, hy⟩
    refine done_round rfl h3 h4 h5 ?_ ?_ ?_
    · refine ⟨by simp [St.fill, St.drop], Nat.le_succ _, fun b y hy => ?_⟩
      exact .inr ⟨fun ⟨o, r, hm, _⟩ => by simp at hm, y, (hne hy).2, rfl, rfl⟩
    · refine ⟨fun b y hy => ?_, fun b y hy => ?_⟩
      · rw [view_emit]
        show y.obs = upd (view t.log).reg a [] b
        rw [upd_other _ _ (hne hy).1]; exact h1.obs b y (hne hy).2
      · exact Nat.lt_succ_of_lt (h1.stamp b y (hne hy).2)
    · intro y hy _
      exact absurd rfl (hne hy).1

theorem exec_any (rule : Rule V) (lock : Bool) (H : Handlers V U) (n : Nat) : ExAny (exec rule lock H n) := by
  induction n with
  | zero => intro s op r _ hr; simp [exec] at hr
  | succ n ih =>
    intro s op r h hr
    simp only [exec, execStep] at hr
    split at hr
    · obtain ⟨q, hq, hr⟩ := Out.bind_eq_ok hr
      simp only [Out.ok.injEq] at hr
      subst hr
      exact body_any ih lock H h op q hq
    · cases hr

theorem Reach.any {rule : Rule V} {lock : Bool} {H : Handlers V U} {s : St V U} (h : Reach rule lock H s) :
    Sound s ∧ Tree [] none s.log := by
  induction h with
  | new u => exact ⟨Sound.new u, .done _⟩
  | call s s' n op e _ hx ih =>
    obtain ⟨h1, new, h2, h3⟩ := exec_any rule lock H n s op _ ih.1 hx
    refine ⟨h1, ?_⟩
    rw [h2.log]
    exact ih.2.append rfl new (by simpa using h3)
  | user s u _ ih => exact ⟨ih.1.user u, ih.2⟩

end Verif.Observer.World.Unb
