import Verif.Observer.UnboundInv
/-! Clients of `Unbound.lean` that keep to the rule `careful`: nothing undefined happens. -/
namespace Verif.Observer.World.Unb
open Verif Verif.Observer

variable {V U : Type}

/-- What holds of an event when it happens: operations keep to the rules, and callbacks are on observers that exist and are registered
with the observable, which exists and is visiting its observers. -/
def Ok (lock : Bool) (v : View) : Ev V → Prop
  | .began op => careful lock v op = true
  | .data a o _ => a ∈ v.objs ∧ o ∈ v.alive ∧ o ∈ v.reg a ∧ 0 < v.run a
  | .disc a o => a ∈ v.objs ∧ o ∈ v.alive ∧ o ∈ v.reg a ∧ 0 < v.run a
  | _ => True

/-- Every event of the log was in order when it happened. -/
inductive Fine (lock : Bool) : List (Ev V) → Prop
  | nil : Fine lock []
  | snoc (l : List (Ev V)) (e : Ev V) : Fine lock l → Ok lock (view l) e → Fine lock (l ++ [e])

theorem Fine.at {lock : Bool} {log : List (Ev V)} (h : Fine lock log) : ∀ (pre : List (Ev V)) (e : Ev V) (post : List (Ev V)),
    log = pre ++ e :: post → Ok lock (view pre) e := by
  induction h with
  | nil => intro pre e post h; simp at h
  | snoc l e' _ hok ih =>
    intro pre e post h
    rcases List.eq_nil_or_concat post with hp | ⟨post', x, hp⟩
    · subst hp
      have h2 := List.append_inj' h rfl
      rw [← h2.1]
      have h3 := h2.2
      injection h3 with h3
      rw [← h3]; exact hok
    · subst hp
      have h2 : l ++ [e'] = (pre ++ e :: post') ++ [x] := by rw [h]; simp
      exact ih pre e post' (List.append_inj' h2 rfl).1

/-- The members of the objects are what the log tells. -/
structure Inv (lock : Bool) (s : St V U) : Prop where
  sound : Sound s
  fine : Fine lock s.log
  here : ∀ a, (∃ x, s.objs a = some x) ↔ a ∈ (view s.log).objs
  alive : s.alive = (view s.log).alive
  live : ∀ a x, s.objs a = some x → ∀ o ∈ x.obs, o ∈ s.alive
  idle : ∀ a, a ∉ (view s.log).objs → (view s.log).run a = 0
  locked : ∀ a x, s.objs a = some x → x.locked = (lock && decide (0 < (view s.log).run a))

/-- Between `s` and `t` the observables that are visiting their observers are not changed. -/
structure Keeps (s t : St V U) : Prop where
  run : (view t.log).run = (view s.log).run
  same : ∀ a x, s.objs a = some x → 0 < (view s.log).run a → ∃ y, t.objs a = some y ∧ y.stamp = x.stamp ∧ y.obs = x.obs

theorem Keeps.refl (s : St V U) : Keeps s s := ⟨rfl, fun _ x hx _ => ⟨x, hx, rfl, rfl⟩⟩

theorem Keeps.trans {s t u : St V U} (h : Keeps s t) (k : Keeps t u) : Keeps s u where
  run := k.run.trans h.run
  same a x hx hr := by
    obtain ⟨y, hy, h1, h2⟩ := h.same a x hx hr
    obtain ⟨z, hz, h3, h4⟩ := k.same a y hy (by rw [h.run]; exact hr)
    exact ⟨z, hz, h3.trans h1, h4.trans h2⟩

theorem Inv.new (lock : Bool) (u : U) : Inv lock (St.new u : St V U) where
  sound := Sound.new u
  fine := .nil
  here a := ⟨fun ⟨x, hx⟩ => by simp [St.new] at hx, fun h => by simp [St.new, view, View.new] at h⟩
  alive := rfl
  live a x hx := by simp [St.new] at hx
  idle _ _ := rfl
  locked a x hx := by simp [St.new] at hx

theorem Inv.user {lock : Bool} {s : St V U} (h : Inv lock s) (u : U) : Inv lock { s with user := u } :=
  ⟨h.sound.user u, h.fine, h.here, h.alive, h.live, h.idle, h.locked⟩

/-- An event without a meaning for the view. -/
theorem Inv.emit {lock : Bool} {s : St V U} (h : Inv lock s) (e : Ev V) (hv : (view s.log).see e = view s.log)
    (hok : Ok lock (view s.log) e) : Inv lock (s.emit e) where
  sound := h.sound.emit e (by rw [hv])
  fine := .snoc _ _ h.fine hok
  here a := by rw [view_emit, hv]; exact h.here a
  alive := by rw [view_emit, hv]; exact h.alive
  live := h.live
  idle := by rw [view_emit, hv]; exact h.idle
  locked := by rw [view_emit, hv]; exact h.locked

theorem Keeps.emit (s : St V U) (e : Ev V) (hv : (view s.log).see e = view s.log) : Keeps s (s.emit e) :=
  ⟨by rw [view_emit, hv], fun _ x hx _ => ⟨x, hx, rfl, rfl⟩⟩

/-- What operations do for careful clients. -/
def ExOk (lock : Bool) (ex : Ex V U) : Prop :=
  ∀ s op, Inv lock s → Good (fun r => Inv lock r.1 ∧ Keeps s r.1) (ex s op)

theorem runProg_good {lock : Bool} {ex : Ex V U} (hex : ExOk lock ex) (p : Prog V U) : ∀ s : St V U, Inv lock s →
    Good (fun t => Inv lock t ∧ Keeps s t) (runProg ex p s) := by
  induction p with
  | ret u => intro s h; exact ⟨h.user u, rfl, fun _ x hx _ => ⟨x, hx, rfl, rfl⟩⟩
  | set u k ih =>
    intro s h
    exact (ih _ (h.user u)).mono fun t ht => ⟨ht.1, ht.2.run, ht.2.same⟩
  | call op k ih =>
    intro s h
    refine (hex s op h).bind fun r hr => ?_
    exact (ih r.2 r.1.user r.1 hr.1).mono fun t ht => ⟨ht.1, hr.2.trans ht.2⟩

theorem loop_good {lock : Bool} {ex : Ex V U} (hex : ExOk lock ex) {ev : Nat → Ev V} (p : U → Nat → Prog V U) {a : Nat}
    (hsee : ∀ (w : View) o, w.see (ev o) = w)
    (hok : ∀ (w : View) o, a ∈ w.objs → o ∈ w.alive → o ∈ w.reg a → 0 < w.run a → Ok lock w (ev o)) :
    ∀ (left i : Nat) (s : St V U) (x : Obj), Inv lock s → s.objs a = some x → 0 < (view s.log).run a →
      i + left = x.obs.length →
      Good (fun t => Inv lock t ∧ Keeps s t) (loop ex ev p a x.stamp i left s) := by
  intro left
  induction left with
  | zero =>
    intro i s x h hx _ _
    have hv : valid s a x.stamp = .ok x := by simp [valid, St.get, hx]
    simp only [loop, hv, Out.ok_bind]
    exact ⟨h, Keeps.refl s⟩
  | succ left ih =>
    intro i s x h hx hr hi
    have hil : i < x.obs.length := by omega
    have hv : valid s a x.stamp = .ok x := by simp [valid, St.get, hx]
    have hd : deref x i = .ok x.obs[i] := by simp [deref, hil]
    have hal : x.obs[i] ∈ s.alive := h.live a x hx _ (List.getElem_mem hil)
    simp only [loop, hv, Out.ok_bind, hd, St.enter, if_pos hal]
    have h1 : Inv lock (s.emit (ev x.obs[i])) := h.emit _ (hsee _ _)
      (hok _ _ ((h.here a).1 ⟨x, hx⟩) (h.alive ▸ hal) (by rw [← h.sound.obs a x hx]; exact List.getElem_mem hil) hr)
    refine (runProg_good hex _ _ h1).bind fun t ht => ?_
    have k1 : Keeps s (t.emit (.leave x.obs[i])) :=
      ((Keeps.emit s _ (hsee _ _)).trans ht.2).trans (Keeps.emit t _ rfl)
    obtain ⟨y, hy, h2, h3⟩ := k1.same a x hx hr
    have := ih (i + 1) (t.emit (.leave x.obs[i])) y (ht.1.emit _ rfl trivial) hy (by rw [k1.run]; exact hr) (by rw [h3]; omega)
    rw [h2] at this
    exact this.mono fun u hu => ⟨hu.1, k1.trans hu.2⟩

theorem Inv.get {lock : Bool} {s : St V U} (h : Inv lock s) {a : Nat} (ha : a ∈ (view s.log).objs) :
    ∃ x, s.objs a = some x ∧ ∀ e, (s.emit e).get a = .ok x := by
  obtain ⟨x, hx⟩ := (h.here a).2 ha
  exact ⟨x, hx, fun e => by simp [St.get, St.emit, hx]⟩

theorem Inv.acquire {lock : Bool} {s : St V U} (h : Inv lock s) {a : Nat} {x : Obj} (hx : s.objs a = some x)
    (hr : (view s.log).run a = 0 ∨ lock = false) : acquire lock x = .ok () := by
  unfold Unb.acquire
  rw [h.locked a x hx]
  rcases hr with hr | hr <;> simp [hr]

/-- The operation has ended well. -/
def Well (lock : Bool) (s : St V U) (op : Op V) (r : St V U × Err) : Prop :=
  Inv lock (r.1.emit (.ret op r.2)) ∧ Keeps s (r.1.emit (.ret op r.2))

/-- An operation that leaves the observables alone. -/
theorem well_same {lock : Bool} {s t : St V U} (h : Inv lock s) {op : Op V} {e : Err}
    (hs : Sound (t.emit (.ret op e))) (hc : careful lock (view s.log) op = true)
    (hb : (view s.log).see (.began op) = view s.log) (ht : t.objs = s.objs) (hl : t.log = s.log ++ [.began op])
    (hobjs : ((view s.log).ended op e).objs = (view s.log).objs) (hrun : ((view s.log).ended op e).run = (view s.log).run)
    (hal : t.alive = ((view s.log).ended op e).alive) (hlive : ∀ a x, s.objs a = some x → ∀ o ∈ x.obs, o ∈ t.alive) :
    Well lock s op (t, e) := by
  have hvt : view (t.emit (.ret op e)).log = (view s.log).ended op e := by
    rw [view_emit, hl, view_snoc, hb]; rfl
  refine ⟨⟨hs, ?_, ?_, ?_, ?_, ?_, ?_⟩, ?_, ?_⟩
  · exact .snoc _ _ (hl ▸ .snoc _ _ h.fine hc) trivial
  · intro a
    rw [hvt, hobjs]
    show (∃ x, t.objs a = some x) ↔ _
    rw [ht]; exact h.here a
  · rw [hvt]; exact hal
  · intro a x hx
    exact hlive a x (ht ▸ hx)
  · rw [hvt, hobjs, hrun]; exact h.idle
  · rw [hvt, hrun]
    intro a x hx
    exact h.locked a x (ht ▸ hx)
  · rw [hvt, hrun]
  · intro a x hx _
    exact ⟨x, by show t.objs a = some x; rw [ht]; exact hx, rfl, rfl⟩

/-- An operation that gives the observable `a`, which is not visiting its observers, another vector. -/
theorem well_fill {lock : Bool} {s : St V U} (h : Inv lock s) {op : Op V} {e : Err} {a : Nat} {l : List Nat} {k : Bool}
    (hs : Sound (((s.emit (.began op)).fill a l k).emit (.ret op e))) (hc : careful lock (view s.log) op = true)
    (hb : (view s.log).see (.began op) = view s.log) (hrun0 : (view s.log).run a = 0) (hk : k = false)
    (hobjs : ∀ b, b ∈ ((view s.log).ended op e).objs ↔ b = a ∨ b ∈ (view s.log).objs)
    (hrun : ((view s.log).ended op e).run = (view s.log).run) (hal : ((view s.log).ended op e).alive = (view s.log).alive)
    (hlive : ∀ o ∈ l, o ∈ s.alive) : Well lock s op ((s.emit (.began op)).fill a l k, e) := by
  have hvt : view (((s.emit (.began op)).fill a l k).emit (.ret op e)).log = (view s.log).ended op e := by
    rw [view_emit]
    show ((view (s.emit (.began op)).log).see _) = _
    rw [view_emit, hb]; rfl
  have hat : ∀ b x, (((s.emit (.began op)).fill a l k).emit (.ret op e)).objs b = some x →
      (b = a ∧ x = ⟨l, s.fresh, k⟩) ∨ (b ≠ a ∧ s.objs b = some x) := by
    intro b x hx
    by_cases hba : b = a
    · subst hba
      simp only [St.emit, St.fill, upd_same, Option.some.injEq] at hx
      exact .inl ⟨rfl, hx.symm⟩
    · simp only [St.emit, St.fill, upd_other _ _ hba] at hx
      exact .inr ⟨hba, hx⟩
  refine ⟨⟨hs, ?_, ?_, ?_, ?_, ?_, ?_⟩, ?_, ?_⟩
  · exact .snoc _ _ (.snoc _ _ h.fine hc) trivial
  · intro b
    rw [hvt, hobjs]
    by_cases hba : b = a
    · subst hba
      simp [St.emit, St.fill]
    · simp only [St.emit, St.fill, upd_other _ _ hba]
      rw [h.here b]
      simp [hba]
  · rw [hvt, hal]; exact h.alive
  · intro b x hx
    rcases hat b x hx with ⟨_, rfl⟩ | ⟨_, hx⟩
    · exact hlive
    · exact h.live b x hx
  · rw [hvt, hrun]
    intro b hb'
    exact h.idle b fun hm => hb' ((hobjs b).2 (.inr hm))
  · rw [hvt, hrun]
    intro b x hx
    rcases hat b x hx with ⟨rfl, rfl⟩ | ⟨_, hx⟩
    · simp [hrun0, hk]
    · exact h.locked b x hx
  · rw [hvt, hrun]
  · intro b x hx hr
    have hba : b ≠ a := fun hba => by rw [hba, hrun0] at hr; omega
    exact ⟨x, by simp only [St.emit, St.fill, upd_other _ _ hba]; exact hx, rfl, rfl⟩

/-- The call has begun: one more run. -/
theorem Inv.start {lock : Bool} {s : St V U} (h : Inv lock s) {op : Op V} {a : Nat} {x : Obj} (hx : s.objs a = some x)
    (hc : careful lock (view s.log) op = true)
    (hb : (view s.log).see (.began op) = { view s.log with run := upd (view s.log).run a ((view s.log).run a + 1) }) :
    Inv lock ((s.emit (.began op)).hold a x lock) ∧
      view ((s.emit (.began op)).hold a x lock).log = { view s.log with run := upd (view s.log).run a ((view s.log).run a + 1) } := by
  have hv : view ((s.emit (.began op)).hold a x lock).log =
      { view s.log with run := upd (view s.log).run a ((view s.log).run a + 1) } := by
    show view (s.emit (.began op)).log = _
    rw [view_emit, hb]
  have hat : ∀ b y, ((s.emit (.began op)).hold a x lock).objs b = some y →
      (b = a ∧ y = { x with locked := lock }) ∨ (b ≠ a ∧ s.objs b = some y) := by
    intro b y hy
    by_cases hba : b = a
    · subst hba
      simp only [St.hold, upd_same, Option.some.injEq] at hy
      exact .inl ⟨rfl, hy.symm⟩
    · simp only [St.emit, St.hold, upd_other _ _ hba] at hy
      exact .inr ⟨hba, hy⟩
  refine ⟨⟨?_, ?_, ?_, ?_, ?_, ?_, ?_⟩, hv⟩
  · exact (h.sound.emit (.began op) (began_reg _ op)).hold (a := a) (x := x) hx lock
  · exact .snoc _ _ h.fine hc
  · intro b
    rw [hv]
    by_cases hba : b = a
    · subst hba
      simpa [St.hold] using (h.here b).1 ⟨x, hx⟩
    · simp only [St.emit, St.hold, upd_other _ _ hba]
      exact h.here b
  · rw [hv]; exact h.alive
  · intro b y hy
    rcases hat b y hy with ⟨rfl, rfl⟩ | ⟨_, hy⟩
    · exact h.live b x hx
    · exact h.live b y hy
  · rw [hv]
    intro b hm
    have hba : b ≠ a := fun hba => hm (by rw [hba]; exact (h.here a).1 ⟨x, hx⟩)
    show upd _ _ _ b = 0
    rw [upd_other _ _ hba]; exact h.idle b hm
  · rw [hv]
    intro b y hy
    rcases hat b y hy with ⟨rfl, rfl⟩ | ⟨hba, hy⟩
    · simp
    · have := h.locked b y hy
      rw [← upd_other (view s.log).run ((view s.log).run a + 1) hba] at this
      exact this

theorem upd_back {f g : Nat → Nat} {a : Nat} (h : g = upd f a (f a + 1)) : upd g a (g a - 1) = f := by
  subst h
  funext b
  by_cases hba : b = a
  · subst hba; simp
  · rw [upd_other _ _ hba, upd_other _ _ hba]

theorem notify_well {lock : Bool} {ex : Ex V U} (hex : ExOk lock ex) (hany : ExAny ex) (H : Handlers V U) {s : St V U} (h : Inv lock s)
    (a : Nat) (v : V) (hc : careful lock (view s.log) (.notify a v) = true) :
    Good (Well lock s (.notify a v)) (body lock ex H (s.emit (.began (.notify a v))) (.notify a v)) := by
  have hc' := hc
  simp only [careful, sane, steady, apart, Bool.and_eq_true, decide_eq_true_eq, and_true] at hc'
  obtain ⟨x, hx, hget⟩ := h.get hc'.1
  have hdone : ∀ r, body lock ex H (s.emit (.began (.notify a v))) (.notify a v) = .ok r → Done s (.notify a v) r :=
    fun r hr => body_any hany lock H h.sound _ r hr
  obtain ⟨h1, hv⟩ := h.start (op := .notify a v) hx hc rfl
  have hra : 0 < (view ((s.emit (.began (.notify a v))).hold a x lock).log).run a := by rw [hv]; simp
  have hloop := loop_good hex (ev := fun o => .data a o v) (fun u o => H.data u a o v) (a := a) (fun _ _ => rfl)
    (fun w o p q r t => ⟨p, q, r, t⟩) x.obs.length 0 _ { x with locked := lock } h1 (by simp [St.hold]) hra (by simp)
  simp only [body, notifyObs, hget, Out.ok_bind, h.acquire hx hc'.2] at hdone ⊢
  revert hdone
  cases hl : loop ex (fun o => .data a o v) (fun u o => H.data u a o v) a x.stamp 0 x.obs.length
    ((s.emit (.began (.notify a v))).hold a x lock) with
  | ub => rw [show ({ x with locked := lock } : Obj).stamp = x.stamp from rfl] at hloop; rw [hl] at hloop; exact hloop.elim
  | deep => intro _; exact trivial
  | foul => intro _; exact trivial
  | ok t =>
    intro hdone
    replace hloop : Inv lock t ∧ Keeps ((s.emit (.began (.notify a v))).hold a x lock) t := by
      have := hloop
      rw [hl] at this; exact this
    obtain ⟨hi, hk⟩ := hloop
    obtain ⟨y, hy, hy1, hy2⟩ := hk.same a { x with locked := lock } (by simp [St.hold]) hra
    have hty : t.get a = .ok y := by simp [St.get, hy]
    simp only [Out.ok_bind, hty] at hdone ⊢
    have hrun : (view t.log).run = upd (view s.log).run a ((view s.log).run a + 1) := by rw [hk.run, hv]
    have hback : upd (view t.log).run a ((view t.log).run a - 1) = (view s.log).run := upd_back hrun
    have hvt : view ((t.hold a y x.locked).emit (.ret (.notify a v) .ok)).log = { view t.log with run := (view s.log).run } := by
      rw [view_emit]
      show ({ view t.log with run := upd (view t.log).run a ((view t.log).run a - 1) } : View) = _
      rw [hback]
    have hat : ∀ b z, (t.hold a y x.locked).objs b = some z →
        (b = a ∧ z = { y with locked := x.locked }) ∨ (b ≠ a ∧ t.objs b = some z) := by
      intro b z hz
      by_cases hba : b = a
      · subst hba
        simp only [St.hold, upd_same, Option.some.injEq] at hz
        exact .inl ⟨rfl, hz.symm⟩
      · simp only [St.hold, upd_other _ _ hba] at hz
        exact .inr ⟨hba, hz⟩
    refine ⟨⟨(hdone _ rfl).1, .snoc _ _ hi.fine trivial, ?_, ?_, ?_, ?_, ?_⟩, by rw [hvt], ?_⟩
    · intro b
      rw [hvt]
      by_cases hba : b = a
      · subst hba
        simpa [St.hold, St.emit] using (hi.here b).1 ⟨y, hy⟩
      · simp only [St.emit, St.hold, upd_other _ _ hba]
        exact hi.here b
    · rw [hvt]; exact hi.alive
    · intro b z hz
      rcases hat b z hz with ⟨rfl, rfl⟩ | ⟨_, hz⟩
      · exact hi.live b y hy
      · exact hi.live b z hz
    · rw [hvt]
      intro b hm
      show (view s.log).run b = 0
      have h2 := hi.idle b hm
      have hba : b ≠ a := fun hba => hm (by rw [hba]; exact (hi.here a).1 ⟨y, hy⟩)
      rw [hrun, upd_other _ _ hba] at h2
      exact h2
    · rw [hvt]
      intro b z hz
      show z.locked = (lock && decide (0 < (view s.log).run b))
      rcases hat b z hz with ⟨rfl, rfl⟩ | ⟨hba, hz⟩
      · exact h.locked b x hx
      · rw [hi.locked b z hz, hrun, upd_other _ _ hba]
    · intro b z hz hr
      by_cases hba : b = a
      · subst hba
        have hzx : z = x := Option.some.inj (hz.symm.trans hx)
        subst hzx
        exact ⟨{ y with locked := z.locked }, by simp [St.emit, St.hold], hy1, hy2⟩
      · obtain ⟨w, hw, hw1, hw2⟩ := hk.same b z (by simp only [St.emit, St.hold, upd_other _ _ hba]; exact hz)
          (by rw [hv]; show 0 < upd _ _ _ b; rw [upd_other _ _ hba]; exact hr)
        exact ⟨w, by simp only [St.emit, St.hold, upd_other _ _ hba]; exact hw, hw1, hw2⟩

/-- The visit of `clear_observers`, of an observable that is not visiting its observers. -/
theorem clearObs_good {lock : Bool} {ex : Ex V U} (hex : ExOk lock ex) (H : Handlers V U) {s : St V U} (h : Inv lock s)
    {a : Nat} {x : Obj} {op : Op V} (hx : s.objs a = some x) (hr : (view s.log).run a = 0) (hc : careful lock (view s.log) op = true)
    (hb : (view s.log).see (.began op) = { view s.log with run := upd (view s.log).run a ((view s.log).run a + 1) }) :
    Good (fun u => ∃ t, u = t.fill a [] x.locked ∧ Inv lock t ∧ Keeps ((s.emit (.began op)).hold a x lock) t ∧
      (view t.log).run = upd (view s.log).run a ((view s.log).run a + 1)) (clearObs lock ex H a (s.emit (.began op))) := by
  obtain ⟨h1, hv⟩ := h.start hx hc hb
  have hget : (s.emit (.began op)).get a = .ok x := by simp [St.get, St.emit, hx]
  have hra : 0 < (view ((s.emit (.began op)).hold a x lock).log).run a := by rw [hv]; simp
  have hloop := loop_good hex (ev := fun o => .disc a o) (fun u o => H.disconnect u a o) (a := a) (fun _ _ => rfl)
    (fun w o p q r t => ⟨p, q, r, t⟩) x.obs.length 0 _ { x with locked := lock } h1 (by simp [St.hold]) hra (by simp)
  simp only [clearObs, hget, Out.ok_bind, h.acquire hx (.inl hr)]
  refine Good.bind hloop fun t ht => ⟨t, rfl, ht.1, ht.2, ?_⟩
  rw [ht.2.run, hv]

/-- After the visit: the vector is empty or gone. -/
theorem cleared {lock : Bool} {s t u : St V U} (h : Inv lock s) {a : Nat} {x : Obj} {op : Op V} (hx : s.objs a = some x)
    (hr : (view s.log).run a = 0) (hi : Inv lock t)
    (hk : Keeps ((s.emit (.began op)).hold a x lock) t)
    (hb : (view s.log).see (.began op) = { view s.log with run := upd (view s.log).run a ((view s.log).run a + 1) })
    (hrun : (view t.log).run = upd (view s.log).run a ((view s.log).run a + 1))
    (hul : u.log = t.log) (hua : u.alive = t.alive) (huo : ∀ b, b ≠ a → u.objs b = t.objs b)
    (hux : ∀ y, u.objs a = some y → y.obs = [] ∧ y.locked = false)
    (hs : Sound (u.emit (.ret op .ok)))
    (hobjs : ∀ b, b ∈ ((view t.log).ended op .ok).objs ↔ (b ≠ a ∧ b ∈ (view t.log).objs) ∨ (b = a ∧ ∃ y, u.objs a = some y))
    (hal : ((view t.log).ended op .ok).alive = (view t.log).alive)
    (hrn : ((view t.log).ended op .ok).run = upd (view t.log).run a ((view t.log).run a - 1)) : Well lock s op (u, .ok) := by
  have hback : upd (view t.log).run a ((view t.log).run a - 1) = (view s.log).run := upd_back hrun
  have hvt : view (u.emit (.ret op .ok)).log = (view t.log).ended op .ok := by rw [view_emit, hul]; rfl
  rw [hback] at hrn
  refine ⟨⟨hs, .snoc _ _ (hul ▸ hi.fine) trivial, ?_, ?_, ?_, ?_, ?_⟩, by rw [hvt, hrn], ?_⟩
  · intro b
    rw [hvt, hobjs]
    show (∃ x, u.objs b = some x) ↔ _
    by_cases hba : b = a
    · subst hba; simp
    · rw [huo b hba, hi.here b]; simp [hba]
  · rw [hvt, hal]; exact hua.trans hi.alive
  · intro b z hz o ho
    show o ∈ u.alive
    by_cases hba : b = a
    · subst hba
      rw [(hux z hz).1] at ho
      simp at ho
    · rw [hua]; exact hi.live b z (huo b hba ▸ hz) o ho
  · rw [hvt, hrn]
    intro b hm
    by_cases hba : b = a
    · rw [hba]; exact hr
    · have h2 := hi.idle b fun hb' => hm ((hobjs b).2 (.inl ⟨hba, hb'⟩))
      rw [hrun, upd_other _ _ hba] at h2
      exact h2
  · rw [hvt, hrn]
    intro b z hz
    by_cases hba : b = a
    · subst hba
      rw [(hux z hz).2, hr]; simp
    · rw [hi.locked b z (huo b hba ▸ hz), hrun, upd_other _ _ hba]
  · intro b z hz hrb
    have hba : b ≠ a := fun hba => by rw [hba, hr] at hrb; omega
    obtain ⟨w, hw, hw1, hw2⟩ := hk.same b z (by simp only [St.emit, St.hold, upd_other _ _ hba]; exact hz)
      (by
        show 0 < (view (s.emit (.began op)).log).run b
        rw [view_emit, hb]
        show 0 < upd _ _ _ b
        rw [upd_other _ _ hba]; exact hrb)
    exact ⟨w, by show u.objs b = some w; rw [huo b hba]; exact hw, hw1, hw2⟩

theorem body_good {lock : Bool} {ex : Ex V U} (hex : ExOk lock ex) (hany : ExAny ex) (H : Handlers V U) {s : St V U} (h : Inv lock s)
    (op : Op V) (hc : careful lock (view s.log) op = true) :
    Good (Well lock s op) (body lock ex H (s.emit (.began op)) op) := by
  have hdone : ∀ r, body lock ex H (s.emit (.began op)) op = .ok r → Done s op r :=
    fun r hr => body_any hany lock H h.sound op r hr
  have hc' := hc
  cases op with
  | make a =>
    simp only [careful, sane, steady, apart, Bool.and_eq_true, decide_eq_true_eq, and_true] at hc'
    exact well_fill h (hdone _ rfl).1 hc rfl (h.idle a hc') rfl (fun b => List.mem_cons) rfl rfl (by simp)
  | copy a b =>
    simp only [careful, sane, steady, apart, Bool.and_eq_true, decide_eq_true_eq, and_true] at hc'
    obtain ⟨x, hx, hget⟩ := h.get hc'.2.2
    simp only [body, hget, Out.ok_bind] at hdone ⊢
    exact well_fill h (hdone _ rfl).1 hc rfl (h.idle a hc'.2.1) rfl (fun b => List.mem_cons) rfl rfl (h.live b x hx)
  | assign a b =>
    simp only [careful, sane, steady, apart, Bool.and_eq_true, decide_eq_true_eq, and_true] at hc'
    obtain ⟨x, hx, hget⟩ := h.get hc'.1.2.2
    obtain ⟨y, hy, hget'⟩ := h.get hc'.1.2.1
    simp only [body, hget, hget', Out.ok_bind] at hdone ⊢
    refine well_fill h (hdone _ rfl).1 hc rfl hc'.2 rfl (fun c => ?_) rfl rfl (h.live b x hx)
    show c ∈ (view s.log).objs ↔ _
    constructor
    · exact .inr
    · rintro (rfl | hm)
      · exact hc'.1.2.1
      · exact hm
  | born o =>
    refine well_same h (hdone _ rfl).1 hc rfl rfl rfl rfl rfl (by show o :: s.alive = o :: _; rw [h.alive]) ?_
    intro a x hx q hq
    exact List.mem_cons_of_mem _ (h.live a x hx q hq)
  | die o =>
    simp only [careful, sane, steady, apart, Bool.and_eq_true, decide_eq_true_eq, and_true, List.all_eq_true] at hc'
    refine well_same h (hdone _ rfl).1 hc rfl rfl rfl rfl rfl
      (by show s.alive.filter _ = List.filter _ _; rw [h.alive]) ?_
    intro a x hx q hq
    refine List.mem_filter.2 ⟨h.live a x hx q hq, ?_⟩
    have hno := hc'.2 a ((h.here a).1 ⟨x, hx⟩)
    rw [← h.sound.obs a x hx] at hno
    simpa using fun hqo : q = o => hno (hqo ▸ hq)
  | add a o =>
    simp only [careful, sane, steady, apart, Bool.and_eq_true, decide_eq_true_eq, and_true] at hc'
    obtain ⟨x, hx, hget⟩ := h.get hc'.1.1
    have hreg := h.sound.obs a x hx
    have hacq : acquire lock x = .ok () := h.acquire hx (hc'.2.imp id And.left)
    simp only [body, addObs, hget, hacq, Out.ok_bind] at hdone ⊢
    by_cases hm : o ∈ x.obs
    · rw [(scan_iff o x.obs).2 hm] at hdone ⊢
      simp only [Bool.not_true, Bool.false_eq_true, if_false] at hdone ⊢
      exact well_same h (hdone _ rfl).1 hc rfl rfl rfl rfl rfl h.alive h.live
    · have : Dyn.scan o x.obs = false := by
        cases hb : Dyn.scan o x.obs with
        | false => rfl
        | true => exact absurd ((scan_iff o x.obs).1 hb) hm
      rw [this] at hdone ⊢
      simp only [Bool.not_false, if_true] at hdone ⊢
      have hr : (view s.log).run a = 0 := hc'.2.elim id fun hq => absurd (hreg ▸ hq.2) hm
      refine well_fill h (hdone _ rfl).1 hc rfl hr (by rw [h.locked a x hx, hr]; simp) (fun c => ?_) rfl rfl ?_
      · show c ∈ (view s.log).objs ↔ _
        exact ⟨.inr, fun hq => hq.elim (fun hca => hca ▸ hc'.1.1) id⟩
      · intro q hq
        rcases List.mem_append.1 hq with hq | hq
        · exact h.live a x hx q hq
        · rw [List.mem_singleton.1 hq, h.alive]; exact hc'.1.2
  | remove a o =>
    simp only [careful, sane, steady, apart, Bool.and_eq_true, decide_eq_true_eq, and_true] at hc'
    obtain ⟨x, hx, hget⟩ := h.get hc'.1
    have hreg := h.sound.obs a x hx
    have hacq : acquire lock x = .ok () := h.acquire hx (hc'.2.imp id And.left)
    simp only [body, removeObs, hget, hacq, Out.ok_bind] at hdone ⊢
    by_cases hm : o ∈ x.obs
    · rw [if_neg (fun hz => erase_none.1 hz hm)] at hdone ⊢
      have hr : (view s.log).run a = 0 := hc'.2.elim id fun hq => absurd (hreg ▸ hm) hq.2
      refine well_fill h (hdone _ rfl).1 hc rfl hr (by rw [h.locked a x hx, hr]; simp) (fun c => ?_) rfl rfl ?_
      · show c ∈ (view s.log).objs ↔ _
        exact ⟨.inr, fun hq => hq.elim (fun hca => hca ▸ hc'.1) id⟩
      · intro q hq
        rw [erase_eq] at hq
        exact h.live a x hx q (List.mem_filter.1 hq).1
    · rw [if_pos (erase_none.2 hm)] at hdone ⊢
      exact well_same h (hdone _ rfl).1 hc rfl rfl rfl rfl rfl h.alive h.live
  | notify a v => exact notify_well hex hany H h a v hc
  | clear a =>
    simp only [careful, sane, steady, apart, Bool.and_eq_true, decide_eq_true_eq, and_true] at hc'
    obtain ⟨x, hx, -⟩ := h.get hc'.1
    have hg := clearObs_good hex H h (op := .clear a) hx hc'.2 hc rfl
    revert hg hdone
    simp only [body]
    cases hw : clearObs lock ex H a (s.emit (.began (.clear a))) with
    | ub => intro _ hg; exact hg.elim
    | deep => intro _ _; exact trivial
    | foul => intro _ _; exact trivial
    | ok u =>
      intro hdone ⟨t, hu, hi, hk, hrun⟩
      subst hu
      refine cleared h hx hc'.2 hi hk rfl hrun rfl rfl (fun b hb => upd_other _ _ hb) ?_ (hdone _ rfl).1 ?_ rfl rfl
      · intro y hy
        simp only [St.fill, upd_same, Option.some.injEq] at hy
        rw [← hy]
        exact ⟨rfl, by rw [h.locked a x hx, hc'.2]; simp⟩
      · intro b
        show b ∈ (view t.log).objs ↔ _
        obtain ⟨y, hy, -⟩ := hk.same a { x with locked := lock } (by simp [St.hold])
          (by
            show 0 < (view (s.emit (.began (.clear a))).log).run a
            rw [view_emit]; simp [View.see, View.began])
        by_cases hba : b = a
        · subst hba
          simpa [St.fill] using (hi.here b).1 ⟨y, hy⟩
        · simp [hba]
  | destroy a =>
    simp only [careful, sane, steady, apart, Bool.and_eq_true, decide_eq_true_eq, and_true] at hc'
    obtain ⟨x, hx, -⟩ := h.get hc'.1
    have hg := clearObs_good hex H h (op := .destroy a) hx hc'.2 hc rfl
    revert hg hdone
    simp only [body]
    cases hw : clearObs lock ex H a (s.emit (.began (.destroy a))) with
    | ub => intro _ hg; exact hg.elim
    | deep => intro _ _; exact trivial
    | foul => intro _ _; exact trivial
    | ok u =>
      intro hdone ⟨t, hu, hi, hk, hrun⟩
      subst hu
      refine cleared h hx hc'.2 hi hk rfl hrun rfl rfl ?_ ?_ (hdone _ rfl).1 ?_ rfl rfl
      · intro b hb
        simp only [St.drop, St.fill, upd_other _ _ hb]
      · intro y hy
        simp [St.drop] at hy
      · intro b
        show b ∈ (view t.log).objs.filter _ ↔ _
        rw [List.mem_filter]
        simp [St.drop, and_comm]

theorem exec_ok (lock : Bool) (H : Handlers V U) (n : Nat) : ExOk lock (exec (careful lock) lock H n) := by
  induction n with
  | zero => intro s op _; exact trivial
  | succ n ih =>
    intro s op h
    simp only [exec, execStep]
    split
    · rename_i hc
      exact (body_good ih (exec_any _ lock H n) H h op hc).bind fun r hr => hr
    · exact trivial

theorem Reach.inv {lock : Bool} {H : Handlers V U} {s : St V U} (h : Reach (careful lock) lock H s) : Inv lock s := by
  induction h with
  | new u => exact Inv.new lock u
  | call s s' n op e _ hx ih =>
    have := exec_ok lock H n s op ih
    rw [hx] at this
    exact this.1
  | user s u _ ih => exact ih.user u

end Verif.Observer.World.Unb
