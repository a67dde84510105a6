import Verif.Mediator.Dynamic
import Verif.Mediator.Props
/-!
The two models of the mediator agree: a program that neither constructs nor destroys modules nor throws, run with a hook
that does nothing, does in `Mediator/Dynamic.lean` what it does in `Mediator/Model.lean`; and so do whole histories.
-/
namespace Verif.Mediator.Dyn.Agree
open Verif Verif.Data

variable {W : World} {U : Type}

/-- A program of `Mediator/Model.lean` (mediator.hpp:147-181, 308-319). -/
def lift : Mediator.Prog W U → Prog W U
  | .ret u => .ret u
  | .set u p => .attempt (.ret u) fun _ _ => lift p
  | .send m v k => .send m v fun u => lift (k u)
  | .raw m bytes k => .raw m bytes fun u _ => lift (k u)
  | .cast t v k => .cast t v fun u => lift (k u)

/-- The callbacks of `Mediator/Model.lean`, and a hook that does nothing (mediator.hpp:114-116, 328-330). -/
def liftAll (H : Mediator.Handlers W U) : Handlers W U where
  data u m t v := lift (H u m t v)
  hook u _ _ := .ret u
  edit _ _ b i := b.getD i 0

/-- The events that `Mediator/Model.lean` knows of. -/
def oldEv : Ev W → Option (Mediator.Ev W)
  | .start n src t b => some (.start n src t b)
  | .hook n id b => some (.hook n id b)
  | .recv n m t v => some (.recv n m t v)
  | _ => none

/-- A state as `Mediator/Model.lean` has it. -/
def old (s : St W U) : Mediator.St W U := ⟨s.arr, s.cnt, s.user, s.log.filterMap oldEv, s.count⟩

/-- The program sends from modules of `l` only. -/
inductive Only (l : List Nat) : Mediator.Prog W U → Prop
  | ret (u : U) : Only l (.ret u)
  | set (u : U) (p : Mediator.Prog W U) : Only l p → Only l (.set u p)
  | send (m : Nat) (v : W.Val (W.sends m)) (k : U → Mediator.Prog W U) : m ∈ l → (∀ u, Only l (k u)) → Only l (.send m v k)
  | raw (m : Nat) (b : List Byte) (k : U → Mediator.Prog W U) : m ∈ l → (∀ u, Only l (k u)) → Only l (.raw m b k)
  | cast (t : Nat) (v : W.Val t) (k : U → Mediator.Prog W U) : (∀ u, Only l (k u)) → Only l (.cast t v k)

/-- Modules and the array of a manager that knows them (mediator.hpp:375-380). -/
structure Reg where
  l : List Nat
  arr : List (Option Nat)
  cnt : Nat
  room : cnt ≤ arr.length
  known : ∀ i, i < cnt → ∃ m ∈ l, arr[i]? = some (some m)

/-- The modules that exist and those the manager knows are those of `g`, and no exception is on its way. -/
structure Calm (g : Reg) (s : St W U) : Prop where
  live : s.live = g.l
  arr : s.arr = g.arr
  cnt : s.cnt = g.cnt
  thrown : s.thrown = false

/-- The outcomes agree, and the modules are those there were. -/
def Same (g : Reg) (r : Res (Mediator.St W U)) (d : Res (St W U)) : Prop :=
  match r, d with
  | .ok s, .ok e => old e = s ∧ Calm g e
  | .ub, .ub => True
  | .hang, .hang => True
  | _, _ => False

variable {g : Reg}

theorem Same.bind {r : Res (Mediator.St W U)} {d : Res (St W U)} (h : Same g r d)
    {j : Mediator.St W U → Res (Mediator.St W U)} {k : St W U → Res (St W U)}
    (hg : ∀ e, Calm g e → Same g (j (old e)) (k e)) : Same g (r >>= j) (d >>= k) := by
  cases r <;> cases d <;> try exact h.elim
  · obtain ⟨rfl, c⟩ := h
    exact hg _ c
  · trivial
  · trivial

theorem Calm.emit {s : St W U} (c : Calm g s) (e : Ev W) : Calm g (s.emit e) := ⟨c.live, c.arr, c.cnt, c.thrown⟩

theorem old_emit {s : St W U} (e : Ev W) {e' : Mediator.Ev W} (h : oldEv e = some e') :
    old (s.emit e) = (old s).emit e' := by
  simp [old, St.emit, Mediator.St.emit, h]

theorem old_quiet {s : St W U} {e : Ev W} (h : oldEv e = none) : old (s.emit e) = old s := by
  simp [old, St.emit, h]

/-- Callbacks that agree. -/
def Calls (g : Reg) (call : U → (m t : Nat) → W.Val t → Mediator.St W U → Res (Mediator.St W U)) (call' : Call W U) :
    Prop := ∀ u m t v e, m ∈ g.l → Calm g e → Same g (call u m t v (old e)) (call' u m t v e)

variable {call : U → (m t : Nat) → W.Val t → Mediator.St W U → Res (Mediator.St W U)} {call' : Call W U}

theorem receive_agree (hc : Calls g call call') {n m id : Nat} (hm : m ∈ g.l) {bytes : List Byte} {s : St W U}
    (c : Calm g s) :
    Same g (Mediator.receive call n m id bytes (old s)) (receive call' n m id bytes s) := by
  unfold Mediator.receive receive
  cases matchType W id (W.recvs m) with
  | none => exact ⟨rfl, c⟩
  | some t =>
    dsimp only
    cases convertField W t bytes with
    | none => exact ⟨rfl, c⟩
    | some v =>
      dsimp only
      rw [← old_emit (.recv n m t v) rfl]
      exact hc _ _ _ _ _ hm (c.emit _)

theorem deliver_agree (hc : Calls g call call') {k id : Nat} {src : Option Nat} (hs : ∀ m, src = some m → m ∈ g.l)
    {bytes : List Byte} : ∀ (n i : Nat) (s : St W U), Calm g s → g.arr.length = n + i →
    Same g (Mediator.deliver call k id bytes (g.cnt - i) i (old s)) (deliver call' k id src bytes n i s)
  | 0, i, s, c, ha => by
    have := g.room
    rw [deliver, c.cnt, if_neg (by omega), show g.cnt - i = 0 by omega, Mediator.deliver]
    exact ⟨rfl, c⟩
  | n + 1, i, s, c, ha => by
    rw [deliver, c.cnt]
    by_cases hi : i < g.cnt
    · obtain ⟨m, hm, he⟩ := g.known i hi
      rw [if_pos hi, show g.cnt - i = (g.cnt - (i + 1)) + 1 by omega, Mediator.deliver, show (old s).arr = g.arr from c.arr,
        c.arr, he]
      dsimp only
      have hl : m ∈ s.live ∧ senderLives src s = true := by
        refine ⟨c.live ▸ hm, ?_⟩
        unfold senderLives
        cases src with
        | none => rfl
        | some x => simpa using c.live ▸ hs x rfl
      rw [if_pos hl]
      by_cases hh : W.hash (W.sends m) ≠ id
      · rw [if_pos hh, if_pos hh]
        refine (receive_agree hc hm c).bind fun e ce => ?_
        rw [if_neg (by simp [ce.thrown])]
        exact deliver_agree hc hs n (i + 1) e ce (by omega)
      · rw [if_neg hh, if_neg hh]
        exact deliver_agree hc hs n (i + 1) s c (by omega)
    · rw [if_neg hi, show g.cnt - i = 0 by omega, Mediator.deliver]
      exact ⟨rfl, c⟩

theorem overwrite_same (b : List Byte) : overwrite (fun i => b.getD i 0) b = b := by
  apply List.ext_getElem
  · simp [overwrite]
  · intro i h1 h2
    simp [overwrite, h2]

theorem Calm.finish {s s0 : St W U} (c : Calm g s) (k : Nat) (src : Option Nat) (t : Nat) (b b' : List Byte) :
    Calm g (s.finish k src t b b' s0) := ⟨c.live, c.arr, c.cnt, c.thrown⟩

theorem old_count {s : St W U} {c : Nat} : old { s with count := c } = { old s with count := c } := rfl

theorem castAll_agree (hc : Calls g call call') {t : Nat} {v : W.Val t} {s : St W U} (c : Calm g s) :
    Same g (Mediator.castAll call t v (old s)) (castAll call' t v s) := by
  unfold Mediator.castAll castAll
  dsimp only
  have c' : Calm g (({ s with count := s.count + 1 } : St W U).emit (.start s.count none t ((W.pod t).enc v))) :=
    ⟨c.live, c.arr, c.cnt, c.thrown⟩
  have hd := deliver_agree hc (k := s.count) (id := W.hash t) (src := none) (fun _ h => nomatch h)
    (bytes := (W.pod t).enc v) g.arr.length 0 _ c' (by omega)
  rw [c'.arr]
  rw [old_emit _ rfl, old_count] at hd
  have hx : ∀ r d, Same g r d → Same g r (d >>= fun s' => .ok (s'.finish s.count none t ((W.pod t).enc v)
      ((W.pod t).enc v) s)) := by
    intro r d h
    cases r <;> cases d <;> try exact h.elim
    · exact ⟨h.1, h.2.finish ..⟩
    · trivial
    · trivial
  refine hx _ _ ?_
  rw [← c.cnt] at hd
  exact hd

/-- Outcomes of `distribute`, which also says what is left of the bytes, agree. -/
def Same2 (g : Reg) (bytes : List Byte) (r : Res (Mediator.St W U)) (d : Res (St W U × List Byte)) : Prop :=
  Same g r (d >>= fun x => .ok x.1) ∧ ∀ x, d = .ok x → x.2 = bytes

theorem distribute_agree (hc : Calls g call call') {H : Mediator.Handlers W U} {m : Nat} (hm : m ∈ g.l)
    {bytes : List Byte} {s : St W U} (c : Calm g s) (f : Nat) :
    Same2 g bytes (Mediator.distribute call m bytes (old s))
      (distribute call' (fun u id b => exec (liftAll H) (f + 1) ((liftAll H).hook u id b)) (liftAll H).edit m bytes s) := by
  unfold Mediator.distribute distribute callHook
  dsimp only
  rw [show (liftAll H).hook = fun u _ _ => .ret u from rfl, show (liftAll H).edit = fun _ _ b i => b.getD i 0 from rfl]
  simp only [exec, Res.ok_bind]
  have c' : Calm g ((((({ s with count := s.count + 1 } : St W U).emit (.start s.count (some m) (W.sends m) bytes)).emit
    (.hook s.count (W.hash (W.sends m)) bytes))).emit (.left s.count bytes)) := ⟨c.live, c.arr, c.cnt, c.thrown⟩
  have hd := deliver_agree hc (k := s.count) (id := W.hash (W.sends m)) (src := some m) (fun _ h => by cases h; exact hm)
    (bytes := bytes) g.arr.length 0 _ c' (by omega)
  rw [old_quiet rfl, old_emit _ rfl, old_emit _ rfl, old_count] at hd
  unfold afterHook
  rw [if_neg (by simp [St.emit, c.thrown])]
  simp only [overwrite_same]
  rw [← c.cnt] at hd
  have hx : ∀ r d, Same g r d → Same2 g bytes r (d >>= fun s' => .ok (s'.finish s.count (some m) (W.sends m) bytes
      bytes s, bytes)) := by
    intro r d h
    cases r <;> cases d <;> try exact h.elim
    · exact ⟨⟨h.1, h.2.finish ..⟩, fun x hx => by cases hx; rfl⟩
    · exact ⟨trivial, fun x hx => nomatch hx⟩
    · exact ⟨trivial, fun x hx => nomatch hx⟩
  refine hx _ _ ?_
  rw [← c.arr] at hd
  exact hd

theorem deliver_defined {k id : Nat} {bytes : List Byte} : ∀ (n i : Nat) (s : Mediator.St W U), s.arr = g.arr →
    n + i ≤ g.cnt → Mediator.deliver (fun _ _ _ _ _ => .hang) k id bytes n i s ≠ .ub
  | 0, i, s, _, _ => fun h => nomatch h
  | n + 1, i, s, ha, hi => by
    obtain ⟨m, hm, he⟩ := g.known i (by omega)
    rw [Mediator.deliver, ha, he]
    dsimp only
    have ih := deliver_defined n (i + 1) s ha (by omega) (k := k) (id := id) (bytes := bytes)
    by_cases hh : W.hash (W.sends m) ≠ id
    · rw [if_pos hh]
      unfold Mediator.receive
      cases matchType W id (W.recvs m) with
      | none => exact ih
      | some t =>
        dsimp only
        cases convertField W t bytes with
        | none => exact ih
        | some v => exact fun h => nomatch h
    · rw [if_neg hh]
      exact ih

theorem distribute_defined {m : Nat} {bytes : List Byte} {s : St W U} (c : Calm g s) :
    Mediator.distribute (fun _ _ _ _ _ => .hang) m bytes (old s) ≠ .ub := by
  unfold Mediator.distribute
  exact deliver_defined (g := g) (old s).cnt 0 _ c.arr (Nat.le_of_eq c.cnt)

theorem stuck {r : Res (Mediator.St W U)} (h : r ≠ .ub) : (r >>= fun _ => (.hang : Res (Mediator.St W U))) = .hang := by
  cases r
  · rfl
  · exact absurd rfl h
  · rfl

theorem Same2.bind {bytes : List Byte} {r : Res (Mediator.St W U)} {d : Res (St W U × List Byte)} (h : Same2 g bytes r d)
    {j : Mediator.St W U → Res (Mediator.St W U)} {k : St W U × List Byte → Res (St W U)}
    (hg : ∀ e, Calm g e → Same g (j (old e)) (k (e, bytes))) : Same g (r >>= j) (d >>= k) := by
  obtain ⟨h1, h2⟩ := h
  cases r <;> cases d <;> try exact h1.elim
  · obtain ⟨rfl, c⟩ := h1
    have := h2 _ rfl
    subst this
    exact hg _ c
  · trivial
  · trivial

/-- The programs agree: from a state in which the manager knows modules that exist, a program that sends from modules that
exist ends in both models in the same state, or does not end in both, or is undefined in both, if callbacks of
modules that exist do the same. -/
theorem exec_agree {H : Mediator.Handlers W U} (hH : ∀ u m t v, m ∈ g.l → Only g.l (H u m t v)) : ∀ (f : Nat)
    {p : Mediator.Prog W U} {s : St W U}, Only g.l p → Calm g s →
    Same g (Mediator.exec H f p (old s)) (exec (liftAll H) f (lift p) s)
  | 0, p, s, _, _ => by
    rw [Mediator.exec]
    simp only [exec]
    trivial
  | f + 1, p, s, hp, c => by
    have hc : Calls g (fun u m t v => Mediator.exec H f (H u m t v))
        (fun u m t v => exec (liftAll H) f ((liftAll H).data u m t v)) := fun u m t v e hm ce =>
      exec_agree hH f (hH u m t v hm) ce
    have next : ∀ {k : U → Mediator.Prog W U}, (∀ u, Only g.l (k u)) → ∀ e : St W U, Calm g e →
        Same g (Mediator.exec H f (k (old e).user) (old e)) (onward (fun s => exec (liftAll H) f (lift (k s.user)) s) e) := by
      intro k hk e ce
      rw [onward, if_neg (by simp [ce.thrown])]
      exact exec_agree hH f (hk _) ce
    cases hp with
    | ret u =>
      simp only [lift, exec, Mediator.exec]
      exact ⟨rfl, c.live, c.arr, c.cnt, c.thrown⟩
    | set u p hp =>
      simp only [lift, exec, Mediator.exec]
      cases f with
      | zero =>
        simp only [exec, Mediator.exec]
        trivial
      | succ f =>
        rw [exec, Res.ok_bind]
        exact exec_agree hH (f + 1) (s := { s with user := u, thrown := false }) hp ⟨c.live, c.arr, c.cnt, rfl⟩
    | send m v k hm hk =>
      simp only [lift, exec, Mediator.exec]
      rw [if_pos (c.live ▸ hm)]
      cases f with
      | zero =>
        simp only [exec, Mediator.exec]
        rw [stuck (distribute_defined c)]
        trivial
      | succ f => exact (distribute_agree hc hm c f).bind (next hk)
    | raw m b k hm hk =>
      simp only [lift, exec, Mediator.exec]
      rw [if_pos (c.live ▸ hm)]
      cases f with
      | zero =>
        simp only [exec, Mediator.exec]
        rw [stuck (distribute_defined c)]
        trivial
      | succ f => exact (distribute_agree hc hm c f).bind (next hk)
    | cast t v k hk =>
      simp only [lift, exec, Mediator.exec]
      exact (castAll_agree hc c).bind (next hk)

/-! ### Histories -/

theorem remove_reg (s : Mediator.St W U) (c : Nat) : ∀ (n i : Nat) (a b : Mediator.St W U), a.arr = s.arr → a.cnt = s.cnt →
    b.arr = s.arr → b.cnt = s.cnt → ∀ a', findRemove c n i a = .ok a' →
    ∃ b', findRemove c n i b = .ok b' ∧ b'.arr = a'.arr ∧ b'.cnt = a'.cnt ∧ a'.user = a.user ∧ a'.log = a.log ∧
      a'.count = a.count
  | 0, i, a, b, h1, h2, h3, h4, a', h => by
    cases h
    exact ⟨b, rfl, h3.trans h1.symm, h4.trans h2.symm, rfl, rfl, rfl⟩
  | n + 1, i, a, b, h1, h2, h3, h4, a', h => by
    rw [findRemove, h1, h2] at h
    rw [findRemove, h3, h4]
    cases e : s.arr[i]? with
    | none => rw [e] at h; cases h
    | some p =>
      rw [e] at h
      dsimp only at h ⊢
      by_cases hp : p = some c
      · rw [if_pos hp] at h ⊢
        cases hs : shift (s.cnt - 1 - i) i s.arr with
        | ub => rw [hs] at h; cases h
        | hang => rw [hs] at h; cases h
        | ok arr =>
          rw [hs, Res.ok_bind] at h
          rw [Res.ok_bind]
          by_cases hc : s.cnt < arr.length
          · rw [if_pos hc] at h ⊢
            cases h
            exact ⟨_, rfl, rfl, rfl, rfl, rfl, rfl⟩
          · rw [if_neg hc] at h
            cases h
      · rw [if_neg hp] at h ⊢
        exact remove_reg s c n (i + 1) a b h1 h2 h3 h4 a' h

/-- Histories of `Mediator/Model.lean` in which only modules that exist send. -/
inductive Proper (H : Mediator.Handlers W U) (sources : Nat) : List Nat → Mediator.St W U → Prop
  | new (u : U) : Proper H sources [] (Mediator.St.new sources u)
  | construct (l : List Nat) (s s' : Mediator.St W U) (m : Nat) : Proper H sources l s → m ∉ l →
      l.length < sources → addModule s m = .ok s' → Proper H sources (l ++ [m]) s'
  | destroy (l : List Nat) (s s' : Mediator.St W U) (m : Nat) : Proper H sources l s → m ∈ l →
      removeModule s m = .ok s' → Proper H sources (l.filter (· != m)) s'
  | run (l : List Nat) (s s' : Mediator.St W U) (f : Nat) (p : Mediator.Prog W U) : Proper H sources l s →
      (∀ u m t v, m ∈ l → Only l (H u m t v)) → Only l p → Mediator.exec H f p s = .ok s' → Proper H sources l s'

theorem Proper.reach {H : Mediator.Handlers W U} {sources : Nat} {l : List Nat} {s : Mediator.St W U}
    (h : Proper H sources l s) : Mediator.Reach H sources l s := by
  induction h with
  | new u => exact .new u
  | construct l s s' m _ hm hl e ih => exact .construct l s s' m ih hm hl e
  | destroy l s s' m _ hm e ih => exact .destroy l s s' m ih hm e
  | run l s s' f p _ _ _ e ih => exact .run l s s' f p ih e

/-- Every such history is one of `Mediator/Dynamic.lean`, with the same modules, array, user state, messages and events. -/
theorem Proper.agree {H : Mediator.Handlers W U} {sources : Nat} {l : List Nat} {s : Mediator.St W U}
    (h : Proper H sources l s) : ∃ d, Reach (liftAll H) sources d ∧ old d = s ∧ d.live = l ∧ d.thrown = false := by
  induction h with
  | new u => exact ⟨_, .new u, rfl, rfl, rfl⟩
  | construct l s s' m hp hm hl e ih =>
    obtain ⟨d, r, rfl, rfl, ht⟩ := ih
    have e' : exec (liftAll H) 2 (.make m fun u => .ret u) d =
        .ok ⟨s'.arr, s'.cnt, d.live ++ [m], d.user, d.log ++ [Ev.made m], d.count, d.sent, d.thrown⟩ := by
      unfold addModule at e
      simp only [exec, make, if_neg hm, addModule]
      change (if d.cnt < d.arr.length then _ else _) = _ at e
      by_cases hc : d.cnt < d.arr.length
      · rw [if_pos hc] at e
        rw [if_pos (show d.reg.cnt < d.reg.arr.length from hc)]
        cases e
        rfl
      · rw [if_neg hc] at e
        cases e
    refine ⟨_, .run _ _ _ _ r e' ht, ?_, rfl, ht⟩
    unfold addModule at e
    change (if d.cnt < d.arr.length then _ else _) = _ at e
    by_cases hc : d.cnt < d.arr.length
    · rw [if_pos hc] at e
      cases e
      simp [old, oldEv]
    · rw [if_neg hc] at e
      cases e
  | destroy l s s' m hp hm e ih =>
    obtain ⟨d, r, rfl, rfl, ht⟩ := ih
    obtain ⟨b, eb, h1, h2, h3, h4, h5⟩ := remove_reg (old d) m (old d).cnt 0 (old d) d.reg rfl rfl rfl rfl s' e
    have e' : exec (liftAll H) 2 (.drop m fun u => .ret u) d =
        .ok ⟨b.arr, b.cnt, d.live.filter (· != m), d.user, d.log ++ [Ev.gone m], d.count, d.sent, d.thrown⟩ := by
      simp only [exec, drop, if_pos hm, removeModule]
      rw [show d.reg.cnt = (old d).cnt from rfl, eb]
      rfl
    refine ⟨_, .run _ _ _ _ r e' ht, ?_, rfl, ht⟩
    cases s'
    simp only [old, List.filterMap_append, List.filterMap_cons, oldEv, List.filterMap_nil, List.append_nil] at *
    subst h1 h2 h3 h4 h5
    rfl
  | run l s s' f p hp hH ho e ih =>
    obtain ⟨d, r, rfl, rfl, ht⟩ := ih
    obtain ⟨_, k2, k3, k4⟩ := hp.reach.knows
    have k5 := k4.cnt
    have k6 := k4.at_
    let g : Reg := ⟨d.live, d.arr, d.cnt, by
      rw [show d.arr.length = sources from k3, show d.cnt = d.live.length from k5]; exact k2, fun i hi => by
      have hi' : i < d.live.length := by rw [← show d.cnt = d.live.length from k5]; exact hi
      exact ⟨d.live[i], List.getElem_mem _, by rw [show d.arr[i]? = _ from k6 i hi', List.getElem?_eq_getElem hi']⟩⟩
    have c : Calm g d := ⟨rfl, rfl, rfl, ht⟩
    have hs := exec_agree (g := g) hH f ho c
    rw [e] at hs
    cases ed : exec (liftAll H) f (lift p) d with
    | ub => rw [ed] at hs; exact hs.elim
    | hang => rw [ed] at hs; exact hs.elim
    | ok d' =>
      rw [ed] at hs
      exact ⟨d', .run _ _ _ _ r ed hs.2.thrown, hs.1, hs.2.live, hs.2.thrown⟩

theorem Ex_only (u : Nat) (m t : Nat) (v : Ex.W.Val t) : Only [1, 2] (Ex.H u m t v) := by
  unfold Ex.H
  by_cases h : m = 2 ∧ t = 0 ∧ u < 2
  · rw [if_pos h]
    exact .send _ _ _ (by decide) fun u => .ret _
  · rw [if_neg h]
    exact .ret _

/-- Two modules; the second answers a message of the first. -/
example : ∃ s, Proper Ex.H 6 [1, 2] s ∧ s.log.map Ex.key =
    [[0, 0, 2, 0, 0x34, 0x12], [1, 0, 7, 0x34, 0x12], [2, 0, 2, 0, 0x34, 0x12], [0, 1, 3, 1, 5, 0, 0, 0],
      [1, 1, 17, 5, 0, 0, 0]] :=
  ⟨_, .run [1, 2] _ _ 20 (.send 1 (0x1234#16) fun u => .ret u)
    (.construct [1] _ _ 2 (.construct [] (Mediator.St.new 6 0) _ 1 (.new 0) (by decide) (by decide) rfl) (by decide)
      (by decide) rfl) (fun u m t v _ => Ex_only u m t v) (.send _ _ _ (by decide) fun u => .ret u) rfl,
    by decide +kernel⟩

end Verif.Mediator.Dyn.Agree
