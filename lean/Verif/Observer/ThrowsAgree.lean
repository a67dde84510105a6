import Verif.Observer.Throws
import Verif.Observer.CallbacksProps
/-!
The two models of `observable<T, false>` with callbacks agree: callbacks that do not throw, that catch what the calls they
make throw, and that do not destroy the object do in `Throws.lean`, without the mutex, what they do in `Callbacks.lean`.
-/
namespace Verif.Observer.Throw.Agree
open Verif

variable {V U : Type}

/-- The member functions that `Callbacks.lean` has (observer.hpp:254-318). -/
def liftOp : Observer.Op V → Op V
  | .add o => .add o
  | .remove o => .remove o
  | .clear => .clear
  | .notify v => .notify v

/-- How `Callbacks.lean` writes the end of a call (observer_errors.hpp:24-54). -/
def code : Option Exc → Err
  | none => .ok
  | some .alreadyContains => .alreadyContains
  | some .notFound => .notFound
  | some .user => .internalDataBroken

/-- A callback of `Callbacks.lean` (overrides of observer.hpp:50-52, 61-63). -/
def lift : Observer.Prog V U → Prog V U
  | .ret u => .ret u
  | .set u k => .set u (lift k)
  | .call op k => .call (liftOp op) fun r u => lift (k (code r) u)

/-- The callbacks of `Callbacks.lean` (observer.hpp:50-52, 61-63). -/
def liftAll (H : Observer.Handlers V U) : Handlers V U := ⟨fun u o v => lift (H.data u o v), fun u o => lift (H.disconnect u o)⟩

/-- The call of `Callbacks.lean`. -/
def oldOp : Op V → Option (Observer.Op V)
  | .add o => some (.add o)
  | .remove o => some (.remove o)
  | .clear => some .clear
  | .notify v => some (.notify v)
  | .destroy => none

/-- The events of `Callbacks.lean`. -/
def oldEv : Ev V → Option (Cb.Ev V)
  | .enter s o v => some (.enter s o v)
  | .disc s o => some (.disc s o)
  | .leave o => some (.leave o)
  | .ret op r => (oldOp op).map fun op => .ret op (code r)
  | _ => none

/-- A state as `Callbacks.lean` has it. -/
def old (s : St V U) : Cb.St V U := ⟨s.self, s.obs, s.gen, s.user, s.log.filterMap oldEv⟩

/-- The object is alive and not locked. -/
def Free (s : St V U) : Prop := s.alive = true ∧ s.locked = false

/-- The outcomes of calls agree. -/
def Same (r : Res (Cb.St V U × Err)) (d : End V U) : Prop :=
  match r, d with
  | .ok (s, e), .ok (t, x) => old t = s ∧ code x = e ∧ Free t
  | .ub, .ub => True
  | .hang, .deep => True
  | _, _ => False

/-- The outcomes of code that does not throw agree. -/
def Calm (r : Res (Cb.St V U)) (d : End V U) : Prop :=
  match r, d with
  | .ok s, .ok (t, none) => old t = s ∧ Free t
  | .ub, .ub => True
  | .hang, .deep => True
  | _, _ => False

theorem Same.bind {r : Res (Cb.St V U × Err)} {d : End V U} (h : Same r d) {j : Cb.St V U × Err → Res (Cb.St V U)}
    {k : St V U × Option Exc → End V U} (hk : ∀ t x, Free t → Calm (j (old t, code x)) (k (t, x))) :
    Calm (r >>= j) (d.bind k) := by
  cases r with
  | ok a => cases d with
    | ok b =>
      obtain ⟨s, e⟩ := a
      obtain ⟨t, x⟩ := b
      obtain ⟨rfl, rfl, f⟩ := h
      exact hk t x f
    | _ => exact h.elim
  | ub => cases d <;> first | exact h.elim | trivial
  | hang => cases d <;> first | exact h.elim | trivial

theorem Calm.bind {r : Res (Cb.St V U)} {d : End V U} (h : Calm r d) {j : Cb.St V U → Res (Cb.St V U)}
    {k : St V U × Option Exc → End V U} (hk : ∀ t, Free t → Calm (j (old t)) (k (t, none))) :
    Calm (r >>= j) (d.bind k) := by
  cases r with
  | ok a => cases d with
    | ok b =>
      obtain ⟨t, x⟩ := b
      cases x with
      | none =>
        obtain ⟨rfl, f⟩ := h
        exact hk t f
      | some x => exact h.elim
    | _ => exact h.elim
  | ub => cases d <;> first | exact h.elim | trivial
  | hang => cases d <;> first | exact h.elim | trivial

theorem old_emit (s : St V U) (e : Ev V) {e' : Cb.Ev V} (h : oldEv e = some e') : old (s.emit e) = (old s).emit e' := by
  simp [old, St.emit, Cb.St.emit, h]

theorem old_quiet (s : St V U) (e : Ev V) (h : oldEv e = none) : old (s.emit e) = old s := by
  simp [old, St.emit, h]

/-- Ways of running calls that agree. -/
def Calls (ex : Cb.Ex V U) (ex' : Ex V U) : Prop := ∀ t op, Free t → Same (ex (old t) op) (ex' t (liftOp op))

variable {ex : Cb.Ex V U} {ex' : Ex V U}

theorem runProg_agree (hc : Calls ex ex') : ∀ (p : Observer.Prog V U) (t : St V U), Free t →
    Calm (Cb.runProg ex p (old t)) (runProg ex' (lift p) t)
  | .ret u, t, f => ⟨rfl, f⟩
  | .set u k, t, f => runProg_agree hc k { t with user := u } f
  | .call op k, t, f => by
    simp only [lift, runProg, Cb.runProg]
    exact (hc t op f).bind fun t' x f' => runProg_agree hc (k (code x) t'.user) t' f'

theorem callback_agree (hc : Calls ex ex') {noex : Bool} {e : Ev V} {e' : Cb.Ev V} (he : oldEv e = some e')
    {p : U → Observer.Prog V U} {o : Nat} {t : St V U} (f : Free t) :
    Calm (Cb.callback ex e' p o (old t)) (callback ex' noex e (fun u => lift (p u)) o t) := by
  unfold Cb.callback callback
  rw [← old_emit t e he]
  refine (runProg_agree hc (p t.user) (t.emit e) f).bind fun t' f' => ?_
  exact ⟨old_emit t' (.leave o) rfl, f'⟩

theorem loop_agree (hc : Calls ex ex') {noex : Bool} {e : St V U → Nat → Ev V} {e' : Cb.St V U → Nat → Cb.Ev V}
    (he : ∀ t o, oldEv (e t o) = some (e' (old t) o)) {p : Nat → U → Observer.Prog V U} {g : Nat} :
    ∀ (left i : Nat) (t : St V U), Free t →
    Calm (Cb.loop ex e' p g i left (old t)) (loop ex' noex e (fun o u => lift (p o u)) g i left t)
  | 0, i, t, f => by
    rw [Cb.loop, loop]
    change Calm (if t.gen = g then _ else _) _
    by_cases h : t.gen = g
    · rw [if_pos h, if_pos h]
      exact ⟨rfl, f⟩
    · rw [if_neg h, if_neg h]
      trivial
  | left + 1, i, t, f => by
    rw [Cb.loop, loop]
    change Calm (if t.gen = g then _ else _) _
    by_cases h : t.gen = g
    · rw [if_pos h, if_pos h]
      unfold Cb.deref deref
      change Calm ((match t.obs[i]? with | some o => .ok o | none => .ub) >>= _) _
      cases t.obs[i]? with
      | none => trivial
      | some o => exact (callback_agree hc (he t o) f).bind fun t' f' => loop_agree hc he left (i + 1) t' f'
    · rw [if_neg h, if_neg h]
      trivial

theorem Calm.same {r : Res (Cb.St V U)} {d : End V U} (h : Calm r d) {j : Cb.St V U → Cb.St V U}
    {k : St V U × Option Exc → End V U} (hk : ∀ t, Free t → ∃ t', k (t, none) = .ok (t', none) ∧ old t' = j (old t) ∧
      Free t') : Same (r >>= fun s => .ok (j s, .ok)) (d.bind k) := by
  cases r with
  | ok a => cases d with
    | ok b =>
      obtain ⟨t, x⟩ := b
      cases x with
      | none =>
        obtain ⟨rfl, f⟩ := h
        obtain ⟨t', h1, h2, h3⟩ := hk t f
        simp only [Out.bind, h1]
        exact ⟨h2, rfl, h3⟩
      | some x => exact h.elim
    | _ => exact h.elim
  | ub => cases d <;> first | exact h.elim | trivial
  | hang => cases d <;> first | exact h.elim | trivial

theorem bind_ok {r : End V U} : r.bind (fun x => .ok x) = r := by cases r <;> rfl

theorem body_agree (hc : Calls ex ex') {H : Observer.Handlers V U} {t : St V U} (f : Free t) (op : Observer.Op V) :
    Same (Cb.body ex H (old t) op) (body ex' (liftAll H) t (liftOp op)) := by
  cases op with
  | add o =>
    simp only [Cb.body, body, liftOp, Cb.add, add, show (old t).obs = t.obs from rfl]
    by_cases h : (!Dyn.scan o t.obs) = true
    · rw [if_pos h, if_pos h]
      exact ⟨rfl, rfl, f⟩
    · rw [if_neg h, if_neg h]
      exact ⟨rfl, rfl, f⟩
  | remove o =>
    simp only [Cb.body, body, liftOp, Cb.remove, remove, show (old t).obs = t.obs from rfl]
    by_cases h : t.obs.length - (Dyn.erase o t.obs).length = 0
    · rw [if_pos h, if_pos h]
      exact ⟨rfl, rfl, f⟩
    · rw [if_neg h, if_neg h]
      exact ⟨rfl, rfl, f⟩
  | clear =>
    simp only [Cb.body, body, liftOp, Cb.clear, clear]
    exact (loop_agree hc (fun _ _ => rfl) t.obs.length 0 t f).same fun t' f' => ⟨_, rfl, rfl, f'⟩
  | notify v =>
    simp only [Cb.body, body, liftOp, Cb.notify, notify]
    rw [← bind_ok (r := loop ..)]
    exact (loop_agree hc (fun _ _ => rfl) t.obs.length 0 t f).same (j := id) fun t' f' => ⟨_, rfl, rfl, f'⟩

theorem oldOp_lift (op : Observer.Op V) : oldOp (liftOp op) = some op := by cases op <;> rfl

/-- The calls agree. -/
theorem exec_agree {H : Observer.Handlers V U} : ∀ n : Nat, Calls (Cb.exec H n) (exec false (liftAll H) n)
  | 0, t, op, f => by
    rw [Cb.exec, exec]
    trivial
  | n + 1, t, op, f => by
    rw [Cb.exec, exec, Cb.execStep, execStep, if_pos f.1, if_neg (by simp [f.2])]
    have h := body_agree (exec_agree (H := H) n) (H := H) (t := lockOn false t (liftOp op)) ⟨f.1, rfl⟩ op
    rw [show old (lockOn false t (liftOp op)) = old t from old_quiet t _ rfl] at h
    generalize Cb.body (Cb.exec H n) H (old t) op = r at h
    generalize body (exec false (liftAll H) n) (liftAll H) (lockOn false t (liftOp op)) (liftOp op) = d at h
    cases r with
    | ok a => cases d with
      | ok b =>
        obtain ⟨s, e⟩ := a
        obtain ⟨t', x⟩ := b
        obtain ⟨rfl, rfl, f'⟩ := h
        refine ⟨?_, rfl, f'.1, rfl⟩
        exact old_emit t' _ (by rw [oldEv, oldOp_lift]; rfl)
      | _ => exact h.elim
    | ub => cases d <;> first | exact h.elim | trivial
    | hang => cases d <;> first | exact h.elim | trivial

/-- Every history of `Callbacks.lean` is one of `Throws.lean` without the mutex. -/
theorem reach_agree {H : Observer.Handlers V U} {s : Cb.St V U} (h : Cb.Reach H s) :
    ∃ t, Reach false (liftAll H) t ∧ old t = s ∧ Free t := by
  induction h with
  | new self u => exact ⟨_, .new self u, rfl, rfl, rfl⟩
  | call s s' n op e _ he ih =>
    obtain ⟨t, r, rfl, f⟩ := ih
    have hs := exec_agree (H := H) n t op f
    rw [he] at hs
    cases ed : exec false (liftAll H) n t (liftOp op) with
    | ok b =>
      obtain ⟨t', x⟩ := b
      rw [ed] at hs
      exact ⟨t', .call _ _ n _ x r ed, hs.1, hs.2.2⟩
    | ub => rw [ed] at hs; exact hs.elim
    | deep => rw [ed] at hs; exact hs.elim
    | stuck => rw [ed] at hs; exact hs.elim
    | term l => rw [ed] at hs; exact hs.elim
  | user s u _ ih =>
    obtain ⟨t, r, rfl, f⟩ := ih
    exact ⟨_, .user t u r, rfl, f⟩

/-- Three observers, two of which call back. -/
example : ∃ t, Reach false (liftAll Cb.polite) t ∧ old t = Cb.three ∧ Free t := reach_agree (Cb.three_reach _)

end Verif.Observer.Throw.Agree
