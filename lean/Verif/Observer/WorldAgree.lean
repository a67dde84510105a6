import Verif.Observer.World
import Verif.Observer.Props
/-!
The two models of `observable<T, true, Max>` agree: programs and callbacks that use one observable, and observers that are
alive, do in `World.lean` what they do in `Model.lean`.  (`World.lean` also records the end of `disconnect`; the logs are
compared without the ends of callbacks.)
-/
namespace Verif.Observer.World.Agree
open Verif Verif.Observer

variable {V U : Type}

/-- The call of `Model.lean` as a call of the observable `a` (observer.hpp:93-163). -/
def liftOp (a : Nat) : Observer.Op V → Op V
  | .add o => .add a o
  | .remove o => .remove a o
  | .clear => .clear a
  | .notify v => .notify a v

/-- A callback of `Model.lean` (overrides of observer.hpp:50-52, 61-63). -/
def lift (a : Nat) : Observer.Prog V U → Prog V U
  | .ret u => .ret u
  | .set u k => .set u (lift a k)
  | .call op k => .call (liftOp a op) fun e u => lift a (k e u)

/-- The callbacks of `Model.lean` (observer.hpp:50-52, 61-63). -/
def liftAll (a : Nat) (H : Observer.Handlers V U) : Handlers V U :=
  ⟨fun u _ o v => lift a (H.data u o v), fun u _ o => lift a (H.disconnect u o)⟩

/-- Calls of `a` in the form of `Model.lean`. -/
def oldOp : Op V → Option (Observer.Op V)
  | .add _ o => some (.add o)
  | .remove _ o => some (.remove o)
  | .clear _ => some .clear
  | .notify _ v => some (.notify v)
  | _ => none

/-- The starts of callbacks and ends of calls in the form of `Model.lean`. -/
def oldEv : Ev V → Option (Observer.Ev V)
  | .data a o v => some (.enter a o v)
  | .disc a o => some (.disc a o)
  | .ret op e => (oldOp op).map fun op => .ret op e
  | _ => none

/-- All events but the ends of callbacks. -/
def kept (l : List (Observer.Ev V)) : List (Observer.Ev V) := l.filter fun e => match e with
  | .leave _ => false
  | _ => true

/-- The call names observers of `A` only. -/
def Fine (A : List Nat) : Observer.Op V → Prop
  | .add o => o ∈ A
  | _ => True

/-- All calls of a callback do. -/
inductive Only (A : List Nat) : Observer.Prog V U → Prop
  | ret (u : U) : Only A (.ret u)
  | set (u : U) (k : Observer.Prog V U) : Only A k → Only A (.set u k)
  | call (op : Observer.Op V) (k : Err → U → Observer.Prog V U) : Fine A op → (∀ e u, Only A (k e u)) → Only A (.call op k)

/-- The observable `a` of `w` and the observers `A` are those of `s`. -/
structure Like (a : Nat) (A : List Nat) (s : Observer.St V U) (w : St V U) : Prop where
  self : s.self = a
  obj : w.objs a = some ⟨s.arr, s.count, s.inside⟩
  alive : w.alive = A
  user : w.user = s.user
  log : w.log.filterMap oldEv = kept s.log
  known : ∀ o, some o ∈ s.arr → o ∈ A

/-- The outcomes agree. -/
def Same (a : Nat) (A : List Nat) (r : Res (Observer.St V U)) (d : Out (St V U)) : Prop :=
  match r, d with
  | .ok s, .ok w => Like a A s w
  | .ub, .ub => True
  | .hang, .deep => True
  | _, _ => False

/-- The outcomes of calls agree. -/
def SameE (a : Nat) (A : List Nat) (r : Res (Observer.St V U × Err)) (d : Out (St V U × Err)) : Prop :=
  match r, d with
  | .ok (s, e), .ok (w, x) => Like a A s w ∧ e = x
  | .ub, .ub => True
  | .hang, .deep => True
  | _, _ => False

variable {a : Nat} {A : List Nat}

theorem Same.bind {r : Res (Observer.St V U)} {d : Out (St V U)} (h : Same a A r d)
    {j : Observer.St V U → Res (Observer.St V U)} {k : St V U → Out (St V U)}
    (hk : ∀ s w, Like a A s w → Same a A (j s) (k w)) : Same a A (r >>= j) (d >>= k) := by
  cases r with
  | ok s => cases d with
    | ok w => exact hk s w h
    | _ => exact h.elim
  | ub => cases d <;> first | exact h.elim | trivial
  | hang => cases d <;> first | exact h.elim | trivial

theorem Same.bindE {r : Res (Observer.St V U)} {d : Out (St V U)} (h : Same a A r d)
    {j : Observer.St V U → Res (Observer.St V U × Err)} {k : St V U → Out (St V U × Err)}
    (hk : ∀ s w, Like a A s w → SameE a A (j s) (k w)) : SameE a A (r >>= j) (d >>= k) := by
  cases r with
  | ok s => cases d with
    | ok w => exact hk s w h
    | _ => exact h.elim
  | ub => cases d <;> first | exact h.elim | trivial
  | hang => cases d <;> first | exact h.elim | trivial

theorem SameE.bind {r : Res (Observer.St V U × Err)} {d : Out (St V U × Err)} (h : SameE a A r d)
    {j : Observer.St V U × Err → Res (Observer.St V U)} {k : St V U × Err → Out (St V U)}
    (hk : ∀ s w e, Like a A s w → Same a A (j (s, e)) (k (w, e))) : Same a A (r >>= j) (d >>= k) := by
  cases r with
  | ok s => cases d with
    | ok w =>
      obtain ⟨s, e⟩ := s
      obtain ⟨w, x⟩ := w
      obtain ⟨l, rfl⟩ := h
      exact hk s w e l
    | _ => exact h.elim
  | ub => cases d <;> first | exact h.elim | trivial
  | hang => cases d <;> first | exact h.elim | trivial

theorem Like.emit {s : Observer.St V U} {w : St V U} (l : Like a A s w) {e : Observer.Ev V} {e' : Ev V}
    (he : oldEv e' = some e) (hk : kept [e] = [e]) : Like a A (s.emit e) (w.emit e') := by
  refine ⟨l.self, l.obj, l.alive, l.user, ?_, l.known⟩
  have : kept (s.log ++ [e]) = kept s.log ++ kept [e] := by simp [kept]
  simp only [St.emit, Observer.St.emit, List.filterMap_append, this, hk, l.log]
  simp [he]

theorem Like.quiet {s : Observer.St V U} {w : St V U} (l : Like a A s w) {e' : Ev V} (he : oldEv e' = none) :
    Like a A s (w.emit e') := by
  refine ⟨l.self, l.obj, l.alive, l.user, ?_, l.known⟩
  simp [St.emit, he, l.log]

theorem Like.leave {s : Observer.St V U} {w : St V U} (l : Like a A s w) (o : Nat) :
    Like a A (s.emit (.leave o)) w := by
  refine ⟨l.self, l.obj, l.alive, l.user, ?_, l.known⟩
  simp [Observer.St.emit, kept, l.log]

theorem Like.put {s s' : Observer.St V U} {w : St V U} (l : Like a A s w) {x : Obj} (h1 : s'.self = s.self)
    (h2 : s'.user = s.user) (h3 : s'.log = s.log) (hx : x = ⟨s'.arr, s'.count, s'.inside⟩)
    (h : ∀ o, some o ∈ s'.arr → o ∈ A) : Like a A s' (w.put a x) :=
  ⟨h1.trans l.self, by simp [St.put, upd, hx], l.alive, l.user.trans h2.symm, by rw [h3]; exact l.log, h⟩

/-- Ways of running calls that agree. -/
def Calls (a : Nat) (A : List Nat) (ex : Observer.St V U → Observer.Op V → Res (Observer.St V U × Err)) (ex' : Ex V U) :
    Prop := ∀ s w op, Like a A s w → Fine A op → SameE a A (ex s op) (ex' w (liftOp a op))

variable {ex : Observer.St V U → Observer.Op V → Res (Observer.St V U × Err)} {ex' : Ex V U}

theorem runProg_agree (hc : Calls a A ex ex') {p : Observer.Prog V U} (hp : Only A p) : ∀ {s : Observer.St V U}
    {w : St V U}, Like a A s w → Same a A (Observer.runProg ex p s) (runProg ex' (lift a p) w) := by
  induction hp with
  | ret u =>
    intro s w l
    exact ⟨l.self, l.obj, l.alive, rfl, l.log, l.known⟩
  | set u k _ ih =>
    intro s w l
    exact ih (s := { s with user := u }) (w := { w with user := u }) ⟨l.self, l.obj, l.alive, rfl, l.log, l.known⟩
  | call op k hf _ ih =>
    intro s w l
    simp only [lift, runProg, Observer.runProg]
    refine (hc s w op l hf).bind fun s' w' e l' => ?_
    rw [l'.user]
    exact ih e s'.user l'

theorem get_ok {s : Observer.St V U} {w : St V U} (l : Like a A s w) : w.get a = .ok ⟨s.arr, s.count, s.inside⟩ := by
  rw [St.get, l.obj]

theorem notifyLoop_agree (hc : Calls a A ex ex') {H : Observer.Handlers V U} (hH : ∀ u o v, Only A (H.data u o v)) {v : V} :
    ∀ (left i : Nat) {s : Observer.St V U} {w : St V U}, Like a A s w →
    Same a A (Observer.notifyLoop ex H v i left s)
      (loop ex' (fun o => .data a o v) (fun u o => (liftAll a H).data u a o v) a i left w)
  | 0, i, s, w, l => l
  | left + 1, i, s, w, l => by
    rw [Observer.notifyLoop, loop, get_ok l, Out.ok_bind]
    unfold Observer.deref Obj.deref
    cases e : s.arr[i]? with
    | none => trivial
    | some x => cases x with
      | none => trivial
      | some o =>
        have ho := l.known o (List.mem_of_getElem? e)
        simp only [Res.ok_bind, Out.ok_bind, Observer.callData, St.enter, l.alive, if_pos ho]
        rw [l.self]
        have l1 := l.emit (e := .enter a o v) (e' := .data a o v) rfl rfl
        rw [l1.user]
        have := runProg_agree hc (hH (s.emit (.enter a o v)).user o v) l1
        generalize Observer.runProg ex _ _ = r at this ⊢
        simp only [liftAll]
        generalize runProg ex' _ _ = d at this ⊢
        cases r with
        | ok s' => cases d with
          | ok w' => exact notifyLoop_agree hc hH left (i + 1) ((Like.leave this o).quiet rfl)
          | _ => exact this.elim
        | ub => cases d <;> first | exact this.elim | trivial
        | hang => cases d <;> first | exact this.elim | trivial

theorem clearLoop_agree (hc : Calls a A ex ex') {H : Observer.Handlers V U} (hH : ∀ u o, Only A (H.disconnect u o)) :
    ∀ (left i : Nat) {s : Observer.St V U} {w : St V U}, Like a A s w →
    Same a A (Observer.clearLoop ex H i left s)
      (loop ex' (fun o => .disc a o) (fun u o => (liftAll a H).disconnect u a o) a i left w)
  | 0, i, s, w, l => l
  | left + 1, i, s, w, l => by
    rw [Observer.clearLoop, loop, get_ok l, Out.ok_bind]
    unfold Observer.deref Obj.deref
    cases e : s.arr[i]? with
    | none => trivial
    | some x => cases x with
      | none => trivial
      | some o =>
        have ho := l.known o (List.mem_of_getElem? e)
        simp only [Res.ok_bind, Out.ok_bind, St.enter, l.alive, if_pos ho]
        rw [l.self]
        have l1 := l.emit (e := .disc a o) (e' := .disc a o) rfl rfl
        rw [l1.user]
        have := runProg_agree hc (hH (s.emit (.disc a o)).user o) l1
        generalize Observer.runProg ex _ _ = r at this ⊢
        simp only [liftAll]
        generalize runProg ex' _ _ = d at this ⊢
        cases r with
        | ok s' => cases d with
          | ok w' => exact clearLoop_agree hc hH left (i + 1) (this.quiet rfl)
          | _ => exact this.elim
        | ub => cases d <;> first | exact this.elim | trivial
        | hang => cases d <;> first | exact this.elim | trivial

/-- All callbacks name observers of `A` only. -/
def Decent (A : List Nat) (H : Observer.Handlers V U) : Prop :=
  (∀ u o v, Only A (H.data u o v)) ∧ ∀ u o, Only A (H.disconnect u o)

theorem add_agree {s : Observer.St V U} {w : St V U} (l : Like a A s w) {o : Nat} (ho : o ∈ A) :
    SameE a A (addObserver s o) (do let x ← w.get a; .ok (w.put a (x.add o).1, (x.add o).2)) := by
  rw [get_ok l, Out.ok_bind]
  unfold addObserver Obj.add
  dsimp only
  by_cases h1 : s.count ≥ s.arr.length
  · rw [if_pos h1, if_pos h1]
    exact ⟨l.put rfl rfl rfl rfl l.known, rfl⟩
  · rw [if_neg h1, if_neg h1]
    by_cases h2 : (!contains s o) = true
    · rw [if_pos h2, if_pos (show (!Obj.contains ⟨s.arr, s.count, s.inside⟩ o) = true from h2)]
      refine ⟨l.put rfl rfl rfl rfl fun p hp => ?_, rfl⟩
      rcases List.mem_or_eq_of_mem_set hp with h | h
      · exact l.known p h
      · cases h
        exact ho
    · rw [if_neg h2, if_neg (show ¬ (!Obj.contains ⟨s.arr, s.count, s.inside⟩ o) = true from h2)]
      exact ⟨l.put rfl rfl rfl rfl l.known, rfl⟩

theorem kept_known {s : Observer.St V U} {w : St V U} (l : Like a A s w) {o n p : Nat}
    (h : some p ∈ Observer.kept s o ++ s.arr.drop n) : p ∈ A := by
  rcases List.mem_append.1 h with h | h
  · exact l.known p (List.mem_of_mem_take (List.mem_filter.1 h).1)
  · exact l.known p (List.mem_of_mem_drop h)

theorem remove_agree {s : Observer.St V U} {w : St V U} (l : Like a A s w) {o : Nat} :
    SameE a A (removeObserver s o) (do let x ← w.get a; .ok (w.put a (x.remove o).1, (x.remove o).2)) := by
  rw [get_ok l, Out.ok_bind]
  unfold removeObserver Obj.remove
  dsimp only
  rw [show Obj.kept ⟨s.arr, s.count, s.inside⟩ o = Observer.kept s o from rfl]
  by_cases h1 : s.count > s.arr.length
  · rw [if_pos h1, if_pos h1]
    exact ⟨l.put rfl rfl rfl rfl l.known, rfl⟩
  · rw [if_neg h1, if_neg h1]
    by_cases h2 : s.count = 0
    · rw [if_pos h2, if_pos h2]
      exact ⟨l.put rfl rfl rfl rfl l.known, rfl⟩
    · rw [if_neg h2, if_neg h2]
      by_cases h3 : s.count - (Observer.kept s o).length ≠ 0
      · rw [if_pos h3, if_pos h3]
        exact ⟨l.put rfl rfl rfl rfl fun p hp => kept_known l hp, rfl⟩
      · rw [if_neg h3, if_neg h3]
        exact ⟨l.put rfl rfl rfl rfl fun p hp => kept_known l hp, rfl⟩

theorem SameE.done {r : Res (Observer.St V U × Err)} {d : Out (St V U × Err)} (h : SameE a A r d) {op : Observer.Op V}
    {op' : Op V} (hk : ∀ (s : Observer.St V U) (w : St V U) e, Like a A s w →
      Like a A (s.emit (.ret op e)) (w.emit (.ret op' e))) :
    SameE a A (r >>= fun r => pure (r.1.emit (.ret op r.2), r.2)) (d >>= fun r => .ok (r.1.emit (.ret op' r.2), r.2)) := by
  cases r with
  | ok x => cases d with
    | ok y =>
      obtain ⟨s', e⟩ := x
      obtain ⟨w', e'⟩ := y
      obtain ⟨l', rfl⟩ := h
      exact ⟨hk s' w' e l', rfl⟩
    | _ => exact h.elim
  | ub => cases d <;> first | exact h.elim | trivial
  | hang => cases d <;> first | exact h.elim | trivial

/-- The calls agree. -/
theorem exec_agree {H : Observer.Handlers V U} (hH : Decent A H) {mx : Nat} : ∀ n : Nat,
    Calls a A (Observer.exec H n) (exec (fun _ _ => true) mx (liftAll a H) n)
  | 0, s, w, op, l, f => by
    rw [Observer.exec, exec]
    trivial
  | n + 1, s, w, op, l, f => by
    have hc := exec_agree hH (mx := mx) n
    rw [Observer.exec, exec, execStep, if_pos rfl]
    unfold Observer.execStep
    have lb := l.quiet (e' := .began (liftOp a op)) rfl
    have hb : SameE a A (match op with
        | .add o => addObserver s o
        | .remove o => removeObserver s o
        | .clear => clearObservers (Observer.exec H n) H s
        | .notify v => notifyObservers (Observer.exec H n) H s v)
        (body mx (exec (fun _ _ => true) mx (liftAll a H) n) (liftAll a H) (w.emit (.began (liftOp a op))) (liftOp a op)) := by
      cases op with
      | add o => exact add_agree lb f
      | remove o => exact remove_agree lb
      | clear =>
        simp only [clearObservers, body, liftOp, clearObs] at lb ⊢
        rw [get_ok lb, Out.ok_bind]
        have := clearLoop_agree hc hH.2 s.count 0 lb
        generalize clearLoop _ _ _ _ _ = r at this ⊢
        generalize loop _ _ _ _ _ _ _ = d at this ⊢
        cases r with
        | ok s' => cases d with
          | ok w' =>
            simp only [Out.ok_bind]
            rw [get_ok this]
            exact ⟨this.put rfl rfl rfl rfl this.known, rfl⟩
          | _ => exact this.elim
        | ub => cases d <;> first | exact this.elim | trivial
        | hang => cases d <;> first | exact this.elim | trivial
      | notify v =>
        simp only [notifyObservers, body, liftOp, notifyObs] at lb ⊢
        rw [get_ok lb, Out.ok_bind]
        dsimp only
        by_cases h1 : s.count > s.arr.length
        · rw [if_pos h1, if_pos h1]
          exact ⟨lb, rfl⟩
        · rw [if_neg h1, if_neg h1]
          by_cases h2 : s.inside = true
          · rw [if_pos h2, if_pos h2]
            exact ⟨lb, rfl⟩
          · rw [if_neg h2, if_neg h2]
            have l1 : Like a A { s with inside := true } ((w.emit (.began (.notify a v))).put a
                ⟨s.arr, s.count, true⟩) := lb.put rfl rfl rfl rfl lb.known
            have := notifyLoop_agree hc hH.1 (v := v) s.count 0 l1
            generalize notifyLoop _ _ _ _ _ _ = r at this ⊢
            generalize loop _ _ _ _ _ _ _ = d at this ⊢
            cases r with
            | ok s' => cases d with
              | ok w' =>
                simp only [Out.ok_bind]
                rw [get_ok this]
                exact ⟨this.put rfl rfl rfl rfl this.known, rfl⟩
              | _ => exact this.elim
            | ub => cases d <;> first | exact this.elim | trivial
            | hang => cases d <;> first | exact this.elim | trivial
    exact hb.done (fun s' w' e l' => l'.emit (by cases op <;> rfl) rfl)

/-- Histories of `Model.lean` in which the calls from outside name observers of `A` only. -/
inductive Proper (A : List Nat) (H : Observer.Handlers V U) (mx : Nat) : Observer.St V U → Prop
  | new (self : Nat) (u : U) : Proper A H mx (Observer.St.new self mx u)
  | call (s s' : Observer.St V U) (n : Nat) (op : Observer.Op V) (e : Err) : Proper A H mx s → Fine A op →
      Observer.exec H n s op = .ok (s', e) → Proper A H mx s'
  | user (s : Observer.St V U) (u : U) : Proper A H mx s → Proper A H mx { s with user := u }

theorem Proper.reach {H : Observer.Handlers V U} {mx : Nat} {s : Observer.St V U} (h : Proper A H mx s) :
    Observer.Reach H mx s := by
  induction h with
  | new self u => exact .new self u
  | call s s' n op e _ _ he ih => exact .call s s' n op e ih he
  | user s u _ ih => exact .user s u ih

theorem born_all {H : Handlers V U} {mx : Nat} (u : U) : ∀ A : List Nat,
    ∃ w, Reach (fun _ _ => true) mx H w ∧ w.alive = A ∧ w.user = u ∧ w.log.filterMap oldEv = []
  | [] => ⟨_, .new u, rfl, rfl, rfl⟩
  | o :: A => by
    obtain ⟨w, r, h1, h2, h3⟩ := born_all u A
    refine ⟨_, .call w _ 1 (.born o) .ok r rfl, ?_, h2, ?_⟩
    · simp [St.emit, h1]
    · simp [St.emit, h3, oldEv, oldOp]

/-- Every such history is one of `World.lean`, in which the observers of `A` are constructed first. -/
theorem Proper.agree {H : Observer.Handlers V U} (hH : Decent A H) {mx : Nat} {s : Observer.St V U}
    (h : Proper A H mx s) : ∃ w, Reach (fun _ _ => true) mx (liftAll s.self H) w ∧ Like s.self A s w := by
  induction h with
  | new self u =>
    obtain ⟨w, r, h1, h2, h3⟩ := born_all (H := liftAll self H) (mx := mx) u A
    refine ⟨_, .call w _ 1 (.make self) .ok r rfl, rfl, ?_, h1, h2, ?_, ?_⟩
    · simp [St.emit, St.put, upd, Obj.new, Observer.St.new]
    · simp [St.emit, St.put, h3, oldEv, oldOp, kept, Observer.St.new]
    · simp [Observer.St.new]
  | call s s' n op e hp hf he ih =>
    obtain ⟨w, r, l⟩ := ih
    have hs := exec_agree (a := s.self) hH (mx := mx) n s w op l hf
    rw [he] at hs
    cases ed : exec (fun _ _ => true) mx (liftAll s.self H) n w (liftOp s.self op) with
    | ok b =>
      obtain ⟨w', x⟩ := b
      rw [ed] at hs
      have hself : s'.self = s.self := hs.1.self
      rw [hself]
      exact ⟨w', .call _ _ n _ x r ed, hs.1⟩
    | ub => rw [ed] at hs; exact hs.elim
    | deep => rw [ed] at hs; exact hs.elim
    | foul => rw [ed] at hs; exact hs.elim
  | user s u _ ih =>
    obtain ⟨w, r, l⟩ := ih
    exact ⟨_, .user w u r, l.self, l.obj, l.alive, rfl, l.log, l.known⟩

/-- Observers that leave when they are notified. -/
def leavers : Observer.Handlers Nat Unit := ⟨fun _ o _ => .call (.remove o) fun _ _ => .ret (), fun _ _ => .ret ()⟩

example : Decent [1, 2] leavers := ⟨fun _ _ _ => .call _ _ trivial fun _ _ => .ret (), fun _ _ => .ret ()⟩

/-- Two observers; each leaves when it is notified. -/
example : ∃ s, Proper [1, 2] leavers 4 s ∧ kept s.log = [.ret (.add 1) .ok, .ret (.add 2) .ok, .enter 100 1 7,
    .ret (.remove 1) .ok, .enter 100 2 7, .ret (.remove 2) .ok, .ret (.notify 7) .ok] :=
  ⟨_, .call _ _ 3 (.notify 7) .ok (.call _ _ 1 (.add 2) .ok (.call _ _ 1 (.add 1) .ok (.new 100 ()) (by simp [Fine]) rfl)
    (by simp [Fine]) rfl) trivial rfl, by decide +kernel⟩

end Verif.Observer.World.Agree
