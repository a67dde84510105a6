import Verif.Values.World
import Verif.Values.ReentrantProps
/-!
`Reentrant.lean` and `World.lean` agree: programs and functions that use one observable with places for `mx > 0` objects, and objects
that exist, do in `World.lean` what they do in `Reentrant.lean`.  (`World.lean` records more events; of its log what was told is compared.)
-/
namespace Verif.Values.World.Agree
open Verif Verif.Values
open Verif.Observer.World (Out upd)

variable {U : Type}

/-- The call of `Reentrant.lean` as a call of the observable `a` (observable.hpp:36-220). -/
def liftOp (a : Nat) : Re.Op → Op
  | .upd u => .upd a u
  | .add o => .add a o
  | .remove o => .remove a o
  | .clear => .clear a

/-- A function of `Reentrant.lean` (functions of observed.hpp:35-39, 69-71). -/
def lift (a : Nat) : Re.Prog U → Prog U
  | .ret u => .ret u
  | .set u k => .set u (lift a k)
  | .call op k => .call (liftOp a op) fun e u => lift a (k e u)

/-- The functions of `Reentrant.lean` (functions of observed.hpp:35-39, 69-71). -/
def liftAll (a : Nat) (H : Re.Handlers U) : Handlers U :=
  ⟨fun u o v => lift a (H.update u o v), fun u _ o => lift a (H.disconnect u o)⟩

/-- What an object was told. -/
def oldEv : Ev → Option (Nat × Int)
  | .told _ o v => some (o, v)
  | _ => none

/-- The call names objects of `A` only. -/
def Fine (A : List Nat) : Re.Op → Prop
  | .add o => o ∈ A
  | _ => True

/-- All calls of a function do. -/
inductive Only (A : List Nat) : Re.Prog U → Prop
  | ret (u : U) : Only A (.ret u)
  | set (u : U) (k : Re.Prog U) : Only A k → Only A (.set u k)
  | call (op : Re.Op) (k : Ret → U → Re.Prog U) : Fine A op → (∀ e u, Only A (k e u)) → Only A (.call op k)

/-- The observable `a` of `w`, with the stamp `g`, and the objects `A` are those of `s`. -/
structure Like (a : Nat) (A : List Nat) (mx g : Nat) (s : Re.St U) (w : St U) : Prop where
  obj : w.objs a = some ⟨s.value, mx, s.arr, s.count, g⟩
  size : s.arr.length = mx
  alive : w.alive = A
  held : w.held = s.held
  user : w.user = s.user
  log : w.log.filterMap oldEv = s.log
  known : ∀ o, some o ∈ s.arr → o ∈ A

/-- The outcomes agree. -/
def Same (a : Nat) (A : List Nat) (mx g : Nat) (r : Res (Re.St U)) (d : Out (St U)) : Prop :=
  match r, d with
  | .ok s, .ok w => Like a A mx g s w
  | .ub, .ub => True
  | .hang, .deep => True
  | _, _ => False

/-- The outcomes of calls agree. -/
def SameE (a : Nat) (A : List Nat) (mx g : Nat) (r : Res (Re.St U × Ret)) (d : Out (St U × Ret)) : Prop :=
  match r, d with
  | .ok (s, e), .ok (w, x) => Like a A mx g s w ∧ e = x
  | .ub, .ub => True
  | .hang, .deep => True
  | _, _ => False

variable {a : Nat} {A : List Nat} {mx g : Nat}

theorem Same.bind {r : Res (Re.St U)} {d : Out (St U)} (h : Same a A mx g r d) {j : Re.St U → Res (Re.St U)} {k : St U → Out (St U)}
    (hk : ∀ s w, Like a A mx g s w → Same a A mx g (j s) (k w)) : Same a A mx g (r >>= j) (d >>= k) := by
  cases r with
  | ok s => cases d with
    | ok w => exact hk s w h
    | _ => exact h.elim
  | ub => cases d <;> first | exact h.elim | trivial
  | hang => cases d <;> first | exact h.elim | trivial

theorem Same.bindE {r : Res (Re.St U)} {d : Out (St U)} (h : Same a A mx g r d) {j : Re.St U → Res (Re.St U × Ret)}
    {k : St U → Out (St U × Ret)} (hk : ∀ s w, Like a A mx g s w → SameE a A mx g (j s) (k w)) :
    SameE a A mx g (r >>= j) (d >>= k) := by
  cases r with
  | ok s => cases d with
    | ok w => exact hk s w h
    | _ => exact h.elim
  | ub => cases d <;> first | exact h.elim | trivial
  | hang => cases d <;> first | exact h.elim | trivial

theorem SameE.bind {r : Res (Re.St U × Ret)} {d : Out (St U × Ret)} (h : SameE a A mx g r d)
    {j : Re.St U × Ret → Res (Re.St U)} {k : St U × Ret → Out (St U)}
    (hk : ∀ s w e, Like a A mx g s w → Same a A mx g (j (s, e)) (k (w, e))) : Same a A mx g (r >>= j) (d >>= k) := by
  cases r with
  | ok s => cases d with
    | ok w =>
      obtain ⟨s, e⟩ := s
      obtain ⟨w, x⟩ := w
      obtain ⟨l, rfl⟩ := h
      exact hk s w e l
    | _ => exact h.elim
  | ub => cases d <;> first | exact h.elim | trivial
  | hang => cases d <;> first | exact h.elim | trivial

theorem Like.quiet {s : Re.St U} {w : St U} (l : Like a A mx g s w) {e : Ev} (he : oldEv e = none) : Like a A mx g s (w.emit e) := by
  refine ⟨l.obj, l.size, l.alive, l.held, l.user, ?_, l.known⟩
  simp [St.emit, he, l.log]

theorem Like.put {s s' : Re.St U} {w : St U} (l : Like a A mx g s w) {x : Obj} (hx : x = ⟨s'.value, mx, s'.arr, s'.count, g⟩)
    (h1 : s'.arr.length = mx) (h2 : s'.held = s.held) (h3 : s'.user = s.user) (h4 : s'.log = s.log)
    (h : ∀ o, some o ∈ s'.arr → o ∈ A) : Like a A mx g s' (w.put a x) :=
  ⟨by simp [St.put, upd, hx], h1, l.alive, l.held.trans h2.symm, l.user.trans h3.symm, by rw [h4]; exact l.log, h⟩

theorem get_ok {s : Re.St U} {w : St U} (l : Like a A mx g s w) : w.get a = .ok ⟨s.value, mx, s.arr, s.count, g⟩ := by
  rw [St.get, l.obj]

/-- Ways of running calls that agree. -/
def Calls (a : Nat) (A : List Nat) (mx g : Nat) (ex : Re.Ex U) (ex' : Ex U) : Prop :=
  ∀ s w op, Like a A mx g s w → Fine A op → SameE a A mx g (ex s op) (ex' w (liftOp a op))

variable {ex : Re.Ex U} {ex' : Ex U}

theorem runProg_agree (hc : Calls a A mx g ex ex') {p : Re.Prog U} (hp : Only A p) : ∀ {s : Re.St U} {w : St U}, Like a A mx g s w →
    Same a A mx g (Re.runProg ex p s) (runProg ex' (lift a p) w) := by
  induction hp with
  | ret u =>
    intro s w l
    exact ⟨l.obj, l.size, l.alive, l.held, rfl, l.log, l.known⟩
  | set u k _ ih =>
    intro s w l
    exact ih (s := { s with user := u }) (w := { w with user := u }) ⟨l.obj, l.size, l.alive, l.held, rfl, l.log, l.known⟩
  | call op k hf _ ih =>
    intro s w l
    simp only [lift, runProg, Re.runProg]
    refine (hc s w op l hf).bind fun s' w' e l' => ?_
    rw [l'.user]
    exact ih e s'.user l'

theorem tell_agree (hc : Calls a A mx g ex ex') {H : Re.Handlers U} (hH : ∀ u o v, Only A (H.update u o v)) {v : Int} {o : Nat}
    (ho : o ∈ A) {s : Re.St U} {w : St U} (l : Like a A mx g s w) :
    Same a A mx g (Re.deliver ex H v o s) (tell ex' (liftAll a H) a v o w) := by
  unfold Re.deliver tell
  rw [if_pos (l.alive.symm ▸ ho), show H.update s.user o v = H.update w.user o v by rw [l.user]]
  have l1 : Like a A mx g { s with held := fun p => if p = o then v else s.held p, log := s.log ++ [(o, v)] }
      ({ w with held := upd w.held o v, busy := upd w.busy o (w.busy o + 1) }.emit (.told a o v)) := by
    refine ⟨l.obj, l.size, l.alive, ?_, l.user, ?_, l.known⟩
    · funext p
      simp only [St.emit, upd, l.held]
    · simp [St.emit, oldEv, l.log]
  have := runProg_agree hc (hH w.user o v) l1
  simp only [liftAll]
  generalize Re.runProg ex _ _ = r at this ⊢
  generalize runProg ex' _ _ = d at this ⊢
  cases r with
  | ok s' => cases d with
    | ok w' =>
      have l2 : Like a A mx g s' w' := this
      exact Like.quiet (w := { w' with busy := upd w'.busy o (w'.busy o - 1) })
        ⟨l2.obj, l2.size, l2.alive, l2.held, l2.user, l2.log, l2.known⟩ rfl
    | _ => exact this.elim
  | ub => cases d <;> first | exact this.elim | trivial
  | hang => cases d <;> first | exact this.elim | trivial

theorem part_agree (hc : Calls a A mx g ex ex') {H : Re.Handlers U} (hH : ∀ u o, Only A (H.disconnect u o)) {o : Nat}
    (ho : o ∈ A) {s : Re.St U} {w : St U} (l : Like a A mx g s w) :
    Same a A mx g (Re.runProg ex (H.disconnect s.user o) s) (part ex' (liftAll a H) a o w) := by
  unfold part
  rw [if_pos (l.alive.symm ▸ ho), show H.disconnect s.user o = H.disconnect w.user o by rw [l.user]]
  have := runProg_agree hc (hH w.user o) (l.quiet (e := .disc a o) rfl)
  simp only [liftAll]
  generalize Re.runProg ex _ _ = r at this ⊢
  generalize runProg ex' _ _ = d at this ⊢
  cases r with
  | ok s' => cases d with
    | ok w' => exact Like.quiet this rfl
    | _ => exact this.elim
  | ub => cases d <;> first | exact this.elim | trivial
  | hang => cases d <;> first | exact this.elim | trivial

theorem loop_step {s : Re.St U} {w : St U} (l : Like a A mx g s w) {f : Nat → St U → Out (St U)} {dyn : Bool} {i left : Nat} :
    loop f dyn a g i (left + 1) w = (do
      let o ← Obj.deref ⟨s.value, mx, s.arr, s.count, g⟩ i
      let w ← f o w
      loop f dyn a g (i + 1) left w) := by
  rw [loop, valid, get_ok l, Out.ok_bind, if_pos rfl, Out.ok_bind]

theorem notifyLoop_agree (hc : Calls a A mx g ex ex') {H : Re.Handlers U} (hH : ∀ u o v, Only A (H.update u o v)) {v : Int} :
    ∀ (left i : Nat) {s : Re.St U} {w : St U}, Like a A mx g s w →
    Same a A mx g (Re.notifyLoop ex H v i left s) (loop (tell ex' (liftAll a H) a v) false a g i left w)
  | 0, i, s, w, l => by
    rw [Re.notifyLoop, loop, if_neg Bool.false_ne_true]
    exact l
  | left + 1, i, s, w, l => by
    rw [Re.notifyLoop, loop_step l]
    unfold Re.deref Obj.deref
    dsimp only
    cases e : s.arr[i]? with
    | none => trivial
    | some x => cases x with
      | none => trivial
      | some o =>
        simp only [Res.ok_bind, Out.ok_bind]
        exact (tell_agree hc hH (l.known o (List.mem_of_getElem? e)) l).bind fun s' w' l' => notifyLoop_agree hc hH left (i + 1) l'

theorem clearLoop_agree (hc : Calls a A mx g ex ex') {H : Re.Handlers U} (hH : ∀ u o, Only A (H.disconnect u o)) :
    ∀ (left i : Nat) {s : Re.St U} {w : St U}, Like a A mx g s w →
    Same a A mx g (Re.clearLoop ex H i left s) (loop (part ex' (liftAll a H) a) false a g i left w)
  | 0, i, s, w, l => by
    rw [Re.clearLoop, loop, if_neg Bool.false_ne_true]
    exact l
  | left + 1, i, s, w, l => by
    rw [Re.clearLoop, loop_step l]
    unfold Re.deref Obj.deref
    dsimp only
    cases e : s.arr[i]? with
    | none => trivial
    | some x => cases x with
      | none => trivial
      | some o =>
        simp only [Res.ok_bind, Out.ok_bind]
        exact (part_agree hc hH (l.known o (List.mem_of_getElem? e)) l).bind fun s' w' l' => clearLoop_agree hc hH left (i + 1) l'

theorem add_agree (hm : mx ≠ 0) {s : Re.St U} {w : St U} (l : Like a A mx g s w) {o : Nat} (ho : o ∈ A) :
    SameE a A mx g (Re.add s o) (do let x ← w.get a; .ok (w.put a (x.add w.fresh o).1, .err (x.add w.fresh o).2)) := by
  rw [get_ok l, Out.ok_bind]
  unfold Re.add Obj.add
  dsimp only
  rw [if_neg hm]
  by_cases h1 : s.count ≥ s.arr.length
  · rw [if_pos h1, if_pos (l.size ▸ h1)]
    exact ⟨l.put rfl l.size rfl rfl rfl l.known, rfl⟩
  · rw [if_neg h1, if_neg (show ¬ s.count ≥ mx from l.size ▸ h1)]
    by_cases h2 : (!Re.contains s o) = true
    · rw [if_pos h2, if_pos (show (!Obj.contains ⟨s.value, mx, s.arr, s.count, g⟩ o) = true from h2)]
      refine ⟨l.put rfl (by simp [l.size]) rfl rfl rfl fun p hp => ?_, rfl⟩
      rcases List.mem_or_eq_of_mem_set hp with h | h
      · exact l.known p h
      · cases h
        exact ho
    · rw [if_neg h2, if_neg (show ¬ (!Obj.contains ⟨s.value, mx, s.arr, s.count, g⟩ o) = true from h2)]
      exact ⟨l.put rfl l.size rfl rfl rfl l.known, rfl⟩

theorem stdRemove_length (x : Option Nat) (l : List (Option Nat)) : (stdRemove x l).1.length = l.length := by
  have := List.length_filter_le (fun y => decide (y ≠ x)) l
  simp only [stdRemove, List.length_append, List.length_drop]
  omega

theorem stdRemove_mem {x y : Option Nat} {l : List (Option Nat)} (h : y ∈ (stdRemove x l).1) : y ∈ l := by
  simp only [stdRemove, List.mem_append, List.mem_filter] at h
  rcases h with h | h
  · exact h.1
  · exact List.mem_of_mem_drop h

theorem remove_agree (hm : mx ≠ 0) {s : Re.St U} {w : St U} (l : Like a A mx g s w) {o : Nat} :
    SameE a A mx g (Re.remove s o) (do let x ← w.get a; .ok (w.put a (x.remove o).1, .err (x.remove o).2)) := by
  rw [get_ok l, Out.ok_bind]
  unfold Re.remove Obj.remove
  dsimp only
  rw [if_neg hm]
  have hl : ((stdRemove (some o) (s.arr.take s.count)).1 ++ s.arr.drop s.count).length = mx := by
    simp only [List.length_append, stdRemove_length, List.length_take, List.length_drop, l.size]
    omega
  have hk : ∀ p, some p ∈ (stdRemove (some o) (s.arr.take s.count)).1 ++ s.arr.drop s.count → p ∈ A := by
    intro p hp
    rcases List.mem_append.1 hp with h | h
    · exact l.known p (List.mem_of_mem_take (stdRemove_mem h))
    · exact l.known p (List.mem_of_mem_drop h)
  by_cases h1 : s.count > s.arr.length
  · rw [if_pos h1, if_pos (l.size ▸ h1)]
    exact ⟨l.put rfl l.size rfl rfl rfl l.known, rfl⟩
  · rw [if_neg h1, if_neg (show ¬ s.count > mx from l.size ▸ h1)]
    by_cases h2 : s.count = 0
    · rw [if_pos h2, if_pos h2]
      exact ⟨l.put rfl l.size rfl rfl rfl l.known, rfl⟩
    · rw [if_neg h2, if_neg h2]
      by_cases h3 : s.count - (stdRemove (some o) (s.arr.take s.count)).2 ≠ 0
      · rw [if_pos h3, if_pos h3]
        exact ⟨l.put rfl hl rfl rfl rfl hk, rfl⟩
      · rw [if_neg h3, if_neg h3]
        exact ⟨l.put rfl hl rfl rfl rfl hk, rfl⟩

/-- All functions name objects of `A` only. -/
def Decent (A : List Nat) (H : Re.Handlers U) : Prop :=
  (∀ u o v, Only A (H.update u o v)) ∧ ∀ u o, Only A (H.disconnect u o)

theorem update_agree (hm : mx ≠ 0) (hc : Calls a A mx g ex ex') {H : Re.Handlers U} (hH : ∀ u o v, Only A (H.update u o v))
    {T : IntTy} {u : Re.Upd} {s : Re.St U} {w : St U} (l : Like a A mx g s w) :
    SameE a A mx g (Re.update ex H T s u) (update ex' (liftAll a H) T a u w) := by
  unfold Re.update update
  rw [get_ok l, Out.ok_bind]
  unfold resultOut
  dsimp only
  cases hr : Re.result T s.value u with
  | ub => trivial
  | hang => trivial
  | ok v =>
    dsimp only
    rw [Res.ok_bind, Out.ok_bind]
    have l1 : Like a A mx g { s with value := Re.stored T s.value u } (w.put a ⟨Re.stored T s.value u, mx, s.arr, s.count, g⟩) :=
      l.put rfl l.size rfl rfl rfl l.known
    unfold Re.notify
    dsimp only
    by_cases h1 : s.count > s.arr.length
    · rw [if_pos h1, if_pos ⟨hm, l.size ▸ h1⟩]
      exact ⟨l1, rfl⟩
    · rw [if_neg h1, if_neg (fun h => h1 (l.size.symm ▸ h.2))]
      have hd : (mx == 0) = false := by simpa using hm
      rw [hd]
      exact (notifyLoop_agree hc hH s.count 0 l1).bindE fun s' w' l' => ⟨l', rfl⟩

theorem clear_agree (hm : mx ≠ 0) (hc : Calls a A mx g ex ex') {H : Re.Handlers U} (hH : ∀ u o, Only A (H.disconnect u o))
    {s : Re.St U} {w : St U} (l : Like a A mx g s w) :
    SameE a A mx g (Re.clear ex H s) (do let s ← clearObs ex' (liftAll a H) a w; .ok (s, .unit)) := by
  unfold Re.clear clearObs
  rw [get_ok l, Out.ok_bind]
  dsimp only
  have hd : (mx == 0) = false := by simpa using hm
  rw [hd]
  have := clearLoop_agree hc hH s.count 0 l
  generalize Re.clearLoop _ _ _ _ _ = r at this ⊢
  generalize loop _ _ _ _ _ _ _ = d at this ⊢
  cases r with
  | ok s' => cases d with
    | ok w' =>
      have l' : Like a A mx g s' w' := this
      simp only [Out.ok_bind, Res.ok_bind]
      rw [get_ok l']
      refine ⟨l'.put (s' := { s' with count := 0 }) ?_ l'.size rfl rfl rfl l'.known, rfl⟩
      simp [Obj.empty, hm]
    | _ => exact this.elim
  | ub => cases d <;> first | exact this.elim | trivial
  | hang => cases d <;> first | exact this.elim | trivial

theorem SameE.done {r : Res (Re.St U × Ret)} {d : Out (St U × Ret)} (h : SameE a A mx g r d) (op : Op) :
    SameE a A mx g r (d >>= fun r => .ok (r.1.emit (.ret op r.2), r.2)) := by
  cases r with
  | ok x => cases d with
    | ok y =>
      obtain ⟨s', e⟩ := x
      obtain ⟨w', e'⟩ := y
      obtain ⟨l', rfl⟩ := h
      exact ⟨l'.quiet rfl, rfl⟩
    | _ => exact h.elim
  | ub => cases d <;> first | exact h.elim | trivial
  | hang => cases d <;> first | exact h.elim | trivial

/-- The calls agree. -/
theorem exec_agree (hm : mx ≠ 0) {H : Re.Handlers U} (hH : Decent A H) {T : IntTy} : ∀ n : Nat,
    Calls a A mx g (Re.exec H T n) (exec (fun _ _ => true) T (liftAll a H) n)
  | 0, s, w, op, l, f => by
    rw [Re.exec, exec]
    trivial
  | n + 1, s, w, op, l, f => by
    have hc := exec_agree hm hH (T := T) n
    rw [Re.exec, exec, execStep, if_pos rfl]
    have lb := l.quiet (e := .began (liftOp a op)) rfl
    refine SameE.done ?_ _
    cases op with
    | upd u => exact update_agree hm hc hH.1 lb
    | add o => exact add_agree hm lb f
    | remove o => exact remove_agree hm lb
    | clear => exact clear_agree hm hc hH.2 lb

/-- Histories of `Reentrant.lean` in which the calls from outside name objects of `A` only. -/
inductive Proper (A : List Nat) (H : Re.Handlers U) (T : IntTy) (mx : Nat) : Re.St U → Prop
  | new (u : U) : Proper A H T mx (Re.St.new mx u)
  | call (s s' : Re.St U) (n : Nat) (op : Re.Op) (e : Ret) : Proper A H T mx s → Fine A op →
      Re.exec H T n s op = .ok (s', e) → Proper A H T mx s'
  | user (s : Re.St U) (u : U) : Proper A H T mx s → Proper A H T mx { s with user := u }

theorem Proper.reach {H : Re.Handlers U} {T : IntTy} {s : Re.St U} (h : Proper A H T mx s) : Re.Reach H T mx s := by
  induction h with
  | new u => exact .new u
  | call s s' n op e _ _ he ih => exact .call s s' n op e ih he
  | user s u _ ih => exact .user s u ih

theorem born_all {H : Handlers U} {T : IntTy} (u : U) : ∀ A : List Nat,
    ∃ w, Reach (fun _ _ => true) T H w ∧ w.alive = A ∧ w.user = u ∧ w.log.filterMap oldEv = [] ∧ w.held = fun _ => 0
  | [] => ⟨_, .new u, rfl, rfl, rfl, rfl⟩
  | o :: A => by
    obtain ⟨w, r, h1, h2, h3, h4⟩ := born_all u A
    refine ⟨_, .call w _ 1 (.born o) .unit r rfl, ?_, h2, ?_, ?_⟩
    · simp [St.emit, h1]
    · simp [St.emit, h3, oldEv]
    · funext p
      simp [St.emit, h4, upd]

/-- Every such history is one of `World.lean`, in which the objects of `A` are constructed first. -/
theorem Proper.agree (hm : mx ≠ 0) (a : Nat) {H : Re.Handlers U} (hH : Decent A H) {T : IntTy} {s : Re.St U} (h : Proper A H T mx s) :
    ∃ w g, Reach (fun _ _ => true) T (liftAll a H) w ∧ Like a A mx g s w := by
  induction h with
  | new u =>
    obtain ⟨w, r, h1, h2, h3, h4⟩ := born_all (H := liftAll a H) (T := T) u A
    refine ⟨_, w.fresh, .call w _ 1 (.make a mx) .unit r rfl, ?_, ?_, h1, h4, h2, ?_, ?_⟩
    · simp [St.emit, St.put, upd, Obj.new, Re.St.new]
    · simp [Re.St.new]
    · simp [St.emit, St.put, h3, oldEv, Re.St.new]
    · simp [Re.St.new]
  | call s s' n op e hp hf he ih =>
    obtain ⟨w, g, r, l⟩ := ih
    have hs := exec_agree (a := a) (g := g) hm hH (T := T) n s w op l hf
    rw [he] at hs
    cases ed : exec (fun _ _ => true) T (liftAll a H) n w (liftOp a op) with
    | ok b =>
      obtain ⟨w', x⟩ := b
      rw [ed] at hs
      exact ⟨w', g, .call _ _ n _ x r ed, hs.1⟩
    | ub => rw [ed] at hs; exact hs.elim
    | deep => rw [ed] at hs; exact hs.elim
    | foul => rw [ed] at hs; exact hs.elim
  | user s u _ ih =>
    obtain ⟨w, g, r, l⟩ := ih
    exact ⟨_, g, .user w u r, l.obj, l.size, l.alive, l.held, rfl, l.log, l.known⟩

/-- Objects that leave when they are told. -/
def leavers : Re.Handlers Unit := ⟨fun _ o _ => .call (.remove o) fun _ _ => .ret (), fun _ _ => .ret ()⟩

example : Decent [1, 2, 3] leavers := ⟨fun _ _ _ => .call _ _ trivial fun _ _ => .ret (), fun _ _ => .ret ()⟩

/-- Three objects; each leaves when it is told, so that the loop passes over the second and tells the third twice. -/
example : ∃ s, Proper [1, 2, 3] leavers .int 4 s ∧ s.log = [(1, 7), (3, 7), (3, 7)] :=
  ⟨_, .call _ _ 3 (.upd (.assign 7)) (.val 7) (.call _ _ 1 (.add 3) (.err .ok) (.call _ _ 1 (.add 2) (.err .ok)
    (.call _ _ 1 (.add 1) (.err .ok) (.new ()) (by simp [Fine]) rfl) (by simp [Fine]) rfl) (by simp [Fine]) rfl) trivial rfl,
    by decide +kernel⟩

end Verif.Values.World.Agree
