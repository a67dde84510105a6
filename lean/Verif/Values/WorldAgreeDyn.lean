import Verif.Values.WorldAgree
import Verif.Values.DynReentrantProps
/-!
`DynReentrant.lean` and `World.lean` agree: programs and functions that use one observable without a capacity, and objects that exist, do
in `World.lean` what they do in `DynReentrant.lean`, with the same log.  The one counts what invalidates iterators, the other gives the
vector a new stamp; both tell the same iterators from invalid ones.
-/
namespace Verif.Values.World.AgreeDyn
open Verif Verif.Values
open Verif.Observer.World (Out upd)
open Verif.Values.World.Agree (liftOp lift liftAll Fine Only Decent)

variable {U : Type}

/-- Calls of `a` in the form of `DynReentrant.lean`. -/
def oldOp : Op → Option Re.Op
  | .upd _ u => some (.upd u)
  | .add _ o => some (.add o)
  | .remove _ o => some (.remove o)
  | .clear _ => some .clear
  | _ => none

/-- Events in the form of `DynReentrant.lean`. -/
def oldEv : Ev → Option Re.Vec.Ev
  | .told _ o v => some (.told o v)
  | .disc _ o => some (.disc o)
  | .leave o => some (.leave o)
  | .ret op r => (oldOp op).map fun op => .ret op r
  | .began _ => none

/-- The observable `a` of `w`, with the stamp `g`, and the objects `A` are those of `s`. -/
structure Like (a : Nat) (A : List Nat) (g : Nat) (s : Re.Vec.St U) (w : St U) : Prop where
  obj : w.objs a = some ⟨s.value, 0, s.vec.map some, s.vec.length, g⟩
  fresh : g < w.fresh
  alive : w.alive = A
  held : w.held = s.held
  user : w.user = s.user
  log : w.log.filterMap oldEv = s.log
  known : ∀ o ∈ s.vec, o ∈ A

/-- From the counter `n` and the stamp `g` to `n'` and `g'`: both stay or both grow. -/
def Later (n g n' g' : Nat) : Prop := n = n' ∧ g = g' ∨ n < n' ∧ g < g'

theorem Later.refl (n g : Nat) : Later n g n g := .inl ⟨rfl, rfl⟩

theorem Later.trans {n g n' g' n'' g'' : Nat} (h : Later n g n' g') (h' : Later n' g' n'' g'') : Later n g n'' g'' := by
  unfold Later at *
  omega

theorem Later.iff {n g n' g' : Nat} (h : Later n g n' g') : n' = n ↔ g' = g := by
  unfold Later at h
  omega

/-- The outcomes agree. -/
def Same (a : Nat) (A : List Nat) (n g : Nat) (r : Res (Re.Vec.St U)) (d : Out (St U)) : Prop :=
  match r, d with
  | .ok s, .ok w => ∃ g', Like a A g' s w ∧ Later n g s.gen g'
  | .ub, .ub => True
  | .hang, .deep => True
  | _, _ => False

/-- The outcomes of calls agree. -/
def SameE (a : Nat) (A : List Nat) (n g : Nat) (r : Res (Re.Vec.St U × Ret)) (d : Out (St U × Ret)) : Prop :=
  match r, d with
  | .ok (s, e), .ok (w, x) => e = x ∧ ∃ g', Like a A g' s w ∧ Later n g s.gen g'
  | .ub, .ub => True
  | .hang, .deep => True
  | _, _ => False

variable {a : Nat} {A : List Nat} {n g : Nat}

theorem Same.bind {r : Res (Re.Vec.St U)} {d : Out (St U)} (h : Same a A n g r d) {j : Re.Vec.St U → Res (Re.Vec.St U)}
    {k : St U → Out (St U)} (hk : ∀ s w g', Like a A g' s w → Later n g s.gen g' → Same a A n g (j s) (k w)) :
    Same a A n g (r >>= j) (d >>= k) := by
  cases r with
  | ok s => cases d with
    | ok w => obtain ⟨g', h1, h2⟩ := h; exact hk s w g' h1 h2
    | _ => exact h.elim
  | ub => cases d <;> first | exact h.elim | trivial
  | hang => cases d <;> first | exact h.elim | trivial

theorem Same.bindE {r : Res (Re.Vec.St U)} {d : Out (St U)} (h : Same a A n g r d) {j : Re.Vec.St U → Res (Re.Vec.St U × Ret)}
    {k : St U → Out (St U × Ret)} (hk : ∀ s w g', Like a A g' s w → Later n g s.gen g' → SameE a A n g (j s) (k w)) :
    SameE a A n g (r >>= j) (d >>= k) := by
  cases r with
  | ok s => cases d with
    | ok w => obtain ⟨g', h1, h2⟩ := h; exact hk s w g' h1 h2
    | _ => exact h.elim
  | ub => cases d <;> first | exact h.elim | trivial
  | hang => cases d <;> first | exact h.elim | trivial

theorem SameE.bind {r : Res (Re.Vec.St U × Ret)} {d : Out (St U × Ret)} (h : SameE a A n g r d)
    {j : Re.Vec.St U × Ret → Res (Re.Vec.St U)} {k : St U × Ret → Out (St U)}
    (hk : ∀ s w g' e, Like a A g' s w → Later n g s.gen g' → Same a A n g (j (s, e)) (k (w, e))) :
    Same a A n g (r >>= j) (d >>= k) := by
  cases r with
  | ok s => cases d with
    | ok w =>
      obtain ⟨s, e⟩ := s
      obtain ⟨w, x⟩ := w
      obtain ⟨rfl, g', l, t⟩ := h
      exact hk s w g' e l t
    | _ => exact h.elim
  | ub => cases d <;> first | exact h.elim | trivial
  | hang => cases d <;> first | exact h.elim | trivial

theorem Same.mono {r : Res (Re.Vec.St U)} {d : Out (St U)} {n' g' : Nat} (h : Same a A n' g' r d) (t : Later n g n' g') :
    Same a A n g r d := by
  cases r with
  | ok s => cases d with
    | ok w => obtain ⟨g'', h1, h2⟩ := h; exact ⟨g'', h1, t.trans h2⟩
    | _ => exact h.elim
  | ub => cases d <;> first | exact h.elim | trivial
  | hang => cases d <;> first | exact h.elim | trivial

theorem SameE.mono {r : Res (Re.Vec.St U × Ret)} {d : Out (St U × Ret)} {n' g' : Nat} (h : SameE a A n' g' r d)
    (t : Later n g n' g') : SameE a A n g r d := by
  cases r with
  | ok s => cases d with
    | ok w =>
      obtain ⟨s, e⟩ := s
      obtain ⟨w, x⟩ := w
      obtain ⟨h0, g'', h1, h2⟩ := h
      exact ⟨h0, g'', h1, t.trans h2⟩
    | _ => exact h.elim
  | ub => cases d <;> first | exact h.elim | trivial
  | hang => cases d <;> first | exact h.elim | trivial

theorem Like.emit {s : Re.Vec.St U} {w : St U} (l : Like a A g s w) {e : Re.Vec.Ev} {e' : Ev} (he : oldEv e' = some e) :
    Like a A g (s.emit e) (w.emit e') := by
  refine ⟨l.obj, l.fresh, l.alive, l.held, l.user, ?_, l.known⟩
  simp [St.emit, Re.Vec.St.emit, he, l.log]

theorem Like.quiet {s : Re.Vec.St U} {w : St U} (l : Like a A g s w) {e : Ev} (he : oldEv e = none) : Like a A g s (w.emit e) := by
  refine ⟨l.obj, l.fresh, l.alive, l.held, l.user, ?_, l.known⟩
  simp [St.emit, he, l.log]

theorem Like.put {s s' : Re.Vec.St U} {w : St U} (l : Like a A g s w) {x : Obj} {g' : Nat}
    (hx : x = ⟨s'.value, 0, s'.vec.map some, s'.vec.length, g'⟩) (h1 : g' ≤ w.fresh) (h2 : s'.held = s.held) (h3 : s'.user = s.user)
    (h4 : s'.log = s.log) (h : ∀ o ∈ s'.vec, o ∈ A) : Like a A g' s' (w.put a x) :=
  ⟨by simp [St.put, upd, hx], Nat.lt_succ_of_le h1, l.alive, l.held.trans h2.symm, l.user.trans h3.symm, by rw [h4]; exact l.log, h⟩

theorem get_ok {s : Re.Vec.St U} {w : St U} (l : Like a A g s w) :
    w.get a = .ok ⟨s.value, 0, s.vec.map some, s.vec.length, g⟩ := by
  rw [St.get, l.obj]

/-- Ways of running calls that agree. -/
def Calls (a : Nat) (A : List Nat) (ex : Re.Vec.Ex U) (ex' : Ex U) : Prop :=
  ∀ s w g op, Like a A g s w → Fine A op → SameE a A s.gen g (ex s op) (ex' w (liftOp a op))

variable {ex : Re.Vec.Ex U} {ex' : Ex U}

theorem runProg_agree (hc : Calls a A ex ex') {p : Re.Prog U} (hp : Only A p) : ∀ {s : Re.Vec.St U} {w : St U} {g : Nat},
    Like a A g s w → Same a A s.gen g (Re.Vec.runProg ex p s) (runProg ex' (lift a p) w) := by
  induction hp with
  | ret u =>
    intro s w g l
    exact ⟨g, ⟨l.obj, l.fresh, l.alive, l.held, rfl, l.log, l.known⟩, .refl _ _⟩
  | set u k _ ih =>
    intro s w g l
    exact ih (s := { s with user := u }) (w := { w with user := u }) ⟨l.obj, l.fresh, l.alive, l.held, rfl, l.log, l.known⟩
  | call op k hf _ ih =>
    intro s w g l
    simp only [lift, runProg, Re.Vec.runProg]
    refine (hc s w g op l hf).bind fun s' w' g' e l' t => ?_
    rw [l'.user]
    exact (ih e s'.user l').mono t

theorem tell_agree (hc : Calls a A ex ex') {H : Re.Handlers U} (hH : ∀ u o v, Only A (H.update u o v)) {v : Int} {o : Nat}
    (ho : o ∈ A) {s : Re.Vec.St U} {w : St U} (l : Like a A g s w) :
    Same a A s.gen g (Re.Vec.tell ex H v o s) (tell ex' (liftAll a H) a v o w) := by
  unfold Re.Vec.tell tell
  rw [if_pos (l.alive.symm ▸ ho), show H.update s.user o v = H.update w.user o v by rw [l.user]]
  have l1 : Like a A g ({ s with held := fun p => if p = o then v else s.held p }.emit (.told o v))
      ({ w with held := upd w.held o v, busy := upd w.busy o (w.busy o + 1) }.emit (.told a o v)) := by
    refine Like.emit (s := { s with held := fun p => if p = o then v else s.held p })
      (w := { w with held := upd w.held o v, busy := upd w.busy o (w.busy o + 1) })
      ⟨l.obj, l.fresh, l.alive, ?_, l.user, l.log, l.known⟩ rfl
    funext p
    simp only [upd, l.held]
  refine (runProg_agree hc (hH w.user o v) l1).bind fun s' w' g' l' t => ?_
  exact ⟨g', Like.emit (w := { w' with busy := upd w'.busy o (w'.busy o - 1) })
    ⟨l'.obj, l'.fresh, l'.alive, l'.held, l'.user, l'.log, l'.known⟩ rfl, t⟩

theorem part_agree (hc : Calls a A ex ex') {H : Re.Handlers U} (hH : ∀ u o, Only A (H.disconnect u o)) {o : Nat}
    (ho : o ∈ A) {s : Re.Vec.St U} {w : St U} (l : Like a A g s w) :
    Same a A s.gen g (Re.Vec.disconnect ex H o s) (part ex' (liftAll a H) a o w) := by
  unfold Re.Vec.disconnect part
  rw [if_pos (l.alive.symm ▸ ho), show H.disconnect s.user o = H.disconnect w.user o by rw [l.user]]
  refine (runProg_agree hc (hH w.user o) (l.emit (e := .disc o) (e' := .disc a o) rfl)).bind fun s' w' g' l' t => ?_
  exact ⟨g', l'.emit rfl, t⟩

/-- Loops whose bodies agree do. -/
theorem loop_agree {f : Nat → Re.Vec.St U → Res (Re.Vec.St U)} {f' : Nat → St U → Out (St U)}
    (hf : ∀ o s w g, o ∈ A → Like a A g s w → Same a A s.gen g (f o s) (f' o w)) :
    ∀ (left i : Nat) {s : Re.Vec.St U} {w : St U} {g' : Nat}, Like a A g' s w → Later n g s.gen g' →
    Same a A n g (Re.Vec.loop f n i left s) (loop f' true a g i left w)
  | 0, i, s, w, g', l, t => by
    rw [Re.Vec.loop, loop, if_pos rfl, valid, get_ok l, Out.ok_bind]
    dsimp only
    by_cases h : s.gen = n
    · rw [if_pos h, if_pos (t.iff.mp h)]
      exact ⟨g', l, t⟩
    · rw [if_neg h, if_neg (fun h' => h (t.iff.mpr h'))]
      trivial
  | left + 1, i, s, w, g', l, t => by
    rw [Re.Vec.loop, loop, valid, get_ok l, Out.ok_bind]
    dsimp only
    by_cases h : s.gen = n
    · rw [if_pos h, if_pos (t.iff.mp h)]
      rw [Out.ok_bind]
      unfold Re.Vec.deref Obj.deref
      dsimp only
      rw [List.getElem?_map]
      cases e : s.vec[i]? with
      | none => trivial
      | some o =>
        simp only [Option.map_some, Res.ok_bind, Out.ok_bind]
        exact ((hf o s w g' (l.known o (List.mem_of_getElem? e)) l).mono t).bind fun s' w' g'' l' t' =>
          loop_agree hf left (i + 1) l' t'
    · rw [if_neg h, if_neg (fun h' => h (t.iff.mpr h'))]
      trivial

theorem contains_eq (o : Nat) (l : List Nat) : ((l.map some).take l.length).contains (some o) = containsVec o l := by
  rw [List.take_of_length_le (by simp)]
  induction l with
  | nil => rfl
  | cons p l ih =>
    by_cases h : p = o
    · subst h
      simp [containsVec]
    · simp only [List.map_cons, List.contains_cons, containsVec, h, if_false, ← ih]
      simp [Ne.symm h]

theorem stdRemove_some (o : Nat) (l : List Nat) :
    stdRemove (some o) (l.map some) = ((stdRemove o l).1.map some, (stdRemove o l).2) := by
  have : (l.map some).filter (fun y => decide (y ≠ some o)) = (l.filter fun y => decide (y ≠ o)).map some := by
    rw [List.filter_map]
    congr 2
    funext y
    simp
  simp only [stdRemove, this, List.length_map, List.map_append, List.map_drop]

theorem stdRemove_length (o : Nat) (l : List Nat) : (stdRemove o l).1.length = l.length := by
  have := List.length_filter_le (fun y => decide (y ≠ o)) l
  simp only [stdRemove, List.length_append, List.length_drop]
  omega

theorem stdRemove_mem {o p : Nat} {l : List Nat} (h : p ∈ (stdRemove o l).1) : p ∈ l := by
  simp only [stdRemove, List.mem_append, List.mem_filter] at h
  rcases h with h | h
  · exact h.1
  · exact List.mem_of_mem_drop h

theorem add_agree {s : Re.Vec.St U} {w : St U} (l : Like a A g s w) {o : Nat} (ho : o ∈ A) :
    SameE a A s.gen g (.ok (Re.Vec.add s o))
      (do let x ← w.get a; .ok (w.put a (x.add w.fresh o).1, .err (x.add w.fresh o).2)) := by
  rw [get_ok l, Out.ok_bind]
  unfold Re.Vec.add Obj.add
  dsimp only
  rw [if_pos rfl]
  unfold Obj.contains
  dsimp only
  rw [contains_eq]
  by_cases h : (!containsVec o s.vec) = true
  · rw [if_pos h, if_pos h]
    refine ⟨rfl, w.fresh, l.put (by simp) (Nat.le_refl _) rfl rfl rfl ?_, .inr ⟨Nat.lt_succ_self _, l.fresh⟩⟩
    intro p hp
    rcases List.mem_append.mp hp with hp | hp
    · exact l.known p hp
    · simp only [List.mem_singleton] at hp
      exact hp ▸ ho
  · rw [if_neg h, if_neg h]
    exact ⟨rfl, g, l.put rfl (Nat.le_of_lt l.fresh) rfl rfl rfl l.known, .refl _ _⟩

theorem remove_agree {s : Re.Vec.St U} {w : St U} (l : Like a A g s w) {o : Nat} :
    SameE a A s.gen g (.ok (Re.Vec.remove s o))
      (do let x ← w.get a; .ok (w.put a (x.remove o).1, .err (x.remove o).2)) := by
  rw [get_ok l, Out.ok_bind]
  unfold Re.Vec.remove Obj.remove
  dsimp only
  rw [if_pos rfl]
  have hk : ∀ p ∈ (stdRemove o s.vec).1, p ∈ A := fun p hp => l.known p (stdRemove_mem hp)
  have hle := Nat.le_of_lt l.fresh
  have hl := stdRemove_length o s.vec
  by_cases h1 : s.vec = []
  · rw [if_pos h1, if_pos (by rw [h1]; rfl)]
    exact ⟨rfl, g, l.put rfl hle rfl rfl rfl l.known, .refl _ _⟩
  · rw [if_neg h1, if_neg (show ¬ s.vec.map some = [] by simpa using h1)]
    rw [stdRemove_some, List.length_map]
    dsimp only
    by_cases h2 : (stdRemove o s.vec).2 ≠ s.vec.length
    · rw [if_pos h2, if_pos h2]
      exact ⟨rfl, g, l.put (by simp [hl]) hle rfl rfl rfl hk, .refl _ _⟩
    · rw [if_neg h2, if_neg h2]
      exact ⟨rfl, g, l.put (by simp [hl]) hle rfl rfl rfl hk, .refl _ _⟩

theorem update_agree (hc : Calls a A ex ex') {H : Re.Handlers U} (hH : ∀ u o v, Only A (H.update u o v)) {T : IntTy} {u : Re.Upd}
    {s : Re.Vec.St U} {w : St U} (l : Like a A g s w) :
    SameE a A s.gen g (Re.Vec.update ex H T s u) (update ex' (liftAll a H) T a u w) := by
  unfold Re.Vec.update update
  rw [get_ok l, Out.ok_bind]
  unfold resultOut
  dsimp only
  cases hr : Re.result T s.value u with
  | ub => trivial
  | hang => trivial
  | ok v =>
    dsimp only
    rw [Res.ok_bind, Out.ok_bind, if_neg (fun h => h.1 rfl)]
    have l1 : Like a A g { s with value := Re.stored T s.value u }
        (w.put a ⟨Re.stored T s.value u, 0, s.vec.map some, s.vec.length, g⟩) :=
      l.put rfl (Nat.le_of_lt l.fresh) rfl rfl rfl l.known
    exact (loop_agree (fun o s w g ho l => tell_agree hc hH ho l) s.vec.length 0 l1 (.refl _ _)).bindE
      fun s' w' g' l' t => ⟨rfl, g', l', t⟩

theorem clear_agree (hc : Calls a A ex ex') {H : Re.Handlers U} (hH : ∀ u o, Only A (H.disconnect u o)) {s : Re.Vec.St U} {w : St U}
    (l : Like a A g s w) :
    SameE a A s.gen g (Re.Vec.clear ex H s) (do let s ← clearObs ex' (liftAll a H) a w; .ok (s, .unit)) := by
  unfold Re.Vec.clear clearObs
  rw [get_ok l, Out.ok_bind]
  dsimp only
  have := loop_agree (fun o s w g ho l => part_agree hc hH ho l) s.vec.length 0 l (.refl s.gen g)
  rw [show ((0 : Nat) == 0) = true from rfl]
  generalize Re.Vec.loop _ _ _ _ _ = r at this ⊢
  generalize loop _ _ _ _ _ _ _ = d at this ⊢
  cases r with
  | ok s' => cases d with
    | ok w' =>
      obtain ⟨g', l', t⟩ := this
      simp only [Out.ok_bind, Res.ok_bind]
      rw [get_ok l']
      refine ⟨rfl, w'.fresh, l'.put (s' := { s' with vec := [], gen := s'.gen + 1 }) ?_ (Nat.le_refl _) rfl rfl rfl ?_,
        t.trans (.inr ⟨Nat.lt_succ_self _, l'.fresh⟩)⟩
      · simp [Obj.empty]
      · intro o ho
        cases ho
    | _ => exact this.elim
  | ub => cases d <;> first | exact this.elim | trivial
  | hang => cases d <;> first | exact this.elim | trivial

theorem SameE.done {r : Res (Re.Vec.St U × Ret)} {d : Out (St U × Ret)} (h : SameE a A n g r d) {op : Re.Op} {op' : Op}
    (ho : oldOp op' = some op) :
    SameE a A n g (r >>= fun r => .ok (r.1.emit (.ret op r.2), r.2)) (d >>= fun r => .ok (r.1.emit (.ret op' r.2), r.2)) := by
  cases r with
  | ok x => cases d with
    | ok y =>
      obtain ⟨s', e⟩ := x
      obtain ⟨w', e'⟩ := y
      obtain ⟨rfl, g', l', t⟩ := h
      exact ⟨rfl, g', l'.emit (by simp [oldEv, ho]), t⟩
    | _ => exact h.elim
  | ub => cases d <;> first | exact h.elim | trivial
  | hang => cases d <;> first | exact h.elim | trivial

/-- The calls agree. -/
theorem exec_agree {H : Re.Handlers U} (hH : Decent A H) {T : IntTy} : ∀ n : Nat,
    Calls a A (Re.Vec.exec H T n) (exec (fun _ _ => true) T (liftAll a H) n)
  | 0, s, w, g, op, l, f => by
    rw [Re.Vec.exec, exec]
    trivial
  | n + 1, s, w, g, op, l, f => by
    have hc := exec_agree hH (T := T) n
    rw [Re.Vec.exec, exec, Re.Vec.execStep, execStep, if_pos rfl]
    have lb := l.quiet (e := .began (liftOp a op)) rfl
    refine SameE.done ?_ (by cases op <;> rfl)
    cases op with
    | upd u => exact update_agree hc hH.1 lb
    | add o => exact add_agree lb f
    | remove o => exact remove_agree lb
    | clear => exact clear_agree hc hH.2 lb

/-- Histories of `DynReentrant.lean` in which the calls from outside name objects of `A` only. -/
inductive Proper (A : List Nat) (H : Re.Handlers U) (T : IntTy) : Re.Vec.St U → Prop
  | new (u : U) : Proper A H T (Re.Vec.St.new u)
  | call (s s' : Re.Vec.St U) (n : Nat) (op : Re.Op) (e : Ret) : Proper A H T s → Fine A op →
      Re.Vec.exec H T n s op = .ok (s', e) → Proper A H T s'
  | user (s : Re.Vec.St U) (u : U) : Proper A H T s → Proper A H T { s with user := u }

theorem Proper.reach {H : Re.Handlers U} {T : IntTy} {s : Re.Vec.St U} (h : Proper A H T s) : Re.Vec.Reach H T s := by
  induction h with
  | new u => exact .new u
  | call s s' n op e _ _ he ih => exact .call s s' n op e ih he
  | user s u _ ih => exact .user s u ih

theorem born_all {H : Handlers U} {T : IntTy} (u : U) : ∀ A : List Nat,
    ∃ w, Reach (fun _ _ => true) T H w ∧ w.alive = A ∧ w.user = u ∧ w.log.filterMap oldEv = [] ∧ w.held = fun _ => 0
  | [] => ⟨_, .new u, rfl, rfl, rfl, rfl⟩
  | o :: A => by
    obtain ⟨w, r, h1, h2, h3, h4⟩ := born_all u A
    refine ⟨_, .call w _ 1 (.born o) .unit r rfl, ?_, h2, ?_, ?_⟩
    · simp [St.emit, h1]
    · simp [St.emit, h3, oldEv, oldOp]
    · funext p
      simp [St.emit, h4, upd]

/-- Every such history is one of `World.lean`, in which the objects of `A` are constructed first. -/
theorem Proper.agree (a : Nat) {H : Re.Handlers U} (hH : Decent A H) {T : IntTy} {s : Re.Vec.St U} (h : Proper A H T s) :
    ∃ w g, Reach (fun _ _ => true) T (liftAll a H) w ∧ Like a A g s w := by
  induction h with
  | new u =>
    obtain ⟨w, r, h1, h2, h3, h4⟩ := born_all (H := liftAll a H) (T := T) u A
    refine ⟨_, w.fresh, .call w _ 1 (.make a 0) .unit r rfl, ?_, ?_, h1, h4, h2, ?_, ?_⟩
    · simp [St.emit, St.put, upd, Obj.new, Re.Vec.St.new]
    · simp [St.emit, St.put]
    · simp [St.emit, St.put, h3, oldEv, oldOp, Re.Vec.St.new]
    · simp [Re.Vec.St.new]
  | call s s' n op e hp hf he ih =>
    obtain ⟨w, g, r, l⟩ := ih
    have hs := exec_agree (a := a) hH (T := T) n s w g op l hf
    rw [he] at hs
    cases ed : exec (fun _ _ => true) T (liftAll a H) n w (liftOp a op) with
    | ok b =>
      obtain ⟨w', x⟩ := b
      rw [ed] at hs
      obtain ⟨_, g', l', _⟩ := hs
      exact ⟨w', g', .call _ _ n _ x r ed, l'⟩
    | ub => rw [ed] at hs; exact hs.elim
    | deep => rw [ed] at hs; exact hs.elim
    | foul => rw [ed] at hs; exact hs.elim
  | user s u _ ih =>
    obtain ⟨w, g, r, l⟩ := ih
    exact ⟨_, g, .user w u r, l.obj, l.fresh, l.alive, l.held, rfl, l.log, l.known⟩

/-- Two objects that leave when they are told: the second is passed over, and the vector keeps its length. -/
example : ∃ s, Proper [1, 2] Agree.leavers .int s ∧ s.vec = [2, 2] ∧ s.gen = 2 :=
  ⟨_, .call _ _ 3 (.upd (.assign 7)) (.val 7) (.call _ _ 1 (.add 2) (.err .ok)
    (.call _ _ 1 (.add 1) (.err .ok) (.new ()) (by simp [Fine]) rfl) (by simp [Fine]) rfl) trivial rfl,
    by decide +kernel, by decide +kernel⟩

/-- A call that is undefined in both: a function that registers another object. -/
example : Re.Vec.exec (⟨fun _ _ _ => .call (.add 2) fun _ _ => .ret (), fun _ _ => .ret ()⟩ : Re.Handlers Unit) .int 3
    ⟨0, [1], 1, fun _ => 0, (), []⟩ (.upd (.assign 7)) = .ub := by
  rfl

end Verif.Values.World.AgreeDyn
