import Verif.Observer.World
/-! Invariant of `World.lean` and its preservation by operations that keep to the rule `careful`. -/
namespace Verif.Observer.World
open Verif Verif.Observer

variable {V U : Type}

@[simp] theorem upd_same {α : Type} (f : Nat → α) (a : Nat) (x : α) : upd f a x a = x := by simp [upd]
theorem upd_other {α : Type} (f : Nat → α) {a b : Nat} (x : α) (h : b ≠ a) : upd f a x b = f b := by
  simp [upd, h]

theorem view_snoc (l : List (Ev V)) (e : Ev V) : view (l ++ [e]) = (view l).see e := by
  simp [view, List.foldl_append]

@[simp] theorem view_emit (s : St V U) (e : Ev V) : view (s.emit e).log = (view s.log).see e :=
  view_snoc _ _

/-- A result satisfies `P` and is not undefined behaviour. -/
def Good {α : Type} (P : α → Prop) : Out α → Prop
  | .ok a => P a
  | .ub => False
  | _ => True

theorem Good.bind {α β : Type} {P : α → Prop} {Q : β → Prop} {x : Out α} {f : α → Out β}
    (h : Good P x) (hf : ∀ a, P a → Good Q (f a)) : Good Q (x >>= f) := by
  cases x with
  | ok a => exact hf a h
  | ub => exact h
  | deep => exact trivial
  | foul => exact trivial

theorem Good.mono {α : Type} {P Q : α → Prop} {x : Out α} (h : Good P x) (hf : ∀ a, P a → Q a) :
    Good Q x := by
  cases x with
  | ok a => exact hf a h
  | ub => exact h
  | deep => exact trivial
  | foul => exact trivial

/-- What holds of an event when it happens. -/
def Ok (v : View) : Ev V → Prop
  | .began op => careful v op = true
  | .data a o _ => a ∈ v.objs ∧ o ∈ v.alive ∧ o ∈ v.held a ∧ 0 < v.run a ∧ 0 < v.noting a
  | .disc a o => a ∈ v.objs ∧ o ∈ v.alive ∧ o ∈ v.held a ∧ 0 < v.run a
  | .ret (.add a o) e => (e = .ok → o ∉ v.reg a) ∧ (e = .alreadyContains → o ∈ v.reg a) ∧
      (e = .ok ∨ e = .alreadyContains ∨ e = .listIsFull)
  | .ret (.remove a o) e => (e = .ok ∧ o ∈ v.reg a) ∨ (e = .notFound ∧ o ∉ v.reg a)
  | .ret (.make a) _ => a ∉ v.objs ∧ v.noting a = 0
  | .ret (.copy a b) _ => a ∉ v.objs ∧ b ∈ v.objs ∧ v.noting a = 0
  | .ret (.assign a b) _ => a ∈ v.objs ∧ b ∈ v.objs ∧ v.noting a = 0
  | .ret (.notify a _) e => a ∈ v.objs ∧ 0 < v.run a ∧
      ((e = .ok ∧ 0 < v.noting a) ∨ (e = .notifyRecursionDetected ∧ v.inside a = true))
  | _ => True

/-- Every event of the log was in order when it happened. -/
inductive Fine : List (Ev V) → Prop
  | nil : Fine []
  | snoc (l : List (Ev V)) (e : Ev V) : Fine l → Ok (view l) e → Fine (l ++ [e])

/-- The array while `a` is visiting its observers: every place up to the peak points to somebody who
was registered. -/
structure Held (mx : Nat) (v : View) (a : Nat) (x : Obj) : Prop where
  alive : ∀ o ∈ v.held a, o ∈ v.alive
  sub : ∀ o ∈ v.reg a, o ∈ v.held a
  peak : (v.reg a).length ≤ v.peak a
  all : ∀ i, i < v.peak a → ∃ o, o ∈ v.held a ∧ x.arr[i]? = some (some o)

/-- One observable. -/
structure ObjInv (mx : Nat) (v : View) (a : Nat) (x : Obj) : Prop where
  len : x.arr.length = mx
  reg : x.arr.take x.count = (v.reg a).map some
  count : x.count = (v.reg a).length
  fits : x.count ≤ mx
  inside : x.inside = v.inside a
  alive : ∀ o ∈ v.reg a, o ∈ v.alive
  held : 0 < v.run a → Held mx v a x

/-- All objects agree with what the log tells. -/
structure Inv (mx : Nat) (s : St V U) : Prop where
  here : ∀ a ∈ (view s.log).objs, ∃ x, s.objs a = some x
  mem : ∀ a x, s.objs a = some x → a ∈ (view s.log).objs
  alive : s.alive = (view s.log).alive
  idle : ∀ a, a ∉ (view s.log).objs → (view s.log).run a = 0
  noting : ∀ a, (view s.log).noting a ≤ (view s.log).run a
  obj : ∀ a x, s.objs a = some x → ObjInv mx (view s.log) a x
  fine : Fine s.log

/-- What a complete operation leaves as it was. -/
structure Keeps (v w : View) : Prop where
  run : ∀ a, w.run a = v.run a
  noting : ∀ a, w.noting a = v.noting a
  objs : ∀ a, 0 < v.run a → a ∈ v.objs → a ∈ w.objs
  peak : ∀ a, 0 < v.run a → v.peak a ≤ w.peak a

theorem Keeps.refl (v : View) : Keeps v v :=
  ⟨fun _ => rfl, fun _ => rfl, fun _ _ h => h, fun _ _ => Nat.le_refl _⟩

theorem Keeps.trans {u v w : View} (h : Keeps u v) (k : Keeps v w) : Keeps u w where
  run a := (k.run a).trans (h.run a)
  noting a := (k.noting a).trans (h.noting a)
  objs a hr ha := k.objs a (by rw [h.run a]; exact hr) (h.objs a hr ha)
  peak a hr := Nat.le_trans (h.peak a hr) (k.peak a (by rw [h.run a]; exact hr))

/-- The invariant of an observable only depends on what the view says about it. -/
theorem ObjInv.congr {mx : Nat} {v w : View} {a : Nat} {x : Obj} (h : ObjInv mx v a x)
    (hreg : w.reg a = v.reg a) (hin : w.inside a = v.inside a) (hal : ∀ o, o ∈ v.alive → o ∈ w.alive)
    (hrun : 0 < w.run a → 0 < v.run a) (hheld : w.held a = v.held a) (hpeak : w.peak a = v.peak a) :
    ObjInv mx w a x where
  len := h.len
  reg := by rw [hreg]; exact h.reg
  count := by rw [hreg]; exact h.count
  fits := h.fits
  inside := by rw [hin]; exact h.inside
  alive := by rw [hreg]; exact fun o ho => hal o (h.alive o ho)
  held := fun hr => by
    have k := h.held (hrun hr)
    exact ⟨by rw [hheld]; exact fun o ho => hal o (k.alive o ho), by rw [hreg, hheld]; exact k.sub,
      by rw [hreg, hpeak]; exact k.peak, by rw [hheld, hpeak]; exact k.all⟩

theorem Inv.new (mx : Nat) (u : U) : Inv (V := V) mx (St.new u) where
  here := fun a h => by simp [St.new, view, View.new] at h
  mem := fun a x h => by simp [St.new] at h
  alive := rfl
  idle := fun _ _ => rfl
  noting := fun _ => Nat.le_refl _
  obj := fun a x h => by simp [St.new] at h
  fine := .nil

theorem Inv.user {mx : Nat} {s : St V U} (h : Inv mx s) (u : U) : Inv mx { s with user := u } :=
  ⟨h.here, h.mem, h.alive, h.idle, h.noting, h.obj, h.fine⟩

/-- An event that does not change the view. -/
theorem Inv.emit {mx : Nat} {s : St V U} (h : Inv mx s) (e : Ev V) (hv : (view s.log).see e = view s.log)
    (hok : Ok (view s.log) e) : Inv mx (s.emit e) where
  here := by rw [view_emit, hv]; exact h.here
  mem := by rw [view_emit, hv]; exact h.mem
  alive := by rw [view_emit, hv]; exact h.alive
  idle := by rw [view_emit, hv]; exact h.idle
  noting := by rw [view_emit, hv]; exact h.noting
  obj := by rw [view_emit, hv]; exact h.obj
  fine := .snoc _ _ h.fine hok

theorem Inv.get {mx : Nat} {s : St V U} (h : Inv mx s) {a : Nat} (ha : a ∈ (view s.log).objs) :
    ∃ x, s.get a = .ok x ∧ s.objs a = some x ∧ ObjInv mx (view s.log) a x := by
  obtain ⟨x, hx⟩ := h.here a ha
  exact ⟨x, by simp [St.get, hx], hx, h.obj a x hx⟩

/-! ### Callbacks and loops -/

/-- What an operation has to do. -/
def ExOk (mx : Nat) (ex : Ex V U) : Prop :=
  ∀ s op, Inv mx s → Good (fun r => Inv mx r.1 ∧ Keeps (view s.log) (view r.1.log)) (ex s op)

theorem runProg_good {mx : Nat} {ex : Ex V U} (hex : ExOk mx ex) (p : Prog V U) (s : St V U)
    (h : Inv mx s) :
    Good (fun t => Inv mx t ∧ Keeps (view s.log) (view t.log)) (runProg ex p s) := by
  induction p generalizing s with
  | ret u => exact ⟨h.user u, Keeps.refl _⟩
  | set u k ih => exact ih { s with user := u } (h.user u)
  | call op k ih =>
    refine Good.bind (hex s op h) ?_
    intro r hr
    exact (ih r.2 r.1.user r.1 hr.1).mono fun t ht => ⟨ht.1, hr.2.trans ht.2⟩

theorem loop_good {mx : Nat} {ex : Ex V U} (hex : ExOk mx ex) (ev : Nat → Ev V)
    (p : U → Nat → Prog V U) (a N : Nat) (hsee : ∀ (w : View) o, w.see (ev o) = w)
    (hok : ∀ (w : View) o, a ∈ w.objs → o ∈ w.alive → o ∈ w.held a → 0 < w.run a → w.noting a = N →
      Ok w (ev o))
    (left : Nat) : ∀ (i : Nat) (s : St V U), Inv mx s → a ∈ (view s.log).objs → 0 < (view s.log).run a →
      (view s.log).noting a = N → i + left ≤ (view s.log).peak a →
      Good (fun t => Inv mx t ∧ Keeps (view s.log) (view t.log)) (loop ex ev p a i left s) := by
  induction left with
  | zero => exact fun i s h _ _ _ _ => ⟨h, Keeps.refl _⟩
  | succ left ih =>
    intro i s h ha hr hn hi
    obtain ⟨x, hget, hx, hobj⟩ := h.get ha
    obtain ⟨o, ho, hd⟩ := (hobj.held hr).all i (by omega)
    have hal := (hobj.held hr).alive o ho
    have hxd : x.deref i = .ok o := by simp [Obj.deref, hd]
    have hent : s.enter o (ev o) = .ok (s.emit (ev o)) := by
      simp [St.enter, h.alive, hal]
    simp only [loop, hget, hxd, hent, Out.ok_bind]
    have h1 := h.emit (ev o) (hsee _ o) (hok _ o ha hal ho hr hn)
    have hv1 : view (s.emit (ev o)).log = view s.log := by rw [view_emit, hsee]
    refine Good.bind (runProg_good hex _ _ h1) ?_
    intro t ht
    have hk : Keeps (view s.log) (view t.log) := by rw [← hv1]; exact ht.2
    have h2 := ht.1.emit (.leave o) rfl trivial
    have hv2 : view (t.emit (.leave o)).log = view t.log := by rw [view_emit]; rfl
    refine (ih (i + 1) (t.emit (.leave o)) h2 ?_ ?_ ?_ ?_).mono ?_
    · rw [hv2]; exact hk.objs a hr ha
    · rw [hv2, hk.run a]; exact hr
    · rw [hv2, hk.noting a]; exact hn
    · have := hk.peak a hr
      rw [hv2]; omega
    · intro w hw
      rw [hv2] at hw
      exact ⟨hw.1, hk.trans hw.2⟩

/-! ### The view and the objects when a loop starts and ends -/

theorem ObjInv.get {mx : Nat} {v : View} {a : Nat} {x : Obj} (h : ObjInv mx v a x) (i : Nat)
    (hi : i < x.count) : ∃ o, o ∈ v.reg a ∧ x.arr[i]? = some (some o) := by
  have h1 : (x.arr.take x.count)[i]? = x.arr[i]? := by rw [List.getElem?_take]; simp [hi]
  rw [h.reg, List.getElem?_map] at h1
  have hl : i < (v.reg a).length := by rw [← h.count]; exact hi
  rw [List.getElem?_eq_getElem hl] at h1
  exact ⟨(v.reg a)[i], List.getElem_mem hl, by rw [← h1]; rfl⟩

/-- A loop over the observers of `a` starts. -/
theorem ObjInv.start {mx : Nat} {v : View} {a : Nat} {x : Obj} (h : ObjInv mx v a x) :
    ObjInv mx (v.start a) a x ∧ x.count ≤ (v.start a).peak a := by
  by_cases hr : v.run a = 0
  · have hh : (v.start a).held a = v.reg a := by simp [View.start, hr]
    have hp : (v.start a).peak a = (v.reg a).length := by simp [View.start, hr]
    refine ⟨⟨h.len, h.reg, h.count, h.fits, h.inside, h.alive, fun _ => ⟨?_, ?_, ?_, ?_⟩⟩, ?_⟩
    · rw [hh]; exact h.alive
    · rw [hh]; exact fun o ho => ho
    · rw [hp]; exact Nat.le_refl _
    · rw [hh, hp, ← h.count]; exact fun i hi => h.get i hi
    · rw [hp, h.count]; exact Nat.le_refl _
  · have hh : (v.start a).held = v.held := by simp [View.start, hr]
    have hp : (v.start a).peak = v.peak := by simp [View.start, hr]
    refine ⟨h.congr rfl rfl (fun o ho => ho) (fun _ => by omega) (by rw [hh]) (by rw [hp]), ?_⟩
    rw [hp, h.count]
    exact (h.held (by omega)).peak

/-- Another observable does not notice. -/
theorem ObjInv.start_other {mx : Nat} {v : View} {a b : Nat} {x : Obj} (h : ObjInv mx v b x)
    (hb : b ≠ a) : ObjInv mx (v.start a) b x := by
  refine h.congr rfl rfl (fun o ho => ho) ?_ ?_ ?_
  · simp only [View.start, upd_other _ _ hb]; exact id
  · simp only [View.start]; split <;> simp [upd_other _ _ hb]
  · simp only [View.start]; split <;> simp [upd_other _ _ hb]

/-! ### The operations -/

/-- What has to be shown of the body of an operation that began in `s`. -/
def Done (mx : Nat) (s : St V U) (op : Op V) (r : St V U × Err) : Prop :=
  Inv mx (r.1.emit (.ret op r.2)) ∧ Keeps (view s.log) (view (r.1.emit (.ret op r.2)).log)

theorem began_fine {s : St V U} (h : Fine s.log) {op : Op V} (hc : careful (view s.log) op = true) :
    Fine (s.emit (.began op)).log := .snoc _ _ h hc

theorem make_good {mx : Nat} {s : St V U} (h : Inv mx s) (a : Nat)
    (hc : careful (view s.log) (.make a : Op V) = true) (ex : Ex V U) (H : Handlers V U) :
    Good (Done mx s (.make a)) (body mx ex H (s.emit (.began (.make a))) (.make a)) := by
  have ha : a ∉ (view s.log).objs := by
    simp only [careful, sane, Bool.and_eq_true, decide_eq_true_eq] at hc
    exact hc.1.1.1
  have hr := h.idle a ha
  simp only [body, Good, Done]
  have hv : view (((s.emit (.began (.make a))).put a (Obj.new mx)).emit (.ret (.make a) .ok)).log =
      (view s.log).ended (.make a : Op V) .ok := by
    rw [view_emit]
    show ((view (s.emit (.began (.make a))).log).see (.ret (.make a) .ok)) = _
    rw [view_emit]; rfl
  rw [hv]
  refine ⟨⟨?_, ?_, ?_, ?_, ?_, ?_, ?_⟩, ⟨fun _ => rfl, fun _ => rfl, ?_, fun _ _ => Nat.le_refl _⟩⟩
  · rw [hv]
    intro b hb
    show ∃ x, upd s.objs a (some (Obj.new mx)) b = some x
    by_cases hba : b = a
    · exact ⟨_, by rw [hba, upd_same]⟩
    · rw [upd_other _ _ hba]
      rcases List.mem_cons.1 hb with hb | hb
      · exact absurd hb hba
      · exact h.here b hb
  · rw [hv]
    intro b x hx
    change upd s.objs a (some (Obj.new mx)) b = some x at hx
    by_cases hba : b = a
    · rw [hba]; exact List.mem_cons_self
    · rw [upd_other _ _ hba] at hx
      exact List.mem_cons_of_mem _ (h.mem b x hx)
  · rw [hv]; exact h.alive
  · rw [hv]
    intro b hb
    exact h.idle b (fun h' => hb (List.mem_cons_of_mem _ h'))
  · rw [hv]; exact h.noting
  · rw [hv]
    intro b x hx
    change upd s.objs a (some (Obj.new mx)) b = some x at hx
    by_cases hba : b = a
    · subst hba
      rw [upd_same] at hx
      injection hx with hx
      subst hx
      refine ⟨by simp [Obj.new], by simp [Obj.new, View.ended], by simp [Obj.new, View.ended],
        by simp [Obj.new], by simp [Obj.new, View.ended], by simp [View.ended], ?_⟩
      intro hr'
      change 0 < (view s.log).run b at hr'
      omega
    · rw [upd_other _ _ hba] at hx
      exact (h.obj b x hx).congr (by simp [View.ended, upd_other _ _ hba])
        (by simp [View.ended, upd_other _ _ hba]) (fun o ho => ho) id rfl rfl
  · refine .snoc _ _ (began_fine h.fine hc) ?_
    show a ∉ (view (s.emit (.began (.make a))).log).objs ∧ (view (s.emit (.began (.make a))).log).noting a = 0
    rw [view_emit]
    have := h.noting a
    exact ⟨ha, by show (view s.log).noting a = 0; omega⟩
  · exact fun b _ hb => List.mem_cons_of_mem _ hb

/-- The members of one observable change. -/
theorem Inv.set {mx : Nat} {s t : St V U} (h : Inv mx s) (a : Nat) (x : Obj) (w : View)
    (hw : view t.log = w) (hobjs : t.objs = upd s.objs a (some x))
    (hO : ∀ b, b ∈ w.objs ↔ b = a ∨ b ∈ (view s.log).objs) (hal : t.alive = w.alive)
    (hrun : ∀ b, w.run b = (view s.log).run b) (hnot : ∀ b, w.noting b = (view s.log).noting b)
    (ha : ObjInv mx w a x)
    (hother : ∀ b y, b ≠ a → ObjInv mx (view s.log) b y → ObjInv mx w b y) (hf : Fine t.log) :
    Inv mx t := by
  subst hw
  refine ⟨?_, ?_, hal, ?_, ?_, ?_, hf⟩
  · intro b hb
    rw [hobjs]
    by_cases hba : b = a
    · exact ⟨_, by rw [hba, upd_same]⟩
    · rw [upd_other _ _ hba]
      rcases (hO b).1 hb with hb | hb
      · exact absurd hb hba
      · exact h.here b hb
  · intro b y hy
    rw [hobjs] at hy
    by_cases hba : b = a
    · exact (hO b).2 (.inl hba)
    · rw [upd_other _ _ hba] at hy
      exact (hO b).2 (.inr (h.mem b y hy))
  · intro b hb
    rw [hrun]
    exact h.idle b fun h' => hb ((hO b).2 (.inr h'))
  · intro b
    rw [hrun, hnot]; exact h.noting b
  · intro b y hy
    rw [hobjs] at hy
    by_cases hba : b = a
    · subst hba
      rw [upd_same] at hy
      injection hy with hy
      rw [← hy]; exact ha
    · rw [upd_other _ _ hba] at hy
      exact hother b y hba (h.obj b y hy)

theorem view_began_put {s : St V U} {op : Op V} (hv : (view s.log).see (.began op) = view s.log) (a : Nat)
    (x : Obj) (e : Err) :
    view (((s.emit (.began op)).put a x).emit (.ret op e)).log = (view s.log).ended op e := by
  rw [view_emit]
  show (view (s.emit (.began op)).log).see (.ret op e) = _
  rw [view_emit, hv]; rfl

theorem get_emit {s : St V U} (e : Ev V) (a : Nat) : (s.emit e).get a = s.get a := rfl

theorem copy_good {mx : Nat} {s : St V U} (h : Inv mx s) (a b : Nat)
    (hc : careful (view s.log) (.copy a b : Op V) = true) (ex : Ex V U) (H : Handlers V U) :
    Good (Done mx s (.copy a b)) (body mx ex H (s.emit (.began (.copy a b))) (.copy a b)) := by
  have hab : a ∉ (view s.log).objs ∧ b ∈ (view s.log).objs := by
    simp only [careful, sane, Bool.and_eq_true, decide_eq_true_eq] at hc
    exact hc.1.1.1
  have hne : b ≠ a := fun h' => hab.1 (h' ▸ hab.2)
  have hr := h.idle a hab.1
  obtain ⟨x, hget, hx, hobj⟩ := h.get hab.2
  simp only [body, get_emit, hget, Out.ok_bind, Good, Done]
  have hv := view_began_put (s := s) (op := .copy a b) rfl a x .ok
  refine ⟨h.set a x _ hv rfl ?_ h.alive (fun _ => rfl) (fun _ => rfl) ?_ ?_ ?_, ?_⟩
  · intro c; exact List.mem_cons
  · refine ⟨hobj.len, ?_, ?_, hobj.fits, ?_, ?_, ?_⟩
    · simp [View.ended, hobj.reg]
    · simp [View.ended, hobj.count]
    · simp [View.ended, hobj.inside]
    · simpa [View.ended] using hobj.alive
    · intro hr'
      change 0 < (view s.log).run a at hr'
      omega
  · intro c y hca hy
    exact hy.congr (by simp [View.ended, upd_other _ _ hca])
        (by simp [View.ended, upd_other _ _ hca]) (fun o ho => ho) id rfl rfl
  · refine .snoc _ _ (began_fine h.fine hc) ?_
    show a ∉ (view (s.emit (.began (.copy a b))).log).objs ∧ b ∈ (view (s.emit (.began (.copy a b))).log).objs ∧
      (view (s.emit (.began (.copy a b))).log).noting a = 0
    rw [view_emit]
    have := h.noting a
    exact ⟨hab.1, hab.2, by show (view s.log).noting a = 0; omega⟩
  · rw [hv]
    exact ⟨fun _ => rfl, fun _ => rfl, fun c _ hc' => List.mem_cons_of_mem _ hc', fun _ _ => Nat.le_refl _⟩

theorem assign_good {mx : Nat} {s : St V U} (h : Inv mx s) (a b : Nat)
    (hc : careful (view s.log) (.assign a b : Op V) = true) (ex : Ex V U) (H : Handlers V U) :
    Good (Done mx s (.assign a b)) (body mx ex H (s.emit (.began (.assign a b))) (.assign a b)) := by
  have hab : (a ∈ (view s.log).objs ∧ b ∈ (view s.log).objs) ∧ (view s.log).run a = 0 := by
    simp only [careful, sane, steady, Bool.and_eq_true, decide_eq_true_eq] at hc
    exact hc.1.1
  have hr := hab.2
  obtain ⟨x, hget, hx, hobj⟩ := h.get hab.1.2
  obtain ⟨x', hget', -, -⟩ := h.get hab.1.1
  simp only [body, get_emit, hget, hget', Out.ok_bind, Good, Done]
  have hv := view_began_put (s := s) (op := .assign a b) rfl a x .ok
  refine ⟨h.set a x _ hv rfl ?_ h.alive (fun _ => rfl) (fun _ => rfl) ?_ ?_ ?_, ?_⟩
  · intro c
    constructor
    · exact .inr
    · rintro (rfl | h')
      · exact hab.1.1
      · exact h'
  · refine ⟨hobj.len, ?_, ?_, hobj.fits, ?_, ?_, ?_⟩
    · simp [View.ended, hobj.reg]
    · simp [View.ended, hobj.count]
    · simp [View.ended, hobj.inside]
    · simpa [View.ended] using hobj.alive
    · intro hr'
      change 0 < (view s.log).run a at hr'
      omega
  · intro c y hca hy
    exact hy.congr (by simp [View.ended, upd_other _ _ hca])
        (by simp [View.ended, upd_other _ _ hca]) (fun o ho => ho) id rfl rfl
  · refine .snoc _ _ (began_fine h.fine hc) ?_
    show a ∈ (view (s.emit (.began (.assign a b))).log).objs ∧ b ∈ (view (s.emit (.began (.assign a b))).log).objs ∧
      (view (s.emit (.began (.assign a b))).log).noting a = 0
    rw [view_emit]
    have := h.noting a
    exact ⟨hab.1.1, hab.1.2, by show (view s.log).noting a = 0; omega⟩
  · rw [hv]
    exact ⟨fun _ => rfl, fun _ => rfl, fun c _ hc' => hc', fun _ _ => Nat.le_refl _⟩

theorem Obj.contains_iff {mx : Nat} {v : View} {a : Nat} {x : Obj} (h : ObjInv mx v a x) (o : Nat) :
    x.contains o = true ↔ o ∈ v.reg a := by
  simp [Obj.contains, h.reg]

/-- `add_observer` on the members of an observable. -/
theorem add_obj {mx : Nat} {v : View} {a : Nat} {x : Obj} (h : ObjInv mx v a x) (o : Nat)
    (ho : o ∈ v.alive) : ObjInv mx (v.ended (.add a o : Op V) (x.add o).2) a (x.add o).1 := by
  unfold Obj.add
  by_cases hf : x.count ≥ x.arr.length
  · rw [if_pos hf]; exact h
  rw [if_neg hf]
  by_cases hm : o ∈ v.reg a
  · rw [if_neg (by rw [(Obj.contains_iff h o).2 hm]; simp)]; exact h
  have hnc : x.contains o = false := by
    cases hb : x.contains o with
    | false => rfl
    | true => exact absurd ((Obj.contains_iff h o).1 hb) hm
  rw [if_pos (by rw [hnc]; rfl)]
  have hlt : x.count < x.arr.length := by omega
  have hreg : (v.ended (.add a o : Op V) .ok).reg a = v.reg a ++ [o] := by simp [View.ended]
  have hheld : (v.ended (.add a o : Op V) .ok).held a = v.held a ++ [o] := by simp [View.ended]
  have hpeak : (v.ended (.add a o : Op V) .ok).peak a = max (v.peak a) ((v.reg a).length + 1) := by
    simp [View.ended]
  have hset : ∀ i, i ≠ x.count → (x.arr.set x.count (some o))[i]? = x.arr[i]? := by
    intro i hi
    rw [List.getElem?_set_ne (Ne.symm hi)]
  have hset' : (x.arr.set x.count (some o))[x.count]? = some (some o) := by
    rw [List.getElem?_set_self hlt]
  refine ⟨by simp [h.len], ?_, ?_, ?_, h.inside, ?_, ?_⟩
  · rw [hreg, List.map_append, ← h.reg]
    simp only [List.take_set, List.map_cons, List.map_nil]
    rw [List.take_add_one, List.getElem?_eq_getElem hlt]
    rw [List.set_append]
    simp [List.length_take, Nat.min_eq_left (Nat.le_of_lt hlt)]
  · rw [hreg]; simp [h.count]
  · have := h.len; show x.count + 1 ≤ mx; omega
  · rw [hreg]
    intro p hp
    rcases List.mem_append.1 hp with hp | hp
    · exact h.alive p hp
    · rw [List.mem_singleton.1 hp]; exact ho
  · intro hr
    have k := h.held hr
    refine ⟨?_, ?_, ?_, ?_⟩
    · rw [hheld]
      intro p hp
      rcases List.mem_append.1 hp with hp | hp
      · exact k.alive p hp
      · rw [List.mem_singleton.1 hp]; exact ho
    · rw [hheld, hreg]
      intro p hp
      rcases List.mem_append.1 hp with hp | hp
      · exact List.mem_append_left _ (k.sub p hp)
      · exact List.mem_append_right _ hp
    · rw [hreg, hpeak]; simp; omega
    · rw [hheld, hpeak]
      intro i hi
      show ∃ o', o' ∈ v.held a ++ [o] ∧ (x.arr.set x.count (some o))[i]? = some (some o')
      by_cases hic : i = x.count
      · subst hic; exact ⟨o, by simp, hset'⟩
      · rw [hset i hic]
        have := h.count
        have hp := k.peak
        obtain ⟨p, hp', hd⟩ := k.all i (by omega)
        exact ⟨p, List.mem_append_left _ hp', hd⟩

/-- The result of `add_observer`. -/
theorem add_res {mx : Nat} {v : View} {a : Nat} {x : Obj} (h : ObjInv mx v a x) (o : Nat) :
    ((x.add o).2 = .ok → o ∉ v.reg a) ∧ ((x.add o).2 = .alreadyContains → o ∈ v.reg a) ∧
      ((x.add o).2 = .ok ∨ (x.add o).2 = .alreadyContains ∨ (x.add o).2 = .listIsFull) := by
  unfold Obj.add
  have hi := Obj.contains_iff h o
  split
  · simp
  · cases hb : x.contains o with
    | true => simp [hi.1 hb]
    | false =>
      have : o ∉ v.reg a := fun h' => by rw [hi.2 h'] at hb; cases hb
      simp [this]

theorem add_good {mx : Nat} {s : St V U} (h : Inv mx s) (a o : Nat)
    (hc : careful (view s.log) (.add a o : Op V) = true) (ex : Ex V U) (H : Handlers V U) :
    Good (Done mx s (.add a o)) (body mx ex H (s.emit (.began (.add a o))) (.add a o)) := by
  have hab : a ∈ (view s.log).objs ∧ o ∈ (view s.log).alive := by
    simp only [careful, sane, Bool.and_eq_true, decide_eq_true_eq] at hc
    exact hc.1.1.1
  obtain ⟨x, hget, hx, hobj⟩ := h.get hab.1
  simp only [body, get_emit, hget, Out.ok_bind, Good, Done]
  have hv := view_began_put (s := s) (op := .add a o) rfl a (x.add o).1 (x.add o).2
  have hfr : ∀ e, ((view s.log).ended (.add a o : Op V) e).objs = (view s.log).objs ∧
      ((view s.log).ended (.add a o : Op V) e).alive = (view s.log).alive ∧
      ((view s.log).ended (.add a o : Op V) e).run = (view s.log).run ∧
      ((view s.log).ended (.add a o : Op V) e).noting = (view s.log).noting ∧
      (∀ b, (view s.log).peak b ≤ ((view s.log).ended (.add a o : Op V) e).peak b) ∧
      (∀ b y, b ≠ a → ObjInv mx (view s.log) b y → ObjInv mx ((view s.log).ended (.add a o : Op V) e) b y) := by
    intro e
    cases e
    case ok =>
      refine ⟨rfl, rfl, rfl, rfl, ?_, ?_⟩
      · intro b
        by_cases hb : b = a
        · subst hb; simp [View.ended]; omega
        · simp [View.ended, upd_other _ _ hb]
      · intro b y hb hy
        exact hy.congr (by simp [View.ended, upd_other _ _ hb]) rfl (fun o ho => ho) id
          (by simp [View.ended, upd_other _ _ hb]) (by simp [View.ended, upd_other _ _ hb])
    all_goals exact ⟨rfl, rfl, rfl, rfl, fun _ => Nat.le_refl _, fun _ _ _ hy => hy⟩
  have hf := hfr (x.add o).2
  refine ⟨h.set a _ _ hv rfl ?_ ?_ ?_ ?_ (add_obj hobj o hab.2) hf.2.2.2.2.2 ?_, ?_⟩
  · intro c
    rw [hf.1]
    constructor
    · exact .inr
    · rintro (rfl | h')
      · exact hab.1
      · exact h'
  · rw [hf.2.1]; exact h.alive
  · rw [hf.2.2.1]; exact fun _ => rfl
  · rw [hf.2.2.2.1]; exact fun _ => rfl
  · refine .snoc _ _ (began_fine h.fine hc) ?_
    show Ok (view (s.emit (.began (.add a o))).log) _
    rw [view_emit]
    exact add_res hobj o
  · rw [hv]
    exact ⟨fun _ => by rw [hf.2.2.1], fun _ => by rw [hf.2.2.2.1], fun c _ hc' => by rw [hf.1]; exact hc',
      fun b _ => hf.2.2.2.2.1 b⟩

theorem filter_full {α : Type} (p : α → Bool) (l : List α) (h : l.length ≤ (l.filter p).length) :
    l.filter p = l :=
  List.filter_eq_self.2 (List.length_filter_eq_length_iff.1 (Nat.le_antisymm (List.length_filter_le p l) h))

/-- `remove_observer` on the members of an observable. -/
theorem remove_obj {mx : Nat} {v : View} {a : Nat} {x : Obj} (h : ObjInv mx v a x) (o : Nat) :
    ObjInv mx (v.ended (.remove a o : Op V) (x.remove o).2) a (x.remove o).1 := by
  have hle : x.count ≤ x.arr.length := by rw [h.len]; exact h.fits
  have htl : (x.arr.take x.count).length = x.count := by rw [List.length_take]; omega
  unfold Obj.remove
  rw [if_neg (by omega)]
  by_cases h0 : x.count = 0
  · rw [if_pos h0]; exact h
  rw [if_neg h0]
  have hkl : (x.kept o).length ≤ x.count := by
    have := List.length_filter_le (· != some o) (x.arr.take x.count)
    rw [htl] at this; exact this
  have hkept : x.kept o = ((v.reg a).filter (· != o)).map some := by
    unfold Obj.kept
    rw [h.reg, List.filter_map]
    congr 1
  dsimp only
  by_cases hit : x.count - (x.kept o).length ≠ 0
  · rw [if_pos hit]
    have hreg : (v.ended (.remove a o : Op V) .ok).reg a = (v.reg a).filter (· != o) := by
      simp [View.ended]
    refine ⟨?_, ?_, ?_, ?_, h.inside, ?_, ?_⟩
    · simp only [List.length_append, List.length_drop]
      have := h.len; omega
    · rw [hreg]; simp [hkept]
    · rw [hreg]; simp [hkept]
    · have := h.fits; show (x.kept o).length ≤ mx; omega
    · rw [hreg]
      exact fun p hp => h.alive p (List.mem_filter.1 hp).1
    · intro hr
      have k := h.held hr
      refine ⟨k.alive, ?_, ?_, ?_⟩
      · rw [hreg]; exact fun p hp => k.sub p (List.mem_filter.1 hp).1
      · rw [hreg]
        exact Nat.le_trans (List.length_filter_le _ _) k.peak
      · intro i hi
        obtain ⟨p, hp, hd⟩ := k.all i hi
        show ∃ o', o' ∈ v.held a ∧ (x.kept o ++ x.arr.drop (x.kept o).length)[i]? = some (some o')
        by_cases hik : i < (x.kept o).length
        · rw [List.getElem?_append_left hik, List.getElem?_eq_getElem hik]
          have hm : ∀ y, y ∈ x.kept o → ∃ q, q ∈ v.held a ∧ y = some q := by
            rw [hkept]
            intro y hy
            obtain ⟨q, hq, hq'⟩ := List.mem_map.1 hy
            exact ⟨q, k.sub q (List.mem_filter.1 hq).1, hq'.symm⟩
          obtain ⟨q, hq, hq'⟩ := hm _ (List.getElem_mem hik)
          exact ⟨q, hq, by rw [hq']⟩
        · rw [List.getElem?_append_right (by omega), List.getElem?_drop]
          refine ⟨p, hp, ?_⟩
          rw [← hd]; congr 1; omega
  · rw [if_neg hit]
    have hfull : x.kept o = x.arr.take x.count := by
      apply filter_full
      rw [htl]
      have : (x.kept o).length = (List.filter (· != some o) (x.arr.take x.count)).length := rfl
      omega
    have harr : x.kept o ++ x.arr.drop (x.kept o).length = x.arr := by
      rw [hfull, htl, List.take_append_drop]
    rw [harr]
    exact h

/-- The result of `remove_observer`. -/
theorem remove_res {mx : Nat} {v : View} {a : Nat} {x : Obj} (h : ObjInv mx v a x) (o : Nat) :
    ((x.remove o).2 = .ok ∧ o ∈ v.reg a) ∨ ((x.remove o).2 = .notFound ∧ o ∉ v.reg a) := by
  have hle : x.count ≤ x.arr.length := by rw [h.len]; exact h.fits
  have htl : (x.arr.take x.count).length = x.count := by rw [List.length_take]; omega
  unfold Obj.remove
  rw [if_neg (by omega)]
  by_cases h0 : x.count = 0
  · rw [if_pos h0]
    have : v.reg a = [] := List.eq_nil_of_length_eq_zero (by rw [← h.count]; exact h0)
    right; rw [this]; exact ⟨rfl, List.not_mem_nil⟩
  rw [if_neg h0]
  dsimp only
  have hm : o ∈ v.reg a ↔ some o ∈ x.arr.take x.count := by rw [h.reg]; simp
  split
  · rename_i hit
    refine .inl ⟨rfl, hm.2 (Classical.byContradiction fun hn => hit ?_)⟩
    have : x.kept o = x.arr.take x.count := by
      unfold Obj.kept
      apply List.filter_eq_self.2
      intro y hy
      simp only [bne_iff_ne, ne_eq]
      rintro rfl
      exact hn hy
    rw [this, htl]; omega
  · rename_i hit
    refine .inr ⟨rfl, fun hn => ?_⟩
    have hfull : x.kept o = x.arr.take x.count := by
      apply filter_full
      rw [htl]
      have : (x.kept o).length = (List.filter (· != some o) (x.arr.take x.count)).length := rfl
      omega
    have := hm.1 hn
    rw [← hfull] at this
    have := (List.mem_filter.1 this).2
    simp at this

theorem remove_good {mx : Nat} {s : St V U} (h : Inv mx s) (a o : Nat)
    (hc : careful (view s.log) (.remove a o : Op V) = true) (ex : Ex V U) (H : Handlers V U) :
    Good (Done mx s (.remove a o)) (body mx ex H (s.emit (.began (.remove a o))) (.remove a o)) := by
  have hab : a ∈ (view s.log).objs := by
    simp only [careful, sane, Bool.and_eq_true, decide_eq_true_eq] at hc
    exact hc.1.1.1
  obtain ⟨x, hget, hx, hobj⟩ := h.get hab
  simp only [body, get_emit, hget, Out.ok_bind, Good, Done]
  have hv := view_began_put (s := s) (op := .remove a o) rfl a (x.remove o).1 (x.remove o).2
  have hfr : ∀ e, ((view s.log).ended (.remove a o : Op V) e).objs = (view s.log).objs ∧
      ((view s.log).ended (.remove a o : Op V) e).alive = (view s.log).alive ∧
      ((view s.log).ended (.remove a o : Op V) e).run = (view s.log).run ∧
      ((view s.log).ended (.remove a o : Op V) e).noting = (view s.log).noting ∧
      ((view s.log).ended (.remove a o : Op V) e).peak = (view s.log).peak ∧
      (∀ b y, b ≠ a → ObjInv mx (view s.log) b y → ObjInv mx ((view s.log).ended (.remove a o : Op V) e) b y) := by
    intro e
    cases e
    case ok =>
      refine ⟨rfl, rfl, rfl, rfl, rfl, ?_⟩
      intro b y hb hy
      exact hy.congr (by simp [View.ended, upd_other _ _ hb]) rfl (fun o ho => ho) id rfl rfl
    all_goals exact ⟨rfl, rfl, rfl, rfl, rfl, fun _ _ _ hy => hy⟩
  have hf := hfr (x.remove o).2
  refine ⟨h.set a _ _ hv rfl ?_ ?_ ?_ ?_ (remove_obj hobj o) hf.2.2.2.2.2 ?_, ?_⟩
  · intro c
    rw [hf.1]
    constructor
    · exact .inr
    · rintro (rfl | h')
      · exact hab
      · exact h'
  · rw [hf.2.1]; exact h.alive
  · rw [hf.2.2.1]; exact fun _ => rfl
  · rw [hf.2.2.2.1]; exact fun _ => rfl
  · refine .snoc _ _ (began_fine h.fine hc) ?_
    show Ok (view (s.emit (.began (.remove a o))).log) _
    rw [view_emit]
    exact remove_res hobj o
  · rw [hv]
    exact ⟨fun _ => by rw [hf.2.2.1], fun _ => by rw [hf.2.2.2.1], fun c _ hc' => by rw [hf.1]; exact hc',
      fun b _ => by rw [hf.2.2.2.2.1]; exact Nat.le_refl _⟩

theorem born_good {mx : Nat} {s : St V U} (h : Inv mx s) (o : Nat)
    (hc : careful (view s.log) (.born o : Op V) = true) (ex : Ex V U) (H : Handlers V U) :
    Good (Done mx s (.born o)) (body mx ex H (s.emit (.began (.born o))) (.born o)) := by
  simp only [body, Good, Done]
  have hv : view (St.emit { (s.emit (.began (.born o))) with alive := o :: (s.emit (.began (.born o))).alive }
      (.ret (.born o) .ok)).log = (view s.log).ended (.born o : Op V) .ok := by
    rw [view_emit]
    show (view (s.emit (.began (.born o))).log).see (.ret (.born o) .ok) = _
    rw [view_emit]; rfl
  refine ⟨⟨?_, ?_, ?_, ?_, ?_, ?_, .snoc _ _ (began_fine h.fine hc) trivial⟩, ?_⟩
  · rw [hv]; exact h.here
  · rw [hv]; exact h.mem
  · rw [hv]; show o :: s.alive = o :: (view s.log).alive; rw [h.alive]
  · rw [hv]; exact h.idle
  · rw [hv]; exact h.noting
  · rw [hv]
    intro a x hx
    exact (h.obj a x hx).congr rfl rfl (fun p hp => List.mem_cons_of_mem _ hp) id rfl rfl
  · rw [hv]
    exact ⟨fun _ => rfl, fun _ => rfl, fun _ _ h' => h', fun _ _ => Nat.le_refl _⟩

theorem die_good {mx : Nat} {s : St V U} (h : Inv mx s) (o : Nat)
    (hc : careful (view s.log) (.die o : Op V) = true) (ex : Ex V U) (H : Handlers V U) :
    Good (Done mx s (.die o)) (body mx ex H (s.emit (.began (.die o))) (.die o)) := by
  have hab : (∀ a ∈ (view s.log).objs, o ∉ (view s.log).reg a) ∧
      ∀ a ∈ (view s.log).objs, (view s.log).run a = 0 ∨ o ∉ (view s.log).held a := by
    simp only [careful, apart, patient, Bool.and_eq_true, List.all_eq_true, decide_eq_true_eq] at hc
    exact ⟨hc.1.2, hc.2⟩
  simp only [body, Good, Done]
  have hv : view (St.emit { (s.emit (.began (.die o))) with
        alive := (s.emit (.began (.die o))).alive.filter (· != o) }
      (.ret (.die o) .ok)).log = (view s.log).ended (.die o : Op V) .ok := by
    rw [view_emit]
    show (view (s.emit (.began (.die o))).log).see (.ret (.die o) .ok) = _
    rw [view_emit]; rfl
  refine ⟨⟨?_, ?_, ?_, ?_, ?_, ?_, .snoc _ _ (began_fine h.fine hc) trivial⟩, ?_⟩
  · rw [hv]; exact h.here
  · rw [hv]; exact h.mem
  · rw [hv]; show s.alive.filter _ = (view s.log).alive.filter _; rw [h.alive]
  · rw [hv]; exact h.idle
  · rw [hv]; exact h.noting
  · rw [hv]
    intro a x hx
    have ha := h.mem a x hx
    have k := h.obj a x hx
    have hal : ∀ p, p ∈ (view s.log).alive → p ≠ o → p ∈ ((view s.log).ended (.die o : Op V) .ok).alive :=
      fun p hp hne => List.mem_filter.2 ⟨hp, by simpa using hne⟩
    refine ⟨k.len, k.reg, k.count, k.fits, k.inside, ?_, ?_⟩
    · exact fun p hp => hal p (k.alive p hp) fun h' => hab.1 a ha (h' ▸ hp)
    · intro hr
      have kh := k.held hr
      refine ⟨?_, kh.sub, kh.peak, kh.all⟩
      intro p hp
      refine hal p (kh.alive p hp) fun h' => ?_
      rcases hab.2 a ha with h0 | hn
      · change 0 < (view s.log).run a at hr
        omega
      · exact hn (h' ▸ hp)
  · rw [hv]
    exact ⟨fun _ => rfl, fun _ => rfl, fun _ _ h' => h', fun _ _ => Nat.le_refl _⟩

/-! ### The operations that visit the observers -/

/-- A loop over the observers of `a` has started. -/
theorem Inv.start {mx : Nat} {s t : St V U} (h : Inv mx s) {a : Nat} (ha : a ∈ (view s.log).objs)
    {w : View} (hw : view t.log = w) (hobjs : t.objs = s.objs) (hal : t.alive = s.alive)
    (hst : w = (view s.log).start a) (hf : Fine t.log) : Inv mx t := by
  subst hst
  refine ⟨?_, ?_, ?_, ?_, ?_, ?_, hf⟩
  · rw [hw, hobjs]; exact h.here
  · rw [hw, hobjs]; exact h.mem
  · rw [hw, hal]; exact h.alive
  · rw [hw]
    intro b hb
    have hba : b ≠ a := fun h' => hb (h' ▸ ha)
    simp only [View.start, upd_other _ _ hba]
    exact h.idle b hb
  · rw [hw]
    intro b
    have := h.noting b
    by_cases hba : b = a
    · subst hba; simp only [View.start, upd_same]; omega
    · simp only [View.start, upd_other _ _ hba]; exact this
  · rw [hw, hobjs]
    intro b x hx
    by_cases hba : b = a
    · subst hba; exact (h.obj b x hx).start.1
    · exact (h.obj b x hx).start_other hba

/-- A loop over the observers of `a` has ended. -/
theorem Keeps.stop {v u w : View} {a : Nat} (h : Keeps (v.start a) u) (hrun : w.run = (u.stop a).run)
    (hnot : w.noting = u.noting) (hpeak : w.peak = u.peak)
    (hobjs : ∀ b, 0 < v.run b → b ∈ u.objs → b ∈ w.objs) : Keeps v w := by
  refine ⟨?_, ?_, ?_, ?_⟩
  · intro b
    rw [hrun]
    by_cases hba : b = a
    · subst hba
      simp only [View.stop, upd_same, h.run b, View.start]
      omega
    · simp only [View.stop, upd_other _ _ hba, h.run b, View.start]
  · intro b
    rw [hnot, h.noting b]; rfl
  · intro b hr hb
    refine hobjs b hr (h.objs b ?_ hb)
    by_cases hba : b = a
    · subst hba; simp only [View.start, upd_same]; omega
    · simp only [View.start, upd_other _ _ hba]; exact hr
  · intro b hr
    have h1 := h.peak b (by
      by_cases hba : b = a
      · subst hba; simp only [View.start, upd_same]; omega
      · simp only [View.start, upd_other _ _ hba]; exact hr)
    have h2 : v.peak b ≤ (v.start a).peak b := by
      by_cases hba : b = a
      · subst hba; simp only [View.start]; rw [if_neg (by omega)]; exact Nat.le_refl _
      · simp only [View.start]
        split
        · rw [upd_other _ _ hba]; exact Nat.le_refl _
        · exact Nat.le_refl _
    rw [hpeak]; omega

/-- `clear_observers` up to its return. -/
theorem clearObs_good {mx : Nat} {ex : Ex V U} (hex : ExOk mx ex) (H : Handlers V U) {s : St V U}
    (h : Inv mx s) {a : Nat} (ha : a ∈ (view s.log).objs) {op : Op V}
    (hop : (view s.log).see (.began op) = (view s.log).start a) (hc : careful (view s.log) op = true) :
    Good (fun t => ∃ u x, t = u.put a { x with count := 0 } ∧ u.objs a = some x ∧ Inv mx u ∧
        a ∈ (view u.log).objs ∧ Keeps ((view s.log).start a) (view u.log))
      (clearObs ex H a (s.emit (.began op))) := by
  have hv : view (s.emit (.began op)).log = (view s.log).start a := by rw [view_emit, hop]
  have h1 : Inv mx (s.emit (.began op)) :=
    h.start ha hv rfl rfl rfl (began_fine h.fine hc)
  have hr : 0 < ((view s.log).start a).run a := by simp [View.start]
  have ha1 : a ∈ (view (s.emit (.began op)).log).objs := by rw [hv]; exact ha
  obtain ⟨x, hget, hx, hobj⟩ := h1.get ha1
  simp only [clearObs, hget, Out.ok_bind]
  have hp : x.count ≤ ((view s.log).start a).peak a := (h.obj a x hx).start.2
  refine Good.bind (loop_good hex (fun o => .disc a o) _ a _ (fun _ _ => rfl) ?_ x.count 0 _ h1 ha1
    (by rw [hv]; exact hr) rfl (by rw [hv]; omega)) ?_
  · intro w o h1 h2 h3 h4 _
    exact ⟨h1, h2, h3, h4⟩
  · intro t ht
    rw [hv] at ht
    have hat := ht.2.objs a hr ha
    obtain ⟨y, hget', hy, -⟩ := ht.1.get hat
    simp only [hget', Out.ok_bind, Good]
    exact ⟨t, y, rfl, hy, ht.1, hat, ht.2⟩

/-- The object after `count_ = 0`. -/
theorem ObjInv.cleared {mx : Nat} {v w : View} {a : Nat} {x : Obj} (h : ObjInv mx v a x)
    (hreg : w.reg a = []) (hin : w.inside a = v.inside a) (hal : w.alive = v.alive)
    (hrun : 0 < w.run a → 0 < v.run a) (hheld : w.held a = v.held a) (hpeak : w.peak a = v.peak a) :
    ObjInv mx w a { x with count := 0 } := by
  refine ⟨h.len, by simp [hreg], by simp [hreg], Nat.zero_le _, by rw [hin]; exact h.inside,
    by simp [hreg], fun hr => ?_⟩
  have k := h.held (hrun hr)
  exact ⟨by rw [hheld, hal]; exact k.alive, by simp [hreg], by simp [hreg], by rw [hheld, hpeak]; exact k.all⟩

theorem clear_good {mx : Nat} {ex : Ex V U} (hex : ExOk mx ex) (H : Handlers V U) {s : St V U}
    (h : Inv mx s) (a : Nat) (hc : careful (view s.log) (.clear a : Op V) = true) :
    Good (Done mx s (.clear a)) (body mx ex H (s.emit (.began (.clear a))) (.clear a)) := by
  have ha : a ∈ (view s.log).objs := by
    simp only [careful, sane, Bool.and_eq_true, decide_eq_true_eq] at hc
    exact hc.1.1.1
  simp only [body]
  refine Good.bind (clearObs_good hex H h ha rfl hc) ?_
  rintro t ⟨u, x, rfl, hx, hu, hau, hk⟩
  simp only [Good, Done]
  have hrun : ∀ b, 0 < ((view u.log).stop a).run b → 0 < (view u.log).run b := by
    intro b
    by_cases hba : b = a
    · subst hba; simp only [View.stop, upd_same]; omega
    · simp only [View.stop, upd_other _ _ hba]; exact id
  have hv : view ((u.put a { x with count := 0 }).emit (.ret (.clear a) .ok)).log =
      (view u.log).ended (.clear a : Op V) .ok := by
    rw [view_emit]; rfl
  refine ⟨⟨?_, ?_, ?_, ?_, ?_, ?_, .snoc _ _ hu.fine trivial⟩, ?_⟩
  · rw [hv]
    intro b hb
    show ∃ y, upd u.objs a _ b = some y
    by_cases hba : b = a
    · subst hba; exact ⟨_, upd_same _ _ _⟩
    · rw [upd_other _ _ hba]; exact hu.here b hb
  · rw [hv]
    intro b y hy
    change upd u.objs a _ b = some y at hy
    by_cases hba : b = a
    · subst hba; exact hau
    · rw [upd_other _ _ hba] at hy; exact hu.mem b y hy
  · rw [hv]; exact hu.alive
  · rw [hv]
    intro b hb
    have := hu.idle b hb
    have hba : b ≠ a := fun h' => hb (h' ▸ hau)
    simp only [View.ended, View.stop, upd_other _ _ hba]
    exact this
  · rw [hv]
    intro b
    by_cases hba : b = a
    · subst hba
      have h1 := hk.noting b
      have h2 := hk.run b
      have h3 := h.noting b
      simp only [View.start, upd_same] at h1 h2
      simp only [View.ended, View.stop, upd_same]
      omega
    · simp only [View.ended, View.stop, upd_other _ _ hba]; exact hu.noting b
  · rw [hv]
    intro b y hy
    change upd u.objs a _ b = some y at hy
    by_cases hba : b = a
    · subst hba
      rw [upd_same] at hy
      injection hy with hy
      subst hy
      exact (hu.obj b x hx).cleared (by simp [View.ended]) rfl rfl (hrun b) rfl rfl
    · rw [upd_other _ _ hba] at hy
      exact (hu.obj b y hy).congr (by simp [View.ended, upd_other _ _ hba]) rfl (fun _ ho => ho) (hrun b) rfl rfl
  · rw [hv]
    exact hk.stop rfl rfl rfl fun _ _ hb => hb

theorem destroy_good {mx : Nat} {ex : Ex V U} (hex : ExOk mx ex) (H : Handlers V U) {s : St V U}
    (h : Inv mx s) (a : Nat) (hc : careful (view s.log) (.destroy a : Op V) = true) :
    Good (Done mx s (.destroy a)) (body mx ex H (s.emit (.began (.destroy a))) (.destroy a)) := by
  have hab : a ∈ (view s.log).objs ∧ (view s.log).run a = 0 := by
    simp only [careful, sane, steady, Bool.and_eq_true, decide_eq_true_eq] at hc
    exact hc.1.1
  have ha := hab.1
  simp only [body]
  refine Good.bind (clearObs_good hex H h ha rfl hc) ?_
  rintro t ⟨u, x, rfl, hx, hu, hau, hk⟩
  simp only [Good, Done]
  have hrunEq : ∀ b, ((view u.log).stop a).run b = (view s.log).run b := by
    intro b
    have := hk.run b
    by_cases hba : b = a
    · subst hba
      simp only [View.stop, upd_same, View.start] at this ⊢
      omega
    · simp only [View.stop, upd_other _ _ hba, View.start] at this ⊢
      exact this
  have hrun : ∀ b, 0 < ((view u.log).stop a).run b → 0 < (view u.log).run b := by
    intro b
    by_cases hba : b = a
    · subst hba; simp only [View.stop, upd_same]; omega
    · simp only [View.stop, upd_other _ _ hba]; exact id
  have hv : view (((u.put a { x with count := 0 }).drop a).emit (.ret (.destroy a) .ok)).log =
      (view u.log).ended (.destroy a : Op V) .ok := by
    rw [view_emit]; rfl
  have hdrop : ∀ b, b ≠ a → (((u.put a { x with count := 0 }).drop a).emit (.ret (.destroy a) .ok)).objs b = u.objs b := by
    intro b hba
    show upd (upd u.objs a _) a none b = _
    rw [upd_other _ _ hba, upd_other _ _ hba]
  have hdropa : (((u.put a { x with count := 0 }).drop a).emit (.ret (.destroy a) .ok)).objs a = none :=
    upd_same _ _ _
  refine ⟨⟨?_, ?_, ?_, ?_, ?_, ?_, .snoc _ _ hu.fine trivial⟩, ?_⟩
  · rw [hv]
    intro b hb
    have hb' := List.mem_filter.1 hb
    have hba : b ≠ a := by simpa using hb'.2
    rw [hdrop b hba]; exact hu.here b hb'.1
  · rw [hv]
    intro b y hy
    by_cases hba : b = a
    · subst hba; rw [hdropa] at hy; exact absurd hy (by simp)
    · rw [hdrop b hba] at hy
      exact List.mem_filter.2 ⟨hu.mem b y hy, by simpa using hba⟩
  · rw [hv]; exact hu.alive
  · rw [hv]
    intro b hb
    show ((view u.log).stop a).run b = 0
    rw [hrunEq b]
    by_cases hba : b = a
    · subst hba; exact hab.2
    · have : b ∉ (view u.log).objs := fun h' => hb (List.mem_filter.2 ⟨h', by simpa using hba⟩)
      have := hu.idle b this
      have h2 := hk.run b
      simp only [View.start, upd_other _ _ hba] at h2
      omega
  · rw [hv]
    intro b
    show (view u.log).noting b ≤ ((view u.log).stop a).run b
    rw [hrunEq b, hk.noting b]
    exact h.noting b
  · rw [hv]
    intro b y hy
    by_cases hba : b = a
    · subst hba; rw [hdropa] at hy; exact absurd hy (by simp)
    · rw [hdrop b hba] at hy
      exact (hu.obj b y hy).congr (by simp [View.ended, upd_other _ _ hba]) rfl (fun _ ho => ho) (hrun b) rfl rfl
  · rw [hv]
    refine hk.stop rfl rfl rfl fun b hr hb => ?_
    refine List.mem_filter.2 ⟨hb, ?_⟩
    have : b ≠ a := fun h' => by subst h'; omega
    simpa using this

theorem notify_good {mx : Nat} {ex : Ex V U} (hex : ExOk mx ex) (H : Handlers V U) {s : St V U}
    (h : Inv mx s) (a : Nat) (v : V) (hc : careful (view s.log) (.notify a v) = true) :
    Good (Done mx s (.notify a v)) (body mx ex H (s.emit (.began (.notify a v))) (.notify a v)) := by
  have ha : a ∈ (view s.log).objs := by
    simp only [careful, sane, Bool.and_eq_true, decide_eq_true_eq] at hc
    exact hc.1.1.1
  obtain ⟨x, hget, hx, hobj⟩ := h.get ha
  have hle : ¬ x.count > x.arr.length := by have := hobj.len; have := hobj.fits; omega
  have hstart : x.count ≤ ((view s.log).start a).peak a := hobj.start.2
  simp only [body, notifyObs, get_emit, hget, Out.ok_bind, if_neg hle]
  by_cases hin : x.inside = true
  · rw [if_pos hin]
    have hvi : (view s.log).inside a = true := by rw [← hobj.inside]; exact hin
    simp only [Good, Done]
    have hupd : upd (view s.log).inside a true = (view s.log).inside := by
      funext b
      by_cases hba : b = a
      · subst hba; rw [upd_same, hvi]
      · rw [upd_other _ _ hba]
    have hb : (view s.log).see (.began (.notify a v)) = (view s.log).start a := by
      simp [View.see, View.began, hvi, hupd, View.start]
    have hv1 : view (s.emit (.began (.notify a v))).log = (view s.log).start a := by rw [view_emit, hb]
    have h1 : Inv mx (s.emit (.began (.notify a v))) := h.start ha hv1 rfl rfl rfl (began_fine h.fine hc)
    have hv : view ((s.emit (.began (.notify a v))).emit (.ret (.notify a v) .notifyRecursionDetected)).log =
        ((view s.log).start a).stop a := by
      rw [view_emit, hv1]; rfl
    have hrun : ∀ b, (((view s.log).start a).stop a).run b = (view s.log).run b := by
      intro b
      by_cases hba : b = a
      · subst hba; simp [View.start, View.stop]
      · simp [View.start, View.stop, upd_other _ _ hba]
    refine ⟨⟨?_, ?_, ?_, ?_, ?_, ?_, .snoc _ _ h1.fine ?_⟩, ?_⟩
    · rw [hv]; exact h.here
    · rw [hv]; exact h.mem
    · rw [hv]; exact h.alive
    · rw [hv]
      intro b hb'
      rw [hrun b]; exact h.idle b hb'
    · rw [hv]
      intro b
      rw [hrun b]; exact h.noting b
    · rw [hv]
      intro b y hy
      have hy' := h1.obj b y hy
      rw [hv1] at hy'
      refine hy'.congr rfl rfl (fun _ ho => ho) ?_ rfl rfl
      rw [hrun b]
      intro hr
      by_cases hba : b = a
      · subst hba; simp [View.start]
      · simp only [View.start, upd_other _ _ hba]; exact hr
    · show a ∈ (view (s.emit (.began (.notify a v))).log).objs ∧ _
      refine ⟨by rw [hv1]; exact ha, by rw [hv1]; simp [View.start], .inr ⟨rfl, ?_⟩⟩
      rw [hv1]; exact hvi
    · rw [hv]
      exact (Keeps.refl ((view s.log).start a)).stop rfl rfl rfl fun _ _ hb => hb
  · have hin' : x.inside = false := by simpa using hin
    have hvi : (view s.log).inside a = false := by rw [← hobj.inside]; exact hin'
    rw [if_neg hin]
    -- the view while the loop runs
    have hv1 : view ((s.emit (.began (.notify a v))).put a { x with inside := true }).log =
        { (view s.log).start a with
          noting := upd (view s.log).noting a ((view s.log).noting a + 1)
          inside := upd (view s.log).inside a true } := by
      show view (s.emit (.began (.notify a v))).log = _
      rw [view_emit]
      simp [View.see, View.began, hvi]
    have hf1 : Fine ((s.emit (.began (.notify a v))).put a { x with inside := true }).log :=
      began_fine h.fine hc
    generalize ht0 : (s.emit (.began (.notify a v))).put a { x with inside := true } = t0 at hv1 hf1
    have hobjs0 : t0.objs = upd s.objs a (some { x with inside := true }) := by rw [← ht0]; rfl
    have hal0 : t0.alive = s.alive := by rw [← ht0]; rfl
    have hinv0 : Inv mx t0 := by
      refine ⟨?_, ?_, ?_, ?_, ?_, ?_, hf1⟩
      · rw [hv1, hobjs0]
        intro b hb
        by_cases hba : b = a
        · subst hba; exact ⟨_, upd_same _ _ _⟩
        · rw [upd_other _ _ hba]; exact h.here b hb
      · rw [hv1, hobjs0]
        intro b y hy
        by_cases hba : b = a
        · subst hba; exact ha
        · rw [upd_other _ _ hba] at hy; exact h.mem b y hy
      · rw [hv1, hal0]; exact h.alive
      · rw [hv1]
        intro b hb
        have hba : b ≠ a := fun h' => hb (h' ▸ ha)
        simp only [View.start, upd_other _ _ hba]
        exact h.idle b hb
      · rw [hv1]
        intro b
        have := h.noting b
        by_cases hba : b = a
        · subst hba; simp only [View.start, upd_same]; omega
        · simp only [View.start, upd_other _ _ hba]; exact this
      · rw [hv1, hobjs0]
        intro b y hy
        by_cases hba : b = a
        · subst hba
          rw [upd_same] at hy
          injection hy with hy
          subst hy
          have k := hobj.start.1
          exact ⟨k.len, k.reg, k.count, k.fits, by simp, k.alive, fun hr =>
            ⟨(k.held hr).alive, (k.held hr).sub, (k.held hr).peak, (k.held hr).all⟩⟩
        · rw [upd_other _ _ hba] at hy
          exact ((h.obj b y hy).start_other hba).congr rfl (by simp [View.start, upd_other _ _ hba])
            (fun _ ho => ho) id rfl rfl
    have hr0 : 0 < (view t0.log).run a := by rw [hv1]; simp [View.start]
    have ha0 : a ∈ (view t0.log).objs := by rw [hv1]; exact ha
    have hn0 : (view t0.log).noting a = (view s.log).noting a + 1 := by rw [hv1]; simp
    have hp0 : 0 + x.count ≤ (view t0.log).peak a := by rw [hv1, Nat.zero_add]; exact hstart
    refine Good.bind (loop_good hex (fun o => .data a o v) _ a ((view s.log).noting a + 1)
      (fun _ _ => rfl) ?_ x.count 0 t0 hinv0 ha0 hr0 hn0 hp0) ?_
    · intro w o h1 h2 h3 h4 h5
      exact ⟨h1, h2, h3, h4, by omega⟩
    · rintro t ⟨ht, hk⟩
      have hat := hk.objs a hr0 ha0
      obtain ⟨y, hget', hy, hyobj⟩ := ht.get hat
      have hrt : (view t.log).run a = (view s.log).run a + 1 := by
        rw [hk.run a, hv1]; simp [View.start]
      have hnt : (view t.log).noting a = (view s.log).noting a + 1 := by
        rw [hk.noting a, hn0]
      simp only [hget', Out.ok_bind, Good, Done]
      have hv : view ((t.put a { y with inside := false }).emit (.ret (.notify a v) .ok)).log =
          (view t.log).ended (.notify a v) .ok := by
        rw [view_emit]; rfl
      have hrun : ∀ b, ((view t.log).stop a).run b = (view s.log).run b := by
        intro b
        by_cases hba : b = a
        · subst hba; simp [View.stop, hrt]
        · simp only [View.stop, upd_other _ _ hba]
          rw [hk.run b, hv1]
          simp [View.start, upd_other _ _ hba]
      have hnot : ∀ b, ((view t.log).ended (.notify a v) .ok).noting b = (view s.log).noting b := by
        intro b
        by_cases hba : b = a
        · subst hba; simp [View.ended, hnt]
        · simp only [View.ended, upd_other _ _ hba]
          rw [hk.noting b, hv1]
          simp [upd_other _ _ hba]
      have hrun' : ∀ b, 0 < ((view t.log).ended (.notify a v) .ok).run b → 0 < (view t.log).run b := by
        intro b
        show 0 < ((view t.log).stop a).run b → _
        by_cases hba : b = a
        · subst hba; intro _; omega
        · simp only [View.stop, upd_other _ _ hba]; exact id
      refine ⟨⟨?_, ?_, ?_, ?_, ?_, ?_, .snoc _ _ ht.fine ?_⟩, ?_⟩
      · rw [hv]
        intro b hb
        show ∃ z, upd t.objs a _ b = some z
        by_cases hba : b = a
        · subst hba; exact ⟨_, upd_same _ _ _⟩
        · rw [upd_other _ _ hba]; exact ht.here b hb
      · rw [hv]
        intro b z hz
        change upd t.objs a _ b = some z at hz
        by_cases hba : b = a
        · subst hba; exact hat
        · rw [upd_other _ _ hba] at hz; exact ht.mem b z hz
      · rw [hv]; exact ht.alive
      · rw [hv]
        intro b hb
        show ((view t.log).stop a).run b = 0
        have hba : b ≠ a := fun h' => hb (h' ▸ hat)
        simp only [View.stop, upd_other _ _ hba]
        exact ht.idle b hb
      · rw [hv]
        intro b
        rw [hnot b]
        show _ ≤ ((view t.log).stop a).run b
        rw [hrun b]
        exact h.noting b
      · rw [hv]
        intro b z hz
        change upd t.objs a _ b = some z at hz
        by_cases hba : b = a
        · subst hba
          rw [upd_same] at hz
          injection hz with hz
          subst hz
          exact ⟨hyobj.len, hyobj.reg, hyobj.count, hyobj.fits, by simp [View.ended], hyobj.alive,
            fun hr => have k := hyobj.held (hrun' b hr); ⟨k.alive, k.sub, k.peak, k.all⟩⟩
        · rw [upd_other _ _ hba] at hz
          exact (ht.obj b z hz).congr rfl (by simp [View.ended, upd_other _ _ hba]) (fun _ ho => ho)
            (hrun' b) rfl rfl
      · exact ⟨hat, by show 0 < (view t.log).run a; omega,
          .inl ⟨rfl, by show 0 < (view t.log).noting a; omega⟩⟩
      · rw [hv]
        refine ⟨hrun, hnot, ?_, ?_⟩
        · intro b hr hb
          refine hk.objs b ?_ (by rw [hv1]; exact hb)
          rw [← hk.run b]
          exact hrun' b (by show 0 < ((view t.log).stop a).run b; rw [hrun b]; exact hr)
        · intro b hr
          refine Nat.le_trans ?_ (hk.peak b ?_)
          · rw [hv1]
            show _ ≤ ((view s.log).start a).peak b
            by_cases hba : b = a
            · subst hba; simp only [View.start]; rw [if_neg (by omega)]; exact Nat.le_refl _
            · simp only [View.start]
              split
              · rw [upd_other _ _ hba]; exact Nat.le_refl _
              · exact Nat.le_refl _
          · rw [← hk.run b]
            exact hrun' b (by show 0 < ((view t.log).stop a).run b; rw [hrun b]; exact hr)

/-! ### All operations -/

theorem body_good {mx : Nat} {ex : Ex V U} (hex : ExOk mx ex) (H : Handlers V U) {s : St V U}
    (h : Inv mx s) (op : Op V) (hc : careful (view s.log) op = true) :
    Good (Done mx s op) (body mx ex H (s.emit (.began op)) op) := by
  cases op with
  | make a => exact make_good h a hc ex H
  | copy a b => exact copy_good h a b hc ex H
  | assign a b => exact assign_good h a b hc ex H
  | destroy a => exact destroy_good hex H h a hc
  | born o => exact born_good h o hc ex H
  | die o => exact die_good h o hc ex H
  | add a o => exact add_good h a o hc ex H
  | remove a o => exact remove_good h a o hc ex H
  | clear a => exact clear_good hex H h a hc
  | notify a v => exact notify_good hex H h a v hc

theorem exec_ok (mx : Nat) (H : Handlers V U) (n : Nat) : ExOk mx (exec careful mx H n) := by
  induction n with
  | zero => intro s op _; exact trivial
  | succ n ih =>
    intro s op h
    simp only [exec, execStep]
    split
    · rename_i hc
      exact Good.bind (body_good ih H h op hc) fun r hr => hr
    · exact trivial

theorem Reach.inv {mx : Nat} {H : Handlers V U} {s : St V U} (h : Reach careful mx H s) : Inv mx s := by
  induction h with
  | new u => exact Inv.new mx u
  | call s s' n op e _ hx ih =>
    have := exec_ok mx H n s op ih
    rw [hx] at this
    exact this.1
  | user s u _ ih => exact ih.user u

end Verif.Observer.World
