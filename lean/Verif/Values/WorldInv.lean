import Verif.Values.World
import Verif.Observer.WorldInv
/-! Invariants of `World.lean` for clients that keep to the rule `careful`. -/
namespace Verif.Values.World
open Verif Verif.Values
open Verif.Values.Re (Upd stored)
open Verif.Observer.World (Out upd upd_same upd_other Good Good.bind Good.mono)

variable {U : Type} {T : IntTy}

theorem view_snoc (T : IntTy) (l : List Ev) (e : Ev) : view T (l ++ [e]) = (view T l).see T e := by
  simp [view, List.foldl_append]

theorem view_emit (T : IntTy) (s : St U) (e : Ev) : view T (s.emit e).log = (view T s.log).see T e := view_snoc _ _ _

/-! ### One observable -/

/-- The members of the observable are those of one with the list `l`. -/
structure Fit (x : Obj) (l : List Nat) : Prop where
  count : x.count = l.length
  pre : x.arr.take l.length = l.map some
  dyn : x.max = 0 → x.arr.length = l.length
  fix : x.max ≠ 0 → x.arr.length = x.max

namespace Fit
theorem le {x : Obj} {l : List Nat} (h : Fit x l) : l.length ≤ x.arr.length := by
  have := congrArg List.length h.pre
  rw [List.length_take, List.length_map] at this
  omega

theorem cap {x : Obj} {l : List Nat} (h : Fit x l) (hm : x.max ≠ 0) : l.length ≤ x.max := by
  have := h.le
  have := h.fix hm
  omega

theorem whole {x : Obj} {l : List Nat} (h : Fit x l) (hm : x.max = 0) : x.arr = l.map some := by
  rw [← h.pre, List.take_of_length_le (by rw [h.dyn hm]; exact Nat.le_refl _)]

theorem deref {x : Obj} {l : List Nat} (h : Fit x l) (i : Nat) (hi : i < l.length) : x.deref i = .ok l[i] := by
  have h1 : (x.arr.take l.length)[i]? = (l.map some)[i]? := by rw [h.pre]
  rw [List.getElem?_take_of_lt hi, List.getElem?_map, List.getElem?_eq_getElem hi] at h1
  simp only [Obj.deref, h1, Option.map_some]

theorem contains {x : Obj} {l : List Nat} (h : Fit x l) (o : Nat) : x.contains o = decide (o ∈ l) := by
  rw [Obj.contains, h.count, h.pre]
  simp

theorem new (m g : Nat) : Fit (Obj.new m g) [] := by
  constructor <;> simp [Obj.new]

theorem empty {x : Obj} {l : List Nat} (h : Fit x l) (g : Nat) : Fit (x.empty g) [] := by
  unfold Obj.empty
  split
  · constructor <;> simp_all
  · exact ⟨rfl, rfl, fun hm => absurd hm (by assumption), h.fix⟩

end Fit

/-- What `add_observer` reports. -/
def addErr (m : Nat) (l : List Nat) (o : Nat) : Err :=
  if m ≠ 0 ∧ m ≤ l.length then .listIsFull else if o ∈ l then .alreadyContains else .ok

theorem Fit.add {x : Obj} {l : List Nat} (h : Fit x l) (g o : Nat) :
    (x.add g o).2 = addErr x.max l o ∧ (x.add g o).1.value = x.value ∧ (x.add g o).1.max = x.max ∧
    (x.max ≠ 0 ∨ o ∈ l → (x.add g o).1.stamp = x.stamp) ∧
    Fit (x.add g o).1 (if addErr x.max l o = .ok then l ++ [o] else l) := by
  have hcon := h.contains o
  by_cases hm : x.max = 0
  · by_cases ho : o ∈ l
    · have h1 : x.add g o = (x, .alreadyContains) := by simp [Obj.add, hm, hcon, ho]
      have h2 : addErr x.max l o = .alreadyContains := by simp [addErr, hm, ho]
      rw [h1, h2]
      exact ⟨rfl, rfl, rfl, fun _ => rfl, h⟩
    · have h1 : x.add g o = ({ x with arr := x.arr ++ [some o], count := x.count + 1, stamp := g }, .ok) := by
        simp [Obj.add, hm, hcon, ho]
      have h2 : addErr x.max l o = .ok := by simp [addErr, hm, ho]
      rw [h1, h2, if_pos rfl]
      refine ⟨rfl, rfl, rfl, fun hq => (hq.elim (absurd hm) (absurd · ho)), by simp [h.count], ?_, fun _ => by simp [h.dyn hm],
        fun hq => absurd hm hq⟩
      show (x.arr ++ [some o]).take _ = _
      rw [h.whole hm, List.take_of_length_le (by simp)]
      simp
  · have hcap := h.cap hm
    have hcnt := h.count
    by_cases hf : x.max ≤ l.length
    · have h1 : x.add g o = (x, .listIsFull) := by
        rw [Obj.add, if_neg hm, if_pos (by omega)]
      have h2 : addErr x.max l o = .listIsFull := by rw [addErr, if_pos ⟨hm, hf⟩]
      rw [h1, h2]
      exact ⟨rfl, rfl, rfl, fun _ => rfl, h⟩
    · by_cases ho : o ∈ l
      · have h1 : x.add g o = (x, .alreadyContains) := by
          rw [Obj.add, if_neg hm, if_neg (by omega)]; simp [hcon, ho]
        have h2 : addErr x.max l o = .alreadyContains := by
          rw [addErr, if_neg (fun hq => hf hq.2), if_pos ho]
        rw [h1, h2]
        exact ⟨rfl, rfl, rfl, fun _ => rfl, h⟩
      · have h1 : x.add g o = ({ x with arr := x.arr.set x.count (some o), count := x.count + 1 }, .ok) := by
          rw [Obj.add, if_neg hm, if_neg (by omega)]; simp [hcon, ho]
        have h2 : addErr x.max l o = .ok := by
          rw [addErr, if_neg (fun hq => hf hq.2), if_neg ho]
        rw [h1, h2, if_pos rfl]
        refine ⟨rfl, rfl, rfl, fun _ => rfl, by simp [h.count], ?_, fun hq => absurd hq hm, fun _ => by simp [h.fix hm]⟩
        show (x.arr.set x.count (some o)).take _ = _
        have hlt : l.length < x.arr.length := by rw [h.fix hm]; omega
        rw [h.count, List.length_append, List.length_singleton, List.take_add_one, List.take_set,
          List.set_eq_of_length_le (by rw [List.length_take]; omega), h.pre]
        simp [hlt]

theorem stdRemove_some (o : Nat) (l : List Nat) : stdRemove (some o) (l.map some) =
    ((l.filter (· != o) ++ l.drop (l.filter (· != o)).length).map some, (l.filter (· != o)).length) := by
  have h : List.filter (fun y => decide (y ≠ some o)) (l.map some) = (l.filter (· != o)).map some := filter_map_some o l
  simp only [stdRemove, h, List.length_map, List.map_append, List.map_drop]

theorem filter_len (o : Nat) (l : List Nat) : (l.filter (· != o)).length = l.length ↔ o ∉ l := by
  constructor
  · intro h ho
    have := List.length_filter_lt_length_iff_exists (p := (· != o)) (l := l) |>.2 ⟨o, ho, by simp⟩
    omega
  · intro h
    rw [List.filter_eq_self.2 fun x hx => by simpa using fun e : x = o => h (e ▸ hx)]

theorem filter_self (o : Nat) (l : List Nat) (h : o ∉ l) : l.filter (· != o) = l :=
  List.filter_eq_self.2 fun x hx => by simpa using fun e : x = o => h (e ▸ hx)

theorem Fit.remove {x : Obj} {l : List Nat} (h : Fit x l) (o : Nat) :
    (x.remove o).2 = (if o ∈ l then .ok else .notFound) ∧ (x.remove o).1.value = x.value ∧ (x.remove o).1.max = x.max ∧
    (x.remove o).1.stamp = x.stamp ∧ Fit (x.remove o).1 (if o ∈ l then View.without (x.max == 0) l o else l) := by
  have hle : (l.filter (· != o)).length ≤ l.length := List.length_filter_le _ _
  have hfl := filter_len o l
  unfold Obj.remove
  by_cases hm : x.max = 0
  · rw [if_pos hm, h.whole hm]
    by_cases h0 : l.map some = []
    · rw [if_pos h0]
      have : l = [] := by simpa using h0
      subst this
      exact ⟨rfl, rfl, rfl, rfl, by simpa using h⟩
    · rw [if_neg h0]
      simp only [stdRemove_some, List.length_map]
      by_cases ho : o ∈ l
      · rw [if_pos (fun hq => hfl.1 hq ho), if_pos ho, if_pos ho]
        refine ⟨rfl, rfl, rfl, rfl, ?_, ?_, fun _ => ?_, fun hq => absurd hm hq⟩
        · show x.count = _
          simp only [View.without, hm, beq_self_eq_true, if_true, List.length_append, List.length_drop, h.count]
          omega
        · simp only [View.without, hm, beq_self_eq_true, if_true]
          rw [List.take_of_length_le (by simp)]
        · simp only [View.without, hm, beq_self_eq_true, if_true, List.length_map]
      · rw [if_neg (fun hq => hq (hfl.2 ho)), if_neg ho, if_neg ho]
        refine ⟨rfl, rfl, rfl, rfl, h.count, ?_, fun _ => ?_, fun hq => absurd hm hq⟩
        · simp only [filter_self o l ho, List.drop_length, List.append_nil]
          rw [List.take_of_length_le (by simp)]
        · simp [filter_self o l ho]
  · have hcap := h.cap hm
    have hfix := h.fix hm
    rw [if_neg hm, if_neg (by rw [h.count]; omega)]
    by_cases h0 : x.count = 0
    · rw [if_pos h0]
      have : l = [] := List.length_eq_zero_iff.1 (by rw [← h.count]; exact h0)
      subst this
      exact ⟨rfl, rfl, rfl, rfl, by simpa using h⟩
    · rw [if_neg h0]
      have hb : (x.max == 0) = false := by simpa using hm
      simp only [h.count, h.pre, stdRemove_some]
      by_cases ho : o ∈ l
      · have hlt : (l.filter (· != o)).length ≠ l.length := fun hq => hfl.1 hq ho
        rw [if_pos (by omega), if_pos ho, if_pos ho]
        refine ⟨rfl, rfl, rfl, rfl, ?_, ?_, fun hq => absurd hq hm, fun _ => ?_⟩
        · simp [View.without, hb]
        · simp only [View.without, hb, Bool.false_eq_true, if_false, List.append_nil, List.map_append, List.append_assoc]
          rw [List.take_append_of_le_length (by simp), List.take_of_length_le (by simp)]
        · simp only [List.length_append, List.length_map, List.length_drop]
          omega
      · have hkk := hfl.2 ho
        rw [if_neg (by omega), if_neg ho, if_neg ho]
        refine ⟨rfl, rfl, rfl, rfl, rfl, ?_, fun hq => absurd hq hm, fun _ => ?_⟩
        · rw [filter_self o l ho, List.drop_length, List.append_nil, List.take_append_of_le_length (by simp),
            List.take_of_length_le (by simp)]
        · simp only [List.length_append, List.length_map, List.length_drop]
          omega

/-! ### Logs -/

/-- What an operation that calls nobody returns, given what has happened. -/
def Right (w : View) : Op → Ret → Prop
  | .add a o, r => r = .err (addErr (w.max a) (w.reg a) o)
  | .remove a o, r => r = .err (if o ∈ w.reg a then .ok else .notFound)
  | .read a, r => r = .val (w.val a)
  | .look o, r => r = .val (w.held o)
  | _, r => r = .unit

/-- The operation does not visit observers. -/
def Simple : Op → Prop
  | .upd _ _ | .clear _ | .destroy _ => False
  | _ => True

/-- The operation visits the observers of `a`, calls `ev o` of each, and returns `r`. -/
def Calls (T : IntTy) (w : View) (op : Op) (a : Nat) (ev : Nat → Ev) (r : Ret) : Prop :=
  (∃ u v, op = .upd a u ∧ Re.result T (w.val a) u = .ok v ∧ ev = (fun o => .told a o v) ∧ r = .val v) ∨
  ((op = .clear a ∨ op = .destroy a) ∧ ev = (fun o => .disc a o) ∧ r = .unit)

/-- How logs are made.  After the events `pre` the events `new` are: with `none`, a sequence of complete operations; with `some
(ev, l)`, calls of those in `l`, once each, in order, where what a function does is between its start and its end.
An operation that visits observers calls those who were in the list when it began. -/
inductive Tree (T : IntTy) : List Ev → Option ((Nat → Ev) × List Nat) → List Ev → Prop
  | done (pre : List Ev) : Tree T pre none []
  | quick (pre rest : List Ev) (op : Op) (r : Ret) : Simple op → Right (view T pre) op r →
      Tree T (pre ++ [.began op, .ret op r]) none rest → Tree T pre none (.began op :: .ret op r :: rest)
  | round (pre inner rest : List Ev) (op : Op) (a : Nat) (ev : Nat → Ev) (r : Ret) : Calls T (view T pre) op a ev r →
      Tree T (pre ++ [.began op]) (some (ev, (view T pre).reg a)) inner →
      Tree T (pre ++ (.began op :: inner ++ [.ret op r])) none rest →
      Tree T pre none (.began op :: inner ++ .ret op r :: rest)
  | stop (pre : List Ev) (ev : Nat → Ev) : Tree T pre (some (ev, [])) []
  | call (pre inner rest : List Ev) (ev : Nat → Ev) (o : Nat) (l : List Nat) :
      Tree T (pre ++ [ev o]) none inner → Tree T (pre ++ (ev o :: inner ++ [.leave o])) (some (ev, l)) rest →
      Tree T pre (some (ev, o :: l)) (ev o :: inner ++ .leave o :: rest)

theorem Tree.append {pre new : List Ev} {w : Option ((Nat → Ev) × List Nat)} (h : Tree T pre w new) :
    w = none → ∀ k, Tree T (pre ++ new) none k → Tree T pre none (new ++ k) := by
  induction h with
  | done pre => intro _ k hk; simpa using hk
  | quick pre rest op e hc hr _ ih =>
    intro _ k hk
    exact .quick pre _ op e hc hr (ih rfl k (by simpa using hk))
  | round pre inner rest op a ev r hc hi _ _ ih =>
    intro _ k hk
    have := Tree.round pre inner (rest ++ k) op a ev r hc hi (ih rfl k (by simpa using hk))
    simpa using this
  | stop => intro h; cases h
  | call => intro h; cases h

/-- What holds of an event when it happens: operations keep to the rules, and calls are of observed objects that exist and are in the list of
the observable, which exists and is visiting its observers. -/
def Ok (T : IntTy) (w : View) : Ev → Prop
  | .began op => careful T w op = true
  | .told a o _ => a ∈ w.objs ∧ o ∈ w.alive ∧ o ∈ w.reg a ∧ 0 < w.run a
  | .disc a o => a ∈ w.objs ∧ o ∈ w.alive ∧ o ∈ w.reg a ∧ 0 < w.run a
  | _ => True

/-- Every event of the log was in order when it happened. -/
inductive Fine (T : IntTy) : List Ev → Prop
  | nil : Fine T []
  | snoc (l : List Ev) (e : Ev) : Fine T l → Ok T (view T l) e → Fine T (l ++ [e])

theorem Fine.at {log : List Ev} (h : Fine T log) : ∀ (pre : List Ev) (e : Ev) (post : List Ev),
    log = pre ++ e :: post → Ok T (view T pre) e := by
  induction h with
  | nil => intro pre e post h; simp at h
  | snoc l e' _ hok ih =>
    intro pre e post h
    rcases List.eq_nil_or_concat post with hp | ⟨post', x, hp⟩
    · subst hp
      have h2 := List.append_inj' h rfl
      rw [← h2.1]
      have h3 := h2.2
      injection h3 with h3
      rw [← h3]; exact hok
    · subst hp
      have h2 : l ++ [e'] = (pre ++ e :: post') ++ [x] := by rw [h]; simp
      exact ih pre e post' (List.append_inj' h2 rfl).1

/-! ### The invariant -/

/-- The members of the objects are what the log tells. -/
structure Inv (T : IntTy) (s : St U) : Prop where
  fine : Fine T s.log
  here : ∀ a, (∃ x, s.objs a = some x) ↔ a ∈ (view T s.log).objs
  fit : ∀ a x, s.objs a = some x → Fit x ((view T s.log).reg a) ∧ x.max = (view T s.log).max a ∧ x.value = (view T s.log).val a
  alive : s.alive = (view T s.log).alive
  held : s.held = (view T s.log).held
  live : ∀ a ∈ (view T s.log).objs, ∀ o ∈ (view T s.log).reg a, o ∈ s.alive
  idle : ∀ a, a ∉ (view T s.log).objs → (view T s.log).run a = 0
  busy : ∀ o, 0 < s.busy o → ∃ a ∈ (view T s.log).objs, 0 < (view T s.log).run a ∧ o ∈ (view T s.log).reg a

/-- Between `s` and `t` observables that are visiting their observers stay, and nobody is taken from their lists. -/
structure Keeps (T : IntTy) (s t : St U) : Prop where
  run : (view T t.log).run = (view T s.log).run
  busy : t.busy = s.busy
  reg : ∀ a, 0 < (view T s.log).run a → ∃ more, (view T t.log).reg a = (view T s.log).reg a ++ more
  same : ∀ a x, s.objs a = some x → 0 < (view T s.log).run a → ∃ y, t.objs a = some y ∧ y.stamp = x.stamp

theorem Keeps.refl (s : St U) : Keeps T s s := ⟨rfl, rfl, fun _ _ => ⟨[], by simp⟩, fun _ x hx _ => ⟨x, hx, rfl⟩⟩

theorem Keeps.trans {s t u : St U} (h : Keeps T s t) (k : Keeps T t u) : Keeps T s u where
  run := k.run.trans h.run
  busy := k.busy.trans h.busy
  reg a hr := by
    obtain ⟨m, hm⟩ := h.reg a hr
    obtain ⟨n, hn⟩ := k.reg a (by rw [h.run]; exact hr)
    exact ⟨m ++ n, by rw [hn, hm, List.append_assoc]⟩
  same a x hx hr := by
    obtain ⟨y, hy, h1⟩ := h.same a x hx hr
    obtain ⟨z, hz, h2⟩ := k.same a y hy (by rw [h.run]; exact hr)
    exact ⟨z, hz, h2.trans h1⟩

/-- The last part of the invariant comes from the state before. -/
theorem Inv.busyKept {s t : St U} (h : Inv T s) (k : Keeps T s t) (hh : ∀ a, (∃ x, t.objs a = some x) ↔ a ∈ (view T t.log).objs) :
    ∀ o, 0 < t.busy o → ∃ a ∈ (view T t.log).objs, 0 < (view T t.log).run a ∧ o ∈ (view T t.log).reg a := by
  intro o ho
  obtain ⟨a, ha, hr, hm⟩ := h.busy o (by rw [← k.busy]; exact ho)
  obtain ⟨x, hx⟩ := (h.here a).2 ha
  obtain ⟨y, hy, -⟩ := k.same a x hx hr
  obtain ⟨m, hm'⟩ := k.reg a hr
  exact ⟨a, (hh a).1 ⟨y, hy⟩, by rw [k.run]; exact hr, by rw [hm']; exact List.mem_append_left _ hm⟩

theorem Inv.new (u : U) : Inv T (St.new u) where
  fine := .nil
  here a := ⟨fun ⟨x, hx⟩ => by simp [St.new] at hx, fun h => by simp [St.new, view, View.new] at h⟩
  fit a x hx := by simp [St.new] at hx
  alive := rfl
  held := rfl
  live a ha := by simp [St.new, view, View.new] at ha
  idle _ _ := rfl
  busy o ho := by simp [St.new] at ho

theorem Inv.user {s : St U} (h : Inv T s) (u : U) : Inv T { s with user := u } :=
  ⟨h.fine, h.here, h.fit, h.alive, h.held, h.live, h.idle, h.busy⟩

theorem Keeps.user (s : St U) (u : U) : Keeps T s { s with user := u } :=
  ⟨rfl, rfl, fun _ _ => ⟨[], by simp⟩, fun _ x hx _ => ⟨x, hx, rfl⟩⟩

theorem Inv.get {s : St U} (h : Inv T s) {a : Nat} (ha : a ∈ (view T s.log).objs) (e : Ev) :
    ∃ x, s.objs a = some x ∧ (s.emit e).get a = .ok x := by
  obtain ⟨x, hx⟩ := (h.here a).2 ha
  exact ⟨x, hx, by simp [St.get, St.emit, hx]⟩

/-- From `s` on, `t` comes about by complete operations. -/
def Went (T : IntTy) (s t : St U) : Prop := Inv T t ∧ Keeps T s t ∧ ∃ new, t.log = s.log ++ new ∧ Tree T s.log none new

/-- What operations do for careful clients. -/
def ExOk (T : IntTy) (ex : Ex U) : Prop := ∀ s op, Inv T s → Good (fun r => Went T s r.1) (ex s op)

theorem runProg_good {ex : Ex U} (hex : ExOk T ex) (p : Prog U) : ∀ s : St U, Inv T s →
    Good (Went T s) (runProg ex p s) := by
  induction p with
  | ret u => intro s h; exact ⟨h.user u, Keeps.user s u, [], by simp, .done _⟩
  | set u k ih =>
    intro s h
    exact (ih _ (h.user u)).mono fun t ht => ⟨ht.1, (Keeps.user s u).trans ht.2.1, ht.2.2⟩
  | call op k ih =>
    intro s h
    refine (hex s op h).bind fun r ⟨hi, hk, n1, hl, ht⟩ => ?_
    refine (ih r.2 r.1.user r.1 hi).mono fun t ⟨hi', hk', n2, hl', ht'⟩ => ?_
    refine ⟨hi', hk.trans hk', n1 ++ n2, by rw [hl', hl, List.append_assoc], ht.append rfl n2 (hl ▸ ht')⟩

/-- What the body of a loop does for the observed `o`. -/
def Visit (T : IntTy) (ev : Nat → Ev) (s : St U) (o : Nat) (t : St U) : Prop :=
  Inv T t ∧ Keeps T s t ∧ ∃ inner, t.log = s.log ++ (ev o :: inner ++ [.leave o]) ∧ Tree T (s.log ++ [ev o]) none inner

theorem loop_good {f : Nat → St U → Out (St U)} {ev : Nat → Ev} {a : Nat}
    (hf : ∀ (s : St U) o, Inv T s → a ∈ (view T s.log).objs → o ∈ (view T s.log).reg a → 0 < (view T s.log).run a →
      Good (Visit T ev s o) (f o s)) (dyn : Bool) (l : List Nat) :
    ∀ (left i : Nat) (s : St U) (x : Obj), Inv T s → s.objs a = some x → 0 < (view T s.log).run a →
      (∃ more, (view T s.log).reg a = l ++ more) → i + left = l.length →
      Good (fun t => Inv T t ∧ Keeps T s t ∧ ∃ new, t.log = s.log ++ new ∧ Tree T s.log (some (ev, l.drop i)) new)
        (loop f dyn a x.stamp i left s) := by
  intro left
  induction left with
  | zero =>
    intro i s x h hx _ _ hi
    have hv : valid s a x.stamp = .ok x := by simp [valid, St.get, hx]
    have : Good (fun t => Inv T t ∧ Keeps T s t ∧ ∃ new, t.log = s.log ++ new ∧ Tree T s.log (some (ev, l.drop i)) new)
        (Out.ok s) := by
      refine ⟨h, Keeps.refl s, [], by simp, ?_⟩
      rw [List.drop_of_length_le (by omega)]
      exact .stop _ _
    simp only [loop, hv, Out.ok_bind]
    split <;> exact this
  | succ left ih =>
    intro i s x h hx hr hreg hi
    obtain ⟨more, hreg⟩ := hreg
    have hil : i < l.length := by omega
    have hv : valid s a x.stamp = .ok x := by simp [valid, St.get, hx]
    have hd : x.deref i = .ok l[i] := by
      rw [(h.fit a x hx).1.deref i (by rw [hreg, List.length_append]; omega)]
      congr 1
      simp only [hreg]
      exact List.getElem_append_left hil
    simp only [loop, hv, Out.ok_bind, hd]
    refine (hf s l[i] h ((h.here a).1 ⟨x, hx⟩) (by rw [hreg]; exact List.mem_append_left _ (List.getElem_mem hil)) hr).bind
      fun t ⟨hi1, hk1, inner, hl1, ht1⟩ => ?_
    obtain ⟨y, hy, hst⟩ := hk1.same a x hx hr
    obtain ⟨m, hm⟩ := hk1.reg a hr
    have := ih (i + 1) t y hi1 hy (by rw [hk1.run]; exact hr) ⟨more ++ m, by rw [hm, hreg, List.append_assoc]⟩ (by omega)
    rw [hst] at this
    refine this.mono fun u ⟨hi2, hk2, new, hl2, ht2⟩ => ⟨hi2, hk1.trans hk2, ev l[i] :: inner ++ .leave l[i] :: new, ?_, ?_⟩
    · rw [hl2, hl1]; simp
    · rw [List.drop_eq_getElem_cons hil]
      exact .call s.log inner new ev l[i] (l.drop (i + 1)) ht1 (by rw [hl1] at ht2; exact ht2)

theorem upd_back {f g : Nat → Nat} {a : Nat} (h : g = upd f a (f a + 1)) : upd g a (g a - 1) = f := by
  subst h
  funext b
  by_cases hba : b = a
  · subst hba; simp
  · rw [upd_other _ _ hba, upd_other _ _ hba]

theorem tell_good {ex : Ex U} (hex : ExOk T ex) (H : Handlers U) (a : Nat) (v : Int) (s : St U) (o : Nat) (h : Inv T s)
    (ha : a ∈ (view T s.log).objs) (ho : o ∈ (view T s.log).reg a) (hr : 0 < (view T s.log).run a) :
    Good (Visit T (fun o => .told a o v) s o) (tell ex H a v o s) := by
  have hal : o ∈ s.alive := h.live a ha o ho
  rw [tell, if_pos hal]
  generalize hs1 : ({ s with held := upd s.held o v, busy := upd s.busy o (s.busy o + 1) }.emit (.told a o v) : St U) = s1
  have hv1 : view T s1.log = { view T s.log with held := upd (view T s.log).held o v } := by
    rw [← hs1, view_emit]; rfl
  have hl1 : s1.log = s.log ++ [.told a o v] := by rw [← hs1]; rfl
  have ho1 : s1.objs = s.objs := by rw [← hs1]; rfl
  have ha1 : s1.alive = s.alive := by rw [← hs1]; rfl
  have hb1 : s1.busy = upd s.busy o (s.busy o + 1) := by rw [← hs1]; rfl
  have hi1 : Inv T s1 := by
    refine ⟨?_, ?_, ?_, ?_, ?_, ?_, ?_, ?_⟩
    · rw [hl1]; exact .snoc _ _ h.fine ⟨ha, h.alive ▸ hal, ho, hr⟩
    · rw [hv1, ho1]; exact h.here
    · rw [hv1, ho1]; exact h.fit
    · rw [hv1, ha1]; exact h.alive
    · rw [hv1, ← hs1]
      show upd s.held o v = upd _ o v
      rw [h.held]
    · rw [hv1, ha1]; exact h.live
    · rw [hv1]; exact h.idle
    · rw [hv1, hb1]
      intro q hq
      by_cases hqo : q = o
      · subst hqo; exact ⟨a, ha, hr, ho⟩
      · rw [upd_other _ _ hqo] at hq; exact h.busy q hq
  refine (runProg_good hex _ s1 hi1).bind fun t ⟨hi, hk, inner, hl, ht⟩ => ?_
  have hvt : view T ({ t with busy := upd t.busy o (t.busy o - 1) }.emit (.leave o)).log = view T t.log := by
    rw [view_emit]; rfl
  have hkeep : Keeps T s ({ t with busy := upd t.busy o (t.busy o - 1) }.emit (.leave o)) := by
    refine ⟨?_, ?_, ?_, ?_⟩
    · rw [hvt, hk.run, hv1]
    · show upd t.busy o (t.busy o - 1) = s.busy
      exact upd_back (hk.busy.trans hb1)
    · intro b hb
      obtain ⟨m, hm⟩ := hk.reg b (by rw [hv1]; exact hb)
      exact ⟨m, by rw [hvt, hm, hv1]⟩
    · intro b x hx hb
      exact hk.same b x (by rw [ho1]; exact hx) (by rw [hv1]; exact hb)
  refine ⟨⟨?_, ?_, ?_, ?_, ?_, ?_, ?_, ?_⟩, hkeep, inner, ?_, ?_⟩
  · exact .snoc _ _ hi.fine trivial
  · rw [hvt]; exact hi.here
  · rw [hvt]; exact hi.fit
  · rw [hvt]; exact hi.alive
  · rw [hvt]; exact hi.held
  · rw [hvt]; exact hi.live
  · rw [hvt]; exact hi.idle
  · exact h.busyKept hkeep (by rw [hvt]; exact hi.here)
  · show t.log ++ [_] = _
    rw [hl, hl1]; simp
  · rw [← hl1]; exact ht

theorem part_good {ex : Ex U} (hex : ExOk T ex) (H : Handlers U) (a : Nat) (s : St U) (o : Nat) (h : Inv T s)
    (ha : a ∈ (view T s.log).objs) (ho : o ∈ (view T s.log).reg a) (hr : 0 < (view T s.log).run a) :
    Good (Visit T (fun o => .disc a o) s o) (part ex H a o s) := by
  have hal : o ∈ s.alive := h.live a ha o ho
  rw [part, if_pos hal]
  have hv1 : view T (s.emit (.disc a o)).log = view T s.log := by rw [view_emit]; rfl
  have hi1 : Inv T (s.emit (.disc a o)) := by
    refine ⟨?_, ?_, ?_, ?_, ?_, ?_, ?_, ?_⟩
    · exact .snoc _ _ h.fine ⟨ha, h.alive ▸ hal, ho, hr⟩
    all_goals rw [hv1]
    · exact h.here
    · exact h.fit
    · exact h.alive
    · exact h.held
    · exact h.live
    · exact h.idle
    · exact h.busy
  refine (runProg_good hex _ _ hi1).bind fun t ⟨hi, hk, inner, hl, ht⟩ => ?_
  have hvt : view T (t.emit (.leave o)).log = view T t.log := by rw [view_emit]; rfl
  have hkeep : Keeps T s (t.emit (.leave o)) := by
    refine ⟨?_, hk.busy, ?_, ?_⟩
    · rw [hvt, hk.run, hv1]
    · intro b hb
      obtain ⟨m, hm⟩ := hk.reg b (by rw [hv1]; exact hb)
      exact ⟨m, by rw [hvt, hm, hv1]⟩
    · intro b x hx hb
      exact hk.same b x hx (by rw [hv1]; exact hb)
  refine ⟨⟨?_, ?_, ?_, ?_, ?_, ?_, ?_, ?_⟩, hkeep, inner, ?_, ht⟩
  · exact .snoc _ _ hi.fine trivial
  · rw [hvt]; exact hi.here
  · rw [hvt]; exact hi.fit
  · rw [hvt]; exact hi.alive
  · rw [hvt]; exact hi.held
  · rw [hvt]; exact hi.live
  · rw [hvt]; exact hi.idle
  · exact h.busyKept hkeep (by rw [hvt]; exact hi.here)
  · show t.log ++ [_] = _
    rw [hl]
    show s.log ++ [_] ++ _ ++ _ = _
    simp

/-! ### Operations -/

/-- The operation has ended well. -/
def Well (T : IntTy) (s : St U) (op : Op) (r : St U × Ret) : Prop := Went T s (r.1.emit (.ret op r.2))

theorem began_simple {op : Op} (h : Simple op) (w : View) : w.see T (.began op) = w := by
  cases op <;> first | rfl | exact h.elim

/-- An operation that visits nobody. -/
theorem well_simple {s t : St U} (h : Inv T s) {op : Op} {r : Ret} {w : View} (hs : Simple op) (hr : Right (view T s.log) op r)
    (hc : careful T (view T s.log) op = true) (hl : t.log = s.log ++ [.began op]) (hb : t.busy = s.busy)
    (hw : (view T s.log).ended op r = w) (hrun : w.run = (view T s.log).run)
    (here : ∀ a, (∃ x, t.objs a = some x) ↔ a ∈ w.objs)
    (fit : ∀ a x, t.objs a = some x → Fit x (w.reg a) ∧ x.max = w.max a ∧ x.value = w.val a)
    (alive : t.alive = w.alive) (held : t.held = w.held) (live : ∀ a ∈ w.objs, ∀ o ∈ w.reg a, o ∈ t.alive)
    (idle : ∀ a, a ∉ w.objs → w.run a = 0)
    (reg : ∀ a, 0 < (view T s.log).run a → ∃ more, w.reg a = (view T s.log).reg a ++ more)
    (same : ∀ a x, s.objs a = some x → 0 < (view T s.log).run a → ∃ y, t.objs a = some y ∧ y.stamp = x.stamp) :
    Well T s op (t, r) := by
  have hvt : view T (t.emit (.ret op r)).log = w := by
    rw [view_emit, hl, view_snoc, began_simple hs]; exact hw
  have hk : Keeps T s (t.emit (.ret op r)) := by
    refine ⟨by rw [hvt, hrun], hb, ?_, same⟩
    rw [hvt]; exact reg
  refine ⟨⟨?_, ?_, ?_, ?_, ?_, ?_, ?_, ?_⟩, hk, [.began op, .ret op r], ?_, .quick _ _ op r hs hr (.done _)⟩
  · exact .snoc _ _ (hl ▸ .snoc _ _ h.fine hc) trivial
  · rw [hvt]; exact here
  · rw [hvt]; exact fit
  · rw [hvt]; exact alive
  · rw [hvt]; exact held
  · rw [hvt]; exact live
  · rw [hvt]; exact idle
  · exact h.busyKept hk (by rw [hvt]; exact here)
  · show t.log ++ [_] = _
    rw [hl]; simp

/-- An operation that gives `a` other members. -/
theorem well_put {s : St U} (h : Inv T s) {op : Op} {r : Ret} {w : View} {a : Nat} {x' : Obj} (hs : Simple op)
    (hr : Right (view T s.log) op r) (hc : careful T (view T s.log) op = true)
    (hw : (view T s.log).ended op r = w) (hrun : w.run = (view T s.log).run)
    (hobjs : ∀ b, b ∈ w.objs ↔ b = a ∨ b ∈ (view T s.log).objs)
    (hfit : Fit x' (w.reg a) ∧ x'.max = w.max a ∧ x'.value = w.val a)
    (hoth : ∀ b, b ≠ a → w.reg b = (view T s.log).reg b ∧ w.max b = (view T s.log).max b ∧ w.val b = (view T s.log).val b)
    (alive : w.alive = (view T s.log).alive) (held : w.held = (view T s.log).held)
    (live : ∀ o ∈ w.reg a, o ∈ (view T s.log).alive)
    (keep : 0 < (view T s.log).run a →
      (∃ more, w.reg a = (view T s.log).reg a ++ more) ∧ ∀ x, s.objs a = some x → x'.stamp = x.stamp) :
    Well T s op ((s.emit (.began op)).put a x', r) := by
  have hat : ∀ b y, ((s.emit (.began op)).put a x').objs b = some y → (b = a ∧ y = x') ∨ (b ≠ a ∧ s.objs b = some y) := by
    intro b y hy
    by_cases hba : b = a
    · subst hba
      simp only [St.put, upd_same, Option.some.injEq] at hy
      exact .inl ⟨rfl, hy.symm⟩
    · simp only [St.put, St.emit, upd_other _ _ hba] at hy
      exact .inr ⟨hba, hy⟩
  refine well_simple h hs hr hc rfl rfl hw hrun ?_ ?_ (by rw [alive]; exact h.alive) (by rw [held]; exact h.held) ?_ ?_ ?_ ?_
  · intro b
    rw [hobjs]
    by_cases hba : b = a
    · subst hba; simp [St.put]
    · simp only [St.put, St.emit, upd_other _ _ hba]
      rw [h.here b]; simp [hba]
  · intro b y hy
    rcases hat b y hy with ⟨rfl, rfl⟩ | ⟨hba, hy⟩
    · exact hfit
    · obtain ⟨h1, h2, h3⟩ := hoth b hba
      rw [h1, h2, h3]; exact h.fit b y hy
  · intro b hb o ho
    show o ∈ s.alive
    by_cases hba : b = a
    · subst hba; rw [h.alive]; exact live o ho
    · rw [(hoth b hba).1] at ho
      rcases (hobjs b).1 hb with hb | hb
      · exact absurd hb hba
      · exact h.live b hb o ho
  · intro b hb
    rw [hrun]
    exact h.idle b fun hm => hb ((hobjs b).2 (.inr hm))
  · intro b hb
    by_cases hba : b = a
    · subst hba; exact (keep hb).1
    · exact ⟨[], by rw [(hoth b hba).1]; simp⟩
  · intro b x hx hb
    by_cases hba : b = a
    · subst hba
      exact ⟨x', by simp [St.put], (keep hb).2 x hx⟩
    · exact ⟨x, by simp only [St.put, St.emit, upd_other _ _ hba]; exact hx, rfl⟩

/-- An operation that visits observers has begun. -/
structure Start (T : IntTy) (s s1 : St U) (op : Op) (a : Nat) : Prop where
  inv : Inv T s1
  log : s1.log = s.log ++ [.began op]
  run : (view T s1.log).run = upd (view T s.log).run a ((view T s.log).run a + 1)
  reg : (view T s1.log).reg = (view T s.log).reg
  busy : s1.busy = s.busy
  same : ∀ b x, s.objs b = some x → ∃ y, s1.objs b = some y ∧ y.stamp = x.stamp

/-- It ends: the observable `a` may have been emptied or destroyed. -/
theorem finish {s s1 t u : St U} (h : Inv T s) {op : Op} {a : Nat} {ev : Nat → Ev} {r : Ret} {new : List Ev} {w : View}
    (h1 : Start T s s1 op a) (hi : Inv T t) (hk : Keeps T s1 t) (hl : t.log = s1.log ++ new)
    (ht : Tree T s1.log (some (ev, (view T s.log).reg a)) new) (hcall : Calls T (view T s.log) op a ev r)
    (hw : (view T t.log).ended op r = w) (hul : u.log = t.log) (hua : u.alive = t.alive) (huh : u.held = t.held)
    (hub : u.busy = t.busy) (huo : ∀ b, b ≠ a → u.objs b = t.objs b)
    (hrun : w.run = upd (view T t.log).run a ((view T t.log).run a - 1)) (hal : w.alive = (view T t.log).alive)
    (hhe : w.held = (view T t.log).held)
    (hoth : ∀ b, b ≠ a → w.reg b = (view T t.log).reg b ∧ w.max b = (view T t.log).max b ∧ w.val b = (view T t.log).val b)
    (hfit : ∀ y, u.objs a = some y → Fit y (w.reg a) ∧ y.max = w.max a ∧ y.value = w.val a)
    (hobjs : ∀ b, b ∈ w.objs ↔ (b ≠ a ∧ b ∈ (view T t.log).objs) ∨ (b = a ∧ ∃ y, u.objs a = some y))
    (hreg : w.reg a = (view T t.log).reg a ∨ w.reg a = [])
    (hzero : (∀ y, t.objs a = some y → ∃ y', u.objs a = some y' ∧ y'.stamp = y.stamp) ∧ w.reg a = (view T t.log).reg a ∨
      (view T s.log).run a = 0) (hta : a ∈ (view T t.log).objs) :
    Well T s op (u, r) := by
  have hvt : view T (u.emit (.ret op r)).log = w := by rw [view_emit, hul]; exact hw
  have hrt : (view T t.log).run = upd (view T s.log).run a ((view T s.log).run a + 1) := by rw [hk.run, h1.run]
  have hrw : w.run = (view T s.log).run := by rw [hrun]; exact upd_back hrt
  have hpos : ∀ b, 0 < (view T s.log).run b → 0 < (view T s1.log).run b := by
    intro b hb
    rw [h1.run]
    by_cases hba : b = a
    · subst hba; simp
    · rw [upd_other _ _ hba]; exact hb
  have here : ∀ b, (∃ x, u.objs b = some x) ↔ b ∈ w.objs := by
    intro b
    rw [hobjs]
    by_cases hba : b = a
    · subst hba; simp
    · rw [huo b hba, hi.here b]; simp [hba]
  have hkeep : Keeps T s (u.emit (.ret op r)) := by
    refine ⟨by rw [hvt, hrw], ?_, ?_, ?_⟩
    · show u.busy = _
      rw [hub, hk.busy, h1.busy]
    · intro b hb
      obtain ⟨m, hm⟩ := hk.reg b (hpos b hb)
      rw [hvt]
      rw [h1.reg] at hm
      by_cases hba : b = a
      · subst hba
        rcases hzero with hz | hz
        · exact ⟨m, hz.2.trans hm⟩
        · omega
      · exact ⟨m, (hoth b hba).1.trans hm⟩
    · intro b x hx hb
      obtain ⟨x1, hx1, hst1⟩ := h1.same b x hx
      obtain ⟨y, hy, hst2⟩ := hk.same b x1 hx1 (hpos b hb)
      by_cases hba : b = a
      · subst hba
        rcases hzero with hz | hz
        · obtain ⟨y', hy', hst⟩ := hz.1 y hy
          exact ⟨y', hy', hst.trans (hst2.trans hst1)⟩
        · omega
      · exact ⟨y, (huo b hba).trans hy, hst2.trans hst1⟩
  refine ⟨⟨?_, ?_, ?_, ?_, ?_, ?_, ?_, ?_⟩, hkeep, .began op :: new ++ [.ret op r], ?_, ?_⟩
  · exact .snoc _ _ (hul ▸ hi.fine) trivial
  · rw [hvt]; exact here
  · rw [hvt]
    intro b y hy
    by_cases hba : b = a
    · subst hba; exact hfit y hy
    · obtain ⟨h2, h3, h4⟩ := hoth b hba
      rw [h2, h3, h4]
      exact hi.fit b y (by rw [← huo b hba]; exact hy)
  · rw [hvt, hal]; exact hua.trans hi.alive
  · rw [hvt, hhe]; exact huh.trans hi.held
  · rw [hvt]
    intro b hb o ho
    show o ∈ u.alive
    rw [hua]
    by_cases hba : b = a
    · subst hba
      rcases hreg with hq | hq
      · rw [hq] at ho; exact hi.live b hta o ho
      · rw [hq] at ho; simp at ho
    · rw [(hoth b hba).1] at ho
      rcases (hobjs b).1 hb with hb | hb
      · exact hi.live b hb.2 o ho
      · exact absurd hb.1 hba
  · rw [hvt, hrw]
    intro b hb
    by_cases hba : b = a
    · subst hba
      rcases hzero with hz | hz
      · exfalso
        obtain ⟨y, hy⟩ := (hi.here b).2 hta
        obtain ⟨y', hy', -⟩ := hz.1 y hy
        exact hb ((hobjs b).2 (.inr ⟨rfl, y', hy'⟩))
      · exact hz
    · have h2 := hi.idle b fun hm => hb ((hobjs b).2 (.inl ⟨hba, hm⟩))
      rw [hrt, upd_other _ _ hba] at h2
      exact h2
  · exact h.busyKept hkeep (by rw [hvt]; exact here)
  · show u.log ++ [_] = _
    rw [hul, hl, h1.log]; simp
  · have := Tree.round (T := T) s.log new [] op a ev r hcall (by rw [h1.log] at ht; exact ht) (.done _)
    exact this

theorem resultOut_ok {x : Int} {u : Upd} (h : resultOut T x u ≠ .ub) : ∃ v, Re.result T x u = .ok v := by
  have ha : ∀ e : IntTy, ∀ y, e.arith y ≠ .hang := by
    intro e y; unfold IntTy.arith; split
    · split <;> simp
    · simp
  unfold resultOut at h
  cases hr : Re.result T x u with
  | ok v => exact ⟨v, rfl⟩
  | ub => rw [hr] at h; exact absurd rfl h
  | hang =>
    exfalso
    cases u <;> simp only [Re.result, reduceCtorEq] at hr
    all_goals
      revert hr
      first
        | (cases hq : T.common.arith (x + T.common.wrap _) <;> simp_all; done)
        | (cases hq : T.common.arith (x - T.common.wrap _) <;> simp_all; done)
        | (cases hq : T.common.arith (x + 1) <;> simp_all; done)

theorem update_well {ex : Ex U} (hex : ExOk T ex) (H : Handlers U) {s : St U} (h : Inv T s) (a : Nat) (u : Upd)
    (hc : careful T (view T s.log) (.upd a u) = true) :
    Good (Well T s (.upd a u)) (body T ex H (s.emit (.began (.upd a u))) (.upd a u)) := by
  have hc' := hc
  simp only [careful, sane, steady, apart, Bool.and_eq_true, decide_eq_true_eq, and_true] at hc'
  obtain ⟨x, hx, hget⟩ := h.get hc'.1 (.began (.upd a u))
  obtain ⟨hfit, hmax, hval⟩ := h.fit a x hx
  obtain ⟨v, hv⟩ := resultOut_ok hc'.2
  have hv' : resultOut T x.value u = .ok v := by rw [hval]; simp [resultOut, hv]
  simp only [body, update, hget, Out.ok_bind, hv']
  rw [if_neg (by
    rintro ⟨hm, hgt⟩
    have := hfit.cap hm
    rw [hfit.count] at hgt
    omega)]
  generalize hs1 : (s.emit (.began (.upd a u))).put a { x with value := stored T x.value u } = s1
  have hl1 : s1.log = s.log ++ [.began (.upd a u)] := by rw [← hs1]; rfl
  have hv1 : view T s1.log = { view T s.log with
      run := upd (view T s.log).run a ((view T s.log).run a + 1)
      val := upd (view T s.log).val a (stored T ((view T s.log).val a) u) } := by
    rw [hl1, view_snoc]; rfl
  have ho1 : s1.objs = upd s.objs a (some { x with value := stored T x.value u }) := by rw [← hs1]; rfl
  have ha1 : s1.alive = s.alive := by rw [← hs1]; rfl
  have hh1 : s1.held = s.held := by rw [← hs1]; rfl
  have hb1 : s1.busy = s.busy := by rw [← hs1]; rfl
  have hst : Start T s s1 (.upd a u) a := by
    refine ⟨⟨?_, ?_, ?_, ?_, ?_, ?_, ?_, ?_⟩, hl1, by rw [hv1], by rw [hv1], hb1, ?_⟩
    · rw [hl1]; exact .snoc _ _ h.fine hc
    · intro b
      rw [hv1, ho1]
      by_cases hba : b = a
      · subst hba; simpa using hc'.1
      · rw [upd_other _ _ hba]; exact h.here b
    · intro b y hy
      rw [ho1] at hy
      rw [hv1]
      by_cases hba : b = a
      · subst hba
        simp only [upd_same, Option.some.injEq] at hy
        subst hy
        refine ⟨⟨hfit.count, hfit.pre, hfit.dyn, hfit.fix⟩, hmax, ?_⟩
        show stored T x.value u = upd _ _ _ b
        rw [upd_same, hval]
      · rw [upd_other _ _ hba] at hy
        obtain ⟨h2, h3, h4⟩ := h.fit b y hy
        refine ⟨h2, h3, ?_⟩
        show _ = upd _ _ _ b
        rw [upd_other _ _ hba]; exact h4
    · rw [hv1, ha1]; exact h.alive
    · rw [hv1, hh1]; exact h.held
    · rw [hv1, ha1]; exact h.live
    · rw [hv1]
      intro b hb
      have hba : b ≠ a := fun hq => hb (hq ▸ hc'.1)
      show upd _ _ _ b = 0
      rw [upd_other _ _ hba]; exact h.idle b hb
    · rw [hv1, hb1]
      intro o ho
      obtain ⟨b, h2, h3, h4⟩ := h.busy o ho
      refine ⟨b, h2, ?_, h4⟩
      show 0 < upd _ _ _ b
      by_cases hba : b = a
      · subst hba; simp
      · rw [upd_other _ _ hba]; exact h3
    · intro b y hy
      rw [ho1]
      by_cases hba : b = a
      · subst hba
        have : y = x := Option.some.inj (hy.symm.trans hx)
        subst this
        exact ⟨_, upd_same _ _ _, rfl⟩
      · exact ⟨y, by rw [upd_other _ _ hba]; exact hy, rfl⟩
  have hra : 0 < (view T s1.log).run a := by rw [hst.run]; simp
  have hxa : s1.objs a = some { x with value := stored T x.value u } := by rw [ho1]; simp
  have hloop := loop_good (T := T) (f := tell ex H a v) (ev := fun o => .told a o v) (a := a)
    (fun s o h2 h3 h4 h5 => tell_good hex H a v s o h2 h3 h4 h5) (x.max == 0) ((view T s.log).reg a)
    ((view T s.log).reg a).length 0 s1 _ hst.inv hxa hra ⟨[], by rw [hst.reg]; simp⟩ (by simp)
  rw [← hfit.count] at hloop
  refine hloop.bind fun t ⟨hi, hk, new, hl, ht⟩ => ?_
  obtain ⟨y, hy, -⟩ := hk.same a _ hxa hra
  have hta : a ∈ (view T t.log).objs := (hi.here a).1 ⟨y, hy⟩
  refine finish h hst hi hk hl (by simpa using ht) (.inl ⟨u, v, rfl, hv, rfl, rfl⟩) rfl rfl rfl rfl rfl (fun _ _ => rfl) rfl rfl rfl
    (fun _ _ => ⟨rfl, rfl, rfl⟩) (fun y hy => hi.fit a y hy) ?_ (.inl rfl) (.inl ⟨fun y hy => ⟨y, hy, rfl⟩, rfl⟩) hta
  intro b
  show b ∈ (view T t.log).objs ↔ _
  by_cases hba : b = a
  · subst hba; simp [hta, hy]
  · simp [hba]

/-- The visit of `clear_observers`, of an observable that is not visiting its observers. -/
theorem clearObs_good {ex : Ex U} (hex : ExOk T ex) (H : Handlers U) {s : St U} (h : Inv T s) (a : Nat) {op : Op}
    (hop : op = .clear a ∨ op = .destroy a) (ha : a ∈ (view T s.log).objs) (hc : careful T (view T s.log) op = true) :
    Good (fun u => ∃ t y new, u = t.put a (y.empty t.fresh) ∧ t.objs a = some y ∧ Start T s (s.emit (.began op)) op a ∧ Inv T t ∧
      Keeps T (s.emit (.began op)) t ∧ t.log = (s.emit (.began op)).log ++ new ∧
      Tree T (s.emit (.began op)).log (some (fun o => .disc a o, (view T s.log).reg a)) new)
      (clearObs ex H a (s.emit (.began op))) := by
  obtain ⟨x, hx, hget⟩ := h.get ha (.began op)
  obtain ⟨hfit, hmax, hval⟩ := h.fit a x hx
  have hv1 : view T (s.emit (.began op)).log = { view T s.log with run := upd (view T s.log).run a ((view T s.log).run a + 1) } := by
    rw [view_emit]
    rcases hop with rfl | rfl <;> rfl
  have hst : Start T s (s.emit (.began op)) op a := by
    refine ⟨⟨?_, ?_, ?_, ?_, ?_, ?_, ?_, ?_⟩, rfl, by rw [hv1], by rw [hv1], rfl, fun b y hy => ⟨y, hy, rfl⟩⟩
    · exact .snoc _ _ h.fine hc
    · rw [hv1]; exact h.here
    · rw [hv1]; exact h.fit
    · rw [hv1]; exact h.alive
    · rw [hv1]; exact h.held
    · rw [hv1]; exact h.live
    · rw [hv1]
      intro b hb
      have hba : b ≠ a := fun hq => hb (hq ▸ ha)
      show upd _ _ _ b = 0
      rw [upd_other _ _ hba]; exact h.idle b hb
    · rw [hv1]
      intro o ho
      obtain ⟨b, h2, h3, h4⟩ := h.busy o ho
      refine ⟨b, h2, ?_, h4⟩
      show 0 < upd _ _ _ b
      by_cases hba : b = a
      · subst hba; simp
      · rw [upd_other _ _ hba]; exact h3
  have hra : 0 < (view T (s.emit (.began op)).log).run a := by rw [hst.run]; simp
  have hloop := loop_good (T := T) (f := part ex H a) (ev := fun o => .disc a o) (a := a)
    (fun s o h2 h3 h4 h5 => part_good hex H a s o h2 h3 h4 h5) (x.max == 0) ((view T s.log).reg a)
    ((view T s.log).reg a).length 0 (s.emit (.began op)) x hst.inv hx hra ⟨[], by rw [hst.reg]; simp⟩ (by simp)
  rw [← hfit.count] at hloop
  simp only [clearObs, hget, Out.ok_bind]
  refine hloop.bind fun t ⟨hi, hk, new, hl, ht⟩ => ?_
  obtain ⟨y, hy, -⟩ := hk.same a x hx hra
  have hty : t.get a = .ok y := by simp [St.get, hy]
  simp only [hty, Out.ok_bind]
  exact ⟨t, y, new, rfl, hy, hst, hi, hk, hl, by simpa using ht⟩

theorem empty_members (y : Obj) (g : Nat) : (y.empty g).max = y.max ∧ (y.empty g).value = y.value := by
  unfold Obj.empty; split <;> exact ⟨rfl, rfl⟩

theorem body_good {ex : Ex U} (hex : ExOk T ex) (H : Handlers U) {s : St U} (h : Inv T s)
    (op : Op) (hc : careful T (view T s.log) op = true) :
    Good (Well T s op) (body T ex H (s.emit (.began op)) op) := by
  have hc' := hc
  cases op with
  | make a m =>
    simp only [careful, sane, steady, apart, Bool.and_eq_true, decide_eq_true_eq, and_true] at hc'
    refine well_put h trivial rfl hc rfl rfl (fun b => List.mem_cons) ⟨?_, ?_, ?_⟩ (fun b hb => ?_) rfl rfl ?_ ?_
    · show Fit _ (upd _ a [] a)
      rw [upd_same]; exact Fit.new m _
    · show m = upd _ a m a
      rw [upd_same]
    · show (0 : Int) = upd _ a 0 a
      rw [upd_same]
    · exact ⟨upd_other _ _ hb, upd_other _ _ hb, upd_other _ _ hb⟩
    · intro o ho
      simp [View.ended] at ho
    · intro hr
      rw [h.idle a hc'] at hr
      omega
  | destroy a =>
    simp only [careful, sane, steady, apart, Bool.and_eq_true, decide_eq_true_eq, and_true] at hc'
    simp only [body]
    refine (clearObs_good hex H h a (.inr rfl) hc'.1 hc).bind fun u ⟨t, y, new, hu, hy, hst, hi, hk, hl, ht⟩ => ?_
    subst hu
    refine finish h hst hi hk hl ht (.inr ⟨.inr rfl, rfl, rfl⟩) rfl rfl rfl rfl rfl (fun b hb => ?_) rfl rfl rfl
      (fun b hb => ⟨upd_other _ _ hb, rfl, rfl⟩) (fun y hy => ?_) (fun b => ?_) (.inr (upd_same _ _ _)) (.inr hc'.2)
      ((hi.here a).1 ⟨y, hy⟩)
    · simp only [St.drop, St.put, upd_other _ _ hb]
    · simp [St.drop] at hy
    · show b ∈ (view T t.log).objs.filter _ ↔ _
      rw [List.mem_filter]
      simp [St.drop, and_comm]
  | born o =>
    refine well_simple h trivial rfl hc rfl rfl rfl rfl h.here h.fit ?_ ?_ ?_ h.idle (fun _ _ => ⟨[], (List.append_nil _).symm⟩)
      (fun _ x hx _ => ⟨x, hx, rfl⟩)
    · show o :: s.alive = o :: _
      rw [h.alive]
    · show upd s.held o 0 = upd _ o 0
      rw [h.held]
    · intro a ha q hq
      exact List.mem_cons_of_mem _ (h.live a ha q hq)
  | die o =>
    simp only [careful, sane, steady, apart, Bool.and_eq_true, decide_eq_true_eq, and_true, List.all_eq_true] at hc'
    have hb : ¬ 0 < (s.emit (.began (.die o))).busy o := by
      intro hb
      obtain ⟨a, ha, -, hm⟩ := h.busy o hb
      exact (hc'.2 a ha) hm
    simp only [body, if_neg hb]
    refine well_simple h trivial rfl hc rfl rfl rfl rfl h.here h.fit ?_ h.held ?_ h.idle (fun _ _ => ⟨[], (List.append_nil _).symm⟩)
      (fun _ x hx _ => ⟨x, hx, rfl⟩)
    · show s.alive.filter _ = List.filter _ _
      rw [h.alive]
    · intro a ha q hq
      refine List.mem_filter.2 ⟨h.live a ha q hq, ?_⟩
      simpa using fun hqo : q = o => hc'.2 a ha (hqo ▸ hq)
  | upd a u => exact update_well hex H h a u hc
  | add a o =>
    simp only [careful, sane, steady, apart, Bool.and_eq_true, decide_eq_true_eq, and_true] at hc'
    obtain ⟨x, hx, hget⟩ := h.get hc'.1.1 (.began (.add a o))
    obtain ⟨hfit, hmax, hval⟩ := h.fit a x hx
    simp only [body, hget, Out.ok_bind]
    obtain ⟨h1, h2, h3, h4, h5⟩ := hfit.add (s.emit (.began (.add a o))).fresh o
    have hobj : ∀ b, b ∈ (view T s.log).objs ↔ b = a ∨ b ∈ (view T s.log).objs :=
      fun b => ⟨.inr, fun hq => hq.elim (fun hba => hba ▸ hc'.1.1) id⟩
    have hkeep : 0 < (view T s.log).run a → x.max ≠ 0 ∨ o ∈ (view T s.log).reg a := by
      intro hr
      rcases hc'.2 with hq | hq | hq
      · omega
      · exact .inl (by rw [hmax]; exact hq)
      · exact .inr hq
    rw [hmax] at h1
    rw [h1]
    by_cases he : addErr ((view T s.log).max a) ((view T s.log).reg a) o = .ok
    · rw [hmax, he, if_pos rfl] at h5
      rw [he]
      refine well_put h trivial (by simp [Right, he]) hc rfl rfl hobj
        ⟨?_, h3.trans hmax, h2.trans hval⟩ (fun b hb => ⟨upd_other _ _ hb, rfl, rfl⟩) rfl rfl ?_ ?_
      · show Fit _ (upd _ a _ a)
        rw [upd_same]; exact h5
      · intro q hq
        rw [show ((view T s.log).ended (.add a o) (.err .ok)).reg a = (view T s.log).reg a ++ [o] from upd_same _ _ _] at hq
        rcases List.mem_append.1 hq with hq | hq
        · rw [← h.alive]; exact h.live a hc'.1.1 q hq
        · rw [List.mem_singleton.1 hq]; exact hc'.1.2
      · intro hr
        refine ⟨⟨[o], upd_same _ _ _⟩, fun x' hx' => ?_⟩
        have : x' = x := Option.some.inj (hx'.symm.trans hx)
        subst this
        exact h4 (hkeep hr)
    · rw [hmax, if_neg he] at h5
      have hw : (view T s.log).ended (.add a o) (.err (addErr ((view T s.log).max a) ((view T s.log).reg a) o)) = view T s.log := by
        revert he
        cases addErr ((view T s.log).max a) ((view T s.log).reg a) o <;> intro he <;> first | rfl | exact absurd rfl he
      refine well_put h trivial rfl hc hw rfl hobj ⟨h5, h3.trans hmax, h2.trans hval⟩ (fun b hb => ⟨rfl, rfl, rfl⟩) rfl rfl
        (fun q hq => by rw [← h.alive]; exact h.live a hc'.1.1 q hq) (fun hr => ⟨⟨[], by simp⟩, fun x' hx' => ?_⟩)
      have : x' = x := Option.some.inj (hx'.symm.trans hx)
      subst this
      exact h4 (hkeep hr)
  | remove a o =>
    simp only [careful, sane, steady, apart, Bool.and_eq_true, decide_eq_true_eq, and_true] at hc'
    obtain ⟨x, hx, hget⟩ := h.get hc'.1 (.began (.remove a o))
    obtain ⟨hfit, hmax, hval⟩ := h.fit a x hx
    simp only [body, hget, Out.ok_bind]
    obtain ⟨h1, h2, h3, h4, h5⟩ := hfit.remove o
    have hobj : ∀ b, b ∈ (view T s.log).objs ↔ b = a ∨ b ∈ (view T s.log).objs :=
      fun b => ⟨.inr, fun hq => hq.elim (fun hba => hba ▸ hc'.1) id⟩
    rw [h1]
    by_cases ho : o ∈ (view T s.log).reg a
    · rw [if_pos ho]
      rw [if_pos ho, hmax] at h5
      have hr0 : (view T s.log).run a = 0 := hc'.2.elim id fun hq => absurd ho hq
      refine well_put h trivial (by simp [Right, ho]) hc rfl rfl hobj
        ⟨?_, h3.trans hmax, h2.trans hval⟩ (fun b hb => ⟨upd_other _ _ hb, rfl, rfl⟩) rfl rfl ?_ (fun hr => by omega)
      · show Fit _ (upd _ a _ a)
        rw [upd_same]; exact h5
      · intro q hq
        rw [show ((view T s.log).ended (.remove a o) (.err .ok)).reg a =
          View.without ((view T s.log).max a == 0) ((view T s.log).reg a) o from upd_same _ _ _] at hq
        rw [← h.alive]
        refine h.live a hc'.1 q ?_
        unfold View.without at hq
        rcases List.mem_append.1 hq with hq | hq
        · exact (List.mem_filter.1 hq).1
        · split at hq
          · exact List.mem_of_mem_drop hq
          · simp at hq
    · rw [if_neg ho]
      rw [if_neg ho] at h5
      refine well_put h trivial (by simp [Right, ho]) hc rfl rfl hobj ⟨h5, h3.trans hmax, h2.trans hval⟩
        (fun b hb => ⟨rfl, rfl, rfl⟩) rfl rfl
        (fun q hq => by rw [← h.alive]; exact h.live a hc'.1 q hq) (fun hr => ⟨⟨[], (List.append_nil _).symm⟩, fun x' hx' => ?_⟩)
      have : x' = x := Option.some.inj (hx'.symm.trans hx)
      subst this
      exact h4
  | clear a =>
    simp only [careful, sane, steady, apart, Bool.and_eq_true, decide_eq_true_eq, and_true] at hc'
    simp only [body]
    refine (clearObs_good hex H h a (.inl rfl) hc'.1 hc).bind fun u ⟨t, y, new, hu, hy, hst, hi, hk, hl, ht⟩ => ?_
    subst hu
    have hta : a ∈ (view T t.log).objs := (hi.here a).1 ⟨y, hy⟩
    refine finish h hst hi hk hl ht (.inr ⟨.inl rfl, rfl, rfl⟩) rfl rfl rfl rfl rfl (fun b hb => upd_other _ _ hb) rfl rfl rfl
      (fun b hb => ⟨upd_other _ _ hb, rfl, rfl⟩) (fun y' hy' => ?_) (fun b => ?_) (.inr (upd_same _ _ _)) (.inr hc'.2) hta
    · simp only [St.put, upd_same, Option.some.injEq] at hy'
      subst hy'
      obtain ⟨h1, h2, h3⟩ := hi.fit a y hy
      refine ⟨?_, (empty_members y _).1.trans h2, (empty_members y _).2.trans h3⟩
      show Fit _ (upd _ a [] a)
      rw [upd_same]; exact h1.empty _
    · show b ∈ (view T t.log).objs ↔ _
      by_cases hba : b = a
      · subst hba; simp [hta, St.put]
      · simp [hba]
  | read a =>
    simp only [careful, sane, steady, apart, Bool.and_eq_true, decide_eq_true_eq, and_true] at hc'
    obtain ⟨x, hx, hget⟩ := h.get hc' (.began (.read a))
    simp only [body, hget, Out.ok_bind]
    refine well_simple h trivial ?_ hc rfl rfl rfl rfl h.here h.fit h.alive h.held h.live h.idle
      (fun _ _ => ⟨[], (List.append_nil _).symm⟩) (fun _ x hx _ => ⟨x, hx, rfl⟩)
    show Ret.val x.value = .val _
    rw [(h.fit a x hx).2.2]
  | look o =>
    refine well_simple h trivial ?_ hc rfl rfl rfl rfl h.here h.fit h.alive h.held h.live h.idle
      (fun _ _ => ⟨[], (List.append_nil _).symm⟩) (fun _ x hx _ => ⟨x, hx, rfl⟩)
    show Ret.val (s.held o) = .val _
    rw [h.held]

theorem exec_ok (T : IntTy) (H : Handlers U) (n : Nat) : ExOk T (exec (careful T) T H n) := by
  induction n with
  | zero => intro s op _; exact trivial
  | succ n ih =>
    intro s op h
    simp only [exec, execStep]
    split
    · rename_i hc
      exact (body_good ih H h op hc).bind fun r hr => hr
    · exact trivial

theorem Reach.inv {H : Handlers U} {s : St U} (h : Reach (careful T) T H s) : Inv T s ∧ Tree T [] none s.log := by
  induction h with
  | new u => exact ⟨Inv.new u, .done _⟩
  | call s s' n op r _ hx ih =>
    have := exec_ok T H n s op ih.1
    rw [hx] at this
    obtain ⟨h1, -, new, h3, h4⟩ := this
    refine ⟨h1, ?_⟩
    rw [h3]
    exact ih.2.append rfl new (by simpa using h4)
  | user s u _ ih => exact ⟨ih.1.user u, ih.2⟩

end Verif.Values.World
