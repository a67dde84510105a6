import Verif.Values.WorldInv
import Verif.Observer.UnboundProps
/-! Properties C148 (lifetimes), C149 (who is told what) and C150 (what the objects hold) of many values and many observed objects. -/
namespace Verif.Values.World
open Verif Verif.Values
open Verif.Values.Re (Upd stored)
open Verif.Observer.World (Out upd upd_same upd_other Good Good.bind Good.mono)
open Verif.Observer.World.Unb (split_append Out.bind_eq_ok)

variable {U : Type} {T : IntTy}

/-! ### Tools -/

/-- A sequence of operations. -/
def script (rule : Rule) (T : IntTy) (H : Handlers U) (n : Nat) : List Op → St U → Out (St U)
  | [], s => .ok s
  | op :: ops, s => do
    let r ← exec rule T H n s op
    script rule T H n ops r.1

/-- The log at the end of a run. -/
def logOf (x : Out (St U)) : List Ev :=
  match x with
  | .ok s => s.log
  | _ => []

/-- Whether a run was undefined. -/
def isUb (x : Out (St U)) : Bool :=
  match x with
  | .ub => true
  | _ => false

theorem script_reach {rule : Rule} {H : Handlers U} {n : Nat} (ops : List Op) :
    ∀ {s s' : St U}, Reach rule T H s → script rule T H n ops s = .ok s' → Reach rule T H s' := by
  induction ops with
  | nil => intro s s' h hs; injection hs with hs; rw [← hs]; exact h
  | cons op ops ih =>
    intro s s' h hs
    obtain ⟨r, hx, hs⟩ := Out.bind_eq_ok hs
    exact ih (.call s r.1 n op r.2 h hx) hs

theorem view_append (T : IntTy) (l k : List Ev) : view T (l ++ k) = k.foldl (View.see T) (view T l) := by
  simp [view, List.foldl_append]

/-- The call concerns the observable `a`. -/
def Of (a : Nat) (ev : Nat → Ev) : Prop := (∃ v, ev = fun o => .told a o v) ∨ ev = fun o => .disc a o

theorem calls_of {w : View} {op : Op} {a : Nat} {ev : Nat → Ev} {r : Ret} (h : Calls T w op a ev r) : Of a ev := by
  rcases h with ⟨u, v, -, -, rfl, -⟩ | ⟨-, rfl, -⟩
  · exact .inl ⟨v, rfl⟩
  · exact .inr rfl

theorem Of.began {a : Nat} {ev : Nat → Ev} (h : Of a ev) (o : Nat) (op : Op) : ev o ≠ .began op := by
  rcases h with ⟨v, rfl⟩ | rfl <;> simp

theorem Of.ret {a : Nat} {ev : Nat → Ev} (h : Of a ev) (o : Nat) (op : Op) (r : Ret) : ev o ≠ .ret op r := by
  rcases h with ⟨v, rfl⟩ | rfl <;> simp

theorem calls_simple {w : View} {op : Op} {a : Nat} {ev : Nat → Ev} {r : Ret} (h : Calls T w op a ev r) : ¬ Simple op := by
  rcases h with ⟨u, v, rfl, -⟩ | ⟨rfl | rfl, -⟩ <;> exact id

/-- Every operation that visits observers ends, and is a round over those in the list when it began. -/
theorem Tree.rounds {pre new : List Ev} {w : Option ((Nat → Ev) × List Nat)} (h : Tree T pre w new)
    (hw : ∀ ev l, w = some (ev, l) → ∃ a, Of a ev) :
    ∀ p q op, new = p ++ .began op :: q → ¬ Simple op → ∃ a ev r inner rest, Calls T (view T (pre ++ p)) op a ev r ∧
      q = inner ++ .ret op r :: rest ∧
      Tree T (pre ++ p ++ [.began op]) (some (ev, (view T (pre ++ p)).reg a)) inner := by
  induction h with
  | done => intro p q op h; simp at h
  | stop => intro p q op h; simp at h
  | quick pre rest op' e hc _ _ ih =>
    intro p q op h hop
    rcases split_append (A := [Ev.began op', Ev.ret op' e]) h with ⟨q', h1, -⟩ | ⟨p', h1, h2⟩
    · cases p with
      | nil =>
        simp only [List.nil_append, List.cons.injEq, Ev.began.injEq] at h1
        exact absurd (h1.1 ▸ hc) hop
      | cons x p =>
        cases p with
        | nil => simp at h1
        | cons y p => simp at h1
    · obtain ⟨a, ev, r, inner, rest', h3, h4, h5⟩ := ih (by intro ev l h; cases h) p' q op h2 hop
      refine ⟨a, ev, r, inner, rest', ?_, h4, ?_⟩
      · rw [h1]; simpa using h3
      · rw [h1]; simpa using h5
  | round pre inner rest op' a' ev' r' hc hi _ ih1 ih2 =>
    intro p q op h hop
    cases p with
    | nil =>
      simp only [List.nil_append, List.cons_append, List.cons.injEq, Ev.began.injEq] at h
      obtain ⟨rfl, rfl⟩ := h
      exact ⟨a', ev', r', inner, rest, by simpa using hc, rfl, by simpa using hi⟩
    | cons x p =>
      simp only [List.cons_append, List.cons.injEq] at h
      obtain ⟨rfl, h⟩ := h
      rcases split_append h with ⟨q', h1, h2⟩ | ⟨p', h1, h2⟩
      · obtain ⟨a, ev, r, inner', rest', h3, h4, h5⟩ := ih1
          (by
            intro ev l hh
            simp only [Option.some.injEq, Prod.mk.injEq] at hh
            exact ⟨a', hh.1 ▸ calls_of hc⟩) p q' op h1 hop
        exact ⟨a, ev, r, inner', rest' ++ .ret op' r' :: rest, by simpa using h3, by rw [h2, h4]; simp, by simpa using h5⟩
      · cases p' with
        | nil => simp at h2
        | cons y p' =>
          simp only [List.cons_append, List.cons.injEq] at h2
          obtain ⟨rfl, h2⟩ := h2
          obtain ⟨a, ev, r, inner', rest', h3, h4, h5⟩ := ih2 (by intro ev l h; cases h) p' q op h2 hop
          exact ⟨a, ev, r, inner', rest', by rw [h1]; simpa using h3, h4, by rw [h1]; simpa using h5⟩
  | call pre inner rest ev' o l _ _ ih1 ih2 =>
    intro p q op h hop
    obtain ⟨c, hof⟩ := hw ev' _ rfl
    cases p with
    | nil =>
      simp only [List.nil_append, List.cons_append, List.cons.injEq] at h
      exact absurd h.1 (hof.began o op)
    | cons x p =>
      simp only [List.cons_append, List.cons.injEq] at h
      obtain ⟨rfl, h⟩ := h
      rcases split_append h with ⟨q', h1, h2⟩ | ⟨p', h1, h2⟩
      · obtain ⟨a, ev, r, inner', rest', h3, h4, h5⟩ := ih1 (by intro ev l h; cases h) p q' op h1 hop
        exact ⟨a, ev, r, inner', rest' ++ .leave o :: rest, by simpa using h3, by rw [h2, h4]; simp, by simpa using h5⟩
      · cases p' with
        | nil => simp at h2
        | cons y p' =>
          simp only [List.cons_append, List.cons.injEq] at h2
          obtain ⟨rfl, h2⟩ := h2
          obtain ⟨a, ev, r, inner', rest', h3, h4, h5⟩ := ih2
            (by
              intro ev l' hh
              simp only [Option.some.injEq, Prod.mk.injEq] at hh
              exact ⟨c, hh.1 ▸ hof⟩) p' q op h2 hop
          exact ⟨a, ev, r, inner', rest', by rw [h1]; simpa using h3, h4, by rw [h1]; simpa using h5⟩

/-- What operations report is right. -/
theorem Tree.right {pre new : List Ev} {w : Option ((Nat → Ev) × List Nat)} (h : Tree T pre w new) :
    (∀ ev l, w = some (ev, l) → ∃ a, Of a ev) →
    ∀ p q op r, new = p ++ .ret op r :: q → Simple op → Right (view T (pre ++ p)) op r := by
  induction h with
  | done => intro _ p q op r h; simp at h
  | stop => intro _ p q op r h; simp at h
  | quick pre rest op' e' hc hr _ ih =>
    intro _ p q op r h hs
    rcases split_append (A := [Ev.began op', Ev.ret op' e']) h with ⟨q', h1, -⟩ | ⟨p', h1, h2⟩
    · cases p with
      | nil => simp at h1
      | cons x p =>
        simp only [List.cons_append, List.cons.injEq] at h1
        obtain ⟨rfl, h1⟩ := h1
        cases p with
        | nil =>
          simp only [List.nil_append, List.cons.injEq, Ev.ret.injEq] at h1
          obtain ⟨⟨rfl, rfl⟩, -⟩ := h1
          rw [view_snoc, began_simple hc]; exact hr
        | cons y p => simp at h1
    · have := ih (by intro ev l h; cases h) p' q op r h2 hs
      rw [h1]; simpa using this
  | round pre inner rest op' a' ev' r' hc _ _ ih1 ih2 =>
    intro _ p q op r h hs
    cases p with
    | nil => simp at h
    | cons x p =>
      simp only [List.cons_append, List.cons.injEq] at h
      obtain ⟨rfl, h⟩ := h
      rcases split_append h with ⟨q', h1, h2⟩ | ⟨p', h1, h2⟩
      · have := ih1
          (by
            intro ev l hh
            simp only [Option.some.injEq, Prod.mk.injEq] at hh
            exact ⟨a', hh.1 ▸ calls_of hc⟩) p q' op r h1 hs
        simpa using this
      · cases p' with
        | nil =>
          simp only [List.nil_append, List.cons.injEq, Ev.ret.injEq] at h2
          obtain ⟨⟨rfl, rfl⟩, -⟩ := h2
          exact absurd hs (calls_simple hc)
        | cons y p' =>
          simp only [List.cons_append, List.cons.injEq] at h2
          obtain ⟨rfl, h2⟩ := h2
          have := ih2 (by intro ev l h; cases h) p' q op r h2 hs
          rw [h1]; simpa using this
  | call pre inner rest ev' o' l _ _ ih1 ih2 =>
    intro hw p q op r h hs
    obtain ⟨c, hof⟩ := hw ev' _ rfl
    cases p with
    | nil =>
      simp only [List.nil_append, List.cons_append, List.cons.injEq] at h
      exact absurd h.1 (hof.ret o' op r)
    | cons x p =>
      simp only [List.cons_append, List.cons.injEq] at h
      obtain ⟨rfl, h⟩ := h
      rcases split_append h with ⟨q', h1, h2⟩ | ⟨p', h1, h2⟩
      · have := ih1 (by intro ev l h; cases h) p q' op r h1 hs
        simpa using this
      · cases p' with
        | nil => simp at h2
        | cons y p' =>
          simp only [List.cons_append, List.cons.injEq] at h2
          obtain ⟨rfl, h2⟩ := h2
          have := ih2
            (by
              intro ev l' hh
              simp only [Option.some.injEq, Prod.mk.injEq] at hh
              exact ⟨c, hh.1 ▸ hof⟩) p' q op r h2 hs
          rw [h1]; simpa using this

/-! ### C148: no call on an object that does not exist -/

/-- The part of C148 that holds: a client that keeps to the rules `careful` (use only what exists; no signed overflow; while an observable visits
its observers, do not destroy or clear it, remove nobody from it and, if it has no capacity, add nobody to it; destroy an observed only when it
is in no list) meets nothing undefined, whatever the functions do within the rules, with any number of objects and any nesting. -/
theorem C148_safe_partial {H : Handlers U} {s : St U} (h : Reach (careful T) T H s) (n : Nat) (op : Op) :
    exec (careful T) T H n s op ≠ .ub := by
  intro hx
  have := exec_ok T H n s op h.inv.1
  rw [hx] at this
  exact this

/-- Every call of such a client runs on an observed that exists and is in the list at that moment, on behalf of an observable that exists. -/
theorem C148_alive_partial {H : Handlers U} {s : St U} (h : Reach (careful T) T H s)
    (pre post : List Ev) (e : Ev) (hlog : s.log = pre ++ e :: post) (a o : Nat)
    (he : (∃ v, e = .told a o v) ∨ e = .disc a o) :
    a ∈ (view T pre).objs ∧ o ∈ (view T pre).alive ∧ o ∈ (view T pre).reg a := by
  have hok := h.inv.1.fine.at pre e post hlog
  rcases he with ⟨v, rfl⟩ | rfl
  · exact ⟨hok.1, hok.2.1, hok.2.2.1⟩
  · exact ⟨hok.1, hok.2.1, hok.2.2.1⟩

/-- Functions that return at once. -/
def Quiet (H : Handlers U) : Prop := (∀ u o v, ∃ w, H.update u o v = .ret w) ∧ ∀ u a o, ∃ w, H.disconnect u a o = .ret w

/-- The loop reaches an observed that does not exist. -/
theorem loop_dead {f : Nat → St U → Out (St U)} {dyn : Bool} {a g : Nat}
    (hf : ∀ o (s : St U), if o ∈ s.alive then ∃ t, f o s = .ok t ∧ t.objs = s.objs ∧ t.alive = s.alive else f o s = .ub)
    (left : Nat) : ∀ (i j : Nat) (s : St U) (x : Obj) (o : Nat),
    s.objs a = some x → x.stamp = g → i ≤ j → j < i + left → x.deref j = .ok o → o ∉ s.alive →
    loop f dyn a g i left s = .ub := by
  induction left with
  | zero => intro i j s x o _ _ h1 h2; omega
  | succ left ih =>
    intro i j s x o hx hg h1 h2 hj ho
    have hv : valid s a g = .ok x := by simp [valid, St.get, hx, hg]
    simp only [loop, hv, Out.ok_bind]
    cases hd : x.deref i with
    | ub => rfl
    | deep => unfold Obj.deref at hd; split at hd <;> cases hd
    | foul => unfold Obj.deref at hd; split at hd <;> cases hd
    | ok q =>
      simp only [Out.ok_bind]
      have hq := hf q s
      by_cases hal : q ∈ s.alive
      · rw [if_pos hal] at hq
        obtain ⟨t, ht, hto, hta⟩ := hq
        rw [ht, Out.ok_bind]
        have hij : i ≠ j := by
          intro hij
          subst hij
          rw [hj] at hd
          injection hd with hd
          exact ho (hd ▸ hal)
        exact ih (i + 1) j t x o (by rw [hto]; exact hx) hg (by omega) (by omega) hj (by rw [hta]; exact ho)
      · rw [if_neg hal] at hq
        rw [hq]; rfl

/-- The rule "in no list" is needed for every client: destroying an observed that is in the list of `a` and whose function is not running makes
the next update of `a`, `clear_observers` and the destruction of `a` undefined (functions that return at once). -/
theorem C148_registered_ub {H : Handlers U} (hH : Quiet H) {s : St U} (h : Reach (careful T) T H s) (a o : Nat)
    (ha : a ∈ (view T s.log).objs) (ho : o ∈ (view T s.log).reg a) (hb : s.busy o = 0) (n m : Nat) (op : Op)
    (hop : op = .destroy a ∨ op = .clear a ∨ ∃ u, op = .upd a u ∧ resultOut T ((view T s.log).val a) u ≠ .ub) :
    ∃ s', exec (sane T) T H (n + 1) s (.die o) = .ok (s', .unit) ∧ exec (sane T) T H (m + 1) s' op = .ub := by
  have hi := h.inv.1
  obtain ⟨x, hx⟩ := (hi.here a).2 ha
  obtain ⟨hfit, hmax, hval⟩ := hi.fit a x hx
  have hal : o ∈ (view T s.log).alive := hi.alive ▸ hi.live a ha o ho
  have hs : sane T (view T s.log) (.die o) = true := by simpa [sane] using hal
  have hb' : ¬ 0 < (s.emit (.began (.die o))).busy o := by show ¬ 0 < s.busy o; omega
  refine ⟨St.emit { (s.emit (.began (.die o))) with
      alive := (s.emit (.began (.die o))).alive.filter (· != o) } (.ret (.die o) .unit),
    by simp only [exec, execStep, hs, if_true, body, if_neg hb', Out.ok_bind], ?_⟩
  obtain ⟨j, hj, hjo⟩ := List.getElem_of_mem ho
  have hd : x.deref j = .ok o := by rw [hfit.deref j hj, hjo]
  generalize ht : St.emit { (s.emit (.began (.die o))) with
      alive := (s.emit (.began (.die o))).alive.filter (· != o) } (.ret (.die o) .unit) = t
  have hto : t.objs a = some x := by rw [← ht]; exact hx
  have hta : o ∉ t.alive := by
    rw [← ht]
    exact fun h' => absurd (List.mem_filter.1 h').2 (by simp)
  have hmem : a ∈ (view T t.log).objs ∧ (view T t.log).val a = (view T s.log).val a := by
    rw [← ht]
    show a ∈ (view T (s.log ++ [.began (.die o)] ++ [.ret (.die o) .unit])).objs ∧
      (view T (s.log ++ [.began (.die o)] ++ [.ret (.die o) .unit])).val a = _
    rw [view_snoc, view_snoc]; exact ⟨ha, rfl⟩
  have hget : ∀ e, (t.emit e).get a = .ok x := by intro e; simp [St.get, St.emit, hto]
  have hpart : ∀ (ex : Ex U) q (s : St U), if q ∈ s.alive then ∃ t, part ex H a q s = .ok t ∧ t.objs = s.objs ∧ t.alive = s.alive
      else part ex H a q s = .ub := by
    intro ex q s
    by_cases hq : q ∈ s.alive
    · rw [if_pos hq]
      obtain ⟨w, hw⟩ := hH.2 s.user a q
      refine ⟨_, by simp only [part, if_pos hq, hw, runProg, Out.ok_bind]; rfl, ?_, ?_⟩ <;> rfl
    · rw [if_neg hq, part, if_neg hq]
  have htell : ∀ (ex : Ex U) v q (s : St U), if q ∈ s.alive then ∃ t, tell ex H a v q s = .ok t ∧ t.objs = s.objs ∧ t.alive = s.alive
      else tell ex H a v q s = .ub := by
    intro ex v q s
    by_cases hq : q ∈ s.alive
    · rw [if_pos hq]
      obtain ⟨w, hw⟩ := hH.1 s.user q v
      refine ⟨_, by simp only [tell, if_pos hq, hw, runProg, Out.ok_bind]; rfl, ?_, ?_⟩ <;> rfl
    · rw [if_neg hq, tell, if_neg hq]
  have hsane : sane T (view T t.log) op = true := by
    rcases hop with rfl | rfl | ⟨u, rfl, hu⟩
    · simpa [sane] using hmem.1
    · simpa [sane] using hmem.1
    · simp only [sane, decide_eq_true_eq]; exact ⟨hmem.1, by rw [hmem.2]; exact hu⟩
  rcases hop with rfl | rfl | ⟨u, rfl, hu⟩
  · simp only [exec, execStep, hsane, if_true, body, clearObs, hget, Out.ok_bind]
    rw [loop_dead (hpart _) x.count 0 j (t.emit (.began (.destroy a))) x o hto rfl (Nat.zero_le _)
      (by rw [hfit.count]; omega) hd hta]
    rfl
  · simp only [exec, execStep, hsane, if_true, body, clearObs, hget, Out.ok_bind]
    rw [loop_dead (hpart _) x.count 0 j (t.emit (.began (.clear a))) x o hto rfl (Nat.zero_le _)
      (by rw [hfit.count]; omega) hd hta]
    rfl
  · obtain ⟨v, hv⟩ := resultOut_ok hu
    have hv' : resultOut T x.value u = .ok v := by rw [hval]; simp [resultOut, hv]
    have hcap : ¬ (x.max ≠ 0 ∧ x.count > x.max) := by
      rintro ⟨hm, hgt⟩
      have := hfit.cap hm
      rw [hfit.count] at hgt
      omega
    simp only [exec, execStep, hsane, if_true, body, update, hget, hv', Out.ok_bind, if_neg hcap]
    rw [loop_dead (htell _ v) x.count 0 j ((t.emit (.began (.upd a u))).put a { x with value := stored T x.value u })
      { x with value := stored T x.value u } o (by simp [St.put]) rfl (Nat.zero_le _) (by rw [hfit.count]; omega) hd hta]
    rfl

/-! ### C149: who is told what -/

/-- Careful clients: every update of `a`, however deep in the functions, ends; meanwhile it calls those who were in the list when it began, once for each
entry, in order, with the value that it returns, which is the one of the operator for the value of `a` at that moment.  `C149_parts` says what `Tree` says of this. -/
theorem C149_updates_partial {H : Handlers U} {s : St U} (h : Reach (careful T) T H s) (pre post : List Ev) (a : Nat) (u : Upd)
    (hlog : s.log = pre ++ .began (.upd a u) :: post) :
    ∃ v inner rest, Re.result T ((view T pre).val a) u = .ok v ∧ post = inner ++ .ret (.upd a u) (.val v) :: rest ∧
      Tree T (pre ++ [.began (.upd a u)]) (some (fun o => .told a o v, (view T pre).reg a)) inner := by
  obtain ⟨b, ev, r, inner, rest, hc, h1, h2⟩ := h.inv.2.rounds (by intro ev l h; cases h) pre post _ hlog (fun hs => hs)
  rcases hc with ⟨u', v, hu, hv, rfl, rfl⟩ | ⟨hq | hq, -⟩
  · simp only [Op.upd.injEq] at hu
    obtain ⟨rfl, rfl⟩ := hu
    exact ⟨v, inner, rest, by simpa using hv, h1, by simpa using h2⟩
  · cases hq
  · cases hq

/-- The same for `clear_observers` and the destructor, which call `disconnect`. -/
theorem C149_ends_partial {H : Handlers U} {s : St U} (h : Reach (careful T) T H s) (pre post : List Ev) (a : Nat) (op : Op)
    (hop : op = .clear a ∨ op = .destroy a) (hlog : s.log = pre ++ .began op :: post) :
    ∃ inner rest, post = inner ++ .ret op .unit :: rest ∧
      Tree T (pre ++ [.began op]) (some (fun o => .disc a o, (view T pre).reg a)) inner := by
  obtain ⟨b, ev, r, inner, rest, hc, h1, h2⟩ := h.inv.2.rounds (by intro ev l h; cases h) pre post op hlog
    (by rcases hop with rfl | rfl <;> exact id)
  rcases hc with ⟨u', v, hu, -⟩ | ⟨hq, rfl, rfl⟩
  · rcases hop with rfl | rfl <;> cases hu
  · have hab : a = b := by
      rcases hop with rfl | rfl <;> rcases hq with hq | hq <;> cases hq <;> rfl
    subst hab
    exact ⟨inner, rest, h1, by simpa using h2⟩

/-- What a round is, without `Tree`: there is a part of it for every entry, in order, that starts with its call and ends with the end of
that call. -/
theorem C149_parts {pre inner : List Ev} {w : Option ((Nat → Ev) × List Nat)} (h : Tree T pre w inner) :
    ∀ ev l, w = some (ev, l) → ∃ parts : List (List Ev), parts.length = l.length ∧ inner = parts.flatten ∧
      ∀ i (h : i < l.length), ∃ k, parts[i]? = some (ev l[i] :: k ++ [.leave l[i]]) := by
  induction h with
  | done => intro ev l h; cases h
  | quick => intro ev l h; cases h
  | round => intro ev l h; cases h
  | stop pre ev =>
    intro ev' l h
    simp only [Option.some.injEq, Prod.mk.injEq] at h
    obtain ⟨rfl, rfl⟩ := h
    exact ⟨[], rfl, rfl, fun i h => by simp at h⟩
  | call pre inner rest ev o l _ _ _ ih =>
    intro ev' l' h
    simp only [Option.some.injEq, Prod.mk.injEq] at h
    obtain ⟨rfl, rfl⟩ := h
    obtain ⟨parts, h1, h2, h3⟩ := ih ev l rfl
    refine ⟨(ev o :: inner ++ [.leave o]) :: parts, by simp [h1], by simp [h2], fun i hi => ?_⟩
    cases i with
    | zero => exact ⟨inner, by simp⟩
    | succ i =>
      obtain ⟨k, hk⟩ := h3 i (by simpa using hi)
      exact ⟨k, by simpa using hk⟩

/-- Careful clients: what the other functions return. -/
theorem C149_reports_partial {H : Handlers U} {s : St U} (h : Reach (careful T) T H s) (pre post : List Ev) (op : Op) (r : Ret)
    (hlog : s.log = pre ++ .ret op r :: post) :
    (∀ a o, op = .add a o → r = .err (if (view T pre).max a ≠ 0 ∧ (view T pre).max a ≤ ((view T pre).reg a).length then .listIsFull
      else if o ∈ (view T pre).reg a then .alreadyContains else .ok)) ∧
    (∀ a o, op = .remove a o → r = .err (if o ∈ (view T pre).reg a then .ok else .notFound)) := by
  have hr := h.inv.2.right (by intro ev l h; cases h) pre post op r hlog
  constructor
  · rintro a o rfl
    have := hr trivial
    rw [List.nil_append] at this
    exact this
  · rintro a o rfl
    have := hr trivial
    rw [List.nil_append] at this
    exact this

theorem began_reg (w : View) (op : Op) : (w.see T (.began op)).reg = w.reg ∧ (w.see T (.began op)).max = w.max := by
  cases op <;> exact ⟨rfl, rfl⟩

/-- Nobody is in a list twice, and with a capacity there are no more than it allows, as long as nobody has been removed from an observable without a capacity. -/
theorem reg_nodup {log : List Ev} (h : ∀ p q op r, log = p ++ .ret op r :: q → Simple op → Right (view T p) op r) (a : Nat) :
    ∀ p q, log = p ++ q →
      (∀ p1 p2 o, p = p1 ++ .ret (.remove a o) (.err .ok) :: p2 → (view T p1).max a ≠ 0) → ((view T p).reg a).Nodup := by
  intro p
  induction hn : p.length generalizing p with
  | zero => intro q _ _; rw [List.length_eq_zero_iff.1 hn]; exact List.nodup_nil
  | succ n ihn =>
    intro q hq hrem
    rcases List.eq_nil_or_concat p with hp | ⟨p', e, hp⟩
    · rw [hp] at hn; simp at hn
    · rw [List.concat_eq_append] at hp
      subst hp
      have hlen : p'.length = n := by simpa using hn
      have hq' : log = p' ++ e :: q := by rw [hq]; simp
      have ih := ihn p' hlen (e :: q) hq' fun p1 p2 o hp => hrem p1 (p2 ++ [e]) o (by rw [hp]; simp)
      rw [view_snoc]
      have hupd : ∀ c (r : List Nat), (a = c → r.Nodup) → (upd (view T p').reg c r a).Nodup := by
        intro c r hr
        by_cases hac : a = c
        · subst hac; rw [upd_same]; exact hr rfl
        · rw [upd_other _ _ hac]; exact ih
      cases e with
      | told => exact ih
      | disc => exact ih
      | leave => exact ih
      | began op => rw [(began_reg _ _).1]; exact ih
      | ret op r =>
        cases op with
        | make c m => exact hupd c [] fun _ => List.nodup_nil
        | destroy c => exact hupd c [] fun _ => List.nodup_nil
        | clear c => exact hupd c [] fun _ => List.nodup_nil
        | born => exact ih
        | die => exact ih
        | read => exact ih
        | look => exact ih
        | upd c v => exact ih
        | remove c o =>
          cases r with
          | val => exact ih
          | unit => exact ih
          | err e =>
            cases e
            case ok =>
              refine hupd c _ fun hac => ?_
              subst hac
              have hm := hrem p' [] o rfl
              have : ((view T p').max a == 0) = false := by simpa using hm
              simp only [View.without, this, Bool.false_eq_true, if_false, List.append_nil]
              exact ih.sublist List.filter_sublist
            all_goals exact ih
        | add c o =>
          cases r with
          | val => exact ih
          | unit => exact ih
          | err e =>
            cases e
            case ok =>
              refine hupd c _ fun hac => ?_
              subst hac
              have hok := h p' q _ _ hq' trivial
              have ho : o ∉ (view T p').reg a := by
                intro hm
                simp only [Right, addErr, if_pos hm, Ret.err.injEq] at hok
                split at hok <;> cases hok
              rw [List.nodup_append]
              refine ⟨ih, by simp, ?_⟩
              intro x hx y hy hxy
              rw [List.mem_singleton.1 hy] at hxy
              exact ho (hxy ▸ hx)
            all_goals exact ih

/-- Careful clients: nobody is told twice in one update, if nobody has been removed from the observable or it has a capacity. -/
theorem C149_once_partial {H : Handlers U} {s : St U} (h : Reach (careful T) T H s) (pre post : List Ev) (a : Nat)
    (hlog : s.log = pre ++ post)
    (hrem : ∀ p q o, pre = p ++ .ret (.remove a o) (.err .ok) :: q → (view T p).max a ≠ 0) : ((view T pre).reg a).Nodup :=
  reg_nodup (fun p q op r hl hs => by
    have := h.inv.2.right (by intro ev l h; cases h) p q op r hl hs
    simpa using this) a pre post hlog hrem

/-- Who is out stays out. -/
theorem out_stays {a o : Nat} (k : List Ev) : ∀ w : View, o ∉ w.reg a → .ret (.add a o) (.err .ok) ∉ k →
    o ∉ (k.foldl (View.see T) w).reg a := by
  induction k with
  | nil => intro w h _; exact h
  | cons x k ih =>
    intro w h h1
    rw [List.foldl_cons]
    refine ih _ ?_ (fun hm => h1 (List.mem_cons_of_mem _ hm))
    have hupd : ∀ c (r : List Nat), (a = c → o ∉ r) → o ∉ upd w.reg c r a := by
      intro c r hr
      by_cases hac : a = c
      · subst hac; rw [upd_same]; exact hr rfl
      · rw [upd_other _ _ hac]; exact h
    cases x with
    | told => exact h
    | disc => exact h
    | leave => exact h
    | began op => rw [(began_reg _ _).1]; exact h
    | ret op r =>
      cases op with
      | make c m => exact hupd c [] (by simp)
      | destroy c => exact hupd c [] (by simp)
      | clear c => exact hupd c [] (by simp)
      | born => exact h
      | die => exact h
      | read => exact h
      | look => exact h
      | upd c v => exact h
      | remove c p =>
        cases r with
        | val => exact h
        | unit => exact h
        | err e =>
          cases e
          case ok =>
            refine hupd c _ fun hac hm => ?_
            subst hac
            unfold View.without at hm
            rcases List.mem_append.1 hm with hm | hm
            · exact h (List.mem_filter.1 hm).1
            · split at hm
              · exact h (List.mem_of_mem_drop hm)
              · simp at hm
          all_goals exact h
      | add c p =>
        cases r with
        | val => exact h
        | unit => exact h
        | err e =>
          cases e
          case ok =>
            refine hupd c _ fun hac hm => ?_
            subst hac
            rcases List.mem_append.1 hm with hm | hm
            · exact h hm
            · exact h1 (by rw [List.mem_singleton.1 hm]; exact List.mem_cons_self)
          all_goals exact h

/-- Careful clients: whoever is told or disconnected by `a` has been added to `a` before. -/
theorem C149_added_partial {H : Handlers U} {s : St U} (h : Reach (careful T) T H s)
    (pre post : List Ev) (e : Ev) (a o : Nat) (he : (∃ v, e = .told a o v) ∨ e = .disc a o)
    (hlog : s.log = pre ++ e :: post) : .ret (.add a o) (.err .ok) ∈ pre := by
  refine Classical.byContradiction fun hno => ?_
  exact out_stays (T := T) (a := a) (o := o) pre View.new (by simp [View.new]) hno (C148_alive_partial h pre post e hlog a o he).2.2

/-- Careful clients: after `remove_observer` of an observable with a capacity, after `clear_observers` and in a new observable, an observed is not
called until it is added again. -/
theorem C149_removed_partial {H : Handlers U} {s : St U} (h : Reach (careful T) T H s)
    (pre mid post : List Ev) (e e' : Ev) (a o : Nat)
    (hout : (e = .ret (.remove a o) (.err .ok) ∧ (view T pre).max a ≠ 0) ∨ e = .ret (.remove a o) (.err .notFound) ∨
      e = .ret (.clear a) .unit ∨ ∃ m, e = .ret (.make a m) .unit)
    (hlog : s.log = pre ++ e :: mid ++ e' :: post) (hadd : .ret (.add a o) (.err .ok) ∉ mid) :
    (∀ v, e' ≠ .told a o v) ∧ e' ≠ .disc a o := by
  have h0 : o ∉ (view T (pre ++ [e])).reg a := by
    rw [view_snoc]
    rcases hout with ⟨rfl, hm⟩ | rfl | rfl | ⟨m, rfl⟩
    · have : ((view T pre).max a == 0) = false := by simpa using hm
      simp [View.see, View.ended, View.without, hm]
    · have := h.inv.2.right (by intro ev l h; cases h) pre (mid ++ e' :: post) (.remove a o) (.err .notFound) (by rw [hlog]; simp) trivial
      intro hm
      have hm' : o ∈ (view T pre).reg a := hm
      simp [Right, hm'] at this
    · simp [View.see, View.ended]
    · simp [View.see, View.ended]
  have h1 : o ∉ (view T (pre ++ e :: mid)).reg a := by
    rw [show pre ++ e :: mid = pre ++ [e] ++ mid by simp, view_append]
    exact out_stays mid _ h0 hadd
  constructor
  · intro v he
    exact h1 (C148_alive_partial h _ post e' hlog a o (.inl ⟨v, he⟩)).2.2
  · intro he
    exact h1 (C148_alive_partial h _ post e' hlog a o (.inr he)).2.2

/-! ### C150: what the objects hold -/

/-- The value of an observed changes only when it is told something or constructed. -/
theorem held_stays {o : Nat} (k : List Ev) : ∀ w : View, (∀ a v, .told a o v ∉ k) → (∀ r, .ret (.born o) r ∉ k) →
    (k.foldl (View.see T) w).held o = w.held o := by
  induction k with
  | nil => intro w _ _; rfl
  | cons x k ih =>
    intro w h1 h2
    rw [List.foldl_cons, ih _ (fun a v hm => h1 a v (List.mem_cons_of_mem _ hm)) (fun r hm => h2 r (List.mem_cons_of_mem _ hm))]
    cases x with
    | told a q v =>
      have hq : o ≠ q := fun hq => h1 a v (hq ▸ List.mem_cons_self)
      exact upd_other _ _ hq
    | disc => rfl
    | leave => rfl
    | began op => cases op <;> rfl
    | ret op r =>
      cases op with
      | born q =>
        have hq : o ≠ q := fun hq => h2 r (hq ▸ List.mem_cons_self)
        exact upd_other _ _ hq
      | add c p => cases r <;> first | rfl | (rename_i e; cases e <;> rfl)
      | remove c p => cases r <;> first | rfl | (rename_i e; cases e <;> rfl)
      | _ => rfl

/-- Careful clients: `observed::value()` returns what the object was last told, or zero if it has not been told anything. -/
theorem C150_look_partial {H : Handlers U} {s : St U} (h : Reach (careful T) T H s) (pre mid post : List Ev) (e : Ev) (o : Nat) (v : Int) (r : Ret)
    (he : (∃ a, e = .told a o v) ∨ ((∃ q, e = .ret (.born o) q) ∧ v = 0))
    (hlog : s.log = pre ++ e :: mid ++ .ret (.look o) r :: post)
    (h1 : ∀ a v', .told a o v' ∉ mid) (h2 : ∀ q, .ret (.born o) q ∉ mid) : r = .val v := by
  have hr := h.inv.2.right (by intro ev l h; cases h) (pre ++ e :: mid) post (.look o) r hlog trivial
  rw [List.nil_append, show pre ++ e :: mid = pre ++ [e] ++ mid by simp, view_append] at hr
  have hh := held_stays (T := T) mid (view T (pre ++ [e])) h1 h2
  simp only [Right, hh] at hr
  rw [hr, view_snoc]
  rcases he with ⟨a, rfl⟩ | ⟨⟨q, rfl⟩, rfl⟩ <;> simp [View.see, View.ended]

/-- The value of an observable changes only at the beginning of an update and when it is constructed. -/
theorem val_stays {a : Nat} (k : List Ev) : ∀ w : View, (∀ u, .began (.upd a u) ∉ k) → (∀ m r, .ret (.make a m) r ∉ k) →
    (k.foldl (View.see T) w).val a = w.val a := by
  induction k with
  | nil => intro w _ _; rfl
  | cons x k ih =>
    intro w h1 h2
    rw [List.foldl_cons, ih _ (fun u hm => h1 u (List.mem_cons_of_mem _ hm)) (fun m r hm => h2 m r (List.mem_cons_of_mem _ hm))]
    cases x with
    | told a q v => rfl
    | disc => rfl
    | leave => rfl
    | began op =>
      cases op with
      | upd b u =>
        have hq : a ≠ b := fun hq => h1 u (hq ▸ List.mem_cons_self)
        exact upd_other _ _ hq
      | _ => rfl
    | ret op r =>
      cases op with
      | make b m =>
        have hq : a ≠ b := fun hq => h2 m r (hq ▸ List.mem_cons_self)
        exact upd_other _ _ hq
      | add c p => cases r <;> first | rfl | (rename_i e; cases e <;> rfl)
      | remove c p => cases r <;> first | rfl | (rename_i e; cases e <;> rfl)
      | _ => rfl

/-- Careful clients: `observable::value()` returns what the last update stored - already while it is telling the observers -, or zero if there was
none. -/
theorem C150_read_partial {H : Handlers U} {s : St U} (h : Reach (careful T) T H s) (pre mid post : List Ev) (e : Ev) (a : Nat) (v : Int) (r : Ret)
    (he : (∃ u, e = .began (.upd a u) ∧ v = stored T ((view T pre).val a) u) ∨ ((∃ m q, e = .ret (.make a m) q) ∧ v = 0))
    (hlog : s.log = pre ++ e :: mid ++ .ret (.read a) r :: post)
    (h1 : ∀ u, .began (.upd a u) ∉ mid) (h2 : ∀ m q, .ret (.make a m) q ∉ mid) : r = .val v := by
  have hr := h.inv.2.right (by intro ev l h; cases h) (pre ++ e :: mid) post (.read a) r hlog trivial
  rw [List.nil_append, show pre ++ e :: mid = pre ++ [e] ++ mid by simp, view_append] at hr
  have hh := val_stays (T := T) mid (view T (pre ++ [e])) h1 h2
  simp only [Right, hh] at hr
  rw [hr, view_snoc]
  rcases he with ⟨u, rfl, rfl⟩ | ⟨⟨m, q, rfl⟩, rfl⟩ <;> simp [View.see, View.ended, View.began]

/-- Careful clients: once `a = v` has returned `v`, whoever was in the list when it began holds `v` - unless it has been told something since. -/
theorem C150_current_partial {H : Handlers U} {s : St U} (h : Reach (careful T) T H s) (pre post : List Ev) (a o : Nat) (u : Upd)
    (hlog : s.log = pre ++ .began (.upd a u) :: post) (ho : o ∈ (view T pre).reg a) :
    ∃ v p q, post = p ++ .told a o v :: q ∧ Re.result T ((view T pre).val a) u = .ok v ∧ .ret (.upd a u) (.val v) ∈ q ∧
      ∀ mid r rest, q = mid ++ .ret (.look o) r :: rest → (∀ b v', .told b o v' ∉ mid) → (∀ x, .ret (.born o) x ∉ mid) → r = .val v := by
  obtain ⟨v, inner, rest, h1, h2, h3⟩ := C149_updates_partial h pre post a u hlog
  obtain ⟨parts, h4, h5, h6⟩ := C149_parts h3 _ _ rfl
  obtain ⟨i, hi, hio⟩ := List.getElem_of_mem ho
  obtain ⟨k, hk⟩ := h6 i hi
  rw [hio] at hk
  have hmem : Ev.told a o v ∈ inner := by
    rw [h5, List.mem_flatten]
    exact ⟨_, List.mem_of_getElem? hk, by simp⟩
  obtain ⟨p, q, hpq⟩ := List.append_of_mem hmem
  refine ⟨v, p, q ++ .ret (.upd a u) (.val v) :: rest, by rw [h2, hpq]; simp, h1, by simp, ?_⟩
  intro mid r rest' hm hn1 hn2
  refine C150_look_partial h (pre ++ .began (.upd a u) :: p) mid rest' (.told a o v) o v r (.inl ⟨a, rfl⟩) ?_ hn1 hn2
  have : q ++ Ev.ret (.upd a u) (.val v) :: rest = mid ++ .ret (.look o) r :: rest' := hm
  rw [hlog, h2, hpq]
  simp only [List.append_assoc, List.cons_append]
  rw [this]

/-! ### A chain of values -/

/-- Observed `o` sets observable `o + 1` to a function of what it is told, up to `n` (functions of observed.hpp:35-39). -/
def derive (f : Nat → Int → Int) (n : Nat) : Handlers Unit where
  update _ o v := if o < n then .call (.upd (o + 1) (.assign (f o v))) fun _ u => .ret u else .ret ()
  disconnect _ _ _ := .ret ()

/-- What arrives `m` places after `k` (no code). -/
def chain (f : Nat → Int → Int) (k : Nat) : Nat → Int → Int
  | 0, v => v
  | m + 1, v => chain f (k + 1) m (f k v)

theorem chain_step (f : Nat → Int → Int) (m : Nat) : ∀ (k : Nat) (v : Int), chain f k (m + 1) v = f (k + m) (chain f k m v) := by
  induction m with
  | zero => intro k v; rfl
  | succ m ih =>
    intro k v
    show chain f (k + 1) (m + 1) (f k v) = f (k + (m + 1)) (chain f (k + 1) m (f k v))
    rw [ih]; congr 1; omega

/-- The observables from `k` to `n` and their observers are there. -/
def Ready (T : IntTy) (s : St Unit) (k n : Nat) : Prop :=
  ∀ i, k ≤ i → i ≤ n → i ∈ (view T s.log).objs ∧ i ∈ s.alive ∧
    ∃ x, s.objs i = some x ∧ x.count = 1 ∧ x.deref 0 = .ok i ∧ (x.max ≠ 0 → 1 ≤ x.max)

theorem chain_exec (f : Nat → Int → Int) (n : Nat) : ∀ (m k : Nat) (v : Int) (s : St Unit), k + m = n → Ready T s k n →
    ∃ t, exec (careful T) T (derive f n) (m + 1) s (.upd k (.assign v)) = .ok (t, .val v) ∧
      (∀ j, j ≤ m → (view T t.log).val (k + j) = chain f k j v ∧ (view T t.log).held (k + j) = chain f k j v) ∧
      (∀ i, i < k → t.objs i = s.objs i ∧ (view T t.log).val i = (view T s.log).val i ∧ (view T t.log).held i = (view T s.log).held i) := by
  intro m
  induction m with
  | zero =>
    intro k v s hk hR
    obtain ⟨h1, h2, x, h3, h4, h5, h6⟩ := hR k (Nat.le_refl _) (by omega)
    have hrule : careful T (view T s.log) (.upd k (.assign v)) = true := by
      simp [careful, sane, steady, apart, h1, resultOut, Re.result]
    have hcap : ¬ (x.max ≠ 0 ∧ x.count > x.max) := fun ⟨hm, hgt⟩ => by have := h6 hm; omega
    have hd : ({ x with value := v } : Obj).deref 0 = .ok k := h5
    have hnk : ¬ k < n := by omega
    generalize hs1 : (s.emit (.began (.upd k (.assign v)))).put k { x with value := v } = s1
    have hs1o : s1.objs k = some { x with value := v } := by rw [← hs1]; simp [St.put]
    have hs1a : k ∈ s1.alive := by rw [← hs1]; exact h2
    generalize hs2 : ({ s1 with held := upd s1.held k v, busy := upd s1.busy k (s1.busy k + 1) }.emit (.told k k v)) = s2
    generalize hs3 : ({ { s2 with user := () } with busy := upd s2.busy k (s2.busy k - 1) }.emit (.leave k)) = s3
    have htell : tell (exec (careful T) T (derive f n) 0) (derive f n) k v k s1 = .ok s3 := by
      simp only [tell, if_pos hs1a, derive, if_neg hnk, hs2, runProg, Out.ok_bind]
      rw [← hs3]
    have hs3o : s3.objs = s1.objs := by rw [← hs3, ← hs2]; rfl
    have hlog : s3.log = s.log ++ [.began (.upd k (.assign v)), .told k k v, .leave k] := by
      rw [← hs3, ← hs2, ← hs1]; simp [St.emit, St.put]
    have hloop : loop (tell (exec (careful T) T (derive f n) 0) (derive f n) k v) (x.max == 0) k x.stamp 0 x.count s1 = .ok s3 := by
      rw [h4]
      have hv : ∀ t : St Unit, t.objs = s1.objs → valid t k x.stamp = .ok { x with value := v } := by
        intro t ht; simp [valid, St.get, ht, hs1o]
      simp only [loop, hv s1 rfl, Out.ok_bind, hd, htell]
      split
      · rw [hv s3 hs3o, Out.ok_bind]
      · rfl
    refine ⟨s3.emit (.ret (.upd k (.assign v)) (.val v)), ?_, ?_, ?_⟩
    · have hget : (s.emit (.began (.upd k (.assign v)))).get k = .ok x := by simp [St.get, St.emit, h3]
      rw [exec]
      simp only [execStep, hrule, if_true, body, update, hget, resultOut, Re.result, stored, Out.ok_bind, if_neg hcap, hs1]
      rw [hloop]; rfl
    · intro j hj
      have hj0 : j = 0 := by omega
      subst hj0
      rw [view_emit, hlog, view_append]
      simp [View.see, View.began, View.ended, chain, stored, upd_same]
    · intro i hi
      have hne : i ≠ k := by omega
      refine ⟨?_, ?_, ?_⟩
      · show s3.objs i = _
        rw [hs3o, ← hs1]
        exact upd_other _ _ hne
      · rw [view_emit, hlog, view_append]
        simp [View.see, View.began, View.ended, upd_other _ _ hne]
      · rw [view_emit, hlog, view_append]
        simp [View.see, View.began, View.ended, upd_other _ _ hne]
  | succ m ih =>
    intro k v s hk hR
    obtain ⟨h1, h2, x, h3, h4, h5, h6⟩ := hR k (Nat.le_refl _) (by omega)
    have hrule : careful T (view T s.log) (.upd k (.assign v)) = true := by
      simp [careful, sane, steady, apart, h1, resultOut, Re.result]
    have hcap : ¬ (x.max ≠ 0 ∧ x.count > x.max) := fun ⟨hm, hgt⟩ => by have := h6 hm; omega
    have hd : ({ x with value := v } : Obj).deref 0 = .ok k := h5
    have hnk : k < n := by omega
    generalize hs1 : (s.emit (.began (.upd k (.assign v)))).put k { x with value := v } = s1
    have hs1o : s1.objs k = some { x with value := v } := by rw [← hs1]; simp [St.put]
    have hs1a : k ∈ s1.alive := by rw [← hs1]; exact h2
    generalize hs2 : ({ s1 with held := upd s1.held k v, busy := upd s1.busy k (s1.busy k + 1) }.emit (.told k k v)) = s2
    have hlog : s2.log = s.log ++ [.began (.upd k (.assign v)), .told k k v] := by
      rw [← hs2, ← hs1]; simp [St.emit, St.put]
    have hR2 : Ready T s2 (k + 1) n := by
      intro i hi hin
      obtain ⟨g1, g2, y, g3, g4⟩ := hR i (by omega) hin
      have hne : i ≠ k := by omega
      refine ⟨?_, ?_, y, ?_, g4⟩
      · rw [hlog, view_append]; exact g1
      · rw [← hs2, ← hs1]; exact g2
      · rw [← hs2, ← hs1]
        show upd s.objs k _ i = some y
        rw [upd_other _ _ hne]; exact g3
    obtain ⟨t2, ht, hv2, hl2⟩ := ih (k + 1) (f k v) s2 (by omega) hR2
    generalize hs3 : ({ { t2 with user := t2.user } with busy := upd t2.busy k (t2.busy k - 1) }.emit (.leave k)) = s3
    have htell : tell (exec (careful T) T (derive f n) (m + 1)) (derive f n) k v k s1 = .ok s3 := by
      simp only [tell, if_pos hs1a, derive, if_pos hnk, hs2, runProg]
      have : exec (careful T) T (derive f n) (m + 1) s2 (.upd (k + 1) (.assign (f k v))) = .ok (t2, .val (f k v)) := ht
      simp only [derive] at this
      rw [this]
      simp only [Out.ok_bind]
      rw [← hs3]
    have hs3k : s3.objs k = s1.objs k := by
      have := (hl2 k (by omega)).1
      rw [← hs3]
      show t2.objs k = _
      rw [this, ← hs2]; rfl
    have hlog3 : s3.log = t2.log ++ [.leave k] := by rw [← hs3]; rfl
    have hloop : loop (tell (exec (careful T) T (derive f n) (m + 1)) (derive f n) k v) (x.max == 0) k x.stamp 0 x.count s1 = .ok s3 := by
      rw [h4]
      have hv : ∀ t : St Unit, t.objs k = s1.objs k → valid t k x.stamp = .ok { x with value := v } := by
        intro t ht; simp [valid, St.get, ht, hs1o]
      simp only [loop, hv s1 rfl, Out.ok_bind, hd, htell]
      split
      · rw [hv s3 hs3k, Out.ok_bind]
      · rfl
    have hview : ∀ i, (view T (s3.emit (.ret (.upd k (.assign v)) (.val v))).log).val i = (view T t2.log).val i ∧
        (view T (s3.emit (.ret (.upd k (.assign v)) (.val v))).log).held i = (view T t2.log).held i := by
      intro i
      rw [view_emit, hlog3, view_append]
      simp [View.see, View.ended]
    refine ⟨s3.emit (.ret (.upd k (.assign v)) (.val v)), ?_, ?_, ?_⟩
    · have hget : (s.emit (.began (.upd k (.assign v)))).get k = .ok x := by simp [St.get, St.emit, h3]
      rw [exec]
      simp only [execStep, hrule, if_true, body, update, hget, resultOut, Re.result, stored, Out.ok_bind, if_neg hcap, hs1]
      rw [hloop]; rfl
    · intro j hj
      rw [(hview _).1, (hview _).2]
      cases j with
      | zero =>
        obtain ⟨-, hb, hc⟩ := hl2 k (by omega)
        rw [show k + 0 = k from rfl, hb, hc, hlog, view_append]
        simp [View.see, View.began, chain, stored, upd_same]
      | succ j =>
        have := hv2 j (by omega)
        rw [show k + (j + 1) = k + 1 + j by omega]
        exact this
    · intro i hi
      have hne : i ≠ k := by omega
      obtain ⟨ha, hb, hc⟩ := hl2 i (by omega)
      rw [(hview i).1, (hview i).2, hb, hc, hlog, view_append]
      refine ⟨?_, ?_, ?_⟩
      · rw [← hs3]
        show t2.objs i = _
        rw [ha, ← hs2, ← hs1]
        exact upd_other _ _ hne
      · simp [View.see, View.began, upd_other _ _ hne]
      · simp [View.see, View.began, upd_other _ _ hne]

/-- A chain of any length: if each observable `i ≤ n` has just the observed `i` in its list, whose function sets observable `i + 1` to `f i` of
what it is told, then an assignment to the first returns, needs `n + 1` nested operations, and afterwards every observable and every observed of the
chain has the value that follows from it - after any history of a careful client, and for both kinds of observables. -/
theorem C150_chain_partial (f : Nat → Int → Int) (n : Nat) {s : St Unit} (h : Reach (careful T) T (derive f n) s)
    (hobj : ∀ i, i ≤ n → i ∈ (view T s.log).objs ∧ (view T s.log).reg i = [i]) (v : Int) :
    ∃ t, exec (careful T) T (derive f n) (n + 1) s (.upd 0 (.assign v)) = .ok (t, .val v) ∧
      (view T t.log).val 0 = v ∧ (view T t.log).held 0 = v ∧
      ∀ i, i < n → (view T t.log).val (i + 1) = f i ((view T t.log).val i) ∧ (view T t.log).held (i + 1) = f i ((view T t.log).held i) := by
  have hi := h.inv.1
  obtain ⟨t, ht, hv, -⟩ := chain_exec (T := T) f n n 0 v s (by omega) (fun i _ hin => by
    obtain ⟨h1, h2⟩ := hobj i hin
    obtain ⟨x, hx⟩ := (hi.here i).2 h1
    obtain ⟨hfit, hmax, hval⟩ := hi.fit i x hx
    rw [h2] at hfit
    refine ⟨h1, hi.live i h1 i (by rw [h2]; simp), x, hx, hfit.count, ?_, fun hm => ?_⟩
    · have := hfit.deref 0 (by simp)
      simpa using this
    · have := hfit.cap hm
      simpa using this)
  refine ⟨t, ht, (hv 0 (by omega)).1, (hv 0 (by omega)).2, fun i hi => ?_⟩
  have a := hv i (by omega)
  have b := hv (i + 1) (by omega)
  rw [chain_step] at b
  simp only [Nat.zero_add] at a b
  rw [a.1, a.2]
  exact b

/-! ### Runs -/

/-- Functions that do nothing. -/
def still : Handlers Unit := ⟨fun _ _ _ => .ret (), fun _ _ _ => .ret ()⟩
/-- Whose functions do one thing. -/
def doing (op : Nat → Option Op) : Handlers Unit :=
  ⟨fun _ o _ => match op o with
    | some p => .call p fun _ u => .ret u
    | none => .ret (), fun _ _ _ => .ret ()⟩

/-- Observed 10, 11 and 12 in the list of 1. -/
def three (m : Nat) : List Op := [.born 10, .born 11, .born 12, .make 1 m, .add 1 10, .add 1 11, .add 1 12]

theorem still_quiet : Quiet still := ⟨fun _ _ _ => ⟨(), rfl⟩, fun _ _ _ => ⟨(), rfl⟩⟩

/-- Each of the rules is needed.  An observed that has been removed from an observable without a capacity is still called. -/
theorem C148_remove_refuted :
    isUb (script (sane IntTy.int) IntTy.int still 5 (three 0 ++ [.remove 1 12, .die 12, .upd 1 (.assign 5)]) (St.new ())) = true ∧
    isUb (script (sane IntTy.int) IntTy.int still 5 (three 5 ++ [.remove 1 12, .die 12, .upd 1 (.assign 5)]) (St.new ())) = false := by
  decide +kernel

/-- A function adds to the vector, removes and destroys the next one, destroys the observable, or destroys its own observed. -/
theorem C148_changed_refuted :
    isUb (script (sane IntTy.int) IntTy.int (doing fun o => if o = 10 then some (.add 1 13) else none) 5
      (three 0 ++ [.born 13, .upd 1 (.assign 5)]) (St.new ())) = true ∧
    isUb (script (sane IntTy.int) IntTy.int (doing fun o => if o = 10 then some (.die 11) else none) 5
      (three 5 ++ [.upd 1 (.assign 5)]) (St.new ())) = true ∧
    isUb (script (sane IntTy.int) IntTy.int (doing fun o => if o = 10 then some (.destroy 1) else none) 5
      (three 5 ++ [.upd 1 (.assign 5)]) (St.new ())) = true ∧
    isUb (script (sane IntTy.int) IntTy.int (doing fun o => if o = 12 then some (.destroy 1) else none) 5
      (three 0 ++ [.upd 1 (.assign 5)]) (St.new ())) = true ∧
    isUb (script (sane IntTy.int) IntTy.int (doing fun o => if o = 12 then some (.die 12) else none) 5
      (three 5 ++ [.upd 1 (.assign 5)]) (St.new ())) = true := by
  decide +kernel

/-- With a capacity a function may add: the new one is told from the next update on. -/
example :
    let log := logOf (script (careful IntTy.int) IntTy.int (doing fun o => if o = 10 then some (.add 1 13) else none) 5
      (three 5 ++ [.born 13, .upd 1 (.assign 5), .upd 1 (.assign 6)]) (St.new ()))
    Ev.told 1 13 5 ∉ log ∧ Ev.told 1 13 6 ∈ log := by
  decide +kernel

/-- Removal from within a function of an observable with a capacity: the loop still makes three calls; 11 is left out and 12 gets two of them. -/
theorem C149_skip_refuted :
    (logOf (script (sane IntTy.int) IntTy.int (doing fun o => if o = 10 then some (.remove 1 10) else none) 5
      (three 5 ++ [.upd 1 (.assign 5)]) (St.new ()))).drop 14 =
      [.began (.upd 1 (.assign 5)), .told 1 10 5, .began (.remove 1 10), .ret (.remove 1 10) (.err .ok), .leave 10,
        .told 1 12 5, .leave 12, .told 1 12 5, .leave 12, .ret (.upd 1 (.assign 5)) (.val 5)] := by
  decide +kernel

/-- Removal from an observable without a capacity, not even during an update: 12 is told twice after 10 has been removed, and still told after it has
been removed itself. -/
theorem C149_twice_refuted :
    (logOf (script (careful IntTy.int) IntTy.int still 5 (three 0 ++ [.remove 1 10, .upd 1 (.assign 5), .remove 1 12, .upd 1 (.assign 6)])
      (St.new ()))).drop 16 =
      [.began (.upd 1 (.assign 5)), .told 1 11 5, .leave 11, .told 1 12 5, .leave 12, .told 1 12 5, .leave 12,
        .ret (.upd 1 (.assign 5)) (.val 5), .began (.remove 1 12), .ret (.remove 1 12) (.err .ok),
        .began (.upd 1 (.assign 6)), .told 1 11 6, .leave 11, .told 1 12 6, .leave 12, .told 1 12 6, .leave 12,
        .ret (.upd 1 (.assign 6)) (.val 6)] := by
  decide +kernel

/-- A function that updates the same observable: the inner round comes first, and 11 and 12 end with the old value, which the observable no
longer has. -/
theorem C150_stale_refuted :
    (logOf (script (careful IntTy.int) IntTy.int
      ⟨fun _ o v => if o = 10 ∧ v = 5 then .call (.upd 1 (.assign 6)) fun _ u => .ret u else .ret (), fun _ _ _ => .ret ()⟩ 5
      (three 5 ++ [.upd 1 (.assign 5), .read 1, .look 10, .look 12]) (St.new ()))).drop 14 =
      [.began (.upd 1 (.assign 5)), .told 1 10 5, .began (.upd 1 (.assign 6)), .told 1 10 6, .leave 10, .told 1 11 6, .leave 11,
        .told 1 12 6, .leave 12, .ret (.upd 1 (.assign 6)) (.val 6), .leave 10, .told 1 11 5, .leave 11, .told 1 12 5, .leave 12,
        .ret (.upd 1 (.assign 5)) (.val 5), .began (.read 1), .ret (.read 1) (.val 6), .began (.look 10), .ret (.look 10) (.val 6),
        .began (.look 12), .ret (.look 12) (.val 5)] := by
  decide +kernel

/-- A value that depends on another one is out of date for the observers before it: 11 keeps observable 2 equal to 1, but 10 comes first and reads
5 and 0. -/
theorem C150_order_refuted :
    (logOf (script (careful IntTy.int) IntTy.int
      ⟨fun _ o v => if o = 10 then .call (.read 1) fun _ _ => .call (.read 2) fun _ u => .ret u
        else if o = 11 then .call (.upd 2 (.assign v)) fun _ u => .ret u else .ret (), fun _ _ _ => .ret ()⟩ 5
      (three 5 ++ [.make 2 5, .upd 1 (.assign 5)]) (St.new ()))).drop 16 =
      [.began (.upd 1 (.assign 5)), .told 1 10 5, .began (.read 1), .ret (.read 1) (.val 5), .began (.read 2), .ret (.read 2) (.val 0),
        .leave 10, .told 1 11 5, .began (.upd 2 (.assign 5)), .ret (.upd 2 (.assign 5)) (.val 5), .leave 11, .told 1 12 5, .leave 12,
        .ret (.upd 1 (.assign 5)) (.val 5)] := by
  decide +kernel

/-- Functions that construct, register, remove from another observable and destroy within the rules: 10 is told by 1, makes 2 and 13, registers 13
with 2, updates 2 and destroys 2 again. -/
example :
    (logOf (script (careful IntTy.int) IntTy.int
      ⟨fun _ o v => if o = 10 then .call (.make 2 3) fun _ _ => .call (.born 13) fun _ _ => .call (.add 2 13) fun _ _ =>
        .call (.upd 2 (.assign (v + 1))) fun _ _ => .call (.destroy 2) fun _ _ => .call (.die 13) fun _ u => .ret u else .ret (),
        fun _ _ _ => .ret ()⟩ 5
      (three 5 ++ [.upd 1 (.addEq 7)]) (St.new ()))).drop 14 =
      [.began (.upd 1 (.addEq 7)), .told 1 10 7, .began (.make 2 3), .ret (.make 2 3) .unit, .began (.born 13), .ret (.born 13) .unit,
        .began (.add 2 13), .ret (.add 2 13) (.err .ok), .began (.upd 2 (.assign 8)), .told 2 13 8, .leave 13,
        .ret (.upd 2 (.assign 8)) (.val 8), .began (.destroy 2), .disc 2 13, .leave 13, .ret (.destroy 2) .unit, .began (.die 13),
        .ret (.die 13) .unit, .leave 10, .told 1 11 7, .leave 11, .told 1 12 7, .leave 12, .ret (.upd 1 (.addEq 7)) (.val 7)] := by
  decide +kernel

/-- A reachable state that meets the hypotheses of `C148_registered_ub`. -/
example : ∃ s : St Unit, Reach (careful IntTy.int) IntTy.int still s ∧ 1 ∈ (view IntTy.int s.log).objs ∧ 11 ∈ (view IntTy.int s.log).reg 1 ∧ s.busy 11 = 0 ∧
    resultOut IntTy.int ((view IntTy.int s.log).val 1) .preInc ≠ .ub := by
  have h : ∃ s : St Unit, script (careful IntTy.int) IntTy.int still 5 (three 5) (St.new ()) = .ok s := ⟨_, rfl⟩
  obtain ⟨s, hs⟩ := h
  have hb : s.busy 11 = 0 := by
    have h2 : ∀ x, script (careful IntTy.int) IntTy.int still 5 (three 5) (St.new ()) = .ok x → x.busy 11 = 0 := by
      intro x hx
      have : (match script (careful IntTy.int) IntTy.int still 5 (three 5) (St.new ()) with | .ok y => y.busy 11 | _ => 1) = 0 := by decide +kernel
      rw [hx] at this; exact this
    exact h2 s hs
  refine ⟨s, script_reach _ (.new ()) hs, ?_, ?_, hb, ?_⟩ <;>
    (have hl : s.log = logOf (script (careful IntTy.int) IntTy.int still 5 (three 5) (St.new ())) := by rw [hs]; rfl
     rw [hl]; decide +kernel)

/-- A run that meets the hypotheses of `C150_current_partial` and `C149_removed_partial`. -/
example : ∃ s : St Unit, Reach (careful IntTy.int) IntTy.int still s ∧ ∃ pre mid post,
    s.log = pre ++ .ret (.remove 1 10) (.err .ok) :: mid ++ .began (.upd 1 (.assign 5)) :: post ∧ (view IntTy.int pre).max 1 = 5 ∧
      .ret (.add 1 10) (.err .ok) ∉ mid ∧
      (view IntTy.int (pre ++ .ret (.remove 1 10) (.err .ok) :: mid)).reg 1 = [11, 12] ∧ Ev.ret (.look 12) (.val 5) ∈ post := by
  have h : ∃ s : St Unit, script (careful IntTy.int) IntTy.int still 5 (three 5 ++ [.remove 1 10, .upd 1 (.assign 5), .look 12]) (St.new ()) = .ok s :=
    ⟨_, rfl⟩
  obtain ⟨s, hs⟩ := h
  refine ⟨s, script_reach _ (.new ()) hs, ?_⟩
  have hl : s.log = logOf (script (careful IntTy.int) IntTy.int still 5 (three 5 ++ [.remove 1 10, .upd 1 (.assign 5), .look 12]) (St.new ())) := by
    rw [hs]; rfl
  refine ⟨s.log.take 15, [], [.told 1 11 5, .leave 11, .told 1 12 5, .leave 12, .ret (.upd 1 (.assign 5)) (.val 5), .began (.look 12),
    .ret (.look 12) (.val 5)], ?_, ?_, by simp, ?_, by simp⟩ <;> (rw [hl]; decide +kernel)

/-- A chain of length three over both kinds of observables that meets the hypotheses of `C150_chain_partial`. -/
example : ∃ s : St Unit, Reach (careful IntTy.int) IntTy.int (derive (fun i x => x * 2 + i) 2) s ∧
    ∀ i, i ≤ 2 → i ∈ (view IntTy.int s.log).objs ∧ (view IntTy.int s.log).reg i = [i] := by
  have h : ∃ s : St Unit, script (careful IntTy.int) IntTy.int (derive (fun i x => x * 2 + i) 2) 5
    [.make 0 3, .make 1 0, .make 2 1, .born 0, .born 1, .born 2, .add 0 0, .add 1 1, .add 2 2] (St.new ()) = .ok s := ⟨_, rfl⟩
  obtain ⟨s, hs⟩ := h
  refine ⟨s, script_reach _ (.new ()) hs, ?_⟩
  have hl : s.log = logOf (script (careful IntTy.int) IntTy.int (derive (fun i x => x * 2 + i) 2) 5
    [.make 0 3, .make 1 0, .make 2 1, .born 0, .born 1, .born 2, .add 0 0, .add 1 1, .add 2 2] (St.new ())) := by rw [hs]; rfl
  rw [hl]
  decide +kernel

end Verif.Values.World
