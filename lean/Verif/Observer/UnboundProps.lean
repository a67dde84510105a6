import Verif.Observer.UnboundSafe
/-! Properties C141 (lifetimes), C142 (rounds and reports) and C143 (copies) of observables without a capacity. -/
namespace Verif.Observer.World.Unb
open Verif Verif.Observer

variable {V U : Type}

/-! ### Tools -/

/-- A sequence of operations. -/
def script (rule : Rule V) (lock : Bool) (H : Handlers V U) (n : Nat) : List (Op V) → St V U → Out (St V U)
  | [], s => .ok s
  | op :: ops, s => do
    let r ← exec rule lock H n s op
    script rule lock H n ops r.1

/-- The log at the end of a run. -/
def logOf (x : Out (St V U)) : List (Ev V) :=
  match x with
  | .ok s => s.log
  | _ => []

theorem script_reach {rule : Rule V} {lock : Bool} {H : Handlers V U} {n : Nat} (ops : List (Op V)) :
    ∀ {s s' : St V U}, Reach rule lock H s → script rule lock H n ops s = .ok s' → Reach rule lock H s' := by
  induction ops with
  | nil => intro s s' h hs; injection hs with hs; rw [← hs]; exact h
  | cons op ops ih =>
    intro s s' h hs
    obtain ⟨r, hx, hs⟩ := Out.bind_eq_ok hs
    exact ih (.call s r.1 n op r.2 h hx) hs

theorem split_append {α : Type} {A B p q : List α} {x : α} (h : A ++ B = p ++ x :: q) :
    (∃ q', A = p ++ x :: q' ∧ q = q' ++ B) ∨ ∃ p', p = A ++ p' ∧ B = p' ++ x :: q := by
  rcases List.append_eq_append_iff.1 h with ⟨c, h1, h2⟩ | ⟨c, h1, h2⟩
  · exact .inr ⟨c, h1, h2⟩
  · cases c with
    | nil => exact .inr ⟨[], by simpa using h1.symm, by simpa using h2.symm⟩
    | cons y c =>
      simp only [List.cons_append, List.cons.injEq] at h2
      obtain ⟨rfl, rfl⟩ := h2
      exact .inl ⟨c, h1, rfl⟩

theorem view_append (l k : List (Ev V)) : view (l ++ k) = k.foldl View.see (view l) := by
  simp [view, List.foldl_append]

/-- Who is registered with `a` changes only if `a` is changed. -/
theorem reg_untouched {a : Nat} (k : List (Ev V)) : ∀ w : View, ¬ Touched a k → (k.foldl View.see w).reg a = w.reg a := by
  induction k with
  | nil => intro w _; rfl
  | cons e k ih =>
    intro w hn
    rw [List.foldl_cons, ih _ fun ⟨op, r, hm, hc⟩ => hn ⟨op, r, List.mem_cons_of_mem _ hm, hc⟩]
    cases e with
    | data => rfl
    | disc => rfl
    | leave => rfl
    | began op => rw [began_reg]
    | ret op r =>
      have hno : ¬ Changes a op r := fun hc => hn ⟨op, r, List.mem_cons_self, hc⟩
      cases op <;> first
        | rfl
        | (simp only [Changes] at hno; exact upd_other _ _ (Ne.symm hno))
        | (cases r <;> first
            | rfl
            | (simp only [Changes] at hno; exact upd_other _ _ (Ne.symm hno)))

/-- Every operation that calls observers ends, and is a round over those registered when it began. -/
theorem Tree.rounds {pre new : List (Ev V)} {w : Option ((Nat → Ev V) × List Nat)} (h : Tree pre w new)
    (hw : ∀ ev l, w = some (ev, l) → ∀ o op, ev o ≠ .began op) :
    ∀ p q op a ev, new = p ++ .began op :: q → calls op = some (a, ev) → ∃ inner rest, q = inner ++ .ret op .ok :: rest ∧
      Tree (pre ++ p ++ [.began op]) (some (ev, (view (pre ++ p)).reg a)) inner ∧ ¬ Touched a inner := by
  induction h with
  | done => intro p q op a ev h; simp at h
  | stop => intro p q op a ev h; simp at h
  | quick pre rest op' e hc _ _ ih =>
    intro p q op a ev h hop
    rcases split_append (A := [Ev.began op', Ev.ret op' e]) h with ⟨q', h1, -⟩ | ⟨p', h1, h2⟩
    · cases p with
      | nil =>
        simp only [List.nil_append, List.cons.injEq, Ev.began.injEq] at h1
        rw [← h1.1, hc] at hop; cases hop
      | cons x p =>
        cases p with
        | nil => simp at h1
        | cons y p => simp at h1
    · obtain ⟨inner, rest', h3, h4, h5⟩ := ih (by intro ev l h; cases h) p' q op a ev h2 hop
      refine ⟨inner, rest', h3, ?_, h5⟩
      rw [h1]; simpa using h4
  | round pre inner rest op' a' ev' hc hi ht _ ih1 ih2 =>
    intro p q op a ev h hop
    cases p with
    | nil =>
      simp only [List.nil_append, List.cons_append, List.cons.injEq, Ev.began.injEq] at h
      obtain ⟨rfl, rfl⟩ := h
      rw [hc] at hop
      simp only [Option.some.injEq, Prod.mk.injEq] at hop
      obtain ⟨rfl, rfl⟩ := hop
      exact ⟨inner, rest, rfl, by simpa using hi, ht⟩
    | cons x p =>
      simp only [List.cons_append, List.cons.injEq] at h
      obtain ⟨rfl, h⟩ := h
      rcases split_append h with ⟨q', h1, h2⟩ | ⟨p', h1, h2⟩
      · have hb : ∀ ev l, some (ev', (view pre).reg a') = some (ev, l) → ∀ o op, ev o ≠ .began op := by
          intro ev l hh o op''
          simp only [Option.some.injEq, Prod.mk.injEq] at hh
          rw [← hh.1]
          cases op' <;> simp only [calls, Option.some.injEq, Prod.mk.injEq, reduceCtorEq] at hc <;> simp [← hc.2]
        obtain ⟨inner', rest', h3, h4, h5⟩ := ih1 hb p q' op a ev h1 hop
        exact ⟨inner', rest' ++ .ret op' .ok :: rest, by rw [h2, h3]; simp, by simpa using h4, h5⟩
      · cases p' with
        | nil => simp at h2
        | cons y p' =>
          simp only [List.cons_append, List.cons.injEq] at h2
          obtain ⟨rfl, h2⟩ := h2
          obtain ⟨inner', rest', h3, h4, h5⟩ := ih2 (by intro ev l h; cases h) p' q op a ev h2 hop
          exact ⟨inner', rest', h3, by rw [h1]; simpa using h4, h5⟩
  | call pre inner rest ev' o l _ _ ih1 ih2 =>
    intro p q op a ev h hop
    cases p with
    | nil =>
      simp only [List.nil_append, List.cons_append, List.cons.injEq] at h
      exact absurd h.1 (hw ev' _ rfl o op)
    | cons x p =>
      simp only [List.cons_append, List.cons.injEq] at h
      obtain ⟨rfl, h⟩ := h
      rcases split_append h with ⟨q', h1, h2⟩ | ⟨p', h1, h2⟩
      · obtain ⟨inner', rest', h3, h4, h5⟩ := ih1 (by intro ev l h; cases h) p q' op a ev h1 hop
        exact ⟨inner', rest' ++ .leave o :: rest, by rw [h2, h3]; simp, by simpa using h4, h5⟩
      · cases p' with
        | nil => simp at h2
        | cons y p' =>
          simp only [List.cons_append, List.cons.injEq] at h2
          obtain ⟨rfl, h2⟩ := h2
          obtain ⟨inner', rest', h3, h4, h5⟩ := ih2
            (by
              intro ev l' hh
              simp only [Option.some.injEq, Prod.mk.injEq] at hh
              rw [← hh.1]; exact hw ev' _ rfl) p' q op a ev h2 hop
          exact ⟨inner', rest', h3, by rw [h1]; simpa using h4, h5⟩

/-- The callback concerns the observable `a`. -/
def Of (a : Nat) (ev : Nat → Ev V) : Prop := (∃ v, ev = fun o => .data a o v) ∨ ev = fun o => .disc a o

theorem calls_of {op : Op V} {a : Nat} {ev : Nat → Ev V} (h : calls op = some (a, ev)) : Of a ev := by
  cases op <;> simp only [calls, Option.some.injEq, Prod.mk.injEq, reduceCtorEq] at h
  · obtain ⟨rfl, rfl⟩ := h; exact .inr rfl
  · obtain ⟨rfl, rfl⟩ := h; exact .inr rfl
  · obtain ⟨rfl, rfl⟩ := h; exact .inl ⟨_, rfl⟩

/-- Only those registered are called. -/
theorem Tree.only {pre new : List (Ev V)} {w : Option ((Nat → Ev V) × List Nat)} (h : Tree pre w new) :
    (∀ ev l, w = some (ev, l) → ∃ a, Of a ev ∧ ¬ Touched a new ∧ ∀ o ∈ l, o ∈ (view pre).reg a) →
    ∀ p q a o e, new = p ++ e :: q → ((∃ v, e = .data a o v) ∨ e = .disc a o) → o ∈ (view (pre ++ p)).reg a := by
  induction h with
  | done => intro _ p q a o e h; simp at h
  | stop => intro _ p q a o e h; simp at h
  | quick pre rest op' e' hc _ _ ih =>
    intro _ p q a o e h he
    rcases split_append (A := [Ev.began op', Ev.ret op' e']) h with ⟨q', h1, -⟩ | ⟨p', h1, h2⟩
    · have : e ∈ [Ev.began op', .ret op' e'] := by rw [h1]; simp
      simp only [List.mem_cons, List.not_mem_nil, or_false] at this
      rcases he with ⟨v, rfl⟩ | rfl <;> simp at this
    · have := ih (by intro ev l h; cases h) p' q a o e h2 he
      rw [h1]; simpa using this
  | round pre inner rest op' a' ev' hc _ ht _ ih1 ih2 =>
    intro _ p q a o e h he
    cases p with
    | nil =>
      simp only [List.nil_append, List.cons_append, List.cons.injEq] at h
      rcases he with ⟨v, rfl⟩ | rfl <;> simp at h
    | cons x p =>
      simp only [List.cons_append, List.cons.injEq] at h
      obtain ⟨rfl, h⟩ := h
      rcases split_append h with ⟨q', h1, h2⟩ | ⟨p', h1, h2⟩
      · have := ih1
          (by
            intro ev l hh
            simp only [Option.some.injEq, Prod.mk.injEq] at hh
            obtain ⟨rfl, rfl⟩ := hh
            exact ⟨a', calls_of hc, ht, fun o ho => by rw [view_snoc, began_reg]; exact ho⟩) p q' a o e h1 he
        simpa using this
      · cases p' with
        | nil =>
          simp only [List.nil_append, List.cons.injEq] at h2
          rcases he with ⟨v, rfl⟩ | rfl <;> simp at h2
        | cons y p' =>
          simp only [List.cons_append, List.cons.injEq] at h2
          obtain ⟨rfl, h2⟩ := h2
          have := ih2 (by intro ev l h; cases h) p' q a o e h2 he
          rw [h1]; simpa using this
  | call pre inner rest ev' o' l _ _ ih1 ih2 =>
    intro hw p q a o e h he
    obtain ⟨c, hof, ht, hl⟩ := hw ev' _ rfl
    have hsee : ∀ (w : View) o, w.see (ev' o) = w := by rcases hof with ⟨v, rfl⟩ | rfl <;> intros <;> rfl
    cases p with
    | nil =>
      simp only [List.nil_append, List.cons_append, List.cons.injEq] at h
      have hac : a = c ∧ o = o' := by
        obtain ⟨h, -⟩ := h
        rcases hof with ⟨v, rfl⟩ | rfl <;> rcases he with ⟨v', rfl⟩ | rfl <;> simp_all
      rw [List.append_nil, hac.1, hac.2]
      exact hl o' List.mem_cons_self
    | cons x p =>
      simp only [List.cons_append, List.cons.injEq] at h
      obtain ⟨rfl, h⟩ := h
      rcases split_append h with ⟨q', h1, h2⟩ | ⟨p', h1, h2⟩
      · have := ih1 (by intro ev l h; cases h) p q' a o e h1 he
        simpa using this
      · cases p' with
        | nil =>
          simp only [List.nil_append, List.cons.injEq] at h2
          rcases he with ⟨v, rfl⟩ | rfl <;> simp at h2
        | cons y p' =>
          simp only [List.cons_append, List.cons.injEq] at h2
          obtain ⟨rfl, h2⟩ := h2
          have := ih2
            (by
              intro ev l' hh
              simp only [Option.some.injEq, Prod.mk.injEq] at hh
              obtain ⟨rfl, rfl⟩ := hh
              refine ⟨c, hof, fun ⟨op, r, hm, hch⟩ => ht ⟨op, r, by simp [hm], hch⟩, fun o ho => ?_⟩
              rw [view_append, reg_untouched]
              · exact hl o (List.mem_cons_of_mem _ ho)
              · intro ⟨op, r, hm, hch⟩
                refine ht ⟨op, r, ?_, hch⟩
                simp only [List.cons_append, List.mem_cons, List.mem_append, List.not_mem_nil, or_false] at hm ⊢
                rcases hm with hm | hm | hm
                · exact .inl hm
                · exact .inr (.inl hm)
                · cases hm) p' q a o e h2 he
          rw [h1]; simpa using this

/-- What operations report is right. -/
theorem Tree.right {pre new : List (Ev V)} {w : Option ((Nat → Ev V) × List Nat)} (h : Tree pre w new) :
    (∀ ev l, w = some (ev, l) → ∃ a, Of a ev) →
    ∀ p q op r, new = p ++ .ret op r :: q → Right (view (pre ++ p)) op r := by
  induction h with
  | done => intro _ p q op r h; simp at h
  | stop => intro _ p q op r h; simp at h
  | quick pre rest op' e' hc hr _ ih =>
    intro _ p q op r h
    rcases split_append (A := [Ev.began op', Ev.ret op' e']) h with ⟨q', h1, -⟩ | ⟨p', h1, h2⟩
    · cases p with
      | nil => simp at h1
      | cons x p =>
        simp only [List.cons_append, List.cons.injEq] at h1
        obtain ⟨rfl, h1⟩ := h1
        cases p with
        | nil =>
          simp only [List.nil_append, List.cons.injEq, Ev.ret.injEq] at h1
          obtain ⟨⟨rfl, rfl⟩, -⟩ := h1
          rw [view_snoc]
          have hb : (view pre).see (.began op') = view pre := by cases op' <;> first | rfl | simp [calls] at hc
          rw [hb]; exact hr
        | cons y p => simp at h1
    · have := ih (by intro ev l h; cases h) p' q op r h2
      rw [h1]; simpa using this
  | round pre inner rest op' a' ev' hc _ _ _ ih1 ih2 =>
    intro _ p q op r h
    cases p with
    | nil => simp at h
    | cons x p =>
      simp only [List.cons_append, List.cons.injEq] at h
      obtain ⟨rfl, h⟩ := h
      rcases split_append h with ⟨q', h1, h2⟩ | ⟨p', h1, h2⟩
      · have := ih1
          (by
            intro ev l hh
            simp only [Option.some.injEq, Prod.mk.injEq] at hh
            exact ⟨a', hh.1 ▸ calls_of hc⟩) p q' op r h1
        simpa using this
      · cases p' with
        | nil =>
          simp only [List.nil_append, List.cons.injEq, Ev.ret.injEq] at h2
          obtain ⟨⟨rfl, rfl⟩, -⟩ := h2
          cases op' <;> first | rfl | simp [calls] at hc
        | cons y p' =>
          simp only [List.cons_append, List.cons.injEq] at h2
          obtain ⟨rfl, h2⟩ := h2
          have := ih2 (by intro ev l h; cases h) p' q op r h2
          rw [h1]; simpa using this
  | call pre inner rest ev' o' l _ _ ih1 ih2 =>
    intro hw p q op r h
    obtain ⟨c, hof⟩ := hw ev' _ rfl
    cases p with
    | nil =>
      simp only [List.nil_append, List.cons_append, List.cons.injEq] at h
      rcases hof with ⟨v, rfl⟩ | rfl <;> simp at h
    | cons x p =>
      simp only [List.cons_append, List.cons.injEq] at h
      obtain ⟨rfl, h⟩ := h
      rcases split_append h with ⟨q', h1, h2⟩ | ⟨p', h1, h2⟩
      · have := ih1 (by intro ev l h; cases h) p q' op r h1
        simpa using this
      · cases p' with
        | nil => simp at h2
        | cons y p' =>
          simp only [List.cons_append, List.cons.injEq] at h2
          obtain ⟨rfl, h2⟩ := h2
          have := ih2
            (by
              intro ev l' hh
              simp only [Option.some.injEq, Prod.mk.injEq] at hh
              exact ⟨c, hh.1 ▸ hof⟩) p' q op r h2
          rw [h1]; simpa using this

/-! ### C141: no call on an object that does not exist -/

/-- The part of C141 that holds: a client that keeps to the rules `careful` (use only what exists; while an observable visits its observers, do
not change, destroy or assign to it and, with the mutex, do not use it; deregister an observer before destroying it) meets nothing
undefined, whatever the callbacks do within the rules. -/
theorem C141_safe_partial {lock : Bool} {H : Handlers V U} {s : St V U} (h : Reach (careful lock) lock H s) (n : Nat)
    (op : Op V) : exec (careful lock) lock H n s op ≠ .ub := by
  intro hx
  have := exec_ok lock H n s op h.inv
  rw [hx] at this
  exact this

/-- Every callback of such a client runs on an observer that exists and is registered at that moment, on behalf of an observable that
exists. -/
theorem C141_alive_partial {lock : Bool} {H : Handlers V U} {s : St V U} (h : Reach (careful lock) lock H s)
    (pre post : List (Ev V)) (e : Ev V) (hlog : s.log = pre ++ e :: post) (a o : Nat)
    (he : (∃ v, e = .data a o v) ∨ e = .disc a o) :
    a ∈ (view pre).objs ∧ o ∈ (view pre).alive ∧ o ∈ (view pre).reg a := by
  have hok := h.inv.fine.at pre e post hlog
  rcases he with ⟨v, rfl⟩ | rfl
  · exact ⟨hok.1, hok.2.1, hok.2.2.1⟩
  · exact ⟨hok.1, hok.2.1, hok.2.2.1⟩

/-- The loop reaches an observer that does not exist. -/
theorem loop_dead {ex : Ex V U} {ev : Nat → Ev V} {p : U → Nat → Prog V U} {a g : Nat}
    (hp : ∀ u o, ∃ w, p u o = .ret w) (left : Nat) : ∀ (i j : Nat) (s : St V U) (x : Obj) (o : Nat),
    s.objs a = some x → x.stamp = g → i ≤ j → j < i + left → x.obs[j]? = some o → o ∉ s.alive →
    loop ex ev p a g i left s = .ub := by
  induction left with
  | zero => intro i j s x o _ _ h1 h2; omega
  | succ left ih =>
    intro i j s x o hx hg h1 h2 hj ho
    have hv : valid s a g = .ok x := by simp [valid, St.get, hx, hg]
    simp only [loop, hv, Out.ok_bind]
    unfold deref
    cases hd : x.obs[i]? with
    | none => rfl
    | some q =>
      simp only [Out.ok_bind]
      by_cases hq : q ∈ s.alive
      · simp only [St.enter, if_pos hq, Out.ok_bind]
        obtain ⟨w, hw⟩ := hp (s.emit (ev q)).user q
        simp only [hw, runProg, Out.ok_bind]
        have hij : i ≠ j := by
          intro hij
          subst hij
          rw [hj] at hd
          exact ho (Option.some.inj hd ▸ hq)
        exact ih (i + 1) j _ x o hx hg (by omega) (by omega) hj ho
      · simp only [St.enter, if_neg hq, Out.ub_bind]

/-- The rule "registered nowhere" is needed for every client, in both builds: destroying an observer that is registered with `a`, which is not
visiting its observers, makes the next notification by `a`, `clear_observers` and the destruction of `a` undefined (callbacks that
return at once). -/
theorem C141_registered_ub {lock : Bool} {H : Handlers V U} (hH : Quiet H) {s : St V U}
    (h : Reach (careful lock) lock H s) (a o : Nat) (ha : a ∈ (view s.log).objs) (hal : o ∈ (view s.log).alive)
    (ho : o ∈ (view s.log).reg a) (hr : (view s.log).run a = 0) (n m : Nat) (op : Op V)
    (hop : op = .destroy a ∨ op = .clear a ∨ ∃ v, op = .notify a v) :
    ∃ s', exec (sane lock) lock H (n + 1) s (.die o) = .ok (s', .ok) ∧ exec (sane lock) lock H (m + 1) s' op = .ub := by
  obtain ⟨x, hx, -⟩ := h.inv.get ha
  have hs : sane lock (view s.log) (.die o : Op V) = true := by simpa [sane] using hal
  refine ⟨St.emit { (s.emit (.began (.die o))) with
      alive := (s.emit (.began (.die o))).alive.filter (· != o) } (.ret (.die o) .ok),
    by simp only [exec, execStep, hs, if_true, body, Out.ok_bind], ?_⟩
  rw [← h.inv.sound.obs a x hx] at ho
  obtain ⟨j, hj, hjo⟩ := List.getElem_of_mem ho
  have hd : x.obs[j]? = some o := by rw [List.getElem?_eq_getElem hj, hjo]
  have hacq := h.inv.acquire hx (.inl hr)
  generalize ht : St.emit { (s.emit (.began (.die o))) with
      alive := (s.emit (.began (.die o))).alive.filter (· != o) } (.ret (.die o) .ok) = t
  have hto : t.objs a = some x := by rw [← ht]; exact hx
  have hta : o ∉ t.alive := by
    rw [← ht]
    exact fun h' => absurd (List.mem_filter.1 h').2 (by simp)
  have hmem : a ∈ (view t.log).objs := by
    rw [← ht]
    show a ∈ (view (s.log ++ [.began (.die o)] ++ [.ret (.die o) .ok])).objs
    rw [view_snoc, view_snoc]; exact ha
  have hget : ∀ e, (t.emit e).get a = .ok x := by intro e; simp [St.get, St.emit, hto]
  have hsane : sane lock (view t.log) op = true := by
    rcases hop with rfl | rfl | ⟨v, rfl⟩ <;> simpa [sane] using hmem
  rcases hop with rfl | rfl | ⟨v, rfl⟩
  · simp only [exec, execStep, hsane, if_true, body, clearObs, hget, hacq, Out.ok_bind]
    rw [loop_dead (p := fun u o => H.disconnect u a o) (g := x.stamp) (a := a) (fun u o => hH.2 u a o) x.obs.length 0 j
      ((t.emit (.began (.destroy a))).hold a x lock) { x with locked := lock } o (by simp [St.hold]) rfl (Nat.zero_le _) (by omega) hd hta]
    rfl
  · simp only [exec, execStep, hsane, if_true, body, clearObs, hget, hacq, Out.ok_bind]
    rw [loop_dead (p := fun u o => H.disconnect u a o) (g := x.stamp) (a := a) (fun u o => hH.2 u a o) x.obs.length 0 j
      ((t.emit (.began (.clear a))).hold a x lock) { x with locked := lock } o (by simp [St.hold]) rfl (Nat.zero_le _) (by omega) hd hta]
    rfl
  · simp only [exec, execStep, hsane, if_true, body, notifyObs, hget, hacq, Out.ok_bind]
    rw [loop_dead (p := fun u o => H.data u a o v) (g := x.stamp) (a := a) (fun u o => hH.1 u a o v) x.obs.length 0 j
      ((t.emit (.began (.notify a v))).hold a x lock) { x with locked := lock } o (by simp [St.hold]) rfl (Nat.zero_le _) (by omega) hd hta]
    rfl

/-- The rule "not changed while it visits its observers" is needed for every client, whatever else it does: a run in which a
callback changes the visited observable (an observer is added to or removed from it, it is cleared, assigned to, destroyed) never
goes on past the visit. -/
theorem C141_unchanged {rule : Rule V} {lock : Bool} {H : Handlers V U} {s : St V U} (h : Reach rule lock H s)
    (pre post : List (Ev V)) (op : Op V) (a : Nat) (hop : op = .destroy a ∨ op = .clear a ∨ ∃ v, op = .notify a v)
    (hlog : s.log = pre ++ .began op :: post) :
    ∃ inner rest, post = inner ++ .ret op .ok :: rest ∧ ∀ op' e, .ret op' e ∈ inner →
      (op' ≠ .make a ∧ (∀ b, op' ≠ .copy a b ∧ op' ≠ .assign a b) ∧ op' ≠ .destroy a ∧ op' ≠ .clear a) ∧
        ∀ o, (op' = .add a o → e = .alreadyContains) ∧ (op' = .remove a o → e = .notFound) := by
  have hc : ∃ ev, calls op = some (a, ev) := by
    rcases hop with rfl | rfl | ⟨v, rfl⟩ <;> exact ⟨_, rfl⟩
  obtain ⟨ev, hc⟩ := hc
  obtain ⟨inner, rest, h1, -, h3⟩ := h.any.2.rounds (by intro ev l h; cases h) pre post op a ev hlog hc
  refine ⟨inner, rest, h1, fun op' e hm => ?_⟩
  have hno : ¬ Changes a op' e := fun hch => h3 ⟨op', e, hm, hch⟩
  obtain ⟨i1, i2, hi⟩ := List.append_of_mem hm
  have hright : Right (view (pre ++ (.began op :: i1))) op' e := by
    have := h.any.2.right (by intro ev l h; cases h) (pre ++ (.began op :: i1)) (i2 ++ .ret op .ok :: rest) op' e
      (by rw [hlog, h1, hi]; simp)
    simpa using this
  refine ⟨⟨?_, fun b => ⟨?_, ?_⟩, ?_, ?_⟩, fun o => ⟨?_, ?_⟩⟩
  · rintro rfl; exact hno rfl
  · rintro rfl; exact hno rfl
  · rintro rfl; exact hno rfl
  · rintro rfl; exact hno rfl
  · rintro rfl; exact hno rfl
  · rintro rfl
    simp only [Right] at hright
    split at hright
    · exact hright
    · subst hright; exact absurd rfl hno
  · rintro rfl
    simp only [Right] at hright
    split at hright
    · subst hright; exact absurd rfl hno
    · exact hright

/-! ### C142: rounds and reports -/

/-- Every client, in both builds: each notification that a run contains, also one made by a callback, ends with `ok` and calls those registered when it began, once
each, in the order of registration, each callback with what it does in between ending before the next starts (`Tree`, with
`some`); the same for `clear_observers` and the destructor with `disconnect`. -/
theorem C142_rounds {rule : Rule V} {lock : Bool} {H : Handlers V U} {s : St V U} (h : Reach rule lock H s)
    (pre post : List (Ev V)) (op : Op V) (a : Nat) (ev : Nat → Ev V)
    (hop : (∃ v, op = .notify a v ∧ ev = fun o => .data a o v) ∨ ((op = .clear a ∨ op = .destroy a) ∧ ev = fun o => .disc a o))
    (hlog : s.log = pre ++ .began op :: post) :
    ∃ inner rest, post = inner ++ .ret op .ok :: rest ∧
      Tree (pre ++ [.began op]) (some (ev, (view pre).reg a)) inner := by
  have hc : calls op = some (a, ev) := by
    rcases hop with ⟨v, rfl, rfl⟩ | ⟨rfl | rfl, rfl⟩ <;> rfl
  obtain ⟨inner, rest, h1, h2, -⟩ := h.any.2.rounds (by intro ev l h; cases h) pre post op a ev hlog hc
  exact ⟨inner, rest, h1, by simpa using h2⟩

/-- What a round is, without `Tree`: there is a part of it for every observer, in order, that starts with its callback and ends with the end of
that callback. -/
theorem C142_parts {pre inner : List (Ev V)} {w : Option ((Nat → Ev V) × List Nat)} (h : Tree pre w inner) :
    ∀ ev l, w = some (ev, l) → ∃ parts : List (List (Ev V)), parts.length = l.length ∧ inner = parts.flatten ∧
      ∀ i (h : i < l.length), ∃ k, parts[i]? = some (ev l[i] :: k ++ [.leave l[i]]) := by
  induction h with
  | done => intro ev l h; cases h
  | quick => intro ev l h; cases h
  | round => intro ev l h; cases h
  | stop pre ev =>
    intro ev' l h
    simp only [Option.some.injEq, Prod.mk.injEq] at h
    obtain ⟨rfl, rfl⟩ := h
    exact ⟨[], rfl, rfl, fun i h => by simp at h⟩
  | call pre inner rest ev o l _ _ _ ih =>
    intro ev' l' h
    simp only [Option.some.injEq, Prod.mk.injEq] at h
    obtain ⟨rfl, rfl⟩ := h
    obtain ⟨parts, h1, h2, h3⟩ := ih ev l rfl
    refine ⟨(ev o :: inner ++ [.leave o]) :: parts, by simp [h1], by simp [h2], fun i hi => ?_⟩
    cases i with
    | zero => exact ⟨inner, rfl⟩
    | succ i =>
      obtain ⟨k, hk⟩ := h3 i (by simpa using hi)
      exact ⟨k, by simpa using hk⟩

/-- Every client: whoever is called is registered with the calling observable at that moment. -/
theorem C142_only {rule : Rule V} {lock : Bool} {H : Handlers V U} {s : St V U} (h : Reach rule lock H s)
    (pre post : List (Ev V)) (e : Ev V) (a o : Nat) (he : (∃ v, e = .data a o v) ∨ e = .disc a o)
    (hlog : s.log = pre ++ e :: post) : o ∈ (view pre).reg a := by
  have := h.any.2.only (by intro ev l h; cases h) pre post a o e hlog he
  simpa using this

theorem reg_nodup {log : List (Ev V)} (h : ∀ p q op r, log = p ++ .ret op r :: q → Right (view p) op r) :
    ∀ p q, log = p ++ q → ∀ a, ((view p).reg a).Nodup := by
  intro p
  induction hn : p.length generalizing p with
  | zero => intro q _ a; rw [List.length_eq_zero_iff.1 hn]; exact List.nodup_nil
  | succ n ihn =>
    intro q hq a
    rcases List.eq_nil_or_concat p with hp | ⟨p', e, hp⟩
    · rw [hp] at hn; simp at hn
    · rw [List.concat_eq_append] at hp
      subst hp
      have hlen : p'.length = n := by simpa using hn
      have hq' : log = p' ++ e :: q := by rw [hq]; simp
      have ih := fun b => ihn p' hlen (e :: q) hq' b
      rw [view_snoc]
      have hupd : ∀ c (r : List Nat), r.Nodup → (upd (view p').reg c r a).Nodup := by
        intro c r hr
        by_cases hac : a = c
        · subst hac; rw [upd_same]; exact hr
        · rw [upd_other _ _ hac]; exact ih a
      cases e with
      | data => exact ih a
      | disc => exact ih a
      | leave => exact ih a
      | began op => rw [began_reg]; exact ih a
      | ret op r =>
        have hok := h p' q op r hq'
        cases op with
        | make c => exact hupd c [] List.nodup_nil
        | copy c d => exact hupd c _ (ih d)
        | assign c d => exact hupd c _ (ih d)
        | destroy c => exact hupd c [] List.nodup_nil
        | clear c => exact hupd c [] List.nodup_nil
        | born => exact ih a
        | die => exact ih a
        | notify c v => cases r <;> exact ih a
        | remove c o =>
          cases r
          case ok => exact hupd c _ ((ih c).sublist List.filter_sublist)
          all_goals exact ih a
        | add c o =>
          cases r
          case ok =>
            refine hupd c _ ?_
            have ho : o ∉ (view p').reg c := by
              intro hm
              simp [Right, hm] at hok
            rw [List.nodup_append]
            refine ⟨ih c, by simp, ?_⟩
            intro x hx y hy hxy
            rw [List.mem_singleton.1 hy] at hxy
            exact ho (hxy ▸ hx)
          all_goals exact ih a

/-- Every client: `add_observer` refuses exactly those registered, `remove_observer` exactly those not registered, everything else succeeds;
nobody is registered twice. -/
theorem C142_reports {rule : Rule V} {lock : Bool} {H : Handlers V U} {s : St V U} (h : Reach rule lock H s)
    (pre post : List (Ev V)) (op : Op V) (e : Err) (hlog : s.log = pre ++ .ret op e :: post) :
    (∀ a, ((view pre).reg a).Nodup) ∧
    (∀ a o, op = .add a o → e = if o ∈ (view pre).reg a then .alreadyContains else .ok) ∧
    (∀ a o, op = .remove a o → e = if o ∈ (view pre).reg a then .ok else .notFound) ∧
    ((∀ a o, op ≠ .add a o ∧ op ≠ .remove a o) → e = .ok) := by
  have hr : ∀ p q op r, s.log = p ++ .ret op r :: q → Right (view p) op r := by
    intro p q op r hl
    have := h.any.2.right (by intro ev l h; cases h) p q op r hl
    simpa using this
  have h1 := hr pre post op e hlog
  refine ⟨reg_nodup hr pre _ hlog, ?_, ?_, ?_⟩
  · rintro a o rfl; exact h1
  · rintro a o rfl; exact h1
  · intro hn
    cases op with
    | add a o => exact absurd rfl (hn a o).1
    | remove a o => exact absurd rfl (hn a o).2
    | _ => exact h1

/-- Who is out stays out. -/
theorem out_stays {a o : Nat} (k : List (Ev V)) : ∀ w : View, o ∉ w.reg a → .ret (.add a o) .ok ∉ k →
    (∀ b e, .ret (.copy a b) e ∉ k ∧ .ret (.assign a b) e ∉ k) → o ∉ (k.foldl View.see w).reg a := by
  induction k with
  | nil => intro w h _ _; exact h
  | cons x k ih =>
    intro w h h1 h2
    rw [List.foldl_cons]
    refine ih _ ?_ (fun hm => h1 (List.mem_cons_of_mem _ hm))
      (fun b e => ⟨fun hm => (h2 b e).1 (List.mem_cons_of_mem _ hm), fun hm => (h2 b e).2 (List.mem_cons_of_mem _ hm)⟩)
    have hupd : ∀ c (r : List Nat), (a = c → o ∉ r) → o ∉ upd w.reg c r a := by
      intro c r hr
      by_cases hac : a = c
      · subst hac; rw [upd_same]; exact hr rfl
      · rw [upd_other _ _ hac]; exact h
    cases x with
    | data => exact h
    | disc => exact h
    | leave => exact h
    | began op => rw [began_reg]; exact h
    | ret op r =>
      cases op with
      | make c => exact hupd c [] (by simp)
      | copy c d => exact hupd c _ fun hac => absurd (hac ▸ List.mem_cons_self) (h2 d r).1
      | assign c d => exact hupd c _ fun hac => absurd (hac ▸ List.mem_cons_self) (h2 d r).2
      | destroy c => exact hupd c [] (by simp)
      | clear c => exact hupd c [] (by simp)
      | born => exact h
      | die => exact h
      | notify c v => exact h
      | remove c p =>
        cases r
        case ok => exact hupd c _ fun hac hm => h (hac ▸ (List.mem_filter.1 hm).1)
        all_goals exact h
      | add c p =>
        cases r
        case ok =>
          refine hupd c _ fun hac hm => ?_
          subst hac
          rcases List.mem_append.1 hm with hm | hm
          · exact h hm
          · exact h1 (by rw [List.mem_singleton.1 hm]; exact List.mem_cons_self)
        all_goals exact h

/-- Every client: after `remove_observer` an observer is not called by this observable until it is added again or the observable is replaced by a
copy. -/
theorem C142_removed {rule : Rule V} {lock : Bool} {H : Handlers V U} {s : St V U} (h : Reach rule lock H s)
    (pre mid post : List (Ev V)) (e e' : Ev V) (a o : Nat)
    (hout : e = .ret (.remove a o) .ok ∨ e = .ret (.remove a o) .notFound ∨ e = .ret (.clear a) .ok ∨ e = .ret (.make a) .ok)
    (hlog : s.log = pre ++ e :: mid ++ e' :: post) (hadd : .ret (.add a o) .ok ∉ mid)
    (hcp : ∀ b r, .ret (.copy a b) r ∉ mid ∧ .ret (.assign a b) r ∉ mid) :
    (∀ v, e' ≠ .data a o v) ∧ e' ≠ .disc a o := by
  have h0 : o ∉ (view (pre ++ [e])).reg a := by
    rw [view_snoc]
    rcases hout with rfl | rfl | rfl | rfl
    · simp [View.see, View.ended]
    · have := h.any.2.right (by intro ev l h; cases h) pre (mid ++ e' :: post) (.remove a o) .notFound (by rw [hlog]; simp)
      intro hm
      have hm' : o ∈ (view pre).reg a := hm
      simp [Right, hm'] at this
    · simp [View.see, View.ended]
    · simp [View.see, View.ended]
  have h1 : o ∉ (view (pre ++ e :: mid)).reg a := by
    rw [show pre ++ e :: mid = pre ++ [e] ++ mid by simp, view_append]
    exact out_stays mid _ h0 hadd hcp
  constructor
  · intro v he
    exact h1 (C142_only h _ post e' a o (.inl ⟨v, he⟩) hlog)
  · intro he
    exact h1 (C142_only h _ post e' a o (.inr he) hlog)

/-! ### C143: copies -/

/-- Who is registered somewhere has been added somewhere. -/
theorem origin (o : Nat) : ∀ n (log : List (Ev V)), log.length = n → ∀ a, o ∈ (view log).reg a → ∃ c, .ret (.add c o) .ok ∈ log := by
  intro n
  induction n with
  | zero =>
    intro log hl a h
    rw [List.length_eq_zero_iff.1 hl] at h
    simp [view, View.new] at h
  | succ n ih =>
    intro log hl a h
    rcases List.eq_nil_or_concat log with hp | ⟨l, e, hp⟩
    · rw [hp] at hl; simp at hl
    · rw [List.concat_eq_append] at hp
      subst hp
      have hll : l.length = n := by simpa using hl
      have ih' : ∀ a, o ∈ (view l).reg a → ∃ c, .ret (.add c o) .ok ∈ l ++ [e] := fun a ha =>
        (ih l hll a ha).imp fun c hc => List.mem_append_left _ hc
      rw [view_snoc] at h
      have hupd : ∀ c (r : List Nat), o ∈ upd (view l).reg c r a → o ∈ r ∨ o ∈ (view l).reg a := by
        intro c r hm
        by_cases hac : a = c
        · subst hac; rw [upd_same] at hm; exact .inl hm
        · rw [upd_other _ _ hac] at hm; exact .inr hm
      cases e with
      | data => exact ih' a h
      | disc => exact ih' a h
      | leave => exact ih' a h
      | began op => rw [began_reg] at h; exact ih' a h
      | ret op r =>
        cases op with
        | make c => exact (hupd c [] h).elim (by simp) (ih' a)
        | copy c d => exact (hupd c _ h).elim (ih' d) (ih' a)
        | assign c d => exact (hupd c _ h).elim (ih' d) (ih' a)
        | destroy c => exact (hupd c [] h).elim (by simp) (ih' a)
        | clear c => exact (hupd c [] h).elim (by simp) (ih' a)
        | born => exact ih' a h
        | die => exact ih' a h
        | notify c v => exact ih' a h
        | remove c p =>
          cases r
          case ok => exact (hupd c _ h).elim (fun hm => ih' c (List.mem_filter.1 hm).1) (ih' a)
          all_goals exact ih' a h
        | add c p =>
          cases r
          case ok =>
            rcases hupd c _ h with hm | hm
            · rcases List.mem_append.1 hm with hm | hm
              · exact ih' c hm
              · exact ⟨c, by rw [List.mem_singleton.1 hm]; simp⟩
            · exact ih' a hm
          all_goals exact ih' a h

/-- Every client: whoever is called has been added to some observable before. -/
theorem C143_added {rule : Rule V} {lock : Bool} {H : Handlers V U} {s : St V U} (h : Reach rule lock H s)
    (pre post : List (Ev V)) (e : Ev V) (a o : Nat) (he : (∃ v, e = .data a o v) ∨ e = .disc a o)
    (hlog : s.log = pre ++ e :: post) : ∃ c, .ret (.add c o) .ok ∈ pre :=
  origin o _ pre rfl a (C142_only h pre post e a o he hlog)

/-- What holds of "an observable calls only those added to it": it does if it was never copied to or assigned to. -/
theorem C143_own_partial {rule : Rule V} {lock : Bool} {H : Handlers V U} {s : St V U} (h : Reach rule lock H s)
    (pre post : List (Ev V)) (e : Ev V) (a o : Nat) (he : (∃ v, e = .data a o v) ∨ e = .disc a o)
    (hlog : s.log = pre ++ e :: post) (hcp : ∀ b r, .ret (.copy a b) r ∉ pre ∧ .ret (.assign a b) r ∉ pre) :
    .ret (.add a o) .ok ∈ pre := by
  refine Classical.byContradiction fun hno => ?_
  have h1 := out_stays (a := a) (o := o) pre View.new (by simp [View.new]) hno hcp
  exact h1 (C142_only h pre post e a o he hlog)

/-- Every client: as long as the copy (or the target of an assignment) is not changed, each of its notifications, its `clear_observers` and its destructor call those who
were registered with the original when it was copied, in their order; whatever happened to the original since, and also if the copy was
made while the original was notifying. -/
theorem C143_copy_tells {rule : Rule V} {lock : Bool} {H : Handlers V U} {s : St V U} (h : Reach rule lock H s)
    (pre mid post : List (Ev V)) (a b : Nat) (cp op : Op V) (r : Err) (ev : Nat → Ev V)
    (hcp : cp = .copy a b ∨ cp = .assign a b)
    (hop : (∃ v, op = .notify a v ∧ ev = fun o => .data a o v) ∨ ((op = .clear a ∨ op = .destroy a) ∧ ev = fun o => .disc a o))
    (hlog : s.log = pre ++ .ret cp r :: mid ++ .began op :: post) (hmid : ¬ Touched a mid) :
    ∃ inner rest, post = inner ++ .ret op .ok :: rest ∧
      Tree (pre ++ .ret cp r :: mid ++ [.began op]) (some (ev, (view pre).reg b)) inner := by
  obtain ⟨inner, rest, h1, h2⟩ := C142_rounds h (pre ++ .ret cp r :: mid) post op a ev hop hlog
  have hreg : (view (pre ++ .ret cp r :: mid)).reg a = (view pre).reg b := by
    rw [show pre ++ .ret cp r :: mid = pre ++ [.ret cp r] ++ mid by simp, view_append, reg_untouched mid _ hmid, view_snoc]
    rcases hcp with rfl | rfl <;> simp [View.see, View.ended]
  rw [hreg] at h2
  exact ⟨inner, rest, h1, h2⟩

/-- Neither copying nor assigning tells anybody anything; those who were registered with the target of an assignment and not with its source lose
their place without a `disconnect`. -/
theorem C143_silent {rule : Rule V} {lock : Bool} {H : Handlers V U} {s s' : St V U} {n a b : Nat} {e : Err} {op : Op V}
    (hop : op = .copy a b ∨ op = .assign a b) (hx : exec rule lock H n s op = .ok (s', e)) :
    s'.log = s.log ++ [.began op, .ret op .ok] ∧ (view s'.log).reg a = (view s.log).reg b := by
  cases n with
  | zero => simp [exec] at hx
  | succ n =>
    simp only [exec, execStep] at hx
    split at hx
    case isFalse => cases hx
    case isTrue =>
      obtain ⟨q, hq, hx⟩ := Out.bind_eq_ok hx
      simp only [Out.ok.injEq, Prod.mk.injEq] at hx
      rcases hop with rfl | rfl
      · obtain ⟨x, -, hq⟩ := Out.bind_eq_ok hq
        simp only [Out.ok.injEq] at hq
        subst hq
        rw [← hx.1]
        exact ⟨by simp [St.emit, St.fill], by simp [view_append, St.emit, St.fill, View.see, View.ended, View.began]⟩
      · obtain ⟨x, -, hq⟩ := Out.bind_eq_ok hq
        obtain ⟨y, -, hq⟩ := Out.bind_eq_ok hq
        simp only [Out.ok.injEq] at hq
        subst hq
        rw [← hx.1]
        exact ⟨by simp [St.emit, St.fill], by simp [view_append, St.emit, St.fill, View.see, View.ended, View.began]⟩

/-! ### Witnesses -/

/-- When told, observer 10 adds observer 13. -/
def grower : Handlers Nat Unit :=
  ⟨fun _ a o _ => if o = 10 then .call (.add a 13) fun _ _ => .ret () else .ret (), fun _ _ _ => .ret ()⟩

/-- When told, observer 10 removes itself. -/
def leaver : Handlers Nat Unit :=
  ⟨fun _ a o _ => if o = 10 then .call (.remove a 10) fun _ _ => .ret () else .ret (), fun _ _ _ => .ret ()⟩

/-- When told 7, observer 10 notifies with 8. -/
def echo : Handlers Nat Unit :=
  ⟨fun _ a o v => if o = 10 ∧ v = 7 then .call (.notify a 8) fun _ _ => .ret () else .ret (), fun _ _ _ => .ret ()⟩

/-- All rules but `steady`. -/
def loose (lock : Bool) : Rule Nat := fun v op => sane lock v op && apart v op

/-- Without `steady`, in the build without a mutex: adding, removing, destroying and assigning in a notification of the same
observable are undefined. -/
theorem C141_changed_refuted :
    (script (loose false) false grower 5 (three ++ [.born 13, .notify 1 7]) (St.new ())).isUb = true ∧
    (script (loose false) false leaver 5 (three ++ [.notify 1 7]) (St.new ())).isUb = true ∧
    (script (loose false) false wreck 5 (three ++ [.notify 1 7]) (St.new ())).isUb = true ∧
    (script (loose false) false swap 5 (three ++ [.make 2, .notify 1 7]) (St.new ())).isUb = true := by
  decide +kernel

/-- Without `steady`, in the build with the mutex: the same, and a notification in a notification. -/
theorem C141_locked_refuted :
    (script (loose true) true grower 5 (three ++ [.born 13, .notify 1 7]) (St.new ())).isUb = true ∧
    (script (loose true) true leaver 5 (three ++ [.notify 1 7]) (St.new ())).isUb = true ∧
    (script (loose true) true wreck 5 (three ++ [.notify 1 7]) (St.new ())).isUb = true ∧
    (script (loose true) true echo 5 (three ++ [.notify 1 7]) (St.new ())).isUb = true := by
  decide +kernel

/-- An observer destroyed while registered, another constructed at the same address: the new one is told although nobody added it. -/
theorem C141_reuse_refuted :
    let log := logOf (script (sane true) true still 5
      [.make 1, .born 10, .add 1 10, .die 10, .born 10, .notify 1 7] (St.new ()))
    (log.drop 8).take 6 = [.began (.born 10), .ret (.born 10) .ok, .began (.notify 1 7), .data 1 10 7, .leave 10,
      .ret (.notify 1 7) .ok] ∧ log.length = 14 := by
  decide +kernel

/-- The claim of `C143_own_partial` without its exception is false: 10 was added to 1 only, and is told by the copy 2. -/
theorem C143_own_refuted :
    let log := logOf (script (careful false) false still 5
      [.born 10, .make 1, .add 1 10, .copy 2 1, .notify 2 7] (St.new ()))
    Ev.data 2 10 7 ∈ log ∧ Ev.ret (.add 2 10) .ok ∉ log := by
  decide +kernel

/-- Observer 11 loses its place in an assignment and is never told. -/
theorem C143_assign_refuted :
    let log := logOf (script (careful false) false still 5
      [.born 11, .make 1, .add 1 11, .make 2, .assign 1 2, .notify 1 7, .destroy 1] (St.new ()))
    Ev.ret (.add 1 11) .ok ∈ log ∧ Ev.ret (.destroy 1) .ok ∈ log ∧ Ev.disc 1 11 ∉ log ∧
      Ev.data 1 11 7 ∉ log := by
  decide +kernel

/-- Nested notifications without a mutex keep to the rules; each is a round. -/
example :
    (logOf (script (careful false) false echo 5 (three ++ [.notify 1 7]) (St.new ()))).drop 14 =
      [.began (.notify 1 7), .data 1 10 7, .began (.notify 1 8), .data 1 10 8, .leave 10, .data 1 11 8, .leave 11,
        .data 1 12 8, .leave 12, .ret (.notify 1 8) .ok, .leave 10, .data 1 11 7, .leave 11, .data 1 12 7, .leave 12,
        .ret (.notify 1 7) .ok] := by
  decide +kernel

/-- A copy taken during a notification is not mute (that of the bounded variant is, `C104_mute`): the copy 2, made by a callback of 1, tells 10. -/
example :
    let log := logOf (script (careful false) false cloner 5
      [.born 10, .make 1, .add 1 10, .notify 1 7, .remove 1 10, .notify 2 8] (St.new ()))
    Ev.ret (.copy 2 1) .ok ∈ log ∧ Ev.data 2 10 8 ∈ log := by
  decide +kernel

/-- A run that meets the hypotheses of `C142_removed` and `C143_copy_tells`: 10 is removed from 1 after 2 has been copied from it, then both notify. -/
example : ∃ s : St Nat Unit, Reach (careful false) false still s ∧ ∃ pre mid post,
    s.log = pre ++ .ret (.copy 2 1) .ok :: mid ++ .began (.notify 2 8) :: post ∧ ¬ Touched 2 mid ∧ (view pre).reg 1 = [10] ∧
      ∃ pre' mid', pre ++ .ret (.copy 2 1) .ok :: mid = pre' ++ .ret (.remove 1 10) .ok :: mid' ∧ Ev.ret (.notify 1 7) .ok ∈ mid' ∧
        .ret (.add 1 10) .ok ∉ mid' := by
  have h : ∃ s : St Nat Unit, script (careful false) false still 5
      [.born 10, .make 1, .add 1 10, .copy 2 1, .remove 1 10, .notify 1 7, .notify 2 8] (St.new ()) = .ok s := ⟨_, rfl⟩
  obtain ⟨s, hs⟩ := h
  refine ⟨s, script_reach _ (.new ()) hs, ?_⟩
  have hl : s.log = logOf (script (careful false) false still 5
      [.born 10, .make 1, .add 1 10, .copy 2 1, .remove 1 10, .notify 1 7, .notify 2 8] (St.new ())) := by rw [hs]; rfl
  refine ⟨[.began (.born 10), .ret (.born 10) .ok, .began (.make 1), .ret (.make 1) .ok, .began (.add 1 10), .ret (.add 1 10) .ok,
    .began (.copy 2 1)], [.began (.remove 1 10), .ret (.remove 1 10) .ok, .began (.notify 1 7), .ret (.notify 1 7) .ok],
    [.data 2 10 8, .leave 10, .ret (.notify 2 8) .ok], ?_, ?_, by decide, ?_⟩
  · rw [hl]; decide +kernel
  · rintro ⟨op, e, hm, hc⟩
    simp only [List.mem_cons, Ev.ret.injEq, List.not_mem_nil, or_false, reduceCtorEq, false_or] at hm
    rcases hm with ⟨rfl, rfl⟩ | ⟨rfl, rfl⟩ <;> simp [Changes] at hc
  · exact ⟨[.began (.born 10), .ret (.born 10) .ok, .began (.make 1), .ret (.make 1) .ok, .began (.add 1 10), .ret (.add 1 10) .ok,
      .began (.copy 2 1), .ret (.copy 2 1) .ok, .began (.remove 1 10)], [.began (.notify 1 7), .ret (.notify 1 7) .ok], rfl, by decide, by decide⟩

/-- A reachable state that meets the hypotheses of `C141_registered_ub`, in both builds. -/
example (lock : Bool) : ∃ s : St Nat Unit, Reach (careful lock) lock still s ∧ 1 ∈ (view s.log).objs ∧ 11 ∈ (view s.log).alive ∧
    11 ∈ (view s.log).reg 1 ∧ (view s.log).run 1 = 0 := by
  have h : ∃ s : St Nat Unit, script (careful lock) lock still 5 three (St.new ()) = .ok s := by
    cases lock <;> exact ⟨_, rfl⟩
  obtain ⟨s, hs⟩ := h
  refine ⟨s, script_reach three (.new ()) hs, ?_⟩
  have hl : s.log = logOf (script (careful lock) lock still 5 three (St.new ())) := by rw [hs]; rfl
  rw [hl]
  cases lock <;> decide +kernel

end Verif.Observer.World.Unb
