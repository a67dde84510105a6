import Verif.Observer.WorldInv
/-! Properties C103 (lifetimes) and C104 (copies) of observables and observers. -/
namespace Verif.Observer.World
open Verif Verif.Observer

variable {V U : Type}

/-! ### Tools -/

/-- What was in order when it happened. -/
theorem Fine.at {log : List (Ev V)} (h : Fine log) : ∀ (pre : List (Ev V)) (e : Ev V) (post : List (Ev V)),
    log = pre ++ e :: post → Ok (view pre) e := by
  induction h with
  | nil => intro pre e post h; simp at h
  | snoc l e' _ hok ih =>
    intro pre e post h
    rcases List.eq_nil_or_concat post with hp | ⟨post', x, hp⟩
    · subst hp
      have h2 := List.append_inj' h rfl
      rw [← h2.1]
      have h3 := h2.2
      injection h3 with h3
      rw [← h3]; exact hok
    · subst hp
      have h2 : l ++ [e'] = (pre ++ e :: post') ++ [x] := by rw [h]; simp
      exact ih pre e post' (List.append_inj' h2 rfl).1

theorem Fine.prefix {log : List (Ev V)} (hf : Fine log) :
    ∀ (pre post : List (Ev V)), log = pre ++ post → Fine pre := by
  induction hf with
  | nil => intro pre post h; rw [(List.append_eq_nil_iff.1 h.symm).1]; exact .nil
  | snoc l e hl hok ih =>
    intro pre post h
    rcases List.eq_nil_or_concat post with hp | ⟨post', x, hp⟩
    · subst hp
      rw [List.append_nil] at h
      rw [← h]; exact .snoc l e hl hok
    · subst hp
      rw [List.concat_eq_append, ← List.append_assoc] at h
      exact ih pre post' (List.append_inj' h rfl).1

/-- Callbacks that return at once, possibly leaving another user state. -/
def Quiet (H : Handlers V U) : Prop :=
  (∀ u a o v, ∃ w, H.data u a o v = .ret w) ∧ ∀ u a o, ∃ w, H.disconnect u a o = .ret w

/-- A sequence of operations. -/
def script (rule : Rule V) (mx : Nat) (H : Handlers V U) (n : Nat) : List (Op V) → St V U → Out (St V U)
  | [], s => .ok s
  | op :: ops, s => do
    let r ← exec rule mx H n s op
    script rule mx H n ops r.1

/-- The run is undefined behaviour. -/
def Out.isUb {α : Type} : Out α → Bool
  | .ub => true
  | _ => false

/-- The log at the end of a run. -/
def logOf (x : Out (St V U)) : List (Ev V) :=
  match x with
  | .ok s => s.log
  | _ => []

theorem script_reach {rule : Rule V} {mx : Nat} {H : Handlers V U} {n : Nat} (ops : List (Op V)) :
    ∀ {s s' : St V U}, Reach rule mx H s → script rule mx H n ops s = .ok s' → Reach rule mx H s' := by
  induction ops with
  | nil => intro s s' h hs; injection hs with hs; rw [← hs]; exact h
  | cons op ops ih =>
    intro s s' h hs
    simp only [script] at hs
    cases hx : exec rule mx H n s op with
    | ok r => rw [hx] at hs; exact ih (.call s r.1 n op r.2 h hx) hs
    | ub => rw [hx] at hs; simp at hs
    | deep => rw [hx] at hs; simp at hs
    | foul => rw [hx] at hs; simp at hs

/-! ### C103: no call on an object that does not exist -/

/-- The part of C103 that holds: a client that keeps to the rules `careful` (use only what exists; do
not destroy or assign to an observable that is visiting its observers; deregister an observer before
destroying it; do not destroy it during a visit in which it was registered) never makes the library call an observer, or use an observable,
that does not exist: whatever the callbacks do within the rules. -/
theorem C103_safe_partial {mx : Nat} {H : Handlers V U} {s : St V U} (h : Reach careful mx H s) (n : Nat)
    (op : Op V) : exec careful mx H n s op ≠ .ub := by
  intro hx
  have := exec_ok mx H n s op h.inv
  rw [hx] at this
  exact this

/-- Every callback runs on an observer that exists, on behalf of an observable that exists, and the
observer has been registered with it since the outermost running call began. -/
theorem C103_alive_partial {mx : Nat} {H : Handlers V U} {s : St V U} (h : Reach careful mx H s)
    (pre post : List (Ev V)) (e : Ev V) (hlog : s.log = pre ++ e :: post) (a o : Nat)
    (he : (∃ v, e = .data a o v) ∨ e = .disc a o) :
    a ∈ (view pre).objs ∧ o ∈ (view pre).alive ∧ o ∈ (view pre).held a := by
  have hok := h.inv.fine.at pre e post hlog
  rcases he with ⟨v, rfl⟩ | rfl
  · exact ⟨hok.1, hok.2.1, hok.2.2.1⟩
  · exact ⟨hok.1, hok.2.1, hok.2.2.1⟩

/-- The loop reaches an observer that does not exist. -/
theorem loop_dead {ex : Ex V U} {ev : Nat → Ev V} {p : U → Nat → Prog V U} {a : Nat}
    (hp : ∀ u o, ∃ w, p u o = .ret w) (left : Nat) : ∀ (i j : Nat) (s : St V U) (x : Obj) (o : Nat),
    s.objs a = some x → i ≤ j → j < i + left → x.arr[j]? = some (some o) → o ∉ s.alive →
    loop ex ev p a i left s = .ub := by
  induction left with
  | zero => intro i j s x o _ h1 h2; omega
  | succ left ih =>
    intro i j s x o hx h1 h2 hj ho
    have hget : s.get a = .ok x := by simp [St.get, hx]
    simp only [loop, hget, Out.ok_bind]
    cases hd : x.deref i with
    | ok q =>
      simp only [Out.ok_bind]
      by_cases hq : q ∈ s.alive
      · have : s.enter q (ev q) = .ok (s.emit (ev q)) := by simp [St.enter, hq]
        simp only [this, Out.ok_bind]
        obtain ⟨w, hw⟩ := hp (s.emit (ev q)).user q
        simp only [hw, runProg, Out.ok_bind]
        have hij : i ≠ j := by
          intro hij
          subst hij
          simp only [Obj.deref, hj, Out.ok.injEq] at hd
          exact ho (hd ▸ hq)
        exact ih (i + 1) j _ x o hx (by omega) (by omega) hj ho
      · simp [St.enter, hq]
    | ub => rfl
    | deep => simp only [Obj.deref] at hd; split at hd <;> cases hd
    | foul => simp only [Obj.deref] at hd; split at hd <;> cases hd

/-- An observer in the array does not exist: the next notification, `clear_observers` and the destructor
are undefined. -/
theorem dead_ub {rule : Rule V} {mx : Nat} {H : Handlers V U} (hH : Quiet H) {s : St V U} {a o j : Nat}
    {x : Obj} (hx : s.objs a = some x) (hj : j < x.count) (hle : x.count ≤ x.arr.length)
    (hin : x.inside = false) (hd : x.arr[j]? = some (some o)) (ho : o ∉ s.alive) (n : Nat) (op : Op V)
    (hop : op = .destroy a ∨ op = .clear a ∨ ∃ v, op = .notify a v) (hr : rule (view s.log) op = true) :
    exec rule mx H (n + 1) s op = .ub := by
  have hget : ∀ e, (s.emit e).get a = .ok x := by intro e; simp [St.get, St.emit, hx]
  rcases hop with rfl | rfl | ⟨v, rfl⟩
  · simp only [exec, execStep, hr, if_true, body, clearObs, hget, Out.ok_bind]
    rw [loop_dead (fun u o => hH.2 u a o) x.count 0 j (s.emit (.began (.destroy a))) x o hx (Nat.zero_le _) (by omega) hd ho]
    rfl
  · simp only [exec, execStep, hr, if_true, body, clearObs, hget, Out.ok_bind]
    rw [loop_dead (fun u o => hH.2 u a o) x.count 0 j (s.emit (.began (.clear a))) x o hx (Nat.zero_le _) (by omega) hd ho]
    rfl
  · simp only [exec, execStep, hr, if_true, body, notifyObs, hget, Out.ok_bind]
    rw [if_neg (by omega), hin]
    simp only [Bool.false_eq_true, if_false]
    rw [loop_dead (fun u o => hH.1 u a o v) x.count 0 j
      ((s.emit (.began (.notify a v))).put a { x with inside := true }) { x with inside := true } o
      (upd_same _ _ _) (Nat.zero_le _) (by omega) hd ho]
    rfl

/-- The rule "registered nowhere" is needed for every client: destroying an observer that is
registered with `a` makes the next notification by `a`, `clear_observers` and the destruction of `a`
undefined (callbacks that return at once; `a` is not notifying). -/
theorem C103_registered_ub {mx : Nat} {H : Handlers V U} (hH : Quiet H) {s : St V U}
    (h : Reach careful mx H s) (a o : Nat) (ha : a ∈ (view s.log).objs) (hal : o ∈ (view s.log).alive)
    (ho : o ∈ (view s.log).reg a) (hin : (view s.log).inside a = false) (n m : Nat) (op : Op V)
    (hop : op = .destroy a ∨ op = .clear a ∨ ∃ v, op = .notify a v) :
    ∃ s', exec sane mx H (n + 1) s (.die o) = .ok (s', .ok) ∧ exec sane mx H (m + 1) s' op = .ub := by
  obtain ⟨x, hget, hx, hobj⟩ := h.inv.get ha
  have hs : sane (view s.log) (.die o : Op V) = true := by simpa [sane] using hal
  refine ⟨St.emit { (s.emit (.began (.die o))) with
      alive := (s.emit (.began (.die o))).alive.filter (· != o) } (.ret (.die o) .ok),
    by simp only [exec, execStep, hs, if_true, body, Out.ok_bind], ?_⟩
  obtain ⟨j, hj, hjo⟩ := List.getElem_of_mem ho
  have hjc : j < x.count := by rw [hobj.count]; exact hj
  have hd : x.arr[j]? = some (some o) := by
    have h1 : (x.arr.take x.count)[j]? = x.arr[j]? := by rw [List.getElem?_take]; simp [hjc]
    rw [← h1, hobj.reg, List.getElem?_map, List.getElem?_eq_getElem hj, hjo]; rfl
  generalize ht : St.emit { (s.emit (.began (.die o))) with
      alive := (s.emit (.began (.die o))).alive.filter (· != o) } (.ret (.die o) .ok) = t
  have hto : t.objs a = some x := by rw [← ht]; exact hx
  have hta : o ∉ t.alive := by
    rw [← ht]
    exact fun h' => absurd (List.mem_filter.1 h').2 (by simp)
  have hmem : a ∈ (view t.log).objs := by
    rw [← ht]
    show a ∈ (view (s.log ++ [.began (.die o)] ++ [.ret (.die o) .ok])).objs
    rw [view_snoc, view_snoc]; exact ha
  refine dead_ub hH hto hjc (by rw [hobj.len]; exact hobj.fits) (by rw [hobj.inside]; exact hin) hd
    hta m op hop ?_
  rcases hop with rfl | rfl | ⟨v, rfl⟩
  · simpa [sane] using hmem
  · simpa [sane] using hmem
  · simpa [sane] using hmem

/-- Callbacks that only return. -/
def still : Handlers Nat Unit := ⟨fun _ _ _ _ => .ret (), fun _ _ _ => .ret ()⟩

theorem still_quiet : Quiet still := ⟨fun _ _ _ _ => ⟨(), rfl⟩, fun _ _ _ => ⟨(), rfl⟩⟩

/-- When told by 1, observer 10 removes observer 12 from it and then destroys it. -/
def tidy : Handlers Nat Unit :=
  ⟨fun _ a o _ => if o = 10 then .call (.remove a 12) fun _ _ => .call (.die 12) fun _ _ => .ret ()
    else .ret (), fun _ _ _ => .ret ()⟩

/-- When told, observer 10 destroys the observable. -/
def wreck : Handlers Nat Unit :=
  ⟨fun _ a o _ => if o = 10 then .call (.destroy a) fun _ _ => .ret () else .ret (), fun _ _ _ => .ret ()⟩

/-- When told, observer 10 assigns the observable 2 to the observable. -/
def swap : Handlers Nat Unit :=
  ⟨fun _ a o _ => if o = 10 then .call (.assign a 2) fun _ _ => .ret () else .ret (), fun _ _ _ => .ret ()⟩

/-- An observable with three observers. -/
def three : List (Op Nat) :=
  [.born 10, .born 11, .born 12, .make 1, .add 1 10, .add 1 11, .add 1 12]

/-- Removing an observer before destroying it is not enough: with all rules but `patient`, a callback
that removes the last observer and destroys it makes the running notification call it. -/
theorem C103_removed_refuted :
    (script (fun v op => sane v op && steady v op && apart v op) 4 tidy 5 (three ++ [.notify 1 7])
      (St.new ())).isUb = true := by
  decide +kernel

/-- An observable destroyed by a callback of its own notification, with all other rules kept. -/
theorem C103_destroyed_refuted :
    (script (fun v op => sane v op && apart v op && patient v op) 4 wreck 5 (three ++ [.notify 1 7])
      (St.new ())).isUb = true := by
  decide +kernel

/-- An observable assigned to by a callback of its own notification, with all other rules kept:
nobody is destroyed, the loop goes on into null pointers. -/
theorem C103_assigned_refuted :
    (script (fun v op => sane v op && apart v op && patient v op) 4 swap 5
      (three ++ [.make 2, .notify 1 7]) (St.new ())).isUb = true := by
  decide +kernel

/-- An observer destroyed while registered, another constructed at the same address: the new one is
told although nobody added it. -/
theorem C103_reuse_refuted :
    let log := logOf (script sane 4 still 5
      [.make 1, .born 10, .add 1 10, .die 10, .born 10, .notify 1 7] (St.new ()))
    (log.drop 8).take 6 = [.began (.born 10), .ret (.born 10) .ok, .began (.notify 1 7), .data 1 10 7, .leave 10,
      .ret (.notify 1 7) .ok] ∧ log.length = 14 := by
  decide +kernel

/-! ### C104: copies -/

/-- Who is or was registered has been added to some observable. -/
theorem origin {log : List (Ev V)} (h : Fine log) (o : Nat) : ∀ a,
    o ∈ (view log).reg a ∨ o ∈ (view log).held a → ∃ b, Ev.ret (.add b o) .ok ∈ log := by
  induction h with
  | nil => intro a h; rcases h with h | h <;> simp [view, View.new] at h
  | snoc l e _ _ ih =>
    have up : (∃ b, Ev.ret (.add b o) .ok ∈ l) → ∃ b, Ev.ret (.add b o) .ok ∈ l ++ [e] :=
      fun ⟨b, hb⟩ => ⟨b, List.mem_append_left _ hb⟩
    intro a hx
    rw [view_snoc] at hx
    have hst : ∀ c, o ∈ ((view l).start c).reg a ∨ o ∈ ((view l).start c).held a →
        ∃ b, Ev.ret (.add b o) .ok ∈ l := by
      intro c hc
      rcases hc with hc | hc
      · exact ih a (.inl hc)
      · simp only [View.start] at hc
        split at hc
        · by_cases hac : a = c
          · subst hac; rw [upd_same] at hc; exact ih a (.inl hc)
          · rw [upd_other _ _ hac] at hc; exact ih a (.inr hc)
        · exact ih a (.inr hc)
    have hreg : ∀ c (r : List Nat), (∀ x ∈ r, x = o → ∃ b, Ev.ret (.add b o) .ok ∈ l) →
        o ∈ upd (view l).reg c r a ∨ o ∈ (view l).held a → ∃ b, Ev.ret (.add b o) .ok ∈ l := by
      intro c r hr hc
      rcases hc with hc | hc
      · by_cases hac : a = c
        · subst hac; rw [upd_same] at hc; exact hr o hc rfl
        · rw [upd_other _ _ hac] at hc; exact ih a (.inl hc)
      · exact ih a (.inr hc)
    cases e with
    | data => exact up (ih a hx)
    | disc => exact up (ih a hx)
    | leave => exact up (ih a hx)
    | began op =>
      apply up
      cases op with
      | clear c => exact hst c hx
      | destroy c => exact hst c hx
      | notify c v => exact hst c hx
      | _ => exact ih a hx
    | ret op e =>
      cases op with
      | make c => exact up (hreg c [] (fun _ h => by simp at h) hx)
      | copy c d => exact up (hreg c _ (fun x hx' he => ih d (.inl (he ▸ hx'))) hx)
      | assign c d => exact up (hreg c _ (fun x hx' he => ih d (.inl (he ▸ hx'))) hx)
      | destroy c => exact up (hreg c [] (fun _ h => by simp at h) hx)
      | clear c => exact up (hreg c [] (fun _ h => by simp at h) hx)
      | born => exact up (ih a hx)
      | die => exact up (ih a hx)
      | notify c v => cases e <;> exact up (ih a hx)
      | remove c p =>
        cases e
        case ok =>
          exact up (hreg c _ (fun x hx' he => ih c (.inl (he ▸ (List.mem_filter.1 hx').1))) hx)
        all_goals exact up (ih a hx)
      | add c p =>
        cases e
        case ok =>
          by_cases hp : p = o
          · subst hp; exact ⟨c, by simp⟩
          · apply up
            have hpo : ∀ l' : List Nat, o ∈ l' ++ [p] → o ∈ l' := by
              intro l' hl'
              rcases List.mem_append.1 hl' with h | h
              · exact h
              · exact absurd (List.mem_singleton.1 h).symm hp
            by_cases hac : a = c
            · subst hac
              simp only [View.see, View.ended, upd_same] at hx
              rcases hx with hx | hx
              · exact ih a (.inl (hpo _ hx))
              · exact ih a (.inr (hpo _ hx))
            · simp only [View.see, View.ended, upd_other _ _ hac] at hx
              exact ih a hx
        all_goals exact up (ih a hx)

/-- Who is or was registered with `a` has been added to `a`, or `a` was made a copy of another. -/
theorem own_origin {log : List (Ev V)} (h : Fine log) (o a : Nat)
    (hx : o ∈ (view log).reg a ∨ o ∈ (view log).held a) : Ev.ret (.add a o) .ok ∈ log ∨
      ∃ b e, Ev.ret (.copy a b) e ∈ log ∨ Ev.ret (.assign a b) e ∈ log := by
  induction h with
  | nil => rcases hx with h | h <;> simp [view, View.new] at h
  | snoc l e _ _ ih =>
    have up : (Ev.ret (.add a o) .ok ∈ l ∨ ∃ b e, Ev.ret (.copy a b) e ∈ l ∨ Ev.ret (.assign a b) e ∈ l) →
        Ev.ret (.add a o) .ok ∈ l ++ [e] ∨
          ∃ b e', Ev.ret (.copy a b) e' ∈ l ++ [e] ∨ Ev.ret (.assign a b) e' ∈ l ++ [e] := by
      rintro (h | ⟨b, e', h | h⟩)
      · exact .inl (List.mem_append_left _ h)
      · exact .inr ⟨b, e', .inl (List.mem_append_left _ h)⟩
      · exact .inr ⟨b, e', .inr (List.mem_append_left _ h)⟩
    rw [view_snoc] at hx
    have hst : ∀ c, o ∈ ((view l).start c).reg a ∨ o ∈ ((view l).start c).held a →
        o ∈ (view l).reg a ∨ o ∈ (view l).held a := by
      intro c hc
      rcases hc with hc | hc
      · exact .inl hc
      · simp only [View.start] at hc
        split at hc
        · by_cases hac : a = c
          · subst hac; rw [upd_same] at hc; exact .inl hc
          · rw [upd_other _ _ hac] at hc; exact .inr hc
        · exact .inr hc
    have hreg : ∀ c (r : List Nat), (a = c → o ∈ r → o ∈ (view l).reg a) →
        o ∈ upd (view l).reg c r a ∨ o ∈ (view l).held a → o ∈ (view l).reg a ∨ o ∈ (view l).held a := by
      intro c r hr hc
      rcases hc with hc | hc
      · by_cases hac : a = c
        · have := hr hac
          subst hac; rw [upd_same] at hc; exact .inl (this hc)
        · rw [upd_other _ _ hac] at hc; exact .inl hc
      · exact .inr hc
    cases e with
    | data => exact up (ih hx)
    | disc => exact up (ih hx)
    | leave => exact up (ih hx)
    | began op =>
      apply up
      cases op with
      | clear c => exact ih (hst c hx)
      | destroy c => exact ih (hst c hx)
      | notify c v => exact ih (hst c hx)
      | _ => exact ih hx
    | ret op e =>
      cases op with
      | make c => exact up (ih (hreg c [] (fun _ h => by simp at h) hx))
      | copy c d =>
        by_cases hac : a = c
        · subst hac; exact .inr ⟨d, e, .inl (by simp)⟩
        · exact up (ih (hreg c _ (fun h => absurd h hac) hx))
      | assign c d =>
        by_cases hac : a = c
        · subst hac; exact .inr ⟨d, e, .inr (by simp)⟩
        · exact up (ih (hreg c _ (fun h => absurd h hac) hx))
      | destroy c => exact up (ih (hreg c [] (fun _ h => by simp at h) hx))
      | clear c => exact up (ih (hreg c [] (fun _ h => by simp at h) hx))
      | born => exact up (ih hx)
      | die => exact up (ih hx)
      | notify c v => cases e <;> exact up (ih hx)
      | remove c p =>
        cases e
        case ok =>
          exact up (ih (hreg c _ (fun h hm => by subst h; exact (List.mem_filter.1 hm).1) hx))
        all_goals exact up (ih hx)
      | add c p =>
        cases e
        case ok =>
          by_cases hac : a = c
          · subst hac
            by_cases hp : p = o
            · subst hp; exact .inl (by simp)
            · apply up
              have hpo : ∀ l' : List Nat, o ∈ l' ++ [p] → o ∈ l' := by
                intro l' hl'
                rcases List.mem_append.1 hl' with h | h
                · exact h
                · exact absurd (List.mem_singleton.1 h).symm hp
              simp only [View.see, View.ended, upd_same] at hx
              rcases hx with hx | hx
              · exact ih (.inl (hpo _ hx))
              · exact ih (.inr (hpo _ hx))
          · apply up
            simp only [View.see, View.ended, upd_other _ _ hac] at hx
            exact ih hx
        all_goals exact up (ih hx)

/-- An observer is only called after it was added to some observable. -/
theorem C104_added {mx : Nat} {H : Handlers V U} {s : St V U} (h : Reach careful mx H s)
    (pre post : List (Ev V)) (e : Ev V) (hlog : s.log = pre ++ e :: post) (a o : Nat)
    (he : (∃ v, e = .data a o v) ∨ e = .disc a o) : ∃ b, Ev.ret (.add b o) .ok ∈ pre := by
  exact origin (h.inv.fine.prefix pre _ hlog) o a (.inr (C103_alive_partial h pre post e hlog a o he).2.2)

/-- An observer is only called by an observable it was added to, unless that observable was made a
copy of another.  Without the exception this is false (`C104_own_refuted`). -/
theorem C104_own_partial {mx : Nat} {H : Handlers V U} {s : St V U} (h : Reach careful mx H s)
    (pre post : List (Ev V)) (e : Ev V) (hlog : s.log = pre ++ e :: post) (a o : Nat)
    (he : (∃ v, e = .data a o v) ∨ e = .disc a o) (hcopy : ∀ b e, Ev.ret (.copy a b) e ∉ pre)
    (hassign : ∀ b e, Ev.ret (.assign a b) e ∉ pre) : Ev.ret (.add a o) .ok ∈ pre := by
  rcases own_origin (h.inv.fine.prefix pre _ hlog) o a
    (.inr (C103_alive_partial h pre post e hlog a o he).2.2) with h' | ⟨b, e, h' | h'⟩
  · exact h'
  · exact absurd h' (hcopy b e)
  · exact absurd h' (hassign b e)

/-- While an accepted notification of `a` is running there is one only and the flag is set. -/
theorem noting_inside {log : List (Ev V)} (h : Fine log) (a : Nat) :
    (view log).noting a ≤ 1 ∧ (0 < (view log).noting a → (view log).inside a = true) := by
  induction h with
  | nil => exact ⟨Nat.zero_le _, fun h => by simp [view, View.new] at h⟩
  | snoc l e _ hok ih =>
    rw [view_snoc]
    cases e with
    | data => exact ih
    | disc => exact ih
    | leave => exact ih
    | began op =>
      cases op with
      | notify c v =>
        simp only [View.see, View.began]
        by_cases hac : a = c
        · subst hac
          simp only [upd_same]
          split
          · exact ⟨ih.1, fun _ => trivial⟩
          · rename_i hin
            have h0 : (view l).noting a = 0 := by
              have := ih.2
              cases hb : (view l).inside a with
              | true => exact absurd hb hin
              | false => rw [hb] at this; have := this; simp at this; exact this
            rw [upd_same]
            exact ⟨by omega, fun _ => trivial⟩
        · rw [upd_other _ _ hac]
          split
          · exact ih
          · rw [upd_other _ _ hac]; exact ih
      | _ => exact ih
    | ret op e =>
      cases op with
      | make c =>
        simp only [View.see, View.ended]
        by_cases hac : a = c
        · subst hac
          exact ⟨ih.1, fun hp => by have := hok.2; omega⟩
        · rw [upd_other _ _ hac]; exact ih
      | copy c d =>
        simp only [View.see, View.ended]
        by_cases hac : a = c
        · subst hac
          exact ⟨ih.1, fun hp => by have := hok.2.2; omega⟩
        · rw [upd_other _ _ hac]; exact ih
      | assign c d =>
        simp only [View.see, View.ended]
        by_cases hac : a = c
        · subst hac
          exact ⟨ih.1, fun hp => by have := hok.2.2; omega⟩
        · rw [upd_other _ _ hac]; exact ih
      | notify c v =>
        cases e
        case ok =>
          simp only [View.see, View.ended]
          by_cases hac : a = c
          · subst hac
            simp only [upd_same]
            exact ⟨by omega, fun hp => by omega⟩
          · simp only [upd_other _ _ hac]; exact ih
        all_goals exact ih
      | remove c p => cases e <;> exact ih
      | add c p => cases e <;> exact ih
      | _ => exact ih

/-- An observable with the flag set and no notification running stays so. -/
theorem mute_post {a : Nat} (post : List (Ev V)) : ∀ (pre : List (Ev V)), Fine (pre ++ post) →
    a ∈ (view pre).objs → (view pre).inside a = true → (view pre).noting a = 0 →
    (∀ e, Ev.ret (.destroy a) e ∉ post) → (∀ b e, Ev.ret (.assign a b) e ∉ post) →
    (∀ o v, Ev.data a o v ∉ post) ∧
      ∀ v e, Ev.ret (.notify a v) e ∈ post → e = .notifyRecursionDetected := by
  induction post with
  | nil => intro pre _ _ _ _ _ _; exact ⟨fun _ _ => List.not_mem_nil, fun _ _ h => absurd h List.not_mem_nil⟩
  | cons e post ih =>
    intro pre hf ha hin hno hd has
    have hok := hf.at pre e post rfl
    have hf' : Fine ((pre ++ [e]) ++ post) := by simpa using hf
    have key : a ∈ (view (pre ++ [e])).objs ∧ (view (pre ++ [e])).inside a = true ∧
        (view (pre ++ [e])).noting a = 0 ∧ (∀ o v, e ≠ .data a o v) ∧
        (∀ v r, e = .ret (.notify a v) r → r = .notifyRecursionDetected) := by
      rw [view_snoc]
      cases e with
      | data c o v =>
        refine ⟨ha, hin, hno, ?_, fun _ _ h => by cases h⟩
        rintro _ _ h
        cases h
        have := hok.2.2.2.2
        omega
      | disc => exact ⟨ha, hin, hno, fun _ _ h => (by cases h), fun _ _ h => by cases h⟩
      | leave => exact ⟨ha, hin, hno, fun _ _ h => (by cases h), fun _ _ h => by cases h⟩
      | began op =>
        refine ⟨?_, ?_, ?_, fun _ _ h => (by cases h), fun _ _ h => by cases h⟩
        · cases op <;> exact ha
        · cases op with
          | notify c v =>
            simp only [View.see, View.began]
            by_cases hac : a = c
            · subst hac; rw [upd_same]
            · rw [upd_other _ _ hac]; exact hin
          | _ => exact hin
        · cases op with
          | notify c v =>
            simp only [View.see, View.began]
            by_cases hac : a = c
            · subst hac; rw [if_pos hin]; exact hno
            · split
              · exact hno
              · rw [upd_other _ _ hac]; exact hno
          | _ => exact hno
      | ret op r =>
        refine ⟨?_, ?_, ?_, fun _ _ h => (by cases h), ?_⟩
        · cases op with
          | make c => exact List.mem_cons_of_mem _ ha
          | copy c d => exact List.mem_cons_of_mem _ ha
          | destroy c =>
            have : a ≠ c := fun h => hd r (h ▸ List.mem_cons_self)
            exact List.mem_filter.2 ⟨ha, by simpa using this⟩
          | notify c v => cases r <;> exact ha
          | remove c p => cases r <;> exact ha
          | add c p => cases r <;> exact ha
          | _ => exact ha
        · cases op with
          | make c =>
            have : a ≠ c := fun h => hok.1 (h ▸ ha)
            simp only [View.see, View.ended, upd_other _ _ this]; exact hin
          | copy c d =>
            have : a ≠ c := fun h => hok.1 (h ▸ ha)
            simp only [View.see, View.ended, upd_other _ _ this]; exact hin
          | assign c d =>
            have : a ≠ c := fun h => has d r (h ▸ List.mem_cons_self)
            simp only [View.see, View.ended, upd_other _ _ this]; exact hin
          | notify c v =>
            cases r
            case ok =>
              have : a ≠ c := by
                intro h
                subst h
                rcases hok.2.2 with h | h
                · omega
                · exact absurd h.1 (by simp)
              simp only [View.see, View.ended, upd_other _ _ this]; exact hin
            all_goals exact hin
          | remove c p => cases r <;> exact hin
          | add c p => cases r <;> exact hin
          | _ => exact hin
        · cases op with
          | notify c v =>
            cases r
            case ok =>
              simp only [View.see, View.ended]
              by_cases hac : a = c
              · subst hac; rw [upd_same]; omega
              · rw [upd_other _ _ hac]; exact hno
            all_goals exact hno
          | remove c p => cases r <;> exact hno
          | add c p => cases r <;> exact hno
          | _ => exact hno
        · rintro v r' h
          cases h
          rcases hok.2.2 with h | h
          · omega
          · exact h.1
    obtain ⟨i1, i2⟩ := ih (pre ++ [e]) hf' key.1 key.2.1 key.2.2.1
      (fun r h => hd r (List.mem_cons_of_mem _ h)) (fun b r h => has b r (List.mem_cons_of_mem _ h))
    refine ⟨?_, ?_⟩
    · intro o v h
      rcases List.mem_cons.1 h with h | h
      · exact key.2.2.2.1 o v h.symm
      · exact i1 o v h
    · intro v r h
      rcases List.mem_cons.1 h with h | h
      · exact key.2.2.2.2 v r h.symm
      · exact i2 v r h

/-- A copy taken while the original is notifying never notifies: every `notify_observers` on it
reports a recursion and calls nobody, until it is destroyed or assigned to. -/
theorem C104_mute {mx : Nat} {H : Handlers V U} {s : St V U} (h : Reach careful mx H s)
    (pre post : List (Ev V)) (a b : Nat) (e : Err) (hlog : s.log = pre ++ .ret (.copy a b) e :: post)
    (hb : 0 < (view pre).noting b) (hd : ∀ e, Ev.ret (.destroy a) e ∉ post)
    (has : ∀ c e, Ev.ret (.assign a c) e ∉ post) :
    (∀ o v, Ev.data a o v ∉ post) ∧
      ∀ v e, Ev.ret (.notify a v) e ∈ post → e = .notifyRecursionDetected := by
  have hf := h.inv.fine
  have hok := hf.at pre _ post hlog
  have hin := (noting_inside (hf.prefix pre _ hlog) b).2 hb
  refine mute_post post (pre ++ [.ret (.copy a b) e]) (by rw [hlog] at hf; simpa using hf) ?_ ?_ ?_ hd has
  · rw [view_snoc]; exact List.mem_cons_self
  · rw [view_snoc]; simp only [View.see, View.ended, upd_same]; exact hin
  · rw [view_snoc]; exact hok.2.2

/-- The loop with callbacks that return at once. -/
theorem loop_quiet {ex : Ex V U} {ev : Nat → Ev V} {p : U → Nat → Prog V U} {a : Nat}
    (hp : ∀ u o, ∃ w, p u o = .ret w) (L : List Nat) : ∀ (i : Nat) (s : St V U) (x : Obj),
    s.objs a = some x → (∀ j (h : j < L.length), x.arr[i + j]? = some (some L[j])) → (∀ o ∈ L, o ∈ s.alive) →
    ∃ w, loop ex ev p a i L.length s =
      .ok { s with user := w, log := s.log ++ L.flatMap fun o => [ev o, .leave o] } := by
  induction L with
  | nil => intro i s x _ _ _; exact ⟨s.user, by simp [loop]⟩
  | cons o L ih =>
    intro i s x hx hj hal
    have hget : s.get a = .ok x := by simp [St.get, hx]
    have h0 : x.deref i = .ok o := by
      have h1 := hj 0 (by simp)
      simp only [Nat.add_zero, List.getElem_cons_zero] at h1
      simp [Obj.deref, h1]
    have hent : s.enter o (ev o) = .ok (s.emit (ev o)) := by
      simp [St.enter, hal o List.mem_cons_self]
    obtain ⟨w, hw⟩ := hp (s.emit (ev o)).user o
    obtain ⟨u, hu⟩ := ih (i + 1) (({ (s.emit (ev o)) with user := w } : St V U).emit (.leave o)) x hx
      (by
        intro j hjl
        have := hj (j + 1) (by simpa using hjl)
        rw [show i + 1 + j = i + (j + 1) by omega, this]; rfl)
      (fun q hq => hal q (List.mem_cons_of_mem _ hq))
    refine ⟨u, ?_⟩
    simp only [List.length_cons, loop, hget, h0, hent, hw, runProg, Out.ok_bind]
    rw [hu]
    simp [St.emit]

/-- With callbacks that return at once: a notification calls those registered, once each, in the order
in which they were added, and nobody else. -/
theorem notify_quiet {mx : Nat} {H : Handlers V U} (hH : Quiet H) {s : St V U} (h : Inv mx s) {a : Nat}
    (ha : a ∈ (view s.log).objs) (hin : (view s.log).inside a = false) (n : Nat) (v : V) :
    ∃ s', exec careful mx H (n + 1) s (.notify a v) = .ok (s', .ok) ∧
      s'.log = s.log ++ [.began (.notify a v)] ++
        (((view s.log).reg a).flatMap fun o => [.data a o v, .leave o]) ++ [.ret (.notify a v) .ok] := by
  obtain ⟨x, hget, hx, hobj⟩ := h.get ha
  have hc : careful (view s.log) (.notify a v) = true := by simp [careful, sane, steady, apart, patient, ha]
  have hxi : x.inside = false := by rw [hobj.inside]; exact hin
  have hle : ¬ x.count > x.arr.length := by have := hobj.len; have := hobj.fits; omega
  generalize ht : (s.emit (.began (.notify a v))).put a { x with inside := true } = t
  have hto : t.objs a = some { x with inside := true } := by rw [← ht]; exact upd_same _ _ _
  have htl : t.log = s.log ++ [.began (.notify a v)] := by rw [← ht]; rfl
  obtain ⟨w, hw⟩ := loop_quiet (ex := exec careful mx H n) (ev := fun o => .data a o v)
    (p := fun u o => H.data u a o v) (fun u o => hH.1 u a o v) ((view s.log).reg a) 0 t _ hto
    (by
      intro j hj
      have h1 : (x.arr.take x.count)[j]? = x.arr[j]? := by
        rw [List.getElem?_take]; simp [hobj.count, hj]
      rw [Nat.zero_add]
      show x.arr[j]? = _
      rw [← h1, hobj.reg, List.getElem?_map, List.getElem?_eq_getElem hj]; rfl)
    (by
      intro o ho
      rw [← ht]
      show o ∈ s.alive
      rw [h.alive]; exact hobj.alive o ho)
  refine ⟨(({ t with user := w, log := t.log ++ ((view s.log).reg a).flatMap fun o => [.data a o v, .leave o] }
    : St V U).put a { x with count := ((view s.log).reg a).length, inside := false }).emit (.ret (.notify a v) .ok), ?_, ?_⟩
  · simp only [exec, execStep, hc, if_true, body, notifyObs, get_emit, hget, Out.ok_bind, if_neg hle, hxi,
      Bool.false_eq_true, if_false, ht]
    rw [show x.count = ((view s.log).reg a).length from hobj.count, hw]
    simp only [Out.ok_bind, St.get, hto]
    rw [hobj.count]
  · simp [St.put, St.emit, htl]

/-- The same for `clear_observers` and the destructor: those registered are told. -/
theorem clear_quiet {mx : Nat} {H : Handlers V U} (hH : Quiet H) {s : St V U} (h : Inv mx s) {a : Nat}
    (ha : a ∈ (view s.log).objs) (n : Nat) (op : Op V)
    (hop : op = .clear a ∨ (op = .destroy a ∧ (view s.log).run a = 0)) :
    ∃ s', exec careful mx H (n + 1) s op = .ok (s', .ok) ∧
      s'.log = s.log ++ [.began op] ++ (((view s.log).reg a).flatMap fun o => [.disc a o, .leave o]) ++
        [.ret op .ok] := by
  obtain ⟨x, hget, hx, hobj⟩ := h.get ha
  have hc : careful (view s.log) op = true := by
    rcases hop with rfl | ⟨rfl, hr⟩
    · simp [careful, sane, steady, apart, patient, ha]
    · simp [careful, sane, steady, apart, patient, ha, hr]
  obtain ⟨w, hw⟩ := loop_quiet (ex := exec careful mx H n) (ev := fun o => .disc a o)
    (p := fun u o => H.disconnect u a o) (fun u o => hH.2 u a o) ((view s.log).reg a) 0
    (s.emit (.began op)) _ hx
    (by
      intro j hj
      have h1 : (x.arr.take x.count)[j]? = x.arr[j]? := by
        rw [List.getElem?_take]; simp [hobj.count, hj]
      rw [Nat.zero_add, ← h1, hobj.reg, List.getElem?_map, List.getElem?_eq_getElem hj]; rfl)
    (by
      intro o ho
      show o ∈ s.alive
      rw [h.alive]; exact hobj.alive o ho)
  rcases hop with rfl | ⟨rfl, hr⟩
  · refine ⟨(({ (s.emit (.began (.clear a))) with user := w, log := (s.emit (.began (.clear a))).log ++ ((view s.log).reg a).flatMap fun o => [.disc a o, .leave o] }
      : St V U).put a { x with count := 0 }).emit (.ret (.clear a) .ok), ?_, ?_⟩
    · simp only [exec, execStep, hc, if_true, body, clearObs, get_emit, hget, Out.ok_bind]
      rw [hobj.count, hw]
      simp only [Out.ok_bind, St.get, St.emit, hx]
    · simp [St.put, St.emit]
  · refine ⟨((({ (s.emit (.began (.destroy a))) with user := w, log := (s.emit (.began (.destroy a))).log ++ ((view s.log).reg a).flatMap fun o => [.disc a o, .leave o] }
      : St V U).put a { x with count := 0 }).drop a).emit (.ret (.destroy a) .ok), ?_, ?_⟩
    · simp only [exec, execStep, hc, if_true, body, clearObs, get_emit, hget, Out.ok_bind]
      rw [hobj.count, hw]
      simp only [Out.ok_bind, St.get, St.emit, hx]
    · simp [St.put, St.emit, St.drop]

/-- What a copy does to the log and to what it tells. -/
theorem copy_run {mx : Nat} {H : Handlers V U} {s s1 : St V U} (h : Reach careful mx H s) {n a b : Nat}
    {e : Err} {op : Op V} (hop : op = .copy a b ∨ op = .assign a b)
    (hx : exec careful mx H n s op = .ok (s1, e)) :
    Inv mx s1 ∧ s1.log = s.log ++ [.began op, .ret op .ok] ∧ a ∈ (view s1.log).objs ∧
      (view s1.log).reg a = (view s.log).reg b ∧ (view s1.log).inside a = (view s.log).inside b ∧
      (view s1.log).run = (view s.log).run := by
  have hinv : Inv mx s1 := (Reach.call s s1 n op e h hx).inv
  cases n with
  | zero => simp [exec] at hx
  | succ n =>
    simp only [exec, execStep] at hx
    split at hx
    case isFalse => cases hx
    case isTrue hc =>
      rcases hop with rfl | rfl
      · have hab : b ∈ (view s.log).objs := by
          simp only [careful, sane, Bool.and_eq_true, decide_eq_true_eq] at hc
          exact hc.1.1.1.2
        obtain ⟨x, hget, -, -⟩ := h.inv.get hab
        simp only [body, get_emit, hget, Out.ok_bind, Out.ok.injEq, Prod.mk.injEq] at hx
        have hl : s1.log = s.log ++ [.began (.copy a b), .ret (.copy a b) .ok] := by
          rw [← hx.1]; simp [St.emit, St.put]
        have hv : view s1.log = (view s.log).ended (.copy a b : Op V) .ok := by
          rw [hl, show s.log ++ [Ev.began (.copy a b), .ret (.copy a b) .ok] =
            s.log ++ [.began (.copy a b)] ++ [.ret (.copy a b) .ok] by simp, view_snoc, view_snoc]
          rfl
        refine ⟨hinv, hl, ?_⟩
        rw [hv]
        exact ⟨List.mem_cons_self, by simp [View.ended], by simp [View.ended], rfl⟩
      · have hab : a ∈ (view s.log).objs ∧ b ∈ (view s.log).objs := by
          simp only [careful, sane, Bool.and_eq_true, decide_eq_true_eq] at hc
          exact hc.1.1.1
        obtain ⟨x, hget, -, -⟩ := h.inv.get hab.2
        obtain ⟨y, hget', -, -⟩ := h.inv.get hab.1
        simp only [body, get_emit, hget, hget', Out.ok_bind, Out.ok.injEq, Prod.mk.injEq] at hx
        have hl : s1.log = s.log ++ [.began (.assign a b), .ret (.assign a b) .ok] := by
          rw [← hx.1]; simp [St.emit, St.put]
        have hv : view s1.log = (view s.log).ended (.assign a b : Op V) .ok := by
          rw [hl, show s.log ++ [Ev.began (.assign a b), .ret (.assign a b) .ok] =
            s.log ++ [.began (.assign a b)] ++ [.ret (.assign a b) .ok] by simp, view_snoc, view_snoc]
          rfl
        refine ⟨hinv, hl, ?_⟩
        rw [hv]
        exact ⟨hab.1, by simp [View.ended], by simp [View.ended], rfl⟩

/-- A copy, and an observable that was assigned to, tells those registered with the original: exactly
these, in their order, as if they had been added to it. -/
theorem C104_copy_tells {mx : Nat} {H : Handlers V U} (hH : Quiet H) {s s1 : St V U}
    (h : Reach careful mx H s) {n a b : Nat} {e : Err} {op : Op V}
    (hop : op = .copy a b ∨ op = .assign a b) (hx : exec careful mx H n s op = .ok (s1, e))
    (hin : (view s.log).inside b = false) (m : Nat) (v : V) :
    ∃ s2, exec careful mx H (m + 1) s1 (.notify a v) = .ok (s2, .ok) ∧
      s2.log = s1.log ++ [.began (.notify a v)] ++
        (((view s.log).reg b).flatMap fun o => [.data a o v, .leave o]) ++ [.ret (.notify a v) .ok] := by
  obtain ⟨hinv, -, ha, hreg, hi, -⟩ := copy_run h hop hx
  rw [← hreg]
  exact notify_quiet hH hinv ha (by rw [hi]; exact hin) m v

/-- The destructor of a copy tells those registered with the original that they are disconnected. -/
theorem C104_copy_disconnects {mx : Nat} {H : Handlers V U} (hH : Quiet H) {s s1 : St V U}
    (h : Reach careful mx H s) {n a b : Nat} {e : Err}
    (hx : exec careful mx H n s (.copy a b) = .ok (s1, e)) (ha : a ∉ (view s.log).objs) (m : Nat) :
    ∃ s2, exec careful mx H (m + 1) s1 (.destroy a) = .ok (s2, .ok) ∧
      s2.log = s1.log ++ [.began (.destroy a)] ++
        (((view s.log).reg b).flatMap fun o => [.disc a o, .leave o]) ++ [.ret (.destroy a) .ok] := by
  obtain ⟨hinv, -, ha', hreg, -, hr⟩ := copy_run h (.inl rfl) hx
  rw [← hreg]
  exact clear_quiet hH hinv ha' m _ (.inr ⟨rfl, by rw [hr]; exact h.inv.idle a ha⟩)

/-- Neither copying nor assigning tells anybody anything; those who were registered with the target of
an assignment and not with its source lose their place without a `disconnect`. -/
theorem C104_assign_silent {mx : Nat} {H : Handlers V U} {s s1 : St V U} (h : Reach careful mx H s)
    {n a b : Nat} {e : Err} {op : Op V} (hop : op = .copy a b ∨ op = .assign a b)
    (hx : exec careful mx H n s op = .ok (s1, e)) : s1.log = s.log ++ [.began op, .ret op .ok] :=
  (copy_run h hop hx).2.1

/-- Nobody is registered twice. -/
theorem reg_nodup {log : List (Ev V)} (h : Fine log) : ∀ a, ((view log).reg a).Nodup := by
  induction h with
  | nil => intro a; exact List.nodup_nil
  | snoc l e _ hok ih =>
    intro a
    rw [view_snoc]
    have hupd : ∀ c (r : List Nat), r.Nodup → (upd (view l).reg c r a).Nodup := by
      intro c r hr
      by_cases hac : a = c
      · subst hac; rw [upd_same]; exact hr
      · rw [upd_other _ _ hac]; exact ih a
    cases e with
    | data => exact ih a
    | disc => exact ih a
    | leave => exact ih a
    | began op => cases op <;> exact ih a
    | ret op e =>
      cases op with
      | make c => exact hupd c [] List.nodup_nil
      | copy c d => exact hupd c _ (ih d)
      | assign c d => exact hupd c _ (ih d)
      | destroy c => exact hupd c [] List.nodup_nil
      | clear c => exact hupd c [] List.nodup_nil
      | born => exact ih a
      | die => exact ih a
      | notify c v => cases e <;> exact ih a
      | remove c p =>
        cases e
        case ok => exact hupd c _ ((ih c).sublist List.filter_sublist)
        all_goals exact ih a
      | add c p =>
        cases e
        case ok =>
          refine hupd c _ ?_
          have hp := hok.1 rfl
          rw [List.nodup_append]
          refine ⟨ih c, by simp, ?_⟩
          intro x hx y hy hxy
          rw [List.mem_singleton.1 hy] at hxy
          exact hp (hxy ▸ hx)
        all_goals exact ih a

/-- Whatever happens to the objects, what the operations report is right: the registrations that the
reports imply have no repetition and fit, `add_observer` is accepted only for an observer that is not
registered and called a repetition only if it is, and `remove_observer` succeeds exactly for those
registered. -/
theorem C104_reports {mx : Nat} {H : Handlers V U} {s : St V U} (h : Reach careful mx H s)
    (pre post : List (Ev V)) (a o : Nat) (e : Err) :
    ((view s.log).reg a).Nodup ∧ (a ∈ (view s.log).objs → ((view s.log).reg a).length ≤ mx) ∧
    (s.log = pre ++ .ret (.add a o) e :: post → (e = .ok → o ∉ (view pre).reg a) ∧
      (e = .alreadyContains → o ∈ (view pre).reg a) ∧ (e = .ok ∨ e = .alreadyContains ∨ e = .listIsFull)) ∧
    (s.log = pre ++ .ret (.remove a o) e :: post →
      (e = .ok ∧ o ∈ (view pre).reg a) ∨ (e = .notFound ∧ o ∉ (view pre).reg a)) := by
  refine ⟨reg_nodup h.inv.fine a, ?_, fun hl => h.inv.fine.at pre _ post hl,
    fun hl => h.inv.fine.at pre _ post hl⟩
  intro ha
  obtain ⟨x, -, -, hobj⟩ := h.inv.get ha
  rw [← hobj.count]; exact hobj.fits

/-- `add_observer` is refused exactly if the observable is full or the observer registered. -/
theorem C104_add {mx : Nat} {H : Handlers V U} {s : St V U} (h : Reach careful mx H s) (a o n : Nat)
    (ha : a ∈ (view s.log).objs) (ho : o ∈ (view s.log).alive) :
    ∃ s', exec careful mx H (n + 1) s (.add a o) = .ok (s',
      if mx ≤ ((view s.log).reg a).length then .listIsFull
      else if o ∈ (view s.log).reg a then .alreadyContains else .ok) := by
  obtain ⟨x, hget, hx, hobj⟩ := h.inv.get ha
  have hc : careful (view s.log) (.add a o : Op V) = true := by
    simp [careful, sane, steady, apart, patient, ha, ho]
  refine ⟨((s.emit (.began (.add a o))).put a (x.add o).1).emit (.ret (.add a o) (x.add o).2), ?_⟩
  simp only [exec, execStep, hc, if_true, body, get_emit, hget, Out.ok_bind, Out.ok.injEq, Prod.mk.injEq,
    true_and]
  have hi := Obj.contains_iff hobj o
  unfold Obj.add
  rw [hobj.len, hobj.count]
  by_cases hf : mx ≤ ((view s.log).reg a).length
  · rw [if_pos hf, if_pos hf]
  · rw [if_neg hf, if_neg hf]
    by_cases hm : o ∈ (view s.log).reg a
    · rw [if_pos hm, hi.2 hm]; rfl
    · rw [if_neg hm]
      have : x.contains o = false := by
        cases hb : x.contains o with
        | false => rfl
        | true => exact absurd (hi.1 hb) hm
      rw [this]; rfl

/-! ### Examples -/

/-- When told by 1, observer 10 copies it to 2. -/
def cloner : Handlers Nat Unit :=
  ⟨fun _ a o _ => if o = 10 ∧ a = 1 then .call (.copy 2 1) fun _ _ => .ret () else .ret (),
    fun _ _ _ => .ret ()⟩

/-- The claim of `C104_own_partial` without its exception is false: 10 was added to 1 only, and is
told by the copy 2. -/
theorem C104_own_refuted :
    let log := logOf (script careful 4 still 5
      [.born 10, .make 1, .add 1 10, .copy 2 1, .notify 2 7] (St.new ()))
    Ev.data 2 10 7 ∈ log ∧ Ev.ret (.add 2 10) .ok ∉ log := by
  decide +kernel

/-- Observer 11 loses its place in an assignment and is never told. -/
theorem C104_assign_refuted :
    let log := logOf (script careful 4 still 5
      [.born 11, .make 1, .add 1 11, .make 2, .assign 1 2, .notify 1 7, .destroy 1] (St.new ()))
    Ev.ret (.add 1 11) .ok ∈ log ∧ Ev.ret (.destroy 1) .ok ∈ log ∧ Ev.disc 1 11 ∉ log ∧
      Ev.data 1 11 7 ∉ log := by
  decide +kernel

/-- A copy taken during a notification: it has an observer and refuses to notify. -/
example :
    let log := logOf (script careful 4 cloner 5
      [.born 10, .make 1, .add 1 10, .notify 1 7, .notify 2 8] (St.new ()))
    Ev.ret (.copy 2 1) .ok ∈ log ∧ Ev.ret (.notify 2 8) .notifyRecursionDetected ∈ log ∧
      (view log).reg 2 = [10] := by
  decide +kernel

/-- A long disciplined run with nested destruction that keeps to all rules: when told by 1, observer 10
destroys observer 13 and the observable 3 (with which 13 was registered until then), and makes others. -/
def busy : Handlers Nat Unit :=
  ⟨fun _ a o v => if o = 10 ∧ a = 1 ∧ v = 7 then
      .call (.remove 3 13) fun _ _ => .call (.die 13) fun _ _ => .call (.destroy 3) fun _ _ =>
      .call (.born 14) fun _ _ => .call (.add 1 14) fun _ _ => .call (.copy 3 1) fun _ _ => .ret ()
    else .ret (), fun _ _ _ => .ret ()⟩

example :
    let log := logOf (script careful 5 busy 6
      (three ++ [.born 13, .make 3, .add 3 13, .notify 1 7, .destroy 3, .notify 1 8]) (St.new ()))
    Ev.data 1 14 8 ∈ log ∧ Ev.disc 3 14 ∈ log ∧ Ev.ret (.die 13) .ok ∈ log ∧
      Ev.ret (.notify 1 8) .ok ∈ log := by
  decide +kernel

/-- A reachable state that meets the hypotheses of `C103_registered_ub`. -/
example : ∃ s : St Nat Unit, Reach careful 4 still s ∧ 1 ∈ (view s.log).objs ∧ 11 ∈ (view s.log).alive ∧
    11 ∈ (view s.log).reg 1 ∧ (view s.log).inside 1 = false := by
  have h : ∃ s : St Nat Unit, script careful 4 still 5 three (St.new ()) = .ok s := ⟨_, rfl⟩
  obtain ⟨s, hs⟩ := h
  refine ⟨s, script_reach three (.new ()) hs, ?_⟩
  have hl : s.log = logOf (script careful 4 still 5 three (St.new ())) := by rw [hs]; rfl
  rw [hl]
  decide +kernel

end Verif.Observer.World
