import Verif.Observer.FixedThreads
import Verif.Observer.Props
/-! The fixed-capacity observable used by threads one after another (C136). -/
namespace Verif.Observer.Fixed
open Verif Verif.HB

variable {V U : Type} {m m' : State V} {l : Lbl V} {self max : Nat}

/-! ### The steps of a call are the functions of `Model.lean` -/

/-- A call that is not interrupted, with the callbacks of `H`; `ex` runs calls that they make. -/
def Prog.run (ex : St V U → Op V → Res (St V U × Err)) (H : Handlers V U) : Prog V → St V U → Res (St V U × Err)
  | .ret e, s => .ok (s, e)
  | .cnt k, s => (k s.count).run ex H s
  | .setCnt n k, s => k.run ex H { s with count := n }
  | .at i k, s => match s.arr[i]? with
    | some p => (k p).run ex H s
    | none => .ub
  | .setAt i p k, s => if i < s.arr.length then k.run ex H { s with arr := s.arr.set i p } else .ub
  | .ins k, s => (k s.inside).run ex H s
  | .setIns b k, s => k.run ex H { s with inside := b }
  | .data o v k, s => do
    let s ← runProg ex (H.data s.user o v) (s.emit (.enter s.self o v))
    k.run ex H s
  | .disc o k, s => do
    let s ← runProg ex (H.disconnect s.user o) (s.emit (.disc s.self o))
    k.run ex H s
  | .left o k, s => k.run ex H (s.emit (.leave o))
  | .undef, _ => .ub

variable (ex : St V U → Op V → Res (St V U × Err)) (H : Handlers V U)

theorem run_contains (o : Nat) (yes no : Prog V) (s : St V U) : ∀ left i, i + left ≤ s.arr.length →
    (contains o yes no left i).run ex H s =
      if ((s.arr.drop i).take left).contains (some o) then yes.run ex H s else no.run ex H s
  | 0, i, _ => by simp [contains]
  | left + 1, i, h => by
    have hi : i < s.arr.length := by omega
    simp only [contains, Prog.run, List.getElem?_eq_getElem hi]
    rw [List.drop_eq_getElem_cons hi, List.take_succ_cons, List.contains_cons]
    by_cases e : s.arr[i] = some o
    · simp [e]
    · rw [if_neg e, run_contains o yes no s left (i + 1) (by omega)]
      have : (some o == s.arr[i]) = false := by
        rw [beq_eq_false_iff_ne]
        exact fun h => e h.symm
      rw [this, Bool.false_or]

theorem run_add (o : Nat) (s : St V U) : (add s.arr.length o).run ex H s = addObserver s o := by
  unfold addObserver
  simp only [add, Prog.run]
  by_cases h : s.count ≥ s.arr.length
  · rw [if_pos h, if_pos h]; rfl
  · rw [if_neg h, if_neg h]
    simp only [Prog.run]
    rw [run_contains ex H _ _ _ _ _ _ (by omega)]
    rw [List.drop_zero, show (s.arr.take s.count).contains (some o) = Observer.contains s o from rfl]
    simp only [Prog.run]
    rw [if_pos (by omega : s.count < s.arr.length)]
    cases Observer.contains s o <;> rfl

theorem run_cut (j : Nat) (s : St V U) : (cut j).run ex H s =
    if s.count ≠ j then .ok ({ s with count := j }, .ok) else .ok (s, .notFound) := by
  simp only [cut, Prog.run]
  split <;> rfl

theorem run_shift (o : Nat) (a : List (Option Nat)) : ∀ left i (s : St V U), i + left ≤ a.length →
    ((a.take i).filter (· != some o)).length < i →
    s.arr = (a.take i).filter (· != some o) ++ a.drop ((a.take i).filter (· != some o)).length →
    (shift o left i ((a.take i).filter (· != some o)).length).run ex H s =
      (cut ((a.take (i + left)).filter (· != some o)).length).run ex H { s with
        arr := (a.take (i + left)).filter (· != some o) ++ a.drop ((a.take (i + left)).filter (· != some o)).length }
  | 0, i, s, _, _, hs => by
    simp only [shift, Nat.add_zero, ← hs]
  | left + 1, i, s, h, hj, hs => by
    have hi : i < a.length := by omega
    have ht : a.take (i + 1) = a.take i ++ [a[i]] := by rw [List.take_succ_eq_append_getElem hi]
    have hlen : s.arr.length = a.length := by
      rw [hs, List.length_append, List.length_drop]
      omega
    have hat : s.arr[i]? = some a[i] := by
      rw [hs, List.getElem?_append_right (by omega), List.getElem?_drop, ← List.getElem?_eq_getElem hi]
      congr 1
      omega
    simp only [shift, Prog.run, hat]
    by_cases e : a[i] = some o
    · rw [if_pos e]
      have hf : (a.take (i + 1)).filter (· != some o) = (a.take i).filter (· != some o) := by
        rw [ht, List.filter_append]
        simp [e]
      have := run_shift o a left (i + 1) s (by omega) (by rw [hf]; omega) (by rw [hf]; exact hs)
      rw [hf] at this
      rw [this, show i + 1 + left = i + (left + 1) by omega]
    · rw [if_neg e]
      have hf : (a.take (i + 1)).filter (· != some o) = (a.take i).filter (· != some o) ++ [a[i]] := by
        rw [ht, List.filter_append]
        congr 1
        simp [e]
      simp only [Prog.run, hat]
      rw [if_pos (by omega)]
      have hset : s.arr.set ((a.take i).filter (· != some o)).length a[i] =
          (a.take (i + 1)).filter (· != some o) ++ a.drop ((a.take (i + 1)).filter (· != some o)).length := by
        rw [hs, hf, List.set_append_right _ _ (Nat.le_refl _), Nat.sub_self, List.append_assoc]
        congr 1
        rw [List.drop_eq_getElem_cons (by omega : ((a.take i).filter (· != some o)).length < a.length)]
        simp only [List.set_cons_zero, List.length_append, List.length_singleton]
        rfl
      have := run_shift o a left (i + 1) { s with arr := s.arr.set ((a.take i).filter (· != some o)).length a[i] }
        (by omega) (by rw [hf]; simp; omega) hset
      rw [hf, List.length_append, List.length_singleton] at this
      rw [this, show i + 1 + left = i + (left + 1) by omega]

theorem run_find (o : Nat) (s : St V U) : ∀ left i, i + left ≤ s.arr.length → (∀ p ∈ s.arr.take i, p ≠ some o) →
    (find o left i).run ex H s =
      (cut ((s.arr.take (i + left)).filter (· != some o)).length).run ex H { s with
        arr := (s.arr.take (i + left)).filter (· != some o) ++ s.arr.drop ((s.arr.take (i + left)).filter (· != some o)).length }
  | 0, i, h, hn => by
    have hf : (s.arr.take i).filter (· != some o) = s.arr.take i := List.filter_eq_self.2 fun p hp => by simp [hn p hp]
    have hl : (s.arr.take i).length = i := by rw [List.length_take]; omega
    simp only [find, Nat.add_zero, hf, hl, List.take_append_drop]
  | left + 1, i, h, hn => by
    have hi : i < s.arr.length := by omega
    have hf : (s.arr.take i).filter (· != some o) = s.arr.take i := List.filter_eq_self.2 fun p hp => by simp [hn p hp]
    have hl : (s.arr.take i).length = i := by rw [List.length_take]; omega
    have ht : s.arr.take (i + 1) = s.arr.take i ++ [s.arr[i]] := by rw [List.take_succ_eq_append_getElem hi]
    simp only [find, Prog.run, List.getElem?_eq_getElem hi]
    by_cases e : s.arr[i] = some o
    · rw [if_pos e]
      have hf' : (s.arr.take (i + 1)).filter (· != some o) = s.arr.take i := by
        rw [ht, List.filter_append, hf]
        simp [e]
      have := run_shift ex H o s.arr left (i + 1) s (by omega) (by rw [hf', hl]; omega)
        (by rw [hf', hl, List.take_append_drop])
      rw [hf', hl] at this
      rw [this, show i + 1 + left = i + (left + 1) by omega]
    · rw [if_neg e, run_find o s left (i + 1) (by omega), show i + 1 + left = i + (left + 1) by omega]
      intro p hp
      rw [ht, List.mem_append, List.mem_singleton] at hp
      rcases hp with hp | rfl
      · exact hn p hp
      · exact e

theorem run_remove (o : Nat) (s : St V U) : (remove s.arr.length o).run ex H s = removeObserver s o := by
  unfold removeObserver
  simp only [remove, Prog.run]
  by_cases h : s.count > s.arr.length
  · rw [if_pos h, if_pos h]; rfl
  · rw [if_neg h, if_neg h]
    simp only [Prog.run]
    by_cases h0 : s.count = 0
    · rw [if_pos h0, if_pos h0]; rfl
    · rw [if_neg h0, if_neg h0]
      simp only [Prog.run]
      rw [run_find ex H o s s.count 0 (by omega) (by simp), run_cut]
      have hk : ((s.arr.take (0 + s.count)).filter (· != some o)) = kept s o := by rw [Nat.zero_add]; rfl
      simp only [hk]
      have hle : (kept s o).length ≤ s.count :=
        Nat.le_trans (List.length_filter_le _ _) (by rw [List.length_take]; omega)
      by_cases c : s.count = (kept s o).length
      · rw [if_neg (by omega), if_neg (by omega)]
      · rw [if_pos c, if_pos (by omega)]

theorem run_clearLoop : ∀ left i (s : St V U), (clearLoop left i).run ex H s =
    (Observer.clearLoop ex H i left s >>= fun s => .ok ({ s with count := 0 }, .ok))
  | 0, i, s => by simp [clearLoop, Prog.run, Observer.clearLoop]
  | left + 1, i, s => by
    simp only [clearLoop, Prog.run, Observer.clearLoop, deref]
    cases h : s.arr[i]? with
    | none => simp
    | some p =>
      cases p with
      | none => simp [Prog.run]
      | some o =>
        simp only [Res.ok_bind, Prog.run]
        show (runProg ex (H.disconnect s.user o) (s.emit (.disc s.self o)) >>= _) =
          ((runProg ex (H.disconnect s.user o) (s.emit (.disc s.self o)) >>= _) >>= _)
        cases runProg ex (H.disconnect s.user o) (s.emit (.disc s.self o)) with
        | ub => rfl
        | hang => rfl
        | ok s => exact run_clearLoop left (i + 1) s

theorem run_notifyLoop (v : V) : ∀ left i (s : St V U), (notifyLoop v left i).run ex H s =
    (Observer.notifyLoop ex H v i left s >>= fun s => .ok ({ s with inside := false }, .ok))
  | 0, i, s => by simp [notifyLoop, Prog.run, Observer.notifyLoop]
  | left + 1, i, s => by
    simp only [notifyLoop, Prog.run, Observer.notifyLoop, deref]
    cases h : s.arr[i]? with
    | none => simp
    | some p =>
      cases p with
      | none => simp [Prog.run]
      | some o =>
        simp only [Res.ok_bind, Prog.run, callData]
        show (runProg ex (H.data s.user o v) (s.emit (.enter s.self o v)) >>= _) =
          (((runProg ex (H.data s.user o v) (s.emit (.enter s.self o v)) >>= _) >>= _) >>= _)
        cases runProg ex (H.data s.user o v) (s.emit (.enter s.self o v)) with
        | ub => rfl
        | hang => rfl
        | ok s => exact run_notifyLoop v left (i + 1) (s.emit (.leave o))

/-- A call that is not interrupted is the call of `Model.lean`. -/
theorem run_op (s : St V U) (op : Op V) :
    ((prog s.arr.length op).run ex H s >>= fun r => .ok (r.1.emit (.ret op r.2), r.2)) = execStep ex H s op := by
  unfold execStep
  cases op with
  | add o => simp only [prog, run_add]; rfl
  | remove o => simp only [prog, run_remove]; rfl
  | clear =>
    simp only [prog, Prog.run, run_clearLoop, clearObservers]
    rfl
  | notify v =>
    simp only [prog, notify, Prog.run, notifyObservers]
    by_cases h : s.count > s.arr.length
    · simp only [if_pos h]; rfl
    · simp only [if_neg h]
      by_cases hi : s.inside = true
      · simp only [Prog.run, if_pos hi]; rfl
      · simp only [Prog.run, if_neg hi, run_notifyLoop]
        rfl

/-! ### Any execution of calls one after another is one of `Model.lean` -/

/-- The calls that the next callbacks make, each a call in `P`. -/
abbrev Script (P : Op V → Prop) : Type := List (List { op : Op V // P op })

variable {P : Op V → Prop}

/-- Calls in order. -/
def calls : List { op : Op V // P op } → Script P → Observer.Prog V (Script P)
  | [], u => .ret u
  | op :: ops, _ => .call op.1 fun _ u => calls ops u

/-- The next callback makes the calls in the first list of the user's state. -/
def script : Script P → Observer.Prog V (Script P)
  | [] => .ret []
  | ops :: u => .set u (calls ops u)

/-- Callbacks that make the calls that the user's state says. -/
def scripted (P : Op V → Prop) : Handlers V (Script P) := ⟨fun u _ _ => script u, fun u _ => script u⟩

theorem calls_only : ∀ (ops : List { op : Op V // P op }) (u : Script P), (calls ops u).Only P
  | [], _ => trivial
  | op :: ops, _ => ⟨op.2, fun _ u => calls_only ops u⟩

theorem script_only : ∀ u : Script P, (script u).Only P
  | [] => trivial
  | ops :: u => calls_only ops u

/-- The state as `Model.lean` has it. -/
def State.st (m : State V) (u : U) : St V U := ⟨m.self, m.sh.arr, m.sh.cnt, m.sh.ins, u, m.events⟩

/-- The calls that a thread is in come to their end; `opss` says which calls the callbacks that are running still make. -/
def finish (n : Nat) : List (Frame V) → Script P → St V (Script P) → Res (St V (Script P))
  | [], _, s => .ok s
  | f :: fs, opss, s =>
    (if f.busy then runProg (exec (scripted P) n) (calls (opss.headD []) s.user) s else .ok s) >>= fun s =>
    f.prog.run (exec (scripted P) n) (scripted P) s >>= fun r =>
    finish (n + 1) fs opss.tail (r.1.emit (.ret f.op r.2))

/-- Whichever way the calls that the thread is in go on, with callbacks that make calls in `P` only, they are not undefined, and the
state in the end satisfies `K`. -/
def Good (K : St V (Script P) → Prop) (m : State V) (fs : List (Frame V)) : Prop :=
  ∃ n0, ∀ n, n0 ≤ n → ∀ opss u, match finish n fs opss (m.st u) with
    | .ok s => K s
    | .ub => False
    | .hang => True

variable {K : St V (Script P) → Prop}

theorem Good.of {fs fs' : List (Frame V)} (h : Good K m fs)
    (hf : ∀ n (opss u : Script P), ∃ opss' u' : Script P, finish n fs' opss (m'.st u) = finish n fs opss' (m.st u')) : Good K m' fs' := by
  obtain ⟨n0, h⟩ := h
  refine ⟨n0, fun n hn opss u => ?_⟩
  obtain ⟨opss', u', e⟩ := hf n opss u
  rw [e]
  exact h n hn opss' u'

/-- An access is a step of `Prog.run`. -/
theorem run_next {p q : Prog V} {s' : Sh} (h : p.next m.sh = some (s', q)) {mem : HB.Mem Nat Loc Nat} {st : Nat → List (Frame V)}
    {ex : St V U → Op V → Res (St V U × Err)} {H : Handlers V U} {u : U} :
    p.run ex H (m.st u) = q.run ex H (State.st { m with mem := mem, sh := s', stack := st } u) := by
  cases p with
  | cnt k | setCnt n k | ins k | setIns b k => cases h; rfl
  | «at» i k =>
    simp only [Prog.next] at h
    split at h
    · cases h
      simp only [Prog.run]
      rw [show (m.st u).arr[i]? = some _ from ‹_›]
      rfl
    · cases h
  | setAt i p k =>
    simp only [Prog.next] at h
    split at h
    · cases h
      simp only [Prog.run]
      rw [if_pos (show i < (m.st u).arr.length from ‹_›)]
      rfl
    · cases h
  | ret | data | disc | left | undef => cases h

theorem act_next {t : Nat} {f : Frame V} {fs : List (Frame V)} (h1 : ∀ e, f.prog ≠ .ret e) (h2 : ∀ o v k, f.prog ≠ .data o v k)
    (h3 : ∀ o k, f.prog ≠ .disc o k) (h4 : ∀ o k, f.prog ≠ .left o k) : act m t f fs = (f.prog.next m.sh).map fun r =>
    { m with mem := m.mem.run t f.prog.ops, sh := r.1, stack := HB.put m.stack t ({ f with prog := r.2 } :: fs) } := by
  unfold act
  cases hp : f.prog with
  | ret e => exact absurd hp (h1 e)
  | data o v k => exact absurd hp (h2 o v k)
  | disc o k => exact absurd hp (h3 o k)
  | left o k => exact absurd hp (h4 o k)
  | _ => rfl

/-- What a thread does in a call keeps `Good`. -/
theorem good_act {t : Nat} {f : Frame V} {fs : List (Frame V)} (hb : f.busy = false) (hg : Good K m (f :: fs))
    (hs : act m t f fs = some m') : Good K m' (m'.stack t) := by
  by_cases h1 : ∃ e, f.prog = .ret e
  · obtain ⟨e, h1⟩ := h1
    simp only [act, h1, Option.some.injEq] at hs
    subst hs
    simp only [put_same]
    obtain ⟨n0, h⟩ := hg
    refine ⟨n0 + 1, fun n hn opss u => ?_⟩
    obtain ⟨n, rfl⟩ : ∃ k, n = k + 1 := ⟨n - 1, by omega⟩
    have := h n (by omega) ([] :: opss) u
    simpa only [finish, hb, Bool.false_eq_true, if_false, Res.ok_bind, h1, Prog.run, List.tail_cons, State.st, St.emit,
      State.events, List.map_append, List.map_cons, List.map_nil] using this
  · by_cases h2 : ∃ o v k, f.prog = .data o v k
    · obtain ⟨o, v, k, h2⟩ := h2
      simp only [act, h2, Option.some.injEq] at hs
      subst hs
      simp only [put_same]
      refine hg.of fun n opss u => ⟨opss, opss.headD [] :: u, ?_⟩
      simp only [finish, hb, Bool.false_eq_true, if_false, if_true, Res.ok_bind, h2, Prog.run, State.st, St.emit, State.events,
        scripted, script, runProg, List.map_append, List.map_cons, List.map_nil]
      generalize runProg _ (calls (opss.headD []) u) _ = r
      cases r <;> rfl
    · by_cases h3 : ∃ o k, f.prog = .disc o k
      · obtain ⟨o, k, h3⟩ := h3
        simp only [act, h3, Option.some.injEq] at hs
        subst hs
        simp only [put_same]
        refine hg.of fun n opss u => ⟨opss, opss.headD [] :: u, ?_⟩
        simp only [finish, hb, Bool.false_eq_true, if_false, if_true, Res.ok_bind, h3, Prog.run, State.st, St.emit, State.events,
          scripted, script, runProg, List.map_append, List.map_cons, List.map_nil]
        generalize runProg _ (calls (opss.headD []) u) _ = r
        cases r <;> rfl
      · by_cases h4 : ∃ o k, f.prog = .left o k
        · obtain ⟨o, k, h4⟩ := h4
          simp only [act, h4, Option.some.injEq] at hs
          subst hs
          simp only [put_same]
          refine hg.of fun n opss u => ⟨opss, u, ?_⟩
          simp only [finish, hb, Bool.false_eq_true, if_false, Res.ok_bind, h4, Prog.run, State.st, St.emit, State.events,
            List.map_append, List.map_cons, List.map_nil]
        · rw [act_next (fun e h => h1 ⟨e, h⟩) (fun o v k h => h2 ⟨o, v, k, h⟩) (fun o k h => h3 ⟨o, k, h⟩)
            (fun o k h => h4 ⟨o, k, h⟩), Option.map_eq_some_iff] at hs
          obtain ⟨⟨s', q⟩, hn, rfl⟩ := hs
          simp only [put_same]
          refine hg.of fun n opss u => ⟨opss, u, ?_⟩
          simp only [finish, hb, Bool.false_eq_true, if_false, Res.ok_bind]
          rw [run_next hn]

theorem finish_call (n : Nat) (fs : List (Frame V)) (op : Op V) (opss : Script P) (u : Script P) :
    finish n (⟨op, prog m.sh.arr.length op, false⟩ :: fs) opss (m.st u) =
      (exec (scripted P) (n + 1) (m.st u) op >>= fun r => finish (n + 1) fs opss.tail r.1) := by
  rw [exec, ← run_op (exec (scripted P) n) (scripted P) (m.st u) op]
  simp only [finish, Bool.false_eq_true, if_false, Res.ok_bind]
  show ((prog (m.st u).arr.length op).run _ _ _ >>= _) = (((prog (m.st u).arr.length op).run _ _ _ >>= _) >>= _)
  cases (prog (m.st u).arr.length op).run (exec (scripted P) n) (scripted P) (m.st u) <;> rfl

/-- Calls that callbacks make keep `Good`. -/
theorem good_nested {f : Frame V} {fs : List (Frame V)} {op : Op V} (hb : f.busy = true) (hp : P op) (hg : Good K m (f :: fs)) :
    Good K m (⟨op, prog m.sh.arr.length op, false⟩ :: f :: fs) := by
  obtain ⟨n0, h⟩ := hg
  refine ⟨n0, fun n hn opss u => ?_⟩
  rw [finish_call]
  have := h (n + 1) (by omega) ((⟨op, hp⟩ :: opss.tail.headD []) :: opss.tail.tail) u
  simp only [finish, hb, if_true, List.headD_cons, List.tail_cons, calls, runProg] at this
  simp only [finish, hb, if_true]
  revert this
  cases exec (scripted P) (n + 1) (m.st u) op <;> exact id

/-- A call from outside is one that one thread would make. -/
theorem good_outer {op : Op V} (hg : Good (Reach (scripted P) max) m []) :
    Good (fun s => Reach (scripted P) max s ∧ ∃ n u e, exec (scripted P) (n + 2) (m.st u) op = .ok (s, e)) m
      [⟨op, prog m.sh.arr.length op, false⟩] := by
  obtain ⟨n0, h⟩ := hg
  refine ⟨1, fun n hn opss u => ?_⟩
  obtain ⟨n, rfl⟩ : ∃ k, n = k + 1 := ⟨n - 1, by omega⟩
  rw [finish_call]
  have hr : Reach (scripted P) max (m.st u) := h n0 (Nat.le_refl _) [] u
  have hub := (C35_memory_safe (scripted P) max _ hr (n + 2) op).1
  cases he : exec (scripted P) (n + 1 + 1) (m.st u) op with
  | ub => exact absurd he hub
  | hang => simp
  | ok r => exact ⟨.call _ _ _ _ _ hr he, n, u, r.2, he⟩

theorem good_back {f : Frame V} {fs : List (Frame V)} (hb : f.busy = true) (hg : Good K m (f :: fs))
    (st : Nat → List (Frame V)) : Good K { m with stack := st } ({ f with busy := false } :: fs) := by
  refine hg.of fun n opss u => ⟨[] :: opss.tail, u, ?_⟩
  simp only [finish, hb, Bool.false_eq_true, if_false, if_true, Res.ok_bind, List.headD_cons, List.tail_cons, calls, runProg]
  rfl

/-! ### The invariant -/

/-- Thread `t` is the only one that may be in a call; if it is in one, it comes after all that has been done; `K` holds when it
is done. -/
structure Inv (K : St V (Script P) → Prop) (m : State V) (t : Nat) : Prop where
  others : ∀ u, u ≠ t → m.stack u = []
  knows : m.stack t ≠ [] → m.KnowsAll t
  good : Good K m (m.stack t)

theorem knows_run {t : Nat} (h : m.KnowsAll t) (p : Prog V) :
    ∀ a ∈ (m.mem.run t p.ops).log, a.time ≤ (m.mem.run t p.ops).clk t a.who := by
  have : ∀ loc wr, ∀ a ∈ (m.mem.op t (.acc loc wr 0)).log, a.time ≤ (m.mem.op t (.acc loc wr 0)).clk t a.who := by
    intro loc wr a ha
    simp only [Mem.op, List.mem_cons] at ha
    rcases ha with rfl | ha
    · simp [Mem.op]
    · exact Nat.le_trans (h a ha) (m.mem.op_clk_le t _ t a.who)
  cases p <;> first | exact h | exact this _ _

/-- Steps that are no calls of this object's functions. -/
theorem inv_sync {t : Nat} (x : Inv K m t) (v : Nat) (os : List (HB.Op Loc Nat)) (h : ∀ o ∈ os, ∃ n, o = .rel n ∨ o = .acq n) :
    Inv K { m with mem := m.mem.run v os } t := by
  have hl : ∀ (os : List (HB.Op Loc Nat)) (M : HB.Mem Nat Loc Nat), (∀ o ∈ os, ∃ n, o = .rel n ∨ o = .acq n) →
      (M.run v os).log = M.log := by
    intro os
    induction os with
    | nil => exact fun _ _ => rfl
    | cons o os ih =>
      intro M h
      rw [Mem.run, ih _ fun o ho => h o (List.mem_cons_of_mem _ ho)]
      obtain ⟨n, rfl | rfl⟩ := h o List.mem_cons_self <;> rfl
  refine ⟨x.others, fun hn a ha => ?_, x.good⟩
  rw [show ({ m with mem := m.mem.run v os } : State V).mem.log = m.mem.log from hl os m.mem h] at ha
  exact Nat.le_trans (x.knows hn a ha) (Mem.clk_run _ _ _ _ _)

/-- Steps other than calls from outside callbacks. -/
theorem inv_step {t : Nat} (x : Inv K m t) (hg : Nested P m l) (hl : ∀ v op, l = .call v op → m.stack v ≠ [])
    (hs : step m l = some m') : Inv K m' t := by
  cases l with
  | rel v n =>
    simp only [step] at hs
    split at hs
    · cases hs
      exact inv_sync x v _ fun o ho => ⟨n, .inl (List.mem_singleton.1 ho)⟩
    · cases hs
  | acq v n =>
    simp only [step] at hs
    split at hs
    · cases hs
      exact inv_sync x v _ fun o ho => ⟨n, .inr (List.mem_singleton.1 ho)⟩
    · cases hs
  | call v op =>
    simp only [step] at hs
    split at hs
    · rename_i hu
      cases hs
      have hn := hl v op rfl
      have e : v = t := Classical.byContradiction fun e => hn (x.others v e)
      subst e
      refine ⟨fun u e => ?_, fun _ => x.knows hn, ?_⟩
      · simp only [put_ne _ _ e]
        exact x.others u e
      · have hgood := x.good
        simp only [put_same]
        cases hf : m.stack v with
        | nil => exact absurd hf hn
        | cons f fs =>
          rw [hf] at hgood
          exact good_nested (by simpa only [State.user, hf] using hu) (hg.resolve_left hn) hgood
    · cases hs
  | back v =>
    simp only [step] at hs
    cases hf : m.stack v with
    | nil => rw [hf] at hs; cases hs
    | cons f fs =>
      rw [hf] at hs
      simp only at hs
      have e : v = t := Classical.byContradiction fun e => by rw [x.others v e] at hf; cases hf
      subst e
      split at hs
      · rename_i hb
        cases hs
        refine ⟨fun u e => ?_, fun _ => x.knows (by rw [hf]; simp), ?_⟩
        · simp only [put_ne _ _ e]
          exact x.others u e
        · have := x.good
          rw [hf] at this
          simp only [put_same]
          exact good_back hb this _
      · cases hs
  | act v =>
    simp only [step] at hs
    cases hf : m.stack v with
    | nil => rw [hf] at hs; cases hs
    | cons f fs =>
      rw [hf] at hs
      simp only at hs
      have e : v = t := Classical.byContradiction fun e => by rw [x.others v e] at hf; cases hf
      subst e
      split at hs
      · cases hs
      rename_i hb
      have hgood := x.good
      rw [hf] at hgood
      have hk := x.knows (by rw [hf]; simp)
      refine ⟨fun u e => ?_, fun _ => ?_, good_act (by simpa using hb) hgood hs⟩
      · rw [← x.others u e]
        unfold act at hs
        split at hs
        · cases hs; simp only [put_ne _ _ e]
        · cases hs; simp only [put_ne _ _ e]
        · cases hs; simp only [put_ne _ _ e]
        · cases hs; simp only [put_ne _ _ e]
        · rw [Option.map_eq_some_iff] at hs
          obtain ⟨r, -, rfl⟩ := hs
          simp only [put_ne _ _ e]
      · unfold act at hs
        split at hs
        · cases hs; exact hk
        · cases hs; exact hk
        · cases hs; exact hk
        · cases hs; exact hk
        · rw [Option.map_eq_some_iff] at hs
          obtain ⟨r, -, rfl⟩ := hs
          exact knows_run hk f.prog

/-- What one thread reaches by this call. -/
def After (max : Nat) (m0 : State V) (op : Op V) (s : St V (Script P)) : Prop :=
  Reach (scripted P) max s ∧ ∃ n u e, exec (scripted P) (n + 2) (m0.st u) op = .ok (s, e)

theorem Inv.mono {K' : St V (Script P) → Prop} {t : Nat} (x : Inv K m t) (h : ∀ s, K s → K' s) : Inv K' m t := by
  obtain ⟨n0, hg⟩ := x.good
  refine ⟨x.others, x.knows, n0, fun n hn opss u => ?_⟩
  have := hg n hn opss u
  cases hf : finish n (m.stack t) opss (m.st u) with
  | ok s => rw [hf] at this; exact h s this
  | ub => rw [hf] at this; exact this
  | hang => trivial

/-- Calls from outside callbacks. -/
theorem inv_call {t v : Nat} {op : Op V} (x : Inv (Reach (scripted P) max) m t) (hg : InTurn m (.call v op)) (hv : m.stack v = [])
    (hs : step m (.call v op) = some m') : Inv (P := P) (After max m op) m' v := by
  simp only [step] at hs
  split at hs
  · cases hs
    have ht : m.stack t = [] := by
      by_cases e : t = v
      · rw [e]; exact hv
      · exact hg.1 t e
    refine ⟨fun u e => ?_, fun _ => hg.2 hv, ?_⟩
    · simp only [put_ne _ _ e]
      exact hg.1 u e
    · have hgood := x.good
      rw [ht] at hgood
      simp only [put_same, hv]
      exact good_outer hgood
  · cases hs

theorem run_inv (r : Run self max (Turns P) m) : ∃ t, Inv (Reach (scripted P) max) m t := by
  induction r with
  | start => exact ⟨0, fun _ _ => rfl, fun h => absurd rfl h, 0, fun n _ opss u => .new self u⟩
  | step m m' l _ hg hs ih =>
    obtain ⟨t, x⟩ := ih
    by_cases h : ∃ v op, l = .call v op ∧ m.stack v = []
    · obtain ⟨v, op, rfl, hv⟩ := h
      exact ⟨v, (inv_call x hg.1 hv hs).mono fun s h => h.1⟩
    · exact ⟨t, inv_step x hg.2 (fun v op e hv => h ⟨v, op, e, hv⟩) hs⟩

theorem run_any (r : Run self max InTurn m) : Run self max (Turns fun _ => True) m := by
  induction r with
  | start => exact .start
  | step m m' l _ hg hs ih => exact .step m m' l ih ⟨hg, by cases l <;> simp [Nested]⟩ hs

theorem run_others (r : Run self max InTurn m) : ∃ t, Inv (Reach (scripted fun _ => True) max) m t := run_inv (run_any r)

theorem course_inv {t : Nat} {op : Op V} {m0 : State V} (r : Run self max (Turns P) m0) (c : Course (Turns P) t op m0 m) :
    Inv (P := P) (After max m0 op) m t := by
  induction c with
  | begin m h hg hs =>
    obtain ⟨v, x⟩ := run_inv r
    exact inv_call x hg.1 h hs
  | step m m' l _ hn hg hs ih =>
    refine inv_step ih hg.2 (fun v op e hv => ?_) hs
    subst e
    by_cases e : v = t
    · exact hn (e ▸ hv)
    · exact hn (hg.1.1 t fun h => e h.symm)

theorem course_start {t : Nat} {op : Op V} {m0 : State V} (c : Course (Turns P) t op m0 m) : ∀ u, m0.stack u = [] := by
  induction c with
  | begin m h hg _ =>
    intro u
    by_cases e : u = t
    · exact e ▸ h
    · exact hg.1.1 u e
  | step _ _ _ _ _ _ _ ih => exact ih

/-! ### C136 -/

/-- **C136: no data race.** -/
theorem C136_no_race (r : Run self max InTurn m) (l : Lbl V) : ¬ Race m l := by
  obtain ⟨t, x⟩ := run_others r
  cases l with
  | act v =>
    cases hf : m.stack v with
    | nil => simp [Race, ops, hf, Mem.Races]
    | cons f fs =>
      have e : v = t := Classical.byContradiction fun e => by rw [x.others v e] at hf; cases hf
      subst e
      have hk := x.knows (by rw [hf]; simp)
      have : ∀ loc wr, ¬ m.mem.Conflict v loc wr := fun loc wr ⟨a, ha, _, _, h⟩ => by
        have := hk a ha
        omega
      unfold Race
      simp only [ops, hf, Lbl.who]
      cases f.prog <;> simp [Prog.ops, Mem.Races, this]
  | call | back | rel | acq => simp [Race, ops, Mem.Races]

/-- **C136: calls get on.** A thread that is in a call and not in a callback can take its next step: nothing that it does is
undefined. -/
theorem C136_goes_on (r : Run self max InTurn m) {t : Nat} {f : Frame V} {fs : List (Frame V)} (hf : m.stack t = f :: fs)
    (hb : f.busy = false) : ∃ m', step m (.act t) = some m' := by
  obtain ⟨v, x⟩ := run_others r
  have e : t = v := Classical.byContradiction fun e => by rw [x.others t e] at hf; cases hf
  subst e
  obtain ⟨n, h⟩ := x.good
  have h := h n (Nat.le_refl _) [] []
  rw [hf] at h
  simp only [finish, hb, Bool.false_eq_true, if_false, Res.ok_bind] at h
  simp only [step, hf, hb, Bool.false_eq_true, if_false, act]
  cases hp : f.prog with
  | undef => rw [hp] at h; simp [Prog.run] at h
  | «at» i k =>
    rw [hp] at h
    simp only [Prog.run] at h
    cases ha : m.sh.arr[i]? with
    | none =>
      rw [show (m.st ([] : Script fun _ => True)).arr[i]? = none from ha] at h
      simp at h
    | some p => simp [Prog.next, ha]
  | setAt i p k =>
    rw [hp] at h
    simp only [Prog.run] at h
    by_cases ha : i < m.sh.arr.length
    · simp [Prog.next, ha]
    · rw [if_neg (show ¬ i < (m.st ([] : Script fun _ => True)).arr.length from ha)] at h
      simp at h
  | _ => simp [Prog.next]

/-- Callbacks that call nothing. -/
theorem run_quiet (ex : St V (Script P) → Op V → Res (St V (Script P) × Err)) : ∀ (p : Prog V)
    (s : St V (Script P)), s.user = [] → p.run ex (scripted P) s ≠ .hang ∧
      ∀ r, p.run ex (scripted P) s = .ok r → r.1.user = [] ∧ ∃ more, r.1.log = s.log ++ more
  | .ret e, s, h => ⟨by simp [Prog.run], fun r hr => by cases hr; exact ⟨h, [], by simp⟩⟩
  | .cnt k, s, h => run_quiet ex (k s.count) s h
  | .setCnt n k, s, h => run_quiet ex k { s with count := n } h
  | .at i k, s, h => by
    simp only [Prog.run]
    cases s.arr[i]? with
    | none => simp
    | some p => exact run_quiet ex (k p) s h
  | .setAt i p k, s, h => by
    simp only [Prog.run]
    split
    · exact run_quiet ex k { s with arr := s.arr.set i p } h
    · simp
  | .ins k, s, h => run_quiet ex (k s.inside) s h
  | .setIns b k, s, h => run_quiet ex k { s with inside := b } h
  | .data o v k, s, h => by
    simp only [Prog.run, scripted, h, script, runProg, Res.ok_bind]
    have := run_quiet ex k { s.emit (.enter s.self o v) with user := [] } rfl
    refine ⟨this.1, fun r hr => ⟨(this.2 r hr).1, ?_⟩⟩
    obtain ⟨more, e⟩ := (this.2 r hr).2
    exact ⟨.enter s.self o v :: more, by rw [e]; simp [St.emit]⟩
  | .disc o k, s, h => by
    simp only [Prog.run, scripted, h, script, runProg, Res.ok_bind]
    have := run_quiet ex k { s.emit (.disc s.self o) with user := [] } rfl
    refine ⟨this.1, fun r hr => ⟨(this.2 r hr).1, ?_⟩⟩
    obtain ⟨more, e⟩ := (this.2 r hr).2
    exact ⟨.disc s.self o :: more, by rw [e]; simp [St.emit]⟩
  | .left o k, s, h => by
    have := run_quiet ex k (s.emit (.leave o)) h
    refine ⟨this.1, fun r hr => ⟨(this.2 r hr).1, ?_⟩⟩
    obtain ⟨more, e⟩ := (this.2 r hr).2
    exact ⟨.leave o :: more, by rw [e]; simp [St.emit]⟩
  | .undef, s, h => by simp [Prog.run]

theorem finish_quiet : ∀ (fs : List (Frame V)) (n : Nat) (s : St V (Script P)), s.user = [] →
    finish n fs [] s ≠ .hang ∧ ∀ s', finish n fs [] s = .ok s' → ∃ more, s'.log = s.log ++ more
  | [], n, s, _ => ⟨by simp [finish], fun s' h => by cases h; exact ⟨[], by simp⟩⟩
  | f :: fs, n, s, h => by
    have hs : (if f.busy then runProg (exec (scripted P) n) (calls (([] : Script P).headD []) s.user) s else .ok s) = .ok s := by
      split
      · simp [calls, runProg]
      · rfl
    simp only [finish, hs, Res.ok_bind, List.tail_nil]
    have h1 := run_quiet (exec (scripted P) n) f.prog s h
    cases hr : f.prog.run (exec (scripted P) n) (scripted P) s with
    | ub => simp
    | hang => exact absurd hr h1.1
    | ok r =>
      obtain ⟨hu, more, e⟩ := h1.2 r hr
      have h2 := finish_quiet fs (n + 1) (r.1.emit (.ret f.op r.2)) hu
      simp only [Res.ok_bind]
      refine ⟨h2.1, fun s' hs' => ?_⟩
      obtain ⟨more', e'⟩ := h2.2 s' hs'
      exact ⟨more ++ .ret f.op r.2 :: more', by rw [e']; simp [St.emit, e]⟩

/-- **C136: as with one thread.** What threads that use the observable one after another have been told so far, and told each other
by calls, is the beginning of a history that one thread can have with callbacks of some kind; when no call is going on it is that history,
and the members have the values they have then. -/
theorem C136_as_one_thread (r : Run self max (Turns P) m) : ∃ (U : Type) (H : Handlers V U) (s : St V U), Reach H max s ∧
    (∀ u o v, (H.data u o v).Only P) ∧ (∀ u o, (H.disconnect u o).Only P) ∧
    (∃ more, s.log = m.events ++ more) ∧
    ((∀ t, m.stack t = []) → s.log = m.events ∧ s.self = m.self ∧ s.arr = m.sh.arr ∧ s.count = m.sh.cnt ∧ s.inside = m.sh.ins) := by
  obtain ⟨t, x⟩ := run_inv r
  obtain ⟨n, h⟩ := x.good
  have h := h n (Nat.le_refl _) [] []
  have hq := finish_quiet (P := P) (m.stack t) n (m.st []) rfl
  cases hf : finish n (m.stack t) [] (m.st []) with
  | ub => rw [hf] at h; exact h.elim
  | hang => exact absurd hf hq.1
  | ok s =>
    rw [hf] at h
    refine ⟨_, scripted P, s, h, fun u _ _ => script_only u, fun u _ => script_only u, hq.2 s hf, fun hn => ?_⟩
    rw [hn t, finish] at hf
    cases hf
    exact ⟨rfl, rfl, rfl, rfl, rfl⟩

/-- **C136: results.** Every call returns what it has to return after what was logged before it, as the one of an ordered set with at most `max`
members; no delivery begins inside another one; when no call is going on, the array holds the members of the set. -/
theorem C136_results (r : Run self max InTurn m) :
    (∀ pre op e post, m.events = pre ++ .ret op e :: post → e = specErr max (regs max pre) (depth pre) op) ∧
    (∀ pre src o v post, m.events = pre ++ .enter src o v :: post → depth pre = 0) ∧
    ((∀ t, m.stack t = []) → m.sh.arr.length = max ∧ m.sh.arr.take m.sh.cnt = (regs max m.events).map some ∧ m.sh.ins = false) := by
  obtain ⟨U, H, s, hr, -, -, ⟨more, e⟩, h⟩ := C136_as_one_thread (run_any r)
  obtain ⟨hI, hin⟩ := reach_inv hr
  refine ⟨fun pre op e' post hl => ?_, fun pre src o v post hl => ?_, fun hn => ?_⟩
  · exact hI.base.logok pre (.ret op e') (post ++ more) (by rw [e, hl]; simp)
  · exact hI.base.logok pre (.enter src o v) (post ++ more) (by rw [e, hl]; simp)
  · obtain ⟨h1, -, h2, h3, h4⟩ := h hn
    rw [← h1, ← h2, ← h3, ← h4]
    exact ⟨hI.base.len, hI.base.lst, hin⟩

/-- **C136: each call.** A call that a thread makes from outside callbacks has the effect of the call that one thread makes in the
same state. -/
theorem C136_call {m0 : State V} {t : Nat} {op : Op V} (r : Run self max (Turns P) m0) (c : Course (Turns P) t op m0 m)
    (h1 : m.stack t = []) : ∃ (U : Type) (H : Handlers V U) (s s' : St V U) (n : Nat) (e : Err),
    (∀ u o v, (H.data u o v).Only P) ∧ (∀ u o, (H.disconnect u o).Only P) ∧ Reach H max s ∧
    exec H (n + 2) s op = .ok (s', e) ∧
    (s.log = m0.events ∧ s.self = m0.self ∧ s.arr = m0.sh.arr ∧ s.count = m0.sh.cnt ∧ s.inside = m0.sh.ins) ∧
    (s'.log = m.events ∧ s'.self = m.self ∧ s'.arr = m.sh.arr ∧ s'.count = m.sh.cnt ∧ s'.inside = m.sh.ins) := by
  obtain ⟨v, x⟩ := run_inv r
  obtain ⟨n0, hg⟩ := x.good
  rw [course_start c v] at hg
  obtain ⟨n1, hg1⟩ := (course_inv r c).good
  have := hg1 n1 (Nat.le_refl _) [] []
  rw [h1] at this
  obtain ⟨-, n, u, e, he⟩ := this
  exact ⟨_, scripted P, m0.st u, m.st [], n, e, fun u _ _ => script_only u, fun u _ => script_only u,
    hg n0 (Nat.le_refl _) [] u, he, ⟨rfl, rfl, rfl, rfl, rfl⟩, ⟨rfl, rfl, rfl, rfl, rfl⟩⟩

/-- **C136: each observer is told once.** While callbacks call nothing but `notify_observers`, a notification by any thread calls
exactly the registered observers, once each and in the order of registration. -/
theorem C136_each_once {m0 : State V} {t : Nat} {v : V} (r : Run self max (Turns Op.IsNotify) m0)
    (c : Course (Turns Op.IsNotify) t (.notify v) m0 m) (h1 : m.stack t = []) :
    ∃ new, m.events = m0.events ++ new ∧ entered new = (regs max m0.events).map (fun o => (m0.self, o, v)) ∧
      disconnected new = [] ∧ regs max m.events = regs max m0.events := by
  obtain ⟨U, H, s, s', n, e, hd, -, hr, he, hs, hs'⟩ := C136_call r c h1
  obtain ⟨s'', new, he', g1, g2, g3, g4⟩ := C33_notify_each_once H max s hr v (fun o _ u => hd u o v) n
  rw [he] at he'
  cases he'
  rw [hs.1] at g1 g2 g4
  rw [hs.2.1] at g2
  rw [hs'.1] at g1 g4
  exact ⟨new, g1, g2, g3, g4⟩

/-- **C136: everybody is told of the end.** While callbacks call nothing, `clear_observers` by any thread disconnects exactly the
registered observers, once each and in order, and nobody is registered then. -/
theorem C136_clear {m0 : State V} {t : Nat} (r : Run self max (Turns fun _ => False) m0)
    (c : Course (Turns fun _ => False) t .clear m0 m) (h1 : m.stack t = []) :
    ∃ new, m.events = m0.events ++ new ∧ disconnected new = (regs max m0.events).map (fun o => (m0.self, o)) ∧
      entered new = [] ∧ regs max m.events = [] := by
  obtain ⟨U, H, s, s', n, e, -, hd, hr, he, hs, hs'⟩ := C136_call r c h1
  obtain ⟨h2, h3⟩ := C38_clear_partial H max s hr
  obtain ⟨s'', new, he', g1, g2, g3⟩ := h3 (fun o _ u => hd u o) (n + 1)
  rw [he] at he'
  cases he'
  have g4 := (h2 _ _ _ he).1
  rw [hs.1] at g1 g2
  rw [hs.2.1] at g2
  rw [hs'.1] at g1 g4
  exact ⟨new, g1, g2, g3, g4⟩

end Verif.Observer.Fixed
