import Verif.Observer.Props
/-!
Property C178: observers of `observable<T, true, Max>` (`include/xitren/comm/observer.hpp:66-198`) that throw.

`notification` (observer.hpp:39-43), `notify_observers` (observer.hpp:150-163) and `clear_observers` (observer.hpp:133-140) are `noexcept`, so
an exception that leaves `data` or `disconnect` ends the program (`std::terminate`).  The functions of `Verif.Observer.Model` are given
once more for programs that may throw; the outcome `dead` carries what had happened by then.
-/
namespace Verif.Observer.Fatal
open Verif Verif.Observer

variable {V U : Type}

/-- What a callback does; `throw u` leaves it by an exception, when the user state is `u` (overrides of observer.hpp:50-52, 61-63). -/
inductive TProg (V U : Type) where
  | ret (u : U)
  | set (u : U) (k : TProg V U)
  | call (op : Op V) (k : Err → U → TProg V U)
  | throw (u : U)

/-- The same callback doing `c u` where it would throw (no code). -/
def TProg.calmBy (c : U → Prog V U) : TProg V U → Prog V U
  | .ret u => .ret u
  | .set u k => .set u (k.calmBy c)
  | .call op k => .call op fun e u => (k e u).calmBy c
  | .throw u => c u

/-- The same callback returning where it would throw (no code). -/
abbrev TProg.calm (p : TProg V U) : Prog V U := p.calmBy .ret

/-- The user's virtual functions (observer.hpp:50-52, 61-63). -/
structure THandlers (V U : Type) where
  data : U → Nat → V → TProg V U
  disconnect : U → Nat → TProg V U

/-- The same functions with `c u` in the place of exceptions (no code). -/
def THandlers.calmBy (c : U → Prog V U) (H : THandlers V U) : Handlers V U where
  data u o v := (H.data u o v).calmBy c
  disconnect u o := (H.disconnect u o).calmBy c

/-- The same functions without exceptions (no code). -/
abbrev THandlers.calm (H : THandlers V U) : Handlers V U := H.calmBy .ret

/-- How a piece of code ends: as in `Res`, or with the program (`std::terminate`; no code). -/
inductive Out (V α : Type) where
  | ok (a : α)
  | dead (log : List (Ev V))
  | ub
  | hang
  deriving DecidableEq

/-- One after the other (no code). -/
def Out.bind {α β : Type} (t : Out V α) (f : α → Out V β) : Out V β :=
  match t with
  | .ok a => f a
  | .dead l => .dead l
  | .ub => .ub
  | .hang => .hang

/-- Code that cannot throw (no code). -/
def lift {α : Type} : Res α → Out V α
  | .ok a => .ok a
  | .ub => .ub
  | .hang => .hang

/-- Running a callback (overrides of observer.hpp:50-52, 61-63), called by a function that is `noexcept` (observer.hpp:40, 134). -/
def runT (ex : St V U → Op V → Out V (St V U × Err)) : TProg V U → St V U → Out V (St V U)
  | .ret u, s => .ok { s with user := u }
  | .set u k, s => runT ex k { s with user := u }
  | .call op k, s => (ex s op).bind fun r => runT ex (k r.2 r.1.user) r.1
  | .throw _, s => .dead s.log

/-- `notification` (observer.hpp:39-43). -/
def callDataT (ex : St V U → Op V → Out V (St V U × Err)) (H : THandlers V U) (v : V) (o : Nat) (s : St V U) : Out V (St V U) :=
  (runT ex (H.data s.user o v) (s.emit (.enter s.self o v))).bind fun s => .ok (s.emit (.leave o))

/-- The loop of `notify_observers` (observer.hpp:158-160). -/
def notifyLoopT (ex : St V U → Op V → Out V (St V U × Err)) (H : THandlers V U) (v : V) (i : Nat) : Nat → St V U → Out V (St V U)
  | 0, s => .ok s
  | left + 1, s => (lift (deref s i)).bind fun o => (callDataT ex H v o s).bind fun s => notifyLoopT ex H v (i + 1) left s

/-- `notify_observers` (observer.hpp:150-163). -/
def notifyT (ex : St V U → Op V → Out V (St V U × Err)) (H : THandlers V U) (s : St V U) (v : V) : Out V (St V U × Err) :=
  if s.count > s.arr.length then .ok (s, .internalDataBroken)
  else if s.inside then .ok (s, .notifyRecursionDetected)
  else (notifyLoopT ex H v 0 s.count { s with inside := true }).bind fun s => .ok ({ s with inside := false }, .ok)

/-- The loop of `clear_observers` (observer.hpp:136-138). -/
def clearLoopT (ex : St V U → Op V → Out V (St V U × Err)) (H : THandlers V U) (i : Nat) : Nat → St V U → Out V (St V U)
  | 0, s => .ok s
  | left + 1, s => (lift (deref s i)).bind fun o =>
      (runT ex (H.disconnect s.user o) (s.emit (.disc s.self o))).bind fun s => clearLoopT ex H (i + 1) left s

/-- `clear_observers` (observer.hpp:133-140). -/
def clearT (ex : St V U → Op V → Out V (St V U × Err)) (H : THandlers V U) (s : St V U) : Out V (St V U × Err) :=
  (clearLoopT ex H 0 s.count s).bind fun s => .ok ({ s with count := 0 }, .ok)

/-- One member function call (observer.hpp:93-163). -/
def execStepT (ex : St V U → Op V → Out V (St V U × Err)) (H : THandlers V U) (s : St V U) (op : Op V) : Out V (St V U × Err) :=
  (match op with
    | .add o => lift (addObserver s o)
    | .remove o => lift (removeObserver s o)
    | .clear => clearT ex H s
    | .notify v => notifyT ex H s v).bind fun r => .ok (r.1.emit (.ret op r.2), r.2)

/-- A call with at most `n` levels of nested calls (observer.hpp:93-163). -/
def execT (H : THandlers V U) : Nat → St V U → Op V → Out V (St V U × Err)
  | 0, _, _ => .hang
  | n + 1, s, op => execStepT (execT H n) H s op

/-- The states of a program that has not ended (observer.hpp:78-163). -/
inductive ReachT (H : THandlers V U) (max : Nat) : St V U → Prop
  | new (self : Nat) (u : U) : ReachT H max (St.new self max u)
  | call (s s' : St V U) (n : Nat) (op : Op V) (e : Err) : ReachT H max s → execT H n s op = .ok (s', e) → ReachT H max s'
  | user (s : St V U) (u : U) : ReachT H max s → ReachT H max { s with user := u }

/-- Code that may throw, started when the log was `b`, against the same code without exceptions. -/
def Agrees {α : Type} (b : List (Ev V)) (lg : α → List (Ev V)) (t : Out V α) (r : Res α) : Prop :=
  (∀ a, r = .ok a → b <+: lg a) ∧
  match t with
  | .ok a => r = .ok a
  | .dead l => b <+: l ∧ ∀ a, r = .ok a → l <+: lg a
  | .ub => r = .ub
  | .hang => r = .hang

theorem agrees_bind {α β : Type} {b : List (Ev V)} {lg : α → List (Ev V)} {lg' : β → List (Ev V)} {t : Out V α} {r : Res α}
    {f : α → Out V β} {g : α → Res β} (h1 : Agrees b lg t r) (h2 : ∀ a, Agrees (lg a) lg' (f a) (g a)) :
    Agrees b lg' (t.bind f) (r >>= g) := by
  obtain ⟨h0, h1⟩ := h1
  have hgrow : ∀ c, (r >>= g) = .ok c → ∃ a, r = .ok a ∧ g a = .ok c := by
    intro c hc
    cases r with
    | ok a => exact ⟨a, rfl, hc⟩
    | ub => exact nomatch hc
    | hang => exact nomatch hc
  refine ⟨fun c hc => ?_, ?_⟩
  · obtain ⟨a, ha, hg⟩ := hgrow c hc
    exact (h0 a ha).trans ((h2 a).1 c hg)
  · cases t with
    | ok a =>
      dsimp only at h1
      subst h1
      obtain ⟨k0, k1⟩ := h2 a
      have hb : b <+: lg a := h0 a rfl
      dsimp only [Out.bind]
      show match f a with
        | .ok c => (g a) = .ok c
        | .dead l => b <+: l ∧ ∀ c, (g a) = .ok c → l <+: lg' c
        | .ub => (g a) = .ub
        | .hang => (g a) = .hang
      cases hf : f a with
      | ok c => rw [hf] at k1; exact k1
      | dead l => rw [hf] at k1; exact ⟨hb.trans k1.1, k1.2⟩
      | ub => rw [hf] at k1; exact k1
      | hang => rw [hf] at k1; exact k1
    | dead l =>
      dsimp only [Out.bind] at h1 ⊢
      refine ⟨h1.1, fun c hc => ?_⟩
      obtain ⟨a, ha, hg⟩ := hgrow c hc
      exact (h1.2 a ha).trans ((h2 a).1 c hg)
    | ub => dsimp only [Out.bind] at h1 ⊢; rw [h1]; rfl
    | hang => dsimp only [Out.bind] at h1 ⊢; rw [h1]; rfl

theorem agrees_lift {α : Type} {b : List (Ev V)} {lg : α → List (Ev V)} {r : Res α} (h : ∀ a, r = .ok a → b <+: lg a) :
    Agrees b lg (lift r) r := by
  cases r with
  | ok a => exact ⟨h, rfl⟩
  | ub => exact ⟨h, rfl⟩
  | hang => exact ⟨h, rfl⟩

theorem agrees_ok {α : Type} {b : List (Ev V)} {lg : α → List (Ev V)} {a : α} (h : b <+: lg a) : Agrees b lg (.ok a) (.ok a) :=
  ⟨fun _ hc => by cases hc; exact h, rfl⟩

theorem agrees_base {α : Type} {b b' : List (Ev V)} {lg : α → List (Ev V)} {t : Out V α} {r : Res α} (hb : b <+: b')
    (h : Agrees b' lg t r) : Agrees b lg t r := by
  obtain ⟨h0, h1⟩ := h
  refine ⟨fun a ha => hb.trans (h0 a ha), ?_⟩
  cases t with
  | dead l => exact ⟨hb.trans h1.1, h1.2⟩
  | ok a => exact h1
  | ub => exact h1
  | hang => exact h1

/-- The log of a state with the result of a call. -/
def logOf (r : St V U × Err) : List (Ev V) := r.1.log

section
variable {ex : St V U → Op V → Res (St V U × Err)} {exT : St V U → Op V → Out V (St V U × Err)}
  (hex : ∀ s op, Agrees s.log logOf (exT s op) (ex s op)) (H : THandlers V U) (c : U → Prog V U)
include hex

omit hex in
theorem prog_grows (hg : ∀ s op r, ex s op = .ok r → s.log <+: r.1.log) : ∀ (p : Prog V U) (s s' : St V U), runProg ex p s = .ok s' →
    s.log <+: s'.log
  | .ret u, s, s', h => by cases h; exact List.prefix_refl _
  | .set u k, s, s', h => prog_grows hg k { s with user := u } s' h
  | .call op k, s, s', h => by
    rw [runProg] at h
    cases hx : ex s op with
    | ub => rw [hx] at h; exact nomatch h
    | hang => rw [hx] at h; exact nomatch h
    | ok r =>
      rw [hx] at h
      exact (hg s op r hx).trans (prog_grows hg (k r.2 r.1.user) r.1 s' h)

theorem run_agrees : ∀ (p : TProg V U) (s : St V U), Agrees s.log St.log (runT exT p s) (runProg ex (p.calmBy c) s)
  | .ret _, _ => agrees_ok (List.prefix_refl _)
  | .set u k, s => run_agrees k { s with user := u }
  | .call op k, s => agrees_bind (hex s op) fun r => run_agrees (k r.2 r.1.user) r.1
  | .throw u, s =>
    have hg := prog_grows (fun s op r h => (hex s op).1 r h) (c u) s
    ⟨fun s' h => hg s' h, List.prefix_refl _, fun s' h => hg s' h⟩

theorem callData_agrees (v : V) (o : Nat) (s : St V U) : Agrees s.log St.log (callDataT exT H v o s) (callData ex (H.calmBy c) v o s) :=
  agrees_bind (agrees_base (List.prefix_append _ _) (run_agrees hex c (H.data s.user o v) (s.emit (.enter s.self o v))))
    fun _ => agrees_ok (List.prefix_append _ _)

theorem notifyLoop_agrees (v : V) : ∀ (left i : Nat) (s : St V U),
    Agrees s.log St.log (notifyLoopT exT H v i left s) (notifyLoop ex (H.calmBy c) v i left s)
  | 0, _, _ => agrees_ok (List.prefix_refl _)
  | left + 1, i, s => agrees_bind (lg := fun _ => s.log) (agrees_lift fun _ _ => List.prefix_refl _) fun o =>
      agrees_bind (callData_agrees hex H c v o s) fun s => notifyLoop_agrees v left (i + 1) s

theorem notify_agrees (s : St V U) (v : V) : Agrees s.log logOf (notifyT exT H s v) (notifyObservers ex (H.calmBy c) s v) := by
  unfold notifyT notifyObservers
  split
  · exact agrees_ok (List.prefix_refl _)
  · split
    · exact agrees_ok (List.prefix_refl _)
    · exact agrees_bind (notifyLoop_agrees hex H c v s.count 0 { s with inside := true }) fun _ => agrees_ok (List.prefix_refl _)

theorem clearLoop_agrees : ∀ (left i : Nat) (s : St V U),
    Agrees s.log St.log (clearLoopT exT H i left s) (clearLoop ex (H.calmBy c) i left s)
  | 0, _, _ => agrees_ok (List.prefix_refl _)
  | left + 1, i, s => agrees_bind (lg := fun _ => s.log) (agrees_lift fun _ _ => List.prefix_refl _) fun o =>
      agrees_bind (agrees_base (List.prefix_append _ _) (run_agrees hex c (H.disconnect s.user o) (s.emit (.disc s.self o))))
        fun s => clearLoop_agrees left (i + 1) s

theorem clear_agrees (s : St V U) : Agrees s.log logOf (clearT exT H s) (clearObservers ex (H.calmBy c) s) :=
  agrees_bind (clearLoop_agrees hex H c s.count 0 s) fun _ => agrees_ok (List.prefix_refl _)

theorem step_agrees (s : St V U) (op : Op V) : Agrees s.log logOf (execStepT exT H s op) (execStep ex (H.calmBy c) s op) := by
  unfold execStepT execStep
  refine agrees_bind (lg := logOf) ?_ fun r => agrees_ok (List.prefix_append _ _)
  cases op with
  | add o =>
    refine agrees_lift fun a h => ?_
    simp only [addObserver] at h
    split at h
    · cases h; exact List.prefix_refl _
    · split at h <;> (cases h; exact List.prefix_refl _)
  | remove o =>
    refine agrees_lift fun a h => ?_
    simp only [removeObserver] at h
    split at h
    · cases h; exact List.prefix_refl _
    · split at h
      · cases h; exact List.prefix_refl _
      · split at h <;> (cases h; exact List.prefix_refl _)
  | clear => exact clear_agrees hex H c s
  | notify v => exact notify_agrees hex H c s v

end

theorem exec_agrees (H : THandlers V U) (c : U → Prog V U) : ∀ (n : Nat) (s : St V U) (op : Op V), Agrees s.log logOf (execT H n s op) (exec (H.calmBy c) n s op)
  | 0, _, _ => ⟨fun _ h => (nomatch h), rfl⟩
  | n + 1, s, op => step_agrees (exec_agrees H c n) H c s op

/-- **C178.** A program that has not ended is in a state that it could have reached if the callbacks had done anything else (`c`) instead of
throwing (so that no exception has left a callback, and C32 to C38 hold for it), and a call that returns has done what it would have done
then; that goes for undefined behaviour and calls without end, too. -/
theorem C178_until (H : THandlers V U) (c : U → Prog V U) (max : Nat) {s : St V U} (h : ReachT H max s) : Reach (H.calmBy c) max s ∧
    ∀ n op, (∀ s' e, execT H n s op = .ok (s', e) → exec (H.calmBy c) n s op = .ok (s', e)) ∧
      (execT H n s op = .ub → exec (H.calmBy c) n s op = .ub) ∧ (execT H n s op = .hang → exec (H.calmBy c) n s op = .hang) := by
  have key : ∀ (s : St V U) n op, (∀ s' e, execT H n s op = .ok (s', e) → exec (H.calmBy c) n s op = .ok (s', e)) ∧
      (execT H n s op = .ub → exec (H.calmBy c) n s op = .ub) ∧ (execT H n s op = .hang → exec (H.calmBy c) n s op = .hang) := by
    intro s n op
    have ha := (exec_agrees H c n s op).2
    refine ⟨fun s' e h => ?_, fun h => ?_, fun h => ?_⟩ <;> (rw [h] at ha; exact ha)
  refine ⟨?_, key s⟩
  induction h with
  | new self u => exact .new self u
  | call s s' n op e _ hx ih => exact .call s s' n op e ih ((key s n op).1 s' e hx)
  | user s u _ ih => exact .user s u ih

/-- **C178.** When the program ends, what happened is the beginning of what would have happened if the
callbacks had done anything else instead. -/
theorem C178_ends (H : THandlers V U) (c : U → Prog V U) {s : St V U} {n : Nat} {op : Op V} {l : List (Ev V)} (h : execT H n s op = .dead l) :
    s.log <+: l ∧ ∀ s' e, exec (H.calmBy c) n s op = .ok (s', e) → l <+: s'.log := by
  have ha := (exec_agrees H c n s op).2
  rw [h] at ha
  exact ⟨ha.1, fun s' e hx => ha.2 (s', e) hx⟩

/-- **C178 (partial).** If a notification ends the program, the observers told by then are the first ones in the order of registration, each
once, and none has been disconnected (callbacks that call nothing but `notify_observers`).
Missing: that the others are told and the exception reaches the caller, which is false (`C178_refuted`). -/
theorem C178_told_partial (H : THandlers V U) (max : Nat) {s : St V U} (h : ReachT H max s) {v : V}
    (hq : ∀ o ∈ regs max s.log, ∀ u, (H.data u o v).calm.Only Op.IsNotify) {n : Nat} {l : List (Ev V)}
    (hd : execT H (n + 2) s (.notify v) = .dead l) :
    ∃ new, l = s.log ++ new ∧ entered new <+: (regs max s.log).map (fun o => (s.self, o, v)) ∧ disconnected new = [] := by
  obtain ⟨s', new', h1, h2, h3, h4, _⟩ := C33_notify_each_once H.calm max s (C178_until H .ret max h).1 v hq n
  obtain ⟨⟨new, rfl⟩, hp⟩ := C178_ends H .ret hd
  have hp := hp s' _ h1
  rw [h2] at hp
  obtain ⟨rest, rfl⟩ := (List.prefix_append_right_inj s.log).mp hp
  refine ⟨new, rfl, ?_, ?_⟩
  · rw [← h3, entered_append]; exact List.prefix_append _ _
  · rw [disconnected_append] at h4
    exact (List.append_eq_nil_iff.mp h4).1

/-- **C178 (partial).** If clearing (or the destructor) ends the program, the observers disconnected by then are the first ones in the order of
registration, each once (callbacks that call nothing). -/
theorem C178_cleared_partial (H : THandlers V U) (max : Nat) {s : St V U} (h : ReachT H max s)
    (hq : ∀ o ∈ regs max s.log, ∀ u, (H.disconnect u o).calm.Only (fun _ => False)) {n : Nat} {l : List (Ev V)}
    (hd : execT H (n + 1) s .clear = .dead l) :
    ∃ new, l = s.log ++ new ∧ disconnected new <+: (regs max s.log).map (fun o => (s.self, o)) ∧ entered new = [] := by
  obtain ⟨s', new', h1, h2, h3, h4⟩ := (C38_clear_partial H.calm max s (C178_until H .ret max h).1).2 hq n
  obtain ⟨⟨new, rfl⟩, hp⟩ := C178_ends H .ret hd
  have hp := hp s' _ h1
  rw [h2] at hp
  obtain ⟨rest, rfl⟩ := (List.prefix_append_right_inj s.log).mp hp
  refine ⟨new, rfl, ?_, ?_⟩
  · rw [← h3, disconnected_append]; exact List.prefix_append _ _
  · rw [entered_append] at h4
    exact (List.append_eq_nil_iff.mp h4).1

/-- What happens for observers that return (no code). -/
def toldAll (self : Nat) (v : V) (os : List Nat) : List (Ev V) := os.flatMap fun o => [.enter self o v, .leave o]

theorem entered_toldAll (self : Nat) (v : V) (os : List Nat) : entered (toldAll self v os) = os.map fun o => (self, o, v) := by
  induction os with
  | nil => rfl
  | cons o os ih => simp only [toldAll, List.flatMap_cons, List.map_cons] at ih ⊢; simp [entered, ih]

/-- Observers that throw for some values and else just return. -/
def picky (boom : Nat → V → Bool) (f : U → Nat → V → U) : THandlers V U where
  data u o v := if boom o v then .throw u else .ret (f u o v)
  disconnect u _ := .ret u

theorem loop_picky (boom : Nat → V → Bool) (f : U → Nat → V → U) (ex : St V U → Op V → Out V (St V U × Err)) (v : V) :
    ∀ (os : List Nat) (i : Nat) (s : St V U), (∀ k o, os[k]? = some o → s.arr[i + k]? = some (some o)) →
      ((∀ o ∈ os, boom o v = false) → ∃ s', notifyLoopT ex (picky boom f) v i os.length s = .ok s' ∧ s'.log = s.log ++ toldAll s.self v os) ∧
      ∀ a o b, os = a ++ o :: b → (∀ x ∈ a, boom x v = false) → boom o v = true →
        notifyLoopT ex (picky boom f) v i os.length s = .dead (s.log ++ toldAll s.self v a ++ [.enter s.self o v])
  | [], i, s, _ => ⟨fun _ => ⟨s, rfl, by simp [toldAll]⟩, fun a o b h => by simp at h⟩
  | o :: os, i, s, h => by
    have hd : deref s i = .ok o := by
      have := h 0 o rfl
      unfold deref
      rw [Nat.add_zero] at this
      rw [this]
    by_cases hb : boom o v = true
    · refine ⟨fun hall => ?_, fun a o' b hsplit ha ho => ?_⟩
      · have := hall o List.mem_cons_self
        rw [hb] at this
        exact Bool.noConfusion this
      · cases a with
        | nil =>
          cases hsplit
          simp only [List.length_cons, notifyLoopT, hd, lift, Out.bind, callDataT, picky, hb, if_true, runT, St.emit, toldAll,
            List.flatMap_nil, List.append_nil]
        | cons x a =>
          cases hsplit
          have := ha _ List.mem_cons_self
          rw [hb] at this
          exact Bool.noConfusion this
    · have hb' : boom o v = false := by cases hx : boom o v <;> simp_all
      have hstep : notifyLoopT ex (picky boom f) v i (o :: os).length s = notifyLoopT ex (picky boom f) v (i + 1) os.length
          { s with user := f s.user o v, log := s.log ++ [.enter s.self o v] ++ [.leave o] } := by
        simp only [List.length_cons, notifyLoopT, hd, lift, Out.bind, callDataT, picky, hb', Bool.false_eq_true, if_false, runT, St.emit]
      obtain ⟨k1, k2⟩ := loop_picky boom f ex v os (i + 1)
        { s with user := f s.user o v, log := s.log ++ [.enter s.self o v] ++ [.leave o] }
        (fun k o' hk => by
          have := h (k + 1) o' (by simpa using hk)
          rw [show i + 1 + k = i + (k + 1) by omega]
          exact this)
      rw [hstep]
      refine ⟨fun hall => ?_, fun a o' b hsplit ha ho => ?_⟩
      · obtain ⟨s', e1, e2⟩ := k1 fun x hx => hall x (List.mem_cons_of_mem _ hx)
        exact ⟨s', e1, by rw [e2]; simp [toldAll]⟩
      · cases a with
        | nil =>
          cases hsplit
          exact absurd ho hb
        | cons x a =>
          cases hsplit
          rw [k2 a o' b rfl (fun y hy => ha y (List.mem_cons_of_mem _ hy)) ho]
          simp [toldAll]

/-- **C178.** Observers that throw for some values, `o` being the first of them registered: the notification ends the program, when exactly the
observers up to `o` have been told.  If none throws, it returns and all have been told. -/
theorem C178_exact (boom : Nat → V → Bool) (f : U → Nat → V → U) (max : Nat) {s : St V U} (h : ReachT (picky boom f) max s) (v : V) (n : Nat) :
    (∀ a o b, regs max s.log = a ++ o :: b → (∀ x ∈ a, boom x v = false) → boom o v = true →
      ∃ new, execT (picky boom f) (n + 1) s (.notify v) = .dead (s.log ++ new) ∧
        entered new = (a ++ [o]).map (fun x => (s.self, x, v)) ∧ new.getLast? = some (.enter s.self o v)) ∧
    ((∀ x ∈ regs max s.log, boom x v = false) → ∃ s' new, execT (picky boom f) (n + 1) s (.notify v) = .ok (s', .ok) ∧
      s'.log = s.log ++ new ∧ entered new = (regs max s.log).map (fun x => (s.self, x, v))) := by
  obtain ⟨hI, hin⟩ := reach_inv (C178_until _ .ret max h).1
  have hc := hI.base.count_le
  have hlen := hI.base.len
  have harr : ∀ k o, (regs max s.log)[k]? = some o → ({ s with inside := true } : St V U).arr[0 + k]? = some (some o) := by
    intro k o hk
    have hk' : k < s.count := by rw [hI.base.cnt]; exact (List.getElem?_eq_some_iff.mp hk).1
    have h2 : (s.arr.take s.count)[k]? = some (some o) := by rw [hI.base.lst, List.getElem?_map, hk]; rfl
    rw [List.getElem?_take, if_pos hk'] at h2
    rw [Nat.zero_add]
    exact h2
  obtain ⟨k1, k2⟩ := loop_picky boom f (execT (picky boom f) n) v (regs max s.log) 0 { s with inside := true } harr
  have hx : execT (picky boom f) (n + 1) s (.notify v) =
      ((notifyLoopT (execT (picky boom f) n) (picky boom f) v 0 (regs max s.log).length { s with inside := true }).bind
        fun s => .ok (({ s with inside := false } : St V U), Err.ok)).bind fun r => .ok (r.1.emit (.ret (.notify v) r.2), r.2) := by
    rw [execT, execStepT]
    dsimp only [notifyT]
    rw [if_neg (by omega), if_neg (by rw [hin]; simp), ← hI.base.cnt]
  refine ⟨fun a o b hs ha ho => ?_, fun hall => ?_⟩
  · refine ⟨toldAll s.self v a ++ [.enter s.self o v], ?_, ?_, by simp⟩
    · rw [hx, k2 a o b hs ha ho]
      simp only [Out.bind, List.append_assoc]
    · rw [entered_append, entered_toldAll]
      simp [entered]
  · obtain ⟨s', e1, e2⟩ := k1 hall
    refine ⟨_, toldAll s.self v (regs max s.log) ++ [.ret (.notify v) .ok], by rw [hx, e1]; rfl, ?_, ?_⟩
    · dsimp only [St.emit]
      rw [e2]
      simp
    · rw [entered_append, entered_toldAll]
      simp [entered]

theorem three_reachT (H : THandlers Nat Unit) : ReachT H 4 three :=
  .call _ _ 1 (.add 3) .ok (.call _ _ 1 (.add 2) .ok (.call _ _ 1 (.add 1) .ok (.new 100 ()) rfl) rfl) rfl

/-- Observer 2 throws. -/
def second : THandlers Nat Unit := picky (fun o _ => o == 2) (fun u _ _ => u)

/-- **C178 is false**: observers 1, 2 and 3 are registered and 2 throws; 3 is not told, and the program ends. -/
theorem C178_refuted : ∃ s : St Nat Unit, ReachT second 4 s ∧ regs 4 s.log = [1, 2, 3] ∧ ∀ n, ∃ new,
    execT second (n + 1) s (.notify 7) = .dead (s.log ++ new) ∧ entered new = [(100, 1, 7), (100, 2, 7)] := by
  refine ⟨three, three_reachT _, by decide +kernel, fun n => ?_⟩
  obtain ⟨new, h1, h2, _⟩ := (C178_exact (fun o _ => o == 2) (fun u _ _ => u) 4 (three_reachT _) 7 n).1 [1] 2 [3] (by decide +kernel)
    (by simp) rfl
  exact ⟨new, h1, h2⟩

/-- The hypotheses of `C178_until`, `C178_ends` and `C178_told_partial` can be met: observer 2 throws. -/
example : ∃ l, ReachT second 4 three ∧ (∀ o ∈ regs 4 three.log, ∀ u, (second.data u o 7).calm.Only Op.IsNotify) ∧
    execT second 2 three (.notify 7) = .dead l ∧ (∃ s' e, exec second.calm 2 three (.notify 7) = .ok (s', e)) := by
  refine ⟨_, three_reachT _, fun o _ u => ?_, rfl, _, _, rfl⟩
  show (TProg.calm (V := Nat) (if (o == 2) = true then .throw u else .ret u)).Only Op.IsNotify
  split <;> trivial

/-- Observer 2 throws when it is disconnected. -/
def clinging : THandlers Nat Unit where
  data u _ _ := .ret u
  disconnect u o := if o = 2 then .throw u else .ret u

/-- The hypotheses of `C178_cleared_partial` can be met. -/
example : ∃ l, ReachT clinging 4 three ∧ (∀ o ∈ regs 4 three.log, ∀ u, (clinging.disconnect u o).calm.Only (fun _ => False)) ∧
    execT clinging 1 three .clear = .dead l ∧ disconnected l = [(100, 1), (100, 2)] := by
  refine ⟨_, three_reachT _, fun o _ u => ?_, rfl, by decide +kernel⟩
  show (TProg.calm (V := Nat) (if o = 2 then .throw u else .ret u)).Only _
  split <;> trivial

end Verif.Observer.Fatal
