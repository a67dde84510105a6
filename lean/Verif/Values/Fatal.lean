import Verif.Values.ReentrantProps
/-!
Property C180: functions of values that throw (`include/xitren/comm/values/observable.hpp:22-267`, `observed.hpp`; fixed capacity, one thread).

`notification` (observed.hpp:58-62), all operators, `notify_observers` and `clear_observers` (observable.hpp:36-239) are `noexcept`: an exception
that leaves an `on_update` function or `disconnect` ends the program.  The functions of `Verif.Values.Reentrant` that run functions of the
user are given once more for functions that may throw; the outcome `dead` carries what had been delivered by then.
-/
namespace Verif.Values.Re.Fatal
open Verif Verif.Values Verif.Values.Re

variable {U : Type}

/-- The values delivered (no code). -/
abbrev Log := List (Nat × Int)

/-- What a function does; `throw u` leaves it by an exception (a function of observed.hpp:35-39, 69-71). -/
inductive TProg (U : Type) where
  | ret (u : U)
  | set (u : U) (k : TProg U)
  | call (op : Op) (k : Ret → U → TProg U)
  | throw (u : U)

/-- The same function doing `c u` where it would throw (no code). -/
def TProg.calmBy (c : U → Prog U) : TProg U → Prog U
  | .ret u => .ret u
  | .set u k => .set u (k.calmBy c)
  | .call op k => .call op fun r u => (k r u).calmBy c
  | .throw u => c u

/-- The functions of the objects (observed.hpp:35-39, 69-71, 84). -/
structure THandlers (U : Type) where
  update : U → Nat → Int → TProg U
  disconnect : U → Nat → TProg U

/-- The same functions with `c u` in the place of exceptions (no code). -/
def THandlers.calmBy (c : U → Prog U) (H : THandlers U) : Handlers U where
  update u o v := (H.update u o v).calmBy c
  disconnect u o := (H.disconnect u o).calmBy c

/-- How a piece of code ends: as in `Res`, or with the program (no code). -/
inductive Out (α : Type) where
  | ok (a : α)
  | dead (log : Log)
  | ub
  | hang

/-- One after the other (no code). -/
def Out.bind {α β : Type} (t : Out α) (f : α → Out β) : Out β :=
  match t with
  | .ok a => f a
  | .dead l => .dead l
  | .ub => .ub
  | .hang => .hang

/-- Code that cannot throw (no code). -/
def lift {α : Type} : Res α → Out α
  | .ok a => .ok a
  | .ub => .ub
  | .hang => .hang

/-- How calls are run (observable.hpp:36-220). -/
abbrev ExT (U : Type) := St U → Op → Out (St U × Ret)

/-- Running a function of the user (observed.hpp:79), called by a function that is `noexcept` (observed.hpp:59, observable.hpp:214). -/
def runT (ex : ExT U) : TProg U → St U → Out (St U)
  | .ret u, s => .ok { s with user := u }
  | .set u k, s => runT ex k { s with user := u }
  | .call op k, s => (ex s op).bind fun r => runT ex (k r.2 r.1.user) r.1
  | .throw _, s => .dead s.log

/-- `observed::notification` and `data` (observed.hpp:58-62, 74-81): the object holds the value before its function runs. -/
def deliverT (ex : ExT U) (H : THandlers U) (v : Int) (o : Nat) (s : St U) : Out (St U) :=
  runT ex (H.update s.user o v) { s with held := fun p => if p = o then v else s.held p, log := s.log ++ [(o, v)] }

/-- The loop of `notify_observers` (observable.hpp:235-237). -/
def notifyLoopT (ex : ExT U) (H : THandlers U) (v : Int) (i : Nat) : Nat → St U → Out (St U)
  | 0, s => .ok s
  | left + 1, s => (lift (deref s i)).bind fun o => (deliverT ex H v o s).bind fun s => notifyLoopT ex H v (i + 1) left s

/-- `notify_observers` (observable.hpp:230-239). -/
def notifyT (ex : ExT U) (H : THandlers U) (s : St U) (v : Int) : Out (St U) :=
  if s.count > s.arr.length then .ok s else notifyLoopT ex H v 0 s.count s

/-- An update operator (observable.hpp:36-146). -/
def updateT (ex : ExT U) (H : THandlers U) (T : IntTy) (s : St U) (u : Upd) : Out (St U × Ret) :=
  (lift (result T s.value u)).bind fun v => (notifyT ex H { s with value := stored T s.value u } v).bind fun s => .ok (s, .val v)

/-- The loop of `clear_observers` (observable.hpp:216-218). -/
def clearLoopT (ex : ExT U) (H : THandlers U) (i : Nat) : Nat → St U → Out (St U)
  | 0, s => .ok s
  | left + 1, s => (lift (deref s i)).bind fun o => (runT ex (H.disconnect s.user o) s).bind fun s => clearLoopT ex H (i + 1) left s

/-- `clear_observers` (observable.hpp:213-220). -/
def clearT (ex : ExT U) (H : THandlers U) (s : St U) : Out (St U × Ret) :=
  (clearLoopT ex H 0 s.count s).bind fun s => .ok ({ s with count := 0 }, .unit)

/-- One call (observable.hpp:36-220). -/
def execStepT (ex : ExT U) (H : THandlers U) (T : IntTy) (s : St U) : Op → Out (St U × Ret)
  | .upd u => updateT ex H T s u
  | .add o => lift (Re.add s o)
  | .remove o => lift (Re.remove s o)
  | .clear => clearT ex H s

/-- A call with fewer than `n` levels of nested calls (observable.hpp:36-220). -/
def execT (H : THandlers U) (T : IntTy) : Nat → ExT U
  | 0, _, _ => .hang
  | n + 1, s, op => execStepT (execT H T n) H T s op

/-- The states of a program that has not ended (observable.hpp:36-220). -/
inductive ReachT (H : THandlers U) (T : IntTy) (max : Nat) : St U → Prop
  | new (u : U) : ReachT H T max (St.new max u)
  | call (s s' : St U) (n : Nat) (op : Op) (r : Ret) : ReachT H T max s → execT H T n s op = .ok (s', r) → ReachT H T max s'
  | user (s : St U) (u : U) : ReachT H T max s → ReachT H T max { s with user := u }

/-- Code that may throw, started when the log was `b`, against the same code without exceptions. -/
def Agrees {α : Type} (b : Log) (lg : α → Log) (t : Out α) (r : Res α) : Prop :=
  (∀ a, r = .ok a → b <+: lg a) ∧
  match t with
  | .ok a => r = .ok a
  | .dead l => b <+: l ∧ ∀ a, r = .ok a → l <+: lg a
  | .ub => r = .ub
  | .hang => r = .hang

theorem agrees_bind {α β : Type} {b : Log} {lg : α → Log} {lg' : β → Log} {t : Out α} {r : Res α}
    {f : α → Out β} {g : α → Res β} (h1 : Agrees b lg t r) (h2 : ∀ a, Agrees (lg a) lg' (f a) (g a)) :
    Agrees b lg' (t.bind f) (r >>= g) := by
  obtain ⟨h0, h1⟩ := h1
  have hgrow : ∀ c, (r >>= g) = .ok c → ∃ a, r = .ok a ∧ g a = .ok c := by
    intro c hc
    cases r with
    | ok a => exact ⟨a, rfl, hc⟩
    | ub => exact nomatch hc
    | hang => exact nomatch hc
  refine ⟨fun c hc => ?_, ?_⟩
  · obtain ⟨a, ha, hg⟩ := hgrow c hc
    exact (h0 a ha).trans ((h2 a).1 c hg)
  · cases t with
    | ok a =>
      dsimp only at h1
      subst h1
      obtain ⟨k0, k1⟩ := h2 a
      have hb : b <+: lg a := h0 a rfl
      dsimp only [Out.bind]
      show match f a with
        | .ok c => (g a) = .ok c
        | .dead l => b <+: l ∧ ∀ c, (g a) = .ok c → l <+: lg' c
        | .ub => (g a) = .ub
        | .hang => (g a) = .hang
      cases hf : f a with
      | ok c => rw [hf] at k1; exact k1
      | dead l => rw [hf] at k1; exact ⟨hb.trans k1.1, k1.2⟩
      | ub => rw [hf] at k1; exact k1
      | hang => rw [hf] at k1; exact k1
    | dead l =>
      dsimp only [Out.bind] at h1 ⊢
      refine ⟨h1.1, fun c hc => ?_⟩
      obtain ⟨a, ha, hg⟩ := hgrow c hc
      exact (h1.2 a ha).trans ((h2 a).1 c hg)
    | ub => dsimp only [Out.bind] at h1 ⊢; rw [h1]; rfl
    | hang => dsimp only [Out.bind] at h1 ⊢; rw [h1]; rfl

theorem agrees_lift {α : Type} {b : Log} {lg : α → Log} {r : Res α} (h : ∀ a, r = .ok a → b <+: lg a) :
    Agrees b lg (lift r) r := by
  cases r with
  | ok a => exact ⟨h, rfl⟩
  | ub => exact ⟨h, rfl⟩
  | hang => exact ⟨h, rfl⟩

theorem agrees_ok {α : Type} {b : Log} {lg : α → Log} {a : α} (h : b <+: lg a) : Agrees b lg (.ok a) (.ok a) :=
  ⟨fun _ hc => by cases hc; exact h, rfl⟩

theorem agrees_base {α : Type} {b b' : Log} {lg : α → Log} {t : Out α} {r : Res α} (hb : b <+: b')
    (h : Agrees b' lg t r) : Agrees b lg t r := by
  obtain ⟨h0, h1⟩ := h
  refine ⟨fun a ha => hb.trans (h0 a ha), ?_⟩
  cases t with
  | dead l => exact ⟨hb.trans h1.1, h1.2⟩
  | ok a => exact h1
  | ub => exact h1
  | hang => exact h1

/-- The log of a state with the result of a call. -/
def logOf (r : St U × Ret) : Log := r.1.log

section
variable {ex : Ex U} {exT : ExT U} (hex : ∀ s op, Agrees s.log logOf (exT s op) (ex s op)) (H : THandlers U) (c : U → Prog U)
include hex

omit hex in
theorem prog_grows (hg : ∀ s op r, ex s op = .ok r → s.log <+: r.1.log) : ∀ (p : Prog U) (s s' : St U), runProg ex p s = .ok s' →
    s.log <+: s'.log
  | .ret u, s, s', h => by cases h; exact List.prefix_refl _
  | .set u k, s, s', h => prog_grows hg k { s with user := u } s' h
  | .call op k, s, s', h => by
    rw [runProg] at h
    cases hx : ex s op with
    | ub => rw [hx] at h; exact nomatch h
    | hang => rw [hx] at h; exact nomatch h
    | ok r =>
      rw [hx] at h
      exact (hg s op r hx).trans (prog_grows hg (k r.2 r.1.user) r.1 s' h)

theorem run_agrees : ∀ (p : TProg U) (s : St U), Agrees s.log St.log (runT exT p s) (runProg ex (p.calmBy c) s)
  | .ret _, _ => agrees_ok (List.prefix_refl _)
  | .set u k, s => run_agrees k { s with user := u }
  | .call op k, s => agrees_bind (hex s op) fun r => run_agrees (k r.2 r.1.user) r.1
  | .throw u, s =>
    have hg := prog_grows (fun s op r h => (hex s op).1 r h) (c u) s
    ⟨fun s' h => hg s' h, List.prefix_refl _, fun s' h => hg s' h⟩

theorem deliver_agrees (v : Int) (o : Nat) (s : St U) : Agrees s.log St.log (deliverT exT H v o s) (deliver ex (H.calmBy c) v o s) :=
  agrees_base (List.prefix_append _ [(o, v)])
    (run_agrees hex c (H.update s.user o v) { s with held := fun p => if p = o then v else s.held p, log := s.log ++ [(o, v)] })

theorem notifyLoop_agrees (v : Int) : ∀ (left i : Nat) (s : St U),
    Agrees s.log St.log (notifyLoopT exT H v i left s) (notifyLoop ex (H.calmBy c) v i left s)
  | 0, _, _ => agrees_ok (List.prefix_refl _)
  | left + 1, i, s => agrees_bind (lg := fun _ => s.log) (agrees_lift fun _ _ => List.prefix_refl _) fun o =>
      agrees_bind (deliver_agrees hex H c v o s) fun s => notifyLoop_agrees v left (i + 1) s

theorem notify_agrees (s : St U) (v : Int) : Agrees s.log St.log (notifyT exT H s v) (notify ex (H.calmBy c) s v) := by
  unfold notifyT notify
  split
  · exact agrees_ok (List.prefix_refl _)
  · exact notifyLoop_agrees hex H c v s.count 0 s

theorem clearLoop_agrees : ∀ (left i : Nat) (s : St U),
    Agrees s.log St.log (clearLoopT exT H i left s) (clearLoop ex (H.calmBy c) i left s)
  | 0, _, _ => agrees_ok (List.prefix_refl _)
  | left + 1, i, s => agrees_bind (lg := fun _ => s.log) (agrees_lift fun _ _ => List.prefix_refl _) fun o =>
      agrees_bind (run_agrees hex c (H.disconnect s.user o) s) fun s => clearLoop_agrees left (i + 1) s

theorem step_agrees (T : IntTy) (s : St U) (op : Op) : Agrees s.log logOf (execStepT exT H T s op) (execStep ex (H.calmBy c) T s op) := by
  cases op with
  | upd u =>
    exact agrees_bind (lg := fun _ => s.log) (agrees_lift fun _ _ => List.prefix_refl _) fun v =>
      agrees_bind (notify_agrees hex H c { s with value := stored T s.value u } v) fun _ => agrees_ok (List.prefix_refl _)
  | add o =>
    refine agrees_lift fun a h => ?_
    simp only [Re.add] at h
    split at h
    · cases h; exact List.prefix_refl _
    · split at h <;> (cases h; exact List.prefix_refl _)
  | remove o =>
    refine agrees_lift fun a h => ?_
    simp only [Re.remove] at h
    split at h
    · cases h; exact List.prefix_refl _
    · split at h
      · cases h; exact List.prefix_refl _
      · split at h <;> (cases h; exact List.prefix_refl _)
  | clear => exact agrees_bind (clearLoop_agrees hex H c s.count 0 s) fun _ => agrees_ok (List.prefix_refl _)

end

theorem exec_agrees (H : THandlers U) (c : U → Prog U) (T : IntTy) : ∀ (n : Nat) (s : St U) (op : Op),
    Agrees s.log logOf (execT H T n s op) (exec (H.calmBy c) T n s op)
  | 0, _, _ => ⟨fun _ h => (nomatch h), rfl⟩
  | n + 1, s, op => step_agrees (exec_agrees H c T n) H c T s op

/-- **C180.** A program that has not ended is in a state that it could have reached if the functions had done anything else (`c`) instead of
throwing (so that no exception has left a function, and C85 to C87 hold for it), and a call that returns has done what it would have done
then; that goes for undefined behaviour and calls without end, too. -/
theorem C180_until (H : THandlers U) (c : U → Prog U) (T : IntTy) (max : Nat) {s : St U} (h : ReachT H T max s) :
    Reach (H.calmBy c) T max s ∧ ∀ n op, (∀ s' r, execT H T n s op = .ok (s', r) → exec (H.calmBy c) T n s op = .ok (s', r)) ∧
      (execT H T n s op = .ub → exec (H.calmBy c) T n s op = .ub) ∧ (execT H T n s op = .hang → exec (H.calmBy c) T n s op = .hang) := by
  have key : ∀ (s : St U) n op, (∀ s' r, execT H T n s op = .ok (s', r) → exec (H.calmBy c) T n s op = .ok (s', r)) ∧
      (execT H T n s op = .ub → exec (H.calmBy c) T n s op = .ub) ∧ (execT H T n s op = .hang → exec (H.calmBy c) T n s op = .hang) := by
    intro s n op
    have ha := (exec_agrees H c T n s op).2
    refine ⟨fun s' r h => ?_, fun h => ?_, fun h => ?_⟩ <;> (rw [h] at ha; exact ha)
  refine ⟨?_, key s⟩
  induction h with
  | new u => exact .new u
  | call s s' n op r _ hx ih => exact .call s s' n op r ih ((key s n op).1 s' r hx)
  | user s u _ ih => exact .user s u ih

/-- **C180.** When the program ends, what has been delivered is the beginning of what would have been delivered if the functions had done anything
else instead. -/
theorem C180_ends (H : THandlers U) (c : U → Prog U) {T : IntTy} {s : St U} {n : Nat} {op : Op} {l : Log} (h : execT H T n s op = .dead l) :
    s.log <+: l ∧ ∀ s' r, exec (H.calmBy c) T n s op = .ok (s', r) → l <+: s'.log := by
  have ha := (exec_agrees H c T n s op).2
  rw [h] at ha
  exact ⟨ha.1, fun s' r hx => ha.2 (s', r) hx⟩

/-- Functions that throw for some values and else just return. -/
def picky (boom : Nat → Int → Bool) (f : U → Nat → Int → U) : THandlers U where
  update u o v := if boom o v then .throw u else .ret (f u o v)
  disconnect u _ := .ret u

theorem loop_picky (boom : Nat → Int → Bool) (f : U → Nat → Int → U) (ex : ExT U) (v : Int) :
    ∀ (os : List Nat) (i : Nat) (s : St U), (∀ k o, os[k]? = some o → s.arr[i + k]? = some (some o)) →
      ((∀ o ∈ os, boom o v = false) → ∃ s', notifyLoopT ex (picky boom f) v i os.length s = .ok s' ∧ s'.value = s.value ∧
        s'.log = s.log ++ os.map fun o => (o, v)) ∧
      ∀ a o b, os = a ++ o :: b → (∀ x ∈ a, boom x v = false) → boom o v = true →
        notifyLoopT ex (picky boom f) v i os.length s = .dead (s.log ++ (a ++ [o]).map fun o => (o, v))
  | [], i, s, _ => ⟨fun _ => ⟨s, rfl, rfl, by simp⟩, fun a o b h => by simp at h⟩
  | o :: os, i, s, h => by
    have hd : deref s i = .ok o := by
      have := h 0 o rfl
      unfold deref
      rw [Nat.add_zero] at this
      rw [this]
    by_cases hb : boom o v = true
    · refine ⟨fun hall => ?_, fun a o' b hsplit ha ho => ?_⟩
      · have := hall o List.mem_cons_self
        rw [hb] at this
        exact Bool.noConfusion this
      · cases a with
        | nil =>
          cases hsplit
          simp only [List.length_cons, notifyLoopT, hd, lift, Out.bind, deliverT, picky, hb, if_true, runT, List.nil_append, List.map_cons,
            List.map_nil]
        | cons x a =>
          cases hsplit
          have := ha _ List.mem_cons_self
          rw [hb] at this
          exact Bool.noConfusion this
    · have hb' : boom o v = false := by cases hx : boom o v <;> simp_all
      have hstep : notifyLoopT ex (picky boom f) v i (o :: os).length s = notifyLoopT ex (picky boom f) v (i + 1) os.length
          { s with held := fun p => if p = o then v else s.held p, user := f s.user o v, log := s.log ++ [(o, v)] } := by
        simp only [List.length_cons, notifyLoopT, hd, lift, Out.bind, deliverT, picky, hb', Bool.false_eq_true, if_false, runT]
      obtain ⟨k1, k2⟩ := loop_picky boom f ex v os (i + 1)
        { s with held := fun p => if p = o then v else s.held p, user := f s.user o v, log := s.log ++ [(o, v)] }
        (fun k o' hk => by
          have := h (k + 1) o' (by simpa using hk)
          rw [show i + 1 + k = i + (k + 1) by omega]
          exact this)
      rw [hstep]
      refine ⟨fun hall => ?_, fun a o' b hsplit ha ho => ?_⟩
      · obtain ⟨s', e1, e2, e3⟩ := k1 fun x hx => hall x (List.mem_cons_of_mem _ hx)
        exact ⟨s', e1, e2, by rw [e3]; simp⟩
      · cases a with
        | nil =>
          cases hsplit
          exact absurd ho hb
        | cons x a =>
          cases hsplit
          rw [k2 a o' b rfl (fun y hy => ha y (List.mem_cons_of_mem _ hy)) ho]
          simp

/-- **C180.** Functions that throw for some values, that of `o` being the first of them in the order of registration: an assignment ends the
program, when exactly the objects up to `o` have got the value.  If none throws, it returns and all have got it. -/
theorem C180_exact (boom : Nat → Int → Bool) (f : U → Nat → Int → U) (T : IntTy) (max : Nat) {s : St U}
    (h : ReachT (picky boom f) T max s) (v : Int) (n : Nat) :
    (∀ a o b, regs s = a ++ o :: b → (∀ x ∈ a, boom x v = false) → boom o v = true →
      execT (picky boom f) T (n + 1) s (.upd (.assign v)) = .dead (s.log ++ (a ++ [o]).map fun o => (o, v))) ∧
    ((∀ x ∈ regs s, boom x v = false) → ∃ s', execT (picky boom f) T (n + 1) s (.upd (.assign v)) = .ok (s', .val v) ∧ s'.value = v ∧
      s'.log = s.log ++ (regs s).map fun o => (o, v)) := by
  have hI := (C180_until _ .ret T max h).1.inv
  have hc := hI.le
  have hlen := hI.len
  have harr : ∀ k o, (regs s)[k]? = some o → ({ s with value := v } : St U).arr[0 + k]? = some (some o) := by
    intro k o hk
    have hk' : k < s.count := by rw [← hI.cnt]; exact (List.getElem?_eq_some_iff.mp hk).1
    have h2 : (s.arr.take s.count)[k]? = some (some o) := by rw [hI.lst, List.getElem?_map, hk]; rfl
    rw [List.getElem?_take, if_pos hk'] at h2
    rw [Nat.zero_add]
    exact h2
  obtain ⟨k1, k2⟩ := loop_picky boom f (execT (picky boom f) T n) v (regs s) 0 { s with value := v } harr
  have hx : execT (picky boom f) T (n + 1) s (.upd (.assign v)) =
      (notifyLoopT (execT (picky boom f) T n) (picky boom f) v 0 (regs s).length { s with value := v }).bind
        fun s => .ok (s, Ret.val v) := by
    rw [execT, execStepT, updateT]
    dsimp only [result, lift, Out.bind, stored, notifyT]
    rw [if_neg (by omega), ← hI.cnt]
  refine ⟨fun a o b hs ha ho => ?_, fun hall => ?_⟩
  · rw [hx, k2 a o b hs ha ho]
    rfl
  · obtain ⟨s', e1, e2, e3⟩ := k1 hall
    exact ⟨s', by rw [hx, e1]; rfl, e2, e3⟩

/-- The function of object 2 throws. -/
def second : THandlers Unit := picky (fun o _ => o == 2) (fun u _ _ => u)

/-- Objects 1, 2 and 3 registered. -/
def three : St Unit := ⟨0, [some 1, some 2, some 3, none], 3, fun _ => 0, (), []⟩

theorem three_reachT (H : THandlers Unit) (T : IntTy) : ReachT H T 4 three :=
  .call _ _ 1 (.add 3) (.err .ok) (.call _ _ 1 (.add 2) (.err .ok) (.call _ _ 1 (.add 1) (.err .ok) (.new ()) rfl) rfl) rfl

/-- **C180 is false**: objects 1, 2 and 3 are registered and the function of 2 throws; 3 does not get the value, and the program ends. -/
theorem C180_refuted : ∃ s : St Unit, ReachT second .int 4 s ∧ regs s = [1, 2, 3] ∧
    ∀ n, execT second .int (n + 1) s (.upd (.assign 7)) = .dead [(1, 7), (2, 7)] :=
  ⟨three, three_reachT _ _, rfl, fun n => (C180_exact (fun o _ => o == 2) (fun u _ _ => u) .int 4 (three_reachT _ _) 7 n).1 [1] 2 [3] rfl
    (by simp) rfl⟩

/-- The hypotheses of `C180_until` and `C180_ends` can be met. -/
example : ∃ l, ReachT second .int 4 three ∧ execT second .int 2 three (.upd (.assign 7)) = .dead l ∧
    ∃ s' r, exec (second.calmBy .ret) .int 2 three (.upd (.assign 7)) = .ok (s', r) := ⟨_, three_reachT _ _, rfl, _, _, rfl⟩

end Verif.Values.Re.Fatal
