import Verif.Values.Fatal
import Verif.Values.DynReentrantProps
/-!
Property C181: functions that throw, of objects observing a dynamic value (`include/xitren/comm/values/observable.hpp:269-502`; one thread).

The operators, `notify_observers` and `clear_observers` (observable.hpp:282-479) and `notification` (observed.hpp:58-62) are `noexcept`: an
exception that leaves a function ends the program.  The functions of `Verif.Values.DynReentrant` that run functions of the user are given
once more for functions that may throw (`TProg` of `Verif.Values.Fatal`); the outcome `dead` carries what had happened by then.
-/
namespace Verif.Values.Re.Vec.Fatal
open Verif Verif.Values Verif.Values.Re Verif.Values.Re.Vec
open Verif.Values.Re.Fatal (TProg THandlers picky)

variable {U : Type}

/-- What happened (no code). -/
abbrev Log := List Ev

/-- How a piece of code ends: as in `Res`, or with the program (no code). -/
inductive Out (α : Type) where
  | ok (a : α)
  | dead (log : Log)
  | ub
  | hang

/-- One after the other (no code). -/
def Out.bind {α β : Type} (t : Out α) (f : α → Out β) : Out β :=
  match t with
  | .ok a => f a
  | .dead l => .dead l
  | .ub => .ub
  | .hang => .hang

/-- Code that cannot throw (no code). -/
def lift {α : Type} : Res α → Out α
  | .ok a => .ok a
  | .ub => .ub
  | .hang => .hang

/-- How calls are run (observable.hpp:282-479). -/
abbrev ExT (U : Type) := St U → Op → Out (St U × Ret)

/-- Running a function of the user (observed.hpp:79), called by a function that is `noexcept` (observed.hpp:59, observable.hpp:456). -/
def runT (ex : ExT U) : TProg U → St U → Out (St U)
  | .ret u, s => .ok { s with user := u }
  | .set u k, s => runT ex k { s with user := u }
  | .call op k, s => (ex s op).bind fun r => runT ex (k r.2 r.1.user) r.1
  | .throw _, s => .dead s.log

/-- `observed::notification` and `data` (observed.hpp:58-62, 74-81): the object holds the value before its function runs. -/
def tellT (ex : ExT U) (H : THandlers U) (v : Int) (o : Nat) (s : St U) : Out (St U) :=
  (runT ex (H.update s.user o v) ({ s with held := fun p => if p = o then v else s.held p }.emit (.told o v))).bind fun s =>
    .ok (s.emit (.leave o))

/-- `disconnect` (observed.hpp:69-71). -/
def disconnectT (ex : ExT U) (H : THandlers U) (o : Nat) (s : St U) : Out (St U) :=
  (runT ex (H.disconnect s.user o) (s.emit (.disc o))).bind fun s => .ok (s.emit (.leave o))

/-- The range-based loops (observable.hpp:458-460, 475-477). -/
def loopT (f : Nat → St U → Out (St U)) (g i : Nat) : Nat → St U → Out (St U)
  | 0, s => if s.gen = g then .ok s else .ub
  | left + 1, s =>
    if s.gen = g then (lift (deref s i)).bind fun o => (f o s).bind fun s => loopT f g (i + 1) left s else .ub

/-- An update operator (observable.hpp:282-392, 472-479). -/
def updateT (ex : ExT U) (H : THandlers U) (T : IntTy) (s : St U) (u : Upd) : Out (St U × Ret) :=
  (lift (result T s.value u)).bind fun v =>
    (loopT (tellT ex H v) s.gen 0 s.vec.length { s with value := stored T s.value u }).bind fun s => .ok (s, .val v)

/-- `clear_observers` (observable.hpp:455-462). -/
def clearT (ex : ExT U) (H : THandlers U) (s : St U) : Out (St U × Ret) :=
  (loopT (disconnectT ex H) s.gen 0 s.vec.length s).bind fun s => .ok ({ s with vec := [], gen := s.gen + 1 }, .unit)

/-- The body of a call (observable.hpp:282-479). -/
def bodyT (ex : ExT U) (H : THandlers U) (T : IntTy) (s : St U) : Op → Out (St U × Ret)
  | .upd u => updateT ex H T s u
  | .add o => .ok (Vec.add s o)
  | .remove o => .ok (Vec.remove s o)
  | .clear => clearT ex H s

/-- A call with fewer than `n` levels of nested calls (observable.hpp:282-479). -/
def execT (H : THandlers U) (T : IntTy) : Nat → ExT U
  | 0, _, _ => .hang
  | n + 1, s, op => (bodyT (execT H T n) H T s op).bind fun r => .ok (r.1.emit (.ret op r.2), r.2)

/-- The states of a program that has not ended (observable.hpp:282-479). -/
inductive ReachT (H : THandlers U) (T : IntTy) : St U → Prop
  | new (u : U) : ReachT H T (St.new u)
  | call (s s' : St U) (n : Nat) (op : Op) (r : Ret) : ReachT H T s → execT H T n s op = .ok (s', r) → ReachT H T s'
  | user (s : St U) (u : U) : ReachT H T s → ReachT H T { s with user := u }

/-- Code that may throw, started when the log was `b`, against the same code without exceptions. -/
def Agrees {α : Type} (b : Log) (lg : α → Log) (t : Out α) (r : Res α) : Prop :=
  (∀ a, r = .ok a → b <+: lg a) ∧
  match t with
  | .ok a => r = .ok a
  | .dead l => b <+: l ∧ ∀ a, r = .ok a → l <+: lg a
  | .ub => r = .ub
  | .hang => r = .hang

theorem agrees_bind {α β : Type} {b : Log} {lg : α → Log} {lg' : β → Log} {t : Out α} {r : Res α}
    {f : α → Out β} {g : α → Res β} (h1 : Agrees b lg t r) (h2 : ∀ a, Agrees (lg a) lg' (f a) (g a)) :
    Agrees b lg' (t.bind f) (r >>= g) := by
  obtain ⟨h0, h1⟩ := h1
  have hgrow : ∀ c, (r >>= g) = .ok c → ∃ a, r = .ok a ∧ g a = .ok c := by
    intro c hc
    cases r with
    | ok a => exact ⟨a, rfl, hc⟩
    | ub => exact nomatch hc
    | hang => exact nomatch hc
  refine ⟨fun c hc => ?_, ?_⟩
  · obtain ⟨a, ha, hg⟩ := hgrow c hc
    exact (h0 a ha).trans ((h2 a).1 c hg)
  · cases t with
    | ok a =>
      dsimp only at h1
      subst h1
      obtain ⟨k0, k1⟩ := h2 a
      have hb : b <+: lg a := h0 a rfl
      dsimp only [Out.bind]
      show match f a with
        | .ok c => (g a) = .ok c
        | .dead l => b <+: l ∧ ∀ c, (g a) = .ok c → l <+: lg' c
        | .ub => (g a) = .ub
        | .hang => (g a) = .hang
      cases hf : f a with
      | ok c => rw [hf] at k1; exact k1
      | dead l => rw [hf] at k1; exact ⟨hb.trans k1.1, k1.2⟩
      | ub => rw [hf] at k1; exact k1
      | hang => rw [hf] at k1; exact k1
    | dead l =>
      dsimp only [Out.bind] at h1 ⊢
      refine ⟨h1.1, fun c hc => ?_⟩
      obtain ⟨a, ha, hg⟩ := hgrow c hc
      exact (h1.2 a ha).trans ((h2 a).1 c hg)
    | ub => dsimp only [Out.bind] at h1 ⊢; rw [h1]; rfl
    | hang => dsimp only [Out.bind] at h1 ⊢; rw [h1]; rfl

theorem agrees_lift {α : Type} {b : Log} {lg : α → Log} {r : Res α} (h : ∀ a, r = .ok a → b <+: lg a) :
    Agrees b lg (lift r) r := by
  cases r with
  | ok a => exact ⟨h, rfl⟩
  | ub => exact ⟨h, rfl⟩
  | hang => exact ⟨h, rfl⟩

theorem agrees_ok {α : Type} {b : Log} {lg : α → Log} {a : α} (h : b <+: lg a) : Agrees b lg (.ok a) (.ok a) :=
  ⟨fun _ hc => by cases hc; exact h, rfl⟩

theorem agrees_base {α : Type} {b b' : Log} {lg : α → Log} {t : Out α} {r : Res α} (hb : b <+: b')
    (h : Agrees b' lg t r) : Agrees b lg t r := by
  obtain ⟨h0, h1⟩ := h
  refine ⟨fun a ha => hb.trans (h0 a ha), ?_⟩
  cases t with
  | dead l => exact ⟨hb.trans h1.1, h1.2⟩
  | ok a => exact h1
  | ub => exact h1
  | hang => exact h1

/-- The log of a state with the result of a call. -/
def logOf (r : St U × Ret) : Log := r.1.log

theorem loop_agrees {f : Nat → St U → Out (St U)} {f' : Nat → St U → Res (St U)} (h : ∀ o s, Agrees s.log St.log (f o s) (f' o s)) (g : Nat) :
    ∀ (left i : Nat) (s : St U), Agrees s.log St.log (loopT f g i left s) (loop f' g i left s)
  | 0, _, s => by
    unfold loopT loop
    split
    · exact agrees_ok (List.prefix_refl _)
    · exact ⟨fun _ h => (nomatch h), rfl⟩
  | left + 1, i, s => by
    unfold loopT loop
    split
    · exact agrees_bind (lg := fun _ => s.log) (agrees_lift fun _ _ => List.prefix_refl _) fun o =>
        agrees_bind (h o s) fun s => loop_agrees h g left (i + 1) s
    · exact ⟨fun _ h => (nomatch h), rfl⟩

section
variable {ex : Ex U} {exT : ExT U} (hex : ∀ s op, Agrees s.log logOf (exT s op) (ex s op)) (H : THandlers U) (c : U → Prog U)
include hex

omit hex in
theorem prog_grows (hg : ∀ s op r, ex s op = .ok r → s.log <+: r.1.log) : ∀ (p : Prog U) (s s' : St U), runProg ex p s = .ok s' →
    s.log <+: s'.log
  | .ret u, s, s', h => by cases h; exact List.prefix_refl _
  | .set u k, s, s', h => prog_grows hg k { s with user := u } s' h
  | .call op k, s, s', h => by
    rw [runProg] at h
    cases hx : ex s op with
    | ub => rw [hx] at h; exact nomatch h
    | hang => rw [hx] at h; exact nomatch h
    | ok r =>
      rw [hx] at h
      exact (hg s op r hx).trans (prog_grows hg (k r.2 r.1.user) r.1 s' h)

theorem run_agrees : ∀ (p : TProg U) (s : St U), Agrees s.log St.log (runT exT p s) (runProg ex (p.calmBy c) s)
  | .ret _, _ => agrees_ok (List.prefix_refl _)
  | .set u k, s => run_agrees k { s with user := u }
  | .call op k, s => agrees_bind (hex s op) fun r => run_agrees (k r.2 r.1.user) r.1
  | .throw u, s =>
    have hg := prog_grows (fun s op r h => (hex s op).1 r h) (c u) s
    ⟨fun s' h => hg s' h, List.prefix_refl _, fun s' h => hg s' h⟩

theorem body_agrees (T : IntTy) (s : St U) (op : Op) : Agrees s.log logOf (bodyT exT H T s op) (body ex (H.calmBy c) T s op) := by
  cases op with
  | upd u =>
    refine agrees_bind (lg := fun _ => s.log) (agrees_lift fun _ _ => List.prefix_refl _) fun v => ?_
    refine agrees_bind (loop_agrees (fun o s => ?_) s.gen s.vec.length 0 { s with value := stored T s.value u }) fun _ =>
      agrees_ok (List.prefix_refl _)
    exact agrees_bind (agrees_base (List.prefix_append s.log [Ev.told o v]) (run_agrees hex c (H.update s.user o v)
      ({ s with held := fun p => if p = o then v else s.held p }.emit (.told o v)))) fun _ => agrees_ok (List.prefix_append _ _)
  | add o =>
    refine agrees_ok ?_
    unfold Vec.add
    split <;> exact List.prefix_refl _
  | remove o =>
    refine agrees_ok ?_
    unfold Vec.remove
    split
    · exact List.prefix_refl _
    · dsimp only
      split <;> exact List.prefix_refl _
  | clear =>
    refine agrees_bind (loop_agrees (fun o s => ?_) s.gen s.vec.length 0 s) fun _ => agrees_ok (List.prefix_refl _)
    exact agrees_bind (agrees_base (List.prefix_append s.log [Ev.disc o]) (run_agrees hex c (H.disconnect s.user o) (s.emit (.disc o))))
      fun _ => agrees_ok (List.prefix_append _ _)

end

theorem exec_agrees (H : THandlers U) (c : U → Prog U) (T : IntTy) : ∀ (n : Nat) (s : St U) (op : Op),
    Agrees s.log logOf (execT H T n s op) (exec (H.calmBy c) T n s op)
  | 0, _, _ => ⟨fun _ h => (nomatch h), rfl⟩
  | n + 1, s, op => agrees_bind (body_agrees (exec_agrees H c T n) H c T s op) fun _ => agrees_ok (List.prefix_append _ _)

/-- **C181.** A program that has not ended is in a state that it could have reached if the functions had done anything else (`c`) instead of
throwing (so that no exception has left a function, and C92 and C93 hold for it), and a call that returns has done what it would have done
then; that goes for undefined behaviour and calls without end, too. -/
theorem C181_until (H : THandlers U) (c : U → Prog U) (T : IntTy) {s : St U} (h : ReachT H T s) :
    Reach (H.calmBy c) T s ∧ ∀ n op, (∀ s' r, execT H T n s op = .ok (s', r) → exec (H.calmBy c) T n s op = .ok (s', r)) ∧
      (execT H T n s op = .ub → exec (H.calmBy c) T n s op = .ub) ∧ (execT H T n s op = .hang → exec (H.calmBy c) T n s op = .hang) := by
  have key : ∀ (s : St U) n op, (∀ s' r, execT H T n s op = .ok (s', r) → exec (H.calmBy c) T n s op = .ok (s', r)) ∧
      (execT H T n s op = .ub → exec (H.calmBy c) T n s op = .ub) ∧ (execT H T n s op = .hang → exec (H.calmBy c) T n s op = .hang) := by
    intro s n op
    have ha := (exec_agrees H c T n s op).2
    refine ⟨fun s' r h => ?_, fun h => ?_, fun h => ?_⟩ <;> (rw [h] at ha; exact ha)
  refine ⟨?_, key s⟩
  induction h with
  | new u => exact .new u
  | call s s' n op r _ hx ih => exact .call s s' n op r ih ((key s n op).1 s' r hx)
  | user s u _ ih => exact .user s u ih

/-- **C181.** When the program ends, what has happened is the beginning of what would have happened if the functions had done anything else
instead. -/
theorem C181_ends (H : THandlers U) (c : U → Prog U) {T : IntTy} {s : St U} {n : Nat} {op : Op} {l : Log} (h : execT H T n s op = .dead l) :
    s.log <+: l ∧ ∀ s' r, exec (H.calmBy c) T n s op = .ok (s', r) → l <+: s'.log := by
  have ha := (exec_agrees H c T n s op).2
  rw [h] at ha
  exact ⟨ha.1, fun s' r hx => ha.2 (s', r) hx⟩

/-- What happens for objects whose functions return (no code). -/
def toldAll (v : Int) (os : List Nat) : Log := os.flatMap fun o => [.told o v, .leave o]

theorem loop_picky (boom : Nat → Int → Bool) (f : U → Nat → Int → U) (ex : ExT U) (v : Int) (g : Nat) :
    ∀ (os : List Nat) (i : Nat) (s : St U), s.gen = g → (∀ k o, os[k]? = some o → s.vec[i + k]? = some o) →
      ((∀ o ∈ os, boom o v = false) → ∃ s', loopT (tellT ex (picky boom f) v) g i os.length s = .ok s' ∧ s'.value = s.value ∧
        s'.log = s.log ++ toldAll v os) ∧
      ∀ a o b, os = a ++ o :: b → (∀ x ∈ a, boom x v = false) → boom o v = true →
        loopT (tellT ex (picky boom f) v) g i os.length s = .dead (s.log ++ toldAll v a ++ [.told o v])
  | [], i, s, hg, _ => ⟨fun _ => ⟨s, if_pos hg, rfl, by simp [toldAll]⟩, fun a o b h => by simp at h⟩
  | o :: os, i, s, hg, h => by
    have hd : deref s i = .ok o := by
      have := h 0 o rfl
      unfold deref
      rw [Nat.add_zero] at this
      rw [this]
    by_cases hb : boom o v = true
    · refine ⟨fun hall => ?_, fun a o' b hsplit ha ho => ?_⟩
      · have := hall o List.mem_cons_self
        rw [hb] at this
        exact Bool.noConfusion this
      · cases a with
        | nil =>
          cases hsplit
          simp only [List.length_cons, loopT, hg, if_true, hd, lift, Out.bind, tellT, picky, hb, runT, St.emit, toldAll, List.flatMap_nil,
            List.append_nil]
        | cons x a =>
          cases hsplit
          have := ha _ List.mem_cons_self
          rw [hb] at this
          exact Bool.noConfusion this
    · have hb' : boom o v = false := by cases hx : boom o v <;> simp_all
      have hstep : loopT (tellT ex (picky boom f) v) g i (o :: os).length s = loopT (tellT ex (picky boom f) v) g (i + 1) os.length
          { s with held := fun p => if p = o then v else s.held p, user := f s.user o v, log := s.log ++ [.told o v] ++ [.leave o] } := by
        simp only [List.length_cons, loopT, hg, if_true, hd, lift, Out.bind, tellT, picky, hb', Bool.false_eq_true, if_false, runT, St.emit]
      obtain ⟨k1, k2⟩ := loop_picky boom f ex v g os (i + 1)
        { s with held := fun p => if p = o then v else s.held p, user := f s.user o v, log := s.log ++ [.told o v] ++ [.leave o] } hg
        (fun k o' hk => by
          have := h (k + 1) o' (by simpa using hk)
          rw [show i + 1 + k = i + (k + 1) by omega]
          exact this)
      rw [hstep]
      refine ⟨fun hall => ?_, fun a o' b hsplit ha ho => ?_⟩
      · obtain ⟨s', e1, e2, e3⟩ := k1 fun x hx => hall x (List.mem_cons_of_mem _ hx)
        exact ⟨s', e1, e2, by rw [e3]; simp [toldAll]⟩
      · cases a with
        | nil =>
          cases hsplit
          exact absurd ho hb
        | cons x a =>
          cases hsplit
          rw [k2 a o' b rfl (fun y hy => ha y (List.mem_cons_of_mem _ hy)) ho]
          simp [toldAll]

/-- **C181.** Functions that throw for some values, that of `o` being the first of them in the vector: an assignment ends the program, when exactly
the objects up to `o` have got the value.  If none throws, it returns and all have got it. -/
theorem C181_exact (boom : Nat → Int → Bool) (f : U → Nat → Int → U) (T : IntTy) (s : St U) (v : Int) (n : Nat) :
    (∀ a o b, s.vec = a ++ o :: b → (∀ x ∈ a, boom x v = false) → boom o v = true →
      execT (picky boom f) T (n + 1) s (.upd (.assign v)) = .dead (s.log ++ toldAll v a ++ [.told o v])) ∧
    ((∀ x ∈ s.vec, boom x v = false) → ∃ s', execT (picky boom f) T (n + 1) s (.upd (.assign v)) = .ok (s', .val v) ∧ s'.value = v ∧
      s'.log = s.log ++ toldAll v s.vec ++ [.ret (.upd (.assign v)) (.val v)]) := by
  obtain ⟨k1, k2⟩ := loop_picky boom f (execT (picky boom f) T n) v s.gen s.vec 0 { s with value := v } rfl
    (fun k o hk => by rw [Nat.zero_add]; exact hk)
  have hx : execT (picky boom f) T (n + 1) s (.upd (.assign v)) =
      ((loopT (tellT (execT (picky boom f) T n) (picky boom f) v) s.gen 0 s.vec.length { s with value := v }).bind
        fun s => .ok (s, Ret.val v)).bind fun r => .ok (r.1.emit (.ret (.upd (.assign v)) r.2), r.2) := rfl
  refine ⟨fun a o b hs ha ho => ?_, fun hall => ?_⟩
  · rw [hx, k2 a o b hs ha ho]
    rfl
  · obtain ⟨s', e1, e2, e3⟩ := k1 hall
    refine ⟨s'.emit (.ret (.upd (.assign v)) (.val v)), by rw [hx, e1]; rfl, e2, ?_⟩
    dsimp only [St.emit]
    rw [e3]

/-- The function of object 2 throws. -/
def second : THandlers Unit := picky (fun o _ => o == 2) (fun u _ _ => u)

/-- Objects 1, 2 and 3 registered. -/
def three : St Unit := ⟨0, [1, 2, 3], 3, fun _ => 0, (), [.ret (.add 1) (.err .ok), .ret (.add 2) (.err .ok), .ret (.add 3) (.err .ok)]⟩

theorem three_reachT (H : THandlers Unit) (T : IntTy) : ReachT H T three :=
  .call _ _ 1 (.add 3) (.err .ok) (.call _ _ 1 (.add 2) (.err .ok) (.call _ _ 1 (.add 1) (.err .ok) (.new ()) rfl) rfl) rfl

/-- **C181 is false**: objects 1, 2 and 3 are registered and the function of 2 throws; 3 does not get the value, and the program ends. -/
theorem C181_refuted : ∃ s : St Unit, ReachT second .int s ∧ regs s.log = [1, 2, 3] ∧
    ∀ n, execT second .int (n + 1) s (.upd (.assign 7)) = .dead (s.log ++ [.told 1 7, .leave 1] ++ [.told 2 7]) :=
  ⟨three, three_reachT _ _, rfl, fun n => (C181_exact (fun o _ => o == 2) (fun u _ _ => u) .int three 7 n).1 [1] 2 [3] rfl (by simp) rfl⟩

/-- The hypotheses of `C181_until` and `C181_ends` can be met. -/
example : ∃ l, ReachT second .int three ∧ execT second .int 2 three (.upd (.assign 7)) = .dead l ∧
    ∃ s' r, exec (second.calmBy .ret) .int 2 three (.upd (.assign 7)) = .ok (s', r) := ⟨_, three_reachT _ _, rfl, _, _, rfl⟩

end Verif.Values.Re.Vec.Fatal
