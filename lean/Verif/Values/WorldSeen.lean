import Verif.Values.WorldProps
/-! The calls in the log of `World.lean` are the calls that the functions of the user get, with these arguments. -/
namespace Verif.Values.World
open Verif Verif.Values
open Verif.Values.Re (Upd stored)
open Verif.Observer.World (Out upd)
open Verif.Observer.World.Unb (Out.bind_eq_ok)

variable {U : Type} {T : IntTy}

/-- What a function of the user knows of its call: which object it belongs to, and its argument (observed.hpp:69-71, 78-79). -/
inductive Note where
  | update (o : Nat) (v : Int)
  | disconnect (o a : Nat)
  deriving DecidableEq, Repr

/-- The call of a function in the log (no code). -/
def callOf : Ev → Option Note
  | .told _ o v => some (.update o v)
  | .disc a o => some (.disconnect o a)
  | _ => none

/-- The same function, in a state with a list beside it that it does not touch (functions of observed.hpp:35-39, 69-71). -/
def keeping (l : List Note) : Prog U → Prog (U × List Note)
  | .ret u => .ret (u, l)
  | .set u k => .set (u, l) (keeping l k)
  | .call op k => .call op fun e w => keeping w.2 (k e w.1)

/-- The same functions, which first note in the list that they have been called, and with which arguments (functions of
observed.hpp:35-39, 69-71). -/
def noting (H : Handlers U) : Handlers (U × List Note) where
  update w o v := .set (w.1, w.2 ++ [.update o v]) (keeping (w.2 ++ [.update o v]) (H.update w.1 o v))
  disconnect w a o := .set (w.1, w.2 ++ [.disconnect o a]) (keeping (w.2 ++ [.disconnect o a]) (H.disconnect w.1 a o))

/-- The notes are the calls in the log. -/
def Noted (s : St (U × List Note)) : Prop := s.user.2 = s.log.filterMap callOf

theorem Noted.emit {s : St (U × List Note)} (h : Noted s) {e : Ev} (he : callOf e = none) : Noted (s.emit e) := by
  simp [Noted, St.emit, List.filterMap_append, he, ← show s.user.2 = _ from h]

theorem Noted.of {s t : St (U × List Note)} (h : Noted s) (hu : t.user = s.user) (hl : t.log = s.log) : Noted t := by
  rw [Noted, hu, hl]; exact h

/-- Operations keep the notes complete. -/
def ExNoted (ex : Ex (U × List Note)) : Prop := ∀ s op r, Noted s → ex s op = .ok r → Noted r.1

theorem runProg_noted {ex : Ex (U × List Note)} (hex : ExNoted ex) (p : Prog U) : ∀ (l : List Note) (s t : St (U × List Note)),
    l = s.log.filterMap callOf → Noted s → runProg ex (keeping l p) s = .ok t → Noted t := by
  induction p with
  | ret u =>
    intro l s t hl _ ht
    simp only [keeping, runProg, Out.ok.injEq] at ht
    subst ht; exact hl
  | set u k ih =>
    intro l s t hl _ ht
    exact ih l { s with user := (u, l) } t hl hl ht
  | call op k ih =>
    intro l s t _ h ht
    obtain ⟨r, hr, ht⟩ := Out.bind_eq_ok ht
    have h1 := hex s op r h hr
    exact ih r.2 r.1.user.1 r.1.user.2 r.1 t h1 h1 ht

theorem loop_noted {f : Nat → St (U × List Note) → Out (St (U × List Note))} (hf : ∀ o s t, Noted s → f o s = .ok t → Noted t)
    {dyn : Bool} {a g : Nat} : ∀ (left i : Nat) (s t : St (U × List Note)), Noted s → loop f dyn a g i left s = .ok t → Noted t := by
  intro left
  induction left with
  | zero =>
    intro i s t h ht
    unfold loop at ht
    split at ht
    · obtain ⟨x, -, ht⟩ := Out.bind_eq_ok ht
      simp only [Out.ok.injEq] at ht
      subst ht; exact h
    · simp only [Out.ok.injEq] at ht
      subst ht; exact h
  | succ left ih =>
    intro i s t h ht
    obtain ⟨x, -, ht⟩ := Out.bind_eq_ok ht
    obtain ⟨o, -, ht⟩ := Out.bind_eq_ok ht
    obtain ⟨s1, h1, ht⟩ := Out.bind_eq_ok ht
    exact ih (i + 1) s1 t (hf o s s1 h h1) ht

theorem tell_noted {ex : Ex (U × List Note)} (hex : ExNoted ex) (H : Handlers U) (a : Nat) (v : Int) (o : Nat)
    (s t : St (U × List Note)) (h : Noted s) (ht : tell ex (noting H) a v o s = .ok t) : Noted t := by
  unfold tell at ht
  split at ht
  · obtain ⟨s2, h2, ht⟩ := Out.bind_eq_ok ht
    simp only [Out.ok.injEq] at ht
    subst ht
    generalize hs1 : ({ s with held := upd s.held o v, busy := upd s.busy o (s.busy o + 1) }.emit (.told a o v)) = s1 at h2
    have hl : s.user.2 ++ [Note.update o v] = s1.log.filterMap callOf := by
      rw [show s.user.2 = _ from h, ← hs1]
      simp [St.emit, List.filterMap_append, callOf]
    have h3 : Noted s2 := runProg_noted hex (H.update s.user.1 o v) _ { s1 with user := (s.user.1, s.user.2 ++ [.update o v]) } s2 hl hl h2
    exact (h3.of rfl rfl : Noted { s2 with busy := upd s2.busy o (s2.busy o - 1) }).emit rfl
  · cases ht

theorem part_noted {ex : Ex (U × List Note)} (hex : ExNoted ex) (H : Handlers U) (a : Nat) (o : Nat)
    (s t : St (U × List Note)) (h : Noted s) (ht : part ex (noting H) a o s = .ok t) : Noted t := by
  unfold part at ht
  split at ht
  · obtain ⟨s2, h2, ht⟩ := Out.bind_eq_ok ht
    simp only [Out.ok.injEq] at ht
    subst ht
    have hl : s.user.2 ++ [Note.disconnect o a] = (s.emit (.disc a o)).log.filterMap callOf := by
      rw [show s.user.2 = _ from h]
      simp [St.emit, List.filterMap_append, callOf]
    have h3 : Noted s2 := runProg_noted hex (H.disconnect s.user.1 a o) _
      { s.emit (.disc a o) with user := (s.user.1, s.user.2 ++ [.disconnect o a]) } s2 hl hl h2
    exact h3.emit rfl
  · cases ht

theorem body_noted {ex : Ex (U × List Note)} (hex : ExNoted ex) (H : Handlers U) (op : Op) :
    ∀ (s : St (U × List Note)) (r : St (U × List Note) × Ret), Noted s → body T ex (noting H) s op = .ok r → Noted r.1 := by
  have hclear : ∀ (a : Nat) (s t : St (U × List Note)), Noted s → clearObs ex (noting H) a s = .ok t → Noted t := by
    intro a s t h ht
    obtain ⟨x, -, ht⟩ := Out.bind_eq_ok ht
    obtain ⟨s1, h1, ht⟩ := Out.bind_eq_ok ht
    obtain ⟨y, -, ht⟩ := Out.bind_eq_ok ht
    simp only [Out.ok.injEq] at ht
    subst ht
    exact (loop_noted (part_noted hex H a) _ _ s s1 h h1).of rfl rfl
  intro s r h hr
  cases op with
  | make a => simp only [body, Out.ok.injEq] at hr; subst hr; exact h.of rfl rfl
  | born o => simp only [body, Out.ok.injEq] at hr; subst hr; exact h.of rfl rfl
  | die o =>
    simp only [body] at hr
    split at hr
    · cases hr
    · simp only [Out.ok.injEq] at hr; subst hr; exact h.of rfl rfl
  | add a o =>
    obtain ⟨x, -, hr⟩ := Out.bind_eq_ok hr
    simp only [Out.ok.injEq] at hr; subst hr; exact h.of rfl rfl
  | remove a o =>
    obtain ⟨x, -, hr⟩ := Out.bind_eq_ok hr
    simp only [Out.ok.injEq] at hr; subst hr; exact h.of rfl rfl
  | read a =>
    obtain ⟨x, -, hr⟩ := Out.bind_eq_ok hr
    simp only [Out.ok.injEq] at hr; subst hr; exact h
  | look o => simp only [body, Out.ok.injEq] at hr; subst hr; exact h
  | clear a =>
    obtain ⟨t, ht, hr⟩ := Out.bind_eq_ok hr
    simp only [Out.ok.injEq] at hr; subst hr
    exact hclear a s t h ht
  | destroy a =>
    obtain ⟨t, ht, hr⟩ := Out.bind_eq_ok hr
    simp only [Out.ok.injEq] at hr; subst hr
    exact (hclear a s t h ht).of rfl rfl
  | upd a u =>
    obtain ⟨x, -, hr⟩ := Out.bind_eq_ok hr
    obtain ⟨v, -, hr⟩ := Out.bind_eq_ok hr
    dsimp only at hr
    split at hr
    · simp only [Out.ok.injEq] at hr; subst hr; exact h.of rfl rfl
    · obtain ⟨s1, h1, hr⟩ := Out.bind_eq_ok hr
      simp only [Out.ok.injEq] at hr; subst hr
      exact loop_noted (tell_noted hex H a v) _ _ (s.put a { x with value := stored T x.value u }) s1 (h.of rfl rfl) h1

theorem exec_noted (rule : Rule) (H : Handlers U) (n : Nat) : ExNoted (exec rule T (noting H) n) := by
  induction n with
  | zero => intro s op r _ hr; simp [exec] at hr
  | succ n ih =>
    intro s op r h hr
    simp only [exec, execStep] at hr
    split at hr
    · obtain ⟨q, hq, hr⟩ := Out.bind_eq_ok hr
      simp only [Out.ok.injEq] at hr
      subst hr
      exact (body_noted ih H op _ q (h.emit rfl) hq).emit rfl
    · cases hr

/-- The calls in the log are what the functions of the user see: if they note their calls and arguments in the user's state, and do whatever else
they do, the notes are the calls in the log, in the same order. -/
theorem C149_seen (rule : Rule) (H : Handlers U) (n : Nat) (ops : List Op) (u : U)
    (s : St (U × List Note)) (hs : script rule T (noting H) n ops (St.new (u, [])) = .ok s) :
    s.user.2 = s.log.filterMap callOf := by
  have : ∀ (ops : List Op) (s t : St (U × List Note)), Noted s → script rule T (noting H) n ops s = .ok t → Noted t := by
    intro ops
    induction ops with
    | nil => intro s t h ht; injection ht with ht; rw [← ht]; exact h
    | cons op ops ih =>
      intro s t h ht
      obtain ⟨r, hx, ht⟩ := Out.bind_eq_ok ht
      exact ih r.1 t (exec_noted rule H n s op r h hx) ht
  exact this ops (St.new (u, [])) s (show ([] : List Note) = [].filterMap callOf from rfl) hs

/-- A run with functions in functions, and with `disconnect`. -/
example : (match script (careful IntTy.int) IntTy.int (noting (doing fun o => if o = 10 then some (.upd 2 .preInc) else none)) 5
      (three 5 ++ [.make 2 0, .add 2 12, .upd 1 (.assign 7), .destroy 1, .upd 2 .preInc]) (St.new ((), [])) with
    | .ok s => s.user.2
    | _ => []) =
    [.update 10 7, .update 12 1, .update 11 7, .update 12 7, .disconnect 10 1, .disconnect 11 1, .disconnect 12 1, .update 12 2] := by
  decide +kernel

end Verif.Values.World
