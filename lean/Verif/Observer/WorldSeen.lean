import Verif.Observer.WorldProps
/-! The callbacks in the log of `World.lean` are the calls that the virtual functions get, with these arguments. -/
namespace Verif.Observer.World
open Verif Verif.Observer

variable {V U : Type}

/-- The event is the start of a callback. -/
def isCall : Ev V → Bool
  | .data _ _ _ | .disc _ _ => true
  | _ => false

/-- The same callback, in a state with a list beside it that it does not touch (overrides of observer.hpp:50-52, 61-63). -/
def keeping (l : List (Ev V)) : Prog V U → Prog V (U × List (Ev V))
  | .ret u => .ret (u, l)
  | .set u k => .set (u, l) (keeping l k)
  | .call op k => .call op fun e w => keeping w.2 (k e w.1)

/-- The same virtual functions, which first note in the list that they have been called, and with which arguments (overrides of
observer.hpp:50-52, 61-63). -/
def noting (H : Handlers V U) : Handlers V (U × List (Ev V)) where
  data w a o v := .set (w.1, w.2 ++ [.data a o v]) (keeping (w.2 ++ [.data a o v]) (H.data w.1 a o v))
  disconnect w a o := .set (w.1, w.2 ++ [.disc a o]) (keeping (w.2 ++ [.disc a o]) (H.disconnect w.1 a o))

/-- The notes are the callbacks in the log. -/
def Noted (s : St V (U × List (Ev V))) : Prop := s.user.2 = s.log.filter isCall

theorem Noted.emit {s : St V (U × List (Ev V))} (h : Noted s) {e : Ev V} (he : isCall e = false) : Noted (s.emit e) := by
  simp [Noted, St.emit, List.filter_append, he, ← show s.user.2 = _ from h]

theorem Out.bind_eq_ok {α β : Type} {x : Out α} {f : α → Out β} {b : β} (h : (x >>= f) = .ok b) : ∃ a, x = .ok a ∧ f a = .ok b := by
  cases x with
  | ok a => exact ⟨a, rfl, h⟩
  | ub => cases h
  | deep => cases h
  | foul => cases h

/-- Operations keep the notes complete. -/
def ExNoted (ex : Ex V (U × List (Ev V))) : Prop := ∀ s op r, Noted s → ex s op = .ok r → Noted r.1

theorem runProg_noted {ex : Ex V (U × List (Ev V))} (hex : ExNoted ex) (p : Prog V U) : ∀ (l : List (Ev V)) (s t : St V (U × List (Ev V))),
    l = s.log.filter isCall → Noted s → runProg ex (keeping l p) s = .ok t → Noted t := by
  induction p with
  | ret u =>
    intro l s t hl _ ht
    simp only [keeping, runProg, Out.ok.injEq] at ht
    subst ht; exact hl
  | set u k ih =>
    intro l s t hl _ ht
    exact ih l { s with user := (u, l) } t hl hl ht
  | call op k ih =>
    intro l s t _ h ht
    obtain ⟨r, hr, ht⟩ := Out.bind_eq_ok ht
    have h1 := hex s op r h hr
    exact ih r.2 r.1.user.1 r.1.user.2 r.1 t h1 h1 ht

theorem loop_noted {ex : Ex V (U × List (Ev V))} (hex : ExNoted ex) {ev : Nat → Ev V} {p : U → Nat → Prog V U}
    (hev : ∀ o, isCall (ev o) = true) {a : Nat} : ∀ (left i : Nat) (s t : St V (U × List (Ev V))), Noted s →
    loop ex ev (fun w o => .set (w.1, w.2 ++ [ev o]) (keeping (w.2 ++ [ev o]) (p w.1 o))) a i left s = .ok t → Noted t := by
  intro left
  induction left with
  | zero =>
    intro i s t h ht
    injection ht with ht
    subst ht; exact h
  | succ left ih =>
    intro i s t h ht
    obtain ⟨x, -, ht⟩ := Out.bind_eq_ok ht
    obtain ⟨o, -, ht⟩ := Out.bind_eq_ok ht
    obtain ⟨s1, h1, ht⟩ := Out.bind_eq_ok ht
    have hs1 : s1 = s.emit (ev o) := by
      unfold St.enter at h1
      split at h1
      · cases h1; rfl
      · cases h1
    subst hs1
    obtain ⟨s2, h2, h4⟩ := Out.bind_eq_ok ht
    have hl : s.user.2 ++ [ev o] = (s.emit (ev o)).log.filter isCall := by
      rw [show s.user.2 = _ from h]
      simp [St.emit, List.filter_append, hev]
    have h3 : Noted s2 := runProg_noted hex (p s.user.1 o) _
      { s.emit (ev o) with user := (s.user.1, s.user.2 ++ [ev o]) } s2 hl hl h2
    exact ih (i + 1) _ t (h3.emit rfl) h4

theorem Noted.of {s t : St V (U × List (Ev V))} (h : Noted s) (hu : t.user = s.user) (hl : t.log = s.log) : Noted t := by
  rw [Noted, hu, hl]; exact h

theorem body_noted {mx : Nat} {ex : Ex V (U × List (Ev V))} (hex : ExNoted ex) (H : Handlers V U) (op : Op V) :
    ∀ (s : St V (U × List (Ev V))) (r : St V (U × List (Ev V)) × Err), Noted s → body mx ex (noting H) s op = .ok r → Noted r.1 := by
  have hclear : ∀ (a : Nat) (s t : St V (U × List (Ev V))), Noted s → clearObs ex (noting H) a s = .ok t → Noted t := by
    intro a s t h ht
    obtain ⟨x, -, ht⟩ := Out.bind_eq_ok ht
    obtain ⟨s1, h1, ht⟩ := Out.bind_eq_ok ht
    obtain ⟨y, -, ht⟩ := Out.bind_eq_ok ht
    simp only [Out.ok.injEq] at ht
    subst ht
    exact (loop_noted hex (ev := fun o => .disc a o) (p := fun u o => H.disconnect u a o) (fun _ => rfl) _ _ s s1 h h1).of rfl rfl
  intro s r h hr
  cases op with
  | make a => simp only [body, Out.ok.injEq] at hr; subst hr; exact h.of rfl rfl
  | copy a b =>
    obtain ⟨x, -, hr⟩ := Out.bind_eq_ok hr
    simp only [Out.ok.injEq] at hr; subst hr; exact h.of rfl rfl
  | assign a b =>
    obtain ⟨x, -, hr⟩ := Out.bind_eq_ok hr
    obtain ⟨y, -, hr⟩ := Out.bind_eq_ok hr
    simp only [Out.ok.injEq] at hr; subst hr; exact h.of rfl rfl
  | born o => simp only [body, Out.ok.injEq] at hr; subst hr; exact h.of rfl rfl
  | die o => simp only [body, Out.ok.injEq] at hr; subst hr; exact h.of rfl rfl
  | add a o =>
    obtain ⟨x, -, hr⟩ := Out.bind_eq_ok hr
    simp only [Out.ok.injEq] at hr; subst hr; exact h.of rfl rfl
  | remove a o =>
    obtain ⟨x, -, hr⟩ := Out.bind_eq_ok hr
    simp only [Out.ok.injEq] at hr; subst hr; exact h.of rfl rfl
  | clear a =>
    obtain ⟨t, ht, hr⟩ := Out.bind_eq_ok hr
    simp only [Out.ok.injEq] at hr; subst hr
    exact hclear a s t h ht
  | destroy a =>
    obtain ⟨t, ht, hr⟩ := Out.bind_eq_ok hr
    simp only [Out.ok.injEq] at hr; subst hr
    exact (hclear a s t h ht).of rfl rfl
  | notify a v =>
    obtain ⟨x, -, hr⟩ := Out.bind_eq_ok hr
    split at hr
    · simp only [Out.ok.injEq] at hr; subst hr; exact h
    · split at hr
      · simp only [Out.ok.injEq] at hr; subst hr; exact h
      · obtain ⟨s1, h1, hr⟩ := Out.bind_eq_ok hr
        obtain ⟨y, -, hr⟩ := Out.bind_eq_ok hr
        simp only [Out.ok.injEq] at hr
        subst hr
        exact (loop_noted hex (ev := fun o => .data a o v) (p := fun u o => H.data u a o v) (fun _ => rfl) _ _
          (s.put a { x with inside := true }) s1 (h.of rfl rfl) h1).of rfl rfl

theorem exec_noted (rule : Rule V) (mx : Nat) (H : Handlers V U) (n : Nat) : ExNoted (exec rule mx (noting H) n) := by
  induction n with
  | zero => intro s op r _ hr; simp [exec] at hr
  | succ n ih =>
    intro s op r h hr
    simp only [exec, execStep] at hr
    split at hr
    · obtain ⟨q, hq, hr⟩ := Out.bind_eq_ok hr
      simp only [Out.ok.injEq] at hr
      subst hr
      exact (body_noted ih H op _ q (h.emit rfl) hq).emit rfl
    · cases hr

/-- The callbacks in the log are what the virtual functions see: if they note their calls and arguments in the user's state, and do whatever else
they do, the notes are the callbacks in the log, in the same order. -/
theorem C104_seen (rule : Rule V) (mx : Nat) (H : Handlers V U) (n : Nat) (ops : List (Op V)) (u : U)
    (s : St V (U × List (Ev V))) (hs : script rule mx (noting H) n ops (St.new (u, [])) = .ok s) :
    s.user.2 = s.log.filter isCall := by
  have : ∀ (ops : List (Op V)) (s t : St V (U × List (Ev V))), Noted s → script rule mx (noting H) n ops s = .ok t → Noted t := by
    intro ops
    induction ops with
    | nil => intro s t h ht; injection ht with ht; rw [← ht]; exact h
    | cons op ops ih =>
      intro s t h ht
      obtain ⟨r, hx, ht⟩ := Out.bind_eq_ok ht
      exact ih r.1 t (exec_noted rule mx H n s op r h hx) ht
  exact this ops (St.new (u, [])) s (show ([] : List (Ev V)) = [].filter isCall from rfl) hs

/-- When disconnected from 1, observer 11 adds 10 to 2; when told, 10 notifies its fellow observers of 2. -/
def chatty : Handlers Nat Unit :=
  ⟨fun _ a o v => if o = 10 ∧ a = 1 then .call (.notify 2 (v + 1)) fun _ _ => .ret () else .ret (),
    fun _ a o => if a = 1 ∧ o = 11 then .call (.add 2 10) fun _ _ => .ret () else .ret ()⟩

/-- A run with callbacks in callbacks, and calls from `disconnect`. -/
example : (match script careful 4 (noting chatty) 5
      (three ++ [.make 2, .add 2 12, .notify 1 7, .destroy 1, .notify 2 9]) (St.new ((), [])) with
    | .ok s => s.user.2
    | _ => []) =
    [.data 1 10 7, .data 2 12 8, .data 1 11 7, .data 1 12 7, .disc 1 10, .disc 1 11, .disc 1 12, .data 2 12 9, .data 2 10 9] := by
  decide +kernel

end Verif.Observer.World
