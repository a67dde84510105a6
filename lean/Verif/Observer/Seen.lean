import Verif.Observer.Props
import Verif.Observer.CallbacksProps
/-! The callbacks in the logs of `Model.lean` and `Callbacks.lean` are the calls that the virtual functions get, with these
arguments. -/
namespace Verif.Observer
open Verif

namespace Seen

variable {V U : Type}

/-- A call of a virtual function of an observer: `data` with a value, or `disconnect` (observer.hpp:50-52, 61-63). -/
inductive Call (V : Type) where
  | data (o : Nat) (v : V)
  | disc (o : Nat)
  deriving DecidableEq, Repr

/-- The same callback, in a state with a list beside it that it does not touch (overrides of observer.hpp:50-52, 61-63). -/
def keeping (l : List (Call V)) : Prog V U → Prog V (U × List (Call V))
  | .ret u => .ret (u, l)
  | .set u k => .set (u, l) (keeping l k)
  | .call op k => .call op fun e w => keeping w.2 (k e w.1)

/-- The same callback, which first notes that it has been called (overrides of observer.hpp:50-52, 61-63). -/
def noted (c : Call V) (w : U × List (Call V)) (p : Prog V U) : Prog V (U × List (Call V)) :=
  .set (w.1, w.2 ++ [c]) (keeping (w.2 ++ [c]) p)

/-- The same virtual functions, which first note in the list that they have been called, and with which arguments (overrides of
observer.hpp:50-52, 61-63). -/
def noting (H : Handlers V U) : Handlers V (U × List (Call V)) where
  data w o v := noted (.data o v) w (H.data w.1 o v)
  disconnect w o := noted (.disc o) w (H.disconnect w.1 o)

theorem bind_eq_ok {α β : Type} {x : Res α} {f : α → Res β} {b : β} (h : (x >>= f) = .ok b) : ∃ a, x = .ok a ∧ f a = .ok b := by
  cases x with
  | ok a => exact ⟨a, rfl, h⟩
  | ub => cases h
  | hang => cases h

/-! ### With a capacity -/

/-- The call that an event is. -/
def called : Ev V → Option (Call V)
  | .enter _ o v => some (.data o v)
  | .disc _ o => some (.disc o)
  | _ => none

/-- The notes are the calls in the log. -/
def Noted (s : St V (U × List (Call V))) : Prop := s.user.2 = s.log.filterMap called

/-- Operations keep the notes complete. -/
def ExNoted (ex : St V (U × List (Call V)) → Op V → Res (St V (U × List (Call V)) × Err)) : Prop :=
  ∀ s op r, Noted s → ex s op = .ok r → Noted r.1

theorem Noted.emit {s : St V (U × List (Call V))} (h : Noted s) {e : Ev V} (he : called e = none) : Noted (s.emit e) := by
  simp [Noted, St.emit, List.filterMap_append, he, ← show s.user.2 = _ from h]

theorem Noted.of {s t : St V (U × List (Call V))} (h : Noted s) (hu : t.user = s.user) (hl : t.log = s.log) : Noted t := by
  rw [Noted, hu, hl]; exact h

theorem keeping_noted {ex : St V (U × List (Call V)) → Op V → Res (St V (U × List (Call V)) × Err)} (hex : ExNoted ex)
    (p : Prog V U) : ∀ (l : List (Call V)) (s t : St V (U × List (Call V))), l = s.log.filterMap called → Noted s →
    runProg ex (keeping l p) s = .ok t → Noted t := by
  induction p with
  | ret u =>
    intro l s t hl _ ht
    simp only [keeping, runProg, Res.ok.injEq] at ht
    subst ht; exact hl
  | set u k ih => exact fun l s t hl _ ht => ih l { s with user := (u, l) } t hl hl ht
  | call op k ih =>
    intro l s t _ h ht
    obtain ⟨r, hr, ht⟩ := bind_eq_ok ht
    have h1 := hex s op r h hr
    exact ih r.2 r.1.user.1 r.1.user.2 r.1 t h1 h1 ht

/-- A callback, from the event on. -/
theorem noted_noted {ex : St V (U × List (Call V)) → Op V → Res (St V (U × List (Call V)) × Err)} (hex : ExNoted ex)
    {p : Prog V U} {c : Call V} {e : Ev V} {s t : St V (U × List (Call V))} (h : Noted s) (he : called e = some c)
    (ht : runProg ex (noted c s.user p) (s.emit e) = .ok t) : Noted t := by
  have hl : s.user.2 ++ [c] = (s.emit e).log.filterMap called := by
    rw [show s.user.2 = _ from h]
    simp [St.emit, List.filterMap_append, he]
  exact keeping_noted hex p _ { s.emit e with user := (s.user.1, s.user.2 ++ [c]) } t hl hl ht

theorem body_noted {ex : St V (U × List (Call V)) → Op V → Res (St V (U × List (Call V)) × Err)} (hex : ExNoted ex)
    (H : Handlers V U) (op : Op V) (s : St V (U × List (Call V))) (r : St V (U × List (Call V)) × Err) (h : Noted s)
    (hr : (match op with
      | .add o => addObserver s o
      | .remove o => removeObserver s o
      | .clear => clearObservers ex (noting H) s
      | .notify v => notifyObservers ex (noting H) s v) = .ok r) : Noted r.1 := by
  cases op with
  | add o =>
    simp only [addObserver] at hr
    split at hr
    · cases hr; exact h
    · split at hr <;> (cases hr; exact h.of rfl rfl)
  | remove o =>
    simp only [removeObserver] at hr
    split at hr
    · cases hr; exact h
    · split at hr
      · cases hr; exact h
      · split at hr <;> (cases hr; exact h.of rfl rfl)
  | clear =>
    have hloop : ∀ (left i : Nat) (s t : St V (U × List (Call V))), Noted s → clearLoop ex (noting H) i left s = .ok t → Noted t := by
      intro left
      induction left with
      | zero => intro i s t h ht; cases ht; exact h
      | succ left ih =>
        intro i s t h ht
        obtain ⟨o, -, ht⟩ := bind_eq_ok ht
        obtain ⟨s2, h2, ht⟩ := bind_eq_ok ht
        exact ih (i + 1) s2 t (noted_noted hex h rfl h2) ht
    obtain ⟨t, ht, hr⟩ := bind_eq_ok hr
    cases hr
    exact (hloop _ _ s t h ht).of rfl rfl
  | notify v =>
    have hloop : ∀ (left i : Nat) (s t : St V (U × List (Call V))), Noted s → notifyLoop ex (noting H) v i left s = .ok t → Noted t := by
      intro left
      induction left with
      | zero => intro i s t h ht; cases ht; exact h
      | succ left ih =>
        intro i s t h ht
        obtain ⟨o, -, ht⟩ := bind_eq_ok ht
        obtain ⟨s1, h1, ht⟩ := bind_eq_ok ht
        obtain ⟨s2, h2, h1⟩ := bind_eq_ok h1
        cases h1
        exact ih (i + 1) _ t ((noted_noted hex h rfl h2).emit rfl) ht
    simp only [notifyObservers] at hr
    split at hr
    · cases hr; exact h
    · split at hr
      · cases hr; exact h
      · obtain ⟨t, ht, hr⟩ := bind_eq_ok hr
        cases hr
        exact (hloop _ _ { s with inside := true } t (h.of rfl rfl) ht).of rfl rfl

theorem exec_noted (H : Handlers V U) (n : Nat) : ExNoted (exec (noting H) n) := by
  induction n with
  | zero => intro s op r _ hr; cases hr
  | succ n ih =>
    intro s op r h hr
    obtain ⟨q, hq, hr⟩ := bind_eq_ok hr
    cases hr
    exact (body_noted ih H op s q h hq).emit rfl

/-- Calls from outside, one after another (no code). -/
def script (H : Handlers V U) (n : Nat) : List (Op V) → St V U → Res (St V U)
  | [], s => .ok s
  | op :: ops, s => do
    let r ← exec H n s op
    script H n ops r.1

/-- The callbacks in the log are what the virtual functions see: if they note their calls and arguments in the user's state, and
do whatever else they do, the notes are the callbacks in the log, in the same order. -/
theorem C33_seen (H : Handlers V U) (n self max : Nat) (ops : List (Op V)) (u : U) (s : St V (U × List (Call V)))
    (hs : script (noting H) n ops (St.new self max (u, [])) = .ok s) : s.user.2 = s.log.filterMap called := by
  have : ∀ (ops : List (Op V)) (s t : St V (U × List (Call V))), Noted s → script (noting H) n ops s = .ok t → Noted t := by
    intro ops
    induction ops with
    | nil => intro s t h ht; cases ht; exact h
    | cons op ops ih =>
      intro s t h ht
      obtain ⟨r, hx, ht⟩ := bind_eq_ok ht
      exact ih r.1 t (exec_noted H n s op r h hx) ht
  exact this ops (St.new self max (u, [])) s (show ([] : List (Call V)) = [].filterMap called from rfl) hs

/-- When told, 10 registers 12 and tries to notify; when disconnected, 11 notifies. -/
def busy : Handlers Nat Unit :=
  ⟨fun _ o v => if o = 10 then .call (.add 12) fun _ _ => .call (.notify (v + 1)) fun _ _ => .ret () else .ret (),
    fun _ o => if o = 11 then .call (.notify 5) fun _ _ => .ret () else .ret ()⟩

/-- A run with callbacks in callbacks. -/
example : (match script (noting busy) 5 [.add 10, .add 11, .notify 7, .clear] (St.new 1 4 ((), [])) with
    | .ok s => s.user.2
    | _ => []) = [.data 10 7, .data 11 7, .disc 10, .disc 11, .data 10 5, .data 11 5, .data 12 5, .disc 12] := by
  decide +kernel

/-! ### Without a capacity -/
namespace Unb
open Dyn

/-- The call that an event is. -/
def called : Cb.Ev V → Option (Call V)
  | .enter _ o v => some (.data o v)
  | .disc _ o => some (.disc o)
  | _ => none

/-- The notes are the calls in the log. -/
def Noted (s : Cb.St V (U × List (Call V))) : Prop := s.user.2 = s.log.filterMap called

/-- Operations keep the notes complete. -/
def ExNoted (ex : Cb.St V (U × List (Call V)) → Op V → Res (Cb.St V (U × List (Call V)) × Err)) : Prop :=
  ∀ s op r, Noted s → ex s op = .ok r → Noted r.1

theorem Noted.emit {s : Cb.St V (U × List (Call V))} (h : Noted s) {e : Cb.Ev V} (he : called e = none) : Noted (s.emit e) := by
  simp [Noted, Cb.St.emit, List.filterMap_append, he, ← show s.user.2 = _ from h]

theorem Noted.of {s t : Cb.St V (U × List (Call V))} (h : Noted s) (hu : t.user = s.user) (hl : t.log = s.log) : Noted t := by
  rw [Noted, hu, hl]; exact h

theorem keeping_noted {ex : Cb.St V (U × List (Call V)) → Op V → Res (Cb.St V (U × List (Call V)) × Err)} (hex : ExNoted ex)
    (p : Prog V U) : ∀ (l : List (Call V)) (s t : Cb.St V (U × List (Call V))), l = s.log.filterMap called → Noted s →
    Cb.runProg ex (keeping l p) s = .ok t → Noted t := by
  induction p with
  | ret u =>
    intro l s t hl _ ht
    simp only [keeping, Cb.runProg, Res.ok.injEq] at ht
    subst ht; exact hl
  | set u k ih => exact fun l s t hl _ ht => ih l { s with user := (u, l) } t hl hl ht
  | call op k ih =>
    intro l s t _ h ht
    obtain ⟨r, hr, ht⟩ := bind_eq_ok ht
    have h1 := hex s op r h hr
    exact ih r.2 r.1.user.1 r.1.user.2 r.1 t h1 h1 ht

/-- A callback, from the event on. -/
theorem noted_noted {ex : Cb.St V (U × List (Call V)) → Op V → Res (Cb.St V (U × List (Call V)) × Err)} (hex : ExNoted ex)
    {p : Prog V U} {c : Call V} {e : Cb.Ev V} {s t : Cb.St V (U × List (Call V))} (h : Noted s) (he : called e = some c)
    (ht : Cb.runProg ex (noted c s.user p) (s.emit e) = .ok t) : Noted t := by
  have hl : s.user.2 ++ [c] = (s.emit e).log.filterMap called := by
    rw [show s.user.2 = _ from h]
    simp [Cb.St.emit, List.filterMap_append, he]
  exact keeping_noted hex p _ { s.emit e with user := (s.user.1, s.user.2 ++ [c]) } t hl hl ht

theorem loop_noted {ex : Cb.Ex V (U × List (Call V))} (hex : ExNoted ex) {e : Cb.St V (U × List (Call V)) → Nat → Cb.Ev V}
    {c : Nat → Call V} {p : U → Nat → Prog V U} (he : ∀ s o, called (e s o) = some (c o)) {g : Nat} :
    ∀ (left i : Nat) (s t : Cb.St V (U × List (Call V))), Noted s →
    Cb.loop ex e (fun o w => noted (c o) w (p w.1 o)) g i left s = .ok t → Noted t := by
  intro left
  induction left with
  | zero =>
    intro i s t h ht
    simp only [Cb.loop] at ht
    split at ht <;> cases ht
    exact h
  | succ left ih =>
    intro i s t h ht
    simp only [Cb.loop] at ht
    split at ht
    · obtain ⟨o, -, ht⟩ := bind_eq_ok ht
      obtain ⟨s1, h1, ht⟩ := bind_eq_ok ht
      obtain ⟨s2, h2, h1⟩ := bind_eq_ok h1
      cases h1
      exact ih (i + 1) _ t ((noted_noted hex h (he s o) h2).emit rfl) ht
    · cases ht

theorem body_noted {ex : Cb.Ex V (U × List (Call V))} (hex : ExNoted ex) (H : Handlers V U) (op : Op V)
    (s : Cb.St V (U × List (Call V))) (r : Cb.St V (U × List (Call V)) × Err) (h : Noted s)
    (hr : Cb.body ex (noting H) s op = .ok r) : Noted r.1 := by
  cases op with
  | add o =>
    simp only [Cb.body, Cb.add] at hr
    split at hr <;> (cases hr; exact h.of rfl rfl)
  | remove o =>
    simp only [Cb.body, Cb.remove] at hr
    split at hr <;> (cases hr; exact h.of rfl rfl)
  | clear =>
    obtain ⟨t, ht, hr⟩ := bind_eq_ok hr
    cases hr
    exact (loop_noted hex (c := fun o => .disc o) (p := fun u o => H.disconnect u o) (fun _ _ => rfl) _ _ s t h ht).of rfl rfl
  | notify v =>
    obtain ⟨t, ht, hr⟩ := bind_eq_ok hr
    cases hr
    exact loop_noted hex (c := fun o => .data o v) (p := fun u o => H.data u o v) (fun _ _ => rfl) _ _ s t h ht

theorem exec_noted (H : Handlers V U) (n : Nat) : ExNoted (Cb.exec (noting H) n) := by
  induction n with
  | zero => intro s op r _ hr; cases hr
  | succ n ih =>
    intro s op r h hr
    obtain ⟨q, hq, hr⟩ := bind_eq_ok hr
    cases hr
    exact (body_noted ih H op s q h hq).emit rfl

/-- Calls from outside, one after another (no code). -/
def script (H : Handlers V U) (n : Nat) : List (Op V) → Cb.St V U → Res (Cb.St V U)
  | [], s => .ok s
  | op :: ops, s => do
    let r ← Cb.exec H n s op
    script H n ops r.1

/-- The callbacks in the log are what the virtual functions see: if they note their calls and arguments in the user's state, and
do whatever else they do, the notes are the callbacks in the log, in the same order. -/
theorem C90_seen (H : Handlers V U) (n self : Nat) (ops : List (Op V)) (u : U) (s : Cb.St V (U × List (Call V)))
    (hs : script (noting H) n ops (Cb.St.new self (u, [])) = .ok s) : s.user.2 = s.log.filterMap called := by
  have : ∀ (ops : List (Op V)) (s t : Cb.St V (U × List (Call V))), Noted s → script (noting H) n ops s = .ok t → Noted t := by
    intro ops
    induction ops with
    | nil => intro s t h ht; cases ht; exact h
    | cons op ops ih =>
      intro s t h ht
      obtain ⟨r, hx, ht⟩ := bind_eq_ok ht
      exact ih r.1 t (exec_noted H n s op r h hx) ht
  exact this ops (Cb.St.new self (u, [])) s (show ([] : List (Call V)) = [].filterMap called from rfl) hs

/-- When told 7, or disconnected, 10 notifies. -/
def busy : Handlers Nat Unit :=
  ⟨fun _ o v => if o = 10 ∧ v = 7 then .call (.notify 8) fun _ _ => .ret () else .ret (),
    fun _ o => if o = 10 then .call (.notify 9) fun _ _ => .ret () else .ret ()⟩

/-- A run with callbacks in callbacks. -/
example : (match script (noting busy) 5 [.add 10, .add 11, .notify 7, .clear] (Cb.St.new 1 ((), [])) with
    | .ok s => s.user.2
    | _ => []) = [.data 10 7, .data 10 8, .data 11 8, .data 11 7, .disc 10, .data 10 9, .data 11 9, .disc 11] := by
  decide +kernel

end Unb

end Seen
end Verif.Observer
