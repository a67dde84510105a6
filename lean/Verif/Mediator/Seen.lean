import Verif.Mediator.DynamicProps
/-! The callbacks in the log of `Dynamic.lean` are the calls that the virtual functions of the user get, with these arguments. -/
namespace Verif.Mediator.Dyn
open Verif

namespace Seen

variable {W : World} {U : Type}

/-- A call of a virtual function: `data(v)` of a module in its version for a type, or the hook of the manager
(mediator.hpp:114-116, 328-330). -/
inductive Call (W : World) where
  | data (m t : Nat) (v : W.Val t)
  | hook (id : Nat) (bytes : List Byte)

/-- The same program, in a state with a list beside it that it does not touch (overrides of mediator.hpp:114-116, 328-330). -/
def keeping (l : List (Call W)) : Prog W U → Prog W (U × List (Call W))
  | .ret u => .ret (u, l)
  | .send m v k => .send m v fun w => keeping w.2 (k w.1)
  | .raw m bytes k => .raw m bytes fun w b => keeping w.2 (k w.1 b)
  | .cast t v k => .cast t v fun w => keeping w.2 (k w.1)
  | .make m k => .make m fun w => keeping w.2 (k w.1)
  | .drop m k => .drop m fun w => keeping w.2 (k w.1)
  | .throw u => .throw (u, l)
  | .attempt p k => .attempt (keeping l p) fun w b => keeping w.2 (k w.1 b)

/-- The same program, which first notes that it has been called (overrides of mediator.hpp:114-116, 328-330). -/
def noted (c : Call W) (w : U × List (Call W)) (p : Prog W U) : Prog W (U × List (Call W)) :=
  .attempt (.ret (w.1, w.2 ++ [c])) fun w _ => keeping w.2 p

/-- The same virtual functions, which first note in the list that they have been called, and with which arguments (overrides of
mediator.hpp:114-116, 328-330). -/
def noting (H : Handlers W U) : Handlers W (U × List (Call W)) where
  data w m t v := noted (.data m t v) w (H.data w.1 m t v)
  hook w id b := noted (.hook id b) w (H.hook w.1 id b)
  edit w := H.edit w.1

/-- The call that an event is. -/
def called : Ev W → Option (Call W)
  | .recv _ m t v => some (.data m t v)
  | .hook _ id b => some (.hook id b)
  | _ => none

/-- The notes are the calls in the log. -/
def Noted (s : St W (U × List (Call W))) : Prop := s.user.2 = s.log.filterMap called

theorem bind_eq_ok {α β : Type} {x : Res α} {f : α → Res β} {b : β} (h : (x >>= f) = .ok b) : ∃ a, x = .ok a ∧ f a = .ok b := by
  cases x with
  | ok a => exact ⟨a, rfl, h⟩
  | ub => cases h
  | hang => cases h

theorem Noted.emit {s : St W (U × List (Call W))} (h : Noted s) {e : Ev W} (he : called e = none) : Noted (s.emit e) := by
  simp [Noted, St.emit, List.filterMap_append, he, ← show s.user.2 = _ from h]

theorem Noted.of {s t : St W (U × List (Call W))} (h : Noted s) (hu : t.user = s.user) (hl : t.log = s.log) : Noted t := by
  rw [Noted, hu, hl]; exact h

/-- Calls of `data` note what is logged just before. -/
def CallNoted (call : Mediator.Dyn.Call W (U × List (Call W))) : Prop :=
  ∀ n m t v s s', Noted s → call s.user m t v (s.emit (.recv n m t v)) = .ok s' → Noted s'

theorem deliver_noted {call : Mediator.Dyn.Call W (U × List (Call W))} (hc : CallNoted call) {k id : Nat} {src : Option Nat}
    {bytes : List Byte} : ∀ (n i : Nat) (s t : St W (U × List (Call W))), Noted s →
    deliver call k id src bytes n i s = .ok t → Noted t := by
  intro n
  induction n with
  | zero =>
    intro i s t h ht
    unfold deliver at ht
    split at ht
    · cases ht
    · cases ht; exact h
  | succ n ih =>
    intro i s t h ht
    unfold deliver at ht
    split at ht
    · split at ht
      · split at ht
        · split at ht
          · rename_i m _ _ _
            obtain ⟨s1, h1, ht⟩ := bind_eq_ok ht
            have hn : Noted s1 := by
              unfold receive at h1
              split at h1
              · cases h1; exact h
              · split at h1
                · cases h1; exact h
                · exact hc _ _ _ _ s s1 h h1
            split at ht
            · cases ht; exact hn.emit rfl
            · exact ih (i + 1) s1 t hn ht
          · exact ih (i + 1) s t h ht
        · cases ht
      · cases ht
    · cases ht; exact h

theorem distribute_noted {call : Mediator.Dyn.Call W (U × List (Call W))} (hc : CallNoted call)
    {hook : U × List (Call W) → Nat → List Byte → St W (U × List (Call W)) → Res (St W (U × List (Call W)))}
    (hh : ∀ n id b s s', Noted s → hook s.user id b (s.emit (.hook n id b)) = .ok s' → Noted s') {edit : Edit (U × List (Call W))}
    {m : Nat} {bytes : List Byte} {s : St W (U × List (Call W))} {r : St W (U × List (Call W)) × List Byte} (h : Noted s)
    (hr : distribute call hook edit m bytes s = .ok r) : Noted r.1 := by
  obtain ⟨s1, h1, hr⟩ := bind_eq_ok hr
  unfold callHook at h1
  have hn : Noted s1 := hh _ _ _ ({ s with count := s.count + 1 }.emit (.start s.count (some m) (W.sends m) bytes)) s1
    ((h.of (t := { s with count := s.count + 1 }) rfl rfl).emit rfl) h1
  unfold afterHook at hr
  split at hr
  · cases hr; exact (hn.emit rfl).of rfl rfl
  · obtain ⟨s2, h2, hr⟩ := bind_eq_ok hr
    cases hr
    exact (deliver_noted hc _ _ _ s2 (hn.emit rfl) h2).of rfl rfl

theorem castAll_noted {call : Mediator.Dyn.Call W (U × List (Call W))} (hc : CallNoted call) {t : Nat} {v : W.Val t}
    {s s' : St W (U × List (Call W))} (h : Noted s) (hr : castAll call t v s = .ok s') : Noted s' := by
  obtain ⟨s2, h2, hr⟩ := bind_eq_ok hr
  cases hr
  exact (deliver_noted hc _ _ _ s2 ((h.of (t := { s with count := s.count + 1 }) rfl rfl).emit rfl) h2).of rfl rfl

theorem exec_noted (H : Handlers W U) : ∀ (f : Nat) (p : Prog W U) (s s' : St W (U × List (Call W))), Noted s →
    exec (noting H) f (keeping s.user.2 p) s = .ok s' → Noted s' := by
  intro f
  induction f using Nat.strongRecOn with
  | ind f ih =>
  have hcall : ∀ g, g < f → CallNoted (fun u m t v => exec (noting H) g ((noting H).data u m t v)) := by
    intro g hg n m t v s s' h hr
    cases g with
    | zero => cases hr
    | succ g =>
      obtain ⟨s1, h1, hr⟩ := bind_eq_ok hr
      cases g with
      | zero => cases h1
      | succ g =>
        cases h1
        refine ih (g + 1) (by omega) (H.data s.user.1 m t v)
          { s.emit (.recv n m t v) with user := (s.user.1, s.user.2 ++ [.data m t v]), thrown := false } s' ?_ hr
        simp [Noted, St.emit, List.filterMap_append, called, ← show s.user.2 = _ from h]
  have hhook : ∀ g, g < f → ∀ n id b (s s' : St W (U × List (Call W))), Noted s →
      exec (noting H) g ((noting H).hook s.user id b) (s.emit (.hook n id b)) = .ok s' → Noted s' := by
    intro g hg n id b s s' h hr
    cases g with
    | zero => cases hr
    | succ g =>
      obtain ⟨s1, h1, hr⟩ := bind_eq_ok hr
      cases g with
      | zero => cases h1
      | succ g =>
        cases h1
        refine ih (g + 1) (by omega) (H.hook s.user.1 id b)
          { s.emit (.hook n id b) with user := (s.user.1, s.user.2 ++ [.hook id b]), thrown := false } s' ?_ hr
        simp [Noted, St.emit, List.filterMap_append, called, ← show s.user.2 = _ from h]
  intro p s s' h hr
  cases f with
  | zero => cases hr
  | succ f =>
    have honward : ∀ (k : U → Prog W U) (t t' : St W (U × List (Call W))), Noted t →
        onward (fun s => exec (noting H) f (keeping s.user.2 (k s.user.1)) s) t = .ok t' → Noted t' := by
      intro k t t' ht hr
      unfold onward at hr
      split at hr
      · cases hr; exact ht
      · exact ih f (by omega) _ t t' ht hr
    cases p with
    | ret u => cases hr; exact h
    | throw u => cases hr; exact h
    | send m v k =>
      simp only [keeping, exec] at hr
      split at hr
      · obtain ⟨r, h1, hr⟩ := bind_eq_ok hr
        exact honward k r.1 s' (distribute_noted (hcall f (by omega)) (hhook f (by omega)) h h1) hr
      · exact ih f (by omega) _ s s' h hr
    | raw m b k =>
      simp only [keeping, exec] at hr
      split at hr
      · obtain ⟨r, h1, hr⟩ := bind_eq_ok hr
        exact honward (fun u => k u r.2) r.1 s' (distribute_noted (hcall f (by omega)) (hhook f (by omega)) h h1) hr
      · exact ih f (by omega) _ s s' h hr
    | cast t v k =>
      obtain ⟨r, h1, hr⟩ := bind_eq_ok hr
      exact honward k r s' (castAll_noted (hcall f (by omega)) h h1) hr
    | make m k =>
      obtain ⟨r, h1, hr⟩ := bind_eq_ok hr
      have hn : Noted r := by
        unfold make at h1
        split at h1
        · cases h1; exact h
        · obtain ⟨q, _, h1⟩ := bind_eq_ok h1
          cases h1
          exact (h.emit (e := .made m) rfl).of rfl rfl
      exact ih f (by omega) _ r s' hn hr
    | drop m k =>
      obtain ⟨r, h1, hr⟩ := bind_eq_ok hr
      have hn : Noted r := by
        unfold drop at h1
        split at h1
        · obtain ⟨q, _, h1⟩ := bind_eq_ok h1
          cases h1
          exact (h.emit (e := .gone m) rfl).of rfl rfl
        · cases h1; exact h
      exact ih f (by omega) _ r s' hn hr
    | attempt p k =>
      obtain ⟨r, h1, hr⟩ := bind_eq_ok hr
      have hn : Noted r := ih f (by omega) p s r h h1
      exact ih f (by omega) _ { r with thrown := false } s' (hn.of rfl rfl) hr

/-- The callbacks in the log are what the virtual functions see: if the versions of `data` and the hook of the manager note
their calls and arguments in the user's state, and do whatever else they do, the notes are the callbacks in the log, in the
same order. -/
theorem C97_seen (H : Handlers W U) (f sources : Nat) (p : Prog W U) (u : U) (s : St W (U × List (Call W)))
    (hs : exec (noting H) f (keeping [] p) (St.new sources (u, [])) = .ok s) : s.user.2 = s.log.filterMap called :=
  exec_noted H f p (St.new sources (u, [])) s (show ([] : List (Call W)) = [].filterMap called from rfl) hs

/-- Who is called: a module, or the manager. -/
def Call.who : Call W → Option Nat
  | .data m _ _ => some m
  | .hook _ _ => none

/-- A run in which a callback constructs a module that is told, too, and destroys the first. -/
example : (match exec (noting Ex.relay) 20 (keeping [] (Ex.build [1, 2] (.send 1 (0x1234#16) fun u => .send 1 (0x5#16) fun _ => .ret u)))
      (St.new 4 (0, [])) with
    | .ok s => s.user.2.map Call.who
    | _ => []) = [none, some 2, some 3, none, some 3] := by
  decide +kernel

end Seen
end Verif.Mediator.Dyn
