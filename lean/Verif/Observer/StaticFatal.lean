import Verif.Observer.CompileTime
/-!
Property C179: observers of the compile-time observable (`include/xitren/comm/observer_static.hpp:36-82`) that throw.

`notification` (observer_static.hpp:26-30) and `notify` (observer_static.hpp:54-59, 77-81) are `noexcept`: an exception that leaves
`notification_impl` ends the program.
-/
namespace Verif.Observer.CompileTime
open Verif

variable {D U : Type}

/-- How a notification ends: it returns, or it ends the program; with those that have been called, their source and value (no code). -/
inductive End (D U : Type) where
  | ok (u : U) (told : List (Nat × Nat × D))
  | dead (told : List (Nat × Nat × D))
  deriving DecidableEq

/-- `notification` (observer_static.hpp:26-30); `impl root o d u` is what `notification_impl` of `o` makes of the user's state, and whether it
throws. -/
def callT (impl : Nat → Nat → D → U → U × Bool) (r o : Nat) (d : D) (u : U) (told : List (Nat × Nat × D)) : End D U :=
  if (impl r o d u).2 then .dead (told ++ [(r, o, d)]) else .ok (impl r o d u).1 (told ++ [(r, o, d)])

/-- `notify` (observer_static.hpp:54-59, 77-81). -/
def Obj.notifyT (impl : Nat → Nat → D → U → U × Bool) (d : D) : Obj → U → List (Nat × Nat × D) → End D U
  | .one o r, u, told => callT impl r o d u told
  | .more next o r, u, told =>
    match callT impl r o d u told with
    | .ok u told => next.notifyT impl d u told
    | .dead told => .dead told

/-- The user's state after the notifications of the observers in a list (no code). -/
def after (impl : Nat → Nat → D → U → U × Bool) (r : Nat) (d : D) (os : List Nat) (u : U) : U := os.foldl (fun u o => (impl r o d u).1) u

/-- None of the observers in a list throws, when they are called one after the other (no code). -/
def Quiet (impl : Nat → Nat → D → U → U × Bool) (r : Nat) (d : D) (os : List Nat) (u : U) : Prop :=
  ∀ a x b, os = a ++ x :: b → (impl r x d (after impl r d a u)).2 = false

theorem quiet_head {impl : Nat → Nat → D → U → U × Bool} {r : Nat} {d : D} {o : Nat} {os : List Nat} {u : U}
    (h : Quiet impl r d (o :: os) u) : (impl r o d u).2 = false ∧ Quiet impl r d os (impl r o d u).1 :=
  ⟨h [] o os rfl, fun a x b hs => h (o :: a) x b (by rw [hs]; rfl)⟩

theorem exact_aux (impl : Nat → Nat → D → U → U × Bool) (at_ : Nat) (d : D) : ∀ (os : List Nat) (o : Nat) (u : U) (told : List (Nat × Nat × D)),
    (∀ a t b, o :: os = a ++ t :: b → Quiet impl at_ d a u → (impl at_ t d (after impl at_ d a u)).2 = true →
      (construct at_ o os).notifyT impl d u told = .dead (told ++ (a ++ [t]).map fun x => (at_, x, d))) ∧
    (Quiet impl at_ d (o :: os) u → (construct at_ o os).notifyT impl d u told =
      .ok (after impl at_ d (o :: os) u) (told ++ (o :: os).map fun x => (at_, x, d)))
  | [], o, u, told => by
    refine ⟨fun a t b hs hq ht => ?_, fun hq => ?_⟩
    · cases a with
      | nil =>
        cases hs
        rw [construct, Obj.notifyT, callT, if_pos (show (impl at_ o d u).2 = true from ht)]
        rfl
      | cons x a => simp at hs
    · rw [construct, Obj.notifyT, callT, if_neg (by rw [(quiet_head hq).1]; simp)]
      rfl
  | o' :: os, o, u, told => by
    refine ⟨fun a t b hs hq ht => ?_, fun hq => ?_⟩
    · cases a with
      | nil =>
        cases hs
        rw [construct, Obj.notifyT, construct_root, callT, if_pos (show (impl at_ o d u).2 = true from ht)]
        rfl
      | cons x a =>
        injection hs with hx hs
        subst hx
        obtain ⟨h1, h2⟩ := quiet_head hq
        rw [construct, Obj.notifyT, construct_root, callT, if_neg (by rw [h1]; simp)]
        dsimp only
        rw [(exact_aux impl at_ d os o' (impl at_ o d u).1 (told ++ [(at_, o, d)])).1 a t b hs h2 ht]
        simp
    · obtain ⟨h1, h2⟩ := quiet_head hq
      rw [construct, Obj.notifyT, construct_root, callT, if_neg (by rw [h1]; simp)]
      dsimp only
      rw [(exact_aux impl at_ d os o' (impl at_ o d u).1 (told ++ [(at_, o, d)])).2 h2]
      simp [after]

/-- **C179.** If an observer throws, the notification ends the program when exactly the observers up to the first that throws have been called,
in the order of the list, each once. -/
theorem C179_ends (impl : Nat → Nat → D → U → U × Bool) (at_ : Nat) (d : D) (o : Nat) (os : List Nat) (u : U) {a : List Nat} {t : Nat}
    {b : List Nat} (hs : o :: os = a ++ t :: b) (hq : Quiet impl at_ d a u) (ht : (impl at_ t d (after impl at_ d a u)).2 = true) :
    (construct at_ o os).notifyT impl d u [] = .dead ((a ++ [t]).map fun x => (at_, x, d)) := by
  rw [(exact_aux impl at_ d os o u []).1 a t b hs hq ht, List.nil_append]

/-- **C179.** If no observer throws, all are called, and the user's state is that of the model without exceptions. -/
theorem C179_calm (impl : Nat → Nat → D → U → U × Bool) (at_ : Nat) (d : D) (o : Nat) (os : List Nat) (u : U)
    (hq : Quiet impl at_ d (o :: os) u) : (construct at_ o os).notifyT impl d u [] =
      .ok ((construct at_ o os).notify (fun r o d u => (impl r o d u).1) d u) ((o :: os).map fun x => (at_, x, d)) := by
  rw [(exact_aux impl at_ d os o u []).2 hq, (C42_notifies_all at_ o os d).1]
  rfl

/-- **C179.** One or the other happens: the notification returns exactly if no observer throws. -/
theorem C179_returns (impl : Nat → Nat → D → U → U × Bool) (at_ : Nat) (d : D) (o : Nat) (os : List Nat) (u : U) :
    (∃ u' told, (construct at_ o os).notifyT impl d u [] = .ok u' told) ↔ Quiet impl at_ d (o :: os) u := by
  refine ⟨fun ⟨u', told, h⟩ => ?_, fun h => ⟨_, _, C179_calm impl at_ d o os u h⟩⟩
  have key : ∀ (n : Nat) a x b, a.length = n → o :: os = a ++ x :: b → (impl at_ x d (after impl at_ d a u)).2 = false := by
    intro n
    induction n using Nat.strongRecOn with
    | _ n ih =>
      intro a x b hn hs
      cases hx : (impl at_ x d (after impl at_ d a u)).2 with
      | false => rfl
      | true =>
        have hq : Quiet impl at_ d a u := by
          intro a1 y a2 ha
          refine ih a1.length ?_ a1 y (a2 ++ x :: b) rfl ?_
          · rw [← hn, ha]; simp
          · rw [hs, ha]; simp
        rw [C179_ends impl at_ d o os u hs hq hx] at h
        exact nomatch h
  exact fun a x b hs => key a.length a x b rfl hs

/-- Observer 2 throws; the user's state counts the calls. -/
def second : Nat → Nat → Nat → Nat → Nat × Bool := fun _ o _ u => (u + 1, o == 2)

/-- **C179 is false**: the observer behind one that throws is not called, and the program ends. -/
theorem C179_refuted : (construct 50 1 [2, 3]).notifyT second 7 0 [] = .dead [(50, 1, 7), (50, 2, 7)] :=
  C179_ends second 50 7 1 [2, 3] 0 (a := [1]) (t := 2) (b := [3]) rfl
    (by
      intro a x b h
      cases a with
      | nil => cases h; rfl
      | cons y a => simp at h)
    rfl

/-- Observers that do not throw. -/
example : (construct 50 1 [3, 4]).notifyT second 7 0 [] = .ok 3 [(50, 1, 7), (50, 3, 7), (50, 4, 7)] := rfl

end Verif.Observer.CompileTime
