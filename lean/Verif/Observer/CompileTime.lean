import Verif.Basic
/-!
Model of the compile-time observable (`include/xitren/comm/observer_static.hpp:36-80`) and property
C42.

Objects are numbers.  `observer_concept` (observer_static.hpp:33-34) only asks for an expression to be
well-formed and accepts every type.  The user's `notification_impl` is an arbitrary state transformer;
it cannot throw (`notification` is `noexcept`).
-/
namespace Verif.Observer.CompileTime
open Verif

/-- An object of type `observable<D, Observers...>` (observer_static.hpp:36-82). -/
inductive Obj where
  /-- One observer (observer_static.hpp:60-66): `obs_` and its own `root` object. -/
  | one (obs root : Nat)
  /-- More (observer_static.hpp:36-45): `next_`, `obs_` and the reference `root`. -/
  | more (next : Obj) (obs root : Nat)
  deriving DecidableEq, Repr

/-- The member `root` (observer_static.hpp:44-46, 68). -/
def Obj.root : Obj → Nat
  | .one _ r => r
  | .more _ _ r => r

/-- The constructors (observer_static.hpp:43-44, 65) for the pack `o, os...`; `at_` is the address of
the innermost `root` object. -/
def construct (at_ : Nat) : Nat → List Nat → Obj
  | o, [] => .one o at_
  | o, o' :: os =>
    let next := construct at_ o' os
    .more next o next.root

/-- `notify` (observer_static.hpp:52-57, 73-77); `impl root o d` is `notification_impl` of observer
`o` (observer_static.hpp:26-30). -/
def Obj.notify {D U : Type} (impl : Nat → Nat → D → U → U) (d : D) : Obj → U → U
  | .one o r, u => impl r o d u
  | .more next o r, u => next.notify impl d (impl r o d u)

theorem construct_root (at_ o : Nat) (os : List Nat) : (construct at_ o os).root = at_ := by
  induction os generalizing o with
  | nil => rfl
  | cons o' os ih => exact ih o'

/-- **C42.** For every non-empty list of observers and every value, `notify` runs the notification of
each listed observer exactly once, in the order of the list, with that value and with one and the same
source object — whatever the notifications do. -/
theorem C42_notifies_all {D U : Type} (at_ o : Nat) (os : List Nat) (d : D) :
    (∀ (impl : Nat → Nat → D → U → U) (u : U), (construct at_ o os).notify impl d u =
      (o :: os).foldl (fun u o => impl at_ o d u) u) ∧
    (construct at_ o os).notify (fun src o d log => log ++ [(src, o, d)]) d [] =
      (o :: os).map (fun o => (at_, o, d)) := by
  have h1 : ∀ {U : Type} (impl : Nat → Nat → D → U → U) (u : U), (construct at_ o os).notify impl d u =
      (o :: os).foldl (fun u o => impl at_ o d u) u := by
    intro U impl
    induction os generalizing o with
    | nil => intro u; rfl
    | cons o' os ih =>
      intro u
      simp only [construct, Obj.notify, construct_root]
      rw [ih o']
      rfl
  refine ⟨h1, ?_⟩
  rw [h1]
  suffices h : ∀ (l : List Nat) (log : List (Nat × Nat × D)),
      l.foldl (fun u o => u ++ [(at_, o, d)]) log = log ++ l.map (fun o => (at_, o, d)) from h _ []
  intro l
  induction l with
  | nil => intro log; simp
  | cons a l ih => intro log; simp [ih]

example : (construct 50 1 [2, 3]).notify (fun src o d log => log ++ [(src, o, d)]) "x" [] =
    [(50, 1, "x"), (50, 2, "x"), (50, 3, "x")] := by decide +kernel

end Verif.Observer.CompileTime
