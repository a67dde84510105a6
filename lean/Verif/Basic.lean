/-!
Outcomes shared by all models.  Undefined behaviour and non-termination are results of
their own, so that their absence is something to prove.
-/
namespace Verif

/-- Result of running a piece of C++: normal completion, undefined behaviour, or a loop that
did not finish within the fuel given to it. -/
inductive Res (α : Type) where
  | ok (a : α)
  | ub
  | hang
  deriving Repr, DecidableEq

namespace Res

/-- Sequencing: undefined behaviour and non-termination propagate. -/
def bind {α β : Type} (x : Res α) (f : α → Res β) : Res β :=
  match x with
  | ok a => f a
  | ub => ub
  | hang => hang

instance : Monad Res where
  pure := ok
  bind := bind

/-! These are deliberately not `rfl`-lemmas for `simp`: rewriting with them leaves explicit proof
steps, which keeps kernel checking fast on long programs. -/

@[simp] theorem ok_bind {α β : Type} (a : α) (f : α → Res β) : (Res.ok a >>= f) = f a := id rfl
@[simp] theorem ub_bind {α β : Type} (f : α → Res β) : ((Res.ub : Res α) >>= f) = Res.ub := id rfl
@[simp] theorem hang_bind {α β : Type} (f : α → Res β) : ((Res.hang : Res α) >>= f) = Res.hang := id rfl
@[simp] theorem pure_eq {α : Type} (a : α) : (pure a : Res α) = Res.ok a := id rfl

end Res

/-- A byte of memory. -/
abbrev Byte := BitVec 8

end Verif
