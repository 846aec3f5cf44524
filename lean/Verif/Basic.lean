/-!
# Outcomes shared by all models

Running a piece of C code either ends normally, hits undefined behaviour, or does not end.
`Res` makes the last two explicit outcomes of the model instead of assuming them away.
-/

namespace Verif

/-- Outcome of running modelled C code: a normal result, undefined behaviour (out-of-bounds
access, NULL dereference, use of an uninitialised pointer), or no result because the code
was still running when the fuel of the model was used up. -/
inductive Res (α : Type u) where
  | ok (a : α)
  | ub
  | div
  deriving Repr, DecidableEq

namespace Res

/-- Sequential composition: undefined behaviour and divergence propagate. -/
def bind {α : Type u} {β : Type v} : Res α → (α → Res β) → Res β
  | ok a, f => f a
  | ub, _ => ub
  | div, _ => div

instance : Monad Res where
  pure := ok
  bind := bind

/-- Turn a failed memory access (`none`) into undefined behaviour. -/
def ofOption {α : Type u} : Option α → Res α
  | some a => ok a
  | none => ub

@[simp] theorem pure_eq {α : Type u} (a : α) : (pure a : Res α) = ok a := rfl
@[simp] theorem ok_bind {α β : Type u} (a : α) (f : α → Res β) : (ok a >>= f) = f a := rfl
@[simp] theorem ub_bind {α β : Type u} (f : α → Res β) : ((ub : Res α) >>= f) = ub := rfl
@[simp] theorem div_bind {α β : Type u} (f : α → Res β) : ((div : Res α) >>= f) = div := rfl
@[simp] theorem ofOption_some {α : Type u} (a : α) : ofOption (some a) = ok a := rfl
@[simp] theorem ofOption_none {α : Type u} : ofOption (none : Option α) = ub := rfl

theorem bind_eq_ok {α β : Type u} {x : Res α} {f : α → Res β} {b : β} :
    (x >>= f) = ok b ↔ ∃ a, x = ok a ∧ f a = ok b := by
  cases x <;> simp

instance : LawfulMonad Res :=
  LawfulMonad.mk' Res (id_map := fun x => by cases x <;> rfl) (pure_bind := fun _ _ => rfl) (bind_assoc := fun x _ _ => by cases x <;> rfl)

end Res
end Verif
