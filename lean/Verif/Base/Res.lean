/-!
# Outcomes of running C++ code

Undefined behaviour and exceptions are outcomes distinct from every value, so a
theorem that says `f x = .ok v` says that neither happens.
-/

namespace Verif

/-- Outcome of evaluating a C++ expression: a value, undefined behaviour
(signed overflow, `std::unreachable()`, violated `[[assume]]`, ...), or a thrown
exception. -/
inductive Res (α : Type u) where
  | ok (a : α)
  | ub
  | exn
  deriving Repr, DecidableEq

namespace Res

/-- Sequencing: undefined behaviour and exceptions stop the computation. -/
def bind {α : Type u} {β : Type v} (x : Res α) (f : α → Res β) : Res β :=
  match x with
  | ok a => f a
  | ub => ub
  | exn => exn

instance : Monad Res where
  pure := ok
  bind := Res.bind

@[simp] theorem pure_def (a : α) : (pure a : Res α) = ok a := rfl
@[simp] theorem ok_bind (a : α) (f : α → Res β) : (ok a >>= f) = f a := rfl
@[simp] theorem ub_bind (f : α → Res β) : ((ub : Res α) >>= f) = ub := rfl
@[simp] theorem exn_bind (f : α → Res β) : ((exn : Res α) >>= f) = exn := rfl
@[simp] theorem ok_map (a : α) (f : α → β) : (f <$> (ok a : Res α)) = ok (f a) := rfl
@[simp] theorem ub_map (f : α → β) : (f <$> (ub : Res α)) = ub := rfl
@[simp] theorem exn_map (f : α → β) : (f <$> (exn : Res α)) = exn := rfl

theorem bind_eq_ok {x : Res α} {f : α → Res β} {b : β} :
    (x >>= f) = ok b ↔ ∃ a, x = ok a ∧ f a = ok b := by
  cases x <;> simp

theorem bind_assoc' (x : Res α) (f : α → Res β) (g : β → Res γ) :
    (x >>= f) >>= g = x >>= fun a => f a >>= g := by
  cases x <;> rfl

instance : LawfulMonad Res := LawfulMonad.mk'
  (id_map := by intro α x; cases x <;> rfl)
  (pure_bind := by intros; rfl)
  (bind_assoc := by intro α β γ x f g; cases x <;> rfl)

end Res
end Verif
