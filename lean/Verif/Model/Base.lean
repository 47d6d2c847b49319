/-
  Basic vocabulary of the model.

  * `Res α` is the outcome of a C++ call: either a value or *undefined behaviour*.
    UB covers a violated `scicpp_require` (scicpp/core/macros.hpp:20-26: `assert` in a debug
    build, `__builtin_unreachable()` when NDEBUG is defined), an out-of-bounds iterator or
    subscript, an integer division by zero, and an unrepresentable float-to-integer cast.
  * `Cat` is the value category / constness of the expression passed for a
    forwarding-reference parameter; it selects the overload.
  * `Cont` distinguishes `std::vector` (moved-from ⇒ empty) from `std::array`
    (move = copy for arithmetic elements).
-/
namespace SciCpp

universe u v w

/-- Outcome of a C++ call (scicpp/core/macros.hpp:14-26: a failed `scicpp_require` is
`assert(false)` or `__builtin_unreachable()`; both are the distinct outcome `ub` here). -/
inductive Res (α : Type u) : Type u where
  | ok (a : α)
  | ub
deriving DecidableEq, Repr

namespace Res

/-- Sequencing of two C++ computations: UB in either is UB of the whole. -/
def bind {α : Type u} {β : Type v} : Res α → (α → Res β) → Res β
  | ok a, f => f a
  | ub, _ => ub

instance : Monad Res where
  pure := ok
  bind := bind

@[simp] theorem pure_eq {α : Type u} (a : α) : (pure a : Res α) = ok a := rfl
@[simp] theorem bind_ok {α β : Type u} (a : α) (f : α → Res β) : (ok a >>= f) = f a := rfl
@[simp] theorem bind_ub {α β : Type u} (f : α → Res β) : ((ub : Res α) >>= f) = ub := rfl
@[simp] theorem map_ok {α β : Type u} (a : α) (f : α → β) : (f <$> ok a : Res β) = ok (f a) := rfl
@[simp] theorem map_ub {α β : Type u} (f : α → β) : (f <$> (ub : Res α) : Res β) = ub := rfl

instance : LawfulMonad Res := LawfulMonad.mk'
  (id_map := fun x => by cases x <;> rfl)
  (pure_bind := fun _ _ => rfl)
  (bind_assoc := fun x _ _ => by cases x <;> rfl)

end Res

/-- `scicpp_require(expr)` (scicpp/core/macros.hpp:20-26). -/
def require (b : Bool) : Res PUnit.{u+1} := if b then .ok ⟨⟩ else .ub

@[simp] theorem require_true : require true = .ok ⟨⟩ := rfl
@[simp] theorem require_false : require false = .ub := rfl

theorem require_beq_ne {m n : Nat} (h : m ≠ n) : require.{u} (m == n) = .ub := by
  have : (m == n) = false := by simpa using h
  rw [this]; rfl

/-- The value category and constness of an argument expression. -/
inductive Cat where
  | constLvalue
  | lvalue
  | rvalue
deriving DecidableEq, Repr

/-- The two owning containers the library works with. -/
inductive Cont where
  | vec
  | arr
deriving DecidableEq, Repr

end SciCpp
