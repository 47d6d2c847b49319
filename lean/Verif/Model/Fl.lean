import Mathlib.Data.Rat.Init
import Mathlib.Algebra.Order.Ring.Rat
import Mathlib.Algebra.Order.Field.Basic
/-
  `Fl`: floating point values with special values but without rounding: NaN, ±∞ and every
  rational.  Simplifications: no rounding, no signed zero, no subnormals.
  It is used wherever the property is about special values (NaN, infinities).
  There is no C++ definition of these operations in /repo; they are IEEE-754 as used by
  scicpp/core/equal.hpp, numeric.hpp, histogram.hpp and stats.hpp.
-/
namespace SciCpp

/-- IEEE-754-like values, exact on finite numbers. -/
inductive Fl where
  | nan
  | inf (neg : Bool)
  | fin (q : ℚ)
deriving DecidableEq

namespace Fl

/-- `a < b` (IEEE: false when unordered). -/
def lt : Fl → Fl → Bool
  | nan, _ => false
  | _, nan => false
  | inf true, inf true => false
  | inf true, _ => true
  | inf false, _ => false
  | fin _, inf n => !n
  | fin a, fin b => decide (a < b)

/-- `a <= b` (IEEE: false when unordered). -/
def le : Fl → Fl → Bool
  | nan, _ => false
  | _, nan => false
  | inf true, _ => true
  | inf false, inf false => true
  | inf false, _ => false
  | fin _, inf n => !n
  | fin a, fin b => decide (a ≤ b)

/-- `a == b` (IEEE: NaN is different from everything). -/
def eqv : Fl → Fl → Bool
  | nan, _ => false
  | _, nan => false
  | inf a, inf b => a == b
  | fin a, fin b => decide (a = b)
  | _, _ => false

/-- `std::isnan`. -/
def isNan : Fl → Bool
  | nan => true
  | _ => false

/-- `std::isinf`. -/
def isInf : Fl → Bool
  | inf _ => true
  | _ => false

/-- Negation. -/
def neg : Fl → Fl
  | nan => nan
  | inf b => inf (!b)
  | fin q => fin (-q)

/-- Addition (`∞ + (-∞)` is NaN). -/
def add : Fl → Fl → Fl
  | nan, _ => nan
  | _, nan => nan
  | inf a, inf b => if a = b then inf a else nan
  | inf a, fin _ => inf a
  | fin _, inf b => inf b
  | fin a, fin b => fin (a + b)

/-- Subtraction. -/
def sub (a b : Fl) : Fl := add a (neg b)

/-- Multiplication (`0 * ∞` is NaN). -/
def mul : Fl → Fl → Fl
  | nan, _ => nan
  | _, nan => nan
  | inf a, inf b => inf (a != b)
  | inf a, fin q => if q = 0 then nan else inf (a != decide (q < 0))
  | fin q, inf a => if q = 0 then nan else inf (a != decide (q < 0))
  | fin a, fin b => fin (a * b)

/-- Division (`x/0 = ±∞` with the sign of `x`, `0/0` and `∞/∞` NaN, `x/∞ = 0`).
Simplification: the sign of a zero divisor is ignored. -/
def div : Fl → Fl → Fl
  | nan, _ => nan
  | _, nan => nan
  | inf _, inf _ => nan
  | inf a, fin q => inf (a != decide (q < 0))
  | fin _, inf _ => fin 0
  | fin a, fin b => if b = 0 then (if a = 0 then nan else inf (decide (a < 0))) else fin (a / b)

/-- `std::fabs`. -/
def abs : Fl → Fl
  | nan => nan
  | inf _ => inf false
  | fin q => fin |q|

instance : Add Fl := ⟨add⟩
instance : Sub Fl := ⟨sub⟩
instance : Mul Fl := ⟨mul⟩
instance : Div Fl := ⟨div⟩
instance : Neg Fl := ⟨neg⟩
instance : Zero Fl := ⟨fin 0⟩
instance : One Fl := ⟨fin 1⟩

@[simp] theorem add_fin (a b : ℚ) : (fin a + fin b : Fl) = fin (a + b) := rfl
@[simp] theorem sub_fin (a b : ℚ) : (fin a - fin b : Fl) = fin (a - b) := by
  show fin (a + -b) = _; rw [sub_eq_add_neg]
@[simp] theorem mul_fin (a b : ℚ) : (fin a * fin b : Fl) = fin (a * b) := rfl
@[simp] theorem neg_fin (a : ℚ) : (-fin a : Fl) = fin (-a) := rfl
@[simp] theorem zero_def : (0 : Fl) = fin 0 := rfl
@[simp] theorem one_def : (1 : Fl) = fin 1 := rfl
theorem div_fin {a b : ℚ} (h : b ≠ 0) : (fin a / fin b : Fl) = fin (a / b) := by
  show div (fin a) (fin b) = _; simp [div, h]

end Fl
end SciCpp
