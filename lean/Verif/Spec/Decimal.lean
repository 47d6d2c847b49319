import Mathlib.Data.Rat.Floor
import Mathlib.Algebra.Order.Field.Basic
import Mathlib.Algebra.Order.Field.Power
/-
  Decimal numbers of bounded precision (specification side of C97).
-/
namespace SciCpp.Spec

/-- `d` can be written with at most `P` significant decimal digits. -/
def IsDecimal (P : ℕ) (d : ℚ) : Prop := ∃ k e : ℤ, |k| < 10 ^ P ∧ d = k * (10 : ℚ) ^ e

/-- `d` has at most `P` significant digits and no such number is closer to `q`. -/
def IsNearestDecimal (P : ℕ) (q d : ℚ) : Prop :=
  IsDecimal P d ∧ ∀ d', IsDecimal P d' → |q - d| ≤ |q - d'|

/-- `v` is `q` printed with precision `p`: in fixed notation the nearest multiple of `10^-p`, in scientific
notation a nearest decimal with `p + 1` significant digits. -/
def PrintsAs (fixed : Bool) (p : ℕ) (q v : ℚ) : Prop :=
  if fixed then (∃ k : ℤ, v = k / 10 ^ p) ∧ |v - q| ≤ 1 / (2 * 10 ^ p) else IsNearestDecimal (p + 1) q v

end SciCpp.Spec
