import Mathlib.Algebra.Polynomial.Eval.Defs
import Mathlib.Algebra.Polynomial.Coeff
/-
  Specification vocabulary for coefficient arrays: a list denotes the polynomial whose `i`-th
  coefficient is its `i`-th entry (lowest degree first, as in numpy.polynomial).
-/
namespace SciCpp.Spec

open Polynomial

/-- The polynomial with coefficients `l`, lowest degree first: `c₀ + X·(c₁ + X·(…))`. -/
noncomputable def polyOf {R : Type*} [Semiring R] : List R → R[X]
  | [] => 0
  | c :: cs => C c + X * polyOf cs

/-- `polyOf l` really has coefficient list `l` (extended by zeros). -/
theorem coeff_polyOf {R : Type*} [Semiring R] (l : List R) (i : ℕ) :
    (polyOf l).coeff i = l.getD i 0 := by
  induction l generalizing i with
  | nil => simp [polyOf]
  | cons c cs ih =>
    cases i with
    | zero => simp [polyOf]
    | succ i => simp [polyOf, coeff_X_mul, ih]

end SciCpp.Spec
