import Mathlib.LinearAlgebra.Matrix.Charpoly.Basic
import Mathlib.Algebra.Polynomial.Roots
import Mathlib.Data.Complex.Basic
import Mathlib.Analysis.Complex.Norm
/-
  What an eigenvalue solver promises.
-/
namespace SciCpp
namespace Roots

/-- The matrix with the given rows, as complex numbers. -/
noncomputable def mat {K : Type} (φ : K → ℂ) (d : ℕ) (rows : List (List K)) : Matrix (Fin d) (Fin d) ℂ :=
  Matrix.of fun i j => (((rows.map fun r => r.map φ).getD i []).getD j 0)

/-- An exact solver: the eigenvalues with their algebraic multiplicities, in any order. -/
def Exact {K : Type} (φ : K → ℂ) (eig : List (List K) → List ℂ) : Prop :=
  ∀ (d : ℕ) (rows : List (List K)), rows.length = d → (∀ r ∈ rows, r.length = d) → (eig rows : Multiset ℂ) = (mat φ d rows).charpoly.roots

/-- `z` is an eigenvalue of a matrix whose entries are within `η` of those of `A`. -/
def NearEigenvalue {d : ℕ} (A : Matrix (Fin d) (Fin d) ℂ) (η : ℝ) (z : ℂ) : Prop :=
  ∃ B : Matrix (Fin d) (Fin d) ℂ, (∀ i j, ‖B i j - A i j‖ ≤ η) ∧ ∃ x : Fin d → ℂ, x ≠ 0 ∧ B.mulVec x = z • x

/-- The error bound for eigenvalues of matrices with entries within `η` of the companion matrix of a monic polynomial of degree `d` with
coefficients of absolute value at most `M`, for numbers of absolute value at most `Λ`. -/
noncomputable def rootBound (d : ℕ) (Λ M η : ℝ) : ℝ := d ^ 2 * Λ ^ (2 * d) * (1 + d * M) * η / (1 - d ^ 2 * Λ ^ d * η)

end Roots
end SciCpp
