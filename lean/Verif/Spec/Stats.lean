import Mathlib.Algebra.Field.Defs
import Mathlib.Algebra.Star.Basic
import Mathlib.Algebra.BigOperators.Group.List.Defs
/-
  Textbook statistics of a finite sample.
-/
namespace SciCpp.Spec

variable {K : Type*} [Field K]

/-- Arithmetic mean `(Σ xᵢ)/n`. -/
def meanL (s : List K) : K := s.sum / (s.length : K)

/-- `Σ (xᵢ - x̄)·conj(yᵢ - ȳ)` over a list of pairs. -/
def covSum [StarRing K] (s : List (K × K)) : K :=
  (s.map fun xy => (xy.1 - meanL (s.map Prod.fst)) * star (xy.2 - meanL (s.map Prod.snd))).sum

/-- Covariance with `ddof` delta degrees of freedom. -/
def covL [StarRing K] (ddof : ℤ) (s : List (K × K)) : K :=
  covSum s / ((s.length : K) - (ddof : K))

/-- `Σ (xᵢ - x̄)ᵏ / n`: the `k`-th central moment. -/
def centralMoment (k : ℕ) (s : List K) : K :=
  (s.map fun x => (x - meanL s) ^ k).sum / (s.length : K)

end SciCpp.Spec
