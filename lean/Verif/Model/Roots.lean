import Verif.Model.Poly
/-
  `polyroots` (scicpp/polynomials/polynomial.hpp:460-491).  The eigenvalues of a matrix are computed by Eigen (third party, not in /repo): a parameter.
-/
namespace SciCpp
namespace Roots

variable {K : Type}

/-- Entry `(i, j)` of `polycompanion(P)` (polynomial.hpp:464-482) in any arithmetic: zero matrix, ones on the first subdiagonal, then the last column
is overwritten with `-P / P[deg]`. -/
def entryK [Zero K] [One K] [Neg K] [Div K] (P : List K) (i j : ℕ) : K :=
  let deg := P.length - 1
  if j = deg - 1 then (-(P.getD i 0)) / P.getD deg 0 else if i = j + 1 then 1 else 0

/-- `polycompanion(P)` (polynomial.hpp:464-482) as a list of rows; `col(deg - 1)` of a matrix without columns is out of range. -/
def companionK [Zero K] [One K] [Neg K] [Div K] (P : List K) : Res (List (List K)) := do
  require (decide (1 ≤ (P.length : ℤ) - 1))
  pure ((List.range (P.length - 1)).map fun i : ℕ => (List.range (P.length - 1)).map fun j : ℕ => entryK P i j)

/-- `polyroots(P)` (polynomial.hpp:488-491): the eigenvalues of the companion matrix, in the order Eigen lists them; `Z` is the type of complex
numbers. -/
def polyroots {Z : Type} [Zero K] [One K] [Neg K] [Div K] (eig : List (List K) → List Z) (P : List K) : Res (List Z) := do
  let m ← companionK P
  pure (eig m)

end Roots
end SciCpp
