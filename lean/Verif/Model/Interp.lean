import Verif.Model.Poly
import Mathlib.Algebra.Order.Field.Basic
import Mathlib.Algebra.Order.Floor.Ring
import Mathlib.Data.Rat.Floor
/-
  Model of scicpp/core/interpolate.hpp and of `polyfit` (scicpp/polynomials/polynomial.hpp:532-540) with
  `lstsq` (scicpp/linalg/solve.hpp:14-21).  The spline fitting and the QR decomposition of Eigen are
  parameters; arithmetic is exact.
-/
namespace SciCpp

variable {K : Type}

/-- `minCoeff()` / `maxCoeff()` of an Eigen array (undefined for an empty one). -/
def minCoeff [LinearOrder K] : List K → Res K
  | [] => .ub
  | x :: xs => .ok (xs.foldl min x)

/-- See `minCoeff`. -/
def maxCoeff [LinearOrder K] : List K → Res K
  | [] => .ub
  | x :: xs => .ok (xs.foldl max x)

/-- `scaled_value<double>` (scicpp/core/interpolate.hpp:48-51). -/
def scaledValue [Field K] (xmin xmax x : K) : K := (x - xmin) / (xmax - xmin)

/-- `interp1d<kind>(x, y)` (scicpp/core/interpolate.hpp:26-61, 66-69): the interpolating function of a
floating point argument.  `spline deg y knots` is the fitted `Eigen::Spline` as a function. -/
def interp1d [Field K] [LinearOrder K] (spline : ℕ → List K → List K → K → K) (kind : ℕ) (x y : List K) :
    Res (K → K) := do
  let xmin ← minCoeff x                                                                   -- 31
  let xmax ← maxCoeff x
  require (x.length == y.length)                                                          -- 37
  require (decide (xmin < xmax))                                                          -- 38
  let s := spline (min (x.length - 1) kind) y (x.map (scaledValue xmin xmax))             -- 33-36
  pure fun q => s (scaledValue xmin xmax q)                                               -- 44

/-- `static_cast<int>` of a finite floating point number (no range check). -/
def truncZ (q : ℚ) : ℤ := if 0 ≤ q then ⌊q⌋ else ⌈q⌉

/-- `scaled_value<int>` (scicpp/core/interpolate.hpp:48-51 with `T = int`): integer subtraction and
division. -/
def scaledValueInt (xmin xmax : ℚ) (x : ℤ) : Res ℤ :=
  if truncZ xmax - truncZ xmin = 0 then .ub
  else .ok (Int.tdiv (x - truncZ xmin) (truncZ xmax - truncZ xmin))

/-- `interp1d<kind>(x, y)(q)` for an `int` argument `q` (scicpp/core/interpolate.hpp:41-45, 71-77). -/
def interp1dInt (spline : ℕ → List ℚ → List ℚ → ℚ → ℚ) (kind : ℕ) (x y : List ℚ) (q : ℤ) : Res ℚ := do
  let xmin ← minCoeff x
  let xmax ← maxCoeff x
  require (x.length == y.length)
  require (decide (xmin < xmax))
  let s := spline (min (x.length - 1) kind) y (x.map (scaledValue xmin xmax))
  let v ← scaledValueInt xmin xmax q
  pure (s (v : ℚ))

/-- `polyfit(x, y, deg)` (scicpp/polynomials/polynomial.hpp:532-540).  `lstsq A b` is
`A.fullPivHouseholderQr().solve(b)` (scicpp/linalg/solve.hpp:19-20); different sizes violate an Eigen
assertion. -/
def polyfit [Field K] (lstsq : List (List K) → List K → List K) (x y : List K) (deg : ℤ) : Res (List K) := do
  let A ← polyvander x deg
  require (x.length == y.length)
  pure (lstsq A y)

end SciCpp
