import Verif.Model.Ieee
import Verif.Model.F64
import Verif.Model.Constants
/-
  Model of scicpp/core/interpolate.hpp with floating point abscissae (the exact model is Model/Interp.lean).  The number type is a parameter
  with its comparison, subtraction and division; it is instantiated with `RFl rnd` (rounding without overflow) and `IFl f` (IEEE formats).
-/
namespace SciCpp

variable {F G : Type}

/-- `minCoeff()` of an Eigen array (scicpp/core/interpolate.hpp:31): a reduction with `std::min`. -/
def minCoeffF (lt : F → F → Bool) : List F → Res F
  | [] => .ub
  | x :: xs => .ok (xs.foldl (fun m v => if lt v m then v else m) x)

/-- `maxCoeff()` (scicpp/core/interpolate.hpp:31): a reduction with `std::max`. -/
def maxCoeffF (lt : F → F → Bool) : List F → Res F
  | [] => .ub
  | x :: xs => .ok (xs.foldl (fun m v => if lt m v then v else m) x)

/-- `scaled_value` (scicpp/core/interpolate.hpp:48-51). -/
def scaledValueF [Sub F] [Div F] (xmin xmax x : F) : F := (x - xmin) / (xmax - xmin)

/-- `interp1d<kind>(x, y)` with a query of type `T` (scicpp/core/interpolate.hpp:26-61, 66-77): the knots are computed in `F` (`double`), the query is
rescaled in its own type `G`, after a conversion `down` of the bounds (`T(x_min)`, 50), and the result is converted back (`up`) for the call of the
spline (44).  `spline deg y knots` is the fitted `Eigen::Spline` as a function. -/
def interp1dF (lt : F → F → Bool) [Sub F] [Div F] [Sub G] [Div G] (down : F → G) (up : G → F)
    (spline : ℕ → List F → List F → F → F) (kind : ℕ) (x y : List F) : Res (G → F) := do
  let xmin ← minCoeffF lt x                                                               -- 31
  let xmax ← maxCoeffF lt x
  let s := spline (min (x.length - 1) kind) y (x.map (scaledValueF xmin xmax))            -- 33-36
  require (x.length == y.length)                                                          -- 37
  require (lt xmin xmax)                                                                  -- 38
  pure fun q => s (up (scaledValueF (down xmin) (down xmax) q))                           -- 44

/-- `T(x_min)` and the conversion back for a `float` query (scicpp/core/interpolate.hpp:44, 50). -/
def toF32 : F64 → F32
  | .fin q => RFl.fin (rnd32 q)
  | .nan => RFl.nan
  | .inf b => RFl.inf b

/-- See `toF32`. -/
def ofF32 : F32 → F64
  | .fin q => RFl.fin q
  | .nan => RFl.nan
  | .inf b => RFl.inf b

end SciCpp
