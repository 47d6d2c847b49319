import Verif.Model.Histogram
import Verif.Model.Ieee
/-
  Model of the index-computing histogram (scicpp/core/histogram.hpp) in the arithmetic of a format, with
  overflow and underflow, and of `almost_equal` in that arithmetic.
-/
namespace SciCpp

variable {f : Fmt}

namespace IFl

/-- `std::fabs`. -/
def abs (a : IFl f) : IFl f := Fl.abs a
/-- `std::max(a, b)`: `(a < b) ? b : a`. -/
def max (a b : IFl f) : IFl f := if lt a b then b else a
/-- `std::isnan`. -/
def isNan (a : IFl f) : Bool := Fl.isNan a
/-- `std::isinf`. -/
def isInf (a : IFl f) : Bool := Fl.isInf a
/-- `std::signbit` (sign of zero not modelled). -/
def signbit (a : IFl f) : Bool :=
  match (a : Fl) with
  | .inf b => b
  | .fin q => decide (q < 0)
  | .nan => false
/-- `is_zero` (scicpp/core/equal.hpp:24-27). -/
def isZero (a : IFl f) : Bool :=
  match (a : Fl) with
  | .fin q => decide (q = 0)
  | _ => false
/-- `static_cast<std::size_t>(x)`: truncation; UB when the truncated value is negative or not finite.
Simplification: the 2^64 upper limit is not modelled. -/
def toSize (a : IFl f) : Res ℕ :=
  match (a : Fl) with
  | .fin q => if q ≤ -1 then .ub else .ok ⌊q⌋₊
  | _ => .ub

end IFl

/-- `fp_equal_predicate<rel_tol>` (scicpp/core/equal.hpp:29-51); `tol` is `rel_tol * eps / 2`. -/
def fpEqualI (tol : ℚ) (a b : IFl f) : Bool :=
  if IFl.isNan a && IFl.isNan b then true
  else if IFl.isInf a && IFl.isInf b then IFl.signbit a == IFl.signbit b
  else
    let maxVal : IFl f := IFl.max (IFl.abs a) (IFl.abs b)
    if IFl.isZero a || IFl.isZero b || IFl.lt maxVal (IFl.fin tol) then
      IFl.le (IFl.abs (a - b : IFl f)) (IFl.fin tol)
    else IFl.le (IFl.abs (a - b : IFl f)) ((IFl.fin tol : IFl f) * maxVal : IFl f)

/-- `std::is_sorted`: no element is smaller than its predecessor. -/
def isSortedI : List (IFl f) → Bool
  | a :: b :: l => !IFl.lt b a && isSortedI (b :: l)
  | _ => true

/-- Body of the uniform-bin loop (scicpp/core/histogram.hpp:172-187). -/
def histStepUI (tol : ℚ) (front back step : IFl f) (hist : List ℕ) (x : IFl f) : Res (List ℕ) :=
  let pos : IFl f := (x - front) / step
  if IFl.le ((hist.length : ℕ) : IFl f) pos then
    if fpEqualI tol x back then incr hist (hist.length - 1) else .ok hist
  else if IFl.le (IFl.fin 0) pos then do
    let i ← IFl.toSize pos
    incr hist i
  else .ok hist

/-- `histogram<Count, UniformBins>(first, last, bins)` (scicpp/core/histogram.hpp:145-219). -/
def histogramUI (tol : ℚ) (bins xs : List (IFl f)) : Res (List ℕ) :=
  if bins.length ≤ 1 then .ok []
  else do
    require (isSortedI bins)
    let b0 ← rd bins 0
    let b1 ← rd bins 1
    let back ← rd bins (bins.length - 1)
    let step := b1 - b0
    require (IFl.lt (IFl.fin 0) step)
    histLoop (histStepUI tol b0 back step) (List.replicate (bins.length - 1) 0) xs

/-- The smallest and the largest sample (scicpp/core/stats.hpp:37-44, 59-66). -/
def outerEdgesI (tol : ℚ) (xs : List (IFl f)) : IFl f × IFl f :=
  if xs.isEmpty then (0, 1)
  else
    let first : IFl f := amin IFl.nan IFl.lt xs
    let last : IFl f := amax IFl.nan IFl.lt xs
    if fpEqualI tol first last then (first - IFl.fin (1 / 2), last + IFl.fin (1 / 2)) else (first, last)

/-- `histogram(x, nbins)` (scicpp/core/histogram.hpp:80-98, 123-127, 238-242). -/
def histogramAutoI (tol : ℚ) (xs : List (IFl f)) (nbins : ℕ) : Res (List ℕ × List (IFl f)) := do
  let e := outerEdgesI tol xs
  let bins := linspace e.1 e.2 (nbins + 1)
  let h ← histogramUI tol bins xs
  pure (h, bins)

/-- The density (scicpp/core/histogram.hpp:214-216), `hist / (static_cast<int>(sum(hist)) * diff(bins))`: the
differences, the products and the quotients are rounded; the counts are converted to the floating point type. -/
def densityF (rnd : ℚ → ℚ) (hist : List ℕ) (bins : List ℚ) : Res (List ℚ) := do
  let w := List.zipWith (fun a b => rnd (b - a)) bins bins.tail
  map2 (fun (h : ℕ) (d : ℚ) => rnd (rnd h / d)) hist
    (w.map fun d => rnd (rnd (toI32 (hist.sum : ℤ) : ℤ) * d))

end SciCpp
