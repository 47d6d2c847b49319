import Verif.Model.Stats
import Verif.Model.Range
import Verif.Model.Ieee
import Verif.Model.Constants
/-
  Medians and quantiles in floating point (scicpp/core/stats.hpp).  The data are finite numbers of the type,
  given by their values (a NaN in the data makes `std::nth_element` undefined), so that `std::nth_element`
  works on an ordinary linear order; every arithmetic operation is rounded.
-/
namespace SciCpp

/-- `quantile_interp_index` (scicpp/core/stats.hpp:154-168) on floating point: `std::floor`, `std::ceil` and
`std::nearbyint` are exact, the midpoint takes two rounded operations. -/
def qInterpIndexF (rnd : ℚ → ℚ) (m : QInterp) (h : ℚ) : ℚ :=
  match m with
  | .lower => (⌊h⌋ : ℚ)
  | .higher => (⌈h⌉ : ℚ)
  | .nearest => (nearbyint h : ℚ)
  | .midpoint => rnd (1 / 2 * rnd ((⌊h⌋ : ℚ) + (⌈h⌉ : ℚ)))
  | .linear => h

/-- `detail::quantile_inplace` (scicpp/core/stats.hpp:171-203) for floating point data and probability of one
type: `static_cast<T>(size - 1)`, the product, the index, `almost_equal` (tolerance `tol`), the weight and `lerp`
are computed with rounding. -/
def quantileF {rnd : ℚ → ℚ} (nth : NthImpl ℚ) (tol : ℚ) (m : QInterp) (l : List ℚ) (q : ℚ) : Res (RFl rnd) := do
  require (decide (0 ≤ q ∧ q ≤ 1))
  match l with
  | [] => pure RFl.nan
  | [x] => pure (RFl.fin x)
  | _ =>
    let h0 := qInterpIndexF rnd m (rnd (q * rnd ((l.length - 1 : ℕ) : ℚ)))
    if almostEqual tol (RFl.fin (nearbyint h0 : ℚ) : RFl rnd) (RFl.fin h0) then do
      let n0 := min (truncK h0).toNat l.length            -- std::min(first + h0, last)
      let x ← rd (nth.run n0 l) n0
      pure (RFl.fin x)
    else do
      let hLow := truncK h0
      let nHigh := min (hLow.toNat + 1) l.length
      let v := nth.run nHigh l
      match v.take nHigh with
      | [] => .ub
      | x :: xs =>
        let xLow := maxElement (fun a b => decide (a < b)) x xs
        let xHigh ← rd v nHigh
        pure (lerpF (RFl.fin xLow) (RFl.fin xHigh) (RFl.fin (rnd (h0 - rnd (hLow : ℚ)))))

/-- `percentile` (scicpp/core/stats.hpp:244-272): `quantile(p / 100.)`. -/
def percentileF {rnd : ℚ → ℚ} (nth : NthImpl ℚ) (tol : ℚ) (m : QInterp) (l : List ℚ) (p : ℚ) : Res (RFl rnd) :=
  quantileF nth tol m l (rnd (p / 100))

/-- `detail::median_inplace` (scicpp/core/stats.hpp:96-116) in the arithmetic of a format: the two middle
elements are added, and the sum is divided by 2. -/
def medianF (f : Fmt) (nth : NthImpl ℚ) (l : List ℚ) : Res (IFl f) :=
  let size := l.length
  if size = 0 then .ok IFl.nan
  else
    let half := size / 2
    let v := nth.run half l
    if size % 2 ≠ 0 then do
      let t ← rd v half
      pure (IFl.fin t)
    else do
      let t ← rd v half
      match v.take half with
      | [] => .ub
      | x :: xs => pure ((IFl.fin (maxElement (fun a b => decide (a < b)) x xs) + IFl.fin t) / IFl.fin 2)

end SciCpp
