import Verif.Model.Stats
import Verif.Model.Range
import Mathlib.Analysis.SpecialFunctions.Log.Base
import Mathlib.Analysis.SpecialFunctions.Pow.Real
/-
  Model of `gmean` (scicpp/core/stats.hpp:345-377) and of the automatic bin widths
  (scicpp/core/histogram.hpp:32-121), in exact real arithmetic.
-/
namespace SciCpp

/-- Exact real numbers with signed infinities and NaN (IEEE special value rules, no rounding).
Used for the logarithms of `gmean`, which are `-∞` for a zero sample. -/
inductive XR where
  | nan
  | inf (neg : Bool)
  | fin (r : ℝ)

namespace XR

/-- IEEE addition. -/
noncomputable def add : XR → XR → XR
  | nan, _ => nan
  | _, nan => nan
  | inf a, inf b => if a = b then inf a else nan
  | inf a, fin _ => inf a
  | fin _, inf b => inf b
  | fin a, fin b => fin (a + b)

/-- IEEE negation. -/
noncomputable def neg : XR → XR
  | nan => nan
  | inf b => inf (!b)
  | fin a => fin (-a)

/-- IEEE multiplication. -/
noncomputable def mul : XR → XR → XR
  | nan, _ => nan
  | _, nan => nan
  | inf a, inf b => inf (a != b)
  | inf a, fin q => if q = 0 then nan else inf (a != decide (q < 0))
  | fin q, inf a => if q = 0 then nan else inf (a != decide (q < 0))
  | fin a, fin b => fin (a * b)

/-- IEEE division (zero divisors are positive zeros). -/
noncomputable def div : XR → XR → XR
  | nan, _ => nan
  | _, nan => nan
  | inf _, inf _ => nan
  | inf a, fin q => inf (a != decide (q < 0))
  | fin _, inf _ => fin 0
  | fin a, fin b => if b = 0 then (if a = 0 then nan else inf (decide (a < 0))) else fin (a / b)

noncomputable instance : CppNum XR where
  zero := fin 0
  one := fin 1
  add := add
  sub a b := add a (neg b)
  mul := mul
  div := div
  ofInt n := fin n
  qnan := nan
  infty := inf false
  conj x := x

/-- `std::log`: `-∞` at zero, NaN for negative arguments. -/
noncomputable def log : XR → XR
  | nan => nan
  | inf true => nan
  | inf false => inf false
  | fin x => if x < 0 then nan else if x = 0 then inf true else fin (Real.log x)

/-- `std::exp`. -/
noncomputable def exp : XR → XR
  | nan => nan
  | inf true => fin 0
  | inf false => inf false
  | fin x => fin (Real.exp x)

/-- `std::isnan`. -/
def isNan : XR → Bool
  | nan => true
  | _ => false

end XR

/-- `gmean(Array &&f)` (scicpp/core/stats.hpp:345-359) on floating point elements: result, and the
argument object afterwards.  `log(std::forward<Array>(f))` is the same-type unary `map`
(maths.hpp:83, functional.hpp:33-55). -/
noncomputable def gmean (cat : Cat) (c : Cont) (f : List XR) : XR × List XR :=
  if f.isEmpty then (XR.nan, f)
  else
    let lg := mapUnarySame cat c XR.log f
    (XR.exp (mean lg.1 fun _ => true), lg.2)

/-- `gmean(f, p)` (scicpp/core/stats.hpp:361-364): `filter` works on a copy of a named
array (functional.hpp:208-221), so `gmean` gets a temporary. -/
noncomputable def gmeanF (f : List XR) (p : XR → Bool) : XR :=
  (gmean .rvalue .vec (filterArr f p)).1

/-- `nangmean(f)` (scicpp/core/stats.hpp:366-369) with `filters::not_nan` (scicpp/core/functional.hpp:177). -/
noncomputable def nangmean (f : List XR) : XR := gmeanF f fun x => !x.isNan

/-! ### Automatic bin widths -/

/-- `enum class BinEdgesMethod` (scicpp/core/histogram.hpp:30). -/
inductive BinMethod where
  | scott | sqrt | rice | sturges | fd | doane | auto
deriving DecidableEq, Repr

/-- `std::cbrt` on non-negative numbers. -/
noncomputable def cbrtR (x : ℝ) : ℝ := x ^ (1 / 3 : ℝ)

/-- `ptp(x)` (scicpp/core/stats.hpp:66-74). -/
noncomputable def ptpR (xs : List ℝ) : ℝ := ptp 0 (fun a b => decide (a < b)) xs

/-- `std(x)` (scicpp/core/stats.hpp:521-530): `sqrt(var<0>(x))`. -/
noncomputable def stdR (xs : List ℝ) : Res (Ex ℝ) := do
  let r ← varF 0 (xs.map Ex.fin) (fun _ => true)
  pure (r.1.map Real.sqrt)

/-- `bin_width` for the methods whose width is a multiple of the range
(scicpp/core/histogram.hpp:44, 48, 50). -/
noncomputable def binWidthRange (m : BinMethod) (xs : List ℝ) : ℝ :=
  let n : ℝ := xs.length
  match m with
  | .sqrt => ptpR xs / Real.sqrt n                       -- 44
  | .rice => (1 / 2) * ptpR xs / cbrtR n                 -- 48
  | _ => ptpR xs / (Real.logb 2 n + 1)                   -- 50 (STURGES)

/-- `bin_width<FD>` (scicpp/core/histogram.hpp:51-53). -/
noncomputable def binWidthFD (nth : NthImpl ℝ) (tol : ℝ) (xs : List ℝ) : Res ℝ := do
  let d ← iqr nth 0 tol .linear xs xs 25 75
  pure (2 * d / cbrtR xs.length)

/-- `bin_width<DOANE>` (scicpp/core/histogram.hpp:54-68). -/
noncomputable def binWidthDoane (xs : List ℝ) : Res (Ex ℝ) :=
  if xs.length ≤ 2 then .ok (Ex.fin 0)
  else do
    let n : ℝ := xs.length
    let sg1 := Real.sqrt (6 * (n - 2) / ((n + 1) * (n + 3)))
    let g1 ← skew (Ex.map Real.sqrt) (xs.map Ex.fin) (fun _ => true)
    match g1 with
    | .fin g => pure (Ex.fin (ptpR xs / (1 + Real.logb 2 n + Real.logb 2 (1 + |g| / sg1))))
    | .nan => pure (Ex.fin 0)
    | .inf => pure Ex.nan                                -- not reachable for finite data

/-- `bin_width<method>` (scicpp/core/histogram.hpp:34-78). -/
noncomputable def binWidth (nth : NthImpl ℝ) (tol : ℝ) (m : BinMethod) (xs : List ℝ) :
    Res (Ex ℝ) := do
  require (!xs.isEmpty)
  match m with
  | .sqrt => pure (Ex.fin (binWidthRange .sqrt xs))
  | .rice => pure (Ex.fin (binWidthRange .rice xs))
  | .sturges => pure (Ex.fin (binWidthRange .sturges xs))
  | .scott => do
      let s ← stdR xs
      pure (Ex.fin (cbrtR (24 * Real.sqrt Real.pi / xs.length)) * s)
  | .fd => do
      let w ← binWidthFD nth tol xs
      pure (Ex.fin w)
  | .doane => binWidthDoane xs
  | .auto => do                                           -- 69-77
      let fd ← binWidthFD nth tol xs
      let st := binWidthRange .sturges xs
      if fd = 0 then pure (Ex.fin st) else pure (Ex.fin (min fd st))

/-- `outer_edges` (scicpp/core/histogram.hpp:80-98), finite data, exact. -/
noncomputable def outerEdgesR (tol : ℝ) (xs : List ℝ) : ℝ × ℝ :=
  if xs.isEmpty then (0, 1)
  else
    let first := amin 0 (fun a b => decide (a < b)) xs
    let last := amax 0 (fun a b => decide (a < b)) xs
    if almostEqFin tol first last then (first - 1 / 2, last + 1 / 2) else (first, last)

/-- `histogram_bin_edges<method>(x)` (scicpp/core/histogram.hpp:102-121); `tol` is the tolerance of
`almost_equal` in `outer_edges`, `tolq` the one in `percentile`.  Converting NaN or a value `≤ -1`
to `size_t` is undefined. -/
noncomputable def histogramBinEdgesR (nth : NthImpl ℝ) (tol tolq : ℝ) (m : BinMethod)
    (xs : List ℝ) : Res (List ℝ) :=
  if xs.isEmpty then .ok (linspace 0 1 2)
  else do
    let e := outerEdgesR tol xs
    let w ← binWidth nth tolq m xs
    match w with
    | .fin w =>
      if w = 0 then pure (linspace e.1 e.2 2)
      else if ⌈(e.2 - e.1) / w⌉ < 0 then .ub
      else pure (linspace e.1 e.2 (⌈(e.2 - e.1) / w⌉.toNat + 1))
    | _ => .ub

end SciCpp
