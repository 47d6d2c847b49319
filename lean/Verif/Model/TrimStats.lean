import Verif.Model.Stats
/-
  The NaN-ignoring and trimmed variants of the statistics (scicpp/core/stats.hpp).
-/
namespace SciCpp

universe u
variable {K : Type u}

/-- `filters::not_nan` (scicpp/core/functional.hpp:170-177). -/
def notNan (x : Ex K) : Bool := !x.isNan

/-- `filters::Trim<T>(limits, inclusive)` (scicpp/core/functional.hpp:188-201) with finite limits: a
comparison with NaN is false, an infinity fails one of the two comparisons. -/
def trimEx [LT K] [LE K] [DecidableRel (α := K) (· < ·)] [DecidableRel (α := K) (· ≤ ·)]
    (lo hi : K) (il ih : Bool) : Ex K → Bool
  | .fin x => trimFilter lo hi il ih x
  | .inf => false
  | .nan => false

section
variable [Field K] [StarRing K] [DecidableEq K]

/-- `nanmean` (scicpp/core/stats.hpp:330-333). -/
def nanmean (l : List (Ex K)) : Ex K := mean l notNan

/-- `var<ddof>(f, filter)` (scicpp/core/stats.hpp:488-491). -/
def varP (ddof : ℤ) (l : List (Ex K)) (p : Ex K → Bool) : Res (Ex K) := do
  let r ← varF ddof l p
  pure r.1

/-- `nanvar` (scicpp/core/stats.hpp:498-501). -/
def nanvar (ddof : ℤ) (l : List (Ex K)) : Res (Ex K) := varP ddof l notNan

/-- `std<ddof>(a, filter)` (scicpp/core/stats.hpp:514-517); `sqrt` is `units::sqrt`. -/
def stdP (sqrt : Ex K → Ex K) (ddof : ℤ) (l : List (Ex K)) (p : Ex K → Bool) : Res (Ex K) := do
  let v ← varP ddof l p
  pure (sqrt v)

/-- `std<ddof>(a)` (scicpp/core/stats.hpp:519-522). -/
def stdA (sqrt : Ex K → Ex K) (ddof : ℤ) (l : List (Ex K)) : Res (Ex K) :=
  stdP sqrt ddof l (fun _ => true)

/-- `nanstd` (scicpp/core/stats.hpp:524-527). -/
def nanstd (sqrt : Ex K → Ex K) (ddof : ℤ) (l : List (Ex K)) : Res (Ex K) := do
  let v ← nanvar ddof l
  pure (sqrt v)

/-- `nansem` (scicpp/core/stats.hpp:556-559). -/
def nansem (sqrt : Ex K → Ex K) (ddof : ℤ) (l : List (Ex K)) : Res (Ex K) := sem ddof sqrt l notNan

variable [LT K] [LE K] [DecidableRel (α := K) (· < ·)] [DecidableRel (α := K) (· ≤ ·)]

/-- `tmean` (scicpp/core/stats.hpp:335-340). -/
def tmean (l : List (Ex K)) (lo hi : K) (il ih : Bool) : Ex K := mean l (trimEx lo hi il ih)

/-- `tvar` (scicpp/core/stats.hpp:503-508). -/
def tvar (ddof : ℤ) (l : List (Ex K)) (lo hi : K) (il ih : Bool) : Res (Ex K) :=
  varP ddof l (trimEx lo hi il ih)

/-- `tstd` (scicpp/core/stats.hpp:529-534). -/
def tstd (sqrt : Ex K → Ex K) (ddof : ℤ) (l : List (Ex K)) (lo hi : K) (il ih : Bool) :
    Res (Ex K) := do
  let v ← tvar ddof l lo hi il ih
  pure (sqrt v)

/-- `tsem` (scicpp/core/stats.hpp:561-566). -/
def tsem (sqrt : Ex K → Ex K) (ddof : ℤ) (l : List (Ex K)) (lo hi : K) (il ih : Bool) : Res (Ex K) :=
  sem ddof sqrt l (trimEx lo hi il ih)

end

section
variable [Field K] [LinearOrder K] [FloorRing K]

/-- The order statistics of a range are computed on its values; an array with infinite elements is not
modelled (they are dropped here). -/
def exVals (l : List (Ex K)) : List K :=
  l.filterMap fun
    | .fin x => some x
    | _ => none

/-- `quantile(first, last, q, p)` and `quantile(f, q, filter)` (scicpp/core/stats.hpp:207-223): the
predicate filters a copy of the range. -/
def quantileP (nth : NthImpl K) (qnan tol : K) (m : QInterp) (l : List (Ex K)) (q : K)
    (p : Ex K → Bool) : Res K := quantileInplace nth qnan tol m (exVals (filterArr l p)) q

/-- `nanquantile` (scicpp/core/stats.hpp:238-243). -/
def nanquantile (nth : NthImpl K) (qnan tol : K) (m : QInterp) (l : List (Ex K)) (q : K) : Res K :=
  quantileP nth qnan tol m l q notNan

/-- `percentile(f, p, filter)` (scicpp/core/stats.hpp:245-259). -/
def percentileP (nth : NthImpl K) (qnan tol : K) (m : QInterp) (l : List (Ex K)) (p : K)
    (f : Ex K → Bool) : Res K := quantileP nth qnan tol m l (p / 100) f

/-- `nanpercentile` (scicpp/core/stats.hpp:268-273). -/
def nanpercentile (nth : NthImpl K) (qnan tol : K) (m : QInterp) (l : List (Ex K)) (p : K) : Res K :=
  nanquantile nth qnan tol m l (p / 100)

/-- `naniqr` (scicpp/core/stats.hpp:289-303). -/
def naniqr (nth : NthImpl K) (qnan tol : K) (m : QInterp) (l : List (Ex K)) (r0 r1 : K) : Res K := do
  let p0 ← nanpercentile nth qnan tol m l r0
  let p1 ← nanpercentile nth qnan tol m l r1
  pure (p1 - p0)

/-- `nanmedian` (scicpp/core/stats.hpp:141-144). -/
def nanmedian (nth : NthImpl K) (qnan : K) (l : List (Ex K)) : Res K :=
  medianInplace nth qnan (fun x => x / 2) (exVals (filterArr l notNan))

end
end SciCpp
