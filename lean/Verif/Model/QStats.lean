import Verif.Model.Stats
import Verif.Model.QTmpl
/-
  Model of the statistics of scicpp/core/stats.hpp on arrays of quantities of one unit type: the types that the templates compute and the
  computations on the values, which differ from those on numbers because a quantity is divided by a number by multiplying with its reciprocal.
  Representation type: a floating point type (real).  Simplifications: the integer arithmetic of the types does not overflow; a conversion of a
  quantity to its own type (in `+` and `-`) leaves the value alone; comparisons of quantities of one type are those of the values.
-/
namespace SciCpp

/-! ### types; `.ub`: the program does not compile -/

/-- The type of `a + b` and `a - b` of two quantities (scicpp/core/units/quantity.hpp:106-128, 306-320). -/
def tyAdd (a b : QTy) : Res QTy := if a.dim ≠ b.dim then .ub else commonQuantity a b

/-- The type of `sum` and of `mean`: `filter_reduce` asserts that `decltype(T + T)` is `T` (scicpp/core/functional.hpp:341-358,
scicpp/core/numeric.hpp:30-52, scicpp/core/stats.hpp:308-318); a quantity divided by a number keeps its type
(scicpp/core/units/quantity.hpp:391-401). -/
def sumTy (t : QTy) : Res QTy := do
  let c ← tyAdd t t
  if c = t then pure t else .ub

/-- The type of `covariance<ddof>` of arrays of `t` and `u` (scicpp/core/stats.hpp:376-452): the products of the block accumulator (415-418) and, in
the other order, of the combination step (440-445), which must have the type of the accumulator. -/
def covTy (t u : QTy) : Res QTy := do
  let t' ← sumTy t
  let u' ← sumTy u
  let dt ← tyAdd t' t'
  let du ← tyAdd u' u'
  let w ← tyMul dt du
  let w1 ← tyAdd w w
  let w2 ← tyMul du dt
  let w3 ← tyAdd w1 w2
  if w3 = w then pure w else .ub

/-- `units::pow<n>` on types, `n ≥ 0` (scicpp/core/units/maths.hpp:125-140): the result has no offset. -/
def tyPow (n : ℕ) (t : QTy) : Res QTy := do
  let d ← rrPow t.dim n
  let s ← rrPow t.scal n
  pure ⟨d, s, 0⟩

/-- The type of `var<ddof>` (scicpp/core/stats.hpp:474-486). -/
def varTy (t : QTy) : Res QTy := covTy t t

/-- The type of `std<ddof>` and of `sem<ddof>` (scicpp/core/stats.hpp:509-554). -/
def stdTy (t : QTy) : Res QTy := do tyRoot 2 (← varTy t)

/-- The type of `moment<n>` (scicpp/core/stats.hpp:572-590): that of the elements for `n = 0` and `n = 1`. -/
def momentTy (n : ℕ) (t : QTy) : Res QTy :=
  if n = 0 then .ok t
  else if n = 1 then .ok t
  else if n = 2 then varTy t
  else do
    let m ← sumTy t
    let d ← tyAdd t m
    let w ← tyPow n d
    sumTy w

/-- The type of `kurtosis<def>` (scicpp/core/stats.hpp:608-619). -/
def kurtosisTy (fisher : Bool) (t : QTy) : Res QTy := do
  let m2 ← momentTy 2 t
  let m4 ← momentTy 4 t
  let m22 ← tyMul m2 m2
  let k ← tyDiv m4 m22
  if fisher then tyAdd k k else pure k

/-- The type of `skew` (scicpp/core/stats.hpp:636-641). -/
def skewTy (t : QTy) : Res QTy := do
  let m2 ← momentTy 2 t
  let m3 ← momentTy 3 t
  let m22 ← tyMul m2 m2
  let m222 ← tyMul m22 m2
  let r ← tyRoot 2 m222
  tyDiv m3 r

/-- The type of the elements of `cov<ddof>` (scicpp/core/stats.hpp:657-668): the variances are converted to the type of the covariance, which needs
the same dimension (scicpp/core/units/quantity.hpp:132-154). -/
def covMatrixTy (t u : QTy) : Res QTy := do
  let w ← covTy t u
  let v1 ← varTy t
  let v2 ← varTy u
  if v1.dim ≠ w.dim then .ub
  else if v2.dim ≠ w.dim then .ub
  else pure w

/-- The type of `ptp` (scicpp/core/stats.hpp:65-73): the two return statements (a quiet NaN of `T` and `*it_max - *it_min`) must have one type. -/
def ptpTy (t : QTy) : Res QTy := sumTy t

/-- The type of `median` (scicpp/core/stats.hpp:96-117): the two return statements `*target` and `(*max_it + *target) / 2` must have one type. -/
def medianTy (t : QTy) : Res QTy := sumTy t

/-- The type of `inner(a, b)` (scicpp/core/numeric.hpp:213-252): the sum of two results of blocks must have the type of a product. -/
def innerTy (t u : QTy) : Res QTy := do
  let w ← tyMul t u
  sumTy w

/-- The type of `average(f, weights)` with weights of the unit type `u` (scicpp/core/stats.hpp:80-87): the two return statements must have one
type. -/
def averageTy (t u : QTy) : Res QTy := do
  let i ← innerTy t u
  let s ← sumTy u
  let r ← tyDiv i s
  if r = t then pure t else .ub

/-! ### values -/

variable {α : Type} [CppNum α]

/-- `quantity / number` on the value: `rhs * (T2{1} / factor)` (scicpp/core/units/quantity.hpp:391-401, 375-378). -/
def divRecip (x k : α) : α := (CppNum.ofInt 1 / k) * x

/-- `mean(first, last, filter)` (scicpp/core/stats.hpp:308-333) of quantities. -/
def meanQ (l : List α) (p : α → Bool) : α :=
  if l.length = 0 then CppNum.qnan
  else
    let r := sumF false l p
    divRecip r.1 (CppNum.ofInt (toI32 r.2))

/-- The block accumulator of the covariance (scicpp/core/stats.hpp:406-425) of quantities. -/
def covBlockQ (p : α → Bool) (b1 b2 : List α) : Res (CovAcc α) := do
  let m1 := meanQ b1 p
  let m2 := meanQ b2 p
  let (res, cnt) ← covLoop p m1 m2 0 0 b1 b2
  pure (m1, m2, res, cnt)

/-- `covariance<ddof>` (scicpp/core/stats.hpp:376-452) of quantities; the combination step divides numbers only. -/
def covarianceQ (ddof : ℤ) (l1 l2 : List α) (p : α → Bool) : Res (α × ℕ) := do
  require (l1.length == l2.length)
  if l1.length = 0 then pure (CppNum.qnan, 0)
  else do
    let (_, _, cov, c) ← pairwiseAcc2 pwBlock (covBlockQ p) covCombine l1 l2
    if (c : ℤ) - ddof ≤ 0 then pure (CppNum.infty, c)
    else pure (divRecip cov (CppNum.ofInt (toI32 c - ddof)), c)

/-- `var<ddof>` (scicpp/core/stats.hpp:474-486) of quantities. -/
def varQ (ddof : ℤ) (l : List α) (p : α → Bool) : Res (α × ℕ) := covarianceQ ddof l l p

/-- `std<ddof>` (scicpp/core/stats.hpp:509-523) of quantities. -/
def stdQ (ddof : ℤ) (sqrt : α → α) (l : List α) (p : α → Bool) : Res α := do
  let r ← varQ ddof l p
  pure (sqrt r.1)

/-- `sem<ddof>` (scicpp/core/stats.hpp:540-554) of quantities. -/
def semQ (ddof : ℤ) (sqrt : α → α) (l : List α) (p : α → Bool) : Res α := do
  let r ← varQ ddof l p
  pure (sqrt (divRecip r.1 (CppNum.ofInt r.2)))

/-- `moment<n>` (scicpp/core/stats.hpp:572-590) of quantities. -/
def momentQ (n : ℕ) (l : List α) (p : α → Bool) : Res α :=
  if n = 0 then .ok (CppNum.ofInt 1)
  else if n = 1 then .ok (CppNum.ofInt 0)
  else if n = 2 then do
    let r ← varQ 0 l p
    pure r.1
  else
    let m := meanQ l p
    .ok (meanQ (l.map (fun x => powSq (x - m) n)) p)

/-- `kurtosis` (scicpp/core/stats.hpp:608-619) of quantities: the quotient of two quantities is a quotient of the values. -/
def kurtosisQ (fisher : Bool) (l : List α) (p : α → Bool) : Res α := do
  let m2 ← momentQ 2 l p
  let m4 ← momentQ 4 l p
  let k := m4 / (m2 * m2)
  if fisher then pure (k - CppNum.ofInt 3) else pure k

/-- `skew` (scicpp/core/stats.hpp:636-641) of quantities. -/
def skewQ (sqrt : α → α) (l : List α) (p : α → Bool) : Res α := do
  let m2 ← momentQ 2 l p
  let m3 ← momentQ 3 l p
  pure (m3 / sqrt (m2 * m2 * m2))

/-! ### the statistics of arrays of quantities -/

/-- `scicpp::mean(a)` of an array of quantities of type `t` with the values `l` (scicpp/core/stats.hpp:308-333). -/
def qMean (t : QTy) (l : List α) (p : α → Bool) : Res (Qty α) := do
  let w ← sumTy t
  pure ⟨w, meanQ l p⟩

/-- `scicpp::covariance<ddof>(a, b)` (scicpp/core/stats.hpp:454-472). -/
def qCovariance (ddof : ℤ) (t u : QTy) (l1 l2 : List α) (p : α → Bool) : Res (Qty α) := do
  let w ← covTy t u
  let r ← covarianceQ ddof l1 l2 p
  pure ⟨w, r.1⟩

/-- `scicpp::var<ddof>(a)` (scicpp/core/stats.hpp:488-501). -/
def qVar (ddof : ℤ) (t : QTy) (l : List α) (p : α → Bool) : Res (Qty α) := do
  let w ← varTy t
  let r ← varQ ddof l p
  pure ⟨w, r.1⟩

/-- `scicpp::std<ddof>(a)` (scicpp/core/stats.hpp:509-523). -/
def qStd (ddof : ℤ) (sqrt : α → α) (t : QTy) (l : List α) (p : α → Bool) : Res (Qty α) := do
  let w ← stdTy t
  let r ← stdQ ddof sqrt l p
  pure ⟨w, r⟩

/-- `scicpp::sem<ddof>(a)` (scicpp/core/stats.hpp:540-559). -/
def qSem (ddof : ℤ) (sqrt : α → α) (t : QTy) (l : List α) (p : α → Bool) : Res (Qty α) := do
  let w ← stdTy t
  let r ← semQ ddof sqrt l p
  pure ⟨w, r⟩

/-- `scicpp::moment<n>(a)` (scicpp/core/stats.hpp:572-600). -/
def qMoment (n : ℕ) (t : QTy) (l : List α) (p : α → Bool) : Res (Qty α) := do
  let w ← momentTy n t
  let r ← momentQ n l p
  pure ⟨w, r⟩

/-- `scicpp::kurtosis<def>(a)` (scicpp/core/stats.hpp:608-629). -/
def qKurtosis (fisher : Bool) (t : QTy) (l : List α) (p : α → Bool) : Res (Qty α) := do
  let w ← kurtosisTy fisher t
  let r ← kurtosisQ fisher l p
  pure ⟨w, r⟩

/-- `scicpp::skew(a)` (scicpp/core/stats.hpp:636-651). -/
def qSkew (sqrt : α → α) (t : QTy) (l : List α) (p : α → Bool) : Res (Qty α) := do
  let w ← skewTy t
  let r ← skewQ sqrt l p
  pure ⟨w, r⟩

/-- `scicpp::ptp(a)` (scicpp/core/stats.hpp:65-73). -/
def qPtp (t : QTy) (lt : α → α → Bool) (l : List α) : Res (Qty α) := do
  let w ← ptpTy t
  pure ⟨w, ptp CppNum.qnan lt l⟩

/-- `scicpp::average(f, weights)` with weights of the unit type `u` (scicpp/core/stats.hpp:80-87): a quotient of two quantities. -/
def qAverage (t u : QTy) (f w : List α) : Res (Qty α) := do
  let r ← averageTy t u
  let v ← average f w
  pure ⟨r, v⟩

/-- `scicpp::average(f, weights)` with numbers as weights (scicpp/core/stats.hpp:80-87): the inner product, of the type of `f`, is divided by a
number. -/
def qAverageN (t : QTy) (f w : List α) : Res (Qty α) := do
  let r ← sumTy t
  if f.isEmpty || f.length != w.length then pure ⟨r, CppNum.qnan⟩
  else do
    let s ← inner f w
    pure ⟨r, divRecip s (sum false w)⟩

end SciCpp
