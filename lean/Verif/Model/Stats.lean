import Verif.Model.Numeric
import Verif.Model.Ex
import Verif.Model.Loop
import Verif.Model.Pow
import Mathlib.Algebra.Order.Floor.Ring
import Mathlib.Data.Int.Init
/-
  Model of scicpp/core/stats.hpp (and the parts of equal.hpp / maths.hpp it uses).
-/
namespace SciCpp

universe u
variable {α : Type u}

/-! ### amax, amin, ptp -/

/-- `*std::max_element(first, last)` on a non-empty range ([alg.min.max]): keep the current best,
replace it when `best < x`. -/
def maxElement (lt : α → α → Bool) (best : α) : List α → α
  | [] => best
  | x :: xs => maxElement lt (if lt best x then x else best) xs

/-- `*std::min_element(first, last)`: replace the best when `x < best`. -/
def minElement (lt : α → α → Bool) (best : α) : List α → α
  | [] => best
  | x :: xs => minElement lt (if lt x best then x else best) xs

/-- Value of the second iterator of `std::minmax_element` ([alg.min.max]: the *last* largest):
replace the best when `!(x < best)`. -/
def maxElementLast (lt : α → α → Bool) (best : α) : List α → α
  | [] => best
  | x :: xs => maxElementLast lt (if lt x best then best else x) xs

/-- `amax` (scicpp/core/stats.hpp:40-47); `qnan` is `numeric_limits<T>::quiet_NaN()` (which is `0`
for integral types). -/
def amax (qnan : α) (lt : α → α → Bool) : List α → α
  | [] => qnan
  | x :: xs => maxElement lt x xs

/-- `amin` (scicpp/core/stats.hpp:53-60). -/
def amin (qnan : α) (lt : α → α → Bool) : List α → α
  | [] => qnan
  | x :: xs => minElement lt x xs

/-- `ptp` (scicpp/core/stats.hpp:66-74). -/
def ptp [Sub α] (qnan : α) (lt : α → α → Bool) : List α → α
  | [] => qnan
  | x :: xs => maxElementLast lt x xs - minElement lt x xs

/-! ### mean, average -/

/-- `static_cast<int>(n)`: 32-bit two's complement (stats.hpp:317, 433-450). -/
def toI32 (n : ℤ) : ℤ := Int.bmod n (2 ^ 32)

/-- `mean(first, last, filter)` (scicpp/core/stats.hpp:308-333) for a floating point element
type. -/
def mean [CppNum α] (l : List α) (p : α → Bool) : α :=
  if l.length = 0 then CppNum.qnan
  else
    let r := sumF false l p
    r.1 / CppNum.ofInt (toI32 r.2)

/-- `mean` for `T = int` (scicpp/core/stats.hpp:308-318): C++ integer division truncates;
`numeric_limits<int>::quiet_NaN()` is `0`; division by a zero count is UB. -/
def meanInt (l : List ℤ) (p : ℤ → Bool) : Res ℤ :=
  if l.length = 0 then .ok 0
  else
    let r := sumF true l p
    if toI32 r.2 = 0 then .ub else .ok (Int.tdiv r.1 (toI32 r.2))

/-- `average` (scicpp/core/stats.hpp:80-87); `inner` and `sum` are the pairwise ones. -/
def average [CppNum α] (f w : List α) : Res α :=
  if f.isEmpty || f.length != w.length then .ok CppNum.qnan
  else do
    let s ← inner f w
    pure (s / sum false w)

/-! ### median -/

/-- `std::nth_element(first, first + n, last)` ([alg.nth.element]) as a relation: the range is
permuted so that position `n` holds what a full sort would put there, nothing before it is larger
and nothing after it is smaller; `n` = end leaves the range unspecified only as a permutation. -/
structure NthElement [LE α] (n : ℕ) (l l' : List α) : Prop where
  perm : l'.Perm l
  before : ∀ i, (hi : i < n) → (hn : n < l'.length) → l'[i] ≤ l'[n]
  after : ∀ i, (hi : i < l'.length) → (hn : n < i) → l'[n] ≤ l'[i]

/-- An implementation of `std::nth_element`. -/
structure NthImpl (α : Type u) [LE α] where
  run : ℕ → List α → List α
  correct : ∀ n l, NthElement n l (run n l)

/-- `detail::median_inplace` (scicpp/core/stats.hpp:96-116).  `div2` is `/ raw_t{2}` on the element
type. -/
def medianInplace [LE α] [Add α] [LT α] [DecidableLT α] (nth : NthImpl α) (qnan : α) (div2 : α → α)
    (l : List α) : Res α :=
  let size := l.length
  if size = 0 then .ok qnan
  else
    let half := size / 2
    let v := nth.run half l
    if size % 2 ≠ 0 then rd v half
    else do
      let t ← rd v half
      match v.take half with
      | [] => .ub
      | x :: xs => pure (div2 (maxElement (fun a b => decide (a < b)) x xs + t))

/-- `median(first, last, p)` and `median(f, p)` (scicpp/core/stats.hpp:120-129): filter a copy. -/
def medianFilter [LE α] [Add α] [LT α] [DecidableLT α] (nth : NthImpl α) (qnan : α)
    (div2 : α → α) (l : List α) (p : α → Bool) : Res α :=
  medianInplace nth qnan div2 (filterArr l p)

/-- `median(Array &&f)` (scicpp/core/stats.hpp:131-139): result and the argument afterwards (an
rvalue is partially sorted in place, an lvalue is copied first). -/
def median [LE α] [Add α] [LT α] [DecidableLT α] (nth : NthImpl α) (qnan : α) (div2 : α → α)
    (cat : Cat) (l : List α) : Res α × List α :=
  match cat with
  | .rvalue => (medianInplace nth qnan div2 l, nth.run (l.length / 2) l)
  | _ => (medianInplace nth qnan div2 l, l)

/-! ### almost_equal on finite values, lerp -/

/-- `fp_equal_predicate` (scicpp/core/equal.hpp:29-51) restricted to finite arguments; `tol` is
`rel_tol * eps / 2` (line 34). -/
def almostEqFin {K : Type u} [Field K] [LinearOrder K] (tol a b : K) : Bool :=
  if a = 0 ∨ b = 0 ∨ max |a| |b| < tol then decide (|a - b| ≤ tol)
  else decide (|a - b| ≤ tol * max |a| |b|)

/-- `lerp(a, b, t)` (scicpp/core/maths.hpp:177-199). -/
def lerp {K : Type u} [Field K] [LinearOrder K] (a b t : K) : K :=
  if (a ≤ 0 ∧ b ≥ 0) ∨ (a ≥ 0 ∧ b ≤ 0) then t * b + (1 - t) * a
  else if t = 1 then b
  else
    let x := a + t * (b - a)
    if decide (t > 1) = decide (b > a) then (if b < x then x else b)
    else (if x < b then x else b)

/-! ### quantile -/

/-- `enum class QuantileInterp` (scicpp/core/stats.hpp:150). -/
inductive QInterp where
  | lower | higher | nearest | midpoint | linear
deriving DecidableEq, Repr

variable {K : Type u} [Field K] [LinearOrder K] [FloorRing K]

/-- `std::nearbyint` in the default rounding mode (to nearest, ties to even). -/
def nearbyint (h : K) : ℤ :=
  let f := ⌊h⌋
  if h - f < 1 / 2 then f
  else if 1 / 2 < h - f then f + 1
  else if f % 2 = 0 then f else f + 1

/-- `quantile_interp_index` (scicpp/core/stats.hpp:154-168). -/
def qInterpIndex (m : QInterp) (h : K) : K :=
  match m with
  | .lower => (⌊h⌋ : K)
  | .higher => (⌈h⌉ : K)
  | .nearest => (nearbyint h : K)
  | .midpoint => 1 / 2 * ((⌊h⌋ : K) + (⌈h⌉ : K))
  | .linear => h

/-- C++ float-to-integer conversion: truncation toward zero. -/
def truncK (h : K) : ℤ := if 0 ≤ h then ⌊h⌋ else ⌈h⌉

/-- `detail::quantile_inplace` (scicpp/core/stats.hpp:171-203); `tol` is the tolerance of
`almost_equal` (`eps/2`), `qnan` the NaN of the element type. -/
def quantileInplace (nth : NthImpl K) (qnan : K) (tol : K) (m : QInterp) (l : List K) (q : K) :
    Res K := do
  require (decide (0 ≤ q ∧ q ≤ 1))
  match l with
  | [] => pure qnan
  | [x] => pure x
  | _ =>
    let h0 := qInterpIndex m (q * ((l.length - 1 : ℕ) : K))
    if almostEqFin tol (nearbyint h0 : K) h0 then
      let n0 := min (truncK h0).toNat l.length            -- std::min(first + h0, last)
      rd (nth.run n0 l) n0
    else do
      let hLow := truncK h0
      let nHigh := min (hLow.toNat + 1) l.length
      let v := nth.run nHigh l
      match v.take nHigh with
      | [] => .ub
      | x :: xs =>
        let xLow := maxElement (fun a b => decide (a < b)) x xs
        let xHigh ← rd v nHigh
        pure (lerp xLow xHigh (h0 - (⌊(hLow : K)⌋ : K)))

/-- `percentile` (scicpp/core/stats.hpp:244-272): `quantile(p / 100)`. -/
def percentile (nth : NthImpl K) (qnan : K) (tol : K) (m : QInterp) (l : List K) (p : K) : Res K :=
  quantileInplace nth qnan tol m l (p / 100)

/-- `iqr` (scicpp/core/stats.hpp:274-286). For an rvalue the second `percentile` works on the array
as rearranged by the first; `l2` is that array. -/
def iqr (nth : NthImpl K) (qnan : K) (tol : K) (m : QInterp) (l l2 : List K) (r0 r1 : K) :
    Res K := do
  let p0 ← percentile nth qnan tol m l r0
  let p1 ← percentile nth qnan tol m l2 r1
  pure (p1 - p0)

/-! ### covariance, var -/

section
variable [CppNum α]

/-- State of the covariance accumulation: `(m1, m2, res, cnt)`. -/
abbrev CovAcc (α : Type u) := α × α × α × ℕ

/-- The loop of the block accumulator (scicpp/core/stats.hpp:410-422).  The conjugate is
`std::conj` for complex types and the identity otherwise. -/
def covLoop (p : α → Bool) (m1 m2 : α) (res : α) (cnt : ℕ) : List α → List α → Res (α × ℕ)
  | [], _ => .ok (res, cnt)
  | _ :: _, [] => .ub
  | x :: xs, y :: ys =>
      if p x && p y then
        covLoop p m1 m2 (res + (x - m1) * CppNum.conj (y - m2)) (cnt + 1) xs ys
      else covLoop p m1 m2 res cnt xs ys

/-- The block accumulator (scicpp/core/stats.hpp:406-425). -/
def covBlock (p : α → Bool) (b1 b2 : List α) : Res (CovAcc α) := do
  let m1 := mean b1 p
  let m2 := mean b2 p
  let (res, cnt) ← covLoop p m1 m2 0 0 b1 b2
  pure (m1, m2, res, cnt)

/-- The combination step (scicpp/core/stats.hpp:426-445). -/
def covCombine (r1 r2 : CovAcc α) : CovAcc α :=
  let (m11, m12, covar1, n1) := r1
  let (m21, m22, covar2, n2) := r2
  let nc := n1 + n2
  let I : ℕ → α := fun n => CppNum.ofInt (toI32 n)
  let m1c := (CppNum.ofInt 1 / I nc) * (I n1 * m11 + I n2 * m21)
  let m2c := (CppNum.ofInt 1 / I nc) * (I n1 * m12 + I n2 * m22)
  let covc := covar1 + covar2 + (I n1 * I n2 / I nc) * CppNum.conj (m12 - m22) * (m11 - m21)
  (m1c, m2c, covc, nc)

/-- `covariance<ddof>(first1, last1, first2, last2, filter)` (scicpp/core/stats.hpp:376-452). -/
def covarianceF (ddof : ℤ) (l1 l2 : List α) (p : α → Bool) : Res (α × ℕ) := do
  require (l1.length == l2.length)
  if l1.length = 0 then pure (CppNum.qnan, 0)
  else do
    let (_, _, cov, c) ← pairwiseAcc2 pwBlock (covBlock p) covCombine l1 l2
    if (c : ℤ) - ddof ≤ 0 then pure (CppNum.infty, c)
    else pure (cov / CppNum.ofInt (toI32 c - ddof), c)

/-- `var<ddof>(first, last, filter)` (scicpp/core/stats.hpp:475-486); for complex types the caller
takes the real part. -/
def varF (ddof : ℤ) (l : List α) (p : α → Bool) : Res (α × ℕ) := covarianceF ddof l l p

/-! ### moments -/

/-- `moment<n>(f, filter)` (scicpp/core/stats.hpp:572-590): the powers are `units::pow<n>`
(maths.hpp:164-167).  For complex types `var` returns the real part; here element types are real. -/
def moment (n : ℕ) (l : List α) (p : α → Bool) : Res α :=
  if n = 0 then .ok (CppNum.ofInt 1)
  else if n = 1 then .ok (CppNum.ofInt 0)
  else if n = 2 then do
    let r ← varF 0 l p
    pure r.1
  else
    let m := mean l p
    .ok (mean (l.map (fun x => powSq (x - m) n)) p)

/-- `kurtosis` (scicpp/core/stats.hpp:608-619); `fisher` selects the definition. -/
def kurtosis (fisher : Bool) (l : List α) (p : α → Bool) : Res α := do
  let m2 ← moment 2 l p
  let m4 ← moment 4 l p
  let k := m4 / (m2 * m2)
  if fisher then pure (k - CppNum.ofInt 3) else pure k

/-- `skew` (scicpp/core/stats.hpp:636-641); `sqrt` is `units::sqrt`. -/
def skew (sqrt : α → α) (l : List α) (p : α → Bool) : Res α := do
  let m2 ← moment 2 l p
  let m3 ← moment 3 l p
  pure (m3 / sqrt (m2 * m2 * m2))

/-- `sem` (scicpp/core/stats.hpp:540-554): `sqrt(var / n)`; the filtered overload divides by the
number of accepted elements, the unfiltered one by `a.size()` (equal to it). -/
def sem (ddof : ℤ) (sqrt : α → α) (l : List α) (p : α → Bool) : Res α := do
  let r ← varF ddof l p
  pure (sqrt (r.1 / CppNum.ofInt r.2))

/-- `cov` (scicpp/core/stats.hpp:657-668): the 2x2 matrix as `((a, b), (c, d))`; `re` is
`T(std::real(·))`, the identity for real types. -/
def covMatrix (ddof : ℤ) (re : α → α) (l1 l2 : List α) (p : α → Bool) :
    Res ((α × α) × (α × α)) := do
  let c ← covarianceF ddof l1 l2 p
  let v1 ← varF ddof l1 p
  let v2 ← varF ddof l2 p
  pure ((re v1.1, c.1), (CppNum.conj c.1, re v2.1))

end

end SciCpp
