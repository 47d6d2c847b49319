import Verif.Model.IntStats
import Verif.Model.Gmean
import Verif.Model.UInt
/-
  Interpolation, quantiles and automatic bin edges of integers (scicpp/core/maths.hpp:177-199, scicpp/core/stats.hpp:150-302, scicpp/core/histogram.hpp:33-129).
  The elements are signed integers of a type `[lo, hi]` or unsigned ones (`Fin N`), the results are real numbers (`double` in the library; its rounding is not modelled
  here): differences of elements are taken in the element type, the rest in floating point.
-/
namespace SciCpp
section
variable {K : Type} [Field K] [LinearOrder K]

/-- `lerp(a, b, t)` of signed integers (scicpp/core/maths.hpp:177-199): `b - a` is a difference of integers. -/
def lerpInt (lo hi : ℤ) (a b : ℤ) (t : K) : Res K :=
  if (a ≤ 0 ∧ b ≥ 0) ∨ (a ≥ 0 ∧ b ≤ 0) then .ok (t * b + (1 - t) * a)
  else if t = 1 then .ok b
  else do
    let d ← chk lo hi (b - a)
    let x := (a : K) + t * d
    pure (if decide (t > 1) = decide (b > a) then (if (b : K) < x then x else b) else (if x < b then x else b))

/-- `lerp(a, b, t)` of unsigned integers (scicpp/core/maths.hpp:177-199): `b - a` is taken modulo `N`. -/
def lerpU {N : ℕ} [NeZero N] (a b : Fin N) (t : K) : Res K :=
  if (a ≤ 0 ∧ b ≥ 0) ∨ (a ≥ 0 ∧ b ≤ 0) then .ok (t * (b.val : K) + (1 - t) * (a.val : K))
  else if t = 1 then .ok (b.val : K)
  else
    let x := (a.val : K) + t * ((b - a : Fin N).val : K)
    .ok (if decide (t > 1) = decide (b > a) then (if (b.val : K) < x then x else (b.val : K)) else (if x < (b.val : K) then x else (b.val : K)))

variable [FloorRing K]

/-- `detail::quantile_inplace<interpolation>` of integers (scicpp/core/stats.hpp:169-203); `toK` is the conversion `RetTp(x)`, `lrp` is `lerp`. -/
def quantileOf {α : Type} [LE α] [LT α] [DecidableLT α] (lrp : α → α → K → Res K) (toK : α → K) (nth : NthImpl α) (qnan tol : K) (m : QInterp) (l : List α) (q : K) :
    Res K := do
  require (decide (0 ≤ q ∧ q ≤ 1))
  match l with
  | [] => pure qnan
  | [x] => pure (toK x)
  | _ =>
    let h0 := qInterpIndex m (q * ((l.length - 1 : ℕ) : K))
    if almostEqFin tol (nearbyint h0 : K) h0 then do
      let n0 := min (truncK h0).toNat l.length
      let x ← rd (nth.run n0 l) n0
      pure (toK x)
    else do
      let hLow := truncK h0
      let nHigh := min (hLow.toNat + 1) l.length
      let v := nth.run nHigh l
      match v.take nHigh with
      | [] => .ub
      | x :: xs =>
        let xLow := maxElement (fun a b => decide (a < b)) x xs
        let xHigh ← rd v nHigh
        lrp xLow xHigh (h0 - (⌊(hLow : K)⌋ : K))

/-- `quantile(f, q)` of signed integers (scicpp/core/stats.hpp:206-241). -/
def quantileInt (lo hi : ℤ) (nth : NthImpl ℤ) (qnan tol : K) (m : QInterp) (l : List ℤ) (q : K) : Res K :=
  quantileOf (lerpInt lo hi) (fun x => (x : K)) nth qnan tol m l q

/-- `quantile(f, q)` of unsigned integers (scicpp/core/stats.hpp:206-241). -/
def quantileU {N : ℕ} [NeZero N] (nth : NthImpl (Fin N)) (qnan tol : K) (m : QInterp) (l : List (Fin N)) (q : K) : Res K :=
  quantileOf lerpU (fun x => (x.val : K)) nth qnan tol m l q

/-- `iqr(f, rng0, rng1)` of signed integers (scicpp/core/stats.hpp:243-286): a difference of two `double`; `l2` as in `iqr`. -/
def iqrInt (lo hi : ℤ) (nth : NthImpl ℤ) (qnan tol : K) (m : QInterp) (l l2 : List ℤ) (r0 r1 : K) : Res K := do
  let p0 ← quantileInt lo hi nth qnan tol m l (r0 / 100)
  let p1 ← quantileInt lo hi nth qnan tol m l2 (r1 / 100)
  pure (p1 - p0)

end

variable (lo hi : ℤ)

/-- `ptp(f)` of signed integers (scicpp/core/stats.hpp:66-74). -/
def ptpInt : List ℤ → Res ℤ
  | [] => .ok 0
  | x :: xs => chk lo hi (maxElementLast (fun a b => decide (a < b)) x xs - minElement (fun a b => decide (a < b)) x xs)

/-- `bin_width<DOANE>` of integers (scicpp/core/histogram.hpp:54-68).  When the skewness is not a number the width is 0 (64-66); when it is infinite the denominator is. -/
noncomputable def binWidthDoaneInt (xs : List ℤ) : Res ℝ :=
  if xs.length ≤ 2 then .ok 0
  else do
    let n : ℝ := xs.length
    let sg1 := Real.sqrt (6 * (n - 2) / ((n + 1) * (n + 3)))
    let g1 ← skewInt lo hi xs (fun _ => true)
    match g1 with
    | some g => do
      let p ← ptpInt lo hi xs
      pure (p / (1 + Real.logb 2 n + Real.logb 2 (1 + |g| / sg1)))
    | none => do
      let m3 ← momentInt lo hi 3 xs (fun _ => true)
      if m3 = 0 then pure 0
      else do
        let _ ← ptpInt lo hi xs
        pure 0

/-- `bin_width<method>` of integers (scicpp/core/histogram.hpp:33-78). -/
noncomputable def binWidthInt (nth : NthImpl ℤ) (tol : ℝ) (m : BinMethod) (xs : List ℤ) : Res ℝ := do
  require (!xs.isEmpty)
  let n : ℝ := xs.length
  match m with
  | .sqrt => do
    let p ← ptpInt lo hi xs
    pure (p / Real.sqrt n)
  | .rice => do
    let p ← ptpInt lo hi xs
    pure ((1 / 2) * p / cbrtR n)
  | .sturges => do
    let p ← ptpInt lo hi xs
    pure (p / (Real.logb 2 n + 1))
  | .scott => do
    let s ← stdInt lo hi 0 xs (fun _ => true)
    pure (cbrtR (24 * Real.sqrt Real.pi / n) * s)
  | .fd => do
    let d ← iqrInt lo hi nth 0 tol .linear xs xs 25 75
    pure (2 * d / cbrtR n)
  | .doane => binWidthDoaneInt lo hi xs
  | .auto => do                                                       -- 69-77
    let d ← iqrInt lo hi nth 0 tol .linear xs xs 25 75
    let fd := 2 * d / cbrtR n
    let p ← ptpInt lo hi xs
    let st := p / (Real.logb 2 n + 1)
    if fd = 0 then pure st else pure (min fd st)

/-- `outer_edges` of integers (scicpp/core/histogram.hpp:80-98). -/
noncomputable def outerEdgesInt (tol : ℝ) (xs : List ℤ) : ℝ × ℝ :=
  if xs.isEmpty then (0, 1)
  else
    let first : ℝ := ((amin 0 (fun a b : ℤ => decide (a < b)) xs : ℤ) : ℝ)
    let last : ℝ := ((amax 0 (fun a b : ℤ => decide (a < b)) xs : ℤ) : ℝ)
    if almostEqFin tol first last then (first - 1 / 2, last + 1 / 2) else (first, last)

/-- `histogram_bin_edges<method>(x)` of integers (scicpp/core/histogram.hpp:102-121); `tol` and `tolq` as in `histogramBinEdgesR`. -/
noncomputable def histogramBinEdgesInt (nth : NthImpl ℤ) (tol tolq : ℝ) (m : BinMethod) (xs : List ℤ) : Res (List ℝ) :=
  if xs.isEmpty then .ok (linspace 0 1 2)
  else do
    let e := outerEdgesInt tol xs
    let w ← binWidthInt lo hi nth tolq m xs
    if w = 0 then pure (linspace e.1 e.2 2)
    else if ⌈(e.2 - e.1) / w⌉ < 0 then .ub
    else pure (linspace e.1 e.2 (⌈(e.2 - e.1) / w⌉.toNat + 1))

end SciCpp
