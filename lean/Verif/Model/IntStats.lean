import Verif.Model.IntVar
import Mathlib.Analysis.Real.Sqrt
/-
  Weighted averages, moments, skewness and standard error of signed integers (scicpp/core/stats.hpp:80-87, 509-561, 572-600, 632-651).  As in Model/IntVar every
  operation on two integers is an operation of the element type `[lo, hi]`; `std::sqrt` of an integer is the real square root (its rounding is not modelled).
-/
namespace SciCpp
variable (lo hi : ℤ)

/-- `average(f, weights)` of integers (scicpp/core/stats.hpp:80-87); `quiet_NaN()` of an integer type is 0. -/
def averageInt (f w : List ℤ) : Res ℤ :=
  if f.length = 0 ∨ f.length ≠ w.length then .ok 0
  else do
    let a ← innerInt lo hi f w
    let s ← sumInt lo hi w (fun _ => true)
    cdiv lo hi a s.1

/-- `units::pow<n>(a)` of an integer (scicpp/core/units/maths.hpp:126-142). -/
def powInt (n : ℕ) (a : ℤ) : Res ℤ :=
  if _h : n = 0 then .ok 1
  else do
    let p ← powInt (n / 2) a
    let q ← chk lo hi (p * p)
    chk lo hi (q * (if n % 2 = 0 then 1 else a))
termination_by n
decreasing_by omega

/-- `pow<n>(f - m)` element by element (scicpp/core/stats.hpp:585). -/
def devPowInt (n : ℕ) (m : ℤ) : List ℤ → Res (List ℤ)
  | [] => .ok []
  | x :: xs => do
    let d ← chk lo hi (x - m)
    let y ← powInt lo hi n d
    let ys ← devPowInt n m xs
    pure (y :: ys)

/-- `moment<n>(f, filter)` of integers (scicpp/core/stats.hpp:572-590): from the third on, the filter is applied to the powers of the deviations. -/
def momentInt (n : ℕ) (l : List ℤ) (p : ℤ → Bool) : Res ℤ :=
  match n with
  | 0 => .ok 1
  | 1 => .ok 0
  | 2 => do
    let v ← varInt lo hi 0 l p
    pure v.1
  | n + 3 => do
    let m ← meanIntR lo hi l p
    let d ← devPowInt lo hi (n + 3) m l
    meanIntR lo hi d p

/-- The conversion `raw_t(n)` of a count (no single line of the library): modulo the number of values of the type. -/
def wrapInt (n : ℤ) : ℤ := (n - lo) % (hi - lo + 1) + lo

/-- `std<ddof>(a, filter)` of integers (scicpp/core/stats.hpp:509-522). -/
noncomputable def stdInt (ddof : ℤ) (l : List ℤ) (p : ℤ → Bool) : Res ℝ := do
  let v ← varInt lo hi ddof l p
  pure (Real.sqrt v.1)

/-- `sem<ddof>(a, filter)` of integers (scicpp/core/stats.hpp:538-546): the variance is divided by the count in the integer type. -/
noncomputable def semInt (ddof : ℤ) (l : List ℤ) (p : ℤ → Bool) : Res ℝ := do
  let v ← varInt lo hi ddof l p
  let q ← cdiv lo hi v.1 (wrapInt lo hi v.2)
  pure (Real.sqrt q)

/-- `sem<ddof>(a)` of integers (scicpp/core/stats.hpp:548-554). -/
noncomputable def semAllInt (ddof : ℤ) (l : List ℤ) : Res ℝ := do
  let v ← varInt lo hi ddof l (fun _ => true)
  let q ← cdiv lo hi v.1 (wrapInt lo hi l.length)
  pure (Real.sqrt q)

/-- `skew(f, filter)` of integers (scicpp/core/stats.hpp:636-641); `none` is the NaN or the infinity of a division by 0. -/
noncomputable def skewInt (l : List ℤ) (p : ℤ → Bool) : Res (Option ℝ) := do
  let m2 ← momentInt lo hi 2 l p
  let m3 ← momentInt lo hi 3 l p
  let s ← chk lo hi (m2 * m2)
  let s ← chk lo hi (s * m2)
  pure (if s = 0 then none else some (m3 / Real.sqrt s))

end SciCpp
