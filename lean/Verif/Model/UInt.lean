import Verif.Model.Stats
import Mathlib.Data.ZMod.Defs
/-
  Reductions and statistics of unsigned integers (scicpp/core/functional.hpp:345-371, scicpp/core/numeric.hpp:29-275, scicpp/core/stats.hpp:66-139, 308-333, 376-493).
  `Fin N` is an unsigned type with `N` values (`unsigned`: 2^32, `std::size_t`: 2^64): sums, differences and products are taken modulo `N` ([basic.fundamental]/2) and
  are always defined, a division by zero is undefined.  The generic models of `sum`, `prod`, `cumsum`, `cumprod`, `diff`, `inner`, `ptp` and `median` are used at this
  type; the functions below are those that divide.  (Types narrower than `int` are promoted and do not compile, functional.hpp:235.)
-/
namespace SciCpp
variable {N : ℕ} [NeZero N]

/-- The conversion of an `int` to the unsigned type (no single line of the library): modulo `N`. -/
def uOf (n : ℤ) : Fin N := Fin.intCast n

/-- Built-in division (no single line of the library). -/
def udiv (a b : Fin N) : Res (Fin N) := if b = 0 then .ub else .ok (a / b)

/-- `mean(f, filter)` of unsigned integers (scicpp/core/stats.hpp:308-333); `quiet_NaN()` is 0. -/
def meanU (l : List (Fin N)) (p : Fin N → Bool) : Res (Fin N) :=
  if l.length = 0 then .ok 0
  else
    let r := sumF true l p
    udiv r.1 (uOf (toI32 r.2))

/-- `average(f, weights)` of unsigned integers (scicpp/core/stats.hpp:80-87). -/
def averageU (f w : List (Fin N)) : Res (Fin N) :=
  if f.length = 0 ∨ f.length ≠ w.length then .ok 0
  else do
    let a ← inner f w
    udiv a (sumF true w fun _ => true).1

/-- `median(f)` of unsigned integers (scicpp/core/stats.hpp:91-139). -/
def medianU (nth : NthImpl (Fin N)) (l : List (Fin N)) : Res (Fin N) := medianInplace nth 0 (fun x => x / uOf 2) l

/-- `ptp(f)` of unsigned integers (scicpp/core/stats.hpp:66-74). -/
def ptpU (l : List (Fin N)) : Fin N := ptp 0 (fun a b => decide (a < b)) l

/-- The loop of the block accumulator of `covariance` (scicpp/core/stats.hpp:410-422). -/
def covLoopU (p : Fin N → Bool) (m1 m2 : Fin N) : Fin N → ℕ → List (Fin N) → List (Fin N) → Res (Fin N × ℕ)
  | res, cnt, [], _ => .ok (res, cnt)
  | _, _, _ :: _, [] => .ub
  | res, cnt, x :: xs, y :: ys =>
    if p x && p y then covLoopU p m1 m2 (res + (x - m1) * (y - m2)) (cnt + 1) xs ys
    else covLoopU p m1 m2 res cnt xs ys

/-- The block accumulator (scicpp/core/stats.hpp:406-425). -/
def covBlockU (p : Fin N → Bool) (b1 b2 : List (Fin N)) : Res (CovAcc (Fin N)) := do
  let m1 ← meanU b1 p
  let m2 ← meanU b2 p
  let r ← covLoopU p m1 m2 0 0 b1 b2
  pure (m1, m2, r.1, r.2)

/-- The combination step (scicpp/core/stats.hpp:426-445). -/
def covCombineU (r1 r2 : CovAcc (Fin N)) : Res (CovAcc (Fin N)) := do
  let (m11, m12, covar1, n1) := r1
  let (m21, m22, covar2, n2) := r2
  let k ← udiv (uOf 1) (uOf (toI32 (n1 + n2 : ℕ)))                    -- 433, 436
  let m1c := k * (uOf (toI32 n1) * m11 + uOf (toI32 n2) * m21)
  let m2c := k * (uOf (toI32 n1) * m12 + uOf (toI32 n2) * m22)
  let q ← udiv (uOf (toI32 n1) * uOf (toI32 n2)) (uOf (toI32 (n1 + n2 : ℕ)))
  pure (m1c, m2c, covar1 + covar2 + q * (m12 - m22) * (m11 - m21), n1 + n2)

/-- `covariance<ddof>(first1, last1, first2, last2, filter)` of unsigned integers (scicpp/core/stats.hpp:376-452); `quiet_NaN()` and `infinity()` are 0. -/
def covarianceU (ddof : ℤ) (l1 l2 : List (Fin N)) (p : Fin N → Bool) : Res (Fin N × ℕ) := do
  require (l1.length == l2.length)
  if l1.length = 0 then pure (0, 0)
  else do
    let r ← pairwiseAcc2 (γ := Res (CovAcc (Fin N))) pwBlock (fun a b => .ok (covBlockU p a b)) (fun a b => do covCombineU (← a) (← b)) l1 l2
    let r ← r
    if (r.2.2.2 : ℤ) - ddof ≤ 0 then pure (0, r.2.2.2)
    else do
      let v ← udiv r.2.2.1 (uOf (toI32 r.2.2.2 - ddof))
      pure (v, r.2.2.2)

/-- `var<ddof>(f, filter)` of unsigned integers (scicpp/core/stats.hpp:475-493). -/
def varU (ddof : ℤ) (l : List (Fin N)) (p : Fin N → Bool) : Res (Fin N × ℕ) := covarianceU ddof l l p

end SciCpp
