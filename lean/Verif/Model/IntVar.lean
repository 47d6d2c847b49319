import Verif.Model.IntRed
/-
  Covariance, variance, moments and kurtosis of signed integers (scicpp/core/stats.hpp:376-486, 572-641): every operation is an operation on the element type, so the
  divisions truncate and the products overflow.  `[lo, hi]` is the range of the type; an operation whose result is not representable, and a division by zero, are
  undefined (`ub`).
-/
namespace SciCpp
variable (lo hi : ℤ)

/-- Built-in integer division (no single line of the library): truncates; undefined for a zero divisor and when the quotient is not representable. -/
def cdiv (a b : ℤ) : Res ℤ := if b = 0 then .ub else chk lo hi (a.tdiv b)

/-- The loop of the block accumulator (scicpp/core/stats.hpp:410-422). -/
def covLoopInt (p : ℤ → Bool) (m1 m2 : ℤ) : ℤ → ℕ → List ℤ → List ℤ → Res (ℤ × ℕ)
  | res, cnt, [], _ => .ok (res, cnt)
  | _, _, _ :: _, [] => .ub
  | res, cnt, x :: xs, y :: ys =>
    if p x && p y then do
      let dx ← chk lo hi (x - m1)                                     -- 417
      let dy ← chk lo hi (y - m2)
      let d ← chk lo hi (dx * dy)
      let res ← chk lo hi (res + d)
      covLoopInt p m1 m2 res (cnt + 1) xs ys
    else covLoopInt p m1 m2 res cnt xs ys

/-- The block accumulator (scicpp/core/stats.hpp:406-425): means, sum of products, count. -/
def covBlockInt (p : ℤ → Bool) (b1 b2 : List ℤ) : Res (CovAcc ℤ) := do
  let m1 ← meanIntR lo hi b1 p
  let m2 ← meanIntR lo hi b2 p
  let r ← covLoopInt lo hi p m1 m2 0 0 b1 b2
  pure (m1, m2, r.1, r.2)

/-- The mean of two blocks (scicpp/core/stats.hpp:433-438): `raw_t{1} / raw_t(int(n_c))` is an integer division. -/
def meanCombineInt (n1 n2 : ℕ) (m1 m2 : ℤ) : Res ℤ := do
  let k ← cdiv lo hi 1 (toI32 (n1 + n2 : ℕ))
  let a ← chk lo hi (toI32 n1 * m1)
  let b ← chk lo hi (toI32 n2 * m2)
  let s ← chk lo hi (a + b)
  chk lo hi (k * s)

/-- The combination step (scicpp/core/stats.hpp:426-445). -/
def covCombineInt (r1 r2 : CovAcc ℤ) : Res (CovAcc ℤ) := do
  let (m11, m12, covar1, n1) := r1
  let (m21, m22, covar2, n2) := r2
  let m1c ← meanCombineInt lo hi n1 n2 m11 m21                        -- 433-435
  let m2c ← meanCombineInt lo hi n1 n2 m12 m22                        -- 436-438
  let c ← chk lo hi (covar1 + covar2)                                 -- 440
  let nn ← chk lo hi (toI32 n1 * toI32 n2)                            -- 441
  let q ← cdiv lo hi nn (toI32 (n1 + n2 : ℕ))                         -- 442
  let d2 ← chk lo hi (m12 - m22)                                      -- 443
  let e ← chk lo hi (q * d2)
  let d1 ← chk lo hi (m11 - m21)
  let f ← chk lo hi (e * d1)
  let covc ← chk lo hi (c + f)
  pure (m1c, m2c, covc, n1 + n2)

/-- `pairwise_accumulate<64>` with the two functions above (scicpp/core/functional.hpp:304-334, scicpp/core/stats.hpp:401-445). -/
def covAccInt (p : ℤ → Bool) (l1 l2 : List ℤ) : Res (CovAcc ℤ) := do
  let r ← pairwiseAcc2 (γ := Res (CovAcc ℤ)) pwBlock (fun a b => .ok (covBlockInt lo hi p a b)) (fun a b => do covCombineInt lo hi (← a) (← b)) l1 l2
  r

/-- `covariance<ddof>(first1, last1, first2, last2, filter)` of integers (scicpp/core/stats.hpp:376-452); `quiet_NaN()` and `infinity()` of an integer type are 0. -/
def covarianceInt (ddof : ℤ) (l1 l2 : List ℤ) (p : ℤ → Bool) : Res (ℤ × ℕ) := do
  require (l1.length == l2.length)
  if l1.length = 0 then pure (0, 0)
  else do
    let r ← covAccInt lo hi p l1 l2
    if (r.2.2.2 : ℤ) - ddof ≤ 0 then pure (0, r.2.2.2)
    else do
      let v ← cdiv lo hi r.2.2.1 (toI32 r.2.2.2 - ddof)
      pure (v, r.2.2.2)

/-- `var<ddof>(f, filter)` of integers (scicpp/core/stats.hpp:475-493). -/
def varInt (ddof : ℤ) (l : List ℤ) (p : ℤ → Bool) : Res (ℤ × ℕ) := covarianceInt lo hi ddof l l p

/-- `units::pow<4>(a)` of an integer (scicpp/core/units/maths.hpp:134-139): `pow<1>` is `1 * 1 * a`, `pow<2>` is `a * a * 1`. -/
def pow4Int (a : ℤ) : Res ℤ := do
  let b ← chk lo hi (a * a)
  chk lo hi (b * b)

/-- `pow<4>(f - mean(f))` element by element (scicpp/core/stats.hpp:585). -/
def dev4Int (m : ℤ) : List ℤ → Res (List ℤ)
  | [] => .ok []
  | x :: xs => do
    let d ← chk lo hi (x - m)
    let y ← pow4Int lo hi d
    let ys ← dev4Int m xs
    pure (y :: ys)

/-- `moment<4>(f, filters::all)` of integers (scicpp/core/stats.hpp:582-589). -/
def moment4Int (l : List ℤ) : Res ℤ := do
  let m ← meanIntR lo hi l (fun _ => true)
  let d ← dev4Int lo hi m l
  meanIntR lo hi d (fun _ => true)

/-- `kurtosis<def>(f)` of integers (scicpp/core/stats.hpp:608-625). -/
def kurtosisInt (fisher : Bool) (l : List ℤ) : Res ℤ := do
  let m2 ← varInt lo hi 0 l (fun _ => true)
  let m4 ← moment4Int lo hi l
  let s ← chk lo hi (m2.1 * m2.1)
  let k ← cdiv lo hi m4 s
  if fisher then chk lo hi (k - 3) else pure k

end SciCpp
