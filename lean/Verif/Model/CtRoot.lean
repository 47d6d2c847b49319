import Verif.Model.Arith
import Verif.Model.CppFloat
import Verif.Model.Ieee
/-
  Model of `ct_root` in floating point arithmetic and of `is_prime` on 64-bit integers.
-/
namespace SciCpp

universe u

/-- One step of the Newton iteration (scicpp/core/units/arithmetic.hpp:62-63). -/
def newtonStep {K : Type u} [CppNum K] (N : ℕ) (x curr : K) : K :=
  (CppNum.ofInt ((N : ℤ) - 1) * curr + x / powSq curr ((N : ℤ) - 1)) / CppNum.ofInt (N : ℤ)

/-- `root_newton_raphson<N>(x, curr, prev)` (scicpp/core/units/arithmetic.hpp:52-64); `eqv` is the
comparison `==` of the type, `fuel` bounds the recursion depth (`none`: not finished). -/
def newtonRootF {K : Type u} [CppNum K] (eqv : K → K → Bool) (N : ℕ) (x : K) : ℕ → K → K → Option K
  | 0, _, _ => none
  | fuel + 1, curr, prev =>
    if eqv curr prev then some curr
    else newtonRootF eqv N x fuel (newtonStep N x curr) curr

/-- `ct_root<N>(x)` (scicpp/core/units/arithmetic.hpp:68-79); `lt` is the comparison `<` of the type. -/
def ctRootF {K : Type u} [CppNum K] (lt eqv : K → K → Bool) (N fuel : ℕ) (x : K) : Option K :=
  if lt x 0 then some CppNum.qnan
  else if N = 1 then some x
  else newtonRootF eqv N x fuel x 0

/-- `ct_root<N>` in rounded arithmetic without limits of the exponent. -/
def ctRootR {rnd : ℚ → ℚ} (N fuel : ℕ) (x : RFl rnd) : Option (RFl rnd) := ctRootF RFl.lt RFl.eqv N fuel x

/-- `ct_root<N>` on `double`. -/
def ctRoot64 (N fuel : ℕ) (x : D64) : Option D64 := ctRootF IFl.lt IFl.eqv N fuel x

/-! ### 64-bit integers -/

/-- The result of an operation on `intmax_t`: overflow is undefined. -/
def i64 (v : ℤ) : Res ℤ := if -2 ^ 63 ≤ v ∧ v < 2 ^ 63 then .ok v else .ub

/-- The loop of `is_prime` (scicpp/core/units/arithmetic.hpp:312-322) with every arithmetic result checked
for overflow. -/
def isPrimeLoop64 : ℕ → ℤ → ℤ → Res (Option Bool)
  | 0, _, _ => .ok none
  | fuel + 1, number, d => do
    let dd ← i64 (d * d)                                        -- 314
    let d2 ← i64 (2 * d)
    let s ← i64 (dd - d2)
    let t ← i64 (s + 1)
    if t ≤ number then
      if number.tmod (d - 1) = 0 ∨ number.tmod (d + 1) = 0 then pure (some false)
      else do
        let d' ← i64 (d + 6)                                    -- 319
        isPrimeLoop64 fuel number d'
    else pure (some true)

/-- `is_prime(number)` (scicpp/core/units/arithmetic.hpp:303-323) on 64-bit integers. -/
def isPrime64 (fuel : ℕ) (number : ℤ) : Res (Option Bool) :=
  if number = 2 ∨ number = 3 then .ok (some true)
  else if number.tmod 2 = 0 ∨ number.tmod 3 = 0 then .ok (some false)
  else isPrimeLoop64 fuel number 6

end SciCpp
