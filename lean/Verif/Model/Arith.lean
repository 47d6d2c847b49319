import Verif.Model.Loop
import Verif.Model.Pow
import Mathlib.Algebra.Field.Defs
import Mathlib.Data.Nat.Prime.Defs
/-
  Model of scicpp/core/units/arithmetic.hpp.  These are compile-time functions on `intmax_t`: an
  overflow in a constant expression is a compile error, so unbounded integers are used (the theorems
  speak about the programs that compile).
-/
namespace SciCpp

/-- `ct_log2(num)` (scicpp/core/units/arithmetic.hpp:26-28). -/
def ctLog2 (num : ℤ) : ℤ :=
  if num < 2 then 1 else 1 + ctLog2 (num / 2)
termination_by num.toNat
decreasing_by omega

/-- Number of slots of the array of prime factors (scicpp/core/units/arithmetic.hpp:132). -/
abbrev Factors := List (ℤ × ℤ)

/-- `prime_factors::append` (scicpp/core/units/arithmetic.hpp:112-129): the search loop from slot `i`
and the final store; storing outside the array is UB. -/
def appendFactor (fs : Factors) (prime : ℤ) : ℕ → ℕ → Res Factors
  | 0, i => wr fs (i : ℤ) (prime, 1)                             -- i == factors.size(): 127-128
  | fuel + 1, i => do
    let e ← rd fs (i : ℤ)
    if e.1 = 0 then wr fs (i : ℤ) (prime, 1)                     -- 116-118, 127-128
    else if e.1 = prime then wr fs (i : ℤ) (e.1, e.2 + 1)        -- 120-123
    else appendFactor fs prime fuel (i + 1)

/-- The factorisation loop (scicpp/core/units/arithmetic.hpp:95-106); `fuel` bounds the number of
iterations (`none`: not finished). -/
def factorLoop : ℕ → ℤ → ℤ → Factors → Res (Option Factors)
  | 0, _, _, _ => .ok none
  | fuel + 1, z, num, fs =>
    if z * z ≤ num then
      if num.tmod z = 0 then do
        let fs' ← appendFactor fs z fs.length 0
        factorLoop fuel z (num.tdiv z) fs'
      else factorLoop fuel (z + 1) num fs
    else if num > 1 then do
      let fs' ← appendFactor fs num fs.length 0
      pure (some fs')
    else pure (some fs)

/-- `prime_factors<n>().values()` (scicpp/core/units/arithmetic.hpp:85-133). -/
def primeFactorsOf (fuel : ℕ) (n : ℤ) : Res (Option Factors) :=
  factorLoop fuel 2 n (List.replicate (ctLog2 n).toNat (0, 0))

/-- The loop of `is_prime` (scicpp/core/units/arithmetic.hpp:312-322). -/
def isPrimeLoop : ℕ → ℤ → ℤ → Option Bool
  | 0, _, _ => none
  | fuel + 1, number, d =>
    if d * d - 2 * d + 1 ≤ number then
      if number.tmod (d - 1) = 0 ∨ number.tmod (d + 1) = 0 then some false
      else isPrimeLoop fuel number (d + 6)
    else some true

/-- `is_prime(number)` (scicpp/core/units/arithmetic.hpp:303-323). -/
def isPrime (fuel : ℕ) (number : ℤ) : Option Bool :=
  if number = 2 ∨ number = 3 then some true
  else if number.tmod 2 = 0 ∨ number.tmod 3 = 0 then some false
  else isPrimeLoop fuel number 6

/-- `next_prime(a)` (scicpp/core/units/arithmetic.hpp:325-329); `fuel` bounds the number of candidates,
each tested with enough fuel. -/
def nextPrime : ℕ → ℤ → Option ℤ
  | 0, _ => none
  | fuel + 1, a =>
    match isPrime ((a + 1).natAbs + 1) (a + 1) with
    | none => none
    | some true => some (a + 1)
    | some false => nextPrime fuel (a + 1)

/-- `prime_list<N, First>` (scicpp/core/units/arithmetic.hpp:331-344): the values from `First` on. -/
def primeListFrom (fuel : ℕ) : ℕ → ℤ → Option (List ℤ)
  | 0, _ => some []
  | N + 1, first =>
    if N = 0 then some [first]
    else
      match nextPrime fuel first with
      | none => none
      | some p =>
        match primeListFrom fuel N p with
        | none => none
        | some l => some (first :: l)

/-! ### root_ratio -/

/-- `root_ratio<Ratio, Root>` (scicpp/core/units/arithmetic.hpp:144-156): `(num/den)^(1/root)` with
`num/den` in lowest terms (as `std::ratio` reduces it) and positive; two results of the operations
below are the same type exactly when these three numbers agree. -/
structure RootRatio where
  num : ℕ
  den : ℕ
  root : ℕ
deriving DecidableEq

/-- The static assertions of `root_ratio` and the reduction done by `std::ratio`
(scicpp/core/units/arithmetic.hpp:146-149). -/
def RootRatio.Valid (r : RootRatio) : Prop :=
  0 < r.num ∧ 0 < r.den ∧ 0 < r.root ∧ Nat.Coprime r.num r.den

/-- `root_ratio<std::ratio<q, p>, r>` for positive `q`, `p`, `r`: `std::ratio` reduces. -/
def rrMk (q p r : ℕ) : RootRatio := ⟨q / Nat.gcd q p, p / Nat.gcd q p, r⟩

/-- `is_exact_root(factors, root)` (scicpp/core/units/arithmetic.hpp:165-174). -/
def isExactRoot (fs : Factors) (root : ℤ) : Bool := fs.all fun f => f.2.tmod root == 0

/-- `compute_root(factors, root)` (scicpp/core/units/arithmetic.hpp:176-185). -/
def computeRoot (fs : Factors) (root : ℤ) : ℤ :=
  fs.foldl (fun res f => res * powSq f.1 (f.2.tdiv root)) 1

/-- `prime_factors<n>().values()` with enough fuel (`Proofs/Arith`: `2n + 1` always suffices). -/
def factorsOf (n : ℕ) : Res Factors := do
  let r ← primeFactorsOf (2 * n + 1) n
  match r with
  | some fs => pure fs
  | none => .ub

/-- `root_ratio_root_impl<RR, Root>` (scicpp/core/units/arithmetic.hpp:187-207). -/
def rrRoot (rr : RootRatio) (Root : ℕ) : Res RootRatio := do
  let R := rr.root * Root
  let qf ← factorsOf rr.num
  let pf ← factorsOf rr.den
  if isExactRoot qf R && isExactRoot pf R then
    pure (rrMk (computeRoot qf R).toNat (computeRoot pf R).toNat 1)
  else pure (rrMk rr.num rr.den R)

/-- `root_ratio_multiply_impl<RR1, RR2>` (scicpp/core/units/arithmetic.hpp:209-244);
`std::ratio_multiply` multiplies and reduces. -/
def rrMul (a b : RootRatio) : Res RootRatio :=
  if a.root = 1 ∧ b.root = 1 then .ok (rrMk (a.num * b.num) (a.den * b.den) 1)
  else
    let G := Nat.gcd a.root b.root
    let r1 := a.root / G
    let r2 := b.root / G
    let Q := powSq a.num r2 * powSq b.num r1
    let P := powSq a.den r2 * powSq b.den r1
    let R := G * r1 * r2
    rrRoot (rrMk Q P R) 1

/-- `root_ratio_divide_impl<RR1, RR2>` (scicpp/core/units/arithmetic.hpp:246-250). -/
def rrDiv (a b : RootRatio) : Res RootRatio := rrMul a (rrMk b.den b.num b.root)

/-- `root_ratio_power_impl<RR, N>` (scicpp/core/units/arithmetic.hpp:252-261); a negative `N` does not
compile (unbounded template recursion). -/
def rrPow (a : RootRatio) : ℕ → Res RootRatio
  | 0 => .ok (rrMk 1 1 1)
  | n + 1 => do
    let p ← rrPow a n
    rrMul a p

/-- `common_root_ratio<RR1, RR2>` (scicpp/core/units/arithmetic.hpp:278-293). -/
def rrCommon (a b : RootRatio) : Res RootRatio :=
  let q1 := powSq a.num b.root
  let q2 := powSq b.num a.root
  let p1 := powSq a.den b.root
  let p2 := powSq b.den a.root
  let R := a.root * b.root
  let Q := Nat.gcd q1 q2
  let P := p1 / Nat.gcd p1 p2 * p2
  rrRoot (rrMk Q P R) 1

/-- `ct_root<N>(x)` through `root_newton_raphson` (scicpp/core/units/arithmetic.hpp:53-79) for
non-negative `x`, exact arithmetic; `none` when `fuel` iterations were not enough. -/
def newtonRoot {K : Type} [Field K] [DecidableEq K] (N : ℕ) (x : K) : ℕ → K → K → Option K
  | 0, _, _ => none
  | fuel + 1, curr, prev =>
    if curr = prev then some curr
    else newtonRoot N x fuel ((((N : K) - 1) * curr + x / powSq curr ((N : ℤ) - 1)) / N) curr

/-- `ct_root<N>(x)` for `x ≥ 0` (scicpp/core/units/arithmetic.hpp:68-79). -/
def ctRoot {K : Type} [Field K] [DecidableEq K] (N : ℕ) (fuel : ℕ) (x : K) : Option K :=
  if N = 1 then some x else newtonRoot N x fuel x 0

end SciCpp
