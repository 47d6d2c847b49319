import Verif.Model.QExpr
import Verif.Model.CtRoot
/-
  The compile-time arithmetic of units with 64-bit integers: scicpp/core/units/arithmetic.hpp with every product of `intmax_t` checked.
  An overflow in a constant expression is a compile error (`ub` below).  The unbounded versions are in Model/Arith.lean.
  Not modelled: limits of the compiler on the number of steps of a constant evaluation and on the depth of templates.
-/
namespace SciCpp

/-- `power(a, n)` on `intmax_t` (scicpp/core/units/arithmetic.hpp:35-43); `p * p * (…)` is two products. -/
def powI64 (a n : ℤ) : Res ℤ :=
  if n = 0 then .ok 1
  else do
    let p ← powI64 a (n.tdiv 2)
    let t ← i64 (p * p)
    i64 (t * (if n.tmod 2 = 0 then 1 else a))
termination_by n.natAbs
decreasing_by
  have h : (n.tdiv 2).natAbs = n.natAbs / 2 := Int.natAbs_tdiv n 2
  omega

/-- The factorisation loop (scicpp/core/units/arithmetic.hpp:95-106) with `z * z` and `z++` checked. -/
def factorLoop64 : ℕ → ℤ → ℤ → Factors → Res (Option Factors)
  | 0, _, _, _ => .ok none
  | fuel + 1, z, num, fs => do
    let zz ← i64 (z * z)
    if zz ≤ num then
      if num.tmod z = 0 then do
        let fs' ← appendFactor fs z fs.length 0
        factorLoop64 fuel z (num.tdiv z) fs'
      else do
        let z' ← i64 (z + 1)
        factorLoop64 fuel z' num fs
    else if num > 1 then do
      let fs' ← appendFactor fs num fs.length 0
      pure (some fs')
    else pure (some fs)

/-- `prime_factors<n>().values()` (scicpp/core/units/arithmetic.hpp:85-133). -/
def factors64 (n : ℕ) : Res Factors := do
  let r ← factorLoop64 (2 * n + 1) 2 n (List.replicate (ctLog2 n).toNat (0, 0))
  match r with
  | some fs => pure fs
  | none => .ub

/-- `compute_root(factors, root)` (scicpp/core/units/arithmetic.hpp:176-185). -/
def computeRoot64 (root : ℤ) : Factors → ℤ → Res ℤ
  | [], res => .ok res
  | f :: fs, res => do
    let p ← powI64 f.1 (f.2.tdiv root)
    let r ← i64 (res * p)
    computeRoot64 root fs r

/-- `root_ratio_root_impl<RR, Root>` (scicpp/core/units/arithmetic.hpp:187-207). -/
def rrRoot64 (rr : RootRatio) (Root : ℕ) : Res RootRatio := do
  let R ← i64 (rr.root * Root)
  let qf ← factors64 rr.num
  let pf ← factors64 rr.den
  if isExactRoot qf R && isExactRoot pf R then do
    let q ← computeRoot64 R qf 1
    let p ← computeRoot64 R pf 1
    pure (rrMk q.toNat p.toNat 1)
  else pure (rrMk rr.num rr.den R.toNat)

/-- `root_ratio_multiply_impl<RR1, RR2>` (scicpp/core/units/arithmetic.hpp:209-244).  `std::ratio_multiply` divides by the common factors of
numerators and denominators first and is an error when the products do not fit. -/
def rrMul64 (a b : RootRatio) : Res RootRatio :=
  if a.root = 1 ∧ b.root = 1 then do
    let g1 := Nat.gcd a.num b.den
    let g2 := Nat.gcd b.num a.den
    let q ← i64 ((a.num / g1 : ℕ) * (b.num / g2 : ℕ))
    let p ← i64 ((a.den / g2 : ℕ) * (b.den / g1 : ℕ))
    pure ⟨q.toNat, p.toNat, 1⟩
  else do
    let G := Nat.gcd a.root b.root
    let r1 := a.root / G
    let r2 := b.root / G
    let x1 ← powI64 a.num r2
    let x2 ← powI64 b.num r1
    let Q ← i64 (x1 * x2)
    let y1 ← powI64 a.den r2
    let y2 ← powI64 b.den r1
    let P ← i64 (y1 * y2)
    let s ← i64 (G * r1)
    let R ← i64 (s * r2)
    rrRoot64 (rrMk Q.toNat P.toNat R.toNat) 1

/-- `root_ratio_divide_impl<RR1, RR2>` (scicpp/core/units/arithmetic.hpp:246-250). -/
def rrDiv64 (a b : RootRatio) : Res RootRatio := rrMul64 a (rrMk b.den b.num b.root)

/-- `root_ratio_power_impl<RR, N>` (scicpp/core/units/arithmetic.hpp:252-261). -/
def rrPow64 (a : RootRatio) : ℕ → Res RootRatio
  | 0 => .ok (rrMk 1 1 1)
  | n + 1 => do
    let p ← rrPow64 a n
    rrMul64 a p

/-- `common_root_ratio<RR1, RR2>` (scicpp/core/units/arithmetic.hpp:278-293). -/
def rrCommon64 (a b : RootRatio) : Res RootRatio := do
  let q1 ← powI64 a.num b.root
  let q2 ← powI64 b.num a.root
  let p1 ← powI64 a.den b.root
  let p2 ← powI64 b.den a.root
  let R ← i64 (a.root * b.root)
  let Q := Int.gcd q1 q2
  let P ← i64 (p1.tdiv (Int.gcd p1 p2) * p2)
  rrRoot64 (rrMk Q P.toNat R.toNat) 1

/-! ### Types of expressions -/

/-- `common_quantity_t` (scicpp/core/units/quantity.hpp:106-128). -/
def commonQuantity64 (a b : QTy) : Res QTy :=
  if a.off ≠ b.off then .ub
  else do
    let s ← rrCommon64 a.scal b.scal
    pure ⟨a.dim, s, a.off⟩

/-- Type of `a + b` and `a - b` (scicpp/core/units/quantity.hpp:106-128, 306-320). -/
def tAdd64 : QT → QT → Res QT
  | .num, .num => .ok .num
  | .qty a, .qty b => if a.dim ≠ b.dim then .ub else do
      let t ← commonQuantity64 a b
      let _ ← rrDiv64 a.scal t.scal
      let _ ← rrDiv64 b.scal t.scal
      pure (.qty t)
  | _, _ => .ub

/-- Type of `a * b` (scicpp/core/units/quantity.hpp:322-327, 355-378). -/
def tMul64 : QT → QT → Res QT
  | .num, .num => .ok .num
  | .num, .qty b => .ok (.qty b)
  | .qty a, .num => .ok (.qty a)
  | .qty a, .qty b =>
    if b.off ≠ 0 then .ub else do
      let d ← rrMul64 a.dim b.dim
      let s ← rrMul64 a.scal b.scal
      pure (.qty ⟨d, s, 0⟩)

/-- Type of `a / b` (scicpp/core/units/quantity.hpp:329-340, 380-401). -/
def tDiv64 : QT → QT → Res QT
  | .num, .num => .ok .num
  | .num, .qty b => do
      let d ← rrDiv64 ⟨1, 1, 1⟩ b.dim
      let s ← rrDiv64 ⟨1, 1, 1⟩ b.scal
      pure (.qty ⟨d, s, 0⟩)
  | .qty a, .num => .ok (.qty a)
  | .qty a, .qty b =>
    if b.off ≠ 0 then .ub else do
      let d ← rrDiv64 a.dim b.dim
      let s ← rrDiv64 a.scal b.scal
      pure (.qty ⟨d, s, 0⟩)

/-- Type of `units::pow<n>` (scicpp/core/units/maths.hpp:127-131). -/
def tPow64 (n : ℕ) : QT → Res QT
  | .num => .ok .num
  | .qty a => do
    let d ← rrPow64 a.dim n
    let s ← rrPow64 a.scal n
    pure (.qty ⟨d, s, 0⟩)

/-- Type of `units::root<n + 1>` (scicpp/core/units/quantity.hpp:414-422). -/
def tRoot64 (n : ℕ) : QT → Res QT
  | .num => .ok .num
  | .qty a => do
    let d ← rrRoot64 a.dim (n + 1)
    let s ← rrRoot64 a.scal (n + 1)
    pure (.qty ⟨d, s, 0⟩)

/-- Type of `quantity_cast<t>` (scicpp/core/units/quantity.hpp:132-154).  The difference of the offsets is not checked. -/
def tCast64 (t : QTy) : QT → Res QT
  | .num => .ub
  | .qty a => if a.dim ≠ t.dim then .ub else do
    let _ ← rrDiv64 a.scal t.scal
    pure (.qty t)

/-- The compiler with 64-bit integers: the type of an expression from the types of the variables
(scicpp/core/units/quantity.hpp:132-427, scicpp/core/units/maths.hpp:57-147). -/
def QEx.type64 (Γ : ℕ → QT) : QEx → Res QT
  | .var i => .ok (Γ i)
  | .lit _ => .ok .num
  | .add a b => do let x ← a.type64 Γ; let y ← b.type64 Γ; tAdd64 x y
  | .sub a b => do let x ← a.type64 Γ; let y ← b.type64 Γ; tAdd64 x y
  | .mul a b => do let x ← a.type64 Γ; let y ← b.type64 Γ; tMul64 x y
  | .div a b => do let x ← a.type64 Γ; let y ← b.type64 Γ; tDiv64 x y
  | .neg a => a.type64 Γ
  | .pow n a => do let x ← a.type64 Γ; tPow64 n x
  | .root n a => do let x ← a.type64 Γ; tRoot64 n x
  | .cast t a => do let x ← a.type64 Γ; tCast64 t x
  | .abs a => a.type64 Γ
  | .fmax a b => do let x ← a.type64 Γ; let y ← b.type64 Γ; tSame x y
  | .fmin a b => do let x ← a.type64 Γ; let y ← b.type64 Γ; tSame x y
  | .hypot a b => do let x ← a.type64 Γ; let y ← b.type64 Γ; tSame x y

end SciCpp
