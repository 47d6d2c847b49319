import Verif.Model.Arith
import Mathlib.Analysis.RCLike.Basic
import Mathlib.Analysis.SpecialFunctions.Pow.Real
/-
  Model of scicpp/core/units/quantity.hpp and of the quantity functions of
  scicpp/core/units/maths.hpp.

  The template arguments of `quantity<T, Dim, Scale, Offset>` are the run-time structure `QTy`, so a
  C++ *type* equality is an equality of `QTy` values.  `Res.ub` at the type level means that the
  program does not compile (`static_assert`, or undefined behaviour in a constant expression).

  Representation types: `float`/`double` (and `std::complex` of them) are idealised as `ℝ`/`ℂ`
  (any `RCLike` field: no rounding, no overflow); integral types as `ℤ` with C++ truncating division
  (no overflow).
-/
namespace SciCpp

universe u

/-- The type-level arguments `Dim`, `Scale`, `Offset` of a quantity
(scicpp/core/units/quantity.hpp:156-160, 180-183); `std::ratio` offsets are reduced, hence rationals. -/
structure QTy where
  dim : RootRatio
  scal : RootRatio
  off : ℚ
deriving DecidableEq

/-- `quantity<T, Dim, Scale, Offset>`: its type and `m_value`
(scicpp/core/units/quantity.hpp:160-160, 351-352). -/
structure Qty (T : Type u) where
  ty : QTy
  val : T

/-- The static assertions on the template arguments (scicpp/core/units/arithmetic.hpp:146-149). -/
def QTy.Valid (t : QTy) : Prop := t.dim.Valid ∧ t.scal.Valid

section Field
variable {K : Type} [RCLike K]

/-- `arithmetic::eval<T>(root_ratio)` (scicpp/core/units/arithmetic.hpp:158-161).  Simplification: for
`Root > 1` the Newton iteration of `ct_root` is replaced by the exact root (`C33_ct_root`: if it stops
in exact arithmetic it has found that root). -/
noncomputable def evalRR (r : RootRatio) : K :=
  if r.root = 1 then (r.num : K) / (r.den : K)
  else ((((r.num : ℝ) / r.den) ^ ((1 : ℝ) / r.root) : ℝ) : K)

/-- `quantity_cast<ToQty>(qty)` for equal floating point representation types
(scicpp/core/units/quantity.hpp:132-154). -/
noncomputable def quantityCast (dst : QTy) (q : Qty K) : Res (Qty K) :=
  if q.ty.dim ≠ dst.dim then .ub                                   -- static_assert, 139-140
  else do
    let s ← rrDiv q.ty.scal dst.scal                               -- 145
    let d : ℚ := q.ty.off - dst.off                                -- 148
    pure ⟨dst, evalRR s * q.val + (d.num : K) / (d.den : K)⟩       -- 149-153

/-- `common_quantity_t` (scicpp/core/units/quantity.hpp:106-128). -/
def commonQuantity (a b : QTy) : Res QTy :=
  if a.off ≠ b.off then .ub                                       -- static_assert, 113-115
  else do
    let s ← rrCommon a.scal b.scal
    pure ⟨a.dim, s, a.off⟩

/-- `operator+` of two quantities (scicpp/core/units/quantity.hpp:306-312); both operands must have the
same `Dim` for the template to match. -/
noncomputable def qAdd (a b : Qty K) : Res (Qty K) :=
  if a.ty.dim ≠ b.ty.dim then .ub
  else do
    let cq ← commonQuantity a.ty b.ty
    let x ← quantityCast cq a
    let y ← quantityCast cq b
    pure ⟨cq, x.val + y.val⟩

/-- `operator-` of two quantities (scicpp/core/units/quantity.hpp:314-320). -/
noncomputable def qSub (a b : Qty K) : Res (Qty K) :=
  if a.ty.dim ≠ b.ty.dim then .ub
  else do
    let cq ← commonQuantity a.ty b.ty
    let x ← quantityCast cq a
    let y ← quantityCast cq b
    pure ⟨cq, x.val - y.val⟩

/-- `operator*` of two quantities (scicpp/core/units/quantity.hpp:322-327) and of complex quantities
(545-659: same types, product of the complex values).  The right operand must have the default offset
for the template to match; the offset of the left operand is dropped.  (The complex overloads take
their result type from `quantity_multiply`, i.e. from the same operator.) -/
def qMul (a b : Qty K) : Res (Qty K) :=
  if b.ty.off ≠ 0 then .ub
  else do
    let d ← rrMul a.ty.dim b.ty.dim
    let s ← rrMul a.ty.scal b.ty.scal
    pure ⟨⟨d, s, 0⟩, a.val * b.val⟩

/-- `operator/` of two quantities (scicpp/core/units/quantity.hpp:329-334; complex: 691-762). -/
noncomputable def qDiv (a b : Qty K) : Res (Qty K) :=
  if b.ty.off ≠ 0 then .ub
  else do
    let d ← rrDiv a.ty.dim b.ty.dim
    let s ← rrDiv a.ty.scal b.ty.scal
    pure ⟨⟨d, s, 0⟩, a.val / b.val⟩

/-- `quantity::inv()` (scicpp/core/units/quantity.hpp:336-340). -/
noncomputable def qInv (a : Qty K) : Res (Qty K) := do
  let d ← rrDiv ⟨1, 1, 1⟩ a.ty.dim
  let s ← rrDiv ⟨1, 1, 1⟩ a.ty.scal
  pure ⟨⟨d, s, 0⟩, 1 / a.val⟩

/-- `quantity::eval()` (scicpp/core/units/quantity.hpp:345-349). -/
noncomputable def qEval (a : Qty K) : K :=
  evalRR a.ty.scal * a.val + (a.ty.off.num : K) / (a.ty.off.den : K)

/-- `operator*(factor, quantity)` and `operator*(quantity, factor)` for floating point types
(scicpp/core/units/quantity.hpp:355-378). -/
def qScale (k : K) (a : Qty K) : Qty K := ⟨a.ty, k * a.val⟩

/-- `operator/(factor, quantity)` (scicpp/core/units/quantity.hpp:380-389). -/
noncomputable def qScalarDiv (k : K) (a : Qty K) : Res (Qty K) := do
  let i ← qInv a
  pure (qScale k i)

/-- `operator/(quantity, factor)` for a floating point factor
(scicpp/core/units/quantity.hpp:391-401): `rhs * (T2{1} / factor)`. -/
noncomputable def qDivScalar (a : Qty K) (k : K) : Qty K := qScale (1 / k) a

/-- `operator/(quantity, factor)` for an integral `factor` and a floating point quantity
(scicpp/core/units/quantity.hpp:391-401): `T2{1} / factor` is an integer division. -/
def qDivInt (a : Qty K) (k : ℤ) : Res (Qty K) :=
  if k = 0 then .ub else .ok (qScale (((1 : ℤ).tdiv k : ℤ) : K) a)

/-- `quantity::operator/=` (scicpp/core/units/quantity.hpp:284-287): the factor is converted to `T`. -/
noncomputable def qDivAssign (a : Qty K) (k : K) : Qty K := ⟨a.ty, a.val / k⟩

/-- Unary minus (scicpp/core/units/quantity.hpp:290). -/
def qNeg (a : Qty K) : Qty K := ⟨a.ty, -a.val⟩

/-- `units::pow<n>(q)`, `n ≥ 0` (scicpp/core/units/maths.hpp:125-140). -/
def qPow (n : ℕ) (a : Qty K) : Res (Qty K) := do
  let d ← rrPow a.ty.dim n
  let s ← rrPow a.ty.scal n
  pure ⟨⟨d, s, 0⟩, powSq a.val n⟩

/-- `std::complex`-quantity norm and real-quantity norm (scicpp/core/units/maths.hpp:336-355): the
type is that of `z * z` (for operands with the default offset), the value `std::norm`. -/
noncomputable def qNorm (a : Qty K) : Res (Qty ℝ) := do
  let p ← qMul a a
  pure ⟨p.ty, RCLike.normSq a.val⟩

end Field

/-! ### Real quantities -/

/-- `operator==` for a floating point or integral representation
(scicpp/core/units/quantity.hpp:211-225). -/
def qEq {T : Type} [Ring T] [DecidableEq T] (a b : Qty T) : Bool :=
  let lhsFactor : ℤ := a.ty.scal.num * b.ty.scal.den * a.ty.off.den * b.ty.off.den
  let lhsOffset : ℤ := a.ty.off.num * b.ty.scal.den * a.ty.scal.den * b.ty.off.den
  let rhsFactor : ℤ := b.ty.scal.num * a.ty.scal.den * b.ty.off.den * a.ty.off.den
  let rhsOffset : ℤ := b.ty.off.num * a.ty.scal.den * b.ty.scal.den * a.ty.off.den
  decide ((lhsFactor : T) * a.val + (lhsOffset : T) = (rhsFactor : T) * b.val + (rhsOffset : T))

/-- `operator<` (scicpp/core/units/quantity.hpp:233-247). -/
def qLt {T : Type} [Ring T] [LinearOrder T] (a b : Qty T) : Bool :=
  let lhsFactor : ℤ := a.ty.scal.num * b.ty.scal.den * a.ty.off.den * b.ty.off.den
  let lhsOffset : ℤ := a.ty.off.num * b.ty.scal.den * a.ty.scal.den * b.ty.off.den
  let rhsFactor : ℤ := b.ty.scal.num * a.ty.scal.den * b.ty.off.den * a.ty.off.den
  let rhsOffset : ℤ := b.ty.off.num * a.ty.scal.den * b.ty.scal.den * a.ty.off.den
  decide ((lhsFactor : T) * a.val + (lhsOffset : T) < (rhsFactor : T) * b.val + (rhsOffset : T))

/-- `operator!=` (scicpp/core/units/quantity.hpp:227-231). -/
def qNe {T : Type} [Ring T] [DecidableEq T] (a b : Qty T) : Bool := !(qEq a b)
/-- `operator<=` (scicpp/core/units/quantity.hpp:249-253). -/
def qLe {T : Type} [Ring T] [LinearOrder T] (a b : Qty T) : Bool := !(qLt b a)
/-- `operator>` (scicpp/core/units/quantity.hpp:255-259). -/
def qGt {T : Type} [Ring T] [LinearOrder T] (a b : Qty T) : Bool := qLt b a
/-- `operator>=` (scicpp/core/units/quantity.hpp:261-265). -/
def qGe {T : Type} [Ring T] [LinearOrder T] (a b : Qty T) : Bool := !(qLt a b)

/-- `units::root<n>(q)` (scicpp/core/units/quantity.hpp:414-427), `units::sqrt` (n = 2) and
`units::cbrt` (n = 3) (scicpp/core/units/maths.hpp:101-123) for a non-negative value: the library
function `std::pow(x, 1/n)` / `std::sqrt` / `std::cbrt` is the exact real root. -/
noncomputable def qRoot (n : ℕ) (a : Qty ℝ) : Res (Qty ℝ) := do
  let d ← rrRoot a.ty.dim n
  let s ← rrRoot a.ty.scal n
  pure ⟨⟨d, s, 0⟩, a.val ^ ((1 : ℝ) / n)⟩

/-- `units::fma(x, y, z)` (scicpp/core/units/maths.hpp:87-97). -/
noncomputable def qFma (x y z : Qty ℝ) : Res (Qty ℝ) := do
  let p ← qMul x y
  if p.ty.dim ≠ z.ty.dim then .ub else pure ⟨p.ty, x.val * y.val + z.val⟩

/-- `units::fabs(x)`, `units::abs(x)` (scicpp/core/units/maths.hpp:57-70). -/
def qAbs (x : Qty ℝ) : Qty ℝ := ⟨x.ty, |x.val|⟩

/-- `units::hypot(x, y)` (scicpp/core/units/maths.hpp:144-147): both arguments have the same type. -/
noncomputable def qHypot (t : QTy) (x y : ℝ) : Qty ℝ := ⟨t, Real.sqrt (x ^ 2 + y ^ 2)⟩

/-- `units::fmax(x, y)` (scicpp/core/units/maths.hpp:72-75). -/
noncomputable def qFmax (t : QTy) (x y : ℝ) : Qty ℝ := ⟨t, max x y⟩

/-- `units::exp(x)` of a dimensionless quantity (scicpp/core/units/maths.hpp:285-290). -/
noncomputable def qExp (x : Qty ℝ) : Res ℝ :=
  if x.ty.dim ≠ ⟨1, 1, 1⟩ then .ub else .ok (Real.exp x.val)

/-- `units::sin(x)` of a planar angle (scicpp/core/units/maths.hpp:162-181): the argument is cast to
radians (`angle` is the dimension of planar angles). -/
noncomputable def qSin (angle : RootRatio) (x : Qty ℝ) : Res ℝ :=
  if x.ty.dim ≠ angle then .ub
  else do
    let r ← quantityCast ⟨angle, ⟨1, 1, 1⟩, 0⟩ x
    pure (Real.sin r.val)

/-! ### Integral representation -/

/-- `arithmetic::eval<T>` for an integral `T` (scicpp/core/units/arithmetic.hpp:158-161): integer
division; a scale with a root is not modelled for integers. -/
def evalInt (r : RootRatio) : Res ℤ :=
  if r.root = 1 then .ok ((r.num : ℤ).tdiv (r.den : ℤ)) else .ub

/-- `quantity_cast` between integral quantities (scicpp/core/units/quantity.hpp:132-154). -/
def quantityCastInt (dst : QTy) (q : Qty ℤ) : Res (Qty ℤ) :=
  if q.ty.dim ≠ dst.dim then .ub
  else do
    let s ← rrDiv q.ty.scal dst.scal
    let f ← evalInt s
    let d : ℚ := q.ty.off - dst.off
    pure ⟨dst, f * q.val + d.num.tdiv (d.den : ℤ)⟩

/-- `is_harmonic` (scicpp/core/units/quantity.hpp:162-164): `std::ratio_divide` of the ratios of the
two scales (their roots are ignored) has denominator 1. -/
def isHarmonic (src dst : RootRatio) : Bool :=
  (rrMk (src.num * dst.den) (src.den * dst.num) 1).den == 1

/-- Implicit conversion between integral quantities
(scicpp/core/units/quantity.hpp:166-169, 198-203): only if harmonic. -/
def implicitConvInt (dst : QTy) (q : Qty ℤ) : Res (Qty ℤ) :=
  if isHarmonic q.ty.scal dst.scal then quantityCastInt dst q else .ub

/-- `operator+` of two integral quantities (scicpp/core/units/quantity.hpp:306-312): the operands are
converted implicitly to the common quantity. -/
def qAddInt (a b : Qty ℤ) : Res (Qty ℤ) :=
  if a.ty.dim ≠ b.ty.dim then .ub
  else do
    let cq ← commonQuantity a.ty b.ty
    let x ← implicitConvInt cq a
    let y ← implicitConvInt cq b
    pure ⟨cq, x.val + y.val⟩

/-- `operator/(quantity, factor)` of an integral quantity by an integral factor
(scicpp/core/units/quantity.hpp:391-401). -/
def qDivIntInt (a : Qty ℤ) (k : ℤ) : Res (Qty ℤ) :=
  if k = 0 then .ub else .ok ⟨a.ty, (1 : ℤ).tdiv k * a.val⟩

end SciCpp
