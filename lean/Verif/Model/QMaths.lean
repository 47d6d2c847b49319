import Verif.Model.Quantity
import Mathlib.Analysis.SpecialFunctions.Complex.Arg
import Mathlib.Analysis.SpecialFunctions.Trigonometric.Inverse
import Mathlib.Analysis.SpecialFunctions.Trigonometric.Arctan
import Mathlib.Analysis.SpecialFunctions.Log.Basic
import Mathlib.Analysis.SpecialFunctions.Log.Base
/-
  Model of the remaining functions of scicpp/core/units/maths.hpp and of the operators on
  `std::complex<quantity>` (scicpp/core/units/quantity.hpp:540-762), exact real and complex numbers.
-/
namespace SciCpp

/-! ### Functions that keep the unit -/

/-- `units::fmin(x, y)` (scicpp/core/units/maths.hpp:77-80). -/
noncomputable def qFmin (t : QTy) (x y : ℝ) : Qty ℝ := ⟨t, min x y⟩

/-- `units::fdim(x, y)` (scicpp/core/units/maths.hpp:82-85): `std::fdim` is the positive
difference. -/
noncomputable def qFdim (t : QTy) (x y : ℝ) : Qty ℝ := ⟨t, if x > y then x - y else 0⟩

/-- `units::hypot(x, y, z)` (scicpp/core/units/maths.hpp:149-152). -/
noncomputable def qHypot3 (t : QTy) (x y z : ℝ) : Qty ℝ := ⟨t, Real.sqrt (x ^ 2 + y ^ 2 + z ^ 2)⟩

/-- `units::copysign(x, y)` (scicpp/core/units/maths.hpp:274-277), no negative zeros. -/
noncomputable def qCopysign (t : QTy) (x y : ℝ) : Qty ℝ := ⟨t, if y < 0 then -|x| else |x|⟩

/-- `units::signbit(x)` (scicpp/core/units/maths.hpp:47-50), no negative zeros. -/
noncomputable def qSignbit (x : Qty ℝ) : Bool := decide (x.val < 0)

/-- `units::floor` (scicpp/core/units/maths.hpp:236-239). -/
noncomputable def qFloor (x : Qty ℝ) : Qty ℝ := ⟨x.ty, (⌊x.val⌋ : ℝ)⟩

/-- `units::ceil` (scicpp/core/units/maths.hpp:241-244). -/
noncomputable def qCeil (x : Qty ℝ) : Qty ℝ := ⟨x.ty, (⌈x.val⌉ : ℝ)⟩

/-- `units::trunc` (scicpp/core/units/maths.hpp:246-249). -/
noncomputable def qTrunc (x : Qty ℝ) : Qty ℝ :=
  ⟨x.ty, if 0 ≤ x.val then (⌊x.val⌋ : ℝ) else (⌈x.val⌉ : ℝ)⟩

/-- `units::round` (scicpp/core/units/maths.hpp:251-254): `std::round` rounds halfway cases away from
zero. -/
noncomputable def qRound (x : Qty ℝ) : Qty ℝ :=
  ⟨x.ty, if 0 ≤ x.val then (⌊x.val + 1 / 2⌋ : ℝ) else (⌈x.val - 1 / 2⌉ : ℝ)⟩

/-! ### Angles -/

/-- `radian<T>`: a planar angle of scale 1; `angle` is the dimension of planar angles
(scicpp/core/units/units.hpp:50-61). -/
def radianTy (angle : RootRatio) : QTy := ⟨angle, ⟨1, 1, 1⟩, 0⟩

/-- `detail::to_radian(x)` (scicpp/core/units/maths.hpp:162-175). -/
noncomputable def toRadian (angle : RootRatio) (x : Qty ℝ) : Res ℝ :=
  if x.ty.dim ≠ angle then .ub
  else do
    let r ← quantityCast (radianTy angle) x
    pure r.val

/-- `units::cos` (scicpp/core/units/maths.hpp:183-186). -/
noncomputable def qCos (angle : RootRatio) (x : Qty ℝ) : Res ℝ := do
  let r ← toRadian angle x
  pure (Real.cos r)

/-- `units::tan` (scicpp/core/units/maths.hpp:188-191). -/
noncomputable def qTan (angle : RootRatio) (x : Qty ℝ) : Res ℝ := do
  let r ← toRadian angle x
  pure (Real.tan r)

/-- `units::asin`, `acos`, `atan` (scicpp/core/units/maths.hpp:193-212): the argument is a
dimensionless quantity (or a plain number), of which only the value is used. -/
noncomputable def qAsin (angle : RootRatio) (x : Qty ℝ) : Res (Qty ℝ) :=
  if x.ty.dim ≠ ⟨1, 1, 1⟩ then .ub else .ok ⟨radianTy angle, Real.arcsin x.val⟩
@[inherit_doc qAsin]
noncomputable def qAcos (angle : RootRatio) (x : Qty ℝ) : Res (Qty ℝ) :=
  if x.ty.dim ≠ ⟨1, 1, 1⟩ then .ub else .ok ⟨radianTy angle, Real.arccos x.val⟩
@[inherit_doc qAsin]
noncomputable def qAtan (angle : RootRatio) (x : Qty ℝ) : Res (Qty ℝ) :=
  if x.ty.dim ≠ ⟨1, 1, 1⟩ then .ub else .ok ⟨radianTy angle, Real.arctan x.val⟩

/-- `units::atan2(x, y)` (scicpp/core/units/maths.hpp:214-217): both arguments have the same type.
`std::atan2(a, b)` is the argument of `b + i a` (no negative zeros). -/
noncomputable def qAtan2 (angle : RootRatio) (_t : QTy) (x y : ℝ) : Qty ℝ :=
  ⟨radianTy angle, Complex.arg ⟨y, x⟩⟩

/-! ### Exponentials and logarithms -/

/-- `units::expm1`, `exp2`, `log`, `log2`, `log10`, `log1p` of dimensionless quantities
(scicpp/core/units/maths.hpp:292-332): `f` of the value. -/
noncomputable def qDimless (f : ℝ → ℝ) (x : Qty ℝ) : Res ℝ :=
  if x.ty.dim ≠ ⟨1, 1, 1⟩ then .ub else .ok (f x.val)

/-- `units::sinc(x)` (scicpp/core/units/maths.hpp:221-232). -/
noncomputable def qSinc (x : Qty ℝ) : Res ℝ :=
  if x.ty.dim ≠ ⟨1, 1, 1⟩ then .ub
  else .ok (if x.val = 0 then 1 else Real.sin (Real.pi * x.val) / (Real.pi * x.val))

/-- `units::exp` of a complex quantity (scicpp/core/units/maths.hpp:285-290): `is_dimensionless_like`
(158-160) accepts every complex type, whatever its dimension. -/
noncomputable def cExp (z : Qty ℂ) : Res ℂ := .ok (Complex.exp z.val)

/-! ### Complex quantities -/

/-- A real quantity used with complex ones. -/
noncomputable def Qty.toC (q : Qty ℝ) : Qty ℂ := ⟨q.ty, (q.val : ℂ)⟩

/-- `units::abs` of a complex quantity (scicpp/core/units/maths.hpp:62-70). -/
noncomputable def cAbs (z : Qty ℂ) : Qty ℝ := ⟨z.ty, ‖z.val‖⟩

/-- `units::arg(z)` (scicpp/core/units/maths.hpp:357-365). -/
noncomputable def cArg (angle : RootRatio) (z : Qty ℂ) : Qty ℝ := ⟨radianTy angle, Complex.arg z.val⟩

/-- `units::polar(r, theta)` (scicpp/core/units/maths.hpp:367-371). -/
noncomputable def cPolar (angle : RootRatio) (r : Qty ℝ) (theta : Qty ℝ) : Res (Qty ℂ) := do
  let t ← toRadian angle theta
  pure ⟨r.ty, ⟨r.val * Real.cos t, r.val * Real.sin t⟩⟩

/-- `operator*` of two complex quantities (scicpp/core/units/quantity.hpp:545-574). -/
noncomputable def cMul (a b : Qty ℂ) : Res (Qty ℂ) := do
  let p ← qMul a b
  pure ⟨p.ty, b.val * a.val⟩

/-- `operator*(factor, complex)`, `operator*(complex, factor)` for plain numbers
(scicpp/core/units/quantity.hpp:576-602). -/
noncomputable def cScale (k : ℂ) (a : Qty ℂ) : Qty ℂ := ⟨a.ty, a.val * k⟩

/-- `operator*(Qty, complex)` and `operator*(complex, Qty)`
(scicpp/core/units/quantity.hpp:604-656): the type is that of `Qty * quantity` in both orders. -/
noncomputable def qcMul (q : Qty ℝ) (z : Qty ℂ) : Res (Qty ℂ) := do
  let p ← qMul q.toC z
  pure ⟨p.ty, z.val * (q.val : ℂ)⟩

/-- `operator/(complex, factor)` for plain numbers (scicpp/core/units/quantity.hpp:660-671). -/
noncomputable def cDivScalar (a : Qty ℂ) (k : ℂ) : Qty ℂ := ⟨a.ty, a.val / k⟩

/-- `operator/(factor, complex)` for plain numbers (scicpp/core/units/quantity.hpp:673-684). -/
noncomputable def scalarDivC (k : ℂ) (a : Qty ℂ) : Res (Qty ℂ) := do
  let i ← qInv a
  pure ⟨i.ty, k / a.val⟩

/-- `operator/(Qty, complex)` (scicpp/core/units/quantity.hpp:686-697, 712-725). -/
noncomputable def qcDiv (q : Qty ℝ) (z : Qty ℂ) : Res (Qty ℂ) := do
  let p ← qDiv q.toC z
  pure ⟨p.ty, (q.val : ℂ) / z.val⟩

/-- `operator/(complex, Qty)` (scicpp/core/units/quantity.hpp:699-710): only for the same quantity
type. -/
noncomputable def cqDiv (z : Qty ℂ) (q : Qty ℝ) : Res (Qty ℂ) :=
  if z.ty ≠ q.ty then .ub
  else do
    let p ← qDiv z q.toC
    pure ⟨p.ty, z.val / (q.val : ℂ)⟩

/-- `operator/` of two complex quantities (scicpp/core/units/quantity.hpp:727-760). -/
noncomputable def cDiv (a b : Qty ℂ) : Res (Qty ℂ) := do
  let p ← qDiv a b
  pure ⟨p.ty, a.val / b.val⟩

end SciCpp
