import Verif.Model.Quantity
import Verif.Model.CtRoot
import Verif.Model.Range
/-
  Quantities over a floating point representation type: the same functions as in Model/Quantity, with the
  roundings, the overflow and the compile-time Newton roots of the type.  `K` is `RFl rnd` (any rounding, no
  bounds of the exponent) or `IFl f` (an IEEE format).  Simplifications: products of the numerators and
  denominators of the scales are exact integers (in C++ an overflow of `intmax_t` does not compile); no
  contraction of `a * b + c` to a fused operation.
-/
namespace SciCpp


variable {K : Type} [CppNum K]

/-- `factor * value + offset` of one operand of a comparison: the left operand is `a`, the right one `b`
(scicpp/core/units/quantity.hpp:214-224, 236-246; the second line of both definitions is the first one with
the operands exchanged). -/
def qSide (a b : QTy) (x : K) : K :=
  CppNum.ofInt ((a.scal.num * b.scal.den * a.off.den * b.off.den : ℕ) : ℤ) * x +
    CppNum.ofInt (a.off.num * (b.scal.den * a.scal.den * b.off.den : ℕ))

/-- `operator==` (scicpp/core/units/quantity.hpp:211-225); `eqv` is `==` of the type. -/
def qfEq (eqv : K → K → Bool) (a b : Qty K) : Bool := eqv (qSide a.ty b.ty a.val) (qSide b.ty a.ty b.val)
/-- `operator!=` (scicpp/core/units/quantity.hpp:227-231). -/
def qfNe (eqv : K → K → Bool) (a b : Qty K) : Bool := !(qfEq eqv a b)
/-- `operator<` (scicpp/core/units/quantity.hpp:233-247); `lt` is `<` of the type. -/
def qfLt (lt : K → K → Bool) (a b : Qty K) : Bool := lt (qSide a.ty b.ty a.val) (qSide b.ty a.ty b.val)
/-- `operator<=` (scicpp/core/units/quantity.hpp:249-253). -/
def qfLe (lt : K → K → Bool) (a b : Qty K) : Bool := !(qfLt lt b a)
/-- `operator>` (scicpp/core/units/quantity.hpp:255-259). -/
def qfGt (lt : K → K → Bool) (a b : Qty K) : Bool := qfLt lt b a
/-- `operator>=` (scicpp/core/units/quantity.hpp:261-265). -/
def qfGe (lt : K → K → Bool) (a b : Qty K) : Bool := !(qfLt lt a b)

/-- `arithmetic::eval<T>(root_ratio)` (scicpp/core/units/arithmetic.hpp:158-161): `ct_root` of the rounded
ratio; `none` when the compile-time iteration does not return within `fuel` steps. -/
def evalRRF (lt eqv : K → K → Bool) (fuel : ℕ) (r : RootRatio) : Option K :=
  ctRootF lt eqv r.root fuel (CppNum.ofInt (r.num : ℤ) / CppNum.ofInt (r.den : ℤ))

/-- `rep_t(Offset::num) / rep_t(Offset::den)` (scicpp/core/units/quantity.hpp:149-150, 347). -/
def offF (d : ℚ) : K := CppNum.ofInt d.num / CppNum.ofInt (d.den : ℤ)

/-- `quantity_cast<ToQty>(qty)`, equal representation types (scicpp/core/units/quantity.hpp:132-154). -/
def quantityCastF (lt eqv : K → K → Bool) (fuel : ℕ) (dst : QTy) (q : Qty K) : Res (Qty K) :=
  if q.ty.dim ≠ dst.dim then .ub
  else do
    let s ← rrDiv q.ty.scal dst.scal
    match evalRRF lt eqv fuel s with
    | none => .ub
    | some k => pure ⟨dst, k * q.val + offF (q.ty.off - dst.off)⟩

/-- `cq(x)` (scicpp/core/units/quantity.hpp:190, 198-203): the copy constructor for the same type, the
converting constructor otherwise. -/
def qfConv (lt eqv : K → K → Bool) (fuel : ℕ) (dst : QTy) (q : Qty K) : Res (Qty K) :=
  if q.ty = dst then .ok q else quantityCastF lt eqv fuel dst q

/-- `operator+` (scicpp/core/units/quantity.hpp:305-312). -/
def qfAdd (lt eqv : K → K → Bool) (fuel : ℕ) (a b : Qty K) : Res (Qty K) :=
  if a.ty.dim ≠ b.ty.dim then .ub
  else do
    let cq ← commonQuantity a.ty b.ty
    let x ← qfConv lt eqv fuel cq a
    let y ← qfConv lt eqv fuel cq b
    pure ⟨cq, x.val + y.val⟩

/-- `operator-` (scicpp/core/units/quantity.hpp:314-320). -/
def qfSub (lt eqv : K → K → Bool) (fuel : ℕ) (a b : Qty K) : Res (Qty K) :=
  if a.ty.dim ≠ b.ty.dim then .ub
  else do
    let cq ← commonQuantity a.ty b.ty
    let x ← qfConv lt eqv fuel cq a
    let y ← qfConv lt eqv fuel cq b
    pure ⟨cq, x.val - y.val⟩

/-- `quantity::eval()` (scicpp/core/units/quantity.hpp:344-349). -/
def qfEval (lt eqv : K → K → Bool) (fuel : ℕ) (q : Qty K) : Res K :=
  match evalRRF lt eqv fuel q.ty.scal with
  | none => .ub
  | some k => .ok (k * q.val + offF q.ty.off)

/-- `almost_equal<rel_tol>(q1, q2)` (scicpp/core/equal.hpp:75-84); `tol` is `rel_tol * eps / 2`. -/
def almostEqualQ {rnd : ℚ → ℚ} (tol : ℚ) (fuel : ℕ) (a b : Qty (RFl rnd)) : Res Bool := do
  if a.ty.dim ≠ b.ty.dim then .ub
  let x ← qfEval RFl.lt RFl.eqv fuel a
  let y ← qfEval RFl.lt RFl.eqv fuel b
  pure (almostEqual tol x y)

/-! ### Updating a quantity in place -/

/-- The updating operators: `+=`, `-=` by a quantity of the same type (its value), `*=`, `/=` by a number,
pre- and post-increment and -decrement (scicpp/core/units/quantity.hpp:269-303). -/
inductive QUpd (K : Type) where
  | add (v : K)
  | sub (v : K)
  | mul (k : K)
  | div (k : K)
  | preInc
  | postInc
  | preDec
  | postDec

/-- One update: the new quantity and the quantity returned by the expression
(`+=` … `/=`: scicpp/core/units/quantity.hpp:269-287; `++`, `--`: 292-303). -/
def qUpd (q : Qty K) : QUpd K → Qty K × Qty K
  | .add v => (⟨q.ty, q.val + v⟩, ⟨q.ty, q.val + v⟩)
  | .sub v => (⟨q.ty, q.val - v⟩, ⟨q.ty, q.val - v⟩)
  | .mul k => (⟨q.ty, q.val * k⟩, ⟨q.ty, q.val * k⟩)
  | .div k => (⟨q.ty, q.val / k⟩, ⟨q.ty, q.val / k⟩)
  | .preInc => (⟨q.ty, q.val + 1⟩, ⟨q.ty, q.val + 1⟩)
  | .postInc => (⟨q.ty, q.val + 1⟩, ⟨q.ty, q.val⟩)
  | .preDec => (⟨q.ty, q.val - 1⟩, ⟨q.ty, q.val - 1⟩)
  | .postDec => (⟨q.ty, q.val - 1⟩, ⟨q.ty, q.val⟩)

/-- A history of updates: the final quantity and the returned quantities in order. -/
def qHistory (q : Qty K) : List (QUpd K) → Qty K × List (Qty K)
  | [] => (q, [])
  | o :: os =>
    let r := qUpd q o
    let s := qHistory r.1 os
    (s.1, r.2 :: s.2)

end SciCpp
