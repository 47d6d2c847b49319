import Verif.Spec.Units
import Verif.Model.Quantity
/-
  Specification vocabulary for quantities: the value in base units denoted by a quantity, written
  independently of the library's own `eval()` / `quantity_cast`.
-/
namespace SciCpp

/-- The base-unit value denoted by a quantity: `scale · v + offset`. -/
noncomputable def Qty.denote {K : Type} [RCLike K] (q : Qty K) : K :=
  (q.ty.scal.val : K) * q.val + (q.ty.off : K)

/-- The base-unit value denoted by a quantity with an integral representation. -/
noncomputable def Qty.denoteZ (q : Qty ℤ) : ℝ := q.ty.scal.val * (q.val : ℝ) + (q.ty.off : ℝ)

end SciCpp
