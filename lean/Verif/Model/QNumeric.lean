import Verif.Model.QStats
import Verif.Model.Numeric
import Verif.Model.Waveforms
/-
  Model of the functions of scicpp/core/numeric.hpp on arrays of quantities of one unit type: the types that the templates compute (`.ub`: the program
  does not compile) and the values.  Representation type: a floating point type (real).  Simplifications: exact arithmetic; the integer arithmetic of
  the types does not overflow; a conversion of a quantity to its own type leaves the value alone.
-/
namespace SciCpp

/-! ### types -/

/-- The type of `prod` and `nanprod` (scicpp/core/numeric.hpp:58-83): `filter_reduce` asserts that `decltype(T * T)` is `T`
(scicpp/core/functional.hpp:222-227); so does `cumacc` for `nancumprod` (scicpp/core/numeric.hpp:120-123, scicpp/core/functional.hpp:386-391). -/
def prodTy (t : QTy) : Res QTy := do
  let w ← tyMul t t
  if w = t then pure t else .ub

/-- The type that an element of `cumsum` and of `diff` is assigned from: `T + T` or `T - T` in `std::partial_sum` and `std::adjacent_difference`
(scicpp/core/numeric.hpp:89-98, 150-207), which converts implicitly to `T` since the dimensions agree (scicpp/core/units/quantity.hpp:194-200). -/
def cumsumTy (t : QTy) : Res QTy := tyAdd t t

/-- The type `T * T` that `std::partial_sum` assigns to its accumulator of type `T` in `cumprod` (scicpp/core/numeric.hpp:109-118): the implicit
conversion needs the dimension of `T` (scicpp/core/units/quantity.hpp:194-200). -/
def cumprodTy (t : QTy) : Res QTy := do
  let w ← tyMul t t
  if w.dim ≠ t.dim then .ub else pure w

/-- The type of `*first + raw_t{2} * sum(first + 1, last - 1) + *(last - 1)` (scicpp/core/numeric.hpp:142): a number times a quantity keeps its type
(scicpp/core/units/quantity.hpp:366-372). -/
def trapzSumTy (t : QTy) : Res QTy := do
  let s ← sumTy t
  let a ← tyAdd t s
  tyAdd a t

/-- The type of `trapz(f, dx)` for quantities `f` of type `t` and a quantity `dx` of type `u` (scicpp/core/numeric.hpp:129-143): the two return
statements (`ret_t`, `decltype(T1 * T2)`, and the product of `dx` with the sum) must have one type. -/
def trapzTy (t u : QTy) : Res QTy := do
  let ret ← tyMul t u
  let e ← trapzSumTy t
  let r ← tyMul u e
  if r = ret then pure ret else .ub

/-- The type of `trapz(f, dx)` for quantities `f` and a number `dx` (scicpp/core/numeric.hpp:129-143). -/
def trapzTyN (t : QTy) : Res QTy := do
  let e ← trapzSumTy t
  if e = t then pure t else .ub

/-- The type of `trapz(f, dx)` for numbers `f` and a quantity `dx` of type `u` (scicpp/core/numeric.hpp:129-143): both return statements have the type
of a number times `dx`. -/
def trapzTyNQ (u : QTy) : Res QTy := .ok u

/-! ### values -/

section
variable {K : Type} [RCLike K]

/-- `scicpp::prod(a)` of quantities (scicpp/core/numeric.hpp:58-78). -/
noncomputable def qProd (t : QTy) (l : List K) : Res (Qty K) := do
  let w ← prodTy t
  pure ⟨w, prod false l⟩

/-- `scicpp::cumsum(a)` of quantities (scicpp/core/numeric.hpp:89-98): the unit and the values of the result. -/
noncomputable def qCumsum (t : QTy) (l : List K) : Res (QTy × List K) := do
  let _ ← cumsumTy t
  pure (t, partialSum (· + ·) l)

/-- `scicpp::cumprod(a)` of quantities (scicpp/core/numeric.hpp:109-118): every product is converted to the unit of the array
(`quantity_cast`, scicpp/core/units/quantity.hpp:132-154, 194-200). -/
noncomputable def qCumprod (t : QTy) (l : List K) : Res (QTy × List K) := do
  let w ← cumprodTy t
  let s ← rrDiv w.scal t.scal
  let d : ℚ := w.off - t.off
  pure (t, partialSum (fun acc x => evalRR s * (acc * x) + (d.num : K) / (d.den : K)) l)

/-- `scicpp::diff(v, n)` of quantities in a `std::vector` (scicpp/core/numeric.hpp:168-173, 193-207). -/
noncomputable def qDiff (t : QTy) (l : List K) (n : ℤ) : Res (QTy × List K) := do
  let _ ← cumsumTy t
  let r ← diffVec l n
  pure (t, r)

/-- `scicpp::trapz(f, dx)`, both quantities (scicpp/core/numeric.hpp:129-148). -/
noncomputable def qTrapz (t u : QTy) (f : List K) (dx : K) : Res (Qty K) := do
  let w ← trapzTy t u
  let v ← trapz false f dx
  pure ⟨w, v⟩

/-- `scicpp::trapz(f, dx)` with quantities `f` and a number `dx` (scicpp/core/numeric.hpp:129-148). -/
noncomputable def qTrapzN (t : QTy) (f : List K) (dx : K) : Res (Qty K) := do
  let w ← trapzTyN t
  let v ← trapz false f dx
  pure ⟨w, v⟩

/-- `scicpp::trapz(f, dx)` with numbers `f` and a quantity `dx` (scicpp/core/numeric.hpp:129-148). -/
noncomputable def qTrapzNQ (u : QTy) (f : List K) (dx : K) : Res (Qty K) := do
  let w ← trapzTyNQ u
  let v ← trapz false f dx
  pure ⟨w, v⟩

/-- `scicpp::inner(a, b)`, `dot(a, b)` and, for real quantities, `vdot(a, b)` (scicpp/core/numeric.hpp:213-285). -/
noncomputable def qInner (t u : QTy) (a b : List K) : Res (Qty K) := do
  let w ← innerTy t u
  let v ← inner a b
  pure ⟨w, v⟩

end

/-- `a % y` for an array and a scalar of one quantity type (scicpp/core/numeric.hpp:490-516): `std::fmod` of the values. -/
noncomputable def qModArr (t : QTy) (a : List ℝ) (y : ℝ) : QTy × List ℝ := (t, a.map fun v => fmodR v y)

/-- `x % a` (scicpp/core/numeric.hpp:490-503, 518-525). -/
noncomputable def qModScalar (t : QTy) (x : ℝ) (a : List ℝ) : QTy × List ℝ := (t, a.map fun v => fmodR x v)

end SciCpp
