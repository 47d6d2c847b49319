import Verif.Model.Limits
import Verif.Model.Functional
/-
  The predicates of `scicpp::filters` (scicpp/core/functional.hpp:173-202) and the classification functions
  (scicpp/core/units/maths.hpp:20-49) on floating point numbers, complex numbers and quantities.
-/
namespace SciCpp

/-- The results of `std::fpclassify` (used at scicpp/core/functional.hpp:180). -/
inductive FpClass where
  | nan | infinite | zero | subnormal | normal
deriving DecidableEq, Repr

variable {f : Fmt}

/-- `std::fpclassify` (used at scicpp/core/functional.hpp:180). -/
def fpclassify (x : IFl f) : FpClass :=
  match (x : Fl) with
  | .nan => .nan
  | .inf _ => .infinite
  | .fin q => if q = 0 then .zero else if |q| < f.minVal then .subnormal else .normal

/-- `units::isnan` of a real number (scicpp/core/units/maths.hpp:22-30). -/
def isnanF (x : IFl f) : Bool := fpclassify x == .nan
/-- `units::isnan` of a complex number (scicpp/core/units/maths.hpp:24-26). -/
def isnanC (z : IFl f × IFl f) : Bool := isnanF z.1 || isnanF z.2
/-- `units::isinf` (scicpp/core/units/maths.hpp:32-35). -/
def isinfF (x : IFl f) : Bool := fpclassify x == .infinite
/-- `units::isfinite` (scicpp/core/units/maths.hpp:37-40). -/
def isfiniteF (x : IFl f) : Bool := !(fpclassify x == .nan) && !(fpclassify x == .infinite)
/-- `units::isnormal` (scicpp/core/units/maths.hpp:42-45). -/
def isnormalF (x : IFl f) : Bool := fpclassify x == .normal

/-- The functions above on a quantity work on the stored value (scicpp/core/units/maths.hpp:28, 34, 39, 44). -/
def onValue {K : Type} (g : K → Bool) (q : Qty K) : Bool := g q.val

namespace Filters

/-- `filters::all` (scicpp/core/functional.hpp:175). -/
def all (_ : IFl f) : Bool := true
/-- `filters::none` (scicpp/core/functional.hpp:176). -/
def none (_ : IFl f) : Bool := false
/-- `filters::not_nan` (scicpp/core/functional.hpp:177). -/
def notNan (x : IFl f) : Bool := !isnanF x
/-- `filters::not_zero` (scicpp/core/functional.hpp:179-181). -/
def notZero (x : IFl f) : Bool := fpclassify x != .zero
/-- `filters::strictly_positive` (scicpp/core/functional.hpp:183). -/
def strictlyPositive (x : IFl f) : Bool := IFl.lt (IFl.fin 0) x
/-- `filters::positive` (scicpp/core/functional.hpp:184). -/
def positive (x : IFl f) : Bool := IFl.le (IFl.fin 0) x
/-- `filters::strictly_negative` (scicpp/core/functional.hpp:185). -/
def strictlyNegative (x : IFl f) : Bool := IFl.lt x (IFl.fin 0)
/-- `filters::negative` (scicpp/core/functional.hpp:186). -/
def negative (x : IFl f) : Bool := IFl.le x (IFl.fin 0)
/-- `filters::Trim<T>::operator()` (scicpp/core/functional.hpp:194-197). -/
def trim (lo hi : IFl f) (il ih : Bool) (x : IFl f) : Bool :=
  (if il then IFl.le lo x else IFl.lt lo x) && (if ih then IFl.le x hi else IFl.lt x hi)

end Filters
end SciCpp
