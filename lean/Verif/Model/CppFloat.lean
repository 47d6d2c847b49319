import Verif.Model.F64
import Verif.Model.Ex
/-
  The statistics code instantiated with a floating point element type.
-/
namespace SciCpp

/-- `raw_t(int)`, `quiet_NaN()`, `infinity()` and `conj` of a floating point type (`conj` is the identity
on real types, scicpp/core/maths.hpp:104-110).  The conversion from `int` rounds. -/
instance (rnd : ℚ → ℚ) : CppNum (RFl rnd) where
  ofInt n := RFl.fin (rnd n)
  qnan := RFl.nan
  infty := RFl.inf false
  conj x := x

namespace RFl
variable {rnd : ℚ → ℚ}
@[simp] theorem ofInt_def (n : ℤ) : (CppNum.ofInt n : RFl rnd) = fin (rnd n) := rfl
@[simp] theorem qnan_def : (CppNum.qnan : RFl rnd) = nan := rfl
@[simp] theorem infty_def : (CppNum.infty : RFl rnd) = inf false := rfl
@[simp] theorem conj_def (x : RFl rnd) : CppNum.conj x = x := rfl
end RFl
end SciCpp
