import Verif.Model.SpectralF
import Verif.Model.Numeric
import Verif.Model.Stats
import Verif.Model.Poly
/-
  Arrays of `std::complex<double>`: the reductions and statistics of scicpp/core/numeric.hpp and scicpp/core/stats.hpp are templates,
  so the definitions of `Model/Numeric.lean` and `Model/Stats.lean` are used, instantiated with complex numbers whose components are
  rounded with `rnd`.
-/
namespace SciCpp

variable {rnd : ℚ → ℚ}

namespace CK

/-- `std::complex<double>(1)`. -/
instance instOneRFl : One (CK (RFl rnd)) := ⟨⟨1, 0⟩⟩

/-- `operator/(complex, complex)` on finite numbers: the compiler's function (`__divdc3` of libgcc) uses Smith's method.  Its scaling of
very large and very small operands is not modelled (there is no overflow or underflow here). -/
def div (x y : CK (RFl rnd)) : CK (RFl rnd) :=
  if RFl.lt (RFl.abs y.re) (RFl.abs y.im) then
    let r := y.re / y.im
    let d := y.re * r + y.im
    ⟨(x.re * r + x.im) / d, (x.im * r - x.re) / d⟩
  else
    let r := y.im / y.re
    let d := y.im * r + y.re
    ⟨(x.im * r + x.re) / d, (x.im - x.re * r) / d⟩

/-- `operator-(complex)`. -/
instance instNegRFl : Neg (CK (RFl rnd)) := ⟨fun z => ⟨-z.re, -z.im⟩⟩

instance instDivRFl : Div (CK (RFl rnd)) := ⟨div⟩

/-- `raw_t(int)`, `numeric_limits<std::complex<double>>::quiet_NaN()`, `infinity()` and `conj` for `std::complex<double>`.
`std::numeric_limits` is not specialised for `std::complex`: the functions of the primary template return `T()`, which is `0`
(stats.hpp:313, 396, 448). -/
instance instCppNumRFl : CppNum (CK (RFl rnd)) where
  ofInt n := ⟨RFl.fin (rnd n), 0⟩
  qnan := 0
  infty := 0
  conj := CK.conj

end CK

/-- `var<ddof>(f)` of an array of complex numbers (scicpp/core/stats.hpp:475-491): the real part of the covariance of the array with itself. -/
def varC (ddof : ℤ) (l : List (CK (RFl rnd))) : Res (RFl rnd) := do
  let r ← varF ddof l fun _ => true
  pure r.1.re

/-- `std<ddof>(f)` (scicpp/core/stats.hpp:514-522); `sqrt` is `std::sqrt`. -/
def stdC (sqrt : RFl rnd → RFl rnd) (ddof : ℤ) (l : List (CK (RFl rnd))) : Res (RFl rnd) := do
  let v ← varC ddof l
  pure (sqrt v)

/-- `correlate` of arrays of complex numbers, direct method (scicpp/signal/convolve.hpp:134-149). -/
def correlateC (a v : List (CK (RFl rnd))) : Res (List (CK (RFl rnd))) := convolve a (v.reverse.map CK.conj)

end SciCpp
