import Verif.Model.QFloat
/-
  Model of `std::numeric_limits<quantity<…>>` (scicpp/core/units/maths.hpp:380-425) over a floating point
  representation type.  `std::numeric_limits<T>` itself is what the standard says for a binary format.
-/
namespace SciCpp

namespace Fmt

/-- `std::numeric_limits<T>::max()`: all fraction bits set, largest exponent
(read by scicpp/core/units/maths.hpp:399-400). -/
def maxVal (f : Fmt) : ℚ := ((2 : ℚ) ^ (f.frac + 1) - 1) * (2 : ℚ) ^ (f.emax - 1 - f.frac)
/-- `std::numeric_limits<T>::min()` (read by scicpp/core/units/maths.hpp:394-395). -/
def minVal (f : Fmt) : ℚ := (2 : ℚ) ^ f.emin
/-- `std::numeric_limits<T>::epsilon()` (read by scicpp/core/units/maths.hpp:414-415). -/
def epsVal (f : Fmt) : ℚ := (2 : ℚ) ^ (-(f.frac : ℤ))
/-- `std::numeric_limits<T>::denorm_min()` (read by scicpp/core/units/maths.hpp:424-425). -/
def denormVal (f : Fmt) : ℚ := (2 : ℚ) ^ (f.emin - f.frac)

end Fmt

variable {f : Fmt}

/-- `numeric_limits<quantity>::quiet_NaN()` (scicpp/core/units/maths.hpp:386-389). -/
def limNaN (t : QTy) : Qty (IFl f) := ⟨t, IFl.nan⟩
/-- `numeric_limits<quantity>::min()` (scicpp/core/units/maths.hpp:391-394). -/
def limMin (t : QTy) : Qty (IFl f) := ⟨t, IFl.fin f.minVal⟩
/-- `numeric_limits<quantity>::max()` (scicpp/core/units/maths.hpp:396-399). -/
def limMax (t : QTy) : Qty (IFl f) := ⟨t, IFl.fin f.maxVal⟩
/-- `numeric_limits<quantity>::lowest()` (scicpp/core/units/maths.hpp:401-404). -/
def limLowest (t : QTy) : Qty (IFl f) := ⟨t, IFl.fin (-f.maxVal)⟩
/-- `numeric_limits<quantity>::infinity()` (scicpp/core/units/maths.hpp:406-409). -/
def limInf (t : QTy) : Qty (IFl f) := ⟨t, IFl.inf false⟩
/-- `numeric_limits<quantity>::epsilon()` (scicpp/core/units/maths.hpp:411-414). -/
def limEps (t : QTy) : Qty (IFl f) := ⟨t, IFl.fin f.epsVal⟩
/-- `numeric_limits<quantity>::round_error()` (scicpp/core/units/maths.hpp:416-419): 1/2 for rounding to
nearest. -/
def limRoundError (t : QTy) : Qty (IFl f) := ⟨t, IFl.fin (1 / 2)⟩
/-- `numeric_limits<quantity>::denorm_min()` (scicpp/core/units/maths.hpp:421-424). -/
def limDenorm (t : QTy) : Qty (IFl f) := ⟨t, IFl.fin f.denormVal⟩

end SciCpp
