import Verif.Model.F64
import Verif.Model.Ex
/-
  IEEE-754 binary floating point with its bounded exponent range: rounding to nearest, ties to even,
  gradual underflow, overflow to infinity.  Simplification: zeros have no sign.
  There is no definition of these operations in /repo: they are what `double` and `float` arithmetic in
  scicpp/core/*.hpp computes.
-/
namespace SciCpp

/-- A binary format: `frac` fraction bits, least normal exponent `emin`; finite values are smaller than
`2^emax`. -/
structure Fmt where
  frac : ℕ
  emin : ℤ
  emax : ℤ

/-- `double`. -/
def binary64 : Fmt := ⟨52, -1022, 1024⟩
/-- `float`. -/
def binary32 : Fmt := ⟨23, -126, 128⟩

namespace Fmt

/-- Round to nearest even with `frac` fraction bits; below `2^emin` the spacing stays
`2^(emin - frac)`. -/
def rnd (f : Fmt) (q : ℚ) : ℚ :=
  if q = 0 then 0
  else
    let s : ℚ := (2 : ℚ) ^ ((f.frac : ℤ) - max (expo q) f.emin)
    (nearestEven (q * s) : ℚ) / s

/-- The rounded value, or an infinity when it would be `2^emax` or more in magnitude. -/
def ofRat (f : Fmt) (q : ℚ) : Fl :=
  if (2 : ℚ) ^ f.emax ≤ |f.rnd q| then .inf (decide (q < 0)) else .fin (f.rnd q)

/-- Round the exact result of an operation. -/
def round (f : Fmt) : Fl → Fl
  | .fin q => f.ofRat q
  | .nan => .nan
  | .inf b => .inf b

end Fmt

/-- The values of a format (as in `RFl`, the carrier also contains rationals that are not representable;
no operation returns one). -/
def IFl (_ : Fmt) : Type := Fl

/-- `double` with overflow and underflow. -/
abbrev D64 : Type := IFl binary64
/-- `float` with overflow and underflow. -/
abbrev D32 : Type := IFl binary32

namespace IFl

variable {f : Fmt}

/-- A finite value. -/
def fin (q : ℚ) : IFl f := Fl.fin q
/-- NaN. -/
def nan : IFl f := Fl.nan
/-- `+∞` (`inf false`) and `-∞` (`inf true`). -/
def inf (neg : Bool) : IFl f := Fl.inf neg

/-- `a < b`. -/
def lt (a b : IFl f) : Bool := Fl.lt a b
/-- `a <= b`. -/
def le (a b : IFl f) : Bool := Fl.le a b
/-- `a == b`. -/
def eqv (a b : IFl f) : Bool := Fl.eqv a b
/-- `std::fma` with one rounding. -/
def fma (x y z : IFl f) : IFl f := f.round (Fl.add (Fl.mul x y) z)

instance : Add (IFl f) := ⟨fun a b => f.round (Fl.add a b)⟩
instance : Sub (IFl f) := ⟨fun a b => f.round (Fl.sub a b)⟩
instance : Mul (IFl f) := ⟨fun a b => f.round (Fl.mul a b)⟩
instance : Div (IFl f) := ⟨fun a b => f.round (Fl.div a b)⟩
instance : Neg (IFl f) := ⟨fun a => Fl.neg a⟩
instance : Zero (IFl f) := ⟨Fl.fin 0⟩
instance : One (IFl f) := ⟨Fl.fin 1⟩
/-- `raw_t(n)` for an unsigned `n`. -/
instance : NatCast (IFl f) := ⟨fun n => f.ofRat n⟩
instance : DecidableEq (IFl f) := inferInstanceAs (DecidableEq Fl)

/-- `raw_t(int)`, `quiet_NaN()`, `infinity()` and `conj` (the identity on real types,
scicpp/core/maths.hpp:104-110). -/
instance : CppNum (IFl f) where
  ofInt n := f.ofRat n
  qnan := nan
  infty := inf false
  conj x := x

end IFl
end SciCpp
