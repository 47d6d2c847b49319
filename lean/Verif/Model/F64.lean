import Verif.Model.Fl
import Mathlib.Data.Rat.Floor
import Mathlib.Algebra.Order.Floor.Ring
/-
  Rounded floating point arithmetic.
  `RFl rnd` are the values of `Fl` (NaN, ±∞, rationals) with every arithmetic result rounded by
  `rnd : ℚ → ℚ`; `rnd64` is the IEEE-754 binary64 rounding (to nearest, ties to even).
  Simplifications: unbounded exponent range (no overflow to ∞, no underflow), no signed zero.
  There is no definition of these operations in /repo: they are what `double` arithmetic in
  scicpp/core/*.hpp computes.
-/
namespace SciCpp

/-- `std::nearbyint` on rationals in the default rounding mode (nearest, ties to even). -/
def nearestEven (h : ℚ) : ℤ :=
  let f := ⌊h⌋
  if h - f < 1 / 2 then f
  else if 1 / 2 < h - f then f + 1
  else if f % 2 = 0 then f else f + 1

/-- Binary exponent of a positive rational: the `e` with `2^e ≤ q < 2^(e+1)`. -/
def expo (q : ℚ) : ℤ :=
  let e0 : ℤ := (Nat.log2 q.num.natAbs : ℤ) - (Nat.log2 q.den : ℤ)
  if (2 : ℚ) ^ e0 ≤ |q| then e0 else e0 - 1

/-- Rounding to 53 significant bits. -/
def rnd64 (q : ℚ) : ℚ :=
  if q = 0 then 0
  else
    let s : ℚ := (2 : ℚ) ^ (52 - expo q)
    (nearestEven (q * s) : ℚ) / s

/-- Floating point values whose arithmetic rounds with `rnd`. -/
def RFl (_ : ℚ → ℚ) : Type := Fl

/-- `double`. -/
abbrev F64 : Type := RFl rnd64

namespace RFl

variable {rnd : ℚ → ℚ}

/-- Round a finite result. -/
def round (rnd : ℚ → ℚ) : Fl → RFl rnd
  | .fin q => .fin (rnd q)
  | .nan => .nan
  | .inf b => .inf b

/-- A finite value. -/
def fin (q : ℚ) : RFl rnd := Fl.fin q
/-- NaN. -/
def nan : RFl rnd := Fl.nan
/-- `+∞` (`inf false`) and `-∞` (`inf true`). -/
def inf (neg : Bool) : RFl rnd := Fl.inf neg

/-- `a < b`. -/
def lt (a b : RFl rnd) : Bool := Fl.lt a b
/-- `a <= b`. -/
def le (a b : RFl rnd) : Bool := Fl.le a b
/-- `a == b`. -/
def eqv (a b : RFl rnd) : Bool := Fl.eqv a b
/-- `std::isnan`. -/
def isNan (a : RFl rnd) : Bool := Fl.isNan a
/-- `std::isinf`. -/
def isInf (a : RFl rnd) : Bool := Fl.isInf a
/-- `std::fabs`. -/
def abs (a : RFl rnd) : RFl rnd := Fl.abs a
/-- `std::max(a, b)`: `(a < b) ? b : a`. -/
def max (a b : RFl rnd) : RFl rnd := if lt a b then b else a
/-- `std::signbit` (sign of zero not modelled). -/
def signbit (a : RFl rnd) : Bool :=
  match (a : Fl) with
  | .inf b => b
  | .fin q => decide (q < 0)
  | .nan => false
/-- `std::fpclassify(a) == FP_ZERO`, `is_zero` of scicpp/core/equal.hpp:24-27. -/
def isZero (a : RFl rnd) : Bool :=
  match (a : Fl) with
  | .fin q => decide (q = 0)
  | _ => false
/-- `std::fma` with one rounding. -/
def fma (x y z : RFl rnd) : RFl rnd := round rnd (Fl.add (Fl.mul x y) z)

instance : Add (RFl rnd) := ⟨fun a b => round rnd (Fl.add a b)⟩
instance : Sub (RFl rnd) := ⟨fun a b => round rnd (Fl.sub a b)⟩
instance : Mul (RFl rnd) := ⟨fun a b => round rnd (Fl.mul a b)⟩
instance : Div (RFl rnd) := ⟨fun a b => round rnd (Fl.div a b)⟩
instance : Neg (RFl rnd) := ⟨fun a => Fl.neg a⟩
instance : Zero (RFl rnd) := ⟨Fl.fin 0⟩
instance : One (RFl rnd) := ⟨Fl.fin 1⟩
/-- `raw_t(n)` for an unsigned `n`. -/
instance : NatCast (RFl rnd) := ⟨fun n => Fl.fin (rnd n)⟩
instance : DecidableEq (RFl rnd) := inferInstanceAs (DecidableEq Fl)

end RFl
end SciCpp
