import Verif.Model.QTmpl
import Verif.Model.F64
/-
  Model of scicpp/core/constants.hpp: mathematical and physical constants for every floating point
  type `T`.  `lit q` is `T(q)` for the decimal literal `q`; the operators are those of `T`, so the same
  definitions give the exact values (`T = ℝ`) and what `float` and `double` compute.
-/
namespace SciCpp

/-- IEEE-754 binary32 rounding to nearest, ties to even, with gradual underflow (the smallest positive
value is `2^-149`).  Simplification: no overflow to infinity. -/
def rnd32 (q : ℚ) : ℚ :=
  if q = 0 then 0
  else
    let s : ℚ := (2 : ℚ) ^ (23 - max (expo q) (-126))
    (nearestEven (q * s) : ℚ) / s

/-- `float`. -/
abbrev F32 : Type := RFl rnd32

/-- `pi<T>` (scicpp/core/constants.hpp:17): the literal. -/
def litPi : ℚ := 3.1415926535897932384626433832795029
/-- `e<T>` (scicpp/core/constants.hpp:20): the literal. -/
def litE : ℚ := 2.7182818284590452353602874713526625
/-- `euler_gamma<T>` (scicpp/core/constants.hpp:23): the literal. -/
def litGamma : ℚ := 0.5772156649015328606065120900824024310421
/-- `apery_cst<T>` (scicpp/core/constants.hpp:27): the literal. -/
def litApery : ℚ := 1.20205690315959428539

section Ops
variable {T : Type} [Mul T] [Div T] [One T]

/-- `operator*` of two quantities (scicpp/core/units/quantity.hpp:322-327); `qMul` for a raw
arithmetic type. -/
def gMul (a b : Qty T) : Res (Qty T) := do
  let t ← tyMul a.ty b.ty
  pure ⟨t, a.val * b.val⟩

/-- `operator/` of two quantities (scicpp/core/units/quantity.hpp:329-334). -/
def gDiv (a b : Qty T) : Res (Qty T) := do
  let t ← tyDiv a.ty b.ty
  pure ⟨t, a.val / b.val⟩

/-- `operator*(factor, quantity)` (scicpp/core/units/quantity.hpp:355-378). -/
def gScale (k : T) (a : Qty T) : Qty T := ⟨a.ty, k * a.val⟩

/-- `operator/(factor, quantity)`: `factor * rhs.inv()` (scicpp/core/units/quantity.hpp:336-340,
380-389). -/
def gScalarDiv (k : T) (a : Qty T) : Res (Qty T) := do
  let t ← tyInv a.ty
  pure ⟨t, k * (1 / a.val)⟩

/-- `operator/(quantity, factor)`: `rhs * (T2{1} / factor)` (scicpp/core/units/quantity.hpp:391-401). -/
def gDivScalar (a : Qty T) (k : T) : Qty T := gScale (1 / k) a

variable (lit : ℚ → T)

/-- `physical_constants<T>::c` (scicpp/core/constants.hpp:40). -/
def pcC : Res (Qty T) := do
  let t ← QTmpl.speed.ty one1
  pure ⟨t, lit 299792458⟩

/-- `physical_constants<T>::G` (scicpp/core/constants.hpp:43-48). -/
def pcG : Res (Qty T) := do
  let vol ← QTmpl.volume.ty one1
  let t2 ← tyMul (tyBase 2 one1) (tyBase 2 one1)
  let mt2 ← tyMul (tyBase 3 one1) t2
  let t ← tyDiv vol mt2
  pure ⟨t, lit 6.67430E-11⟩

/-- `physical_constants<T>::h` (scicpp/core/constants.hpp:51-53). -/
def pcH : Res (Qty T) := do
  let en ← QTmpl.energy.ty one1
  let t ← tyMul en (tyBase 2 one1)
  pure ⟨t, lit 6.62607015E-34⟩

/-- `physical_constants<T>::hbar` (scicpp/core/constants.hpp:54). -/
def pcHbar : Res (Qty T) := do
  let h ← pcH lit
  pure (gDivScalar h (lit 2 * lit litPi))

/-- `physical_constants<T>::e` (scicpp/core/constants.hpp:57). -/
def pcE : Res (Qty T) := do
  let t ← QTmpl.electricCharge.ty one1
  pure ⟨t, lit 1.602176634E-19⟩

/-- `physical_constants<T>::m_e` (scicpp/core/constants.hpp:60). -/
def pcMe : Res (Qty T) := .ok ⟨tyBase 3 one1, lit 9.1093837015E-31⟩

/-- `physical_constants<T>::m_p` (scicpp/core/constants.hpp:63). -/
def pcMp : Res (Qty T) := .ok ⟨tyBase 3 one1, lit 1.67262192369E-27⟩

/-- `physical_constants<T>::alpha` (scicpp/core/constants.hpp:66). -/
def pcAlpha : T := lit 7.2973525693E-3

/-- `physical_constants<T>::mu0` (scicpp/core/constants.hpp:69). -/
def pcMu0 : Res (Qty T) := do
  let h ← pcH lit
  let e ← pcE lit
  let c ← pcC lit
  let ee ← gMul e e
  let eec ← gMul ee c
  gDiv (gScale (lit 2 * pcAlpha lit) h) eec

/-- `physical_constants<T>::epsilon0` (scicpp/core/constants.hpp:72). -/
def pcEps0 : Res (Qty T) := do
  let mu0 ← pcMu0 lit
  let c ← pcC lit
  let a ← gMul mu0 c
  let b ← gMul a c
  gScalarDiv (lit 1) b

/-- `physical_constants<T>::K_J` (scicpp/core/constants.hpp:75). -/
def pcKJ : Res (Qty T) := do
  let e ← pcE lit
  let h ← pcH lit
  gDiv (gScale (lit 2) e) h

/-- `physical_constants<T>::R_K` (scicpp/core/constants.hpp:78). -/
def pcRK : Res (Qty T) := do
  let h ← pcH lit
  let e ← pcE lit
  let ee ← gMul e e
  gDiv h ee

/-- `physical_constants<T>::Phi0` (scicpp/core/constants.hpp:81). -/
def pcPhi0 : Res (Qty T) := do
  let k ← pcKJ lit
  gScalarDiv (lit 1) k

/-- `physical_constants<T>::muB` (scicpp/core/constants.hpp:84). -/
def pcMuB : Res (Qty T) := do
  let e ← pcE lit
  let hbar ← pcHbar lit
  let m ← pcMe lit
  let x ← gMul (gScale (lit 0.5) e) hbar
  gDiv x m

/-- `physical_constants<T>::muN` (scicpp/core/constants.hpp:87). -/
def pcMuN : Res (Qty T) := do
  let e ← pcE lit
  let hbar ← pcHbar lit
  let m ← pcMp lit
  let x ← gMul (gScale (lit 0.5) e) hbar
  gDiv x m

/-- `physical_constants<T>::Rinf` (scicpp/core/constants.hpp:90). -/
def pcRinf : Res (Qty T) := do
  let m ← pcMe lit
  let c ← pcC lit
  let h ← pcH lit
  let x ← gMul (gScale (lit 0.5 * pcAlpha lit * pcAlpha lit) m) c
  gDiv x h

/-- `physical_constants<T>::a0` (scicpp/core/constants.hpp:93). -/
def pcA0 : Res (Qty T) := do
  let hbar ← pcHbar lit
  let m ← pcMe lit
  let c ← pcC lit
  let x ← gMul (gScale (pcAlpha lit) m) c
  gDiv hbar x

/-- `physical_constants<T>::k` (scicpp/core/constants.hpp:96-98). -/
def pcK : Res (Qty T) := do
  let en ← QTmpl.energy.ty one1
  let t ← tyDiv en (tyBase 5 one1)
  pure ⟨t, lit 1.380649E-23⟩

end Ops

/-- `T(q)` in exact arithmetic. -/
noncomputable def litR (q : ℚ) : ℝ := (q : ℝ)
/-- `double(q)`. -/
def lit64 (q : ℚ) : F64 := RFl.fin (rnd64 q)
/-- `float(q)`: the literals are of type `double`. -/
def lit32 (q : ℚ) : F32 := RFl.fin (rnd32 (rnd64 q))

/-- The constants with a dimension, by name (scicpp/core/constants.hpp:34-99). -/
inductive PhysConst where
  | c | G | h | hbar | e | m_e | m_p | mu0 | epsilon0 | K_J | R_K | Phi0 | muB | muN | Rinf | a0 | k
deriving DecidableEq, Repr

/-- `physical_constants<T>::name` (scicpp/core/constants.hpp:34-99). -/
def PhysConst.get {T : Type} [Mul T] [Div T] [One T] (lit : ℚ → T) : PhysConst → Res (Qty T)
  | .c => pcC lit
  | .G => pcG lit
  | .h => pcH lit
  | .hbar => pcHbar lit
  | .e => pcE lit
  | .m_e => pcMe lit
  | .m_p => pcMp lit
  | .mu0 => pcMu0 lit
  | .epsilon0 => pcEps0 lit
  | .K_J => pcKJ lit
  | .R_K => pcRK lit
  | .Phi0 => pcPhi0 lit
  | .muB => pcMuB lit
  | .muN => pcMuN lit
  | .Rinf => pcRinf lit
  | .a0 => pcA0 lit
  | .k => pcK lit

end SciCpp
