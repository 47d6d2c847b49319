import Verif.Model.QExpr
import Verif.Spec.Quantity
/-
  Specification vocabulary for units with an offset (absolute temperatures): the offset rules of expressions, and what an expression means on
  readings (what the scale shows, in base units, above its zero point).
-/
namespace SciCpp

/-- The zero point of a type: none for a number. -/
def QT.off : QT → Option ℚ
  | .num => none
  | .qty t => some t.off

/-- The same type with the zero point 0. -/
def QT.strip : QT → QT
  | .num => .num
  | .qty t => .qty ⟨t.dim, t.scal, 0⟩

/-- Valid template arguments. -/
def QT.Valid : QT → Prop
  | .num => True
  | .qty t => t.Valid

/-- The reading of a value in base units, above the zero point of its unit. -/
noncomputable def QVal.reading : QVal → ℝ
  | .num x => x
  | .qty q => q.ty.scal.val * q.val

/-- Sums, differences, maxima, …: both operands are numbers, or both have the same zero point. -/
def offSame : Option ℚ → Option ℚ → Option (Option ℚ)
  | a, b => if a = b then some a else none

/-- Products: a number leaves the zero point alone; the right one of two quantities must have the zero point 0, and so has the product. -/
def offMul : Option ℚ → Option ℚ → Option (Option ℚ)
  | none, b => some b
  | a, none => some a
  | some _, some q => if q = 0 then some (some 0) else none

/-- Quotients: a number below leaves the zero point alone; a number above gives 0; the lower one of two quantities must have the zero point 0. -/
def offDiv : Option ℚ → Option ℚ → Option (Option ℚ)
  | a, none => some a
  | none, some _ => some (some 0)
  | some _, some q => if q = 0 then some (some 0) else none

/-- Powers and roots of quantities have the zero point 0. -/
def offZero : Option ℚ → Option (Option ℚ)
  | none => some none
  | some _ => some (some 0)

/-- Conversions of quantities go to the zero point of the target. -/
def offCast (t : QTy) : Option ℚ → Option (Option ℚ)
  | none => none
  | some _ => some (some t.off)

/-- The zero point of an expression (`none`: the rules are broken; `some none`: a number), when variable `i` has the zero point `O i`. -/
def QEx.offs (O : ℕ → Option ℚ) : QEx → Option (Option ℚ)
  | .var i => some (O i)
  | .lit _ => some none
  | .add a b => (a.offs O).bind fun x => (b.offs O).bind fun y => offSame x y
  | .sub a b => (a.offs O).bind fun x => (b.offs O).bind fun y => offSame x y
  | .mul a b => (a.offs O).bind fun x => (b.offs O).bind fun y => offMul x y
  | .div a b => (a.offs O).bind fun x => (b.offs O).bind fun y => offDiv x y
  | .neg a => a.offs O
  | .pow _ a => (a.offs O).bind offZero
  | .root _ a => (a.offs O).bind offZero
  | .cast t a => (a.offs O).bind (offCast t)
  | .abs a => a.offs O
  | .fmax a b => (a.offs O).bind fun x => (b.offs O).bind fun y => offSame x y
  | .fmin a b => (a.offs O).bind fun x => (b.offs O).bind fun y => offSame x y
  | .hypot a b => (a.offs O).bind fun x => (b.offs O).bind fun y => offSame x y

/-- The zero point of an expression as a number (0 for a number). -/
def QEx.zero (O : ℕ → Option ℚ) (e : QEx) : ℚ := ((e.offs O).getD none).getD 0

/-- What the expression does to the readings: every operation acts on the readings alone; a conversion to `t` adds the difference of the zero points
in units of `t`. -/
noncomputable def QEx.reading (O : ℕ → Option ℚ) (m : ℕ → ℝ) : QEx → ℝ
  | .var i => m i
  | .lit x => x
  | .add a b => a.reading O m + b.reading O m
  | .sub a b => a.reading O m - b.reading O m
  | .mul a b => a.reading O m * b.reading O m
  | .div a b => a.reading O m / b.reading O m
  | .neg a => -a.reading O m
  | .pow n a => a.reading O m ^ n
  | .root n a => a.reading O m ^ ((1 : ℝ) / ((n : ℝ) + 1))
  | .cast t a => a.reading O m + t.scal.val * ((a.zero O : ℝ) - (t.off : ℝ))
  | .abs a => |a.reading O m|
  | .fmax a b => max (a.reading O m) (b.reading O m)
  | .fmin a b => min (a.reading O m) (b.reading O m)
  | .hypot a b => Real.sqrt (a.reading O m ^ 2 + b.reading O m ^ 2)

/-- No division by a zero reading and no root of a negative reading. -/
def QEx.DefinedR (O : ℕ → Option ℚ) (m : ℕ → ℝ) : QEx → Prop
  | .var _ => True
  | .lit _ => True
  | .add a b => a.DefinedR O m ∧ b.DefinedR O m
  | .sub a b => a.DefinedR O m ∧ b.DefinedR O m
  | .mul a b => a.DefinedR O m ∧ b.DefinedR O m
  | .div a b => a.DefinedR O m ∧ b.DefinedR O m ∧ b.reading O m ≠ 0
  | .neg a => a.DefinedR O m
  | .pow _ a => a.DefinedR O m
  | .root _ a => a.DefinedR O m ∧ 0 ≤ a.reading O m
  | .cast _ a => a.DefinedR O m
  | .abs a => a.DefinedR O m
  | .fmax a b => a.DefinedR O m ∧ b.DefinedR O m
  | .fmin a b => a.DefinedR O m ∧ b.DefinedR O m
  | .hypot a b => a.DefinedR O m ∧ b.DefinedR O m

/-- The conversions of an expression go to types with valid template arguments. -/
def QEx.CastsValid : QEx → Prop
  | .var _ => True
  | .lit _ => True
  | .add a b => a.CastsValid ∧ b.CastsValid
  | .sub a b => a.CastsValid ∧ b.CastsValid
  | .mul a b => a.CastsValid ∧ b.CastsValid
  | .div a b => a.CastsValid ∧ b.CastsValid
  | .neg a => a.CastsValid
  | .pow _ a => a.CastsValid
  | .root _ a => a.CastsValid
  | .cast t a => t.Valid ∧ a.CastsValid
  | .abs a => a.CastsValid
  | .fmax a b => a.CastsValid ∧ b.CastsValid
  | .fmin a b => a.CastsValid ∧ b.CastsValid
  | .hypot a b => a.CastsValid ∧ b.CastsValid

/-- The same expression with conversions to units with the zero point 0. -/
def QEx.strip : QEx → QEx
  | .var i => .var i
  | .lit x => .lit x
  | .add a b => .add a.strip b.strip
  | .sub a b => .sub a.strip b.strip
  | .mul a b => .mul a.strip b.strip
  | .div a b => .div a.strip b.strip
  | .neg a => .neg a.strip
  | .pow n a => .pow n a.strip
  | .root n a => .root n a.strip
  | .cast t a => .cast ⟨t.dim, t.scal, 0⟩ a.strip
  | .abs a => .abs a.strip
  | .fmax a b => .fmax a.strip b.strip
  | .fmin a b => .fmin a.strip b.strip
  | .hypot a b => .hypot a.strip b.strip

end SciCpp
