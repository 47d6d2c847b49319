import Verif.Model.QMaths
import Verif.Model.UnitTable
/-
  Model of expressions of quantities and numbers: which expressions compile, the type of the result and its value.

  The operators are those of scicpp/core/units/quantity.hpp and scicpp/core/units/maths.hpp (`qAdd`, `qMul`, … of Model/Quantity.lean);
  this file adds the choice of the operator by the kinds of the operands (number or quantity) and the composition of operators.
  All numbers are `double`, idealised as ℝ.
-/
namespace SciCpp

/-- The value of an expression: a number or a quantity. -/
inductive QVal where
  | num (x : ℝ)
  | qty (q : Qty ℝ)

/-- The type of an expression. -/
inductive QT where
  | num
  | qty (t : QTy)
deriving DecidableEq

/-- The type of a value. -/
def QVal.ty : QVal → QT
  | .num _ => .num
  | .qty q => .qty q.ty

/-- Expressions: variables, literals, `+`, `-`, `*`, `/`, unary `-`, `units::pow<n>`, `units::root<n + 1>` (`sqrt`, `cbrt`), `quantity_cast<t>`
(also: initialisation of a variable of type `t`), `units::abs`, `units::fmax`, `units::fmin`, `units::hypot`. -/
inductive QEx where
  | var (i : ℕ)
  | lit (x : ℝ)
  | add (a b : QEx)
  | sub (a b : QEx)
  | mul (a b : QEx)
  | div (a b : QEx)
  | neg (a : QEx)
  | pow (n : ℕ) (a : QEx)
  | root (n : ℕ) (a : QEx)
  | cast (t : QTy) (a : QEx)
  | abs (a : QEx)
  | fmax (a b : QEx)
  | fmin (a b : QEx)
  | hypot (a b : QEx)

/-- `a + b`: two numbers, or two quantities (scicpp/core/units/quantity.hpp:306-312); no operator takes a number and a quantity
(the constructor from a number is `explicit`, 191-193). -/
noncomputable def vAdd : QVal → QVal → Res QVal
  | .num x, .num y => .ok (.num (x + y))
  | .qty a, .qty b => do pure (.qty (← qAdd a b))
  | _, _ => .ub

/-- `a - b` (scicpp/core/units/quantity.hpp:314-320). -/
noncomputable def vSub : QVal → QVal → Res QVal
  | .num x, .num y => .ok (.num (x - y))
  | .qty a, .qty b => do pure (.qty (← qSub a b))
  | _, _ => .ub

/-- `a * b` (scicpp/core/units/quantity.hpp:322-327, 355-378). -/
noncomputable def vMul : QVal → QVal → Res QVal
  | .num x, .num y => .ok (.num (x * y))
  | .num x, .qty b => .ok (.qty (qScale x b))
  | .qty a, .num y => .ok (.qty (qScale y a))
  | .qty a, .qty b => do pure (.qty (← qMul a b))

/-- `a / b` (scicpp/core/units/quantity.hpp:329-334, 380-401).  Simplification: a division by zero (an infinity or NaN in the program) is
outside the model (`ub`). -/
noncomputable def vDiv : QVal → QVal → Res QVal
  | .num x, .num y => if y = 0 then .ub else .ok (.num (x / y))
  | .num x, .qty b => if b.val = 0 then .ub else do pure (.qty (← qScalarDiv x b))
  | .qty a, .num y => if y = 0 then .ub else .ok (.qty (qDivScalar a y))
  | .qty a, .qty b => if b.val = 0 then .ub else do pure (.qty (← qDiv a b))

/-- Unary minus (scicpp/core/units/quantity.hpp:290). -/
noncomputable def vNeg : QVal → QVal
  | .num x => .num (-x)
  | .qty a => .qty (qNeg a)

/-- `units::pow<n>`, `n ≥ 0` (scicpp/core/units/maths.hpp:125-140). -/
noncomputable def vPow (n : ℕ) : QVal → Res QVal
  | .num x => .ok (.num (powSq x n))
  | .qty a => do pure (.qty (← qPow n a))

/-- `units::root<n + 1>` (scicpp/core/units/quantity.hpp:412-427), `sqrt` and `cbrt` (scicpp/core/units/maths.hpp:101-123).  Simplification:
the root of a negative number (NaN in the program) is outside the model (`ub`). -/
noncomputable def vRoot (n : ℕ) : QVal → Res QVal
  | .num x => if x < 0 then .ub else .ok (.num (x ^ ((1 : ℝ) / ((n + 1 : ℕ) : ℝ))))
  | .qty a => if a.val < 0 then .ub else do pure (.qty (← qRoot (n + 1) a))

/-- `quantity_cast<t>(a)` (scicpp/core/units/quantity.hpp:132-154); a number is not a quantity. -/
noncomputable def vCast (t : QTy) : QVal → Res QVal
  | .num _ => .ub
  | .qty a => do pure (.qty (← quantityCast t a))

/-- `units::abs` (scicpp/core/units/maths.hpp:62-70). -/
noncomputable def vAbs : QVal → QVal
  | .num x => .num |x|
  | .qty a => .qty (qAbs a)

/-- `units::fmax(x, y)` (scicpp/core/units/maths.hpp:72-75): one template parameter, so both arguments have the same type. -/
noncomputable def vFmax : QVal → QVal → Res QVal
  | .num x, .num y => .ok (.num (max x y))
  | .qty a, .qty b => if a.ty ≠ b.ty then .ub else .ok (.qty (qFmax a.ty a.val b.val))
  | _, _ => .ub

/-- `units::fmin(x, y)` (scicpp/core/units/maths.hpp:77-80). -/
noncomputable def vFmin : QVal → QVal → Res QVal
  | .num x, .num y => .ok (.num (min x y))
  | .qty a, .qty b => if a.ty ≠ b.ty then .ub else .ok (.qty (qFmin a.ty a.val b.val))
  | _, _ => .ub

/-- `units::hypot(x, y)` (scicpp/core/units/maths.hpp:144-147). -/
noncomputable def vHypot : QVal → QVal → Res QVal
  | .num x, .num y => .ok (.num (Real.sqrt (x ^ 2 + y ^ 2)))
  | .qty a, .qty b => if a.ty ≠ b.ty then .ub else .ok (.qty (qHypot a.ty a.val b.val))
  | _, _ => .ub

/-- The value of an expression; `ub` when it does not compile or has no real value (scicpp/core/units/quantity.hpp:132-427,
scicpp/core/units/maths.hpp:57-147). -/
noncomputable def QEx.eval (env : ℕ → QVal) : QEx → Res QVal
  | .var i => .ok (env i)
  | .lit x => .ok (.num x)
  | .add a b => do let x ← a.eval env; let y ← b.eval env; vAdd x y
  | .sub a b => do let x ← a.eval env; let y ← b.eval env; vSub x y
  | .mul a b => do let x ← a.eval env; let y ← b.eval env; vMul x y
  | .div a b => do let x ← a.eval env; let y ← b.eval env; vDiv x y
  | .neg a => do let x ← a.eval env; pure (vNeg x)
  | .pow n a => do let x ← a.eval env; vPow n x
  | .root n a => do let x ← a.eval env; vRoot n x
  | .cast t a => do let x ← a.eval env; vCast t x
  | .abs a => do let x ← a.eval env; pure (vAbs x)
  | .fmax a b => do let x ← a.eval env; let y ← b.eval env; vFmax x y
  | .fmin a b => do let x ← a.eval env; let y ← b.eval env; vFmin x y
  | .hypot a b => do let x ← a.eval env; let y ← b.eval env; vHypot x y

/-! ### Types: what the compiler does -/

/-- Type of `a + b` and `a - b` (scicpp/core/units/quantity.hpp:106-128, 306-320). -/
def tAdd : QT → QT → Res QT
  | .num, .num => .ok .num
  | .qty a, .qty b => if a.dim ≠ b.dim then .ub else do
      let t ← commonQuantity a b
      let _ ← rrDiv a.scal t.scal
      let _ ← rrDiv b.scal t.scal
      pure (.qty t)
  | _, _ => .ub

/-- Type of `a * b` (scicpp/core/units/quantity.hpp:322-327, 355-378). -/
def tMul : QT → QT → Res QT
  | .num, .num => .ok .num
  | .num, .qty b => .ok (.qty b)
  | .qty a, .num => .ok (.qty a)
  | .qty a, .qty b => do pure (.qty (← tyMul a b))

/-- Type of `a / b` (scicpp/core/units/quantity.hpp:329-334, 380-401). -/
def tDiv : QT → QT → Res QT
  | .num, .num => .ok .num
  | .num, .qty b => do pure (.qty (← tyInv b))
  | .qty a, .num => .ok (.qty a)
  | .qty a, .qty b => do pure (.qty (← tyDiv a b))

/-- Type of `units::pow<n>` (scicpp/core/units/maths.hpp:127-131). -/
def tPow (n : ℕ) : QT → Res QT
  | .num => .ok .num
  | .qty a => do
    let d ← rrPow a.dim n
    let s ← rrPow a.scal n
    pure (.qty ⟨d, s, 0⟩)

/-- Type of `units::root<n + 1>` (scicpp/core/units/quantity.hpp:414-422). -/
def tRoot (n : ℕ) : QT → Res QT
  | .num => .ok .num
  | .qty a => do
    let d ← rrRoot a.dim (n + 1)
    let s ← rrRoot a.scal (n + 1)
    pure (.qty ⟨d, s, 0⟩)

/-- Type of `quantity_cast<t>` (scicpp/core/units/quantity.hpp:132-154). -/
def tCast (t : QTy) : QT → Res QT
  | .num => .ub
  | .qty a => if a.dim ≠ t.dim then .ub else do
    let _ ← rrDiv a.scal t.scal
    pure (.qty t)

/-- Type of a function of two arguments of one type (scicpp/core/units/maths.hpp:72-80, 144-147). -/
def tSame (a b : QT) : Res QT := if a = b then .ok a else .ub

/-- The compiler: the type of an expression from the types of the variables, `ub` when it does not compile
(scicpp/core/units/quantity.hpp:132-427, scicpp/core/units/maths.hpp:57-147). -/
def QEx.type (Γ : ℕ → QT) : QEx → Res QT
  | .var i => .ok (Γ i)
  | .lit _ => .ok .num
  | .add a b => do let x ← a.type Γ; let y ← b.type Γ; tAdd x y
  | .sub a b => do let x ← a.type Γ; let y ← b.type Γ; tAdd x y
  | .mul a b => do let x ← a.type Γ; let y ← b.type Γ; tMul x y
  | .div a b => do let x ← a.type Γ; let y ← b.type Γ; tDiv x y
  | .neg a => a.type Γ
  | .pow n a => do let x ← a.type Γ; tPow n x
  | .root n a => do let x ← a.type Γ; tRoot n x
  | .cast t a => do let x ← a.type Γ; tCast t x
  | .abs a => a.type Γ
  | .fmax a b => do let x ← a.type Γ; let y ← b.type Γ; tSame x y
  | .fmin a b => do let x ← a.type Γ; let y ← b.type Γ; tSame x y
  | .hypot a b => do let x ← a.type Γ; let y ← b.type Γ; tSame x y

/-! ### Overload resolution with several representation types -/

/-- Representation types. -/
inductive Rep where
  | int
  | float
  | double
deriving DecidableEq

/-- The usual arithmetic conversions between representation types: `decltype(T1() * T2())`. -/
def Rep.common : Rep → Rep → Rep
  | .double, _ => .double
  | _, .double => .double
  | .float, _ => .float
  | _, .float => .float
  | .int, .int => .int

/-- Operand types: a number of some arithmetic type, or a quantity with a representation type. -/
inductive ORep where
  | num (r : Rep)
  | qty (r : Rep) (t : QTy)
deriving DecidableEq

/-- The candidates for `a * b` and for `a / b` when an operand is a quantity: the member template, `operator*(T1 factor, quantity)` and
`operator*(quantity, T2 factor)`. -/
inductive QCand where
  | member
  | left
  | right
deriving DecidableEq

/-- Which candidates take part in overload resolution (scicpp/core/units/quantity.hpp:322-334, 355-401): the member needs the same
representation type and the default offset on the right; `left` and `right` accept every type that is not iterable (and not complex) as factor,
also a quantity. -/
def QCand.viable (a b : ORep) : QCand → Bool
  | .member => match a, b with
    | .qty r _, .qty s u => decide (r = s ∧ u.off = 0)
    | _, _ => false
  | .left => match b with
    | .qty _ _ => true
    | _ => false
  | .right => match a with
    | .qty _ _ => true
    | _ => false

/-- Partial ordering of the templates: the member, which constrains both operands, is more specialised than each of the others; `left` and `right`
are not ordered. -/
def QCand.moreSpecial : QCand → QCand → Bool
  | .member, .left => true
  | .member, .right => true
  | _, _ => false

/-- Overload resolution: the one viable candidate more specialised than every other viable candidate. -/
def pickCand (a b : ORep) : Option QCand :=
  let v := [QCand.member, .left, .right].filter (QCand.viable a b)
  v.find? fun c => v.all fun c' => decide (c' = c) || c.moreSpecial c'

/-- The type of `a * b` (scicpp/core/units/quantity.hpp:322-327, 355-378): the built-in operator for two numbers, otherwise the chosen overload;
`ub` when there is none (no candidate or an ambiguous call).  (`left` and `right` are only chosen when the other operand is a number.) -/
def oMul (a b : ORep) : Res ORep :=
  match a, b with
  | .num r, .num s => .ok (.num (r.common s))
  | _, _ => match pickCand a b with
    | none => .ub
    | some .member => match a, b with
      | .qty r t, .qty _ u => do pure (.qty r (← tyMul t u))
      | _, _ => .ub
    | some .left => match a, b with
      | .num r, .qty s u => .ok (.qty (r.common s) u)
      | _, _ => .ub
    | some .right => match a, b with
      | .qty r t, .num s => .ok (.qty (s.common r) t)
      | _, _ => .ub

/-- The type of `a / b` (scicpp/core/units/quantity.hpp:329-340, 380-401). -/
def oDiv (a b : ORep) : Res ORep :=
  match a, b with
  | .num r, .num s => .ok (.num (r.common s))
  | _, _ => match pickCand a b with
    | none => .ub
    | some .member => match a, b with
      | .qty r t, .qty _ u => do pure (.qty r (← tyDiv t u))
      | _, _ => .ub
    | some .left => match a, b with
      | .num r, .qty s u => do oMul (.num r) (.qty s (← tyInv u))
      | _, _ => .ub
    | some .right => match a, b with
      | .qty r t, .num s => oMul (.qty r t) (.num s)
      | _, _ => .ub

/-- The type of `a + b`, `a - b` (scicpp/core/units/quantity.hpp:306-320): the member template is the only candidate and needs the same
representation type and the same dimension. -/
def oAdd (a b : ORep) : Res ORep :=
  match a, b with
  | .num r, .num s => .ok (.num (r.common s))
  | .qty r t, .qty s u =>
    if r ≠ s then .ub
    else do
      match ← tAdd (.qty t) (.qty u) with
      | .qty w => pure (.qty r w)
      | .num => .ub
  | _, _ => .ub

end SciCpp
