import Verif.Model.Overload
/-
  The types of products and quotients, as tables.
-/
namespace SciCpp.Ovl

namespace Spec

/-- The product of two operands that are not arrays. -/
def scalarMul : OT → OT → Option OT
  | .num r, .num s => some (.num (r.common s))
  | .num r, .cnum s => if r = s then some (.cnum s) else none
  | .cnum r, .num s => if r = s then some (.cnum r) else none
  | .cnum r, .cnum s => if r = s then some (.cnum r) else none
  | .num r, .qty s u => some (.qty (r.common s) u)
  | .qty r t, .num s => some (.qty (s.common r) t)
  | .num r, .cqty s u => if r = s then some (.cqty s u) else none
  | .cqty r t, .num s => if r = s then some (.cqty r t) else none
  | .cnum r, .cqty s u => if r = s then some (.cqty s u) else none
  | .cqty r t, .cnum s => if r = s then some (.cqty r t) else none
  | .qty r t, .qty s u => if r = s then (ofRes (tyMul t u)).map (.qty r) else none
  | .qty r t, .cqty s u => if r = s then (ofRes (tyMul t u)).map (.cqty r) else none
  | .cqty r t, .qty s u => if r = s then (ofRes (tyMul u t)).map (.cqty r) else none
  | .cqty r t, .cqty s u => if r = s then (ofRes (tyMul t u)).map (.cqty r) else none
  | _, _ => none

/-- Multiplication of a scalar by an array of any depth. -/
def overArray (f : OT → Option OT) : OT → Option OT
  | .vec v => (overArray f v).map .vec
  | x => f x

/-- Complex quantities. -/
def isCqty : OT → Bool
  | .cqty _ _ => true
  | _ => false

/-- The quotient of two operands that are not arrays. -/
def scalarDiv : OT → OT → Option OT
  | .num r, .num s => some (.num (r.common s))
  | .num r, .cnum s => if r = s then some (.cnum s) else none
  | .cnum r, .num s => if r = s then some (.cnum r) else none
  | .cnum r, .cnum s => if r = s then some (.cnum r) else none
  | .num r, .qty s u => (ofRes (tyInv u)).map (.qty (r.common s))
  | .qty r t, .num s => some (.qty (s.common r) t)
  | .num r, .cqty s u => if r = s then (ofRes (tyInv u)).map (.cqty s) else none
  | .cqty r t, .num s => if r = s then some (.cqty r t) else none
  | .cnum r, .cqty s u => if r = s then (ofRes (tyInv u)).map (.cqty s) else none
  | .cqty r t, .cnum s => if r = s then some (.cqty r t) else none
  | .qty r t, .qty s u => if r = s then (ofRes (tyDiv t u)).map (.qty r) else none
  | .qty r t, .cqty s u => if r = s then (ofRes (tyDiv t u)).map (.cqty r) else none
  | .cqty r t, .qty s u => if r = s then
      (if t = u then (ofRes (tyDiv t u)).map (.cqty r) else (ofRes (tyInv u)).bind fun w => (ofRes (tyMul w t)).map (.cqty r)) else none
  | .cqty r t, .cqty s u => if r = s then (ofRes (tyDiv t u)).map (.cqty r) else none
  | _, _ => none

/-- `a * b` with arrays: element by element, the scalar on the left; not two arrays of arrays; an array of arrays only with the scalar on the left; not a
complex quantity with an array that is a const lvalue. -/
def mul (ca cb : Cat) : OT → OT → Option OT
  | .vec v, .vec w => (scalarMul v w).map .vec
  | .vec v, b => if ca = .constLvalue ∧ isCqty b then none else (scalarMul b v).map .vec
  | a, .vec w => if cb = .constLvalue ∧ isCqty a then none else (overArray (fun x => scalarMul a x) w).map .vec
  | a, b => scalarMul a b

/-- `a / b` with arrays. -/
def div (ca cb : Cat) : OT → OT → Option OT
  | .vec v, .vec w => (scalarDiv v w).map .vec
  | .vec v, b => if ca = .constLvalue ∧ isCqty b then none else (overArray (fun x => scalarDiv x b) v).map .vec
  | a, .vec w => if cb = .constLvalue ∧ isCqty a then none else (overArray (fun x => scalarDiv a x) w).map .vec
  | a, b => scalarDiv a b

end Spec

/-- Nesting depth. -/
def OT.depth : OT → ℕ
  | .vec v => v.depth + 1
  | _ => 0

/-- Not an array. -/
def OT.Scalar : OT → Prop
  | .vec _ => False
  | _ => True

end SciCpp.Ovl
