import Verif.Model.OverloadAdd
import Verif.Spec.Overload
/-
  Specification of C132: which sums, differences, negations and comparisons compile, and their types.
-/
namespace SciCpp.Ovl.Spec

/-- The sum or difference of two operands that are not arrays: two numbers; complex numbers and numbers of the same representation type; two quantities of
the same representation type, dimension and offset, in their common unit; complex quantities with complex or real quantities of exactly the same type. -/
def scalarSum : OT → OT → Option OT
  | .num r, .num s => some (.num (r.common s))
  | .num r, .cnum s => if r = s then some (.cnum s) else none
  | .cnum r, .num s => if r = s then some (.cnum r) else none
  | .cnum r, .cnum s => if r = s then some (.cnum r) else none
  | .qty r t, .qty s u => if r = s ∧ t.dim = u.dim ∧ t.off = u.off then (ofRes (commonQuantity t u)).map (.qty r) else none
  | .qty r t, .cqty s u => if r = s ∧ t = u then some (.cqty r t) else none
  | .cqty r t, .qty s u => if r = s ∧ t = u then some (.cqty r t) else none
  | .cqty r t, .cqty s u => if r = s ∧ t = u then some (.cqty r t) else none
  | _, _ => none

/-- `a + b` with arrays: element by element; not two arrays of arrays; an array of arrays only with the scalar on the left. -/
def add : OT → OT → Option OT
  | .vec v, .vec w => (scalarSum v w).map .vec
  | .vec v, b => (scalarSum b v).map .vec
  | a, .vec w => (overArray (scalarSum a) w).map .vec
  | a, b => scalarSum a b

/-- `a - b` with arrays: element by element; not two arrays of arrays. -/
def sub : OT → OT → Option OT
  | .vec v, .vec w => (scalarSum v w).map .vec
  | .vec v, b => (overArray (fun x => scalarSum x b) v).map .vec
  | a, .vec w => (overArray (scalarSum a) w).map .vec
  | a, b => scalarSum a b

/-- `-a`: everything except arrays of arrays; the type does not change. -/
def neg : OT → Option OT
  | .vec (.vec _) => none
  | a => some a

/-- Comparable operands that are not arrays: numbers; complex numbers for equality; quantities of the same representation type and dimension, whatever their
scales and offsets; complex quantities with complex or real quantities of exactly the same type, for equality. -/
def scalarCmp (op : Cmp) : OT → OT → Bool
  | .num _, .num _ => true
  | .num r, .cnum s => decide ((op = .eq ∨ op = .ne) ∧ r = s)
  | .cnum r, .num s => decide ((op = .eq ∨ op = .ne) ∧ r = s)
  | .cnum r, .cnum s => decide ((op = .eq ∨ op = .ne) ∧ r = s)
  | .qty r t, .qty s u => decide (r = s ∧ t.dim = u.dim)
  | .qty r t, .cqty s u => decide ((op = .eq ∨ op = .ne) ∧ r = s ∧ t = u)
  | .cqty r t, .qty s u => decide ((op = .eq ∨ op = .ne) ∧ r = s ∧ t = u)
  | .cqty r t, .cqty s u => decide ((op = .eq ∨ op = .ne) ∧ r = s ∧ t = u)
  | _, _ => false

/-- The elements at the bottom of an array. -/
def leaf : OT → OT
  | .vec v => leaf v
  | x => x

/-- The nesting of the result of a comparison: two arrays of the same type are compared as wholes; an array with a scalar element by element, at any depth for
`==` and `<`, only arrays of scalars for the other four operators. -/
def cmp (op : Cmp) : OT → OT → Option ℕ
  | .vec v, .vec w => if v = w ∧ scalarCmp op (leaf v) (leaf v) = true then some 0 else none
  | .vec v, b => if scalarCmp op (leaf v) b = true ∧ (op = .eq ∨ op = .lt ∨ v.depth = 0) then some (v.depth + 1) else none
  | a, .vec w => if scalarCmp op a (leaf w) = true ∧ (op = .eq ∨ op = .lt ∨ w.depth = 0) then some (w.depth + 1) else none
  | a, b => if scalarCmp op a b = true then some 0 else none

end SciCpp.Ovl.Spec
