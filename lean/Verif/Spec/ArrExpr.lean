import Verif.Model.ArrExpr
/-
  What an expression of arrays means, which named arrays it overwrites, and when its operands do not interfere.
-/
namespace SciCpp.Spec

variable {α : Type*}

/-- The named arrays of an expression. -/
def aVars : AEx α → List ℕ
  | .var i => [i]
  | .mv i => [i]
  | .un _ _ a => aVars a
  | .bin _ _ a b => aVars a ++ aVars b

/-- The mathematical value of an expression: element by element, from the contents the named arrays have before the evaluation. -/
def aDenot (σ : ℕ → List α) : AEx α → List α
  | .var i => σ i
  | .mv i => σ i
  | .un _ op a => (aDenot σ a).map op
  | .bin _ op a b => List.zipWith op (aDenot σ a) (aDenot σ b)

/-- A named array an operand gives up for writing: the operand is `std::move` of it. -/
def aGiven : AEx α → List ℕ
  | .mv i => [i]
  | _ => []

/-- An operand that is not a name, or is a moved name. -/
def aIsRvalue : AEx α → Bool
  | .var _ => false
  | _ => true

/-- The named arrays that an expression overwrites: a non-const array that is the direct operand of a unary minus, a vectorised function or an
operator with a scalar, when the element type does not change; and the moved array whose storage an operator between arrays reuses (the right
operand when it can be reused, else the left one). -/
def aConsumed (E : AEnv) : AEx α → List ℕ
  | .var _ => []
  | .mv _ => []
  | .un t _ (.var i) => if E.isConst i = false ∧ E.elt i = t then [i] else []
  | .un t _ (.mv i) => if E.elt i = t then [i] else []
  | .un _ _ a => aConsumed E a
  | .bin t _ a b => aConsumed E a ++ aConsumed E b ++
      (if aIsRvalue b = true ∧ b.elt E = t then aGiven b
       else if aIsRvalue a = true ∧ a.elt E = t then aGiven a else [])

/-- No operator has an operand that overwrites an array the other operand reads. -/
def aSafe (E : AEnv) : AEx α → Prop
  | .var _ => True
  | .mv _ => True
  | .un _ _ a => aSafe E a
  | .bin _ _ a b => aSafe E a ∧ aSafe E b ∧ (∀ i ∈ aConsumed E a, i ∉ aVars b) ∧ (∀ i ∈ aConsumed E b, i ∉ aVars a)

end SciCpp.Spec
