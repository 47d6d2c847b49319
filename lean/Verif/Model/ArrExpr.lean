import Verif.Model.Functional
/-
  Expressions of named arrays: the operators of scicpp/core/numeric.hpp (unary minus, `!`, array with scalar, array with array) and vectorised functions
  (scicpp/core/functional.hpp:130-174), all of which call `map`, composed to any depth.  Named arrays are passed by reference, so that an operator that
  reuses the storage of its operand (C04) can change a variable that another part of the expression reads.
-/
namespace SciCpp

variable {α : Type*}

/-- Expressions of arrays.  `var i`: a named array; `mv i`: `std::move` of a named array (not const); `un t op a`: unary minus, `!`, a vectorised function or
an operator with a scalar (scicpp/core/numeric.hpp:306-316, 417-497), with element type `t` of the result; `bin t op a b`: an operator between two arrays
(scicpp/core/numeric.hpp:521-590).  Simplification: the elements of all types are values of `α`; types are numbers. -/
inductive AEx (α : Type*) where
  | var (i : ℕ)
  | mv (i : ℕ)
  | un (t : ℕ) (op : α → α) (a : AEx α)
  | bin (t : ℕ) (op : α → α → α) (a b : AEx α)

/-- What is known of the named arrays: constness and element types. -/
structure AEnv where
  isConst : ℕ → Bool
  elt : ℕ → ℕ

/-- The value category of an expression. -/
def AEx.cat (E : AEnv) : AEx α → Cat
  | .var i => if E.isConst i then .constLvalue else .lvalue
  | .mv _ => .rvalue
  | .un _ _ _ => .rvalue
  | .bin _ _ _ _ => .rvalue

/-- The element type of an expression. -/
def AEx.elt (E : AEnv) : AEx α → ℕ
  | .var i => E.elt i
  | .mv i => E.elt i
  | .un t _ _ => t
  | .bin t _ _ _ => t

/-- The result of an operand: a reference to a named array, or a temporary. -/
inductive AVal (α : Type*) where
  | ref (i : ℕ)
  | tmp (l : List α)

/-- The contents of the named arrays. -/
abbrev AStore (α : Type*) := ℕ → List α

/-- The elements of an operand at the time of the call. -/
def AVal.get (σ : AStore α) : AVal α → List α
  | .ref i => σ i
  | .tmp l => l

/-- A write to the storage of an operand. -/
def AVal.put (σ : AStore α) : AVal α → List α → AStore α
  | .ref i, l => Function.update σ i l
  | .tmp _, _ => σ

/-- `map(op, a)` on an operand (scicpp/core/functional.hpp:32-55; `mapUnarySame`, `mapUnaryDiff`). -/
def aUnary (c : Cont) (cat : Cat) (same : Bool) (op : α → α) (v : AVal α) (σ : AStore α) : AVal α × AStore α :=
  let r := if same then mapUnarySame cat c op (v.get σ) else mapUnaryDiff cat op (v.get σ)
  (.tmp r.1, v.put σ r.2)

/-- `map(op, a, b)` on two operands (scicpp/core/functional.hpp:64-127; `map2`, `mapBinaryDest`).  Both operands may be the same named array: `std::transform`
in place reads position `i` of both before it writes it. -/
def aBinary (c : Cont) (cat1 cat2 : Cat) (same1 same2 : Bool) (op : α → α → α) (v w : AVal α) (σ : AStore α) : Res (AVal α × AStore α) := do
  let r ← map2 op (v.get σ) (w.get σ)
  match mapBinaryDest cat1 cat2 same1 same2 with
  | .first => pure (.tmp r, v.put σ (movedFrom c r))
  | .second => pure (.tmp r, w.put σ (movedFrom c r))
  | .fresh => pure (.tmp r, σ)

/-- Evaluation of an expression (scicpp/core/numeric.hpp:306-590, scicpp/core/functional.hpp:32-174).  The two operands of an operator are evaluated one
after the other in an order that the language does not specify ([expr.call] 8): `ord` says for every operator, given by its position in the expression,
whether the right operand comes first. -/
def AEx.eval (E : AEnv) (c : Cont) : AEx α → (List Bool → Bool) → AStore α → Res (AVal α × AStore α)
  | .var i, _, σ => pure (.ref i, σ)
  | .mv i, _, σ => pure (.ref i, σ)
  | .un t op a, ord, σ => do
    let (v, σ) ← a.eval E c ord σ
    pure (aUnary c (a.cat E) (a.elt E == t) op v σ)
  | .bin t op a b, ord, σ =>
    if ord [] then do
      let (w, σ) ← b.eval E c (fun p => ord (true :: p)) σ
      let (v, σ) ← a.eval E c (fun p => ord (false :: p)) σ
      aBinary c (a.cat E) (b.cat E) (a.elt E == t) (b.elt E == t) op v w σ
    else do
      let (v, σ) ← a.eval E c (fun p => ord (false :: p)) σ
      let (w, σ) ← b.eval E c (fun p => ord (true :: p)) σ
      aBinary c (a.cat E) (b.cat E) (a.elt E == t) (b.elt E == t) op v w σ

end SciCpp
