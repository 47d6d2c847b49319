import Verif.Model.Functional
import Verif.Model.F64
import Verif.Model.Stats
/-
  Model of the array arithmetic operators, scicpp/core/numeric.hpp:306-590.

  An element operation is `α → α → Res α`, so that integer division by zero and signed overflow
  are undefined behaviour of the array operation.  Simplification: the scalar and the elements
  have the same type, and so has the result (mixed types only change `map` to the copying branch,
  which is `mapUnaryDiff` of Model/Functional).
-/
namespace SciCpp

universe u
variable {α : Type u}

/-- The five binary arithmetic operators. -/
inductive ArOp where
  | add | sub | mul | div | mod
deriving DecidableEq, Repr

/-- The arithmetic of an element type (the built-in `+ - * / %`, `std::fmod`, unary `-`). -/
structure Elt (α : Type u) where
  bin : ArOp → α → α → Res α
  neg : α → Res α

/-- `std::fmod` on doubles (scicpp/core/numeric.hpp:498, called by `detail::modulus`): exact
remainder of the truncated quotient, NaN for an infinite dividend or a zero divisor. -/
def fmodFl {rnd : ℚ → ℚ} (x y : RFl rnd) : RFl rnd :=
  match (x : Fl), (y : Fl) with
  | .nan, _ => RFl.nan
  | _, .nan => RFl.nan
  | .inf _, _ => RFl.nan
  | .fin a, .inf _ => RFl.fin a
  | .fin a, .fin b => if b = 0 then RFl.nan else RFl.fin (a - b * (truncK (a / b) : ℚ))

/-- Floating point elements: total, rounded operations. -/
def eltFl (rnd : ℚ → ℚ) : Elt (RFl rnd) where
  bin
    | .add, x, y => .ok (x + y)
    | .sub, x, y => .ok (x - y)
    | .mul, x, y => .ok (x * y)
    | .div, x, y => .ok (x / y)
    | .mod, x, y => .ok (fmodFl x y)
  neg x := .ok (-x)

/-- Signed integer result: overflow is undefined behaviour. -/
def chk (lo hi n : ℤ) : Res ℤ := if lo ≤ n ∧ n ≤ hi then .ok n else .ub

/-- Signed integer elements with values in `[lo, hi]`: overflow, division and remainder by zero are
undefined, division truncates (scicpp/core/numeric.hpp:500 for `%`; `%` is undefined too when the
quotient is not representable, [expr.mul]/4). -/
def eltInt (lo hi : ℤ) : Elt ℤ where
  bin
    | .add, x, y => chk lo hi (x + y)
    | .sub, x, y => chk lo hi (x - y)
    | .mul, x, y => chk lo hi (x * y)
    | .div, x, y => if y = 0 then .ub else chk lo hi (x.tdiv y)
    | .mod, x, y => if y = 0 then .ub else chk lo hi (x.tdiv y) >>= fun _ => .ok (x.tmod y)
  neg x := chk lo hi (-x)

/-- `std::transform` with an element function that may be undefined. -/
def transformR (f : α → Res α) : List α → Res (List α)
  | [] => .ok []
  | x :: xs => f x >>= fun r => transformR f xs >>= fun rs => .ok (r :: rs)

/-- Unary `map` with a same-type operation that may be undefined
(scicpp/core/functional.hpp:33-55); result, and the argument object afterwards. -/
def mapUR (cat : Cat) (c : Cont) (f : α → Res α) (a : List α) : Res (List α × List α) :=
  transformR f a >>= fun r =>
    match cat with
    | .constLvalue => .ok (r, a)
    | .lvalue | .rvalue => .ok (r, movedFrom c r)

/-- `operator-(a)` (scicpp/core/numeric.hpp:309-312). -/
def opNeg (E : Elt α) (cat : Cat) (c : Cont) (a : List α) : Res (List α × List α) :=
  mapUR cat c E.neg a

/-- `a ⊙ scalar` (scicpp/core/numeric.hpp:417-424, 436-443, 456-463, 475-482, 506-513).  Note that
`a * scalar` and `a + scalar` compute `scalar * v` and `scalar + v`. -/
def opArrScalar (E : Elt α) (o : ArOp) (cat : Cat) (c : Cont) (a : List α) (s : α) :
    Res (List α × List α) :=
  match o with
  | .mul => mapUR cat c (fun v => E.bin .mul s v) a
  | .add => mapUR cat c (fun v => E.bin .add s v) a
  | .sub => mapUR cat c (fun v => E.bin .sub v s) a
  | .div => mapUR cat c (fun v => E.bin .div v s) a
  | .mod => mapUR cat c (fun v => E.bin .mod v s) a

/-- `scalar ⊙ a` (scicpp/core/numeric.hpp:426-432, 445-452, 465-471, 484-490, 515-522). -/
def opScalarArr (E : Elt α) (o : ArOp) (cat : Cat) (c : Cont) (s : α) (a : List α) :
    Res (List α × List α) :=
  match o with
  | .mul => mapUR cat c (fun v => E.bin .mul s v) a
  | .add => mapUR cat c (fun v => E.bin .add s v) a
  | .sub => mapUR cat c (fun v => E.bin .sub s v) a
  | .div => mapUR cat c (fun v => E.bin .div s v) a
  | .mod => mapUR cat c (fun v => E.bin .mod s v) a

/-- Binary `std::transform` with an element operation that may be undefined. -/
def transformR2 (f : α → α → Res α) : List α → List α → Res (List α)
  | [], _ => .ok []
  | _ :: _, [] => .ub
  | x :: xs, y :: ys => f x y >>= fun r => transformR2 f xs ys >>= fun rs => .ok (r :: rs)

/-- `a ⊙ b` (scicpp/core/numeric.hpp:524-532, 559-588): binary `map` (functional.hpp:64-127) with a
same-type operation; result and both operand objects afterwards. -/
def opArrArr (E : Elt α) (o : ArOp) (cat1 cat2 : Cat) (c1 c2 : Cont) (a b : List α) :
    Res (List α × List α × List α) :=
  require (a.length == b.length) >>= fun _ : PUnit.{u+1} =>
  transformR2 (E.bin o) a b >>= fun r =>
    match mapBinaryDest cat1 cat2 true true with
    | .first => .ok (r, movedFrom c1 r, b)
    | .second => .ok (r, a, movedFrom c2 r)
    | .fresh => .ok (r, a, b)

/-- `operator!(a)`, `operator&&(a, b)`, `operator||(a, b)` on masks
(scicpp/core/numeric.hpp:316-319, 534-552): `std::logical_not/and/or`. -/
def opNot (a : List Bool) : List Bool := a.map (fun x => !x)
/-- `operator&&(a, b)` (scicpp/core/numeric.hpp:534-542). -/
def opAnd (a b : List Bool) : Res (List Bool) := map2 (fun x y => x && y) a b
/-- `operator||(a, b)` (scicpp/core/numeric.hpp:544-552). -/
def opOr (a b : List Bool) : Res (List Bool) := map2 (fun x y => x || y) a b

end SciCpp
