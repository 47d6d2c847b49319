import Verif.Model.Functional
import Verif.Model.Pow
/-
  Model of `vectorize` (scicpp/core/functional.hpp:149-164) and of the vectorised functions and `pow`
  of scicpp/core/maths.hpp:30-159.

  `vectorize(f)` returns a closure that captures its argument *by reference* (line 151, `[&]`), so the
  model has a store: the objects alive at a point of the execution, with their current value.
-/
namespace SciCpp

universe u
variable {α β : Type u}

/-- The functor objects alive at a point of the execution, by address; `none`: no object alive there. -/
def Store (F : Type u) : Type u := ℕ → Option F

/-- The closure `vectorize` returns (scicpp/core/functional.hpp:151): a reference to the functor. -/
structure VecClosure where
  addr : ℕ

/-- `vectorize(f)` with an lvalue functor at address `a` (scicpp/core/functional.hpp:149-151). -/
def vectorizeLvalue (a : ℕ) : VecClosure := ⟨a⟩

/-- `const auto g = vectorize(F{...});` (scicpp/core/functional.hpp:149-151, used by every definition of
scicpp/core/maths.hpp:57-139): the temporary functor is materialised at a free address `a`, is alive
while `vectorize` runs, and is destroyed at the end of the declaration: the store afterwards is the
store before. -/
def vectorizeTemp {F : Type u} (s : Store F) (a : ℕ) (_f : F) : VecClosure × Store F := (⟨a⟩, s)

/-- An argument of a vectorised function: a scalar, or an array (value category, container,
contents). -/
inductive VArg (α : Type u) where
  | scalar (x : α)
  | array (cat : Cat) (c : Cont) (l : List α)

/-- A call with one argument (scicpp/core/functional.hpp:151-162) for a functor returning its argument
type: the result and the argument afterwards.  Invoking a functor that is not alive is UB. -/
def VecClosure.call1 (g : VecClosure) (s : Store (α → α)) : VArg α → Res (VArg α × VArg α)
  | .scalar x =>
      match s g.addr with                                     -- 160-161: std::invoke
      | none => .ub
      | some f => .ok (.scalar (f x), .scalar x)
  | .array cat c l =>
      match s g.addr with                                     -- 153-158: map
      | none => if l = [] then .ok (.array .rvalue c [], .array cat c l) else .ub
      | some f =>
          let r := mapUnarySame cat c f l
          .ok (.array .rvalue c r.1, .array cat c r.2)

/-- A call with two arguments (scicpp/core/functional.hpp:151-162), same types, lvalue or const
operands.  An array together with a scalar takes the branch of line 160 and does not compile for a
functor on scalars: `.ub` here. -/
def VecClosure.call2 (g : VecClosure) (s : Store (α → α → α)) : VArg α → VArg α → Res (VArg α)
  | .scalar x, .scalar y =>
      match s g.addr with
      | none => .ub
      | some f => .ok (.scalar (f x y))
  | .array _ c l, .array _ _ l' =>
      match s g.addr with
      | none => if l = [] ∧ l' = [] then .ok (.array .rvalue c []) else .ub
      | some f => do
          let r ← map2 f l l'
          pure (.array .rvalue c r)
  | _, _ => .ub

/-- `pow(x, y)` (scicpp/core/maths.hpp:144-159): array or scalar base, array or scalar exponent; `p` is
`std::pow`. -/
def powV (p : α → α → α) : VArg α → VArg α → Res (VArg α × VArg α × VArg α)
  | .array cat c l, .array cat' c' l' => do                        -- 145-149
      let r ← mapBinary cat cat' c c' p true true l l'
      pure (.array .rvalue c r.1, .array cat c r.2.1, .array cat' c' r.2.2)
  | .array cat c l, .scalar y =>                                   -- 150-152
      let r := mapUnarySame cat c (fun a => p a y) l
      .ok (.array .rvalue c r.1, .array cat c r.2, .scalar y)
  | .scalar x, .array cat c l =>                                   -- 154-156
      let r := mapUnarySame cat c (fun a => p x a) l
      .ok (.array .rvalue c r.1, .scalar x, .array cat c r.2)
  | .scalar x, .scalar y => .ok (.scalar (p x y), .scalar x, .scalar y)   -- 157-158

/-- `pow<n>(array)` (scicpp/core/maths.hpp:161-164). -/
def powN [One α] [Mul α] (n : ℤ) (cat : Cat) (c : Cont) (l : List α) : List α × List α :=
  mapUnarySame cat c (fun x => powSq x n) l

/-- Scalar `fabs` (scicpp/core/maths.hpp:31-48) on an ordered type. -/
def fabsScalar [Zero α] [Neg α] [LT α] [DecidableLT α] [DecidableEq α] (x : α) : α :=
  if x = 0 then 0 else if x < 0 then -x else x

/-- `fabs` of an array (scicpp/core/maths.hpp:32-33). -/
def fabsArr [Zero α] [Neg α] [LT α] [DecidableLT α] [DecidableEq α] (cat : Cat) (c : Cont)
    (l : List α) : List α × List α :=
  mapUnarySame cat c fabsScalar l

end SciCpp
