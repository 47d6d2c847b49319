import Verif.Model.Functional
/-
  The array comparison functions of scicpp/core/numeric.hpp with the value categories of their arguments, for
  arrays of `bool` (the only element type for which the result of a comparison can be stored in an argument) and
  for all other element types.  `less_equal` and `greater` forward each argument with the type of the other one.
-/
namespace SciCpp

/-- The six functions. -/
inductive CmpFn where
  | equal | notEqual | less | lessEqual | greater | greaterEqual
deriving DecidableEq, Repr

/-- May an argument of category `b` be forwarded with the type deduced for an argument of category `a` (of the same
container and element type)?  `std::forward<A>(b)` needs an lvalue of type `std::remove_reference_t<A>`, so it
cannot remove `const` (used at scicpp/core/numeric.hpp:640, 657). -/
def fwdOk (a b : Cat) : Bool := a == .constLvalue || b != .constLvalue

/-- `u < v` on `bool` (used at scicpp/core/numeric.hpp:629). -/
def ltBool (u v : Bool) : Bool := !u && v

/-- `!a` on a temporary array of `bool` (scicpp/core/numeric.hpp:621, 640, 649): the element-wise negation. -/
def notRes (r : Res (List Bool × List Bool × List Bool)) : Res (List Bool × List Bool × List Bool) :=
  (fun t => (t.1.map (!·), t.2)) <$> r

/-- The comparison functions on arrays of `bool`: the result, and both arguments afterwards; `none`: the call does
not compile (scicpp/core/numeric.hpp:605-658).  For `less_equal` and `greater` both arguments must have one type,
and `b` is passed first, with the category of `a`. -/
def cmpBool (fn : CmpFn) (cat1 cat2 : Cat) (c1 c2 : Cont) (a b : List Bool) :
    Option (Res (List Bool × List Bool × List Bool)) :=
  let swapped : Option (Res (List Bool × List Bool × List Bool)) :=
    if c1 = c2 ∧ fwdOk cat1 cat2 = true ∧ fwdOk cat2 cat1 = true then
      some ((fun t => (t.1, t.2.2, t.2.1)) <$> mapBinary cat1 cat2 c2 c1 ltBool true true b a)
    else none
  match fn with
  | .equal => some (mapBinary cat1 cat2 c1 c2 (· == ·) true true a b)                 -- 609-613
  | .notEqual => some (notRes (mapBinary cat1 cat2 c1 c2 (· == ·) true true a b))     -- 619-622
  | .less => some (mapBinary cat1 cat2 c1 c2 ltBool true true a b)                    -- 628-632
  | .lessEqual => swapped.map notRes                                                  -- 638-641
  | .greaterEqual => some (notRes (mapBinary cat1 cat2 c1 c2 ltBool true true a b))   -- 647-650
  | .greater => swapped                                                               -- 656-658

end SciCpp
