import Mathlib.Algebra.Group.Defs
import Mathlib.Algebra.Order.Group.Nat
import Mathlib.Data.Int.Init
/-
  Model of the power-by-squaring functions.
-/
namespace SciCpp

universe u

/-- `arithmetic::power(a, n)` (scicpp/core/units/arithmetic.hpp:35-43) and `units::pow<n>(a)` for a
non-quantity `a` (scicpp/core/units/maths.hpp:125-140).  `n / 2` and `n % 2` are the C++ (truncated)
integer operators on `intmax_t`.  Overflow of an integral `T` is not modelled. -/
def powSq {α : Type u} [One α] [Mul α] (a : α) (n : ℤ) : α :=
  if n = 0 then 1
  else
    let p := powSq a (n.tdiv 2)
    p * p * (if n.tmod 2 = 0 then 1 else a)
termination_by n.natAbs
decreasing_by
  have h : (n.tdiv 2).natAbs = n.natAbs / 2 := Int.natAbs_tdiv n 2
  omega

end SciCpp
