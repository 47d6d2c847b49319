import Verif.Model.IntRed
import Verif.Model.Poly
import Verif.Model.F64
/-
  Polynomials and convolutions with signed integer coefficients (scicpp/polynomials/polynomial.hpp,
  scicpp/signal/convolve.hpp).  The generic models are instantiated with `CInt` (Model/IntRed), in which an
  overflow is a poison value.
-/
namespace SciCpp

section
variable (lo hi : ℤ)

/-- Unary minus of a signed integer (scicpp/polynomials/polynomial.hpp:121: `-v`). -/
instance : Neg (CInt lo hi) := ⟨fun x => ⟨x.val >>= fun a => chk lo hi (-a)⟩⟩

/-- `std::fma` on integers (scicpp/polynomials/polynomial.hpp:49): the arguments are converted to `double`, the
product and sum are rounded once, and the assignment to the integer truncates; it is undefined when the truncated
value does not fit.  Simplification: no overflow to infinity (the arguments are at most 2^63). -/
def fmaInt (a b c : CInt lo hi) : CInt lo hi :=
  ⟨a.val >>= fun a => b.val >>= fun b => c.val >>= fun c =>
    chk lo hi (truncK (rnd64 (rnd64 (a : ℚ) * rnd64 (b : ℚ) + rnd64 (c : ℚ))))⟩

/-- `polyval(x, P)` of integers (scicpp/polynomials/polynomial.hpp:36-54). -/
def polyvalInt (x : ℤ) (P : List ℤ) : Res ℤ :=
  (polyvalWith (fmaInt lo hi) (CInt.of x) (ints lo hi P)).val

/-- `polyadd(P1, P2)` of integers (scicpp/polynomials/polynomial.hpp:62-99). -/
def polyaddInt (P1 P2 : List ℤ) : Res (List ℤ) := CInt.collect (polyadd (ints lo hi P1) (ints lo hi P2))

/-- `polysub(P1, P2)` of integers (scicpp/polynomials/polynomial.hpp:107-148). -/
def polysubInt (P1 P2 : List ℤ) : Res (List ℤ) := CInt.collect (polysub (ints lo hi P1) (ints lo hi P2))

/-- `convolve(a, v)`, `polymul(a, v)` of integers (scicpp/signal/convolve.hpp:33-81,
scicpp/polynomials/polynomial.hpp:154-163). -/
def convolveInt (a v : List ℤ) : Res (List ℤ) := convolve (ints lo hi a) (ints lo hi v) >>= CInt.collect

/-- `polyder(P)` of integers (scicpp/polynomials/polynomial.hpp:328-391), one derivative. -/
def polyderInt (P : List ℤ) : Res (List ℤ) := do
  require (!P.isEmpty)
  CInt.collect ((ints lo hi P).dropLast.mapIdx fun i c => CInt.of ((P.length - 1 - i : ℕ) : ℤ) * c)

/-- `polyint(P)` of integers (scicpp/polynomials/polynomial.hpp:399-458), one integration: the coefficients are
divided by `T(i + 1)` with integer division, which truncates (and cannot overflow, the divisor being positive). -/
def polyintInt (P : List ℤ) : Res (List ℤ) := do
  require (!P.isEmpty)
  pure (0 :: P.mapIdx fun i c => c.tdiv ((i + 1 : ℕ) : ℤ))

end
end SciCpp
