import Verif.Model.Ops
import Verif.Model.Numeric
import Verif.Model.Stats
/-
  Integer reductions with signed overflow (scicpp/core/functional.hpp:345-371, 386-396,
  scicpp/core/numeric.hpp:29-275, scicpp/core/stats.hpp:91-139, 308-333).

  `CInt lo hi` is a signed integer type with values in `[lo, hi]` (`int`, `long`, `long long`) in
  which an operation whose exact result is not representable gives the *poison* value `ub`
  ([expr.pre]/4: undefined behaviour), and an operation on a poison value is poison again.  The
  generic models of the reductions are instantiated with it, and the C++ call is undefined exactly
  when a poison value has been computed.  (Types narrower than `int` are promoted, and then the
  code does not compile: functional.hpp:235 requires the operation to return the element type.)
-/
namespace SciCpp

/-- A signed integer of a type with range `[lo, hi]`, or the outcome of an overflow (no single
line of the library: the built-in operations on `value_type`). -/
structure CInt (lo hi : ℤ) where
  val : Res ℤ
deriving DecidableEq

namespace CInt
variable {lo hi : ℤ}

/-- The value `n` of an object of the type. -/
def of (n : ℤ) : CInt lo hi := ⟨.ok n⟩

/-- A built-in operation with the overflow check of `chk` (Model/Ops). -/
def lift (f : ℤ → ℤ → ℤ) (x y : CInt lo hi) : CInt lo hi :=
  ⟨x.val >>= fun a => y.val >>= fun b => chk lo hi (f a b)⟩

instance : Add (CInt lo hi) := ⟨lift (· + ·)⟩
instance : Sub (CInt lo hi) := ⟨lift (· - ·)⟩
instance : Mul (CInt lo hi) := ⟨lift (· * ·)⟩
instance : Zero (CInt lo hi) := ⟨of 0⟩
instance : One (CInt lo hi) := ⟨of 1⟩

/-- A predicate on values seen as a predicate on objects (only ever applied to the input). -/
def onVal (p : ℤ → Bool) (x : CInt lo hi) : Bool :=
  match x.val with
  | .ok n => p n
  | .ub => false

/-- An array of results: the call is undefined if one of them is. -/
def collect : List (CInt lo hi) → Res (List ℤ)
  | [] => .ok []
  | x :: xs => x.val >>= fun a => collect xs >>= fun as => .ok (a :: as)

end CInt

section
variable (lo hi : ℤ)

/-- An array of integers. -/
def ints (l : List ℤ) : List (CInt lo hi) := l.map CInt.of

/-- `sum(f, filter)` of integers (scicpp/core/numeric.hpp:29-47; the integral branch of
`filter_reduce_associative`, scicpp/core/functional.hpp:355-357). -/
def sumInt (l : List ℤ) (p : ℤ → Bool) : Res (ℤ × ℕ) :=
  let r := sumF true (ints lo hi l) (CInt.onVal p)
  r.1.val >>= fun s => .ok (s, r.2)

/-- `prod(f, filter)` of integers (scicpp/core/numeric.hpp:58-78). -/
def prodInt (l : List ℤ) (p : ℤ → Bool) : Res (ℤ × ℕ) :=
  let r := prodF true (ints lo hi l) (CInt.onVal p)
  r.1.val >>= fun s => .ok (s, r.2)

/-- `mean(f, filter)` of integers (scicpp/core/stats.hpp:308-333): the sum as above, then C++
integer division by `T(int(count))`. -/
def meanIntR (l : List ℤ) (p : ℤ → Bool) : Res ℤ :=
  if l.length = 0 then .ok 0
  else sumInt lo hi l p >>= fun r =>
    if toI32 r.2 = 0 then .ub else chk lo hi (r.1.tdiv (toI32 r.2))

/-- `cumsum(a)` of integers (scicpp/core/numeric.hpp:89-98). -/
def cumsumInt (cat : Cat) (c : Cont) (l : List ℤ) : Res (List ℤ) :=
  CInt.collect (cumOp cat c (· + ·) (ints lo hi l)).1

/-- `cumprod(a)` of integers (scicpp/core/numeric.hpp:109-118). -/
def cumprodInt (cat : Cat) (c : Cont) (l : List ℤ) : Res (List ℤ) :=
  CInt.collect (cumOp cat c (· * ·) (ints lo hi l)).1

/-- One pass of `diff` (scicpp/core/numeric.hpp:156-173), on a non-empty range. -/
def diffOnceInt (l : List ℤ) : Res (List ℤ) := CInt.collect (adjDiff (ints lo hi l)).tail

/-- The loop of `diff(vector, n)` (scicpp/core/numeric.hpp:197-199); a pass whose results
overflow is undefined even if a later pass drops them. -/
def diffIntLoop : ℕ → List ℤ → Res (List ℤ)
  | 0, a => .ok a
  | n + 1, a => if a.isEmpty then .ok a else diffOnceInt lo hi a >>= diffIntLoop n

/-- `diff(vector, n)` of integers (scicpp/core/numeric.hpp:193-207). -/
def diffInt (l : List ℤ) (n : ℤ) : Res (List ℤ) :=
  require (decide (0 ≤ n)) >>= fun _ => diffIntLoop lo hi n.toNat l

/-- `inner(a, b)`, `dot(a, b)`, `vdot(a, b)` of integers (scicpp/core/numeric.hpp:213-275): the
pairwise scheme, also for integers. -/
def innerInt (a b : List ℤ) : Res ℤ :=
  inner (ints lo hi a) (ints lo hi b) >>= fun r => r.val

/-- `median(f)` of integers (scicpp/core/stats.hpp:91-139): the two middle elements are added
before the division by two. -/
def medianIntR (nth : NthImpl ℤ) (l : List ℤ) : Res ℤ :=
  if l.length % 2 ≠ 0 ∨ l.length = 0 then medianInplace nth 0 id l
  else medianInplace nth 0 id l >>= fun s => chk lo hi s >>= fun s => .ok (s.tdiv 2)

end
end SciCpp
