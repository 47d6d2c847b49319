import Verif.Model.F64
import Verif.Model.Base
/-
  Model of scicpp/core/range.hpp and scicpp/core/equal.hpp.
-/
namespace SciCpp

universe u
variable {α : Type u}

/-- `full(N, v)` (scicpp/core/range.hpp:35-45), both container versions. -/
def full (n : ℕ) (v : α) : List α := List.replicate n v

/-- `zeros`, `ones` (scicpp/core/range.hpp:51-93). -/
def zeros [Zero α] (n : ℕ) : List α := full n 0
/-- `ones` (scicpp/core/range.hpp:75-93). -/
def ones [One α] (n : ℕ) : List α := full n 1

/-- `std::iota(first, last, v)`: `v`, `v+1`, ... by repeated increment. -/
def iota [One α] [Add α] (v : α) : ℕ → List α
  | 0 => []
  | n + 1 => v :: iota (v + 1) n

/-- `linspace_filler` (scicpp/core/range.hpp:101-118) on an array of `n` elements; the array and the
vector overloads (122-130) only differ in the container. `start + (iota * step)` is two `map`s, so two
roundings per element. -/
def linspace [Zero α] [One α] [Add α] [Sub α] [Mul α] [Div α] [NatCast α] (start stop : α) (n : ℕ) :
    List α :=
  if n = 0 then []
  else if n = 1 then [start]
  else
    let step := (stop - start) / ((n - 1 : ℕ) : α)
    (iota 0 n).map fun i => start + i * step

/-- `linspace` for `T = int` (scicpp/core/range.hpp:101-118): the step is an integer division. -/
def linspaceInt (start stop : ℤ) (n : ℕ) : List ℤ :=
  if n = 0 then []
  else if n = 1 then [start]
  else
    let step := Int.tdiv (stop - start) ((n - 1 : ℕ) : ℤ)
    (iota 0 n).map fun i => start + i * step

/-- `logspace_filler` (scicpp/core/range.hpp:138-157); `pw` is `std::pow`, `fma x y z = x*y + z`. -/
def logspace [Zero α] [One α] [Add α] [Sub α] [Mul α] [Div α] [NatCast α] (pw : α → α → α)
    (fma : α → α → α → α) (start stop : α) (n : ℕ) (base : α) : List α :=
  if n = 0 then []
  else if n = 1 then [pw base start]
  else
    let step := (stop - start) / ((n - 1 : ℕ) : α)
    (iota 0 n).map fun i => pw base (fma i step start)

/-- `static_cast<std::size_t>(x)` of a floating point value: truncation; UB when the truncated value
is negative or not finite.  Simplification: the 2^64 upper limit is not modelled. -/
def RFl.toSize {rnd : ℚ → ℚ} (a : RFl rnd) : Res ℕ :=
  match (a : Fl) with
  | .fin q => if q ≤ -1 then .ub else .ok ⌊q⌋₊
  | _ => .ub

/-- `arange` (scicpp/core/range.hpp:193-209) for a floating point type. -/
def arange {rnd : ℚ → ℚ} (start stop step : RFl rnd) : Res (List (RFl rnd)) := do
  let num ←
    if (RFl.lt start stop && RFl.lt step (RFl.fin 0)) || (RFl.lt stop start && RFl.lt (RFl.fin 0) step) then
      .ok 0
    else RFl.toSize (RFl.abs ((stop - start) / step : RFl rnd))
  pure ((iota 0 num).map fun x => RFl.fma x step start)

/-- `arange` for `T = int` (scicpp/core/range.hpp:193-209): `(stop - start) / step` is an integer
division (UB for a zero step). -/
def arangeInt (start stop step : ℤ) : Res (List ℤ) := do
  let num : ℕ ←
    if (decide (start < stop) && decide (step < 0)) || (decide (stop < start) && decide (0 < step))
    then .ok 0
    else if step = 0 then .ub else .ok (Int.tdiv (stop - start) step).natAbs
  pure ((iota (0 : ℤ) num).map fun x => x * step + start)

/-! ### equal.hpp -/

/-- `fp_equal_predicate<rel_tol>` (scicpp/core/equal.hpp:29-51); `tol` is `rel_tol * eps / 2`. -/
def fpEqual {rnd : ℚ → ℚ} (tol : ℚ) (a b : RFl rnd) : Bool :=
  if RFl.isNan a && RFl.isNan b then true
  else if RFl.isInf a && RFl.isInf b then RFl.signbit a == RFl.signbit b
  else
    let maxVal : RFl rnd := RFl.max (RFl.abs a) (RFl.abs b)
    if RFl.isZero a || RFl.isZero b || RFl.lt maxVal (RFl.fin tol) then
      RFl.le (RFl.abs (a - b : RFl rnd)) (RFl.fin tol)
    else RFl.le (RFl.abs (a - b : RFl rnd)) ((RFl.fin tol : RFl rnd) * maxVal : RFl rnd)

/-- `almost_equal<rel_tol>` on scalars (scicpp/core/equal.hpp:55-73) for a real type. -/
abbrev almostEqual {rnd : ℚ → ℚ} (tol : ℚ) (a b : RFl rnd) : Bool := fpEqual tol a b

/-- `almost_equal` on complex numbers (scicpp/core/equal.hpp:60-69), as pairs. -/
def almostEqualC {rnd : ℚ → ℚ} (tol : ℚ) (a b : RFl rnd × RFl rnd) : Bool :=
  fpEqual tol a.1 b.1 && fpEqual tol a.2 b.2

/-- `std::equal(f1, l1, f2, l2, p)`. -/
def stdEqual (p : α → α → Bool) : List α → List α → Bool
  | [], [] => true
  | x :: xs, y :: ys => p x y && stdEqual p xs ys
  | _, _ => false

/-- `almost_equal` on arrays (scicpp/core/equal.hpp:87-93). -/
def almostEqualArr {rnd : ℚ → ℚ} (tol : ℚ) (f1 f2 : List (RFl rnd)) : Bool :=
  stdEqual (fpEqual tol) f1 f2

/-- `array_equal` (scicpp/core/equal.hpp:95-98): element-wise `==`. -/
def arrayEqual (eq : α → α → Bool) (f1 f2 : List α) : Bool := stdEqual eq f1 f2

/-- The default tolerance for `double`: `1 * eps / 2 = 2^-53` (scicpp/core/equal.hpp:33-34). -/
def tol64 : ℚ := 1 / 2 ^ 53

/-! ### lerp in rounded arithmetic -/

/-- `lerp(a, b, t)` (scicpp/core/maths.hpp:177-199) in floating point arithmetic. -/
def lerpF {rnd : ℚ → ℚ} (a b t : RFl rnd) : RFl rnd :=
  let zero : RFl rnd := RFl.fin 0
  let one : RFl rnd := RFl.fin 1
  if (RFl.le a zero && RFl.le zero b) || (RFl.le zero a && RFl.le b zero) then
    t * b + ((RFl.fin 1 : RFl rnd) - t) * a
  else if RFl.eqv t one then b
  else
    let x := a + t * (b - a)
    if RFl.lt one t == RFl.lt a b then (if RFl.lt b x then x else b)
    else (if RFl.lt x b then x else b)

end SciCpp
