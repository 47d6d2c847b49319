import Verif.Model.Range
import Verif.Model.QFloat
import Verif.Model.IntRed
/-
  Ranges of integers and of quantities (scicpp/core/range.hpp).
-/
namespace SciCpp

/-- `logspace_filler` for a signed integer type (scicpp/core/range.hpp:138-157): the step is an integer
division; `std::fma` and `std::pow` work on `double`, and the result of `std::pow` (`pw`) is converted back, which is
undefined when it does not fit.  Simplification: `RepTp(a.size() - 1)` is required to fit. -/
def logspaceInt (lo hi : ℤ) (pw : ℚ → ℚ → ℚ) (start stop : ℤ) (n : ℕ) (base : ℤ) : Res (List ℤ) :=
  if n = 0 then .ok []
  else if n = 1 then do
    let v ← chk lo hi (truncK (pw (rnd64 base) (rnd64 start)))
    pure [v]
  else do
    let d ← chk lo hi (stop - start)
    let m ← chk lo hi ((n - 1 : ℕ) : ℤ)
    let step := Int.tdiv d m
    (List.range n).mapM fun i : ℕ =>
      chk lo hi (truncK (pw (rnd64 base) (rnd64 (rnd64 (i : ℕ) * rnd64 step + rnd64 start))))

section
variable {K : Type} [CppNum K] [NatCast K]

/-- `std::iota(a.begin(), a.end(), T{0})` for a quantity type (scicpp/core/range.hpp:114, 151, 206): `operator++`
increments the value (scicpp/core/units/quantity.hpp:295-298). -/
def iotaQ (t : QTy) (v : K) : ℕ → List (Qty K)
  | 0 => []
  | n + 1 => ⟨t, v⟩ :: iotaQ t (v + 1) n

/-- `linspace_filler` for quantities (scicpp/core/range.hpp:101-118): both ends have the type of the array; the
step is the value of the difference of the quantities; `std::move(a) * step` multiplies each quantity by a number
and `start + ...` adds quantities. -/
def linspaceQ (lt eqv : K → K → Bool) (fuel : ℕ) (start stop : Qty K) (n : ℕ) : Res (List (Qty K)) :=
  if start.ty ≠ stop.ty then .ub
  else if n = 0 then .ok []
  else if n = 1 then .ok [start]
  else do
    let d ← qfSub lt eqv fuel stop start
    let step := d.val / ((n - 1 : ℕ) : K)
    (iotaQ start.ty 0 n).mapM fun x => qfAdd lt eqv fuel start ⟨x.ty, step * x.val⟩

/-- `logspace<Qty>(start, stop, num, base)` and `logspace<N, Qty>` (scicpp/core/range.hpp:138-157, 166-172,
179-187): the exponents and the base are plain numbers, the results are quantities of type `t`. -/
def logspaceQ (pw : K → K → K) (fma : K → K → K → K) (t : QTy) (start stop : K) (n : ℕ) (base : K) :
    List (Qty K) :=
  if n = 0 then []
  else if n = 1 then [⟨t, pw base start⟩]
  else
    let step := (stop - start) / ((n - 1 : ℕ) : K)
    (iotaQ t 0 n).map fun x => ⟨t, pw base (fma x.val step start)⟩

end

/-- `arange` for quantities (scicpp/core/range.hpp:193-209): comparisons, difference and quotient of quantities;
`units::fma(x, units::value(step), start)` has the type of `x` (scicpp/core/units/maths.hpp:87-97).  The quotient
`(stop - start) / step` does not compile for a unit with offset (scicpp/core/units/quantity.hpp:329-334). -/
def arangeQ {rnd : ℚ → ℚ} (fuel : ℕ) (start stop step : Qty (RFl rnd)) : Res (List (Qty (RFl rnd))) :=
  if start.ty ≠ stop.ty ∨ start.ty ≠ step.ty then .ub
  else if step.ty.off ≠ 0 then .ub
  else do
    let zero : Qty (RFl rnd) := ⟨step.ty, RFl.fin 0⟩
    let num ←
      if (qfGt RFl.lt stop start && qfLt RFl.lt step zero) || (qfLt RFl.lt stop start && qfGt RFl.lt step zero) then
        .ok 0
      else do
        let d ← qfSub RFl.lt RFl.eqv fuel stop start
        RFl.toSize (RFl.abs (d.val / step.val : RFl rnd))
    pure ((iotaQ start.ty (RFl.fin 0) num).map fun x => ⟨x.ty, RFl.fma x.val step.val start.val⟩)

end SciCpp
