import Verif.Model.Poly
import Verif.Model.F64
import Mathlib.Analysis.SpecialFunctions.Trigonometric.Basic
/-
  Model of scicpp/signal/waveforms.hpp.
-/
namespace SciCpp

variable {K : Type*}

/-- `unit_impulse` (scicpp/signal/waveforms.hpp:26-46; the array and the vector version do the same). -/
def unitImpulse [Zero K] [One K] (len idx : ℕ) : List K :=
  let res := List.replicate len (0 : K)
  if idx < len then res.set idx 1 else res

/-- The function `sawtooth` maps over its argument (scicpp/signal/waveforms.hpp:58-68), for an arithmetic
`K` with comparison `lt`, remainder `fmod` and constants `two`, `pi`. -/
def sawtoothAt [One K] [Zero K] [Add K] [Sub K] [Mul K] [Div K] (lt : K → K → Bool) (fmod : K → K → K)
    (two pi width t : K) : Res K :=
  let tmod := fmod t (two * pi)                                                           -- 59
  if lt tmod (width * two * pi) then                                                      -- 61
    if lt 0 width then .ok (tmod / (width * pi) - 1) else .ub                             -- 62-63
  else
    if lt width 1 then .ok ((width + 1 - tmod / pi) / (1 - width)) else .ub               -- 65-66

/-- `std::fmod` on reals: the remainder of the division truncated towards zero. -/
noncomputable def fmodR (x y : ℝ) : ℝ := if 0 ≤ x / y then x - y * ⌊x / y⌋ else x - y * ⌈x / y⌉

/-- `sawtooth` at one time over the reals; the requirement on `width` is line 55. -/
noncomputable def sawtoothR (width t : ℝ) : Res ℝ :=
  if 0 ≤ width ∧ width ≤ 1 then sawtoothAt (fun a b => decide (a < b)) fmodR 2 Real.pi width t else .ub

/-- `sawtooth(t, width)` over the reals (scicpp/signal/waveforms.hpp:52-70). -/
noncomputable def sawtoothArr (width : ℝ) (ts : List ℝ) : Res (List ℝ) :=
  if 0 ≤ width ∧ width ≤ 1 then ts.mapM (sawtoothR width) else .ub

/-- `std::fmod` on rationals (exact in floating point). -/
def fmodQ (x y : ℚ) : ℚ := if 0 ≤ x / y then x - y * ⌊x / y⌋ else x - y * ⌈x / y⌉

/-- `std::fmod` on finite `double`s (NaN for other arguments). -/
def fmodF (a b : F64) : F64 :=
  match (a : Fl), (b : Fl) with
  | .fin x, .fin y => if y = 0 then RFl.nan else RFl.fin (fmodQ x y)
  | _, _ => RFl.nan

/-- `pi<double>` (scicpp/core/constants.hpp): 3.141592653589793115997963… -/
def piF64 : F64 := RFl.fin (884279719003555 / 281474976710656)

/-- `sawtooth` at one time in binary64 (scicpp/signal/waveforms.hpp:54-70). -/
def sawtoothF64 (width t : F64) : Res F64 :=
  if RFl.le 0 width && RFl.le width 1 then sawtoothAt RFl.lt fmodF (RFl.fin 2) piF64 width t else .ub

/-- `sweep_poly(t, poly, phi)` at one time (scicpp/signal/waveforms.hpp:79-91), exact arithmetic. -/
noncomputable def sweepPoly (t : ℝ) (poly : List ℝ) (phi : ℝ) : Res ℝ := do
  let ip ← polyint poly
  pure (Real.cos (2 * Real.pi * polyval t ip + phi))

end SciCpp
