import Verif.Model.Waveforms
import Verif.Model.Ops
import Verif.Model.CppFloat
/-
  Model of scicpp/signal/waveforms.hpp in rounded arithmetic: every operation rounds with `rnd`, `pi<T>` is the number `π'`.
  Simplifications: exponents are unbounded; a conversion of an angle to its own unit (in `+` and in `cos`) leaves the value alone.
-/
namespace SciCpp

variable {rnd : ℚ → ℚ}

/-- `sawtooth(t, width)` (scicpp/signal/waveforms.hpp:52-70). -/
def sawtoothFl (π' : ℚ) (width : RFl rnd) (ts : List (RFl rnd)) : Res (List (RFl rnd)) :=
  if RFl.le 0 width && RFl.le width 1 then                                                -- 55
    ts.mapM (sawtoothAt RFl.lt fmodFl (RFl.fin 2) (RFl.fin π') width)
  else .ub

/-- `sweep_poly(t, poly, phi)` (scicpp/signal/waveforms.hpp:79-91): `cos` is `std::cos`. -/
def sweepPolyFl (π' : ℚ) (cos : RFl rnd → RFl rnd) (ts poly : List (RFl rnd)) (phi : RFl rnd) : Res (List (RFl rnd)) := do
  let ip ← polyint poly                                                                   -- 89
  pure (ts.map fun t => cos (RFl.fin 2 * RFl.fin π' * polyvalWith RFl.fma t ip + phi))    -- 88-90

end SciCpp
