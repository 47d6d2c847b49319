import Verif.Model.Dft
import Verif.Model.Gmean
import Verif.Model.Manips
/-
  Model of the window visualisation tool, scicpp/plots/winvis.hpp.

  Exact real and complex arithmetic with IEEE special values for the logarithm (`XR`); the transform
  is the exact DFT of Model/Dft.  Drawing, labels and the text of the title are not modelled: the
  result is the data handed to `plot` and the numbers printed in the title.
-/
namespace SciCpp

namespace XR

/-- `std::log10`: `-∞` at zero, NaN for negative arguments. -/
noncomputable def log10 : XR → XR
  | nan => nan
  | inf true => nan
  | inf false => inf false
  | fin x => if x < 0 then nan else if x = 0 then inf true else fin (Real.logb 10 x)

/-- IEEE `<`. -/
noncomputable def lt : XR → XR → Bool
  | nan, _ => false
  | _, nan => false
  | inf true, inf true => false
  | inf true, _ => true
  | inf false, _ => false
  | fin _, inf n => !n
  | fin a, fin b => decide (a < b)

/-- `filters::positive` (scicpp/core/functional.hpp:184): `v >= 0`. -/
noncomputable def positive : XR → Bool
  | nan => false
  | inf n => !n
  | fin a => decide (0 ≤ a)

end XR

/-- `detail::window_spectrum_db(window)` (scicpp/plots/winvis.hpp:29-38).  The scalar `spec[0]` is
passed to `operator/` by value (numeric.hpp:479), so the in-place division of the moved array does
not disturb it. -/
noncomputable def windowSpectrumDb (w : List ℝ) : Res (List XR) := do
  let padding := List.replicate (5 * w.length) (0 : ℝ)                       -- 35
  let z ← rfft (padding ++ w ++ padding)
  let spec := z.map fun c => XR.fin (Complex.normSq c)                       -- 36
  let s0 ← rd spec 0                                                         -- 37
  pure ((spec.map fun v => XR.div v s0).map fun v => XR.mul (.fin 10) (XR.log10 v))

/-- `detail::mainlobe_width(f, winfft)` (scicpp/plots/winvis.hpp:41-48). -/
noncomputable def mainlobeWidth (f : List ℝ) (winfft : List XR) : Res ℝ := do
  let idx ← argmin XR.lt (winfft.map fun v => XR.add (.fin 3) v) XR.positive -- 46
  let v ← rd f idx
  pure (4 * v)                                                               -- 47

/-- What `winvis` hands to the two plots, and the widths of the title. -/
structure WinVis where
  x : List ℝ
  windows : List (List ℝ)
  f : List ℝ
  spectra : List (List XR)
  widths : List ℝ

/-- A `std::tuple` of computed values, left to right. -/
def allOk {α : Type} : List (Res α) → Res (List α)
  | [] => .ok []
  | r :: rs => r >>= fun a => allOk rs >>= fun as => .ok (a :: as)

/-- `winvis(windows)` (scicpp/plots/winvis.hpp:52-106); the tuple has at least one element. -/
noncomputable def winvis (w0 : List ℝ) (ws : List (List ℝ)) : Res WinVis := do
  let n := w0.length                                                         -- 57
  require ((w0 :: ws).all fun w => w.length == n)                            -- 58-59
  let f ← rfftfreq (11 * n) (1 : ℝ)                                          -- 68
  let spectra ← allOk ((w0 :: ws).map windowSpectrumDb)                      -- 69-73
  let widths ← allOk (spectra.map (mainlobeWidth f))                         -- 75-79
  pure ⟨linspace 0 (n : ℝ) n, w0 :: ws, f, spectra, widths⟩                  -- 61-66, 95-105

end SciCpp
