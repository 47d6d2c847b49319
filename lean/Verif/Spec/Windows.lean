import Mathlib.Analysis.SpecialFunctions.Trigonometric.Basic
import Mathlib.Analysis.SpecialFunctions.Pow.Real
import Mathlib.Topology.Algebra.InfiniteSum.Basic
import Mathlib.Analysis.Real.Sqrt
/-
  Textbook definitions of the window functions: the value of sample `i` of the symmetric window of
  `N` points, valid for every `i` in `0 … N-1` (no mirroring).
-/
namespace SciCpp.Spec

open Real

/-- Triangle with zero end points. -/
noncomputable def bartlett (N i : ℕ) : ℝ := 1 - |2 * (i : ℝ) / (N - 1) - 1|

/-- Half a period of a sine. -/
noncomputable def cosineWin (N i : ℕ) : ℝ := sin (π * ((i : ℝ) + 1 / 2) / N)

/-- `(1 - |x|) cos(π|x|) + sin(π|x|)/π` with `x` from -1 to 1. -/
noncomputable def bohman (N i : ℕ) : ℝ :=
  let x := |2 * (i : ℝ) / (N - 1) - 1|
  (1 - x) * cos (π * x) + sin (π * x) / π

/-- `Σ_j (-1)^j a_j cos(2π i j/(N-1))`. -/
noncomputable def generalCosine (a : List ℝ) (N i : ℕ) : ℝ :=
  ∑ j ∈ Finset.range a.length, (-1) ^ j * a.getD j 0 * cos (2 * π * i * j / (N - 1))

/-- Hann. -/
noncomputable def hann (N i : ℕ) : ℝ := (1 - cos (2 * π * i / (N - 1))) / 2

/-- Hamming. -/
noncomputable def hamming (N i : ℕ) : ℝ := 0.54 - 0.46 * cos (2 * π * i / (N - 1))

/-- Blackman. -/
noncomputable def blackman (N i : ℕ) : ℝ :=
  0.42 - 0.5 * cos (2 * π * i / (N - 1)) + 0.08 * cos (4 * π * i / (N - 1))

/-- Nuttall. -/
noncomputable def nuttall (N i : ℕ) : ℝ :=
  0.3635819 - 0.4891775 * cos (2 * π * i / (N - 1)) + 0.1365995 * cos (4 * π * i / (N - 1))
    - 0.0106411 * cos (6 * π * i / (N - 1))

/-- Blackman-Harris. -/
noncomputable def blackmanharris (N i : ℕ) : ℝ :=
  0.35875 - 0.48829 * cos (2 * π * i / (N - 1)) + 0.14128 * cos (4 * π * i / (N - 1))
    - 0.01168 * cos (6 * π * i / (N - 1))

/-- Flat top. -/
noncomputable def flattop (N i : ℕ) : ℝ :=
  0.21557895 - 0.41663158 * cos (2 * π * i / (N - 1)) + 0.277263158 * cos (4 * π * i / (N - 1))
    - 0.083578947 * cos (6 * π * i / (N - 1)) + 0.006947368 * cos (8 * π * i / (N - 1))

/-- Distance of sample `i` to the centre of the window. -/
noncomputable def centred (N i : ℕ) : ℝ := |(i : ℝ) - ((N : ℝ) - 1) / 2|

/-- Gaussian of standard deviation `σ` samples. -/
noncomputable def gaussian (σ : ℝ) (N i : ℕ) : ℝ := exp (-(centred N i) ^ 2 / (2 * σ ^ 2))

/-- Generalised Gaussian. -/
noncomputable def generalGaussian (p σ : ℝ) (N i : ℕ) : ℝ :=
  exp (-(centred N i / σ) ^ (2 * p) / 2)

/-- Modified Bessel function of the first kind and order 0 (its power series). -/
noncomputable def besselI0 (x : ℝ) : ℝ := ∑' k : ℕ, (x / 2) ^ (2 * k) / (k.factorial : ℝ) ^ 2

/-- Kaiser. -/
noncomputable def kaiser (β : ℝ) (N i : ℕ) : ℝ :=
  besselI0 (β * √(1 - (2 * (i : ℝ) / (N - 1) - 1) ^ 2)) / besselI0 β

/-- Parzen (de la Vallée Poussin): piecewise cubic in the distance to the centre. -/
noncomputable def parzen (N i : ℕ) : ℝ :=
  let d := centred N i / ((N : ℝ) / 2)
  if centred N i ≤ (N : ℝ) / 4 then 1 - 6 * d ^ 2 * (1 - d) else 2 * (1 - d) ^ 3

/-- `sin(πx)/(πx)`, 1 at 0. -/
noncomputable def sinc (x : ℝ) : ℝ := if x = 0 then 1 else sin (π * x) / (π * x)

/-- Lanczos. -/
noncomputable def lanczos (N i : ℕ) : ℝ := sinc (2 * (i : ℝ) / (N - 1) - 1)

/-- Tukey: flat in the middle, cosine tapers of `α (N-1)/2` samples on each side. -/
noncomputable def tukey (α : ℝ) (N i : ℕ) : ℝ :=
  if centred N i ≤ (1 - α) * (((N : ℝ) - 1) / 2) then 1
  else (1 + cos (π * (centred N i - (1 - α) * (((N : ℝ) - 1) / 2)) / (α * (((N : ℝ) - 1) / 2)))) / 2

end SciCpp.Spec
