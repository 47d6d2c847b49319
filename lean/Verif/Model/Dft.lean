import Verif.Model.Fft
import Verif.Model.Poly
import Verif.Model.Stats
import Mathlib.Analysis.SpecialFunctions.Complex.Circle
/-
  Model of the transforms of scicpp/signal/fft.hpp:190-328 and of `fftconvolve`
  (scicpp/signal/convolve.hpp:89-123).

  `Eigen::FFT` (third party, not in /repo) is modelled by the exact discrete Fourier transform over
  ℂ: `fwd` is the DFT, `inv` the inverse DFT scaled by `1/n`; with the flag `HalfSpectrum` the
  forward transform of a real signal stores the first `n/2 + 1` bins; the inverse transform to a
  real array reads the first `n/2 + 1` bins, extends them by Hermitian symmetry and keeps the real
  part.  Rounding is not modelled.
-/
namespace SciCpp

open Finset

/-- `exp(-2πi/n)`. -/
noncomputable def twiddle (n : ℕ) : ℂ := Complex.exp (-(2 * Real.pi * Complex.I / n))

/-- `Eigen::FFT::fwd`: `Σ_j x_j exp(-2πi jk/n)` for `k = 0 … n-1` (n = size of `x`). -/
noncomputable def dft (x : List ℂ) : List ℂ :=
  (List.range x.length).map fun k : ℕ => ∑ j ∈ range x.length, x.getD j 0 * twiddle x.length ^ (j * k)

/-- `Eigen::FFT::inv` to a complex array: `1/n Σ_k y_k exp(2πi jk/n)`. -/
noncomputable def idft (y : List ℂ) : List ℂ :=
  (List.range y.length).map fun j : ℕ =>
    (∑ k ∈ range y.length, y.getD k 0 * (twiddle y.length)⁻¹ ^ (j * k)) / (y.length : ℂ)

/-- Extension of the bins `0 … n/2` of `y` to `n` bins by Hermitian symmetry. -/
noncomputable def hermExt (n : ℕ) (y : List ℂ) : List ℂ :=
  (List.range n).map fun k : ℕ =>
    if k ≤ n / 2 then y.getD k 0 else (starRingEnd ℂ) (y.getD (n - k) 0)

/-- `Eigen::FFT::inv` to a real array of `n = size of y` points; an empty `y` is UB
(`&src[0]`). -/
noncomputable def eigenInvReal (y : List ℂ) : Res (List ℝ) :=
  if y.length = 0 then .ub else .ok ((idft (hermExt y.length y)).map Complex.re)

/-- `fft(x)` for complex input (scicpp/signal/fft.hpp:190-233). -/
noncomputable def fft (x : List ℂ) : Res (List ℂ) := do
  require (!x.isEmpty)                                           -- 209
  if x.length = 1 then do
    let v ← rd x 0                                               -- 213
    pure [v]
  else pure (dft x)                                              -- 215

/-- `fft(x)` for real input (scicpp/signal/fft.hpp:229-232): the full spectrum. -/
noncomputable def fftReal (x : List ℝ) : Res (List ℂ) := fft (x.map (fun v : ℝ => (v : ℂ)))

/-- `rfft(x)` (scicpp/signal/fft.hpp:235-272). -/
noncomputable def rfft (x : List ℝ) : Res (List ℂ) := do
  require (!x.isEmpty)                                           -- 255
  if x.length = 1 then do
    let v ← rd x 0                                               -- 259
    pure [(v : ℂ)]
  else pure ((dft (x.map (fun v : ℝ => (v : ℂ)))).take (x.length / 2 + 1))

/-- `ifft(y, n)` for complex `y` (scicpp/signal/fft.hpp:276-288). -/
noncomputable def ifft (y : List ℂ) (n : ℤ) : Res (List ℂ) :=
  if toI32 y.length = n ∨ n < 0 then .ok (idft y)
  else do
    let y' ← zeroPadConst y n.toNat
    pure (idft y')

/-- `irfft(y, n)` (scicpp/signal/fft.hpp:315-328); `2 * (y.size() - 1)` for an empty `y` wraps to a
size no vector can have (UB here). -/
noncomputable def irfft (y : List ℂ) (n : ℤ) : Res (List ℝ) :=
  if toI32 y.length = n then eigenInvReal y
  else do
    let size ← (if n < 0 then
      (if y.length = 0 then .ub else Res.ok (2 * (y.length - 1))) else Res.ok n.toNat)
    let y' ← zeroPadConst y size
    eigenInvReal y'

/-- Element-wise product of two containers of one size (scicpp/core/functional.hpp and
scicpp/core/numeric.hpp `operator*`). -/
def mulLists {α : Type} [Mul α] (a b : List α) : Res (List α) := do
  require (a.length == b.length)
  pure (List.zipWith (· * ·) a b)

/-- The common beginning of `fftconvolve` (scicpp/signal/convolve.hpp:93-94); two empty arrays make
`res_size` wrap to `SIZE_MAX`, for which `next_fast_len` never answers. -/
def fftconvSize (fuel n m : ℕ) : Res (ℕ × ℕ) := do
  require (decide (0 < n + m))
  let resSize := n + m - 1
  let f ← nextFastLen (2 ^ 64 - 1) fuel resSize
  match f with
  | some s => pure (resSize, s)
  | none => .ub

/-- `fftconvolve(a, v)` for complex element types (scicpp/signal/convolve.hpp:89-101). -/
noncomputable def fftconvolveC (fuel : ℕ) (a v : List ℂ) : Res (List ℂ) := do
  let (resSize, fftSize) ← fftconvSize fuel a.length v.length
  let ap ← zeroPadConst a fftSize
  let vp ← zeroPadConst v fftSize
  let fa ← fft ap
  let fv ← fft vp
  let p ← mulLists fa fv
  let res ← ifft p (toI32 fftSize)
  pure (zeroPadMove res resSize)

/-- `fftconvolve(a, v)` for real element types (scicpp/signal/convolve.hpp:102-106). -/
noncomputable def fftconvolveR (fuel : ℕ) (a v : List ℝ) : Res (List ℝ) := do
  let (resSize, fftSize) ← fftconvSize fuel a.length v.length
  let ap ← zeroPadConst a fftSize
  let vp ← zeroPadConst v fftSize
  let fa ← rfft ap
  let fv ← rfft vp
  let p ← mulLists fa fv
  let res ← irfft p (toI32 fftSize)
  pure (zeroPadMove res resSize)

end SciCpp
