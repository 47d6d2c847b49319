import Verif.Model.Dft
import Verif.Model.SpectralF
/-
  The transforms of scicpp/signal/fft.hpp and `convolve<FFT>`, `correlate<FFT>` (scicpp/signal/convolve.hpp) in floating point, generic in the arithmetic `K`.
  The transforms of Eigen (`Eigen::FFT`, third party, not in /repo) are parameters: any functions on arrays.
-/
namespace SciCpp

/-- `Eigen::FFT<T>`: forward transforms of complex arrays and of real arrays (half spectrum), inverse transforms to complex and to real arrays.  The inverse
transform to a real array gets as many bins as the result has points. -/
structure FftLib (K : Type) where
  fwd : List (CK K) → List (CK K)
  rfwd : List K → List (CK K)
  inv : List (CK K) → List (CK K)
  rinv : List (CK K) → List K

section
variable {K : Type} [CppNum K]

/-- `fft(x)` for complex input (scicpp/signal/fft.hpp:190-233). -/
def fftK (lib : FftLib K) (x : List (CK K)) : Res (List (CK K)) := do
  require (!x.isEmpty)                                           -- 209
  if x.length = 1 then do
    let v ← rd x 0                                               -- 213
    pure [v]
  else pure (lib.fwd x)                                          -- 215

/-- `rfft(x)` (scicpp/signal/fft.hpp:235-272). -/
def rfftK (lib : FftLib K) (x : List K) : Res (List (CK K)) := do
  require (!x.isEmpty)                                           -- 255
  if x.length = 1 then do
    let v ← rd x 0                                               -- 259
    pure [⟨v, 0⟩]
  else pure (lib.rfwd x)

/-- `ifft(y, n)` for complex `y` (scicpp/signal/fft.hpp:276-288). -/
def ifftK (lib : FftLib K) (y : List (CK K)) (n : ℤ) : Res (List (CK K)) :=
  if toI32 y.length = n ∨ n < 0 then .ok (lib.inv y)
  else do
    let y' ← zeroPadConst y n.toNat
    pure (lib.inv y')

/-- `Eigen::FFT::inv` to a real array; an empty array is UB. -/
def eigenInvRealK (lib : FftLib K) (y : List (CK K)) : Res (List K) := if y.length = 0 then .ub else .ok (lib.rinv y)

/-- `irfft(y, n)` (scicpp/signal/fft.hpp:315-328). -/
def irfftK (lib : FftLib K) (y : List (CK K)) (n : ℤ) : Res (List K) :=
  if toI32 y.length = n then eigenInvRealK lib y
  else do
    let size ← (if n < 0 then (if y.length = 0 then .ub else Res.ok (2 * (y.length - 1))) else Res.ok n.toNat)
    let y' ← zeroPadConst y size
    eigenInvRealK lib y'

/-- `fftconvolve(a, v)` for complex element types (scicpp/signal/convolve.hpp:89-101). -/
def fftconvolveCK (lib : FftLib K) (fuel : ℕ) (a v : List (CK K)) : Res (List (CK K)) := do
  let (resSize, fftSize) ← fftconvSize fuel a.length v.length
  let ap ← zeroPadConst a fftSize
  let vp ← zeroPadConst v fftSize
  let fa ← fftK lib ap
  let fv ← fftK lib vp
  let p ← mulLists fa fv
  let res ← ifftK lib p (toI32 fftSize)
  pure (zeroPadMove res resSize)

/-- `fftconvolve(a, v)` for real element types (scicpp/signal/convolve.hpp:102-106). -/
def fftconvolveRK (lib : FftLib K) (fuel : ℕ) (a v : List K) : Res (List K) := do
  let (resSize, fftSize) ← fftconvSize fuel a.length v.length
  let ap ← zeroPadConst a fftSize
  let vp ← zeroPadConst v fftSize
  let fa ← rfftK lib ap
  let fv ← rfftK lib vp
  let p ← mulLists fa fv
  let res ← irfftK lib p (toI32 fftSize)
  pure (zeroPadMove res resSize)

/-- `correlate<FFT>(a, v)` for complex element types (scicpp/signal/convolve.hpp:134-149). -/
def fftcorrelateCK [Neg K] (lib : FftLib K) (fuel : ℕ) (a v : List (CK K)) : Res (List (CK K)) := fftconvolveCK lib fuel a (v.reverse.map CK.conj)

/-- `correlate<FFT>(a, v)` for real element types (scicpp/signal/convolve.hpp:134-149). -/
def fftcorrelateRK (lib : FftLib K) (fuel : ℕ) (a v : List K) : Res (List K) := fftconvolveRK lib fuel a v.reverse

end
end SciCpp
