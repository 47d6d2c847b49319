import Verif.Model.Spectral
import Verif.Model.Threads
import Verif.Model.WindowsF
import Verif.Model.CppFloat
/-
  Class `Spectrum` (scicpp/signal/spectral.hpp) in floating point, for real and complex signals of plain numbers with `T = double`
  (`2.0 * v` is a `double`).  The definitions are generic in the arithmetic `K`.  The transforms (pocketfft, called through Eigen)
  are parameters: any functions on arrays.  The order in which the segments are added is a parameter too: the sequential
  loop adds them in increasing order, the threads in the order in which they take the lock.
-/
namespace SciCpp

/-- `std::complex<T>`. -/
structure CK (K : Type) where
  re : K
  im : K
deriving DecidableEq

namespace CK
variable {K : Type}

instance [Zero K] : Zero (CK K) := ⟨⟨0, 0⟩⟩
/-- `operator+(complex, complex)`. -/
instance [Add K] : Add (CK K) := ⟨fun a b => ⟨a.re + b.re, a.im + b.im⟩⟩
/-- `operator-(complex, complex)`. -/
instance [Sub K] : Sub (CK K) := ⟨fun a b => ⟨a.re - b.re, a.im - b.im⟩⟩
/-- `operator*(complex, complex)` on finite numbers without overflow (the compiler's function treats NaN specially). -/
instance [Add K] [Sub K] [Mul K] : Mul (CK K) :=
  ⟨fun a b => ⟨a.re * b.re - a.im * b.im, a.re * b.im + a.im * b.re⟩⟩
/-- `std::conj`. -/
def conj [Neg K] (a : CK K) : CK K := ⟨a.re, -a.im⟩
/-- `std::norm`: `re * re + im * im`, two products and a sum. -/
def norm [Add K] [Mul K] (a : CK K) : K := a.re * a.re + a.im * a.im
/-- `operator*(complex, T)` and `operator*(T, complex)`. -/
def mulR [Mul K] (a : CK K) (r : K) : CK K := ⟨a.re * r, a.im * r⟩
/-- `operator/(complex, T)`. -/
def divR [Div K] (a : CK K) (r : K) : CK K := ⟨a.re / r, a.im / r⟩
end CK

/-- The members of `Spectrum<T>` used by the computations (scicpp/signal/spectral.hpp:295-301). -/
structure SpecCfgK (K : Type) where
  fs : K
  window : List K
  s1 : K
  s2 : K
  nperseg : ℤ
  noverlap : ℤ

/-- The functions of other libraries: the transforms, the mean of complex numbers (its division by a complex count is a
function of the compiler), and the test `d > 0`. -/
structure SpecLib (K : Type) where
  fft : List (CK K) → List (CK K)
  rfft : List K → List (CK K)
  meanC : List (CK K) → CK K
  pos : K → Bool

/-- A signal: an array of `T` or of `std::complex<T>`. -/
inductive SigK (K : Type) where
  | real (x : List K)
  | cplx (x : List (CK K))

section
variable {K : Type} [CppNum K] [Neg K]

/-- `x.size()`. -/
def SigK.size : SigK K → ℕ
  | .real x => x.length
  | .cplx x => x.length

/-- `zero_padding(x, n)` (scicpp/signal/fft.hpp:168-178). -/
def SigK.zeroPad (s : SigK K) (n : ℕ) : Res (SigK K) :=
  match s with
  | .real x => do let r ← zeroPadConst x n; pure (.real r)
  | .cplx x => do let r ← zeroPadConst x n; pure (.cplx r)

/-- A transformed segment (scicpp/signal/spectral.hpp:386-389, 408-414):
`fftfunc(detrend(subvector(x, nperseg, i * nstep)) * window)`; a real signal is transformed by `rfft` (one-sided) if
`oneSided`, otherwise by `fft`, which converts it to complex numbers (scicpp/signal/fft.hpp:229-232). -/
def segK (lib : SpecLib K) (c : SpecCfgK K) (oneSided : Bool) (x : SigK K) (i : ℤ) : Res (List (CK K)) :=
  let start := i * (c.nperseg - c.noverlap)
  match x with
  | .real x => do
    let seg ← subvector x c.nperseg start
    require (seg.length == c.window.length)                                              -- 387, 409
    let m := mean seg fun _ => true                                                      -- 292
    let s ← mulLists (seg.map (· - m)) c.window
    pure (if oneSided then lib.rfft s else lib.fft (s.map fun v => ⟨v, 0⟩))
  | .cplx x => do
    let seg ← subvector x c.nperseg start
    require (seg.length == c.window.length)
    let m := lib.meanC seg
    require (seg.length == c.window.length)
    pure (lib.fft (List.zipWith CK.mulR (seg.map (· - m)) c.window))

/-- Number of segments (scicpp/signal/spectral.hpp:379-381, 401-403). -/
def numSegsK (c : SpecCfgK K) (asize : ℕ) : Res ℤ :=
  let nstep := c.nperseg - c.noverlap
  if nstep = 0 then .ub else .ok (1 + Int.tdiv ((asize : ℤ) - c.nperseg) nstep)

/-- The sum of the segment spectra in the order `ord` (scicpp/signal/spectral.hpp:356-371). -/
def accumulateK {A : Type} [Add A] (f : ℤ → Res (List A)) : List ℕ → List A → Res (List A)
  | [], res => .ok res
  | i :: ord, res => do
    let p ← f (i : ℤ)
    let res' ← addLists res p                                                            -- 360, 369
    accumulateK f ord res'

/-- `compute_spectrum` (scicpp/signal/spectral.hpp:350-375). -/
def computeSpectrumK {A : Type} [Add A] [Zero A] (divR : A → K → A) (nfft : ℕ) (nseg : ℤ) (ord : List ℕ)
    (f : ℤ → Res (List A)) : Res (List A) := do
  let res ← accumulateK f ord (List.replicate nfft 0)
  pure (res.map fun v => divR v (CppNum.ofInt nseg))                                     -- 374

/-- `welch_impl` (scicpp/signal/spectral.hpp:377-391). -/
def welchImplK (lib : SpecLib K) (c : SpecCfgK K) (oneSided : Bool) (ord : List ℕ) (nfft : ℕ) (x : SigK K) : Res (List K) := do
  let nseg ← numSegsK c x.size
  computeSpectrumK (· / ·) nfft nseg ord fun i => do
    let y ← segK lib c oneSided x i
    pure (y.map CK.norm)

/-- `welch2_impl` (scicpp/signal/spectral.hpp:393-416). -/
def welch2ImplK (lib : SpecLib K) (c : SpecCfgK K) (oneSided : Bool) (ord : List ℕ) (nfft : ℕ) (x y : SigK K) :
    Res (List (CK K)) := do
  require (x.size == y.size)
  let nseg ← numSegsK c x.size
  computeSpectrumK CK.divR nfft nseg ord fun i => do
    let sx ← segK lib c oneSided x i
    let sy ← segK lib c oneSided y i
    mulLists (sx.map CK.conj) sy

/-- The ONESIDED part of `normalize` (scicpp/signal/spectral.hpp:422-431). -/
def foldSidesK {A : Type} (mulR : A → K → A) (half : K) (c : SpecCfgK K) (v : List A) : Res (List A) := do
  let v := v.map fun e => mulR e (CppNum.ofInt 2)                                        -- 423
  let a ← rd v 0
  let v ← wr v 0 (mulR a half)                                                           -- 425
  if c.nperseg % 2 = 0 then do                                                           -- 427
    let b ← rd v ((v.length : ℤ) - 1)
    wr v ((v.length : ℤ) - 1) (mulR b half)                                              -- 429
  else pure v

/-- The scaling part of `normalize` (scicpp/signal/spectral.hpp:433-439). -/
def scaleSpecK {A : Type} (divR : A → K → A) (c : SpecCfgK K) (s : Scaling) (v : List A) : List A :=
  match s with
  | .density => v.map fun e => divR e (c.fs * c.s2)
  | .spectrum => v.map fun e => divR e c.s1
  | .none => v

/-- The literal `0.5` (scicpp/signal/spectral.hpp:425, 429): a power of two, the quotient of 1 and 2. -/
def halfK : K := CppNum.ofInt 1 / CppNum.ofInt 2

/-- `welch<scaling, false>(x)` (scicpp/signal/spectral.hpp:128-177). -/
def welchK (lib : SpecLib K) (c : SpecCfgK K) (ord : List ℕ) (s : Scaling) (x : SigK K) : Res (List K) :=
  if x.size = 0 then .ok []                                                              -- 154-160
  else match x with
    | .cplx x => do
      let v ← welchImplK lib c false ord c.nperseg.toNat (.cplx x)                       -- 165-166
      pure (scaleSpecK (· / ·) c s v)
    | .real x => do
      let v ← welchImplK lib c true ord (c.nperseg.toNat / 2 + 1) (.real x)              -- 168-169
      let v ← foldSidesK (· * ·) halfK c v
      pure (scaleSpecK (· / ·) c s v)

/-- `csd` of two signals of one size, without frequencies (scicpp/signal/spectral.hpp:231-248). -/
def csdSameK (lib : SpecLib K) (c : SpecCfgK K) (ord : List ℕ) (s : Scaling) (x y : SigK K) : Res (List (CK K)) :=
  match x, y with
  | .real x, .real y => do
    let v ← welch2ImplK lib c true ord (c.nperseg.toNat / 2 + 1) (.real x) (.real y)
    let v ← foldSidesK CK.mulR halfK c v
    pure (scaleSpecK CK.divR c s v)
  | x, y => do
    let v ← welch2ImplK lib c false ord c.nperseg.toNat x y
    pure (scaleSpecK CK.divR c s v)

/-- `csd<scaling, false>(x, y)` (scicpp/signal/spectral.hpp:183-256). -/
def csdK (lib : SpecLib K) (c : SpecCfgK K) (ord : List ℕ) (s : Scaling) (x y : SigK K) : Res (List (CK K)) :=
  if x.size = 0 ∨ y.size = 0 then .ok []                                                 -- 223-229
  else if x.size = y.size then csdSameK lib c ord s x y
  else if x.size > y.size then do
    let y' ← y.zeroPad x.size                                                            -- 251
    csdSameK lib c ord s x y'
  else do
    let x' ← x.zeroPad y.size                                                            -- 253
    csdSameK lib c ord s x' y

/-- The values of `coherence(x, y)` (scicpp/signal/spectral.hpp:258-272); `o1`, `o2`, `o3` are the orders of the three
computations. -/
def coherenceK (lib : SpecLib K) (c : SpecCfgK K) (o1 o2 o3 : List ℕ) (x y : SigK K) : Res (List K) := do
  require (x.size == y.size)                                                             -- 261
  let pxy ← csdK lib c o1 .none x y                                                      -- 263
  let pxx ← welchK lib c o2 .none x                                                      -- 264
  let pyy ← welchK lib c o3 .none y                                                      -- 265
  require (pxy.length == pxx.length)                                                     -- 267
  require (pxy.length == pyy.length)                                                     -- 268
  pure (List.zipWith (· / ·) (List.zipWith (· / ·) (pxy.map CK.norm) pxx) pyy)           -- 270-271

/-- The values of `tfestimate(x, y)` (scicpp/signal/spectral.hpp:274-282). -/
def tfestimateK (lib : SpecLib K) (c : SpecCfgK K) (o1 o2 : List ℕ) (x y : SigK K) : Res (List (CK K)) := do
  require (x.size == y.size)                                                             -- 277
  let pyx ← csdK lib c o1 .none y x                                                      -- 279
  let pxx ← welchK lib c o2 .none x                                                      -- 280
  require (pyx.length == pxx.length)
  pure (List.zipWith CK.divR pyx pxx)                                                    -- 281

/-- `fftfreq(n, d)` (scicpp/signal/fft.hpp:70-75, 86-96). -/
def fftfreqK (lib : SpecLib K) (n : ℕ) (d : K) : Res (List K) := do
  require (decide (0 < n))                                                               -- 94
  require (lib.pos d)                                                                    -- 71
  let res := iota (-(castK (n / 2)) : K) n                                               -- 73
  pure (ifftshiftMove (res.map fun v => v / (d * castK n)))                              -- 74

/-- `rfftfreq(n, d)` (scicpp/signal/fft.hpp:77-82, 98-108). -/
def rfftfreqK (lib : SpecLib K) (n : ℕ) (d : K) : Res (List K) := do
  require (decide (0 < n))                                                               -- 106
  require (lib.pos d)                                                                    -- 79
  let res := iota (CppNum.ofInt 0 : K) (n / 2 + 1)                                       -- 80
  pure (res.map fun v => v / (d * castK n))                                              -- 81

end

/-- An array with the element-wise sum, as the value accumulated by the threads. -/
structure Spec1 (A : Type) where
  val : List A

instance {A : Type} [Add A] : Add (Spec1 A) := ⟨fun a b => ⟨List.zipWith (· + ·) a.val b.val⟩⟩

/-- `compute_spectrum` with `nthreads ≥ 2` threads (scicpp/signal/spectral.hpp:327-348, 362-374): `r` is returned by some schedule
of the threads. -/
def ComputeSpectrumMT {A K : Type} [CppNum K] [Add A] [Zero A] (divR : A → K → A) (nfft nseg nthreads : ℕ)
    (f : ℕ → List A) (r : List A) : Prop :=
  ∃ (t : MT (Spec1 A)) (k : ℕ),
    MT.Reach nseg (fun i => ⟨f i⟩) (MT.init nthreads nseg ⟨List.replicate nfft 0⟩) t k ∧ t.pc = .done ∧
    r = t.res.val.map fun v => divR v (CppNum.ofInt (nseg : ℤ))

end SciCpp
