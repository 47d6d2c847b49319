import Verif.Model.Dft
import Verif.Model.Windows
/-
  Model of class `Spectrum` (scicpp/signal/spectral.hpp:61-441).

  Real and complex arithmetic is exact; outcomes of divisions are in `Ex` (a division by zero is
  NaN).  The transforms are the exact ones of Verif/Model/Dft.lean.  Units are not modelled here: the
  signals are plain real or complex arrays.  `compute_spectrum` is the sequential loop; its
  multithreaded variant is modelled in Verif/Model/Threads.lean and proved to compute the same sum.
-/
namespace SciCpp

noncomputable section

/-- `SpectrumScaling` (scicpp/signal/spectral.hpp:29). -/
inductive Scaling where
  | none | density | spectrum
deriving DecidableEq

/-- The members of `Spectrum<T>` (scicpp/signal/spectral.hpp:295-302). -/
structure SpecCfg where
  fs : ℝ
  window : List ℝ
  s1 : ℝ
  s2 : ℝ
  nperseg : ℤ
  useDflt : Bool
  noverlap : ℤ
  nthreads : ℕ

/-- The default configuration (scicpp/signal/spectral.hpp:285, 295-302): `hann(256)`
(see `C47_get_window` for the window). -/
def SpecCfg.init : SpecCfg :=
  let w := (List.range 256).map fun i : ℕ => Spec.hann 256 i
  { fs := 1, window := w, s1 := winS1 w, s2 := winS2 w, nperseg := (w.length : ℤ), useDflt := true,
    noverlap := Int.tdiv (w.length : ℤ) 2, nthreads := 0 }

/-- `fs(f)` (scicpp/signal/spectral.hpp:70-80). -/
def SpecCfg.setFs (c : SpecCfg) (f : ℝ) : SpecCfg := { c with fs := f }

/-- `noverlap(n)` (scicpp/signal/spectral.hpp:82-87). -/
def SpecCfg.setNoverlap (c : SpecCfg) (n : ℤ) : Res SpecCfg := do
  require (decide (n ≤ c.nperseg))                                                       -- 83
  pure { c with useDflt := false, noverlap := n }

/-- `nthreads(n)` (scicpp/signal/spectral.hpp:89-92). -/
def SpecCfg.setNthreads (c : SpecCfg) (n : ℕ) : SpecCfg := { c with nthreads := n }

/-- `set_parameters()` (scicpp/signal/spectral.hpp:304-316). -/
def SpecCfg.setParameters (c : SpecCfg) : Res SpecCfg := do
  let np : ℤ := c.window.length
  let no := if c.useDflt then Int.tdiv np 2 else c.noverlap                              -- 311-313
  let c' := { c with s1 := winS1 c.window, s2 := winS2 c.window, nperseg := np, noverlap := no }
  require (decide (no ≤ np))                                                             -- 315
  pure c'

/-- `window(w)` (scicpp/signal/spectral.hpp:94-110); the third overload passes
`get_window<T>(win, N)`. -/
def SpecCfg.setWindow (c : SpecCfg) (w : List ℝ) : Res SpecCfg := ({ c with window := w }).setParameters

/-- A signal: an array of `T` or of `std::complex<T>`. -/
inductive Sig where
  | real (x : List ℝ)
  | cplx (x : List ℂ)

/-- `x.size()`. -/
def Sig.size : Sig → ℕ
  | .real x => x.length
  | .cplx x => x.length

/-- The signal as complex numbers (what `fft` sees, scicpp/signal/fft.hpp:229-232). -/
def Sig.toC : Sig → List ℂ
  | .real x => x.map fun v : ℝ => (v : ℂ)
  | .cplx x => x

/-- `zero_padding(x, n)`. -/
def Sig.zeroPad (s : Sig) (n : ℕ) : Res Sig :=
  match s with
  | .real x => do let r ← zeroPadConst x n; pure (.real r)
  | .cplx x => do let r ← zeroPadConst x n; pure (.cplx r)

/-- `detrend` (scicpp/signal/spectral.hpp:289-293): subtract the mean.  Simplification: the segment is
not empty and shorter than `2^31`, so that `mean` divides by its length. -/
def detrend {K : Type} [Field K] (x : List K) : List K :=
  x.map fun v => v - sum false x / (x.length : K)

/-- Element-wise sum of two arrays: `operator+` requires equal sizes. -/
def addLists {K : Type} [Add K] (a b : List K) : Res (List K) := do
  require (a.length == b.length)
  pure (List.zipWith (· + ·) a b)

/-- The part of a segment lambda before the transform (scicpp/signal/spectral.hpp:386-389, 408-414):
`detrend(subvector(x, nperseg, start)) * window`. -/
def windowedSeg {K : Type} [Field K] (w : List K) (nperseg start : ℤ) (x : List K) : Res (List K) := do
  let seg ← subvector x nperseg start
  require (seg.length == w.length)
  mulLists (detrend seg) w

/-- One transformed segment with `fft_func` (full spectrum). -/
def segFft (c : SpecCfg) (x : List ℂ) (i : ℤ) : Res (List ℂ) := do
  let s ← windowedSeg (c.window.map fun v : ℝ => (v : ℂ)) c.nperseg (i * (c.nperseg - c.noverlap)) x
  fft s

/-- One transformed segment with `rfft_func` (half spectrum). -/
def segRfft (c : SpecCfg) (x : List ℝ) (i : ℤ) : Res (List ℂ) := do
  let s ← windowedSeg c.window c.nperseg (i * (c.nperseg - c.noverlap)) x
  rfft s

/-- The number of segments (scicpp/signal/spectral.hpp:379-381, 401-403): integer division, UB when
`nstep = 0`. -/
def numSegs (c : SpecCfg) (asize : ℕ) : Res ℤ :=
  let nstep := c.nperseg - c.noverlap
  if nstep = 0 then .ub else .ok (1 + Int.tdiv ((asize : ℤ) - c.nperseg) nstep)

/-- `compute_spectrum` (scicpp/signal/spectral.hpp:350-375), sequential branch. -/
def computeSpectrum {K : Type} [Field K] [DecidableEq K] [StarRing K] (nfft : ℕ) (nseg : ℤ)
    (f : ℤ → Res (List K)) : Res (List (Ex K)) := do
  let res ← forN nseg.toNat (fun i res => do
    let p ← f (i : ℤ)
    addLists res p) (List.replicate nfft 0)
  pure (res.map fun v => Ex.fin v / Ex.fin (nseg : K))

/-- `welch_impl` for complex signals (scicpp/signal/spectral.hpp:377-391). -/
def welchImplC (c : SpecCfg) (x : List ℂ) : Res (List (Ex ℝ)) := do
  let nseg ← numSegs c x.length
  computeSpectrum c.nperseg.toNat nseg fun i => do
    let y ← segFft c x i
    pure (y.map Complex.normSq)

/-- `welch_impl` for real signals. -/
def welchImplR (c : SpecCfg) (x : List ℝ) : Res (List (Ex ℝ)) := do
  let nseg ← numSegs c x.length
  computeSpectrum (c.nperseg.toNat / 2 + 1) nseg fun i => do
    let y ← segRfft c x i
    pure (y.map Complex.normSq)

/-- `welch2_impl` with `fft_func` (scicpp/signal/spectral.hpp:393-416). -/
def welch2ImplC (c : SpecCfg) (x y : List ℂ) : Res (List (Ex ℂ)) := do
  require (x.length == y.length)
  let nseg ← numSegs c x.length
  computeSpectrum c.nperseg.toNat nseg fun i => do
    let sx ← segFft c x i
    let sy ← segFft c y i
    mulLists (sx.map (starRingEnd ℂ)) sy

/-- `welch2_impl` with `rfft_func`. -/
def welch2ImplR (c : SpecCfg) (x y : List ℝ) : Res (List (Ex ℂ)) := do
  require (x.length == y.length)
  let nseg ← numSegs c x.length
  computeSpectrum (c.nperseg.toNat / 2 + 1) nseg fun i => do
    let sx ← segRfft c x i
    let sy ← segRfft c y i
    mulLists (sx.map (starRingEnd ℂ)) sy

/-- The ONESIDED part of `normalize` (scicpp/signal/spectral.hpp:422-431): `front()`/`back()` of an
empty vector are UB. -/
def foldSides {K : Type} [Field K] [DecidableEq K] [StarRing K] (c : SpecCfg) (v : List (Ex K)) :
    Res (List (Ex K)) := do
  let v := v.map fun e => Ex.fin 2 * e                                                   -- 423
  let a ← rd v 0
  let v ← wr v 0 (a * Ex.fin (1 / 2))                                                    -- 425
  if c.nperseg % 2 = 0 then do                                                           -- 427
    let b ← rd v ((v.length : ℤ) - 1)
    wr v ((v.length : ℤ) - 1) (b * Ex.fin (1 / 2))                                       -- 429
  else pure v

/-- The scaling part of `normalize` (scicpp/signal/spectral.hpp:433-439). -/
def scaleSpec {K : Type} [RCLike K] [DecidableEq K] (c : SpecCfg) (s : Scaling) (v : List (Ex K)) :
    List (Ex K) :=
  match s with
  | .density => v.map fun e => e / Ex.fin ((c.fs * c.s2 : ℝ) : K)
  | .spectrum => v.map fun e => e / Ex.fin ((c.s1 : ℝ) : K)
  | .none => v

/-- `get_freqs` (scicpp/signal/spectral.hpp:318-325). Simplification: `fs ≠ 0`. -/
def getFreqs (c : SpecCfg) (complex : Bool) : Res (List ℝ) :=
  if complex then fftfreq c.nperseg.toNat (1 / c.fs) else rfftfreq c.nperseg.toNat (1 / c.fs)

/-- `welch<scaling, false>(x)`: the spectrum without the frequencies
(scicpp/signal/spectral.hpp:128-177). -/
def welchPsd (c : SpecCfg) (s : Scaling) (x : Sig) : Res (List (Ex ℝ)) :=
  if x.size = 0 then .ok []                                                              -- 154-160
  else match x with
    | .cplx x => do
      let v ← welchImplC c x
      pure (scaleSpec c s v)                                                             -- 165-166
    | .real x => do
      let v ← welchImplR c x
      let v ← foldSides c v
      pure (scaleSpec c s v)                                                             -- 168-169

/-- Is the element type complex? -/
def Sig.isC : Sig → Bool
  | .real _ => false
  | .cplx _ => true

/-- `welch<scaling>(x)` (scicpp/signal/spectral.hpp:128-177). -/
def welch (c : SpecCfg) (s : Scaling) (x : Sig) : Res (List ℝ × List (Ex ℝ)) :=
  if x.size = 0 then .ok ([], [])
  else do
    let p ← welchPsd c s x
    let f ← getFreqs c x.isC
    pure (f, p)

/-- `csd` of two signals of one size (scicpp/signal/spectral.hpp:231-248). -/
def csdSame (c : SpecCfg) (s : Scaling) (x y : Sig) : Res (List ℝ × List (Ex ℂ)) :=
  match x, y with
  | .real x, .real y => do
    let v ← welch2ImplR c x y
    let v ← foldSides c v
    let f ← getFreqs c false
    pure (f, scaleSpec c s v)
  | x, y => do
    let v ← welch2ImplC c x.toC y.toC
    let f ← getFreqs c true
    pure (f, scaleSpec c s v)

/-- `csd<scaling>(x, y)` (scicpp/signal/spectral.hpp:183-256); the shorter signal is zero padded. -/
def csd (c : SpecCfg) (s : Scaling) (x y : Sig) : Res (List ℝ × List (Ex ℂ)) :=
  if x.size = 0 ∨ y.size = 0 then .ok ([], [])                                           -- 223-229
  else if x.size = y.size then csdSame c s x y
  else if x.size > y.size then do
    let y' ← y.zeroPad x.size                                                            -- 251
    csdSame c s x y'
  else do
    let x' ← x.zeroPad y.size                                                            -- 253
    csdSame c s x' y

/-- `norm` of one element (NaN propagates). -/
def Ex.normSq : Ex ℂ → Ex ℝ
  | .fin z => .fin (Complex.normSq z)
  | .inf => .inf
  | .nan => .nan

/-- A complex number divided by a real one. -/
def Ex.divReal : Ex ℂ → Ex ℝ → Ex ℂ
  | .fin z, .fin r => if r = 0 then .nan else .fin (z / (r : ℂ))
  | _, _ => .nan

/-- `coherence(x, y)` (scicpp/signal/spectral.hpp:258-272). -/
def coherence (c : SpecCfg) (x y : Sig) : Res (List ℝ × List (Ex ℝ)) := do
  require (x.size == y.size)                                                             -- 261
  let (freqs, pxy) ← csd c .none x y                                                     -- 263
  let (_, pxx) ← welch c .none x                                                         -- 264
  let (_, pyy) ← welch c .none y                                                         -- 265
  require (pxy.length == pxx.length)                                                     -- 267
  require (pxy.length == pyy.length)                                                     -- 268
  pure (freqs, List.zipWith (· / ·) (List.zipWith (· / ·) (pxy.map Ex.normSq) pxx) pyy)  -- 271

/-- `tfestimate(x, y)` (scicpp/signal/spectral.hpp:274-282). -/
def tfestimate (c : SpecCfg) (x y : Sig) : Res (List ℝ × List (Ex ℂ)) := do
  require (x.size == y.size)                                                             -- 277
  let (freqs, pyx) ← csd c .none y x                                                     -- 279
  let pxx ← welchPsd c .none x                                                           -- 280
  require (pyx.length == pxx.length)                                                     -- operator/
  pure (freqs, List.zipWith Ex.divReal pyx pxx)                                          -- 281

/-- `periodogram<scaling>(x)` (scicpp/signal/spectral.hpp:119-123): the result and the configuration
afterwards (`noverlap(0)` is called on the object itself). -/
def periodogram (c : SpecCfg) (s : Scaling) (x : Sig) : Res ((List ℝ × List (Ex ℝ)) × SpecCfg) := do
  require (x.size == c.window.length)                                                    -- 120
  let c' ← c.setNoverlap 0                                                               -- 121
  let r ← welch c' s x                                                                   -- 122
  pure (r, c')

/-! ### The object as a state machine -/

/-- A member function call on a `Spectrum` object. -/
inductive SpecOp where
  | fs (f : ℝ)
  | noverlap (n : ℤ)
  | nthreads (n : ℕ)
  | window (w : List ℝ)
  | periodogram (s : Scaling) (x : Sig)
  | welch (s : Scaling) (x : Sig)
  | csd (s : Scaling) (x y : Sig)
  | coherence (x y : Sig)
  | tfestimate (x y : Sig)

/-- What a call returns (setters return a copy of the object, ignored here). -/
inductive SpecOut where
  | unit
  | real (f : List ℝ) (v : List (Ex ℝ))
  | cplx (f : List ℝ) (v : List (Ex ℂ))

/-- One call: output and new configuration. -/
def SpecCfg.exec (c : SpecCfg) : SpecOp → Res (SpecOut × SpecCfg)
  | .fs f => .ok (.unit, c.setFs f)
  | .noverlap n => do let c' ← c.setNoverlap n; pure (.unit, c')
  | .nthreads n => .ok (.unit, c.setNthreads n)
  | .window w => do let c' ← c.setWindow w; pure (.unit, c')
  | .periodogram s x => do let (r, c') ← SciCpp.periodogram c s x; pure (.real r.1 r.2, c')
  | .welch s x => do let r ← SciCpp.welch c s x; pure (.real r.1 r.2, c)
  | .csd s x y => do let r ← SciCpp.csd c s x y; pure (.cplx r.1 r.2, c)
  | .coherence x y => do let r ← SciCpp.coherence c x y; pure (.real r.1 r.2, c)
  | .tfestimate x y => do let r ← SciCpp.tfestimate c x y; pure (.cplx r.1 r.2, c)

/-- A history of calls: the outputs and the final configuration. -/
def SpecCfg.run (c : SpecCfg) : List SpecOp → Res (List SpecOut × SpecCfg)
  | [] => .ok ([], c)
  | op :: ops => do
    let (o, c') ← c.exec op
    let (os, c'') ← c'.run ops
    pure (o :: os, c'')

end

end SciCpp
