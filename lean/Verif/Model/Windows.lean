import Verif.Model.Ex
import Verif.Model.Loop
import Verif.Model.Range
import Verif.Model.Numeric
import Verif.Spec.Windows
/-
  Model of scicpp/signal/windows.hpp.

  `symmetric_filler` is modelled for an arbitrary element type and an arbitrary sample function, so
  the symmetry theorem holds whatever rounding the arithmetic does.  The sample functions themselves
  are modelled over `Ex ℝ` (exact reals with NaN for `x/0`, so that the one point windows that
  divide by `size() - 1 = 0` come out as NaN); `std::sin/cos/exp/sqrt/pow/cyl_bessel_i` are the exact
  functions.
-/
namespace SciCpp

universe u
variable {α : Type u}

/-- `windows::Symmetry` (scicpp/signal/windows.hpp:23). -/
inductive Sym where
  | symmetric
  | periodic
deriving DecidableEq

/-- `symmetric_filler(w, f)` (scicpp/signal/windows.hpp:31-37).  `cast` is the conversion of the
integer index to the element type (`std::iota` counts in `signed_size_t`), `f` the sample function.
`std::reverse_copy` is the loop of its reference implementation (reads from the end, writes from
the beginning); for odd sizes source and destination share the middle element (the precondition
of `std::reverse_copy` excludes that), which the loop writes onto itself. -/
def symmetricFiller (cast : ℕ → α) (f : α → α) (w : List α) : Res (List α) :=
  let halfLen := w.length / 2                                                            -- 33
  let w1 := w.take halfLen ++ ((List.range (w.length - halfLen)).map fun k : ℕ => cast (halfLen + k)) -- 34
  let w2 := w1.take halfLen ++ (w1.drop halfLen).map f                                   -- 35
  forN (w.length - halfLen) (fun k w => do                                               -- 36
    let v ← rd w ((w.length - 1 - k : ℕ) : ℤ)
    wr w (k : ℤ) v) w2

/-- `build_window_vector` and `build_window_array` (scicpp/signal/windows.hpp:39-64): the periodic
window is the symmetric one of `M + 1` points cut to `M` points (`resize` / a `reinterpret_cast` to a
shorter array). `dflt` is the value-initialised element. -/
def buildWindow (dflt : α) (s : Sym) (m : ℕ) (filler : List α → Res (List α)) : Res (List α) :=
  match s with
  | .symmetric => filler (List.replicate m dflt)
  | .periodic => do
    let w ← filler (List.replicate (m + 1) dflt)
    pure (w.take m)

noncomputable section

/-- `T(w.size() - 1)`; `size() - 1` wraps for an empty array. -/
def sizeM1 (n : ℕ) : Ex ℝ := .fin ((if n = 0 then 2 ^ 64 - 1 else n - 1 : ℕ) : ℝ)

/-- A real function on finite arguments (NaN on NaN and infinities). -/
def Ex.fn (f : ℝ → ℝ) : Ex ℝ → Ex ℝ
  | .fin a => .fin (f a)
  | _ => .nan

/-- `T(i)` for an index. -/
def idx (i : ℕ) : Ex ℝ := .fin (i : ℝ)

/-- Conversion of an exactly represented index back to `std::size_t` (the parameter type of most
sample functions). -/
def toIdx : Ex ℝ → ℕ
  | .fin a => ⌊a⌋₊
  | _ => 0

/-- `symmetric_filler` with a sample function of a `std::size_t`. -/
def fillIdx (f : ℕ → Ex ℝ) (w : List (Ex ℝ)) : Res (List (Ex ℝ)) :=
  symmetricFiller idx (fun t => f (toIdx t)) w

/-- The template instance `build_window_*<T = double>`. -/
def buildR (s : Sym) (m : ℕ) (filler : List (Ex ℝ) → Res (List (Ex ℝ))) : Res (List (Ex ℝ)) :=
  buildWindow (.fin 0) s m filler

/-- `boxcar` (scicpp/signal/windows.hpp:72-80). -/
def boxcarW (_ : Sym) (m : ℕ) : Res (List (Ex ℝ)) := .ok (ones m)

/-- `bartlett_filler` (scicpp/signal/windows.hpp:84-89); `std::fma` is exact here. -/
def bartlettFiller (w : List (Ex ℝ)) : Res (List (Ex ℝ)) :=
  let scaling := .fin (-2) / sizeM1 w.length                                             -- 87
  symmetricFiller idx (fun i => scaling * i + .fin 2) w                                  -- 88

/-- `bartlett` (scicpp/signal/windows.hpp:93-103). -/
def bartlettW (s : Sym) (m : ℕ) : Res (List (Ex ℝ)) := buildR s m bartlettFiller

/-- `cosine_filler` (scicpp/signal/windows.hpp:111-119). -/
def cosineFiller (w : List (Ex ℝ)) : Res (List (Ex ℝ)) :=
  if w = [] then .ok w
  else
    let scaling : Ex ℝ := .fin Real.pi / .fin (w.length : ℝ)
    fillIdx (fun i => Ex.fn Real.sin (scaling * (idx i + .fin 0.5))) w

/-- `cosine` (scicpp/signal/windows.hpp:123-133). -/
def cosineW (s : Sym) (m : ℕ) : Res (List (Ex ℝ)) := buildR s m cosineFiller

/-- `bohman_filler` (scicpp/signal/windows.hpp:137-148). -/
def bohmanFiller (w : List (Ex ℝ)) : Res (List (Ex ℝ)) :=
  if w = [] then .ok w
  else
    let step := .fin 2 / sizeM1 w.length                                                 -- 141
    fillIdx (fun i =>
      let x := idx i * step - .fin 1                                                     -- 143
      (.fin 1 - x) * Ex.fn Real.cos (.fin Real.pi * x)
        + Ex.fn Real.sin (.fin Real.pi * x) / .fin Real.pi) w                            -- 144-145

/-- `bohman` (scicpp/signal/windows.hpp:152-162). -/
def bohmanW (s : Sym) (m : ℕ) : Res (List (Ex ℝ)) := buildR s m bohmanFiller

/-- The loop over the weights in `general_cosine` (scicpp/signal/windows.hpp:177-187):
`sign` starts at -1 and is flipped before use. -/
def cosineLoop (scaling : Ex ℝ) (i : ℕ) : List ℝ → ℕ → Ex ℝ → Ex ℝ → Ex ℝ
  | [], _, _, tmp => tmp
  | c :: cs, j, sign, tmp =>
    let sign := sign * .fin (-1)                                                         -- 182
    cosineLoop scaling i cs (j + 1) sign
      (tmp + sign * .fin c * Ex.fn Real.cos (scaling * .fin ((i * j : ℕ) : ℝ)))          -- 183

/-- `detail::general_cosine` (scicpp/signal/windows.hpp:170-189). -/
def generalCosineFiller (a : List ℝ) (w : List (Ex ℝ)) : Res (List (Ex ℝ)) :=
  let scaling := .fin 2 * .fin Real.pi / sizeM1 w.length                                 -- 174
  fillIdx (fun i => cosineLoop scaling i a 0 (.fin (-1)) (.fin 0)) w

/-- `general_cosine` (scicpp/signal/windows.hpp:193-206). -/
def generalCosineW (s : Sym) (m : ℕ) (a : List ℝ) : Res (List (Ex ℝ)) :=
  buildR s m (generalCosineFiller a)

/-- `general_hamming` (scicpp/signal/windows.hpp:208-216). -/
def generalHammingW (s : Sym) (m : ℕ) (alpha : ℝ) : Res (List (Ex ℝ)) :=
  generalCosineW s m [alpha, 1 - alpha]

/-- `hann` (scicpp/signal/windows.hpp:218-226). -/
def hannW (s : Sym) (m : ℕ) : Res (List (Ex ℝ)) := generalHammingW s m 0.5

/-- `hamming` (scicpp/signal/windows.hpp:228-236). -/
def hammingW (s : Sym) (m : ℕ) : Res (List (Ex ℝ)) := generalHammingW s m 0.54

/-- `blackman` (scicpp/signal/windows.hpp:238-246). -/
def blackmanW (s : Sym) (m : ℕ) : Res (List (Ex ℝ)) := generalCosineW s m [0.42, 0.50, 0.08]

/-- `nuttall` (scicpp/signal/windows.hpp:248-258). -/
def nuttallW (s : Sym) (m : ℕ) : Res (List (Ex ℝ)) :=
  generalCosineW s m [0.3635819, 0.4891775, 0.1365995, 0.0106411]

/-- `blackmanharris` (scicpp/signal/windows.hpp:260-270). -/
def blackmanharrisW (s : Sym) (m : ℕ) : Res (List (Ex ℝ)) :=
  generalCosineW s m [0.35875, 0.48829, 0.14128, 0.01168]

/-- `flattop` (scicpp/signal/windows.hpp:272-284). -/
def flattopW (s : Sym) (m : ℕ) : Res (List (Ex ℝ)) :=
  generalCosineW s m [0.21557895, 0.41663158, 0.277263158, 0.083578947, 0.006947368]

/-- `i0` of `gaussian_filler`, `general_gaussian_filler` and `parzen_filler`
(scicpp/signal/windows.hpp:294-295, 326-327, 396-397). -/
def centreIdx (n : ℕ) : Ex ℝ :=
  let shift : Ex ℝ := if n % 2 = 0 then .fin 0.5 else .fin 0
  .fin ((n / 2 : ℕ) : ℝ) - shift

/-- `gaussian_filler` (scicpp/signal/windows.hpp:292-302). -/
def gaussianFiller (sigma : ℝ) (w : List (Ex ℝ)) : Res (List (Ex ℝ)) :=
  let i0 := centreIdx w.length
  let scaling := .fin (-1) / (.fin 2 * .fin sigma * .fin sigma)                          -- 296
  fillIdx (fun i =>
    let n := idx i - i0                                                                  -- 299
    Ex.fn Real.exp (scaling * n * n)) w                                                  -- 300

/-- `gaussian` (scicpp/signal/windows.hpp:306-316). -/
def gaussianW (s : Sym) (m : ℕ) (sigma : ℝ) : Res (List (Ex ℝ)) := buildR s m (gaussianFiller sigma)

/-- `std::pow(x, y)` for `x ≥ 0`; NaN for a negative base (so for every non-integral exponent; integral
exponents of a negative base are not modelled). -/
def Ex.pow (x : Ex ℝ) (y : ℝ) : Ex ℝ :=
  match x with
  | .fin a => if 0 ≤ a then .fin (a ^ y) else .nan
  | _ => .nan

/-- `general_gaussian_filler` (scicpp/signal/windows.hpp:324-333). -/
def generalGaussianFiller (p sigma : ℝ) (w : List (Ex ℝ)) : Res (List (Ex ℝ)) :=
  let i0 := centreIdx w.length
  fillIdx (fun i =>
    let n := idx i - i0                                                                  -- 330
    Ex.fn Real.exp (.fin (-0.5) * Ex.pow (n / .fin sigma) (2 * p))) w                    -- 331

/-- `general_gaussian` (scicpp/signal/windows.hpp:337-347). -/
def generalGaussianW (s : Sym) (m : ℕ) (p sigma : ℝ) : Res (List (Ex ℝ)) :=
  buildR s m (generalGaussianFiller p sigma)

/-- `std::sqrt`: NaN for a negative argument. -/
def Ex.sqrt (x : Ex ℝ) : Ex ℝ :=
  match x with
  | .fin a => if 0 ≤ a then .fin (Real.sqrt a) else .nan
  | _ => .nan

/-- `kaiser_filler` (scicpp/signal/windows.hpp:355-366). -/
def kaiserFiller (beta : ℝ) (w : List (Ex ℝ)) : Res (List (Ex ℝ)) := do
  require (decide (0 ≤ beta))                                                            -- 357
  let alpha := .fin 0.5 * sizeM1 w.length                                                -- 359
  let i0beta := Ex.fin (Spec.besselI0 beta)                                              -- 360
  fillIdx (fun i =>
    let r := (idx i - alpha) / alpha                                                     -- 363
    Ex.fn Spec.besselI0 (.fin beta * Ex.sqrt (.fin 1 - r * r)) / i0beta) w               -- 364

/-- `kaiser` (scicpp/signal/windows.hpp:370-380). -/
def kaiserW (s : Sym) (m : ℕ) (beta : ℝ) : Res (List (Ex ℝ)) := buildR s m (kaiserFiller |beta|)

/-- `parzen_filler` (scicpp/signal/windows.hpp:388-407); integer quotients of non-negative numbers. -/
def parzenFiller (w : List (Ex ℝ)) : Res (List (Ex ℝ)) :=
  let N : ℤ := w.length                                                                  -- 390
  fillIdx (fun i =>
    let n : ℤ := (i : ℤ) - Int.tdiv (N - 1) 2                                            -- 393
    let nabs := if n ≥ 0 then n else -n                                                  -- 394
    let i0 := centreIdx w.length                                                         -- 396-397
    let A := .fin 2 * Ex.fn abs (idx i - i0) / .fin (w.length : ℝ)                       -- 398
    let B := .fin 1 - A                                                                  -- 399
    if nabs ≤ Int.tdiv N 4 then .fin 1 - .fin 6 * A * A * B                              -- 401-402
    else .fin 2 * B * B * B) w                                                           -- 404

/-- `parzen` (scicpp/signal/windows.hpp:411-421). -/
def parzenW (s : Sym) (m : ℕ) : Res (List (Ex ℝ)) := buildR s m parzenFiller

/-- `units::sinc` (scicpp/core/units/maths.hpp:221-232) on a plain number. -/
def sincEx : Ex ℝ → Ex ℝ
  | .fin x => if x = 0 then .fin 1
    else Ex.fn Real.sin (.fin Real.pi * .fin x) / (.fin Real.pi * .fin x)
  | _ => .nan

/-- `lanczos_filler` (scicpp/signal/windows.hpp:429-434). -/
def lanczosFiller (w : List (Ex ℝ)) : Res (List (Ex ℝ)) :=
  fillIdx (fun i => sincEx (.fin 1 - .fin ((2 * i : ℕ) : ℝ) / sizeM1 w.length)) w        -- 432

/-- `lanczos` (scicpp/signal/windows.hpp:438-448). -/
def lanczosW (s : Sym) (m : ℕ) : Res (List (Ex ℝ)) := buildR s m lanczosFiller

/-- `tukey_filler` (scicpp/signal/windows.hpp:456-476); `signed_size_t(x)` truncates. -/
def tukeyFiller (alpha : ℝ) (w : List (Ex ℝ)) : Res (List (Ex ℝ)) :=
  let N : ℤ := w.length                                                                  -- 458
  let width0 : ℤ :=
    let x := (1 - alpha) * ((w.length / 2 : ℕ) : ℝ)
    if 0 ≤ x then ⌊x⌋ else ⌈x⌉                                                           -- 459
  let width := if w.length % 2 = 0 ∧ width0 = 0 then 1 else width0                       -- 461-463
  fillIdx (fun i =>
    let n : ℤ := (i : ℤ) - Int.tdiv (N - 1) 2                                            -- 466
    if n ≤ width then .fin 1                                                             -- 468-469
    else
      let A := .fin 2 / .fin alpha                                                       -- 471
      .fin 0.5 * (.fin 1 + Ex.fn Real.cos (.fin Real.pi *
        (.fin 1 - A + A * idx i / .fin ((N - 1 : ℤ) : ℝ))))) w                           -- 472-473

/-- `tukey` (scicpp/signal/windows.hpp:480-506): the two degenerate cases return the *symmetric*
boxcar and Hann windows whatever `sym` is. -/
def tukeyW (s : Sym) (m : ℕ) (alpha : ℝ) : Res (List (Ex ℝ)) :=
  if alpha ≤ 0 then boxcarW .symmetric m                                                 -- 496-498
  else if 1 ≤ alpha then hannW .symmetric m                                              -- 500-502
  else buildR s m (tukeyFiller alpha)                                                    -- 504-505

/-- `windows::Window` (scicpp/signal/windows.hpp:512-525). -/
inductive WinKind where
  | boxcar | bartlett | cosine | hann | hamming | blackman | nuttall | blackmanharris | flattop
  | bohman | parzen | lanczos
deriving DecidableEq

/-- `get_window` (scicpp/signal/windows.hpp:527-589), both overloads. -/
def getWindow (k : WinKind) (n : ℕ) : Res (List (Ex ℝ)) :=
  match k with
  | .boxcar => boxcarW .symmetric n
  | .bartlett => bartlettW .symmetric n
  | .cosine => cosineW .symmetric n
  | .hann => hannW .symmetric n
  | .hamming => hammingW .symmetric n
  | .blackman => blackmanW .symmetric n
  | .nuttall => nuttallW .symmetric n
  | .blackmanharris => blackmanharrisW .symmetric n
  | .flattop => flattopW .symmetric n
  | .bohman => bohmanW .symmetric n
  | .parzen => parzenW .symmetric n
  | .lanczos => lanczosW .symmetric n

end

/-- `s1(window)` (scicpp/signal/windows.hpp:596-599); `std::norm` of a real is its square. -/
def winS1 {R : Type} [CommSemiring R] (w : List R) : R := sum false w * sum false w

/-- `s2(window)` (scicpp/signal/windows.hpp:602-607). -/
def winS2 {R : Type} [CommSemiring R] (w : List R) : R :=
  (reduceArr w (fun r v => r + v * v) 0).1

/-- `enbw(window, fs)` (scicpp/signal/windows.hpp:610-613). -/
def enbw {R : Type} [Field R] (w : List R) (fs : R) : R := fs * winS2 w / winS1 w

end SciCpp
