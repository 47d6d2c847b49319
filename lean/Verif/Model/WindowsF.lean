import Verif.Model.Windows
import Verif.Model.Ieee
/-
  The windows of scicpp/signal/windows.hpp in floating point.  The definitions are generic in the arithmetic `K` (a rounded
  type: `RFl rnd` or `IFl f`); the functions of the C++ library (`std::cos`, `std::exp`, …), whose rounding is not
  specified, are parameters.
-/
namespace SciCpp

/-- What the window functions use besides `+ - * /` on the element type `T`: `std::fma`, conversions to `std::size_t`,
literals, `pi<T>` (scicpp/core/constants.hpp:16-17) and library functions. -/
structure WinOps (K : Type) where
  fma : K → K → K → K
  toN : K → ℕ
  lit : ℚ → K
  abs : K → K
  pi : K
  cos : K → K
  exp : K → K
  sqrt : K → K
  bessel : K → K

/-- `std::size_t(x)` of a non-negative finite number. -/
def Fl.toNat : Fl → ℕ
  | .fin q => ⌊q⌋₊
  | _ => 0

section
variable {K : Type} [CppNum K] (o : WinOps K)

/-- `T(n)` for an unsigned `n`. -/
def castK (n : ℕ) : K := CppNum.ofInt (n : ℤ)

/-- `T(w.size() - 1)`; `size() - 1` wraps for an empty array. -/
def sizeM1K (n : ℕ) : K := castK (if n = 0 then 2 ^ 64 - 1 else n - 1)

/-- `symmetric_filler` with a sample function of a `std::size_t` (scicpp/signal/windows.hpp:31-37). -/
def fillIdxK (f : ℕ → K) (w : List K) : Res (List K) := symmetricFiller castK (fun t => f (o.toN t)) w

/-- `bartlett_filler` (scicpp/signal/windows.hpp:84-89). -/
def bartlettFillerK (w : List K) : Res (List K) :=
  let scaling : K := CppNum.ofInt (-2) / sizeM1K w.length                                -- 87
  symmetricFiller castK (fun i => o.fma scaling i (CppNum.ofInt 2)) w                    -- 88

/-- `bartlett` (scicpp/signal/windows.hpp:93-103). -/
def bartlettK (s : Sym) (m : ℕ) : Res (List K) := buildWindow 0 s m (bartlettFillerK o)

/-- The loop over the weights in `general_cosine` (scicpp/signal/windows.hpp:177-187). -/
def cosineLoopK (scaling : K) (i : ℕ) : List K → ℕ → K → K → K
  | [], _, _, tmp => tmp
  | c :: cs, j, sign, tmp =>
    let sign := sign * CppNum.ofInt (-1)                                                 -- 182
    cosineLoopK scaling i cs (j + 1) sign (tmp + sign * c * o.cos (scaling * castK (i * j))) -- 183

/-- `detail::general_cosine` (scicpp/signal/windows.hpp:170-189). -/
def generalCosineFillerK (a : List K) (w : List K) : Res (List K) :=
  let scaling : K := CppNum.ofInt 2 * o.pi / sizeM1K w.length                            -- 174
  fillIdxK o (fun i => cosineLoopK o scaling i a 0 (CppNum.ofInt (-1)) 0) w

/-- `general_cosine` (scicpp/signal/windows.hpp:193-206). -/
def generalCosineK (s : Sym) (m : ℕ) (a : List K) : Res (List K) := buildWindow 0 s m (generalCosineFillerK o a)

/-- `general_hamming` (scicpp/signal/windows.hpp:208-216). -/
def generalHammingK (s : Sym) (m : ℕ) (alpha : K) : Res (List K) :=
  generalCosineK o s m [alpha, CppNum.ofInt 1 - alpha]

/-- `hann` (scicpp/signal/windows.hpp:218-226). -/
def hannK (s : Sym) (m : ℕ) : Res (List K) := generalHammingK o s m (o.lit 0.5)

/-- `hamming` (scicpp/signal/windows.hpp:228-236). -/
def hammingK (s : Sym) (m : ℕ) : Res (List K) := generalHammingK o s m (o.lit 0.54)

/-- `blackman` (scicpp/signal/windows.hpp:238-246). -/
def blackmanK (s : Sym) (m : ℕ) : Res (List K) :=
  generalCosineK o s m [o.lit 0.42, o.lit 0.50, o.lit 0.08]

/-- `i0` of `gaussian_filler` and `parzen_filler` (scicpp/signal/windows.hpp:294-295, 396-397). -/
def centreK (n : ℕ) : K :=
  let shift : K := if n % 2 = 0 then o.lit 0.5 else CppNum.ofInt 0
  castK (n / 2) - shift

/-- `gaussian_filler` (scicpp/signal/windows.hpp:292-302). -/
def gaussianFillerK (sigma : K) (w : List K) : Res (List K) :=
  let i0 := centreK o w.length
  let scaling : K := CppNum.ofInt (-1) / (CppNum.ofInt 2 * sigma * sigma)                -- 296
  fillIdxK o (fun i =>
    let n := castK i - i0                                                                -- 299
    o.exp (scaling * n * n)) w                                                           -- 300

/-- `gaussian` (scicpp/signal/windows.hpp:306-316). -/
def gaussianK (s : Sym) (m : ℕ) (sigma : K) : Res (List K) := buildWindow 0 s m (gaussianFillerK o sigma)

/-- `kaiser_filler` (scicpp/signal/windows.hpp:355-366) with `T = double` (the literal `0.5` is a `double`); the
precondition `beta >= 0` holds because `kaiser` passes `std::abs(beta)`. -/
def kaiserFillerK (beta : K) (w : List K) : Res (List K) :=
  let alpha := o.lit 0.5 * sizeM1K w.length                                              -- 359
  let i0beta := o.bessel beta                                                            -- 360
  fillIdxK o (fun i =>
    let r := (castK i - alpha) / alpha                                                   -- 363
    o.bessel (beta * o.sqrt (CppNum.ofInt 1 - r * r)) / i0beta) w                        -- 364

/-- `kaiser` (scicpp/signal/windows.hpp:370-380). -/
def kaiserK (s : Sym) (m : ℕ) (beta : K) : Res (List K) := buildWindow 0 s m (kaiserFillerK o (o.abs beta))

/-- `parzen_filler` (scicpp/signal/windows.hpp:388-407). -/
def parzenFillerK (w : List K) : Res (List K) :=
  let N : ℤ := w.length                                                                  -- 390
  fillIdxK o (fun i =>
    let n : ℤ := (i : ℤ) - Int.tdiv (N - 1) 2                                            -- 393
    let nabs := if n ≥ 0 then n else -n                                                  -- 394
    let i0 := centreK o w.length                                                         -- 396-397
    let A : K := CppNum.ofInt 2 * o.abs (castK i - i0) / castK w.length                  -- 398
    let B : K := CppNum.ofInt 1 - A                                                      -- 399
    if nabs ≤ Int.tdiv N 4 then CppNum.ofInt 1 - CppNum.ofInt 6 * A * A * B              -- 401-402
    else CppNum.ofInt 2 * B * B * B) w                                                   -- 404

/-- `parzen` (scicpp/signal/windows.hpp:411-421). -/
def parzenK (s : Sym) (m : ℕ) : Res (List K) := buildWindow 0 s m (parzenFillerK o)

end

/-- The operations of a binary format, with an arbitrary library. -/
def ieeeOps (f : Fmt) (pi : IFl f) (cos exp sqrt bessel : IFl f → IFl f) : WinOps (IFl f) where
  fma := IFl.fma
  toN := Fl.toNat
  lit := fun q => f.ofRat q
  abs := Fl.abs
  pi := pi
  cos := cos
  exp := exp
  sqrt := sqrt
  bessel := bessel

/-- The operations of an arithmetic with rounding function `rnd`, with an arbitrary library. -/
def roundOps (rnd : ℚ → ℚ) (pi : RFl rnd) (cos exp sqrt bessel : RFl rnd → RFl rnd) : WinOps (RFl rnd) where
  fma := RFl.fma
  toN := Fl.toNat
  lit := fun q => RFl.fin (rnd q)
  abs := Fl.abs
  pi := pi
  cos := cos
  exp := exp
  sqrt := sqrt
  bessel := bessel

/-- The floating point element types. -/
inductive FloatTy where
  | float | double | longDouble
deriving DecidableEq

/-- Whether `name<T>(…)` compiles: `blackman`, `nuttall`, `blackmanharris` and `flattop` pass a
`std::array<double, n>` to `general_cosine<T, …>(const std::array<T, n> &)`, which does not convert
(scicpp/signal/windows.hpp:193-206, 238-284). -/
def winCompiles (k : WinKind) (T : FloatTy) : Bool :=
  match k with
  | .blackman | .nuttall | .blackmanharris | .flattop => decide (T = .double)
  | _ => true

/-- Whether `get_window<T>(win, N)` and `get_window<win, N, T>()` compile: every branch of the `switch` is instantiated,
whatever `win` is (scicpp/signal/windows.hpp:527-589). -/
def getWindowCompiles (T : FloatTy) : Bool :=
  [WinKind.boxcar, .bartlett, .cosine, .hann, .hamming, .blackman, .nuttall, .blackmanharris, .flattop, .bohman, .parzen,
    .lanczos].all fun k => winCompiles k T

end SciCpp
