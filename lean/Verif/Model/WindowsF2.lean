import Verif.Model.WindowsF
import Verif.Model.HistF
/-
  The remaining windows of scicpp/signal/windows.hpp in floating point (`T = double`: `cosine` adds the `double` literal
  `0.5` and `general_gaussian` multiplies by `-0.5`).
-/
namespace SciCpp

/-- The further operations used by `cosine`, `bohman`, `general_gaussian`, `lanczos` and `tukey`: library functions,
`signed_size_t(x)`, `std::fpclassify(x) == FP_ZERO` and `<=`. -/
structure WinOps2 (K : Type) extends WinOps K where
  sin : K → K
  pow : K → K → K
  trunc : K → ℤ
  isZero : K → Bool
  le : K → K → Bool

/-- `signed_size_t(x)` of a finite number: truncation towards zero. -/
def Fl.toInt : Fl → ℤ
  | .fin q => if 0 ≤ q then ⌊q⌋ else ⌈q⌉
  | _ => 0

section
variable {K : Type} [CppNum K] (o : WinOps2 K)

/-- `cosine_filler` (scicpp/signal/windows.hpp:111-119). -/
def cosineWinFillerK (w : List K) : Res (List K) :=
  if w.length = 0 then .ok w                                                             -- 112
  else
    let scaling : K := o.pi / castK w.length                                             -- 114
    fillIdxK o.toWinOps (fun i => o.sin (scaling * (castK i + o.lit 0.5))) w             -- 115-116

/-- `cosine` (scicpp/signal/windows.hpp:123-133). -/
def cosineWinK (s : Sym) (m : ℕ) : Res (List K) := buildWindow 0 s m (cosineWinFillerK o)

/-- `bohman_filler` (scicpp/signal/windows.hpp:137-148). -/
def bohmanFillerK (w : List K) : Res (List K) :=
  if w.length = 0 then .ok w                                                             -- 139
  else
    let step : K := CppNum.ofInt 2 / sizeM1K w.length                                    -- 141
    fillIdxK o.toWinOps (fun i =>
      let x := castK i * step - CppNum.ofInt 1                                           -- 143
      (CppNum.ofInt 1 - x) * o.cos (o.pi * x) + o.sin (o.pi * x) / o.pi) w               -- 144-145

/-- `bohman` (scicpp/signal/windows.hpp:152-162). -/
def bohmanK (s : Sym) (m : ℕ) : Res (List K) := buildWindow 0 s m (bohmanFillerK o)

/-- `general_gaussian_filler` (scicpp/signal/windows.hpp:324-333). -/
def generalGaussianFillerK (p sigma : K) (w : List K) : Res (List K) :=
  let i0 := centreK o.toWinOps w.length                                                  -- 326-327
  fillIdxK o.toWinOps (fun i =>
    let n := castK i - i0                                                                -- 330
    o.exp (o.lit (-0.5) * o.pow (n / sigma) (CppNum.ofInt 2 * p))) w                     -- 331

/-- `general_gaussian` (scicpp/signal/windows.hpp:337-347). -/
def generalGaussianK (s : Sym) (m : ℕ) (p sigma : K) : Res (List K) :=
  buildWindow 0 s m (generalGaussianFillerK o p sigma)

/-- `units::sinc` (scicpp/core/units/maths.hpp:221-232) on a plain number. -/
def sincK (x : K) : K := if o.isZero x then CppNum.ofInt 1 else o.sin (o.pi * x) / (o.pi * x)

/-- `lanczos_filler` (scicpp/signal/windows.hpp:429-434). -/
def lanczosFillerK (w : List K) : Res (List K) :=
  fillIdxK o.toWinOps (fun i => sincK o (CppNum.ofInt 1 - castK (2 * i) / sizeM1K w.length)) w -- 432

/-- `lanczos` (scicpp/signal/windows.hpp:438-448). -/
def lanczosK (s : Sym) (m : ℕ) : Res (List K) := buildWindow 0 s m (lanczosFillerK o)

/-- `tukey_filler` (scicpp/signal/windows.hpp:456-476). -/
def tukeyFillerK (alpha : K) (w : List K) : Res (List K) :=
  let N : ℤ := w.length                                                                  -- 458
  let width0 : ℤ := o.trunc ((CppNum.ofInt 1 - alpha) * castK (w.length / 2))            -- 459
  let width := if w.length % 2 = 0 ∧ width0 = 0 then 1 else width0                       -- 461-463
  fillIdxK o.toWinOps (fun i =>
    let n : ℤ := (i : ℤ) - Int.tdiv (N - 1) 2                                            -- 466
    if n ≤ width then CppNum.ofInt 1                                                     -- 468-469
    else
      let A : K := CppNum.ofInt 2 / alpha                                                -- 471
      o.lit 0.5 * (CppNum.ofInt 1 + o.cos (o.pi *
        (CppNum.ofInt 1 - A + A * castK i / CppNum.ofInt (N - 1))))) w                   -- 472-473

/-- `tukey` (scicpp/signal/windows.hpp:480-506). -/
def tukeyK (s : Sym) (m : ℕ) (alpha : K) : Res (List K) :=
  if o.le alpha (CppNum.ofInt 0) then .ok (List.replicate m (CppNum.ofInt 1))            -- 496-498
  else if o.le (CppNum.ofInt 1) alpha then hannK o.toWinOps .symmetric m                 -- 500-502
  else buildWindow 0 s m (tukeyFillerK o alpha)                                          -- 504-505

end

/-- The operations of an arithmetic with rounding function `rnd`, with an arbitrary library. -/
def roundOps2 (rnd : ℚ → ℚ) (pi : RFl rnd) (sin cos exp sqrt bessel : RFl rnd → RFl rnd) (pow : RFl rnd → RFl rnd → RFl rnd) :
    WinOps2 (RFl rnd) where
  toWinOps := roundOps rnd pi cos exp sqrt bessel
  sin := sin
  pow := pow
  trunc := Fl.toInt
  isZero := RFl.isZero
  le := RFl.le

end SciCpp
