import Verif.Model.Io
import Verif.Model.Ieee
import Mathlib.Data.Int.Log
import Mathlib.Data.List.DropRight
/-
  The text of floating point numbers: what `file << x` writes (scicpp/core/io.hpp:529-536, 569-585),
  what `std::to_string` writes (io.hpp:541-550) and what `std::atof` and `%lf` read (io.hpp:54-74).
  The C++ library functions are modelled after their specification: `printf("%.6g")`, `printf("%f")`
  with correct rounding (to nearest, ties to even) and `strtod`.
  Simplifications: no sign of zeros and NaNs, lower case `inf` and `nan` only, no hexadecimal numbers,
  "C" locale.
-/
namespace SciCpp

/-- Decimal significand and exponent of a positive number rounded to `P` digits: `(k, X)` stands for
`k · 10^(X - P + 1)` with `10^(P-1) ≤ k < 10^P`. -/
def decRound (P : ℕ) (q : ℚ) : ℕ × ℤ :=
  let e := Int.log 10 q
  let k := (nearestEven (q * (10 : ℚ) ^ ((P : ℤ) - 1 - e))).toNat
  if k = 10 ^ P then (10 ^ (P - 1), e + 1) else (k, e)

/-- Drop trailing zeros. -/
def dropZeros (s : List Char) : List Char := s.rdropWhile (· = '0')

/-- Integer part and fraction; no decimal point before an empty fraction. -/
def joinFrac (ip fp : List Char) : List Char := if fp = [] then ip else ip ++ '.' :: fp

/-- Exponent of `%e` and `%g`: a sign and at least two digits. -/
def expText (X : ℤ) : List Char :=
  (if X < 0 then '-' else '+') ::
    (if X.natAbs < 10 then '0' :: printNat X.natAbs else printNat X.natAbs)

/-- The layout of `%.6g` for the digits `k` and the exponent `X`: fixed notation when `-4 ≤ X < 6`,
scientific otherwise, trailing zeros of the fraction removed. -/
def layoutG (k : ℕ) (X : ℤ) : List Char :=
  let ds := printNat k
  if -4 ≤ X ∧ X < 6 then
    if 0 ≤ X then joinFrac (ds.take (X + 1).toNat) (dropZeros (ds.drop (X + 1).toNat))
    else joinFrac ['0'] (dropZeros (List.replicate (-X - 1).toNat '0' ++ ds))
  else joinFrac (ds.take 1) (dropZeros (ds.drop 1)) ++ 'e' :: expText X

/-- `file << x` for `double` and `float`: the default stream precision is 6
(scicpp/core/io.hpp:534, 579). -/
def fmtG : Fl → List Char
  | .nan => "nan".toList
  | .inf b => if b then "-inf".toList else "inf".toList
  | .fin q =>
    if q = 0 then ['0']
    else if q < 0 then '-' :: layoutG (decRound 6 (-q)).1 (decRound 6 (-q)).2
    else layoutG (decRound 6 q).1 (decRound 6 q).2

/-- The last six digits of a number, with leading zeros. -/
def pad6 (n : ℕ) : List Char :=
  (List.range 6).map fun i : ℕ => Char.ofNat (48 + n / 10 ^ (5 - i) % 10)

/-- `std::to_string(double)`, that is `%f`: six decimals (scicpp/core/io.hpp:544-545). -/
def fmtF : Fl → List Char
  | .nan => "nan".toList
  | .inf b => if b then "-inf".toList else "inf".toList
  | .fin q =>
    let n := (nearestEven (|q| * 10 ^ 6)).toNat
    (if q < 0 then ['-'] else []) ++ printNat (n / 10 ^ 6) ++ '.' :: pad6 n

/-- `detail::format` of a complex number (scicpp/core/io.hpp:540-550). -/
def fmtComplex (re im : Fl) : List Char := fmtF re ++ '+' :: (fmtF im ++ ['j'])

/-! ### Reading -/

/-- Is the character a decimal digit? -/
def isDig (ch : Char) : Bool := (digitVal ch).isSome

/-- The exponent part of a number, and the rest. -/
def scanExp (s : List Char) : ℤ × List Char :=
  match s with
  | ch :: t =>
    if ch = 'e' ∨ ch = 'E' then
      let neg := t.head? = some '-'
      let u := if t.head? = some '-' ∨ t.head? = some '+' then t.tail else t
      if u.takeWhile isDig = [] then (0, s)
      else
        let v : ℤ := readDigits (u.takeWhile isDig) 0
        (if neg then -v else v, u.dropWhile isDig)
    else (0, s)
  | [] => (0, [])

/-- The fraction digits and the rest. -/
def scanFrac (s : List Char) : List Char × List Char :=
  match s with
  | ch :: t => if ch = '.' then (t.takeWhile isDig, t.dropWhile isDig) else ([], s)
  | [] => ([], [])

/-- An unsigned decimal number: its exact value and the rest. -/
def scanDec (s : List Char) : Option (ℚ × List Char) :=
  let ip := s.takeWhile isDig
  let fr := scanFrac (s.dropWhile isDig)
  if ip ++ fr.1 = [] then none
  else
    let ex := scanExp fr.2
    some ((readDigits (ip ++ fr.1) 0 : ℚ) * (10 : ℚ) ^ (ex.1 - (fr.1.length : ℤ)), ex.2)

/-- An unsigned number, `inf` or `nan`. -/
def scanUnsigned (s : List Char) : Option (Fl × List Char) :=
  if s.take 3 = "inf".toList then some (.inf false, s.drop 3)
  else if s.take 3 = "nan".toList then some (.nan, s.drop 3)
  else (scanDec s).map fun r => (.fin r.1, r.2)

/-- `strtod` and `%lf`, before rounding: white space, a sign, a number; the exact decimal value. -/
def scanNum (s : List Char) : Option (Fl × List Char) :=
  let t := s.dropWhile isSpaceC
  if t.head? = some '-' then (scanUnsigned t.tail).map fun r => (Fl.neg r.1, r.2)
  else if t.head? = some '+' then scanUnsigned t.tail
  else scanUnsigned t

/-- `to_number<double>` (scicpp/core/io.hpp:60-61): `std::atof`, the exact decimal value rounded to
`double`; 0 when there is no number. -/
def atof (s : List Char) : D64 :=
  match scanNum s with
  | some (x, _) => binary64.round x
  | none => Fl.fin 0

/-- `to_number<float>` (scicpp/core/io.hpp:60-61): rounded to `double`, then to `float`. -/
def atofFloat (s : List Char) : D32 := binary32.round (atof s)

/-- `%lf` (scicpp/core/io.hpp:68). -/
def scanLf (s : List Char) : Option (D64 × List Char) :=
  (scanNum s).map fun r => (binary64.round r.1, r.2)

end SciCpp
