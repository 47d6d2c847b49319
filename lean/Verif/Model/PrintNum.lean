import Verif.Model.Print
import Verif.Model.FloatText
import Verif.Model.Stats
/-
  The element formatter of scicpp/core/print.hpp for floating point, complex, tuple and pair elements.
  The stream inserters are modelled after their specification (`%.pf`, `%.pe` with correct rounding,
  `setw` pads the next insertion only).  No signed zeros.
-/
namespace SciCpp

/-- The last `p` digits of a number, with leading zeros. -/
def padN : ℕ → ℕ → List Char
  | 0, _ => []
  | p + 1, n => padN p (n / 10) ++ [Char.ofNat (48 + n % 10)]

/-- `%.pf` of a magnitude (`std::fixed`, scicpp/core/print.hpp:50-51, 56). -/
def fixedText (p : ℕ) (q : ℚ) : List Char :=
  let n := (nearestEven (q * 10 ^ p)).toNat
  joinFrac (printNat (n / 10 ^ p)) (padN p n)

/-- `%.pe` of a magnitude (`std::scientific`, scicpp/core/print.hpp:52-53, 56). -/
def sciText (p : ℕ) (q : ℚ) : List Char :=
  if q = 0 then joinFrac ['0'] (List.replicate p '0') ++ 'e' :: expText 0
  else
    let r := decRound (p + 1) q
    joinFrac ((printNat r.1).take 1) ((printNat r.1).drop 1) ++ 'e' :: expText r.2

/-- `m_ss << value` of a finite number (scicpp/core/print.hpp:115). -/
def numText (fixed : Bool) (p : ℕ) (q : ℚ) : List Char :=
  (if q < 0 then ['-'] else []) ++ (if fixed then fixedText p |q| else sciText p |q|)

/-- The options the element formatter reads (scicpp/core/print.hpp:27-42). -/
structure FmtOpts where
  precision : ℕ := 8
  nanstr : List Char := "nan".toList
  infstr : List Char := "inf".toList

/-- The string stream: its contents and the width of the next insertion. -/
structure Ss where
  out : List Char
  width : ℕ

/-- One formatted insertion: padded on the left to the width, which is then reset. -/
def Ss.put (s : Ss) (t : List Char) : Ss :=
  ⟨s.out ++ (List.replicate (s.width - t.length) ' ' ++ t), 0⟩

/-- `reset` (scicpp/core/print.hpp:60-68): no width is set when `m_width` is negative. -/
def Ss.reset (width : ℤ) : Ss := ⟨[], width.toNat⟩

/-- `print_scalar_value` (scicpp/core/print.hpp:103-117). -/
def putScalar (o : FmtOpts) (fixed : Bool) (s : Ss) (x : Fl) : Ss :=
  match x with
  | .nan => s.put o.nanstr
  | .inf b => if b then (s.put ['-']).put o.infstr else s.put o.infstr
  | .fin q => s.put (numText fixed o.precision q)

/-- `is_negative` (scicpp/core/print.hpp:82-87). -/
def isNegative (x : Fl) : Bool := Fl.lt x (.fin 0)

/-- `print_complex` (scicpp/core/print.hpp:89-101). -/
def putComplex (o : FmtOpts) (fixed : Bool) (s : Ss) (re im : Fl) : Ss :=
  let s := putScalar o fixed s re
  let s := if isNegative im then putScalar o fixed (s.put ['-']) im.neg
    else putScalar o fixed (s.put ['+']) im
  s.put ['j']

/-- The loop of `print_tuple` over all elements but the last (scicpp/core/print.hpp:73-77;
`meta::subtuple`, scicpp/core/meta.hpp:153-170), then the last (78-79). -/
def putTuple (o : FmtOpts) (fixed : Bool) (s : Ss) : List Fl → Ss
  | [] => s.put [')']
  | [x] => (putScalar o fixed s x).put [')']
  | x :: y :: t => putTuple o fixed ((putScalar o fixed s x).put ", ".toList) (y :: t)

/-- `get_width` for real elements (scicpp/core/print.hpp:157-175). -/
def widthReal : ℤ := 12
/-- `get_width` for complex elements (scicpp/core/print.hpp:162-167). -/
def widthComplex (fixed : Bool) : ℤ := if fixed then 12 else 15
/-- `get_width` for tuples and pairs (scicpp/core/print.hpp:160-161, 168-174): `is_std_tuple_v` does not
include pairs. -/
def widthTuple (isPair : Bool) : ℤ := if isPair then 12 else -1

/-- `print_element` and `m_ss.str()` of a real number (scicpp/core/print.hpp:119-131). -/
def rawReal (o : FmtOpts) (fixed : Bool) (x : Fl) : List Char :=
  (putScalar o fixed (Ss.reset widthReal) x).out

/-- `print_element` and `m_ss.str()` of a complex number (scicpp/core/print.hpp:119-131). -/
def rawComplex (o : FmtOpts) (fixed : Bool) (z : Fl × Fl) : List Char :=
  (putComplex o fixed (Ss.reset (widthComplex fixed)) z.1 z.2).out

/-- `print_element` and `m_ss.str()` of a tuple (scicpp/core/print.hpp:70-80, 119-131). -/
def rawTuple (o : FmtOpts) (isPair fixed : Bool) (t : List Fl) : List Char :=
  (putTuple o fixed ((Ss.reset (widthTuple isPair)).put ['(']) t).out

/-- `detail::use_scientific_notation` for real elements (scicpp/core/print.hpp:192-206): the literals are
doubles, the ratio is rounded. -/
def useScientificFl (A : List Fl) : Bool :=
  let f := (A.map Fl.abs).filter fun x => !Fl.eqv x (.fin 0) && !x.isInf
  if f = [] then false
  else
    let mn := amin .nan Fl.lt f
    let mx := amax .nan Fl.lt f
    Fl.lt mn (.fin (binary64.rnd (1 / 10000))) || Fl.lt (.fin 1000) (binary64.round (Fl.div mx mn))

/-- `detail::use_scientific_notation` for complex elements (scicpp/core/print.hpp:185-187). -/
def useScientificC (A : List (Fl × Fl)) : Bool :=
  useScientificFl (A.map Prod.fst) || useScientificFl (A.map Prod.snd)

/-- `print` of a floating point array (scicpp/core/print.hpp:244-280). -/
def printReals (lo : PrintOpts) (o : FmtOpts) (suppress : Bool) (A : List Fl) : Res (List Char) :=
  printArray lo suppress useScientificFl (rawReal o) A

/-- `print` of a complex array (scicpp/core/print.hpp:244-280). -/
def printComplexes (lo : PrintOpts) (o : FmtOpts) (suppress : Bool) (A : List (Fl × Fl)) : Res (List Char) :=
  printArray lo suppress useScientificC (rawComplex o) A

/-- `print` of an array of tuples or pairs: always scientific unless suppressed
(scicpp/core/print.hpp:188-189, 244-280). -/
def printTuples (lo : PrintOpts) (o : FmtOpts) (suppress isPair : Bool) (A : List (List Fl)) :
    Res (List Char) :=
  printArray lo suppress (fun _ => true) (rawTuple o isPair) A

/-- `print` of a number (scicpp/core/print.hpp:282-291): scientific notation, width 12, default options. -/
def printNumber (x : Fl) : Res (List Char) :=
  printScalar Fl.isNan Fl.isInf (fun x => fmterStr false (rawReal {} false x)) x

end SciCpp
