import Verif.Model.Io
import Mathlib.Algebra.Order.Field.Basic
import Mathlib.Algebra.Order.Ring.Abs
/-
  Model of scicpp/core/print.hpp.

  The text `stream << value` inserts for one element (after `setw`, `setprecision`, the notation, `nanstr`
  and `infstr`) is a parameter; it is concrete for integers.  `int` positions are `ℕ` (they only grow from
  1 by string lengths; overflow after 2^31 characters on a line is not modelled).
-/
namespace SciCpp

/-- `PrintOptions` (scicpp/core/print.hpp:27-42), the fields the layout depends on. -/
structure PrintOpts where
  separator : List Char := [' ']
  threshold : ℕ := 1000
  linewidth : ℤ := 75
  edgeitems : ℕ := 3

/-- `ElementFormater::remove_trailling_zeros` (scicpp/core/print.hpp:133-138): `find_last_not_of('0') + 1`
is 0 when every character is `'0'`. -/
def removeTrailingZeros (s : List Char) : List Char :=
  if s ≠ ['0'] then
    let first := (s.reverse.dropWhile (· = '0')).length                                   -- 135
    s.take first ++ List.replicate (s.length - first) ' '                                 -- 136
  else s

/-- `ElementFormater::str` (scicpp/core/print.hpp:140-148). -/
def fmterStr (fixed : Bool) (raw : List Char) : List Char :=
  if fixed then removeTrailingZeros raw else raw

/-- The loop of `detail::print_array_elements` (scicpp/core/print.hpp:223-238) from a given position and
separator: the text written and the final position. -/
def printElems (o : PrintOpts) : List (List Char) → List Char → ℕ → ℤ → List Char × ℤ
  | [], _, _, pos => ([], pos)
  | str :: strs, sep, sepSize, pos =>
    let pos := pos + (sepSize + str.length : ℕ)                                           -- 227
    let brk := decide (o.linewidth ≤ pos)                                                 -- 229
    let here := if brk then sep ++ ['\n', ' '] ++ str else sep ++ str
    let pos := if brk then 1 + (str.length : ℤ) else pos
    let r := printElems o strs (cstr o.separator) o.separator.length pos                  -- 236-237
    (here ++ r.1, r.2)

/-- `print(stream, A, prtopts)` (scicpp/core/print.hpp:245-280).  `raw fixed a` is what is streamed for
`a`; `sci` is `detail::use_scientific_notation`; `suppress` the option of that name. -/
def printArray {α : Type} (o : PrintOpts) (suppress : Bool) (sci : List α → Bool)
    (raw : Bool → α → List Char) (A : List α) : Res (List Char) :=
  if A = [] then .ok "[]\n".toList                                                        -- 247-250
  else if A.length ≤ o.threshold then                                                     -- 255
    let fixed := suppress || !sci A
    .ok ('[' :: (printElems o (A.map fun a => fmterStr fixed (raw fixed a)) [] 0 1).1 ++ "]\n".toList)
  else if 2 * o.edgeitems < A.length then                                                 -- 262
    let lo := A.take o.edgeitems                                                          -- 210-211
    let hi := A.drop (A.length - o.edgeitems)
    let fixed := suppress || !(sci lo || sci hi)
    let f := fun a => fmterStr fixed (raw fixed a)
    let r := printElems o (lo.map f) [] 0 1
    let pos := r.2 + (3 + 2 * (o.separator.length : ℤ))                                   -- 274
    .ok ('[' :: r.1 ++ o.separator ++ "...".toList ++ o.separator ++
      (printElems o (hi.map f) [] 0 pos).1 ++ "]\n".toList)
  else .ub

/-- `detail::use_scientific_notation` for a real floating point array without NaN or infinity
(scicpp/core/print.hpp:193-204), exact arithmetic.  `stats::amin`/`amax` of the non-empty filtered array
are its minimum and maximum. -/
def useScientific {K : Type} [Field K] [LinearOrder K] (A : List K) : Bool :=
  let f := (A.map fun x => |x|).filter fun x => x ≠ 0
  match f with
  | [] => false
  | x :: xs =>
    let mn := xs.foldl min x
    let mx := xs.foldl max x
    decide (mn < 1 / 10000) || decide (1000 < mx / mn)

/-- `m_ss << setw(12) << n` for an integer (scicpp/core/print.hpp:64-66, 115, 157-175). -/
def rawInt (_fixed : Bool) (z : ℤ) : List Char :=
  List.replicate (12 - (printInt z).length) ' ' ++ printInt z

/-- `print` of an integer array: `use_scientific_notation` is false (scicpp/core/print.hpp:190-191). -/
def printInts (o : PrintOpts) (A : List ℤ) : Res (List Char) := printArray o false (fun _ => false) rawInt A

/-- What `print(stream, x)` of a scalar (scicpp/core/print.hpp:282-291) does with a value: the formatter
keeps a reference to a `PrintOptions` temporary that is destroyed at the end of line 287; the strings
`nanstr` and `infstr` in it are read only for NaN and infinities (106-113). -/
def printScalar {α : Type} (isnan isinf : α → Bool) (raw : α → List Char) (x : α) : Res (List Char) :=
  if isnan x || isinf x then .ub else .ok (raw x ++ ['\n'])

end SciCpp
