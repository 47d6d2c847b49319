import Verif.Model.Base
import Mathlib.Data.List.Sort
/-
  Model of scicpp/core/io.hpp.

  Strings and files are lists of characters.  A file system access is `Option (List Char)`: `none` when
  the file cannot be opened.  The conversion of a token to a value, the converters and the filters are
  parameters (C++ template parameters and `std::function`s); `atoi` and the complex number reader are
  modelled concretely.  Values of all element types are collected in one type `α` (a variant).
-/
namespace SciCpp

/-- The tokens successive calls of `std::getline(stream, tok, sep)` extract: a final empty piece is not
returned (`getline` fails when no character can be extracted). -/
def getlines (sep : Char) : List Char → List (List Char)
  | [] => []
  | ch :: s =>
    if ch = sep then [] :: getlines sep s
    else match getlines sep s with
      | [] => [[ch]]
      | t :: ts => (ch :: t) :: ts

/-- What a `const char *` made of `std::string::data()` denotes: the characters before the first NUL
(scicpp/core/io.hpp:126, 260, 374). -/
def cstr (s : List Char) : List Char := s.takeWhile (· ≠ '\x00')

/-- `detail::iterate_line` (scicpp/core/io.hpp:121-145) on the tokens: the arguments of the calls of
`op`, in order.  `used ≤ usecols.length` throughout, and the loop ends when they are equal, so the
subscript at line 133 is in bounds. -/
def iterTokens (usecols : List ℤ) : List (List Char) → ℤ → ℕ → List (List Char × ℤ)
  | [], _, _ => []
  | tok :: ts, col, used =>
    if tok.isEmpty then iterTokens usecols ts col used                                    -- 132
    else if usecols.isEmpty || usecols[used]? == some col then                            -- 133
      (tok, col) :: (if used + 1 = usecols.length then [] else iterTokens usecols ts (col + 1) (used + 1))
    else iterTokens usecols ts (col + 1) used

/-- `detail::iterate_line(str, sep, usecols, op)` (scicpp/core/io.hpp:121-145). -/
def iterateLine (sep : Char) (usecols : List ℤ) (str : List Char) : List (List Char × ℤ) :=
  iterTokens usecols (getlines sep (cstr str)) 0 0

variable {α : Type}

/-- `ConvertersDict` and `FiltersDict` (scicpp/core/io.hpp:37-43): finite maps from column numbers. -/
structure Dicts (α : Type) where
  converters : List (ℤ × (List Char → α)) := []
  filters : List (ℤ × (α → Bool)) := []

/-- `detail::convert<DataType>({key, token}, converters, filters)` (scicpp/core/io.hpp:89-119).
Simplification: a converter returns the right type (`std::any_cast` does not throw). -/
def convertTok (toNum : List Char → α) (d : Dicts α) (key : ℤ) (tok : List Char) : Option α :=
  let res := match d.converters.lookup key with
    | some f => f (cstr tok)
    | none => toNum (cstr tok)
  match d.filters.lookup key with
  | some p => if p res then some res else none
  | none => some res

/-- `detail::push_string_to_vector` (scicpp/core/io.hpp:147-169): the values pushed and the number of
tokens; the dictionary key is the running count `len` (159). -/
def pushString (toNum : List Char → α) (d : Dicts α) (sep : Char) (usecols : List ℤ) (str : List Char) :
    List α × ℕ :=
  let toks := iterateLine sep usecols str
  ((toks.zipIdx.filterMap fun ti => convertTok toNum d (ti.2 : ℤ) ti.1.1), toks.length)

/-- `detail::iterate_file` (scicpp/core/io.hpp:233-238): the loop over the remaining lines.
`line[0]` of an empty line is NUL. -/
def fileLoop (comments : Char) : List (List Char) → ℤ → List (List Char)
  | [], _ => []
  | l :: ls, maxRows =>
    if maxRows = 0 then []                                                                 -- 233
    else if l.headD '\x00' ≠ comments then l :: fileLoop comments ls (maxRows - 1)         -- 234-236
    else fileLoop comments ls maxRows

/-- `detail::iterate_file(fname, comments, skiprows, max_rows, op)` (scicpp/core/io.hpp:216-242): the
lines passed to `op`, in order. -/
def iterateFile (file : Option (List Char)) (comments : Char) (skiprows maxRows : ℤ) : List (List Char) :=
  match file with
  | none => []
  | some s => fileLoop comments ((getlines '\n' s).drop skiprows.toNat) maxRows

/-- Options of `loadtxt`. -/
structure LoadOpts where
  comments : Char := '#'
  delimiter : Char := ' '
  skiprows : ℤ := 0
  usecols : List ℤ := []
  maxRows : ℤ := -1

/-- One line of `detail::loadtxt_to_vector` (scicpp/core/io.hpp:258-271); the second component of the
state is `num_cols`, `none` while `is_first_row`. -/
def vecStep (toNum : List Char → α) (d : Dicts α) (o : LoadOpts) (st : List α × Option ℕ)
    (line : List Char) : Res (List α × Option ℕ) :=
  let vn := pushString toNum d o.delimiter o.usecols line
  match st.2 with
  | none => .ok (st.1 ++ vn.1, some vn.2)                                                  -- 262-263
  | some m => if vn.2 = m then .ok (st.1 ++ vn.1, some m) else .ub                         -- 265

/-- `detail::loadtxt_to_vector` (scicpp/core/io.hpp:244-274): all values and the number of columns. -/
def loadtxtToVector (toNum : List Char → α) (d : Dicts α) (o : LoadOpts) (file : Option (List Char)) :
    Res (List α × ℕ) := do
  let st ← (iterateFile file o.comments o.skiprows o.maxRows).foldlM (vecStep toNum d o) ([], none)
  pure (st.1, st.2.getD 0)

/-- `loadtxt` to an Eigen matrix (scicpp/core/io.hpp:302-328): the rows of the row-major map; the
division by zero columns is UB. -/
def loadtxtMatrix (toNum : List Char → α) (d : Dicts α) (o : LoadOpts) (file : Option (List Char)) :
    Res (List (List α)) := do
  let (data, n) ← loadtxtToVector toNum d o file
  if n = 0 then .ub
  else pure ((List.range (data.length / n)).map fun i : ℕ => (data.drop (i * n)).take n)   -- 327

/-- One line for a tuple of `k` element types (scicpp/core/io.hpp:171-214): exactly `k` tokens are
required; the dictionary key is the column number in the file (182, 197). -/
def loadLineTuple (conv : ℕ → List Char → α) (k : ℕ) (d : Dicts α) (o : LoadOpts) (line : List Char) :
    Res (List (Option α)) := do
  let toks := iterateLine o.delimiter o.usecols line
  require (toks.length == k)                                                               -- 180, 186
  pure (toks.zipIdx.map fun ti => convertTok (conv ti.2) d ti.1.2 ti.1.1)

/-- `loadtxt<DataTypes...>` (scicpp/core/io.hpp:360-386): a row is kept when every value passed its
filter. -/
def loadtxtTuples (conv : ℕ → List Char → α) (k : ℕ) (d : Dicts α) (o : LoadOpts)
    (file : Option (List Char)) : Res (List (List α)) :=
  (iterateFile file o.comments o.skiprows o.maxRows).foldl (fun st line => do
    let res ← st
    let row ← loadLineTuple conv k d o line
    if row.all Option.isSome then pure (res ++ [row.filterMap id]) else pure res) (.ok [])

/-! ### TxtLoader -/

/-- The setters of `TxtLoader` (scicpp/core/io.hpp:413-474). -/
inductive LoaderOp where
  | delimiter (ch : Char)
  | skiprows (n : ℤ)
  | comments (ch : Char)
  /-- the overloads taking a vector (428-444) -/
  | usecolsVec (l : List ℤ)
  /-- the variadic overload (446-459) -/
  | usecolsArgs (l : List ℤ)
  | maxRows (n : ℤ)

/-- One setter; `ntypes` is `sizeof...(DataTypes)`. -/
def LoadOpts.exec (ntypes : ℕ) (o : LoadOpts) : LoaderOp → Res LoadOpts
  | .delimiter ch => .ok { o with delimiter := ch }
  | .skiprows n => .ok { o with skiprows := n }
  | .comments ch => .ok { o with comments := ch }
  | .usecolsVec l => do
    require ((decide (1 < ntypes) && l.length == ntypes) || ntypes == 1)                   -- 429
    pure { o with usecols := l.mergeSort }
  | .usecolsArgs l => .ok { o with usecols := (o.usecols ++ l).mergeSort }                 -- 455-457
  | .maxRows n => .ok { o with maxRows := n }

/-! ### savetxt -/

/-- `savetxt(fname, X, delimiter, newline)` for one array (scicpp/core/io.hpp:530-540): the contents of
the file, `X` the printed elements; the delimiter is not used. -/
def savetxtArray (newline : Char) (X : List (List Char)) : List Char :=
  X.flatMap fun x => x ++ [newline]

/-- One row of `savetxt` for a tuple of arrays (scicpp/core/io.hpp:575-583). -/
def savetxtRow (delimiter newline : Char) : List (List Char) → List Char
  | [] => []
  | [x] => x ++ [newline]
  | x :: xs => x ++ [delimiter] ++ savetxtRow delimiter newline xs

/-- `savetxt` for a tuple of arrays (scicpp/core/io.hpp:556-585): `cols` are the printed columns. -/
def savetxtTuple (delimiter newline : Char) (cols : List (List (List Char))) : Res (List Char) := do
  match cols with
  | [] => .ub                                                   -- `std::get<0>` of an empty tuple
  | c0 :: _ => do
    require (cols.all fun c => c.length == c0.length)                                      -- 566
    pure ((List.range c0.length).flatMap fun i : ℕ =>
      savetxtRow delimiter newline (cols.map fun c => c.getD i []))

/-! ### Conversion of tokens -/

/-- `std::isspace` in the C locale. -/
def isSpaceC (ch : Char) : Bool :=
  ch = ' ' || ch = '\t' || ch = '\n' || ch = '\x0b' || ch = '\x0c' || ch = '\r'

/-- Value of a decimal digit. -/
def digitVal (ch : Char) : Option ℕ :=
  if '0' ≤ ch ∧ ch ≤ '9' then some (ch.toNat - '0'.toNat) else none

/-- Leading decimal digits. -/
def readDigits : List Char → ℕ → ℕ
  | [], acc => acc
  | ch :: s, acc => match digitVal ch with
    | some v => readDigits s (10 * acc + v)
    | none => acc

/-- An optional sign and decimal digits. -/
def readSigned : List Char → ℤ
  | '-' :: t => -(readDigits t 0 : ℤ)
  | '+' :: t => (readDigits t 0 : ℤ)
  | t => (readDigits t 0 : ℤ)

/-- `static_cast<T>(std::atoi(str))` (scicpp/core/io.hpp:62-63): `atoi` of a value that is not an `int`
is undefined, whatever the (possibly larger) type `T`. -/
def atoi (s : List Char) : Res ℤ :=
  let v := readSigned (s.dropWhile isSpaceC)
  if -(2 : ℤ) ^ 31 ≤ v ∧ v < 2 ^ 31 then .ok v else .ub

/-- Decimal digits of a natural number, most significant first. -/
def printNat (n : ℕ) : List Char :=
  if n < 10 then [Char.ofNat (48 + n)] else printNat (n / 10) ++ [Char.ofNat (48 + n % 10)]

/-- `stream << n` for a signed integer. -/
def printInt (n : ℤ) : List Char :=
  if n < 0 then '-' :: printNat n.natAbs else printNat n.natAbs

/-- `detail::to_number<std::complex<double>>` (scicpp/core/io.hpp:64-74).  `lf` is what `%lf` reads at
the beginning of a string: the number and the rest.  `y` stays uninitialised when fewer than two
numbers are read. -/
def toComplex {K : Type} (lf : List Char → Option (K × List Char)) (s : List Char) :
    Res (Option (K × K)) :=
  match lf s with
  | none => .ok none                                                                       -- NaN
  | some (x, '+' :: rest) => match lf rest with
    | some (y, _) => .ok (some (x, y))
    | none => .ub
  | some (_, _) => .ub

/-- `fromstring<DataType>(const char *)` and `fromstring<DataType>(const std::string &)`
(scicpp/core/io.hpp:282-296).  `toNum` converts to a data type `ty`; the second overload calls the
first without passing its template argument, so it always converts to `double`. -/
def fromstring {Ty : Type} (toNum : Ty → List Char → α) (ty double : Ty) (isString : Bool) (d : Dicts α)
    (sep : Char) (str : List Char) : List α :=
  (pushString (toNum (if isString then double else ty)) d sep [] str).1

end SciCpp
