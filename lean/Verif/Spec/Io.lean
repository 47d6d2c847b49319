import Mathlib.Data.List.Sort
import Mathlib.Data.Int.Order.Basic
/-
  Specification of delimiter-separated text files, independent of the model of scicpp/core/io.hpp.
  `List.splitOn` is the one of the Lean standard library.
-/
namespace SciCpp

/-- The lines of a text file; a newline at the very end of the file does not start another line. -/
def fileLines (s : List Char) : List (List Char) :=
  let p := s.splitOn '\n'
  if p.getLast? = some [] then p.dropLast else p

/-- The data lines of a file: skip `skiprows` lines, leave out the lines that start with the comment
character, keep at most `maxRows` of the others (all of them when `maxRows` is negative). -/
def dataLines (comments : Char) (skiprows maxRows : ℤ) (s : List Char) : List (List Char) :=
  let ls := ((fileLines s).drop skiprows.toNat).filter fun l => l.head? ≠ some comments
  if maxRows < 0 then ls else ls.take maxRows.toNat

/-- The fields of a line. -/
def lineFields (sep : Char) (line : List Char) : List (List Char) := line.splitOn sep

/-- The fields of a line that are not empty. -/
def nonEmptyFields (sep : Char) (line : List Char) : List (List Char) :=
  (lineFields sep line).filter fun f => f ≠ []

/-- Fields with their numbers (from 0), those selected by `usecols` (all of them if `usecols` is empty),
in file order. -/
def selectFields (usecols : List ℤ) (fields : List (List Char)) : List (List Char × ℤ) :=
  (fields.zipIdx.map fun p => (p.1, (p.2 : ℤ))).filter fun p => usecols = [] ∨ p.2 ∈ usecols

/-- Strictly increasing column numbers, none negative. -/
def GoodCols (usecols : List ℤ) : Prop := usecols.Pairwise (· < ·) ∧ ∀ x ∈ usecols, 0 ≤ x

/-- A cell that survives writing and reading: not empty, without delimiter, newline or NUL. -/
def GoodCell (delim : Char) (cell : List Char) : Prop :=
  cell ≠ [] ∧ delim ∉ cell ∧ '\n' ∉ cell ∧ '\x00' ∉ cell

end SciCpp
