import Verif.Model.PolyObj
import Mathlib.Algebra.Polynomial.Basic
/-
  What programs on `Polynomial` objects mean: each object is a polynomial together with its formal degree; an object that has been moved from has
  no meaning until it is assigned to.
-/
namespace SciCpp
namespace PolyObj
open Polynomial

variable {R : Type} [CommRing R]

/-- The polynomials of the objects, with their formal degrees. -/
abbrev SState (R : Type) [CommRing R] := ℕ → Option (R[X] × ℕ)

/-- Assign, if the formal degree is below `2^64 - 1`. -/
noncomputable def sput (s : SState R) (i : ℕ) (p : R[X]) (d : ℕ) : Option (SState R) :=
  if d + 1 < 2 ^ 64 then some (Function.update s i (some (p, d))) else none

/-- The coefficients `l` as a polynomial. -/
noncomputable def ofCoeffs (l : List R) : R[X] := (l.zipIdx.map fun ck => C ck.1 * X ^ ck.2).sum

/-- One statement in the ring of polynomials; `none` when an operand has no meaning. -/
noncomputable def sstep (s : SState R) : Op R → Option (SState R)
  | .new i l => if l = [] then none else sput s i (ofCoeffs l) (l.length - 1)
  | .zero i deg => sput s i 0 deg
  | .copy i j => (s j).bind fun p => sput s i p.1 p.2
  | .move i j => if i = j then none else (s j).bind fun p => sput (Function.update s j none) i p.1 p.2
  | .addA i j => (s i).bind fun p => (s j).bind fun q => sput s i (p.1 + q.1) (max p.2 q.2)
  | .subA i j => (s i).bind fun p => (s j).bind fun q => sput s i (p.1 - q.1) (max p.2 q.2)
  | .mulA i j => (s i).bind fun p => (s j).bind fun q => sput s i (p.1 * q.1) (p.2 + q.2)
  | .scaleA i j k => (s i).bind fun p => (s j).bind fun q => if k ≤ q.2 then sput s i (C (q.1.coeff k) * p.1) p.2 else none
  | .add i j k => (s j).bind fun p => (s k).bind fun q => sput s i (p.1 + q.1) (max p.2 q.2)
  | .sub i j k => (s j).bind fun p => (s k).bind fun q => sput s i (p.1 - q.1) (max p.2 q.2)
  | .mul i j k => (s j).bind fun p => (s k).bind fun q => sput s i (p.1 * q.1) (p.2 + q.2)
  | .scale i c j => (s j).bind fun p => sput s i (C c * p.1) p.2
  | .mulx i => (s i).bind fun p => sput s i (X * p.1) (p.2 + 1)

/-- A program. -/
noncomputable def srun (s : SState R) : List (Op R) → Option (SState R)
  | [] => some s
  | o :: os => (sstep s o).bind fun s' => srun s' os

end PolyObj
end SciCpp
