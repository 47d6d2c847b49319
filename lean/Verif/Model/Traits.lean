import Verif.Model.QTmpl
/-
  Model of the quantity traits `is_length`, `is_speed`, … of scicpp/core/units.
-/
namespace SciCpp

/-- The types the traits are asked about: arithmetic (and all other) types, quantities and
`std::complex` of a type. -/
inductive CppTy where
  | other
  | quantity (t : QTy)
  | complex (t : CppTy)

/-- `is_same_dimension<Qty1, Qty2>` (scicpp/core/units/quantity.hpp:468-471). -/
def isSameDimension (a b : QTy) : Bool := decide (a.dim = b.dim)

/-- `is_<qty><T>` as defined by QUANTITY_TRAIT (scicpp/core/units/units.hpp:114-132), for every template
it is used with (units.hpp:134-157, chemical.hpp:9, 15, 21, 28, electromagnetism.hpp:9, 15, 23, 30, 37, 43,
51, 59, 66, 72, 78, photometry.hpp:11, 17, 23, 29, 35, 42, 48, thermal.hpp:7, 12, 17, 22, 29, 36, 42, 49);
`data_rate` has no trait in the source.  The template is instantiated with the scale of the type; `ub` when
that does not compile. -/
def isTrait (q : QTmpl) : CppTy → Res Bool
  | .other => .ok false
  | .complex t => isTrait q t
  | .quantity t => do
    let u ← q.ty t.scal
    pure (isSameDimension t u)

end SciCpp
