import Verif.Model.Functional
import Verif.Model.Stats
import Verif.Model.Range
/-
  Model of `lerp` of arrays (scicpp/core/maths.hpp:201-206).
-/
namespace SciCpp

/-- Both arrays are declared `T1 &&` with one parameter `T1` (scicpp/core/maths.hpp:201-202): the call compiles only if the deduced types are
the same, so both arguments have the same value category (and the same container type, which is not represented). -/
def lerpArrCompiles (cat1 cat2 : Cat) : Bool := cat1 == cat2

/-- `lerp(a, b, t)` of arrays (scicpp/core/maths.hpp:201-206): the binary `map` of the scalar function `lrp`, whose result has the type of the elements
(`double`); returns the result and the contents of the arguments afterwards. -/
def lerpArr {α κ : Type} (lrp : α → α → κ → α) (cat : Cat) (c : Cont) (a b : List α) (t : κ) : Res (List α × List α × List α) :=
  mapBinary cat cat c c (fun x y => lrp x y t) true true a b

end SciCpp
