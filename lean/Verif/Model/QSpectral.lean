import Verif.Model.Overload
import Verif.Model.QStats
import Verif.Model.Quantity
import Verif.Model.SpectralF
/-
  Class `Spectrum<T>` (scicpp/signal/spectral.hpp) on arrays of quantities and of complex quantities: the element types that the templates compute
  (through the overload resolution of `*` and `/`, Verif/Model/Overload.lean) and the operators that the quotients of `coherence` and `tfestimate` use on
  the values.  Simplification: the values are computed for `T = double`; `std::mean` and the transforms of the segments see numbers only
  (`detail::value`, scicpp/signal/spectral.hpp:48-52), as in Verif/Model/SpectralF.lean.
-/
namespace SciCpp
open Ovl

/-! ### element types; `none`: the program does not compile -/

/-- `detail::element_type_t<Array>` (scicpp/signal/spectral.hpp:37-46) of an array with elements `a`: `units::representation_t`
(scicpp/core/units/quantity.hpp:444-466). -/
def elementTy : OT → Option OT
  | .num r => some (.num r)
  | .cnum r => some (.cnum r)
  | .qty r _ => some (.num r)
  | .cqty r _ => some (.cnum r)
  | .vec _ => none

/-- The assertion that the element type is `T` or `std::complex<T>` (scicpp/signal/spectral.hpp:134-135, 194-197); the result tells whether it is
complex. -/
def elementIs (T : Rep) (a : OT) : Option Bool := do
  let e ← elementTy a
  if e = .num T then some false else if e = .cnum T then some true else none

/-- `ArrayTp` (scicpp/signal/spectral.hpp:141-144, 208-215): the value type of a complex element type. -/
def realTy : OT → OT
  | .cnum r => .num r
  | .cqty r t => .qty r t
  | a => a

/-- `RetTp` (scicpp/signal/spectral.hpp:145-152, 217-224).  All the branches of `std::conditional_t` are types that must exist;
`quantity_multiply`, `quantity_divide`: scicpp/core/units/quantity.hpp:475-481; `frequency<T>`: scicpp/core/units/units.hpp:105-106. -/
def retTy (T : Rep) (s : Scaling) (a b : OT) : Option OT := do
  let f ← ofRes (qtFrequency one1)
  let m ← mulTy false 8 (.rvalue, a) (.rvalue, b)
  let d ← divTy false 8 (.rvalue, m) (.rvalue, .qty T f)
  pure (if isQuantity a.ct || isQuantity b.ct then (if s = .density then d else m) else .num T)

/-- `normalize<scaling, sides>(std::vector<SpecTp>)` compiles (scicpp/signal/spectral.hpp:418-440): the assignment `v = 2.0 * std::move(v)` needs a
product of the type of `v`, and the divisors are of type `T`. -/
def normalizeTy (T : Rep) (s : Scaling) (onesided : Bool) (e : OT) : Option Unit := do
  if onesided then
    let w ← mulTy true 8 (.rvalue, .num .double) (.rvalue, .vec e)
    if w ≠ .vec e then none
  if s ≠ .none then
    let w ← divTy true 8 (.rvalue, .vec e) (.rvalue, .num T)
    if w ≠ .vec e then none

/-- The element type of the spectrum returned by `Spectrum<T>::welch<scaling>(x)` and `periodogram` for an array of elements `a`
(scicpp/signal/spectral.hpp:118-178).  The frequencies have the element type `T`. -/
def welchTy (T : Rep) (s : Scaling) (a : OT) : Option OT := do
  let c ← elementIs T a
  let r ← retTy T s (realTy a) (realTy a)
  normalizeTy T s (!c) (.num T)
  pure r

/-- The element type of the spectrum returned by `csd<scaling>(x, y)` (scicpp/signal/spectral.hpp:183-256): `std::complex<RetTp>`. -/
def csdTy (T : Rep) (s : Scaling) (a b : OT) : Option OT := do
  let c ← elementIs T a
  let d ← elementIs T b
  let r ← retTy T s (realTy a) (realTy b)
  normalizeTy T s (!(c || d)) (.cnum T)
  toComplex r

/-- `units::norm` on types (scicpp/core/units/maths.hpp:336-355). -/
def normTy : OT → Option OT
  | .cqty r t => mulTy false 8 (.rvalue, .qty r t) (.rvalue, .qty r t)
  | .qty r t => mulTy false 8 (.rvalue, .qty r t) (.rvalue, .qty r t)
  | .cnum r => some (.num r)
  | .num r => some (.num r)
  | .vec _ => none

/-- The quotient of two arrays, on their element types (scicpp/core/numeric.hpp:573-581). -/
def quotTy (a b : OT) : Option OT := do
  match ← divTy true 8 (.rvalue, .vec a) (.rvalue, .vec b) with
  | .vec c => some c
  | _ => none

/-- The element type of `coherence(x, y)` (scicpp/signal/spectral.hpp:258-272). -/
def coherenceTy (T : Rep) (a b : OT) : Option OT := do
  let pxy ← csdTy T .none a b
  let pxx ← welchTy T .none a
  let pyy ← welchTy T .none b
  let n ← normTy pxy
  let q ← quotTy n pxx
  quotTy q pyy

/-- The element type of `tfestimate(x, y)` (scicpp/signal/spectral.hpp:274-282). -/
def tfestimateTy (T : Rep) (a b : OT) : Option OT := do
  let pyx ← csdTy T .none b a
  let pxx ← welchTy T .none a
  quotTy pyx pxx

/-- `fs(q)` accepts the type of `q` (scicpp/signal/spectral.hpp:70-80): a real number, or a quantity with the dimension of `frequency`
(`is_frequency`, scicpp/core/units/units.hpp:105-107). -/
def fsTy : OT → Option Unit
  | .num _ => some ()
  | .qty _ t => do
    let f ← ofRes (qtFrequency one1)
    if t.dim = f.dim then some () else none
  | _ => none

/-- The number that `fs(q)` stores (scicpp/signal/spectral.hpp:70-80): `q.eval()` (scicpp/core/units/quantity.hpp:345-349), here without rounding. -/
noncomputable def fsValue (t : OT) (v : ℝ) : ℝ :=
  match t with
  | .qty _ u => qEval ⟨u, v⟩
  | _ => v

/-! ### the operators on the values -/

variable {K : Type} [CppNum K]

/-- The value of `x / y` for real `x` of type `a`, `y` of type `b`: the body of the selected operator (scicpp/core/units/quantity.hpp:329-334,
386-401). -/
def quotVal (a b : OT) (x y : K) : K :=
  match builtin a b with
  | some _ => x / y
  | none => match resolve (divFns false a.ct) ⟨.rvalue, a.ct⟩ ⟨.rvalue, b.ct⟩ with
    | .sel .right => divRecip x y
    | .sel .left => x * (CppNum.ofInt 1 / y)
    | _ => x / y

/-- The value of `z / y` for complex `z` of type `a` and real `y` of type `b`: the body of the selected operator
(scicpp/core/units/quantity.hpp:386-389 with 336-340 and 626-632, 670-675, 709-715, and `operator/(complex, T)` of `<complex>`). -/
def quotValC (a b : OT) (z : CK K) (y : K) : CK K :=
  match resolve (divFns false a.ct) ⟨.rvalue, a.ct⟩ ⟨.rvalue, b.ct⟩ with
  | .sel .left => CK.mulR z (CppNum.ofInt 1 / y)
  | _ => CK.divR z y

/-- A program that does not compile has no result. -/
def compiled {α : Type} : Option α → Res α
  | some x => .ok x
  | none => .ub

variable [Neg K]

/-- The values of `coherence(x, y)` for arrays with elements `a` and `b` (scicpp/signal/spectral.hpp:258-272); `units::norm` computes
`std::norm` of the values. -/
def coherenceQ (a b : OT) (lib : SpecLib K) (c : SpecCfgK K) (o1 o2 o3 : List ℕ) (x y : SigK K) : Res (List K) := do
  let tn ← compiled ((csdTy .double .none a b).bind normTy)
  let tx ← compiled (welchTy .double .none a)
  let ty ← compiled (welchTy .double .none b)
  let tq ← compiled (quotTy tn tx)
  require (x.size == y.size)
  let pxy ← csdK lib c o1 .none x y
  let pxx ← welchK lib c o2 .none x
  let pyy ← welchK lib c o3 .none y
  require (pxy.length == pxx.length)
  require (pxy.length == pyy.length)
  pure (List.zipWith (quotVal tq ty) (List.zipWith (quotVal tn tx) (pxy.map CK.norm) pxx) pyy)

/-- The values of `tfestimate(x, y)` for arrays with elements `a` and `b` (scicpp/signal/spectral.hpp:274-282). -/
def tfestimateQ (a b : OT) (lib : SpecLib K) (c : SpecCfgK K) (o1 o2 : List ℕ) (x y : SigK K) : Res (List (CK K)) := do
  let ty ← compiled (csdTy .double .none b a)
  let tx ← compiled (welchTy .double .none a)
  require (x.size == y.size)
  let pyx ← csdK lib c o1 .none y x
  let pxx ← welchK lib c o2 .none x
  require (pyx.length == pxx.length)
  pure (List.zipWith (quotValC ty tx) pyx pxx)

end SciCpp
