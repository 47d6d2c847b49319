import Verif.Model.Overload
import Verif.Model.QStats
/-
  Overload resolution of `+`, `-` (binary and unary), and of the comparisons, between numbers, complex numbers, quantities, complex quantities and arrays of
  them (scicpp/core/units/quantity.hpp, scicpp/core/numeric.hpp, the operators of `<complex>` and of the standard containers, C++17).
  The body of a template sees, of the operators on arrays, only those declared up to and including it ([temp.dep.candidate]: unqualified lookup happens at the
  definition; namespace scicpp::operators is not associated with any operand): `vis` counts the declarations that are visible.
-/
namespace SciCpp.Ovl

/-- The member templates `operator+` and `operator-` of the quantity on the left (scicpp/core/units/quantity.hpp:306-320): same representation type, same
dimension, any scale and offset.  The comparisons (211-266) have the same parameters. -/
def memberSame : CT → List (Fn Tag)
  | .qty t d s o => [⟨.member, cref (.qty t d s o), cref (.qty t d (.var 0) (.var 1)), always⟩]
  | _ => []

/-- The candidates for `a + b` and `a - b`: in numeric.hpp (array, scalar), (scalar, array) and (array, array) are declared in this order
(scicpp/core/numeric.hpp:436-450, 454-468, 559-575). -/
def addFns (vis : ℕ) (a : CT) : List (Fn Tag) := memberSame a ++ stdFns ++ arrFns.take vis

/-- `x + y` in `<complex>`: `complex<T>` with two operands of the same `T`; the body needs `T += T`, which quantities have
(scicpp/core/units/quantity.hpp:269-277). -/
def stdSum (a b : OT) : Option OT :=
  match a.unit?, b.unit? with
  | some (r, t), some _ => some (.cqty r t)
  | _, _ => numOp a b

/-- The body of the selected `operator+` (scicpp/core/units/quantity.hpp:306-312, scicpp/core/numeric.hpp:436-450, 559-566). -/
def addBody (M : ℕ → Cat × OT → Cat × OT → Option OT) (a b : OT) : Outcome Tag → Option OT
  | .sel .member => do                                                                -- 306-312
    let (r, t) ← a.unit?
    let (_, u) ← b.unit?
    let w ← ofRes (tyAdd t u)
    pure (.qty r w)
  | .sel .stdCC => stdSum a b
  | .sel .stdCN => stdSum a b
  | .sel .stdNC => stdSum a b
  | .sel .arrS => match a with                                                        -- numeric.hpp:440-442: `scalar + v`
    | .vec v => (M 1 (.constLvalue, b) (.lvalue, v)).map .vec
    | _ => none
  | .sel .sArr => match b with                                                        -- numeric.hpp:448-450: `scalar + v`
    | .vec v => (M 2 (.constLvalue, a) (.lvalue, v)).map .vec
    | _ => none
  | .sel .arrArr => match a, b with                                                   -- numeric.hpp:563-566: std::plus<>
    | .vec v, .vec w => (M 0 (.rvalue, v) (.rvalue, w)).map .vec
    | _, _ => none
  | _ => none

/-- The type of `a + b`; `none`: does not compile (scicpp/core/units/quantity.hpp:306-312, scicpp/core/numeric.hpp:436-450, 559-566). -/
def addTy : ℕ → ℕ → Cat × OT → Cat × OT → Option OT
  | 0, _, _, _ => none
  | fuel + 1, vis, (ca, a), (cb, b) =>
    match builtin a b with
    | some t => some t
    | none => addBody (addTy fuel) a b (resolve (addFns vis a.ct) ⟨ca, a.ct⟩ ⟨cb, b.ct⟩)

/-- The body of the selected `operator-` (scicpp/core/units/quantity.hpp:314-320, scicpp/core/numeric.hpp:454-468, 568-575).  `x - y` of `<complex>` with a
real `x` computes `complex<T>(x - y.real(), -y.imag())`. -/
def subBody (M : ℕ → Cat × OT → Cat × OT → Option OT) (a b : OT) : Outcome Tag → Option OT
  | .sel .member => do                                                                -- 314-320
    let (r, t) ← a.unit?
    let (_, u) ← b.unit?
    let w ← ofRes (tyAdd t u)
    pure (.qty r w)
  | .sel .stdCC => stdSum a b
  | .sel .stdCN => stdSum a b
  | .sel .stdNC => match a.unit? with
    | some (r, t) => (ofRes (tyAdd t t)).map fun _ => .cqty r t
    | none => stdSum a b
  | .sel .arrS => match a with                                                        -- numeric.hpp:458-460: `v - scalar`
    | .vec v => (M 1 (.lvalue, v) (.constLvalue, b)).map .vec
    | _ => none
  | .sel .sArr => match b with                                                        -- numeric.hpp:466-468: `scalar - v`
    | .vec v => (M 2 (.constLvalue, a) (.lvalue, v)).map .vec
    | _ => none
  | .sel .arrArr => match a, b with                                                   -- numeric.hpp:572-575: std::minus<>
    | .vec v, .vec w => (M 0 (.rvalue, v) (.rvalue, w)).map .vec
    | _, _ => none
  | _ => none

/-- The type of `a - b` (scicpp/core/units/quantity.hpp:314-320, scicpp/core/numeric.hpp:454-468, 568-575). -/
def subTy : ℕ → ℕ → Cat × OT → Cat × OT → Option OT
  | 0, _, _, _ => none
  | fuel + 1, vis, (ca, a), (cb, b) =>
    match builtin a b with
    | some t => some t
    | none => subBody (subTy fuel) a b (resolve (addFns vis a.ct) ⟨ca, a.ct⟩ ⟨cb, b.ct⟩)

/-- The type of `-a`; `arr`: the operator on arrays is visible.  `map(std::negate<>(), a)` for arrays (scicpp/core/numeric.hpp:308-311), whose elements are
negated in namespace std; `-x` of a quantity (scicpp/core/units/quantity.hpp:290-290) and, in `<complex>`, of the parts. -/
def negTy (arr : Bool) : OT → Option OT
  | .vec v => if arr then (negTy false v).map .vec else none
  | x => some x

/-! ### Comparisons -/

/-- The comparison operators. -/
inductive Cmp where
  | eq | ne | lt | le | gt | ge
deriving DecidableEq

/-- The operators between arrays and scalars in the order of their declarations; `true`: (array, scalar)
(scicpp/core/numeric.hpp:321-415). -/
def cmpDecls : List (Cmp × Bool) :=
  [(.eq, true), (.eq, false), (.ne, true), (.ne, false), (.lt, true), (.ge, true), (.lt, false), (.ge, false), (.le, true), (.le, false), (.gt, true),
   (.gt, false)]

/-- The number of declarations visible in the body of an operator (scicpp/core/numeric.hpp:321-415). -/
def cmpVis (op : Cmp) (arrS : Bool) : ℕ := cmpDecls.idxOf (op, arrS) + 1

/-- The candidates for a comparison: the member template (scicpp/core/units/quantity.hpp:211-266), `==` and `!=` of `<complex>`, the lexicographic operators
of the containers (here with the tag `arrArr`), and those between arrays and scalars (scicpp/core/numeric.hpp:321-415). -/
def cmpFns (vis : ℕ) (op : Cmp) (a : CT) : List (Fn Tag) :=
  memberSame a ++
  (if op = .eq ∨ op = .ne then stdFns else []) ++
  [⟨.arrArr, cref (.vec (.var 0)), cref (.vec (.var 0)), always⟩] ++
  (if (op, true) ∈ cmpDecls.take vis then
    [⟨.arrS, fwd (.var 0), byval (.var 1), guardOn fun σ => on 0 isIterable σ && on 1 isScalar σ⟩] else []) ++
  (if (op, false) ∈ cmpDecls.take vis then
    [⟨.sArr, byval (.var 1), fwd (.var 0), guardOn fun σ => on 0 isIterable σ && on 1 isScalar σ⟩] else [])

/-- `!x` for a `bool` nested `k` deep in arrays: `map(std::logical_not<>(), x)`, whose elements are negated in namespace std
(scicpp/core/numeric.hpp:315-318). -/
def notTy : ℕ → Option ℕ
  | 0 => some 0
  | 1 => some 1
  | _ => none

/-- The body of the selected comparison (scicpp/core/units/quantity.hpp:211-266, scicpp/core/numeric.hpp:321-415). -/
def cmpBody (M : ℕ → Cmp → Cat × OT → Cat × OT → Option ℕ) (op : Cmp) (a b : OT) : Outcome Tag → Option ℕ
  | .sel .member => some 0
  | .sel .stdCC => some 0
  | .sel .stdCN => some 0
  | .sel .stdNC => some 0
  | .sel .arrArr => match a, b with                                                   -- the elements are compared with == or < in namespace std
    | .vec v, .vec w => match M 0 (if op = .eq ∨ op = .ne then .eq else .lt) (.constLvalue, v) (.constLvalue, w) with
      | some 0 => some 0
      | _ => none
    | _, _ => none
  | .sel .arrS => match op, a with
    | .eq, .vec v => (M (cmpVis .eq true) .eq (.lvalue, v) (.constLvalue, b)).map (· + 1)      -- 325-327
    | .ne, a => (M (cmpVis .ne true) .eq (.lvalue, a) (.lvalue, b)).bind notTy                 -- 341-343
    | .lt, .vec v => (M (cmpVis .lt true) .lt (.lvalue, v) (.constLvalue, b)).map (· + 1)      -- 357-359
    | .ge, a => (M (cmpVis .ge true) .lt (.lvalue, a) (.lvalue, b)).bind notTy                 -- 365-367
    | .le, a => (M (cmpVis .le true) .lt (.lvalue, b) (.lvalue, a)).bind notTy                 -- 389-391
    | .gt, a => (M (cmpVis .gt true) .le (.lvalue, a) (.lvalue, b)).bind notTy                 -- 405-407
    | _, _ => none
  | .sel .sArr => match op, b with
    | .eq, b => M (cmpVis .eq false) .eq (.lvalue, b) (.lvalue, a)                             -- 333-335
    | .ne, b => (M (cmpVis .ne false) .eq (.lvalue, b) (.lvalue, a)).bind notTy                -- 349-351
    | .lt, .vec v => (M (cmpVis .lt false) .lt (.constLvalue, a) (.lvalue, v)).map (· + 1)     -- 373-375
    | .ge, b => (M (cmpVis .ge false) .lt (.lvalue, a) (.lvalue, b)).bind notTy                -- 381-383
    | .le, b => (M (cmpVis .le false) .lt (.lvalue, b) (.lvalue, a)).bind notTy                -- 397-399
    | .gt, b => (M (cmpVis .gt false) .le (.lvalue, a) (.lvalue, b)).bind notTy                -- 413-415
    | _, _ => none
  | _ => none

/-- The type of a comparison: `some k` is a `bool` nested `k` deep in arrays, `none` does not compile
(scicpp/core/units/quantity.hpp:211-266, scicpp/core/numeric.hpp:321-415). -/
def cmpTy : ℕ → ℕ → Cmp → Cat × OT → Cat × OT → Option ℕ
  | 0, _, _, _, _ => none
  | fuel + 1, vis, op, (ca, a), (cb, b) =>
    match builtin a b with
    | some _ => some 0
    | none => cmpBody (cmpTy fuel) op a b (resolve (cmpFns vis op a.ct) ⟨ca, a.ct⟩ ⟨cb, b.ct⟩)

end SciCpp.Ovl
