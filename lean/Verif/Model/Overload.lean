import Verif.Model.QExpr
import Verif.Model.UnitTable
import Verif.Model.Functional
/-
  Overload resolution of `operator*` and `operator/` between numbers, complex numbers, quantities, complex quantities and arrays of them
  (scicpp/core/units/quantity.hpp, scicpp/core/numeric.hpp, and the operators of `<complex>`), and of the binary `map` (scicpp/core/functional.hpp).
  Template argument deduction, the ranking of reference bindings and the partial ordering of function templates follow the C++17 standard
  ([temp.deduct.call], [over.ics.rank], [temp.deduct.partial]) for the forms of parameters that occur: `T`, `const P &` and `T &&`.
-/
namespace SciCpp.Ovl

/-- Types and type patterns.  `var` is a template parameter, `frz` the unique type that stands for a template parameter in partial ordering.
`vec` stands for the containers of the library (`std::vector`, `std::array`). -/
inductive CT where
  | var (n : ℕ)
  | frz (n : ℕ)
  | num (r : Rep)
  | dim (d : RootRatio)
  | sca (s : RootRatio)
  | off (o : ℚ)
  | cplx (t : CT)
  | qty (t d s o : CT)
  | vec (t : CT)
deriving DecidableEq

/-- Deduced template arguments. -/
abbrev Sub := List (ℕ × CT)

/-- Deduction of the template parameters of a pattern from a type; a parameter that occurs twice must get the same type. -/
def deduce : CT → CT → Sub → Option Sub
  | .var n, t, σ => match σ.lookup n with
    | none => some ((n, t) :: σ)
    | some t' => if t = t' then some σ else none
  | .frz n, .frz m, σ => if n = m then some σ else none
  | .num r, .num s, σ => if r = s then some σ else none
  | .dim r, .dim s, σ => if r = s then some σ else none
  | .sca r, .sca s, σ => if r = s then some σ else none
  | .off r, .off s, σ => if r = s then some σ else none
  | .cplx p, .cplx t, σ => deduce p t σ
  | .vec p, .vec t, σ => deduce p t σ
  | .qty p1 p2 p3 p4, .qty t1 t2 t3 t4, σ => do
    let σ ← deduce p1 t1 σ
    let σ ← deduce p2 t2 σ
    let σ ← deduce p3 t3 σ
    deduce p4 t4 σ
  | _, _, _ => none

/-- Replace template parameters by unique types. -/
def freeze : CT → CT
  | .var n => .frz n
  | .cplx t => .cplx (freeze t)
  | .vec t => .vec (freeze t)
  | .qty a b c d => .qty (freeze a) (freeze b) (freeze c) (freeze d)
  | t => t

/-- Forms of parameters: `P`, `const P &`, `P &&` with `P` a template parameter. -/
inductive Mode where
  | val
  | cref
  | fwd
deriving DecidableEq

/-- A function parameter. -/
structure Param where
  mode : Mode
  pat : CT

/-- An argument. -/
structure Arg where
  cat : Cat
  ty : CT

/-- A binary function template; the guard stands for its `enable_if` parameters. -/
structure Fn (τ : Type) where
  tag : τ
  p1 : Param
  p2 : Param
  guard : Cat → Cat → Sub → Bool

variable {τ : Type} [DecidableEq τ]

/-- Deduction succeeds and the guard holds. -/
def Fn.viable (f : Fn τ) (a b : Arg) : Bool :=
  match (do deduce f.p2.pat b.ty (← deduce f.p1.pat a.ty [])) with
  | none => false
  | some σ => f.guard a.cat b.cat σ

/-- `p` binds the argument better than `q`: a forwarding reference against `const &`, except for a const lvalue ([over.ics.rank] 3.2.3, 3.2.6). -/
def Param.better (p q : Param) (c : Cat) : Bool :=
  decide (p.mode = .fwd) && decide (q.mode = .cref) && !decide (c = .constLvalue)

/-- The parameter `p` is at least as specialised as `q`, ignoring references. -/
def Param.asSpec (p q : Param) : Bool := (deduce q.pat (freeze p.pat) []).isSome

/-- `q` loses the tie between two references of the same type when it is `T &&` and `p` is `const T &` ([temp.deduct.partial] 9.1). -/
def Param.tie (p q : Param) : Bool :=
  decide (p.mode = .cref) && decide (q.mode = .fwd) && p.asSpec q && q.asSpec p

/-- The template `f` is at least as specialised as `g` ([temp.deduct.partial] 10). -/
def Fn.asSpec (f g : Fn τ) : Bool :=
  (do deduce g.p2.pat (freeze f.p2.pat) (← deduce g.p1.pat (freeze f.p1.pat) [])).isSome && !g.p1.tie f.p1 && !g.p2.tie f.p2

/-- `f` is a better candidate than `g` for the arguments ([over.match.best]). -/
def Fn.better (f g : Fn τ) (a b : Arg) : Bool :=
  let fb := f.p1.better g.p1 a.cat || f.p2.better g.p2 b.cat
  let gb := g.p1.better f.p1 a.cat || g.p2.better f.p2 b.cat
  !gb && (fb || (f.asSpec g && !g.asSpec f))

/-- Result of overload resolution. -/
inductive Outcome (τ : Type) where
  | none
  | ambiguous
  | sel (t : τ)
deriving DecidableEq

/-- The best of the viable functions ([over.match.best] 2). -/
def pick (v : List (Fn τ)) (a b : Arg) : Outcome τ :=
  match v with
  | [] => .none
  | _ => match v.find? fun f => v.all fun g => decide (g.tag = f.tag) || f.better g a b with
    | none => .ambiguous
    | some f => .sel f.tag

/-- The best viable function. -/
def resolve (l : List (Fn τ)) (a b : Arg) : Outcome τ := pick (l.filter fun f => f.viable a b) a b

/-! ### Traits -/

/-- `meta::is_iterable_v` (scicpp/core/meta.hpp:48-80) on the types of the model. -/
def isIterable : CT → Bool
  | .vec _ => true
  | _ => false

/-- `meta::is_complex_v` (scicpp/core/meta.hpp:24-41). -/
def isComplex : CT → Bool
  | .cplx _ => true
  | _ => false

/-- `units::is_quantity_v` (scicpp/core/units/quantity.hpp:81-102). -/
def isQuantity : CT → Bool
  | .qty _ _ _ _ => true
  | _ => false

/-- `operators::detail::enable_if_scalar` (scicpp/core/numeric.hpp:298-302). -/
def isScalar : CT → Bool
  | .num _ => true
  | .cplx _ => true
  | .qty _ _ _ _ => true
  | _ => false

/-- A predicate on a template parameter. -/
def on (n : ℕ) (p : CT → Bool) (σ : Sub) : Bool :=
  match σ.lookup n with
  | none => false
  | some t => p t

/-! ### The overloads -/

/-- Names of the overloads of `*` and `/`. -/
inductive Tag where
  | member                                            -- quantity::operator*, quantity::operator/
  | left | right                                      -- (T1 factor, quantity), (quantity, T2 factor)
  | ccSame | cc                                       -- (complex<quantity>, complex<quantity>)
  | nc | cn                                           -- (Tp, complex<quantity>), (complex<quantity>, Tp), Tp not a quantity
  | qc | cq                                           -- (Qty, complex<quantity>), (complex<quantity>, Qty)
  | qcSame | cqSame                                   -- the same with equal quantity types
  | stdCC | stdCN | stdNC                             -- the operators of <complex>
  | arrS | sArr | arrArr                              -- the operators of scicpp::operators
deriving DecidableEq

/-- The pattern `quantity<T1, Dim1, Scale1, Offset1>` with parameters numbered from `n`. -/
def qp (n : ℕ) : CT := .qty (.var n) (.var (n + 1)) (.var (n + 2)) (.var (n + 3))

/-- No guard. -/
def always : Cat → Cat → Sub → Bool := fun _ _ _ => true

/-- A guard on the deduced types. -/
def guardOn (g : Sub → Bool) : Cat → Cat → Sub → Bool := fun _ _ σ => g σ

/-- `const P &` and `P`. -/
def cref (p : CT) : Param := ⟨.cref, p⟩
/-- See `cref`. -/
def byval (p : CT) : Param := ⟨.val, p⟩
/-- `T &&`. -/
def fwd (p : CT) : Param := ⟨.fwd, p⟩

/-- The member template of the quantity on the left (scicpp/core/units/quantity.hpp:322-334): the implicit object parameter has the type of the
operand, the right operand the same representation type and the default offset. -/
def memberFn : CT → List (Fn Tag)
  | .qty t d s o => [⟨.member, cref (.qty t d s o), cref (.qty t (.var 0) (.var 1) (.off 0)), always⟩]
  | _ => []

/-- The operators of `<complex>`. -/
def stdFns : List (Fn Tag) :=
  [⟨.stdCC, cref (.cplx (.var 0)), cref (.cplx (.var 0)), always⟩,
   ⟨.stdCN, cref (.cplx (.var 0)), cref (.var 0), always⟩,
   ⟨.stdNC, cref (.var 0), cref (.cplx (.var 0)), always⟩]

/-- The templates for arrays (scicpp/core/numeric.hpp:417-433, 483-497, 521-531, 573-581), visible with `using namespace scicpp::operators`. -/
def arrFns : List (Fn Tag) :=
  [⟨.arrS, fwd (.var 0), byval (.var 1), guardOn fun σ => on 0 isIterable σ && on 1 isScalar σ⟩,
   ⟨.sArr, byval (.var 1), fwd (.var 0), guardOn fun σ => on 0 isIterable σ && on 1 isScalar σ⟩,
   ⟨.arrArr, fwd (.var 0), fwd (.var 1), guardOn fun σ => on 0 isIterable σ && on 1 isIterable σ⟩]

/-- The candidates for `a * b` (scicpp/core/units/quantity.hpp:322-327, 355-378, 544-659). -/
def mulFns (ops : Bool) (a : CT) : List (Fn Tag) :=
  memberFn a ++
  [⟨.left, byval (.var 4), cref (qp 0), guardOn fun σ => on 4 (fun t => !isIterable t) σ && on 4 (fun t => !isComplex t) σ⟩,
   ⟨.right, cref (qp 0), byval (.var 4), guardOn fun σ => on 4 (fun t => !isIterable t) σ && on 4 (fun t => !isComplex t) σ⟩,
   ⟨.ccSame, cref (.cplx (qp 0)), cref (.cplx (qp 0)), guardOn fun σ => on 0 (fun t => !isIterable t) σ⟩,
   ⟨.cc, cref (.cplx (qp 0)), cref (.cplx (qp 4)), guardOn fun σ => on 4 (fun t => !isIterable t) σ⟩,
   ⟨.nc, cref (.var 4), cref (.cplx (qp 0)), guardOn fun σ => on 4 (fun t => !isQuantity t) σ && on 0 (fun t => !isIterable t) σ⟩,
   ⟨.cn, cref (.cplx (qp 0)), cref (.var 4), guardOn fun σ => on 4 (fun t => !isQuantity t) σ && on 0 (fun t => !isIterable t) σ⟩,
   ⟨.qc, cref (.var 4), cref (.cplx (qp 0)), guardOn fun σ => on 4 isQuantity σ && on 0 (fun t => !isIterable t) σ⟩,
   ⟨.cq, cref (.cplx (qp 0)), cref (.var 4), guardOn fun σ => on 4 isQuantity σ && on 0 (fun t => !isIterable t) σ⟩,
   ⟨.qcSame, cref (qp 0), cref (.cplx (qp 0)), guardOn fun σ => on 0 (fun t => !isIterable t) σ⟩,
   ⟨.cqSame, cref (.cplx (qp 0)), cref (qp 0), guardOn fun σ => on 0 (fun t => !isIterable t) σ⟩]
  ++ stdFns ++ (if ops then arrFns else [])

/-- The candidates for `a / b` (scicpp/core/units/quantity.hpp:329-334, 380-401, 661-764). -/
def divFns (ops : Bool) (a : CT) : List (Fn Tag) :=
  memberFn a ++
  [⟨.left, byval (.var 4), cref (qp 0), guardOn fun σ => on 4 (fun t => !isIterable t) σ⟩,
   ⟨.right, cref (qp 0), byval (.var 4), guardOn fun σ => on 4 (fun t => !isIterable t) σ && on 4 (fun t => !isComplex t) σ⟩,
   ⟨.cn, cref (.cplx (qp 0)), cref (.var 4), guardOn fun σ => on 4 (fun t => !isQuantity t) σ && on 0 (fun t => !isIterable t) σ⟩,
   ⟨.nc, cref (.var 4), cref (.cplx (qp 0)), guardOn fun σ => on 4 (fun t => !isQuantity t) σ && on 0 (fun t => !isIterable t) σ⟩,
   ⟨.qcSame, cref (qp 0), cref (.cplx (qp 0)), guardOn fun σ => on 0 (fun t => !isIterable t) σ⟩,
   ⟨.cqSame, cref (.cplx (qp 0)), cref (qp 0), guardOn fun σ => on 0 (fun t => !isIterable t) σ⟩,
   ⟨.qc, cref (.var 4), cref (.cplx (qp 0)), guardOn fun σ => on 4 isQuantity σ && on 0 (fun t => !isIterable t) σ⟩,
   ⟨.ccSame, cref (.cplx (qp 0)), cref (.cplx (qp 0)), guardOn fun σ => on 0 (fun t => !isIterable t) σ⟩,
   ⟨.cc, cref (.cplx (qp 0)), cref (.cplx (qp 4)), guardOn fun σ => on 4 (fun t => !isIterable t) σ⟩]
  ++ stdFns ++ (if ops then arrFns else [])

/-! ### The types of `a * b` and `a / b` -/

/-- Operand types: arithmetic, `std::complex` of them, quantities, complex quantities, arrays. -/
inductive OT where
  | num (r : Rep)
  | cnum (r : Rep)
  | qty (r : Rep) (t : QTy)
  | cqty (r : Rep) (t : QTy)
  | vec (t : OT)
deriving DecidableEq

/-- `quantity<T, Dim, Scale, Offset>`. -/
def ctQty (r : Rep) (t : QTy) : CT := .qty (.num r) (.dim t.dim) (.sca t.scal) (.off t.off)

/-- The C++ type. -/
def OT.ct : OT → CT
  | .num r => .num r
  | .cnum r => .cplx (.num r)
  | .qty r t => ctQty r t
  | .cqty r t => .cplx (ctQty r t)
  | .vec t => .vec t.ct

/-- `std::complex<T>` of a result. -/
def toComplex : OT → Option OT
  | .num r => some (.cnum r)
  | .qty r t => some (.cqty r t)
  | _ => none

/-- The quantity type of an operand that is a quantity or a complex quantity. -/
def OT.unit? : OT → Option (Rep × QTy)
  | .qty r t => some (r, t)
  | .cqty r t => some (r, t)
  | _ => none

/-- The representation of the values of an operand that is not an array (`units::value`, scicpp/core/units/quantity.hpp:403-412). -/
def OT.valueOf : OT → Option OT
  | .num r => some (.num r)
  | .cnum r => some (.cnum r)
  | .qty r _ => some (.num r)
  | .cqty r _ => some (.cnum r)
  | .vec _ => none

/-- Products and quotients of numbers and complex numbers: the usual arithmetic conversions for two numbers; otherwise an operator of `<complex>`, which
needs the same representation type. -/
def numOp : OT → OT → Option OT
  | .num r, .num s => some (.num (r.common s))
  | .cnum r, .cnum s => if r = s then some (.cnum r) else none
  | .cnum r, .num s => if r = s then some (.cnum r) else none
  | .num r, .cnum s => if r = s then some (.cnum r) else none
  | _, _ => none

/-- The result of a type computation that may fail. -/
def ofRes {α : Type} : Res α → Option α
  | .ok x => some x
  | _ => none

/-- The body of the selected operator `*`; `M` types the products in it; `ops`: the operators on arrays are visible; `none`: does not compile
(scicpp/core/units/quantity.hpp:322-327, 355-378, 544-659, scicpp/core/numeric.hpp:417-433, 521-529). -/
def mulBody (M : Bool → Cat × OT → Cat × OT → Option OT) (ops : Bool) (a b : OT) : Outcome Tag → Option OT
  | .sel .member => do                                                                -- 322-327
    let (r, t) ← a.unit?
    let (_, u) ← b.unit?
    let w ← ofRes (tyMul t u)
    pure (.qty r w)
  | .sel .left => do                                                                  -- 362-366
    let (s, u) ← b.unit?
    match ← M ops (.rvalue, a) (.rvalue, .num s) with
    | .num r => pure (.qty r u)
    | _ => none
  | .sel .right => M ops (.lvalue, b) (.constLvalue, a)                              -- 375-378
  | .sel .ccSame => do                                                                -- 549-556
    let (r, t) ← a.unit?
    let (s, u) ← b.unit?
    let w ← M ops (.rvalue, .qty r t) (.rvalue, .qty s u)
    let _ ← numOp (.cnum s) (.cnum r)
    toComplex w
  | .sel .cc => do                                                                    -- 567-574
    let (r, t) ← a.unit?
    let (s, u) ← b.unit?
    let w ← M ops (.rvalue, .qty r t) (.rvalue, .qty s u)
    let _ ← numOp (.cnum s) (.cnum r)
    toComplex w
  | .sel .nc => do                                                                    -- 583-589
    let (s, u) ← b.unit?
    let _ ← numOp (.cnum s) a
    pure (.cqty s u)
  | .sel .cn => do                                                                    -- 597-603
    let (r, t) ← a.unit?
    let _ ← numOp (.cnum r) b
    pure (.cqty r t)
  | .sel .qc => do                                                                    -- 611-617
    let (r, t) ← a.unit?
    let (s, u) ← b.unit?
    let w ← M ops (.rvalue, .qty r t) (.rvalue, .qty s u)
    let _ ← numOp (.cnum s) (.num r)
    toComplex w
  | .sel .cq => do                                                                    -- 626-632: quantity_multiply<Qty, quantity<T1, ...>>
    let (r, t) ← a.unit?
    let (s, u) ← b.unit?
    let w ← M ops (.rvalue, .qty s u) (.rvalue, .qty r t)
    let _ ← numOp (.num s) (.cnum r)
    toComplex w
  | .sel .qcSame => do                                                                -- 639-645
    let (r, t) ← a.unit?
    let (s, u) ← b.unit?
    let w ← M ops (.rvalue, .qty r t) (.rvalue, .qty s u)
    let _ ← numOp (.cnum s) (.num r)
    toComplex w
  | .sel .cqSame => do                                                                -- 652-658
    let (r, t) ← a.unit?
    let (s, u) ← b.unit?
    let w ← M ops (.rvalue, .qty r t) (.rvalue, .qty s u)
    let _ ← numOp (.num s) (.cnum r)
    toComplex w
  | .sel .stdCC => numOp a b
  | .sel .stdCN => numOp a b
  | .sel .stdNC => numOp a b
  | .sel .arrS => match a with                                                        -- numeric.hpp:418-424: `scalar * v`; the operator for (scalar, array) is
    | .vec v => if isIterable v.ct then none else (M ops (.constLvalue, b) (.lvalue, v)).map .vec  -- declared after this one (426-432): it is not visible here
    | _ => none
  | .sel .sArr => match b with                                                        -- numeric.hpp:426-432
    | .vec v => (M ops (.constLvalue, a) (.lvalue, v)).map .vec
    | _ => none
  | .sel .arrArr => match a, b with                                                   -- numeric.hpp:521-529: std::multiplies<>, which does not see the operators
    | .vec v, .vec w => (M false (.rvalue, v) (.rvalue, w)).map .vec
    | _, _ => none
  | _ => none

/-- The built-in operators on arithmetic types. -/
def builtin : OT → OT → Option OT
  | .num r, .num s => some (.num (r.common s))
  | _, _ => none

/-- The type of `a * b`; `none`: does not compile.  `ops`: the operators on arrays are visible; `fuel` bounds the depth of nested calls
(scicpp/core/units/quantity.hpp:322-327, 355-378, 544-659, scicpp/core/numeric.hpp:417-433, 521-529). -/
def mulTy (ops : Bool) : ℕ → Cat × OT → Cat × OT → Option OT
  | 0, _, _ => none
  | fuel + 1, (ca, a), (cb, b) =>
    match builtin a b with
    | some t => some t
    | none => mulBody (fun o => mulTy o fuel) ops a b (resolve (mulFns ops a.ct) ⟨ca, a.ct⟩ ⟨cb, b.ct⟩)

/-- The body of the selected operator `/` (see `mulBody`; scicpp/core/units/quantity.hpp:329-334, 380-401, 661-764,
scicpp/core/numeric.hpp:483-497, 573-581). -/
def divBody (M D : Bool → Cat × OT → Cat × OT → Option OT) (ops : Bool) (a b : OT) : Outcome Tag → Option OT
  | .sel .member => do                                                                -- 329-334
    let (r, t) ← a.unit?
    let (_, u) ← b.unit?
    let w ← ofRes (tyDiv t u)
    pure (.qty r w)
  | .sel .left => do                                                                  -- 386-389: factor * rhs.inv()
    let (s, u) ← b.unit?
    let w ← ofRes (tyInv u)
    M ops (.lvalue, a) (.rvalue, .qty s w)
  | .sel .right => do                                                                 -- 398-401: rhs * (T2{1} / factor)
    let q ← D ops (.rvalue, b) (.lvalue, b)
    M ops (.constLvalue, a) (.rvalue, q)
  | .sel .cn => do                                                                    -- 670-675
    let (r, t) ← a.unit?
    let _ ← numOp (.cnum r) b
    pure (.cqty r t)
  | .sel .nc => do                                                                    -- 684-689
    let (s, u) ← b.unit?
    let _ ← numOp a (.cnum s)
    let w ← ofRes (tyInv u)
    pure (.cqty s w)
  | .sel .qcSame => do                                                                -- 696-702
    let (r, t) ← a.unit?
    let (s, u) ← b.unit?
    let w ← D ops (.rvalue, .qty r t) (.rvalue, .qty s u)
    let _ ← numOp (.num r) (.cnum s)
    toComplex w
  | .sel .cqSame => do                                                                -- 709-715
    let (r, t) ← a.unit?
    let (s, u) ← b.unit?
    let w ← D ops (.rvalue, .qty r t) (.rvalue, .qty s u)
    let _ ← numOp (.cnum r) (.num s)
    toComplex w
  | .sel .qc => do                                                                    -- 724-730
    let (r, t) ← a.unit?
    let (s, u) ← b.unit?
    let w ← D ops (.rvalue, .qty r t) (.rvalue, .qty s u)
    let _ ← numOp (.num r) (.cnum s)
    toComplex w
  | .sel .ccSame => do                                                                -- 737-744
    let (r, t) ← a.unit?
    let (s, u) ← b.unit?
    let w ← D ops (.rvalue, .qty r t) (.rvalue, .qty s u)
    let _ ← numOp (.cnum r) (.cnum s)
    toComplex w
  | .sel .cc => do                                                                    -- 755-762
    let (r, t) ← a.unit?
    let (s, u) ← b.unit?
    let w ← D ops (.rvalue, .qty r t) (.rvalue, .qty s u)
    let _ ← numOp (.cnum r) (.cnum s)
    toComplex w
  | .sel .stdCC => numOp a b
  | .sel .stdCN => numOp a b
  | .sel .stdNC => numOp a b
  | .sel .arrS => match a with                                                        -- numeric.hpp:483-488
    | .vec v => (D ops (.lvalue, v) (.constLvalue, b)).map .vec
    | _ => none
  | .sel .sArr => match b with                                                        -- numeric.hpp:490-496
    | .vec v => (D ops (.constLvalue, a) (.lvalue, v)).map .vec
    | _ => none
  | .sel .arrArr => match a, b with                                                   -- numeric.hpp:573-581
    | .vec v, .vec w => (D false (.rvalue, v) (.rvalue, w)).map .vec
    | _, _ => none
  | _ => none

/-- The type of `a / b` (see `mulTy`; scicpp/core/units/quantity.hpp:329-334, 380-401, 661-764, scicpp/core/numeric.hpp:483-497, 573-581). -/
def divTy (ops : Bool) : ℕ → Cat × OT → Cat × OT → Option OT
  | 0, _, _ => none
  | fuel + 1, (ca, a), (cb, b) =>
    match builtin a b with
    | some t => some t
    | none => divBody (fun o => mulTy o fuel) (fun o => divTy o fuel) ops a b (resolve (divFns ops a.ct) ⟨ca, a.ct⟩ ⟨cb, b.ct⟩)

/-! ### The overloads of the binary `map` -/

/-- Names of the overloads of `map(op, a1, a2)`: which argument's storage is reused. -/
inductive MapTag where
  | first
  | second
  | both
  | copy
deriving DecidableEq

/-- `map(op, a1, a2)` (scicpp/core/functional.hpp:64-127): `std::is_lvalue_reference_v<Array>` for a forwarding reference means that the argument is an
lvalue. -/
def mapFns : List (Fn MapTag) :=
  [⟨.first, fwd (.var 0), cref (.var 1), fun c _ _ => decide (c = .rvalue)⟩,
   ⟨.second, cref (.var 0), fwd (.var 1), fun _ d _ => decide (d = .rvalue)⟩,
   ⟨.both, fwd (.var 0), fwd (.var 1), fun c d _ => decide (c = .rvalue) && decide (d = .rvalue)⟩,
   ⟨.copy, cref (.var 0), cref (.var 1), fun _ _ _ => true⟩]

/-- The storage that `map(op, a1, a2)` writes, with the calls between the overloads (scicpp/core/functional.hpp:64-127); `same1`, `same2`: the result
type of `op` is the value type of the operand.  `none`: does not compile. -/
def mapDest (t1 t2 : CT) (same1 same2 : Bool) : ℕ → Cat → Cat → Option Dest
  | 0, _, _ => none
  | n + 1, c1, c2 => match resolve mapFns ⟨c1, t1⟩ ⟨c2, t2⟩ with
    | .sel .first => some (if same1 then .first else .fresh)                            -- 68-83
    | .sel .second => some (if same2 then .second else .fresh)                          -- 89-104
    | .sel .both => if same2 then mapDest t1 t2 same1 same2 n .lvalue .rvalue             -- 112-122
        else mapDest t1 t2 same1 same2 n .rvalue .lvalue
    | .sel .copy => (mapDest t1 t2 same1 same2 n .rvalue .constLvalue).map fun d =>     -- 125-127: the first operand is a temporary
        if d = .first then .fresh else d
    | _ => none

/-- The overloads of the unary `map`. -/
inductive Map1Tag where
  | forward
  | const
deriving DecidableEq

/-- `map(op, a)` (scicpp/core/functional.hpp:32-55); the second parameter is the operation. -/
def map1Fns : List (Fn Map1Tag) :=
  [⟨.forward, fwd (.var 0), byval (.var 1), always⟩,
   ⟨.const, cref (.var 0), byval (.var 1), always⟩]

end SciCpp.Ovl
