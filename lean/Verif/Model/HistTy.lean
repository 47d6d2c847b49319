import Verif.Model.OverloadAdd
import Verif.Model.QStats
import Verif.Model.Gmean
/-
  Element types of `lerp`, `quantile`, `iqr`, `histogram_bin_edges` and `histogram` (scicpp/core/maths.hpp, stats.hpp, range.hpp, histogram.hpp), computed through
  the overload resolution of the operators.  `none`: the program does not compile.  A function with a deduced return type compiles only if its return statements
  that are not discarded have one type.
-/
namespace SciCpp
open Ovl

/-- The operators on values that are not arrays: a sum. -/
def addS (a b : OT) : Option OT := addTy 10 3 (.rvalue, a) (.rvalue, b)
/-- A difference. -/
def subS (a b : OT) : Option OT := subTy 10 3 (.rvalue, a) (.rvalue, b)
/-- A product. -/
def mulST (a b : OT) : Option OT := mulTy true 10 (.rvalue, a) (.rvalue, b)
/-- A quotient. -/
def divST (a b : OT) : Option OT := divTy true 10 (.rvalue, a) (.rvalue, b)
/-- A comparison that yields one `bool`. -/
def cmpS (op : Ovl.Cmp) (a b : OT) : Option Unit :=
  match cmpTy 10 12 op (.rvalue, a) (.rvalue, b) with
  | some 0 => some ()
  | _ => none

/-- Return statements of types `a` and `b` in a function with a deduced return type. -/
def sameRet (a b : OT) : Option OT := if a = b then some a else none

/-- The type of `c ? x : y`: equal types, or arithmetic types.  Two different quantity types that can be compared have the same representation type; for a floating
point one each converts to the other (scicpp/core/units/quantity.hpp:160-194), which is ambiguous. -/
def condTy : OT → OT → Option OT
  | .num r, .num s => some (.num (r.common s))
  | a, b => if a = b then some a else none

/-- `static_cast<ret_t>(b)` from a type `b` to `r`: arithmetic types, or quantities of one dimension (scicpp/core/units/quantity.hpp:132-155, 184-194). -/
def castTy : OT → OT → Option Unit
  | .num _, .num _ => some ()
  | .qty _ t, .qty _ u => if t.dim = u.dim then some () else none
  | _, _ => none

/-- `lerp(a, b, t)` for `a`, `b` of type `a` and `t` of type `t` (scicpp/core/maths.hpp:177-199). -/
def lerpTy (a t : OT) : Option OT := do
  cmpS .le a a                                                        -- 181
  cmpS .ge a a
  let tb ← mulST t a                                                  -- 182
  let u ← subS t t
  let ua ← mulST u a
  let r1 ← addS tb ua
  cmpS .eq t t                                                        -- 187
  let ret ← mulST a t                                                 -- 179
  castTy a ret                                                        -- 188
  let d ← subS a a                                                    -- 192
  let td ← mulST t d
  let x ← addS ret td
  cmpS .gt t t                                                        -- 194
  cmpS .gt a a
  cmpS .lt a x                                                        -- 195
  let c1 ← condTy x a
  cmpS .lt x a                                                        -- 197
  let c2 ← condTy x a
  let r2 ← sameRet r1 ret
  let r3 ← sameRet r2 c1
  sameRet r3 c2

/-- `std::conditional_t<std::is_integral_v<T>, double, T>` (scicpp/core/stats.hpp:175, scicpp/core/histogram.hpp:38, 83, 106). -/
def floatTy : OT → OT
  | .num .int => .num .double
  | a => a

/-- `detail::quantile_inplace<interpolation>(first, last, q)` for elements of type `a` and `q` of the floating point type `q` (scicpp/core/stats.hpp:169-203), and
`quantile` (211-247), which forward to it.  `std::floor(h_low)` of an integer is a `double`. -/
def quantileTy (q : Rep) (a : OT) : Option OT := do
  let ret := floatTy a
  cmpS .lt a a                                                        -- 193, 198, 199
  let t ← subS (.num q) (.num .double)                                -- 201
  let l ← lerpTy a t
  sameRet ret l

/-- `percentile` (scicpp/core/stats.hpp:249-276): `p / 100.`. -/
def percentileTy (p : Rep) (a : OT) : Option OT := do
  match ← divST (.num p) (.num .double) with
  | .num q => quantileTy q a
  | _ => none

/-- `iqr` (scicpp/core/stats.hpp:278-290). -/
def iqrTy (a : OT) : Option OT := do
  let p ← percentileTy .double a
  subS p p

/-- `ptp` (scicpp/core/stats.hpp:65-73). -/
def ptpOT (a : OT) : Option OT := do
  cmpS .lt a a
  let d ← subS a a
  sameRet a d

/-- `std(x)` (scicpp/core/stats.hpp:509-518): `units::sqrt` of the variance; for integers the variance is an integer and `std::sqrt` of it a `double`.  For
quantities: `stdTy` (Verif/Model/QStats.lean). -/
def stdOT : OT → Option OT
  | .num .int => some (.num .double)
  | .num r => some (.num r)
  | .qty r t => (ofRes (stdTy t)).map (.qty r)
  | _ => none

/-- `skew(x)` (scicpp/core/stats.hpp:636-641): an integer divided by the `std::sqrt` of an integer is a `double`. -/
def skewOT : OT → Option OT
  | .num .int => some (.num .double)
  | .num r => some (.num r)
  | .qty r t => (ofRes (skewTy t)).map (.qty r)
  | _ => none

/-- `units::representation_t<ret_t>` (scicpp/core/histogram.hpp:39). -/
def rawTy : OT → Option Rep
  | .num .int => some .double
  | .num r => some r
  | .qty r _ => some r
  | _ => none

/-- `detail::bin_width<method>(x)` (scicpp/core/histogram.hpp:33-78).  `x.size()` is an integer: its `sqrt`, `cbrt` and `log2` are `double`. -/
def binWidthTy : BinMethod → OT → Option OT
  | .sqrt, a => do                                                    -- 43
    let p ← ptpOT a
    divST p (.num .double)
  | .scott, a => do                                                   -- 45
    let r ← rawTy a
    let s ← stdOT a
    mulST (.num r) s
  | .rice, a => do                                                    -- 47
    let r ← rawTy a
    let p ← ptpOT a
    let m ← mulST (.num r) p
    divST m (.num .double)
  | .sturges, a => do                                                 -- 49
    let p ← ptpOT a
    divST p (.num .double)
  | .fd, a => do                                                      -- 52
    let r ← rawTy a
    let i ← iqrTy a
    let m ← mulST (.num r) i
    divST m (.num .double)
  | .doane, a => do                                                   -- 54-68
    let r ← rawTy a
    let _ ← skewOT a
    let d ← addS (.num r) (.num .double)
    let p ← ptpOT a
    let w ← divST p d
    sameRet (floatTy a) w
  | .auto, a => do                                                    -- 69-77
    let f ← binWidthTy .fd a
    let s ← binWidthTy .sturges a
    sameRet f s                                                       -- 73, 76 (`units::fmin` needs one type: scicpp/core/units/maths.hpp:77-80)
termination_by m _ => if m = .auto then 1 else 0
decreasing_by all_goals simp

/-- `linspace(start, stop, num)` for ends of type `a` (scicpp/core/range.hpp:101-130). -/
def linspaceTy (a : OT) : Option OT := do
  let r ← rawTy a
  let _ ← subS a a                                                    -- 116
  let m ← mulTy true 10 (.rvalue, .vec a) (.constLvalue, .num r)      -- 117
  let s ← addTy 10 3 (.lvalue, a) (.rvalue, m)
  sameRet (.vec a) s

/-- `detail::outer_edges(x)` (scicpp/core/histogram.hpp:80-99). -/
def outerEdgesTy (a : OT) : Option OT := do
  cmpS .lt a a
  castTy a (floatTy a)
  pure (floatTy a)

/-- `histogram_bin_edges<method>(x)` (scicpp/core/histogram.hpp:103-123): the type of the edges. -/
def edgesTy (m : BinMethod) (a : OT) : Option OT := do
  let e ← outerEdgesTy a
  let w ← binWidthTy m a
  let d ← subS e e                                                    -- 121
  let _ ← divST d w
  linspaceTy e

/-- `histogram_bin_edges(x, nbins)` (scicpp/core/histogram.hpp:125-129). -/
def edgesNTy (a : OT) : Option OT := do
  let e ← outerEdgesTy a
  linspaceTy e

/-- `histogram<density, use_uniform_bins>(x, bins)` for elements of type `a` (scicpp/core/histogram.hpp:141-224): the type of the elements of the result.
`signed_size_t` is an integer type. -/
def histTy (density uniform : Bool) (a : OT) : Option OT := do
  let T := floatTy a
  cmpS .lt T T                                                        -- 164
  if uniform then
    let step ← subS T T                                               -- 172
    cmpS .gt step T                                                   -- 173
    let d ← subS T T                                                  -- 176
    let _ ← divST d step
  else
    cmpS .lt a T                                                      -- 195-196
  if density then
    let e ← (match T with                                             -- 153-157
      | .qty r t => (ofRes (tyInv t)).map (.qty r)
      | x => some x)
    let _ ← subS T T                                                  -- `diff`, scicpp/core/numeric.hpp:168-173, 193-207
    let m ← mulTy true 10 (.rvalue, .num .int) (.rvalue, .vec T)      -- 221
    let r ← divTy true 10 (.rvalue, .vec (.num .int)) (.rvalue, m)
    match ← sameRet (.vec e) r with
    | .vec x => some x
    | _ => none
  else pure (.num .int)

end SciCpp
