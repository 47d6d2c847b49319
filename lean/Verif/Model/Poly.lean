import Verif.Model.Loop
import Mathlib.Algebra.Field.Defs
import Mathlib.Data.List.Rotate
/-
  Model of scicpp/signal/convolve.hpp (direct method, correlate) and
  scicpp/polynomials/polynomial.hpp.
-/
namespace SciCpp

universe u
variable {R : Type u}

/-! ### scicpp/signal/convolve.hpp -/

/-- The value accumulated for output index `i` (convolve.hpp:45-50).  Simplification: the C++
accumulates in `res[i]`, the model in a local variable stored afterwards (no other location is
read meanwhile). -/
def convAt [Zero R] [Add R] [Mul R] (a v : List R) (i : Int) : Res R :=
  let n : Int := a.length
  let m : Int := v.length
  let jmn := if i ≥ m - 1 then i - (m - 1) else 0
  let jmx := if i < n - 1 then i else n - 1
  forUp jmn jmx (fun j acc => do
    let x ← rd a j
    let y ← rd v (i - j)
    pure (acc + x * y)) 0

/-- `detail::direct_convolve_impl` (convolve.hpp:33-52); `res` is the preallocated output. -/
def directConvolveImpl [Zero R] [Add R] [Mul R] (res a v : List R) : Res (List R) := do
  let n : Int := a.length
  let m : Int := v.length
  require ((res.length : Int) == n + m - 1)
  forUp 0 (n + m - 2) (fun i r => do
    let x ← convAt a v i
    wr r i x) res

/-- `detail::direct_convolve` (convolve.hpp:54-66 arrays, 68-81 vectors).  Both operands empty:
the size computation wraps to `SIZE_MAX` and the allocation throws (`ub` here). -/
def convolve [Zero R] [Add R] [Mul R] (a v : List R) : Res (List R) := do
  require (!(a.isEmpty && v.isEmpty))
  let res : List R := List.replicate (a.length + v.length - 1) 0
  if v.length ≤ a.length then directConvolveImpl res a v
  else directConvolveImpl res v a

/-- `correlate` (convolve.hpp:134-149); `conj` is `std::conj` for complex element types and the
identity otherwise. -/
def correlate [Semiring R] (conj : R → R) (a v : List R) : Res (List R) :=
  convolve a (v.reverse.map conj)

/-! ### scicpp/polynomials/polynomial.hpp -/

/-- The loop of `polyval` for a scalar argument (polynomial.hpp:42-52) over the reversed coefficients;
`fma` is `std::fma` of the element type. -/
def polyvalWith [Zero R] (fma : R → R → R → R) (x : R) (coeffs : List R) : R :=
  coeffs.reverse.foldl (fun res c => fma res x c) 0

/-- `polyval` for a scalar argument (polynomial.hpp:42-52) in exact arithmetic, where
`fma(a, b, c) = a * b + c`. -/
def polyval [Semiring R] (x : R) (coeffs : List R) : R := polyvalWith (fun a b c => a * b + c) x coeffs

/-- `polyval` for an iterable first argument (polynomial.hpp:38-40). -/
def polyvalMap [Semiring R] (xs : List R) (coeffs : List R) : List R :=
  xs.map (fun v => polyval v coeffs)

/-- `detail::add_arrays` and `polyadd` (polynomial.hpp:62-99).  The output is written by
`std::transform` then `std::copy`; the model concatenates the two parts. -/
def polyadd [Add R] (P1 P2 : List R) : List R :=
  if P1.length ≤ P2.length then
    List.zipWith (· + ·) P1 P2 ++ P2.drop P1.length
  else
    List.zipWith (· + ·) P2 P1 ++ P1.drop P2.length

/-- `detail::sub_arrays` and `polysub` (polynomial.hpp:107-148). -/
def polysub [Neg R] [Sub R] (P1 P2 : List R) : List R :=
  if P1.length ≤ P2.length then
    List.zipWith (· - ·) P1 P2 ++ (P2.drop P1.length).map (fun v => -v)
  else
    List.zipWith (fun v2 v1 => v1 - v2) P2 P1 ++ P1.drop P2.length

/-- `polymul` with the default `DIRECT` method (polynomial.hpp:154-163). -/
def polymul [Zero R] [Add R] [Mul R] (P1 P2 : List R) : Res (List R) := convolve P1 P2

/-- The inner loop of `polydiv_impl` (polynomial.hpp:187-189). -/
def polydivInner [Sub R] [Mul R] (v : List R) (n k : Int) (d : R) (tmp : List R) : Res (List R) :=
  forDown (n + k - 1) k (fun j t => do
    let x ← rd t j
    let y ← rd v (j - k)
    wr t j (x - d * y)) tmp

/-- `detail::polydiv_impl` (polynomial.hpp:174-193). -/
def polydivImpl [One R] [Sub R] [Mul R] [Div R] (u v : List R) : Res (List R) := do
  let m : Int := (u.length : Int) - 1
  let n : Int := (v.length : Int) - 1
  let lead ← rd v n
  let scale := 1 / lead
  forDown (m - n) 0 (fun k tmp => do
    let x ← rd tmp (n + k)
    let d := scale * x
    polydivInner v n k d tmp) u

/-- `polydiv` (polynomial.hpp:197-216 arrays, 218-240 vectors), returning (quotient, remainder). -/
def polydiv [Zero R] [One R] [Sub R] [Mul R] [Div R] (u v : List R) : Res (List R × List R) := do
  require (!u.isEmpty)
  require (!v.isEmpty)
  if v.length = 1 then do
    let c ← rd v 0
    pure (u.map (fun x => x / c), [0])
  else if u.length < v.length then
    pure ([0], u)
  else do
    let tmp ← polydivImpl u v
    pure (tmp.drop (v.length - 1), tmp.take (v.length - 1))

/-- `polymulx` for arrays and const vectors (polynomial.hpp:246-258). -/
def polymulx [Zero R] (P : List R) : List R := 0 :: P

/-- `polymulx(std::vector&&)` (polynomial.hpp:260-265): `push_back(0)` then rotate the reversed
sequence by one. -/
def polymulxMove [Zero R] (P : List R) : List R := (((P ++ [0]).reverse).rotate 1).reverse

/-- `polypow<pow>` for arrays (polynomial.hpp:275-289). -/
def polypowArr [Zero R] [One R] [Add R] [Mul R] (pow : Nat) (P : List R) : Res (List R) :=
  if pow = 0 then .ok [1]
  else if pow = 1 then .ok P
  else if pow % 2 = 0 then do
    let s ← polymul P P
    polypowArr (pow / 2) s
  else do
    let s ← polymul P P
    let r ← polypowArr ((pow - 1) / 2) s
    polymul P r
termination_by pow
decreasing_by all_goals omega

/-- The `while (pow > 1)` loop of vector `polypow` (polynomial.hpp:304-311); returns the final
`(x, y)`. -/
def polypowLoop [Zero R] [One R] [Add R] [Mul R] (pow : Nat) (x y : List R) : Res (List R × List R) :=
  if 1 < pow then do
    let y' ← if pow % 2 = 1 then polymul x y else pure y
    let x' ← polymul x x
    polypowLoop (pow / 2) x' y'
  else pure (x, y)
termination_by pow
decreasing_by omega

/-- `polypow` for vectors (polynomial.hpp:291-320).  An empty `P` makes `reserve` at 301 throw
(its argument wraps), which is `ub` here. -/
def polypowVec [Zero R] [One R] [Add R] [Mul R] (P : List R) (pow : Nat) : Res (List R) :=
  if pow = 0 then .ok [1]
  else if pow = 1 then .ok P
  else do
    require (!P.isEmpty)
    let (x, y) ← polypowLoop pow P [1]
    polymul x y

/-- `detail::polyder_once` (polynomial.hpp:328-350): `res[i] = (N-1-i) * P[i]`, `i < N-1`. -/
def polyderOnce [NatCast R] [Mul R] (P : List R) : Res (List R) := do
  require (!P.isEmpty)
  pure (P.dropLast.mapIdx (fun i c => ((P.length - 1 - i : ℕ) : R) * c))

/-- `while (m--) polyder_once(res)` (polynomial.hpp:386-388). -/
def polyderLoop [NatCast R] [Mul R] : Nat → List R → Res (List R)
  | 0, P => pure P
  | m + 1, P => do
    let P' ← polyderOnce P
    polyderLoop m P'

/-- `polyder` (polynomial.hpp:354-391). -/
def polyder [NatCast R] [Mul R] (P : List R) (m : Int := 1) : Res (List R) := do
  require (decide (0 ≤ m))
  if m = 0 then pure P
  else if m ≥ (P.length : Int) then pure []
  else polyderLoop m.toNat P

/-- `detail::polyint_once` (polynomial.hpp:399-420): `res[i+1] = P[i] / (i+1)`, `res[0] = 0`.  The
vector version does it in place from the back (415-419), which reads each `P[i]` before it is
overwritten. -/
def polyintOnce [Zero R] [NatCast R] [Div R] (P : List R) : List R :=
  0 :: P.mapIdx (fun i c => c / ((i + 1 : ℕ) : R))

/-- `while (m--) polyint_once(res)` (polynomial.hpp:453-455). -/
def polyintLoop [Zero R] [NatCast R] [Div R] : Nat → List R → List R
  | 0, P => P
  | m + 1, P => polyintLoop m (polyintOnce P)

/-- `polyint` (polynomial.hpp:424-458). -/
def polyint [Zero R] [NatCast R] [Div R] (P : List R) (m : Int := 1) : Res (List R) := do
  require (!P.isEmpty)
  require (decide (0 ≤ m))
  pure (polyintLoop m.toNat P)

/-- Entry `(i, j)` of `polycompanion(P)`, `deg = P.size() - 1 ≥ 1` (polynomial.hpp:464-482):
zero matrix, ones on the first subdiagonal, then the last column is overwritten with `-P/P[deg]`.
-/
def companionEntry [Field R] (P : List R) (i j : Nat) : R :=
  let deg := P.length - 1
  if j = deg - 1 then -(P.getD i 0) / P.getD deg 0
  else if i = j + 1 then 1
  else 0

/-- `polycompanion` (polynomial.hpp:464-482) as a list of rows; `col(deg - 1)` with `deg ≤ 0` is
out of range. -/
def polycompanion [Field R] (P : List R) : Res (List (List R)) := do
  let deg : Int := (P.length : Int) - 1
  require (decide (1 ≤ deg))
  pure ((List.range (P.length - 1)).map fun i =>
    (List.range (P.length - 1)).map fun j => companionEntry P i j)

/-- The loop `for i = 2 …` of `polyvander_filler` for one row (polynomial.hpp:506-508): each new
column is the previous one times column 1.  `n` more columns to produce, `prev` the last one. -/
def vanderRowLoop [Mul R] (x : R) : Nat → R → List R
  | 0, _ => []
  | n + 1, prev => (prev * x) :: vanderRowLoop x n (prev * x)

/-- `polyvander` (polynomial.hpp:499-526) as a list of rows.  `res.col(1)` needs at least two
columns. -/
def polyvander [One R] [Mul R] (x : List R) (deg : Int) : Res (List (List R)) := do
  require (decide (1 ≤ deg))
  pure (x.map fun xi => 1 :: xi :: vanderRowLoop xi (deg.toNat - 1) xi)

/-- `polytrim` (polynomial.hpp:546-556): drop the longest suffix of coefficients that are not
`> tol`; never return an empty array. -/
def polytrim [Zero R] [LT R] [DecidableLT R] (P : List R) (tol : R) : List R :=
  let kept := (P.reverse.dropWhile (fun c => !decide (tol < c))).reverse
  if kept.isEmpty then [0] else kept

/-! ### class Polynomial (polynomial.hpp:562-698) -/

/-- `size_type degree() const { return m_coef.size() - 1; }` (polynomial.hpp:583), in wrapping
64-bit unsigned arithmetic. -/
def polyDegree (P : List R) : Nat := (P.length + (2 ^ 64 - 1)) % 2 ^ 64

/-- `operator+=` (polynomial.hpp:595-616). -/
def polyAddAssign [Add R] (self rhs : List R) : Res (List R) :=
  if polyDegree rhs > polyDegree self then do
    require (decide (self.length ≤ rhs.length))
    pure (List.zipWith (· + ·) rhs self ++ rhs.drop self.length)
  else do
    require (decide (rhs.length ≤ self.length))
    pure (List.zipWith (· + ·) rhs self ++ self.drop rhs.length)

/-- `operator-=` (polynomial.hpp:618-637). -/
def polySubAssign [Neg R] [Sub R] (self rhs : List R) : Res (List R) :=
  if polyDegree rhs > polyDegree self then do
    require (decide (self.length ≤ rhs.length))
    pure (List.zipWith (· - ·) self rhs ++ (rhs.drop self.length).map (fun v => -v))
  else do
    require (decide (rhs.length ≤ self.length))
    pure (List.zipWith (· - ·) self rhs ++ self.drop rhs.length)

/-- `operator*=(T)` and `operator*(…, T)` (polynomial.hpp:639-645, 688-698). -/
def polyScale [Mul R] (P : List R) (c : R) : List R := P.map (fun x => x * c)

/-- `polyfromroots` loop body (polynomial.hpp:714-718): `P_ = P*r; P.mulx(); P -= P_`. -/
def fromRootsStep [Zero R] [Mul R] [Neg R] [Sub R] (P : List R) (r : R) : Res (List R) :=
  polySubAssign (polymulxMove P) (polyScale P r)

/-- `polyfromroots` (polynomial.hpp:705-721). -/
def polyfromroots [Zero R] [One R] [Mul R] [Neg R] [Sub R] (roots : List R) : Res (List R) :=
  let rec loop : List R → List R → Res (List R)
    | [], P => pure P
    | r :: rs, P => do
      let P' ← fromRootsStep P r
      loop rs P'
  loop roots [1]

end SciCpp
