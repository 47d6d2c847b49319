import Verif.Model.Functional
import Mathlib.Algebra.Field.Defs
/-
  Model of scicpp/core/numeric.hpp.

  Arithmetic is that of an abstract algebraic structure (exact arithmetic); rounding is
  treated separately (`roundedSum`).  NaN-related behaviour is modelled on `Fl`
  (Verif/Model/Fl.lean).
-/
namespace SciCpp

variable {α : Type*} {β : Type*} {γ : Type*}

/-! ### sum, prod -/

/-- `sum(first, last, filter)` (scicpp/core/numeric.hpp:29-32, 39-42): value and count. -/
def sumF [Add α] [Zero α] (integral : Bool) (l : List α) (p : α → Bool) : α × ℕ :=
  filterReduceAssoc integral l (· + ·) p 0

/-- `sum(f)` (scicpp/core/numeric.hpp:34-37, 44-47). -/
def sum [Add α] [Zero α] (integral : Bool) (l : List α) : α := (sumF integral l fun _ => true).1

/-- `prod(first, last, filter)` (scicpp/core/numeric.hpp:58-63, 70-73). -/
def prodF [Mul α] [One α] (integral : Bool) (l : List α) (p : α → Bool) : α × ℕ :=
  filterReduceAssoc integral l (· * ·) p 1

/-- `prod(f)` (scicpp/core/numeric.hpp:65-68, 75-78). -/
def prod [Mul α] [One α] (integral : Bool) (l : List α) : α := (prodF integral l fun _ => true).1

/-- `sum` on floating point data where each machine addition is `rnd (a + b)`
(scicpp/core/numeric.hpp:29-32 with `std::plus<>` rounding every result). -/
def roundedSum [Add α] [Zero α] (rnd : α → α) (l : List α) (p : α → Bool) : α × ℕ :=
  filterReduceAssoc false l (fun a b => rnd (a + b)) p 0

/-! ### cumsum, cumprod -/

/-- `cumsum(Array&&)` / `cumsum(const Array&)` (scicpp/core/numeric.hpp:89-98), and with
`op = *` `cumprod` (109-118): result and contents of the argument afterwards.
A non-const lvalue selects the forwarding overload, is overwritten in place and moved from. -/
def cumOp (cat : Cat) (c : Cont) (op : α → α → α) (a : List α) : List α × List α :=
  match cat with
  | .constLvalue => (partialSum op a, a)
  | .lvalue | .rvalue => let a' := partialSum op a; (a', movedFrom c a')

/-- `nancumsum` / `nancumprod` (scicpp/core/numeric.hpp:100-103, 120-123); `p` is the filter
(`not_nan` in the code). -/
def nancumOp (op : α → α → α) (p : α → Bool) (a : List α) : List α := cumacc a op p

/-! ### trapz -/

/-- `trapz(first, last, dx)` (scicpp/core/numeric.hpp:132-143).  With one sample,
`sum(first + 1, last - 1)` is called on a range whose begin lies one past its end: the loop
`first != last` dereferences past the end, hence `ub`. -/
def trapz [Zero α] [One α] [NatCast α] [Add α] [Mul α] [Div α] (integral : Bool) (f : List α) (dx : α) : Res α :=
  match f with
  | [] => .ok 0
  | [_] => .ub
  | x :: y :: r =>
      let mid := (y :: r).dropLast                        -- [first+1, last-1)
      let last := (y :: r).getLast (by simp)              -- *(last-1)
      .ok (1 / 2 * dx * (x + 2 * sum integral mid + last))

/-! ### diff -/

/-- Loop of `std::adjacent_difference`. -/
def adjDiffLoop [Sub α] (prev : α) : List α → List α
  | [] => []
  | y :: ys => (y - prev) :: adjDiffLoop y ys

/-- `std::adjacent_difference(first, last, out)`: `out[0] = in[0]`, `out[i] = in[i] - in[i-1]`. -/
def adjDiff [Sub α] : List α → List α
  | [] => []
  | x :: xs => x :: adjDiffLoop x xs

/-- `detail::diff_once(std::vector&)` (scicpp/core/numeric.hpp:168-173). -/
def diffOnceVec [Sub α] (res : List α) : Res (List α) := do
  let _ ← require (!res.isEmpty)
  return (adjDiff res).tail

/-- `detail::diff_once(const std::array&)` (scicpp/core/numeric.hpp:156-166):
`adjacent_difference` on `[a+1, end)`, then `res[0]` is overwritten. -/
def diffOnceArr [Sub α] (a : List α) : List α :=
  match a with
  | [] => []
  | [_] => []
  | a0 :: a1 :: r => (adjDiff (a1 :: r)).set 0 (a1 - a0)

/-- Loop `while (n-- && !a.empty()) diff_once(a)` (scicpp/core/numeric.hpp:197-199). -/
def diffVecLoop [Sub α] : ℕ → List α → Res (List α)
  | 0, a => .ok a
  | n + 1, a => if a.isEmpty then .ok a else diffOnceVec a >>= diffVecLoop n

/-- `diff(std::vector, n)` (scicpp/core/numeric.hpp:193-207). -/
def diffVec [Sub α] (a : List α) (n : ℤ) : Res (List α) := do
  let _ ← require (decide (0 ≤ n))
  diffVecLoop n.toNat a

/-- `diff<n>(std::array)` (scicpp/core/numeric.hpp:177-191). -/
def diffArr [Sub α] : ℕ → List α → List α
  | 0, a => a
  | n + 1, a => diffArr n (diffOnceArr a)

/-! ### inner, dot, vdot -/

/-- The block loop of `inner` (scicpp/core/numeric.hpp:229-237). -/
def innerLoop [Add γ] (op : α → β → γ) (res : γ) : List α → List β → Res γ
  | [], _ => .ok res
  | _ :: _, [] => .ub
  | x :: xs, y :: ys => innerLoop op (res + op x y) xs ys

/-- `inner(first1, last1, first2, last2, op)` (scicpp/core/numeric.hpp:213-239). -/
def innerOp [Add γ] [Zero γ] (op : α → β → γ) (a : List α) (b : List β) : Res γ :=
  pairwiseAcc2 pwBlock (innerLoop op 0) (· + ·) a b

/-- `inner(a1, a2)`, `dot(a1, a2)` (scicpp/core/numeric.hpp:241-258). -/
def inner [Add α] [Zero α] [Mul α] (a b : List α) : Res α := innerOp (· * ·) a b

/-- `vdot(a1, a2)` (scicpp/core/numeric.hpp:260-275); `conj` is `std::conj` for complex elements
and the identity for real ones (264-268). -/
def vdot [Add α] [Zero α] [Mul α] (conj : α → α) (a b : List α) : Res α :=
  innerOp (fun x y => conj x * y) a b

/-! ### comparisons -/

/-- Element comparisons `u < v` and `u == v` of the element type as Booleans. -/
structure Cmp (α : Type*) where
  lt : α → α → Bool
  eq : α → α → Bool

/-- `equal` (scicpp/core/numeric.hpp:609-613). -/
def equalA (c : Cmp α) (a b : List α) : Res (List Bool) := map2 c.eq a b
/-- `not_equal` (scicpp/core/numeric.hpp:619-622): `!equal(a, b)`. -/
def notEqualA (c : Cmp α) (a b : List α) : Res (List Bool) := (·.map (!·)) <$> equalA c a b
/-- `less` (scicpp/core/numeric.hpp:628-632). -/
def lessA (c : Cmp α) (a b : List α) : Res (List Bool) := map2 c.lt a b
/-- `less_equal` (scicpp/core/numeric.hpp:638-641): `!less(b, a)`. -/
def lessEqualA (c : Cmp α) (a b : List α) : Res (List Bool) := (·.map (!·)) <$> lessA c b a
/-- `greater_equal` (scicpp/core/numeric.hpp:647-650): `!less(a, b)`. -/
def greaterEqualA (c : Cmp α) (a b : List α) : Res (List Bool) := (·.map (!·)) <$> lessA c a b
/-- `greater` (scicpp/core/numeric.hpp:656-658): `less(b, a)`. -/
def greaterA (c : Cmp α) (a b : List α) : Res (List Bool) := lessA c b a

/-- The array-scalar operators `==, !=, <, <=, >, >=` (scicpp/core/numeric.hpp:320-415);
`arrS`: array on the left; `sArr`: scalar on the left. -/
inductive CmpOp where
  | eq | ne | lt | le | gt | ge
deriving DecidableEq, Repr

/-- `a ⊙ scalar` (scicpp/core/numeric.hpp:325-327, 341-343, 357-359, 365-367, 389-391, 405-407). -/
def cmpArrScalar (c : Cmp α) (o : CmpOp) (a : List α) (s : α) : List Bool :=
  match o with
  | .eq => a.map (fun v => c.eq v s)
  | .ne => (a.map (fun v => c.eq v s)).map (!·)
  | .lt => a.map (fun v => c.lt v s)
  | .ge => (a.map (fun v => c.lt v s)).map (!·)
  | .le => (a.map (fun v => c.lt s v)).map (!·)
  | .gt => ((a.map (fun v => c.lt s v)).map (!·)).map (!·)

/-- `scalar ⊙ a` (scicpp/core/numeric.hpp:333-335, 349-351, 373-375, 381-383, 397-399, 413-415). -/
def cmpScalarArr (c : Cmp α) (o : CmpOp) (s : α) (a : List α) : List Bool :=
  match o with
  | .eq => a.map (fun v => c.eq v s)
  | .ne => (a.map (fun v => c.eq v s)).map (!·)
  | .lt => a.map (fun v => c.lt s v)
  | .ge => (a.map (fun v => c.lt s v)).map (!·)
  | .le => (a.map (fun v => c.lt v s)).map (!·)
  | .gt => ((a.map (fun v => c.lt v s)).map (!·)).map (!·)

/-! ### mask -/

/-- Loop of `mask(const Array&, const Mask&)` (scicpp/core/numeric.hpp:672-676). -/
def maskLoop (res : List α) : List α → List Bool → List α
  | x :: xs, b :: bs => maskLoop (if b then res ++ [x] else res) xs bs
  | _, _ => res

/-- `mask(const Array&, const Mask&)` (scicpp/core/numeric.hpp:664-679). -/
def maskConst (a : List α) (m : List Bool) : Res (List α) := do
  let _ ← require (a.length == m.length)
  return maskLoop [] a m

/-- Loop of `mask(std::vector<T>&&, m)` (scicpp/core/numeric.hpp:686-693): reads `a[i]` from the
array it is overwriting at `idx`.  `fuel` is `a.size() - i`.  Subscripts out of range are `ub`. -/
def maskInplaceLoop (m : List Bool) : ℕ → ℕ → ℕ → List α → Res (ℕ × List α)
  | 0, _, idx, a => .ok (idx, a)
  | fuel + 1, i, idx, a =>
      match m[i]?, a[i]? with
      | some b, some x =>
          if b then
            if idx < a.length then maskInplaceLoop m fuel (i + 1) (idx + 1) (a.set idx x) else .ub
          else maskInplaceLoop m fuel (i + 1) idx a
      | _, _ => .ub

/-- `mask(std::vector<T>&&, m)` and `mask_array` (scicpp/core/numeric.hpp:681-705);
`a.resize(idx)` shrinks. -/
def maskRvalue (a : List α) (m : List Bool) : Res (List α) := do
  let _ ← require (a.length == m.length)
  match maskInplaceLoop m a.length 0 0 a with
  | .ok (idx, a') => return a'.take idx
  | .ub => .ub

/-! ### argmin / argmax -/

/-- The skip loop `while (!filter(*it)) { require(it != last); ++it; }`
(scicpp/core/numeric.hpp:725-728).  Returns the offset, value and rest of the first accepted
element; running off the end dereferences `*last`: `ub`. -/
def argSkip (p : α → Bool) (i : ℕ) : List α → Res (ℕ × α × List α)
  | [] => .ub
  | x :: xs => if p x then .ok (i, x, xs) else argSkip p (i + 1) xs

/-- The scanning loop (scicpp/core/numeric.hpp:738-743). -/
def argLoop (p : α → Bool) (cmp : α → α → Bool) (i : ℕ) (max : α) (idx : ℕ) : List α → ℕ
  | [] => idx
  | x :: xs => if p x && cmp x max then argLoop p cmp (i + 1) x i xs
               else argLoop p cmp (i + 1) max idx xs

/-- `detail::argcmp` (scicpp/core/numeric.hpp:713-746).  Note line 734: `idx` starts at `0`,
not at the offset of the first accepted element. -/
def argcmp (l : List α) (p : α → Bool) (cmp : α → α → Bool) : Res ℕ := do
  let _ ← require (!l.isEmpty)
  match argSkip p 0 l with
  | .ub => .ub
  | .ok (i, x, rest) =>
      if rest.length = 0 then return i              -- 730-732: distance(it, last) == 1
      else return argLoop p cmp (i + 1) x 0 rest    -- 734-745

/-- `argmax(a, filter)` (scicpp/core/numeric.hpp:752-772), `gt u v` is `u > v`. -/
def argmax (gt : α → α → Bool) (l : List α) (p : α → Bool) : Res ℕ := argcmp l p gt

/-- `argmin(a, filter)` (scicpp/core/numeric.hpp:776-796). -/
def argmin (lt : α → α → Bool) (l : List α) (p : α → Bool) : Res ℕ := argcmp l p lt

/-! ### argwhere -/

/-- Loop of `argwhere` (scicpp/core/numeric.hpp:812-816). -/
def argwhereLoop (p : α → Bool) (i : ℕ) (res : List ℕ) : List α → List ℕ
  | [] => res
  | x :: xs => argwhereLoop p (i + 1) (if p x then res ++ [i] else res) xs

/-- `argwhere(a, filter)`, `nonzero(a)` (scicpp/core/numeric.hpp:802-829). -/
def argwhere (l : List α) (p : α → Bool) : List ℕ := argwhereLoop p 0 [] l

end SciCpp
