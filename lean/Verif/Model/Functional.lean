import Verif.Model.Base
import Mathlib.Data.List.Basic
/-
  Model of scicpp/core/functional.hpp.

  A half-open iterator range `[first, last)` is the list of the values it visits.
  `signed_size_t` counters are `ℕ` (they only count up from 0).
-/
namespace SciCpp

variable {α : Type*} {β : Type*} {γ : Type*}

/-! ### map -/

/-- The state of the argument object after `return std::move(a)` from an lvalue/rvalue `a` whose
contents were `l`: a moved-from `std::vector` is empty ([vector.cons]); a `std::array` of
arithmetic elements keeps its contents.  Used by scicpp/core/functional.hpp:39, 77, 98. -/
def movedFrom : Cont → List α → List α
  | .vec, _ => []
  | .arr, l => l

/-- `map(UnaryOp op, Array &&a)` with `InputType == ReturnType`
(scicpp/core/functional.hpp:33-39) and `map(UnaryOp op, const Array &a)` (47-55).
Overload resolution: a const lvalue selects the `const Array&` overload, a non-const lvalue *and*
an rvalue select the forwarding overload, which transforms in place and moves out.
Returns the result and the contents of the argument object after the call. -/
def mapUnarySame (cat : Cat) (c : Cont) (op : α → α) (a : List α) : List α × List α :=
  match cat with
  | .constLvalue => (a.map op, a)                 -- 52-54: fresh `res`
  | .lvalue | .rvalue =>
      let a' := a.map op                          -- 38: transform in place
      (a', movedFrom c a')                        -- 39: return std::move(a)

/-- `map(UnaryOp op, Array &&a)` with `InputType != ReturnType`
(scicpp/core/functional.hpp:40-44; const overload 47-55): always a fresh result. -/
def mapUnaryDiff (_cat : Cat) (op : α → β) (a : List α) : List β × List α :=
  (a.map op, a)

/-- `std::transform(a1.cbegin(), a1.cend(), a2.cbegin(), out, op)`: walks `a1`, reading `a2` in
lock step; running off the end of `a2` is UB.  Simplification: the output range is a fresh list
(the in-place uses write index `i` only after reading index `i` of both inputs). -/
def transform2 (op : α → β → γ) : List α → List β → Res (List γ)
  | [], _ => .ok []
  | _ :: _, [] => .ub
  | x :: xs, y :: ys => (transform2 op xs ys) >>= fun r => .ok (op x y :: r)

/-- Which operand storage the binary `map` overload writes into. -/
inductive Dest where
  | first | second | fresh
deriving DecidableEq, Repr

/-- Overload selection of the binary `map` (scicpp/core/functional.hpp:64-127).
`same1`/`same2` say whether the operation's return type is the value type of the first/second
operand.  Lvalue operands (const or not) are excluded from the `&&` overloads by the
`enable_if_t<!std::is_lvalue_reference_v<..>>` guards (67, 88, 109-111). -/
def mapBinaryDest (cat1 cat2 : Cat) (same1 same2 : Bool) : Dest :=
  match cat1, cat2 with
  | .rvalue, .rvalue =>                                    -- 112-122
      if same2 then .second                                --   117-118 → 89-98
      else if same1 then .first                            --   119-120 → 68-77
      else .fresh
  | .rvalue, _ => if same1 then .first else .fresh         -- 68-83
  | _, .rvalue => if same2 then .second else .fresh        -- 89-104
  | _, _ => .fresh                                         -- 125-127: map(op, Array1(a1), a2)

/-- Binary `map` (scicpp/core/functional.hpp:64-127): result and the operand objects afterwards.
All four overloads check `a1.size() == a2.size()` (73, 94) and compute `op(a1[i], a2[i])`. -/
def mapBinary (cat1 cat2 : Cat) (c1 c2 : Cont) (op : α → α → α) (same1 same2 : Bool)
    (a1 a2 : List α) : Res (List α × List α × List α) := do
  let _ ← require (a1.length == a2.length)
  let r ← transform2 op a1 a2
  match mapBinaryDest cat1 cat2 same1 same2 with
  | .first => return (r, movedFrom c1 r, a2)
  | .second => return (r, a1, movedFrom c2 r)
  | .fresh => return (r, a1, a2)

/-- Binary `map` as a pure function of the operand contents
(scicpp/core/functional.hpp:73-81, 94-102): the size check, then the transform. -/
def map2 (op : α → β → γ) (a1 : List α) (a2 : List β) : Res (List γ) :=
  if a1.length = a2.length then transform2 op a1 a2 else .ub

/-! ### filter -/

/-- In-place compaction loop of `std::remove_if(first, last, !p)`
(called at scicpp/core/functional.hpp:212-213).  `done` is the part of the array already
overwritten with kept elements, `rest` the part still to be read; returns the kept prefix.
The remaining tail is dropped by `a.erase(i, a.end())` (214). -/
def removeIfLoop (p : α → Bool) (done : List α) : List α → List α
  | [] => done
  | x :: xs => if p x then removeIfLoop p (done ++ [x]) xs else removeIfLoop p done xs

/-- `filter(std::vector<T>&&, p)` and `filter(const Array&, p)`
(scicpp/core/functional.hpp:208-221). -/
def filterArr (a : List α) (p : α → Bool) : List α := removeIfLoop p [] a

/-- `filters::Trim::operator()` (scicpp/core/functional.hpp:194-197), on an ordered type. -/
def trimFilter [LT α] [LE α] [DecidableRel (α := α) (· < ·)] [DecidableRel (α := α) (· ≤ ·)]
    (lo hi : α) (inclLo inclHi : Bool) (x : α) : Bool :=
  (if inclLo then decide (lo ≤ x) else decide (lo < x)) &&
  (if inclHi then decide (x ≤ hi) else decide (x < hi))

/-! ### filter_reduce, reduce -/

/-- Loop body of `filter_reduce` (scicpp/core/functional.hpp:236-245): running value and count. -/
def filterReduceLoop (op : β → α → β) (p : α → Bool) (acc : β) (cnt : ℕ) : List α → β × ℕ
  | [] => (acc, cnt)
  | x :: xs => if p x then filterReduceLoop op p (op acc x) (cnt + 1) xs
               else filterReduceLoop op p acc cnt xs

/-- `filter_reduce(first, last, op, init, filter)` (scicpp/core/functional.hpp:227-252). -/
def filterReduce (l : List α) (op : β → α → β) (init : β) (p : α → Bool) : β × ℕ :=
  filterReduceLoop op p init 0 l

/-- `reduce(a, op, init)` (scicpp/core/functional.hpp:258-262). -/
def reduceArr (l : List α) (op : β → α → β) (init : β) : β × ℕ :=
  filterReduce l op init (fun _ => true)

/-! ### pairwise_accumulate -/

/-- `pairwise_accumulate<B>(first, last, accop, combop)` (scicpp/core/functional.hpp:284-302).
`B` is the template parameter `PW_BLOCKSIZE`; every use in the code has `B = 64`
(functional.hpp:359, numeric.hpp:224, stats.hpp:401).  `B = 0` would recurse for ever and is
excluded by `[NeZero B]`. -/
def pairwiseAcc (B : ℕ) [NeZero B] (accop : List α → β) (comb : β → β → β) (l : List α) : β :=
  if l.length ≤ B then accop l
  else comb (pairwiseAcc B accop comb (l.take (l.length / 2)))
            (pairwiseAcc B accop comb (l.drop (l.length / 2)))
termination_by l.length
decreasing_by
  all_goals
    have := Nat.pos_of_ne_zero (NeZero.ne B)
    simp only [List.length_take, List.length_drop]
    omega

/-- Two-range `pairwise_accumulate<B>` (scicpp/core/functional.hpp:304-334), with the size
precondition (316) checked at every level. -/
def pairwiseAcc2 (B : ℕ) [NeZero B] (accop : List α → List β → Res γ) (comb : γ → γ → γ)
    (l1 : List α) (l2 : List β) : Res γ :=
  if l1.length ≠ l2.length then .ub
  else if l1.length ≤ B then accop l1 l2
  else do
    let r1 ← pairwiseAcc2 B accop comb (l1.take (l1.length / 2)) (l2.take (l1.length / 2))
    let r2 ← pairwiseAcc2 B accop comb (l1.drop (l1.length / 2)) (l2.drop (l1.length / 2))
    return comb r1 r2
termination_by l1.length
decreasing_by
  all_goals
    have := Nat.pos_of_ne_zero (NeZero.ne B)
    simp only [List.length_take, List.length_drop]
    omega

/-- `PW_BLOCKSIZE` at every call site (scicpp/core/functional.hpp:359). -/
abbrev pwBlock : ℕ := 64

/-- `filter_reduce_associative` (scicpp/core/functional.hpp:345-371).  `integral` is
`std::is_integral_v<T>`; `idElt` the identity element (default `set_zero<T>()`). -/
def filterReduceAssoc (integral : Bool) (l : List α) (op : α → α → α) (p : α → Bool)
    (idElt : α) : α × ℕ :=
  if integral then filterReduce l op idElt p
  else pairwiseAcc pwBlock (fun b => filterReduce b op idElt p)
    (fun r1 r2 => (op r1.1 r2.1, r1.2 + r2.2)) l

/-! ### cumacc -/

/-- `std::partial_sum(first, last, out, op)` ([partial.sum]): running accumulation. -/
def partialSumLoop (op : α → α → α) (acc : α) : List α → List α
  | [] => []
  | x :: xs => op acc x :: partialSumLoop op (op acc x) xs

/-- `std::partial_sum` on a whole range. -/
def partialSum (op : α → α → α) : List α → List α
  | [] => []
  | x :: xs => x :: partialSumLoop op x xs

/-- `cumacc(a, op, p)` (scicpp/core/functional.hpp:386-396): filter a copy, then partial_sum. -/
def cumacc (a : List α) (op : α → α → α) (p : α → Bool) : List α :=
  partialSum op (filterArr a p)

end SciCpp
