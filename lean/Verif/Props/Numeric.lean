import Verif.Proofs.Numeric
import Mathlib.Data.Complex.Basic
import Mathlib.Data.Complex.BigOperators
import Mathlib.Tactic.NormNum
/-
  Property theorems C01–C13: reductions, element-wise operations, filters, masks, index
  searches, cumulative operations, differences, trapezoidal rule, inner products, comparisons.
-/
namespace SciCpp

open Spec

variable {α : Type*} {β : Type*} {γ : Type*}

/-! ## C01 — reductions do not depend on the blocking scheme -/

/-- C01: `sum` with any filter is the sum of the accepted elements and their number, for every
length (integral or floating point code path). -/
theorem C01_sum_eq [AddMonoid α] (integral : Bool) (l : List α) (p : α → Bool) :
    sumF integral l p = ((l.filter p).sum, (l.filter p).length) := by
  unfold sumF
  rw [filterReduceAssoc_eq _ _ _ add_assoc zero_add add_zero, List.sum_eq_foldl]

/-- C01: same for `prod`. -/
theorem C01_prod_eq [Monoid α] (integral : Bool) (l : List α) (p : α → Bool) :
    prodF integral l p = ((l.filter p).prod, (l.filter p).length) := by
  unfold prodF
  rw [filterReduceAssoc_eq _ _ _ mul_assoc one_mul mul_one, List.prod_eq_foldl]

/-- C01: for *any* associative operation with identity `e`, any block structure
(`integral = false` is the recursive one) gives the left-to-right fold. -/
theorem C01_reduce_eq_fold (integral : Bool) (l : List α) (op : α → α → α) (p : α → Bool) (e : α)
    (hassoc : ∀ a b c, op (op a b) c = op a (op b c)) (hl : ∀ a, op e a = a)
    (hr : ∀ a, op a e = a) :
    filterReduceAssoc integral l op p e = ((l.filter p).foldl op e, (l.filter p).length) :=
  filterReduceAssoc_eq _ _ _ hassoc hl hr

/-- C01: the plain `sum` and `prod` overloads. -/
theorem C01_sum_prod_all {R : Type*} [Semiring R] (integral : Bool) (l : List R) :
    sum integral l = l.sum ∧ prod integral l = l.prod := by
  simp [sum, prod, C01_sum_eq, C01_prod_eq]

-- non-vacuity: 130 elements (two levels of splitting), a non-trivial filter, and a
-- non-commutative associative operation (list append)
example : sumF false ((List.range 130).map (fun n => (n : ℤ))) (fun x => x % 2 == 0)
    = (4160, 65) := by
  rw [C01_sum_eq]; decide +kernel
example : (∀ a b c : List ℕ, (a ++ b) ++ c = a ++ (b ++ c)) ∧ (∀ a : List ℕ, [] ++ a = a) ∧
    (∀ a : List ℕ, a ++ [] = a) := by simp

/-! ## C02 — rounding error of the summation -/

/-- C02: with any rounding obeying `|rnd x - x| ≤ u|x|`, the computed sum of the accepted elements
of an array of `n` elements is within `((1+u)^(64+⌈log₂ n⌉) - 1)·Σ|x|` of the exact sum. -/
theorem C02_sum_rounding_error {K : Type*} [Field K] [LinearOrder K] [IsStrictOrderedRing K]
    (rnd : K → K) (u : K) (hu : 0 ≤ u) (hr : ∀ x, |rnd x - x| ≤ u * |x|)
    (l : List K) (p : K → Bool) :
    |(roundedSum rnd l p).1 - (l.filter p).sum|
      ≤ ((1 + u) ^ (64 + Nat.clog 2 l.length) - 1) * ((l.filter p).map abs).sum :=
  roundedSum_error hu hr p l

-- non-vacuity: rounding that is really inexact and meets the hypothesis with u = 1/4
example : ∃ (rnd : ℚ → ℚ) (u : ℚ), 0 ≤ u ∧ (∀ x, |rnd x - x| ≤ u * |x|) ∧ rnd 1 ≠ 1 :=
  ⟨fun x => 5 / 4 * x, 1 / 4, by norm_num, fun x => by
    rw [show 5 / 4 * x - x = 1 / 4 * x by ring, abs_mul]; norm_num, by norm_num⟩

/-! ## C03 — element-wise operations -/

/-- C03: unary map, on every value category and container: same length, element `i` is `op a[i]`. -/
theorem C03_map_unary (cat : Cat) (c : Cont) (op : α → α) (op' : α → β) (a : List α) :
    (mapUnarySame cat c op a).1 = a.map op ∧ (mapUnaryDiff cat op' a).1 = a.map op' := by
  cases cat <;> simp [mapUnarySame, mapUnaryDiff]

/-- C03: binary map, for every combination of value categories, containers and
in-place/out-of-place specialisations: equal sizes give the element-wise result, unequal sizes
violate the precondition. -/
theorem C03_map_binary (cat1 cat2 : Cat) (c1 c2 : Cont) (op : α → α → α) (s1 s2 : Bool)
    (a1 a2 : List α) :
    (a1.length = a2.length → ∃ after1 after2,
      mapBinary cat1 cat2 c1 c2 op s1 s2 a1 a2 = .ok (List.zipWith op a1 a2, after1, after2) ∧
      (List.zipWith op a1 a2).length = a1.length) ∧
    (a1.length ≠ a2.length → mapBinary cat1 cat2 c1 c2 op s1 s2 a1 a2 = .ub) := by
  constructor
  · intro h
    unfold mapBinary
    rw [transform2_eq op a1 a2 h]
    simp only [h, beq_self_eq_true, require_true, Res.bind_ok]
    cases mapBinaryDest cat1 cat2 s1 s2
    · exact ⟨_, _, rfl, by simp [h]⟩
    · exact ⟨_, _, rfl, by simp [h]⟩
    · exact ⟨_, _, rfl, by simp [h]⟩
  · intro h
    unfold mapBinary
    simp [require_beq_ne h]

/-- C03: value-level statement used by every binary operator. -/
theorem C03_map2_spec (op : α → β → γ) (a1 : List α) (a2 : List β) :
    (a1.length = a2.length → map2 op a1 a2 = .ok (List.zipWith op a1 a2)) ∧
    (a1.length ≠ a2.length → map2 op a1 a2 = .ub) :=
  ⟨map2_eq op a1 a2, fun h => by simp [map2, h]⟩

example : mapBinary .rvalue .constLvalue .vec .vec (· + ·) true true [1, 2, 3] [10, 20, 30]
    = .ok ([11, 22, 33], [], [10, 20, 30]) := by decide

/-! ## C04 — named arguments are left unchanged (violated by the unary functions) -/

/-- C04, negation: calling unary `map` (hence `-v`, `v * 2.0`, `sin(v)`, …) or `cumsum` on a named
non-const vector destroys it: afterwards it is empty. -/
theorem C04_lvalue_destroyed :
    ¬ ∀ (op : ℤ → ℤ) (a : List ℤ), (mapUnarySame .lvalue .vec op a).2 = a := by
  intro h
  have := h (fun x => -x) [1]
  simp [mapUnarySame, movedFrom] at this

/-- C04, exact extent of the violation: a named non-const vector survives a same-type unary
operation or cumulative operation only if it was empty. -/
theorem C04_lvalue_survives_iff (op : α → α) (op2 : α → α → α) (a : List α) :
    ((mapUnarySame .lvalue .vec op a).2 = a ↔ a = []) ∧
    ((cumOp .lvalue .vec op2 a).2 = a ↔ a = []) := by
  simp [mapUnarySame, cumOp, movedFrom, eq_comm]

/-- C04 (partial): the argument *is* preserved when it is const, when the operation changes the
element type, and for every named operand of a binary operation.  Missing: non-const lvalues of
same-type unary operations, where the property is false (`C04_lvalue_destroyed`). -/
theorem C04_argument_preserved_partial (c : Cont) (op : α → α) (op' : α → β) (op2 : α → α → α)
    (a : List α) (cat : Cat) :
    (mapUnarySame .constLvalue c op a).2 = a ∧ (mapUnaryDiff cat op' a).2 = a ∧
    (cumOp .constLvalue c op2 a).2 = a ∧
    (∀ (cat1 cat2 : Cat) (c1 c2 : Cont) (s1 s2 : Bool) (b r b1 b2 : List α),
      mapBinary cat1 cat2 c1 c2 op2 s1 s2 a b = .ok (r, b1, b2) →
      (cat1 ≠ .rvalue → b1 = a) ∧ (cat2 ≠ .rvalue → b2 = b)) := by
  refine ⟨rfl, rfl, rfl, ?_⟩
  intro cat1 cat2 c1 c2 s1 s2 b r b1 b2 h
  unfold mapBinary at h
  by_cases hl : a.length = b.length
  · rw [transform2_eq op2 a b hl] at h
    simp only [hl, beq_self_eq_true, require_true, Res.bind_ok] at h
    cases cat1 <;> cases cat2 <;> cases s1 <;> cases s2 <;>
      simp [mapBinaryDest] at h <;> simp [h]
  · simp [require_beq_ne hl] at h

/-! ## C05 — filter -/

/-- C05: `filter` is the order-preserving subsequence of accepted elements: it is a sublist, every
element is accepted, every accepted occurrence is kept, and it is idempotent. -/
theorem C05_filter_spec [DecidableEq α] (a : List α) (p : α → Bool) :
    (filterArr a p).Sublist a ∧ (∀ x ∈ filterArr a p, p x) ∧
    (∀ x, p x → (filterArr a p).count x = a.count x) ∧
    filterArr (filterArr a p) p = filterArr a p := by
  simp only [filterArr_eq]
  refine ⟨List.filter_sublist, fun x hx => (List.mem_filter.1 hx).2, ?_, by simp⟩
  intro x hx
  exact List.count_filter hx

/-- C05: the trimming filter accepts exactly the declared interval. -/
theorem C05_trim_spec [LinearOrder α] (lo hi x : α) (il ih : Bool) :
    trimFilter lo hi il ih x = true ↔
      (lo < x ∨ (il = true ∧ lo = x)) ∧ (x < hi ∨ (ih = true ∧ x = hi)) := by
  cases il <;> cases ih <;> simp [trimFilter, le_iff_lt_or_eq]

example : filterArr [3, 1, 4, 1, 5] (trimFilter (1:ℕ) 4 false true) = [3, 4] := by decide

/-! ## C06 — mask -/

/-- C06: with sizes equal, all mask versions return exactly the flagged elements, in order;
otherwise the precondition is violated in both. -/
theorem C06_mask_spec (a : List α) (m : List Bool) :
    (a.length = m.length →
      maskConst a m = .ok (((a.zip m).filter (·.2)).map (·.1)) ∧
      maskRvalue a m = .ok (((a.zip m).filter (·.2)).map (·.1))) ∧
    (a.length ≠ m.length → maskConst a m = .ub ∧ maskRvalue a m = .ub) := by
  constructor
  · intro h
    constructor
    · simp [maskConst, h, maskLoop_eq]
    · obtain ⟨a', e1, e2⟩ := maskInplaceLoop_eq m a.length 0 0 a h (by omega) (by omega)
      simp only [maskRvalue, h, beq_self_eq_true, require_true, Res.bind_ok]
      rw [← h, e1]
      simp only [Res.pure_eq]
      rw [e2]; simp
  · intro h
    simp [maskConst, maskRvalue, require_beq_ne h]

example : maskRvalue [10, 20, 30, 40] [true, false, true, true] = .ok [10, 30, 40] := by decide

/-! ## C07 — argwhere / nonzero -/

/-- C07: `argwhere` lists, in strictly increasing order, exactly the indices of accepted elements;
selecting them gives `filter`. -/
theorem C07_argwhere_spec (l : List α) (p : α → Bool) :
    (argwhere l p).Pairwise (· < ·) ∧
    (∀ i, i ∈ argwhere l p ↔ ∃ h : i < l.length, p l[i] = true) ∧
    (argwhere l p).filterMap (l[·]?) = filterArr l p := by
  have e : argwhere l p = (List.range l.length).filter (fun k => (l[k]?.map p).getD false) := by
    unfold argwhere; rw [argwhereLoop_eq]; simp
  refine ⟨?_, ?_, ?_⟩
  · rw [e]; exact List.Pairwise.filter _ (List.pairwise_lt_range)
  · intro i
    rw [e]
    simp only [List.mem_filter, List.mem_range]
    constructor
    · rintro ⟨h, h2⟩; exact ⟨h, by simpa [h] using h2⟩
    · rintro ⟨h, h2⟩; exact ⟨h, by simpa [h] using h2⟩
  · rw [e, filterArr_eq, List.filterMap_filter]
    conv_rhs => rw [← List.ofFn_getElem (xs := l)]
    rw [← List.filterMap_eq_filter]
    rw [List.ofFn_eq_map, List.filterMap_map]
    conv_lhs => rw [← List.map_coe_finRange_eq_range, List.filterMap_map]
    apply List.filterMap_congr
    intro i _
    by_cases h : p l[i] <;> simp_all [Option.guard]

example : argwhere [1, 0, -2, 3, 0, (0:ℤ)] (fun x => x ≠ 0) = [0, 2, 3] := by decide

/-! ## C08 — argmax / argmin -/

/-- C08, unfiltered: on any strict weak ordering, the result is the first best index. -/
theorem C08_argcmp_all (cmp : α → α → Bool) (sw : StrictWeakOn (fun _ => true) cmp) (l : List α)
    (hl : l ≠ []) :
    ∃ i, argcmp l (fun _ => true) cmp = .ok i ∧ IsFirstBest (fun _ => true) cmp l i := by
  cases l with
  | nil => exact absurd rfl hl
  | cons x xs => exact argcmp_head sw x xs rfl

/-- C08, unfiltered, on a linear order: `argmax` is the first index of a maximum and `argmin` the
first index of a minimum; empty arrays violate the precondition. -/
theorem C08_argmax_argmin [LinearOrder α] (l : List α) :
    (l ≠ [] → (∃ (i : ℕ) (hi : i < l.length), argmax (fun u v => decide (u > v)) l (fun _ => true) = .ok i ∧
      (∀ x ∈ l, x ≤ l[i]) ∧ ∀ (j : ℕ) (hj : j < i), l[j] < l[i]) ∧
     (∃ (i : ℕ) (hi : i < l.length), argmin (fun u v => decide (u < v)) l (fun _ => true) = .ok i ∧
      (∀ x ∈ l, l[i] ≤ x) ∧ ∀ (j : ℕ) (hj : j < i), l[i] < l[j])) ∧
    (l = [] → argmax (fun u v => decide (u > v)) l (fun _ => true) = .ub ∧
      argmin (fun u v => decide (u < v)) l (fun _ => true) = .ub) := by
  have sw1 : StrictWeakOn (fun _ : α => true) (fun u v => decide (u > v)) := by
    constructor
    · simp
    · intro x y z _ _ _ h1 h2; simp at *; exact h2.trans h1
    · intro x y z _ _ _ h; simp at *
      rcases lt_or_ge y x with h1 | h1
      · exact Or.inl h1
      · exact Or.inr (h.trans_le h1)
  have sw2 : StrictWeakOn (fun _ : α => true) (fun u v => decide (u < v)) := by
    constructor
    · simp
    · intro x y z _ _ _ h1 h2; simp at *; exact h1.trans h2
    · intro x y z _ _ _ h; simp at *
      rcases lt_or_ge x y with h1 | h1
      · exact Or.inl h1
      · exact Or.inr (h1.trans_lt h)
  constructor
  · intro hl
    constructor
    · obtain ⟨i, h, b⟩ := C08_argcmp_all _ sw1 l hl
      refine ⟨i, b.lt, h, ?_, ?_⟩
      · intro x hx
        obtain ⟨j, hj, rfl⟩ := List.getElem_of_mem hx
        simpa using b.best j hj rfl
      · intro j hj; simpa using b.first j hj rfl
    · obtain ⟨i, h, b⟩ := C08_argcmp_all _ sw2 l hl
      refine ⟨i, b.lt, h, ?_, ?_⟩
      · intro x hx
        obtain ⟨j, hj, rfl⟩ := List.getElem_of_mem hx
        simpa using b.best j hj rfl
      · intro j hj; simpa using b.first j hj rfl
  · rintro rfl; simp [argmax, argmin, argcmp]

/-- C08, filtered, negation: `nanargmax({NaN, 5, 3})` returns index 0 (the NaN) instead of 1. -/
theorem C08_nanargmax_wrong :
    ¬ ∀ l : List Fl, (∃ x ∈ l, x.isNan = false) →
      ∃ i, argmax (fun u v => Fl.lt v u) l (fun x => !x.isNan) = .ok i ∧
        IsFirstBest (fun x => !x.isNan) (fun u v => Fl.lt v u) l i := by
  intro h
  obtain ⟨i, h1, h2⟩ := h [.nan, .fin 5, .fin 3] ⟨.fin 5, by simp, rfl⟩
  have : argmax (fun u v => Fl.lt v u) [Fl.nan, .fin 5, .fin 3] (fun x => !x.isNan) = .ok 0 := by
    decide +kernel
  rw [this] at h1
  cases h1
  have h3 := h2.acc
  simp [Fl.isNan] at h3

/-- C08 (partial), filtered: the result is right whenever the first element is accepted.  Missing:
arrays whose first element is rejected, where the property is false (`C08_nanargmax_wrong`). -/
theorem C08_argcmp_filter_partial (p : α → Bool) (cmp : α → α → Bool) (sw : StrictWeakOn p cmp)
    (x : α) (xs : List α) (hx : p x) :
    ∃ i, argcmp (x :: xs) p cmp = .ok i ∧ IsFirstBest p cmp (x :: xs) i :=
  argcmp_head sw x xs hx

theorem argSkip_pre (p : α → Bool) (pre : List α) (x : α) (rest : List α)
    (hpre : ∀ y ∈ pre, p y = false) (hx : p x = true) (i : ℕ) :
    argSkip p i (pre ++ x :: rest) = .ok (i + pre.length, x, rest) := by
  induction pre generalizing i with
  | nil => simp [argSkip, hx]
  | cons y ys ih =>
    have h1 := hpre y (by simp)
    simp only [List.cons_append, argSkip, h1, Bool.false_eq_true, if_false]
    rw [ih (fun z hz => hpre z (by simp [hz]))]
    simp only [List.length_cons]
    congr 2; omega

theorem argLoop_idx (p : α → Bool) (cmp : α → α → Bool) (l : List α) (i : ℕ) (m : α) (a b : ℕ)
    (hb : b < i) : argLoop p cmp i m a l =
      if argLoop p cmp i m b l = b then a else argLoop p cmp i m b l := by
  have ge : ∀ (l : List α) (i : ℕ) (m : α) (c : ℕ), c < i → b < c → argLoop p cmp i m c l ≠ b := by
    intro l
    induction l with
    | nil => intro i m c _ h; simp only [argLoop]; omega
    | cons x xs ih =>
      intro i m c h1 h2
      simp only [argLoop]
      split_ifs
      · exact ih (i + 1) x i (by omega) (by omega)
      · exact ih (i + 1) m c (by omega) h2
  induction l generalizing i m with
  | nil => simp [argLoop]
  | cons x xs ih =>
    by_cases hc : (p x && cmp x m) = true
    · have e1 : ∀ c, argLoop p cmp i m c (x :: xs) = argLoop p cmp (i + 1) x i xs := fun c => by
        simp only [argLoop, if_pos hc]
      simp only [e1]
      rw [if_neg (ge xs (i + 1) x i (by omega) hb)]
    · have e1 : ∀ c, argLoop p cmp i m c (x :: xs) = argLoop p cmp (i + 1) m c xs := fun c => by
        simp only [argLoop, if_neg hc]
      simp only [e1]
      exact ih (i + 1) m (by omega)

/-- C08, filtered, exactly what the code computes: with `b` the first best accepted index, the result is
`b`, except that it is `0` when `b` is the first accepted index and other elements follow it.  So the
result is right if and only if the first element is accepted, or the first accepted element is not the
best one, or it is the last element of the array. -/
theorem C08_argcmp_exact (p : α → Bool) (cmp : α → α → Bool) (sw : StrictWeakOn p cmp)
    (pre : List α) (x : α) (rest : List α) (hpre : ∀ y ∈ pre, p y = false) (hx : p x = true) :
    ∃ b, IsFirstBest p cmp (pre ++ x :: rest) b ∧
      argcmp (pre ++ x :: rest) p cmp = .ok (if b = pre.length ∧ rest ≠ [] then 0 else b) := by
  have hl : (pre ++ x :: rest).length = pre.length + rest.length + 1 := by simp; omega
  have hget : (pre ++ x :: rest)[pre.length]'(by omega) = x := by simp
  have hpre' : ∀ j (hj : j < pre.length), p ((pre ++ x :: rest)[j]'(by omega)) = false := by
    intro j hj
    rw [List.getElem_append_left hj]; exact hpre _ (List.getElem_mem _)
  have spec := argLoop_spec sw (pre ++ x :: rest) (pre.length + 1) rest
    (by rw [show pre.length + 1 = pre.length + 1 from rfl, List.drop_append]; simp) (by omega) x pre.length (by omega)
    hget hx (by
      intro j hj hpj
      rcases Nat.lt_succ_iff_lt_or_eq.1 hj with h | h
      · rw [hpre' j h] at hpj; exact absurd hpj (by simp)
      · subst h; rw [hget]; exact sw.irrefl _ hx)
    (by intro j hj hpj; rw [hpre' j hj] at hpj; exact absurd hpj (by simp))
  refine ⟨_, spec, ?_⟩
  unfold argcmp
  have hne : (pre ++ x :: rest).isEmpty = false := by cases pre <;> rfl
  rw [hne]
  simp only [Bool.not_false, argSkip_pre p pre x rest hpre hx, Nat.zero_add]
  cases rest with
  | nil => simp [argLoop, require]
  | cons y ys =>
    simp only [List.length_cons, Nat.add_eq_zero_iff, one_ne_zero, and_false, if_false, ne_eq,
      reduceCtorEq, not_false_eq_true, and_true]
    rw [argLoop_idx p cmp (y :: ys) (pre.length + 1) x 0 pre.length (by omega)]
    rfl

/-- A case: the accepted elements of `{9, 5, 7}` (below 8) have their first best at index 2. -/
example : argcmp [9, 5, (7 : ℤ)] (fun x => decide (x < 8)) (fun u v => decide (u > v)) = .ok 2 := by
  decide

/-- C08: when no element is accepted the precondition is violated. -/
theorem C08_argcmp_none (p : α → Bool) (cmp : α → α → Bool) (l : List α)
    (h : ∀ x ∈ l, p x = false) : argcmp l p cmp = .ub := by
  unfold argcmp
  cases l with
  | nil => rfl
  | cons x xs => simp [argSkip_none _ h]

example : argmax (fun u v => decide (u > v)) [3, 7, 2, (7:ℤ)] (fun _ => true) = .ok 1 := by decide

/-! ## C09 — cumulative sums and products -/

/-- C09: `cumsum`/`cumprod` preserve the length and element `i` is the sum/product of the first
`i+1` elements. -/
theorem C09_cumsum_spec {R : Type*} [Semiring R] (cat : Cat) (c : Cont) (a : List R) :
    (cumOp cat c (· + ·) a).1.length = a.length ∧ (cumOp cat c (· * ·) a).1.length = a.length ∧
    (∀ i < a.length, (cumOp cat c (· + ·) a).1[i]? = some (a.take (i + 1)).sum) ∧
    (∀ i < a.length, (cumOp cat c (· * ·) a).1[i]? = some (a.take (i + 1)).prod) := by
  have e1 : ∀ op : R → R → R, (cumOp cat c op a).1 = partialSum op a := by
    intro op; cases cat <;> rfl
  rw [e1, e1]
  refine ⟨partialSum_length .., partialSum_length .., ?_, ?_⟩
  · intro i hi
    rw [List.getElem?_eq_getElem (by rw [partialSum_length]; exact hi),
      partialSum_get _ 0 zero_add a i hi, List.sum_eq_foldl]
  · intro i hi
    rw [List.getElem?_eq_getElem (by rw [partialSum_length]; exact hi),
      partialSum_get _ 1 one_mul a i hi, List.prod_eq_foldl]

/-- C09: `nancumsum`/`nancumprod` are the cumulative operations on the accepted elements. -/
theorem C09_nancumsum_spec {R : Type*} [Semiring R] (p : R → Bool) (a : List R) :
    (nancumOp (· + ·) p a).length = (a.filter p).length ∧
    (∀ i < (a.filter p).length,
      (nancumOp (· + ·) p a)[i]? = some ((a.filter p).take (i + 1)).sum ∧
      (nancumOp (· * ·) p a)[i]? = some ((a.filter p).take (i + 1)).prod) := by
  unfold nancumOp cumacc
  rw [filterArr_eq]
  refine ⟨partialSum_length .., fun i hi => ⟨?_, ?_⟩⟩
  · rw [List.getElem?_eq_getElem (by rw [partialSum_length]; exact hi),
      partialSum_get _ 0 zero_add _ i hi, List.sum_eq_foldl]
  · rw [List.getElem?_eq_getElem (by rw [partialSum_length]; exact hi),
      partialSum_get _ 1 one_mul _ i hi, List.prod_eq_foldl]

example : (cumOp .constLvalue .vec (· + ·) [1, 2, 4, (7:ℤ)]).1 = [1, 3, 7, 14] := by decide

/-! ## C10 — diff -/

/-- C10: `diff(a, n)` has `max(0, len - n)` elements, element `i` being the `n`-th forward
difference `Σ_k (-1)^(n-k) C(n,k) a[i+k]`; the array version agrees; negative `n` violates the
precondition. -/
theorem C10_diff_spec [AddCommGroup α] (a : List α) (n : ℕ) :
    ∃ r, diffVec a n = .ok r ∧ diffArr n a = r ∧ r.length = a.length - n ∧
      ∀ (i : ℕ) (_ : i < r.length),
        r[i]? = some (∑ k ∈ Finset.range (n + 1),
          ((-1 : ℤ) ^ (n - k) * n.choose k) • a.getD (i + k) 0) := by
  refine ⟨diffArr n a, ?_, rfl, diffArr_length n a, ?_⟩
  · simp [diffVec, diffVecLoop_eq]
  · intro i hi
    rw [List.getElem?_eq_getElem hi,
      diffArr_get n a (fun j => a.getD j 0) (fun j hj => by simp [hj]) i hi,
      fwdDiff_iter_eq_sum_shift]
    simp

/-- C10: a negative order violates the precondition. -/
theorem C10_diff_negative [Sub α] (a : List α) (n : ℤ) (h : n < 0) : diffVec a n = .ub := by
  simp [diffVec, not_le.2 h]

/-- C10: cumulating the differences restores the array up to its first element. -/
theorem C10_cumsum_diff [AddCommGroup α] (x : α) (xs : List α) :
    ∃ d, diffVec (x :: xs) 1 = .ok d ∧ partialSum (· + ·) (x :: d) = x :: xs := by
  refine ⟨adjDiffLoop x xs, ?_, ?_⟩
  · simp [diffVec, diffVecLoop, diffOnceVec, adjDiff]
  · simp only [partialSum, List.cons.injEq, true_and]
    induction xs generalizing x with
    | nil => rfl
    | cons y ys ih => simp [adjDiffLoop, partialSumLoop, ih]

example : diffVec [1, 2, 4, 7, (0:ℤ)] 2 = .ok [1, 1, -10] := by decide

/-! ## C11 — trapz -/

/-- The composite trapezoidal rule on samples `f` with spacing `dx` (independent specification). -/
def trapezoidRule {K : Type*} [Field K] (dx : K) : List K → K
  | x :: y :: r => dx * (x + y) / 2 + trapezoidRule dx (y :: r)
  | _ => 0

/-- C11, negation: a single sample is undefined behaviour instead of 0. -/
theorem C11_trapz_single_ub {K : Type*} [Field K] (integral : Bool) (x dx : K) :
    trapz integral [x] dx ≠ .ok (trapezoidRule dx [x]) := by simp [trapz]

/-- C11 (partial): for every array with a number of samples other than one, `trapz` is the
composite trapezoidal rule.  Missing: one sample (`C11_trapz_single_ub`). -/
theorem C11_trapz_partial {K : Type*} [Field K] [NeZero (2 : K)] (integral : Bool) (f : List K)
    (dx : K) (h : f.length ≠ 1) : trapz integral f dx = .ok (trapezoidRule dx f) := by
  match f with
  | [] => rfl
  | [x] => simp at h
  | x :: y :: r =>
    simp only [trapz, C01_sum_prod_all, Res.ok.injEq]
    have h2 : (2 : K) ≠ 0 := NeZero.ne 2
    clear h
    induction r generalizing x y with
    | nil => simp [trapezoidRule]; field_simp
    | cons z r ih =>
      rw [trapezoidRule, ← ih y z]
      simp only [List.dropLast_cons_cons, List.sum_cons,
        List.getLast_cons_cons]
      field_simp
      ring

example : trapz false [1, 2, 4, (7:ℚ)] 2 = .ok 20 := by
  rw [C11_trapz_partial _ _ _ (by simp)]; norm_num [trapezoidRule]

/-! ## C12 — inner products -/

/-- C12: `inner`/`dot` is `Σ a[i] b[i]` for equal sizes, a precondition violation otherwise. -/
theorem C12_inner_spec {R : Type*} [Semiring R] (a b : List R) :
    (a.length = b.length → inner a b = .ok (List.zipWith (· * ·) a b).sum) ∧
    (a.length ≠ b.length → inner a b = .ub) :=
  ⟨innerOp_eq _ a b, innerOp_ub _ a b⟩

/-- C12: `inner` is symmetric over commutative elements and additive in its first argument. -/
theorem C12_inner_bilinear {R : Type*} [CommSemiring R] (a b c : List R) (k : R)
    (h1 : a.length = c.length) (h2 : b.length = c.length) :
    inner a c = inner c a ∧
    inner (List.zipWith (fun x y => k * x + y) a b) c
      = .ok (k * (List.zipWith (· * ·) a c).sum + (List.zipWith (· * ·) b c).sum) := by
  constructor
  · rw [(C12_inner_spec a c).1 h1, (C12_inner_spec c a).1 h1.symm,
      List.zipWith_comm_of_comm (fun x y => mul_comm x y)]
  · rw [(C12_inner_spec _ c).1 (by simp [h1, h2])]
    congr 1
    induction c generalizing a b with
    | nil => simp
    | cons z zs ih =>
      cases a with
      | nil => simp at h1
      | cons x xs =>
        cases b with
        | nil => simp at h2
        | cons y ys =>
          simp at h1 h2
          simp [ih xs ys h1 h2]; ring

/-- C12: `vdot(a,b) = Σ conj(a[i]) b[i]`, hermitian, and `vdot(a,a)` is a non-negative real that
vanishes only for the zero vector. -/
theorem C12_vdot_spec (a b : List ℂ) (h : a.length = b.length) :
    vdot (starRingEnd ℂ) a b = .ok (List.zipWith (fun x y => starRingEnd ℂ x * y) a b).sum ∧
    (∃ z, vdot (starRingEnd ℂ) a b = .ok z ∧ vdot (starRingEnd ℂ) b a = .ok (starRingEnd ℂ z)) ∧
    (∃ r : ℝ, vdot (starRingEnd ℂ) a a = .ok (r : ℂ) ∧ 0 ≤ r ∧ (r = 0 ↔ ∀ x ∈ a, x = 0)) := by
  refine ⟨innerOp_eq _ a b h, ⟨_, innerOp_eq _ a b h, ?_⟩, ?_⟩
  · unfold vdot
    rw [innerOp_eq _ b a h.symm]
    congr 1
    rw [map_list_sum, List.map_zipWith, List.zipWith_comm]
    congr 2
    funext x y
    simp [mul_comm]
  · refine ⟨(a.map Complex.normSq).sum, ?_, ?_, ?_⟩
    · unfold vdot
      rw [innerOp_eq _ a a rfl]
      congr 1
      clear h
      induction a with
      | nil => simp
      | cons x xs ih =>
        simp only [List.zipWith_cons_cons, List.sum_cons, List.map_cons, ih, Complex.ofReal_add]
        rw [mul_comm, Complex.mul_conj]
    · apply List.sum_nonneg
      intro x hx
      obtain ⟨z, _, rfl⟩ := List.mem_map.1 hx
      exact Complex.normSq_nonneg z
    · clear h
      induction a with
      | nil => simp
      | cons x xs ih =>
        have h1 := Complex.normSq_nonneg x
        have h2 : 0 ≤ (xs.map Complex.normSq).sum := by
          apply List.sum_nonneg
          intro x hx
          obtain ⟨z, _, rfl⟩ := List.mem_map.1 hx
          exact Complex.normSq_nonneg z
        simp only [List.map_cons, List.sum_cons, List.mem_cons, forall_eq_or_imp, ← ih]
        rw [add_eq_zero_iff_of_nonneg h1 h2, Complex.normSq_eq_zero]

example : inner [1, 2, (3:ℤ)] [4, 5, 6] = .ok 32 := by
  rw [(C12_inner_spec [1, 2, (3:ℤ)] [4, 5, 6]).1 rfl]; rfl

/-! ## C13 — comparisons -/

/-- The comparisons of a linear order. -/
def linCmp (α : Type*) [LinearOrder α] : Cmp α := ⟨fun a b => decide (a < b), fun a b => decide (a = b)⟩

/-- Meaning of each comparison operator on a linear order. -/
def CmpOp.holds {α : Type*} [LinearOrder α] : CmpOp → α → α → Bool
  | .eq, a, b => decide (a = b)
  | .ne, a, b => decide (a ≠ b)
  | .lt, a, b => decide (a < b)
  | .le, a, b => decide (a ≤ b)
  | .gt, a, b => decide (a > b)
  | .ge, a, b => decide (a ≥ b)

/-- Meaning of each comparison operator on IEEE values: every comparison with NaN is false except
`!=`. -/
def CmpOp.holdsFl : CmpOp → Fl → Fl → Bool
  | .eq, a, b => Fl.eqv a b
  | .ne, a, b => !Fl.eqv a b
  | .lt, a, b => Fl.lt a b
  | .le, a, b => Fl.le a b
  | .gt, a, b => Fl.lt b a
  | .ge, a, b => Fl.le b a

/-- IEEE comparisons of `Fl`. -/
def flCmp : Cmp Fl := ⟨Fl.lt, Fl.eqv⟩

theorem zipWith_map_not {f : α → β → Bool} (a : List α) (b : List β) :
    (List.zipWith f a b).map (!·) = List.zipWith (fun x y => !f x y) a b := by
  rw [List.map_zipWith]

theorem not_decide_lt [LinearOrder α] (a b : α) : (!decide (a < b)) = decide (b ≤ a) := by
  by_cases h : a < b
  · simp [h]
  · simp [not_lt.1 h]

theorem not_decide_le [LinearOrder α] (a b : α) : (!decide (a ≤ b)) = decide (b < a) := by
  by_cases h : a ≤ b
  · simp [h, not_lt.2 h]
  · simp [h, not_le.1 h]

theorem not_decide_eq [DecidableEq α] (a b : α) : (!decide (a = b)) = decide (a ≠ b) := by
  by_cases h : a = b <;> simp [h]

/-- C13 (partial): on totally ordered elements all comparison functions and operators agree
element-wise with the scalar comparison.  Missing: unordered (NaN) elements for `<=`, `>=`,
where the property is false (`C13_nan_wrong`). -/
theorem C13_comparisons_ordered_partial [LinearOrder α] (a b : List α) (s : α) (o : CmpOp)
    (h : a.length = b.length) :
    equalA (linCmp α) a b = .ok (List.zipWith (CmpOp.holds .eq) a b) ∧
    notEqualA (linCmp α) a b = .ok (List.zipWith (CmpOp.holds .ne) a b) ∧
    lessA (linCmp α) a b = .ok (List.zipWith (CmpOp.holds .lt) a b) ∧
    lessEqualA (linCmp α) a b = .ok (List.zipWith (CmpOp.holds .le) a b) ∧
    greaterA (linCmp α) a b = .ok (List.zipWith (CmpOp.holds .gt) a b) ∧
    greaterEqualA (linCmp α) a b = .ok (List.zipWith (CmpOp.holds .ge) a b) ∧
    cmpArrScalar (linCmp α) o a s = a.map (fun v => CmpOp.holds o v s) ∧
    cmpScalarArr (linCmp α) o s a = a.map (fun v => CmpOp.holds o s v) := by
  simp only [equalA, notEqualA, lessA, lessEqualA, greaterA, greaterEqualA, map2_eq _ _ _ h,
    map2_eq _ _ _ h.symm, Res.map_ok, zipWith_map_not]
  refine ⟨rfl, ?_, rfl, ?_, ?_, ?_, ?_, ?_⟩
  · congr 2; funext x y; simp only [linCmp, CmpOp.holds, not_decide_eq]
  · rw [List.zipWith_comm]; congr 2; funext x y; simp only [linCmp, CmpOp.holds, not_decide_lt]
  · rw [List.zipWith_comm]; congr 2
  · congr 2; funext x y; simp only [linCmp, CmpOp.holds, not_decide_lt]
  · cases o <;> simp only [cmpArrScalar, linCmp, CmpOp.holds, List.map_map, Function.comp_def,
      not_decide_lt, not_decide_le, not_decide_eq, gt_iff_lt, ge_iff_le]
  · cases o <;> simp only [cmpScalarArr, linCmp, CmpOp.holds, List.map_map, Function.comp_def,
      not_decide_lt, not_decide_le, not_decide_eq, gt_iff_lt, ge_iff_le, @eq_comm _ s, ne_comm]

theorem Fl.eqv_comm (a b : Fl) : Fl.eqv a b = Fl.eqv b a := by
  cases a <;> cases b <;> simp [Fl.eqv, eq_comm, Bool.beq_comm]

/-- C13: with IEEE semantics (NaN included) `==, !=, <, >` and `equal, not_equal, less, greater`
agree element-wise with the scalar comparison. -/
theorem C13_ieee_eq_ne_lt_gt (a b : List Fl) (s : Fl) (o : CmpOp) (ho : o ≠ .le ∧ o ≠ .ge)
    (h : a.length = b.length) :
    equalA flCmp a b = .ok (List.zipWith (CmpOp.holdsFl .eq) a b) ∧
    notEqualA flCmp a b = .ok (List.zipWith (CmpOp.holdsFl .ne) a b) ∧
    lessA flCmp a b = .ok (List.zipWith (CmpOp.holdsFl .lt) a b) ∧
    greaterA flCmp a b = .ok (List.zipWith (CmpOp.holdsFl .gt) a b) ∧
    cmpArrScalar flCmp o a s = a.map (fun v => CmpOp.holdsFl o v s) ∧
    cmpScalarArr flCmp o s a = a.map (fun v => CmpOp.holdsFl o s v) := by
  simp only [equalA, notEqualA, lessA, greaterA, map2_eq _ _ _ h,
    map2_eq _ _ _ h.symm, Res.map_ok, zipWith_map_not]
  refine ⟨rfl, rfl, rfl, ?_, ?_, ?_⟩
  · rw [List.zipWith_comm]; rfl
  · cases o <;> simp_all [cmpArrScalar, flCmp, CmpOp.holdsFl]
  · cases o <;> simp_all [cmpScalarArr, flCmp, CmpOp.holdsFl, Fl.eqv_comm]

/-- C13, negation: `less_equal({NaN}, {1})` is `{true}` although `NaN <= 1` is false; likewise
`greater_equal` and the scalar operators `<=`, `>=`. -/
theorem C13_nan_wrong :
    lessEqualA flCmp [.nan] [.fin 1] ≠ .ok (List.zipWith (CmpOp.holdsFl .le) [.nan] [.fin 1]) ∧
    greaterEqualA flCmp [.nan] [.fin 1] ≠ .ok (List.zipWith (CmpOp.holdsFl .ge) [.nan] [.fin 1]) ∧
    cmpArrScalar flCmp .le [.nan] (.fin 1) ≠ [CmpOp.holdsFl .le .nan (.fin 1)] ∧
    cmpArrScalar flCmp .ge [.nan] (.fin 1) ≠ [CmpOp.holdsFl .ge .nan (.fin 1)] := by
  decide +kernel

end SciCpp
