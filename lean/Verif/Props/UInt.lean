import Verif.Model.UInt
import Verif.Props.Numeric
import Verif.Props.IntVar
/-
  Property theorems C137: unsigned integers.
-/
namespace SciCpp
open Spec
open scoped Fin.CommRing

/-! ### Specification -/

/-- The stored numbers. -/
def nats {N : ℕ} (l : List (Fin N)) : List ℕ := l.map Fin.val

section
variable {N : ℕ}

/-- `x` is the integer `z` modulo `N`. -/
def IsMod (x : Fin N) (z : ℤ) : Prop := (x.val : ℤ) = z % N

theorem IsMod.self (x : Fin N) : IsMod x x.val := by
  unfold IsMod
  rw [Int.emod_eq_of_lt (by omega) (by exact_mod_cast x.isLt)]

theorem IsMod.add {x y : Fin N} {a b : ℤ} (h : IsMod x a) (h' : IsMod y b) : IsMod (x + y) (a + b) := by
  unfold IsMod at *
  rw [Fin.val_add, Int.natCast_emod, Nat.cast_add, h, h', ← Int.add_emod]

theorem IsMod.mul {x y : Fin N} {a b : ℤ} (h : IsMod x a) (h' : IsMod y b) : IsMod (x * y) (a * b) := by
  unfold IsMod at *
  rw [Fin.val_mul, Int.natCast_emod, Nat.cast_mul, h, h', ← Int.mul_emod]

theorem IsMod.sub {x y : Fin N} {a b : ℤ} (h : IsMod x a) (h' : IsMod y b) : IsMod (x - y) (a - b) := by
  unfold IsMod at *
  rw [Fin.val_sub, Int.natCast_emod, Nat.cast_add, Nat.cast_sub y.isLt.le, h, h']
  rw [show (N : ℤ) - b % N + a % N = a % N - b % N + N * 1 by ring, Int.add_mul_emod_self_left, ← Int.sub_emod]

theorem IsMod.val {x : Fin N} {z : ℤ} (h : IsMod x z) (h0 : 0 ≤ z) (h1 : z < N) : (x.val : ℤ) = z := by
  rw [show (x.val : ℤ) = z % N from h, Int.emod_eq_of_lt h0 h1]

theorem IsMod.nat {x : Fin N} {n : ℕ} (h : IsMod x n) : x.val = n % N := by
  have : (x.val : ℤ) = (n : ℤ) % N := h
  exact_mod_cast this

variable [NeZero N]

theorem IsMod.zero : IsMod (0 : Fin N) 0 := by simp [IsMod]

theorem IsMod.of (z : ℤ) : IsMod (uOf z : Fin N) z := by
  unfold IsMod uOf
  have h : (Fin.intCast z : Fin N).val = (z % N).toNat := Fin.val_intCast z
  rw [h, Int.toNat_of_nonneg (Int.emod_nonneg _ (by exact_mod_cast NeZero.ne N))]

theorem IsMod.sum (l : List (Fin N)) : IsMod l.sum (nats l).sum := by
  induction l with
  | nil => simp [nats, IsMod.zero]
  | cons x xs ih =>
    simp only [nats, List.map_cons, List.sum_cons, Nat.cast_add] at ih ⊢
    exact (IsMod.self x).add ih

theorem IsMod.prod (l : List (Fin N)) : IsMod l.prod (nats l).prod := by
  induction l with
  | nil => simp [nats, IsMod]
  | cons x xs ih =>
    simp only [nats, List.map_cons, List.prod_cons, Nat.cast_mul] at ih ⊢
    exact (IsMod.self x).mul ih

/-! ### sums and products -/

/-- C137: `sum` and `prod` of unsigned integers are always defined and are the sum and the product of the accepted numbers modulo the number of values of the type; the
count is exact. -/
theorem C137_sum_prod (l : List (Fin N)) (p : Fin N → Bool) :
    (sumF true l p).1.val = (nats (l.filter p)).sum % N ∧ (prodF true l p).1.val = (nats (l.filter p)).prod % N ∧
    (sumF true l p).2 = (l.filter p).length ∧ (prodF true l p).2 = (l.filter p).length := by
  have e1 : sumF true l p = _ := C01_sum_eq true l p
  have e2 : prodF true l p = _ := C01_prod_eq true l p
  rw [e1, e2]
  exact ⟨(IsMod.sum _).nat, (IsMod.prod _).nat, rfl, rfl⟩

/-- C137: unlike signed sums and products, they do not depend on the order of the elements. -/
theorem C137_order (l l' : List (Fin N)) (p : Fin N → Bool) (h : l'.Perm l) : sumF true l' p = sumF true l p ∧ prodF true l' p = prodF true l p := by
  have e1 : ∀ l : List (Fin N), sumF true l p = _ := fun l => C01_sum_eq true l p
  have e2 : ∀ l : List (Fin N), prodF true l p = _ := fun l => C01_prod_eq true l p
  have hp := h.filter p
  rw [e1, e1, e2, e2, hp.sum_eq, hp.prod_eq, hp.length_eq]
  exact ⟨rfl, rfl⟩

/-- C137: `cumsum` and `cumprod`, for every value category and container. -/
theorem C137_cumulative (cat : Cat) (c : Cont) (l : List (Fin N)) (i : ℕ) (hi : i < l.length) :
    (cumOp cat c (· + ·) l).1.length = l.length ∧ (cumOp cat c (· * ·) l).1.length = l.length ∧
    (cumOp cat c (· + ·) l).1[i]?.map Fin.val = some (((nats l).take (i + 1)).sum % N) ∧
    (cumOp cat c (· * ·) l).1[i]?.map Fin.val = some (((nats l).take (i + 1)).prod % N) := by
  obtain ⟨h1, h2, h3, h4⟩ := C09_cumsum_spec cat c l
  refine ⟨h1, h2, ?_, ?_⟩
  · have := h3 i hi
    rw [show (cumOp cat c (· + ·) l).1[i]? = _ from this, Option.map_some, (IsMod.sum _).nat, nats, nats, List.map_take]
  · have := h4 i hi
    rw [show (cumOp cat c (· * ·) l).1[i]? = _ from this, Option.map_some, (IsMod.prod _).nat, nats, nats, List.map_take]

/-- C137: `inner`, `dot` and `vdot` (equal lengths). -/
theorem C137_inner (a b : List (Fin N)) (h : a.length = b.length) :
    ∃ r, inner a b = .ok r ∧ r.val = (List.zipWith (· * ·) (nats a) (nats b)).sum % N := by
  refine ⟨_, (C12_inner_spec a b).1 h, ?_⟩
  refine IsMod.nat ?_
  induction a generalizing b with
  | nil => simp [nats, IsMod.zero]
  | cons x xs ih =>
    cases b with
    | nil => simp at h
    | cons y ys =>
      simp only [nats, List.map_cons, List.zipWith_cons_cons, List.sum_cons, Nat.cast_add, Nat.cast_mul] at ih ⊢
      exact ((IsMod.self x).mul (IsMod.self y)).add (ih ys (by simpa using h))

/-! ### differences -/

/-- C137: `diff` of unsigned integers: a difference that is not negative is exact, a negative one is `N` too large. -/
theorem C137_diff (l : List (Fin N)) : ∃ r, diffVec l 1 = .ok r ∧ diffArr 1 l = r ∧ r.length = l.length - 1 ∧
    ∀ (i : ℕ) (h : i + 1 < l.length), ∃ d, r[i]? = some d ∧ (l[i] ≤ l[i + 1] → d.val = l[i + 1].val - l[i].val) ∧
      (l[i + 1] < l[i] → d.val = N - (l[i].val - l[i + 1].val)) := by
  obtain ⟨r, h1, h2, h3, h4⟩ := C10_diff_spec l 1
  refine ⟨r, h1, h2, h3, fun i hi => ?_⟩
  have hlt : i < r.length := by omega
  have e := h4 i hlt
  simp only [Finset.sum_range_succ, Finset.sum_range_zero, zero_add, pow_one, Nat.choose_zero_right, tsub_zero, Nat.choose_one_right, Nat.cast_one, mul_one,
    neg_smul, one_smul, add_zero, tsub_self, pow_zero, List.getD_eq_getElem?_getD, List.getElem?_eq_getElem hi, List.getElem?_eq_getElem (show i < l.length by omega), Option.getD_some] at e
  have hd : IsMod (l[i + 1] - l[i]) ((l[i + 1].val : ℤ) - l[i].val) := (IsMod.self _).sub (IsMod.self _)
  refine ⟨l[i + 1] - l[i], by rw [e, neg_add_eq_sub], fun hle => ?_, fun hlt' => ?_⟩
  · have hle' : l[i].val ≤ l[i + 1].val := hle
    have := hd.val (by omega) (by have := l[i + 1].isLt; omega)
    omega
  · have hlt'' : l[i + 1].val < l[i].val := hlt'
    have hb := l[i].isLt
    have h5 : ((l[i + 1] - l[i]).val : ℤ) = ((l[i + 1].val : ℤ) - l[i].val) % N := hd
    rw [← Int.add_emod_right, Int.emod_eq_of_lt (by omega) (by omega)] at h5
    omega

theorem isMod_zsmul (c : ℤ) (x : Fin N) : IsMod (c • x) (c * x.val) := by
  have : c • x = (uOf c : Fin N) * x := by
    rw [zsmul_eq_mul]; rfl
  rw [this]
  exact (IsMod.of c).mul (IsMod.self x)

/-- C137: the `n`-th difference is the `n`-th finite difference modulo `N`. -/
theorem C137_diff_nth (l : List (Fin N)) (n : ℕ) : ∃ r, diffVec l n = .ok r ∧ diffArr n l = r ∧ r.length = l.length - n ∧
    ∀ (i : ℕ) (_ : i < r.length), ∃ d, r[i]? = some d ∧
      (d.val : ℤ) = (∑ k ∈ Finset.range (n + 1), (-1 : ℤ) ^ (n - k) * n.choose k * ((nats l).getD (i + k) 0 : ℕ)) % N := by
  obtain ⟨r, h1, h2, h3, h4⟩ := C10_diff_spec l n
  refine ⟨r, h1, h2, h3, fun i hi => ⟨_, h4 i hi, ?_⟩⟩
  have key : ∀ s : Finset ℕ, IsMod (∑ k ∈ s, ((-1 : ℤ) ^ (n - k) * n.choose k) • l.getD (i + k) 0)
      (∑ k ∈ s, (-1 : ℤ) ^ (n - k) * n.choose k * ((nats l).getD (i + k) 0 : ℕ)) := by
    intro s
    induction s using Finset.induction_on with
    | empty => simpa using IsMod.zero (N := N)
    | insert a s ha ih =>
      rw [Finset.sum_insert ha, Finset.sum_insert ha]
      refine IsMod.add ?_ ih
      have : (nats l).getD (i + a) 0 = (l.getD (i + a) 0).val := by
        unfold nats
        rw [List.getD_eq_getElem?_getD, List.getD_eq_getElem?_getD, List.getElem?_map]
        cases l[i + a]? <;> simp
      rw [this]
      exact isMod_zsmul _ _
  exact key _

/-- C137: although differences wrap around, cumulating them restores the array. -/
theorem C137_cumsum_diff (x : Fin N) (xs : List (Fin N)) (cat : Cat) (c : Cont) :
    ∃ d, diffVec (x :: xs) 1 = .ok d ∧ (cumOp cat c (· + ·) (x :: d)).1 = x :: xs := by
  obtain ⟨d, h1, h2⟩ := C10_cumsum_diff x xs
  refine ⟨d, h1, ?_⟩
  have : (cumOp cat c (· + ·) (x :: d)).1 = partialSum (· + ·) (x :: d) := by cases cat <;> rfl
  rw [this]
  exact h2

/-! ### range, mean, average, median -/

/-- C137: `ptp` of unsigned integers is exact: it never wraps around. -/
theorem C137_ptp (l : List (Fin N)) (hne : l ≠ []) : ∃ a ∈ l, ∃ b ∈ l, (∀ x ∈ l, b ≤ x ∧ x ≤ a) ∧ (ptpU l).val = a.val - b.val := by
  rcases l with _ | ⟨x, xs⟩
  · exact absurd rfl hne
  · obtain ⟨h1, h2⟩ := maxElementLast_spec x xs
    obtain ⟨h3, h4⟩ := minElement_spec x xs
    refine ⟨_, h1, _, h3, fun y hy => ⟨h4 y hy, h2 y hy⟩, ?_⟩
    have hle := h4 _ h1
    have := Fin.sub_val_of_le hle
    exact this

theorem uOf_nat {n : ℕ} (h31 : n < 2 ^ 31) (hN : 2 ^ 31 ≤ N) : (uOf (toI32 n) : Fin N).val = n := by
  rw [toI32_of_lt (by omega) (by omega)]
  have := (IsMod.of (N := N) (n : ℤ)).val (by omega) (by omega)
  exact_mod_cast this

theorem udiv_ok {a b r : Fin N} : udiv a b = .ok r ↔ b.val ≠ 0 ∧ r.val = a.val / b.val := by
  unfold udiv
  by_cases h : b = 0
  · rw [if_pos h]; simp [h]
  · rw [if_neg h]
    have : b.val ≠ 0 := fun e => h (Fin.ext (by rw [e]; rfl))
    simp only [Res.ok.injEq, ne_eq, this, not_false_eq_true, true_and]
    rw [← Fin.val_inj, eq_comm]
    rfl

/-- C137: `mean` of unsigned integers (types of at least 31 bits, fewer than 2^31 accepted elements): undefined when nothing is accepted, otherwise the sum modulo `N`,
divided and rounded down; it is the mean rounded down whenever the sum is less than `N`. -/
theorem C137_mean (hN : 2 ^ 31 ≤ N) (l : List (Fin N)) (hne : l ≠ []) (p : Fin N → Bool) (h31 : (l.filter p).length < 2 ^ 31) :
    (l.filter p = [] → meanU l p = .ub) ∧
    (l.filter p ≠ [] → ∃ m, meanU l p = .ok m ∧ m.val = (nats (l.filter p)).sum % N / (l.filter p).length ∧
      ((nats (l.filter p)).sum < N → m.val = (nats (l.filter p)).sum / (l.filter p).length)) := by
  have hl : l.length ≠ 0 := by simpa using hne
  obtain ⟨s1, -, s2, -⟩ := C137_sum_prod l p
  have hu := uOf_nat (N := N) h31 hN
  unfold meanU
  rw [if_neg hl]
  simp only
  rw [s2]
  constructor
  · intro h
    have : (uOf (toI32 ((l.filter p).length : ℕ)) : Fin N) = 0 := Fin.ext (by rw [hu, h]; rfl)
    unfold udiv
    rw [if_pos this]
  · intro h
    have hpos := List.length_pos_iff.mpr h
    have hlt : (sumF true l p).1.val / (l.filter p).length < N := lt_of_le_of_lt (Nat.div_le_self _ _) (sumF true l p).1.isLt
    refine ⟨⟨_, hlt⟩, udiv_ok.mpr ⟨by rw [hu]; omega, by rw [hu]⟩, ?_, ?_⟩
    · simp only; rw [s1]
    · intro hs
      simp only
      rw [s1, Nat.mod_eq_of_lt hs]

/-- C137: `average` of unsigned integers: 0 for nothing or different lengths, undefined when the weights add up to a multiple of `N`, otherwise the quotient of the two sums
modulo `N`, rounded down. -/
theorem C137_average (f w : List (Fin N)) :
    (f = [] ∨ f.length ≠ w.length → averageU f w = .ok 0) ∧
    (f ≠ [] → f.length = w.length → ((nats w).sum % N = 0 → averageU f w = .ub) ∧
      ((nats w).sum % N ≠ 0 → ∃ a, averageU f w = .ok a ∧ a.val = (List.zipWith (· * ·) (nats f) (nats w)).sum % N / ((nats w).sum % N))) := by
  unfold averageU
  constructor
  · intro h
    refine if_pos ?_
    rcases h with h | h
    · exact .inl (by simp [h])
    · exact .inr h
  · intro hne hl
    obtain ⟨r, e, hr⟩ := C137_inner f w hl
    have hs := (C137_sum_prod w (fun _ => true)).1
    rw [List.filter_true] at hs
    rw [if_neg (by
      rintro (h | h)
      · exact hne (List.length_eq_zero_iff.mp h)
      · exact h hl), e, Res.bind_ok]
    constructor
    · intro h0
      have : (sumF true w fun _ => true).1 = 0 := Fin.ext (by rw [hs, h0]; rfl)
      unfold udiv
      rw [if_pos this]
    · intro h0
      have hlt : r.val / ((nats w).sum % N) < N := lt_of_le_of_lt (Nat.div_le_self _ _) r.isLt
      exact ⟨⟨_, hlt⟩, udiv_ok.mpr ⟨by rw [hs]; exact h0, by rw [hs]⟩, by simp only; rw [hr]⟩

/-- C137: `median` of unsigned integers, for every correct `nth_element`: the middle element of an odd number; of an even number the sum of the two middle elements modulo
`N`, halved and rounded down. -/
theorem C137_median (hN : 2 < N) (nth : NthImpl (Fin N)) (l : List (Fin N)) (h : 0 < l.length) :
    (l.length % 2 = 1 → medianU nth l = .ok (orderStat l (l.length / 2) (by omega))) ∧
    (l.length % 2 = 0 → ∃ m, medianU nth l = .ok m ∧
      m.val = ((orderStat l (l.length / 2 - 1) (by omega)).val + (orderStat l (l.length / 2) (by omega)).val) % N / 2) := by
  have hc := nth.correct (l.length / 2) l
  have hlt : l.length / 2 < l.length := by omega
  unfold medianU medianInplace
  simp only []
  rw [if_neg (by omega)]
  constructor
  · intro hodd
    rw [if_pos (by omega), nth_eq hc hlt]
  · intro he
    rw [if_neg (by omega), nth_eq hc hlt]
    obtain ⟨x, xs, e, hm⟩ := max_before hc hlt (by omega)
    rw [e]
    simp only [Res.bind_ok, Res.pure_eq]
    rw [hm]
    refine ⟨_, rfl, ?_⟩
    have h2 : (uOf 2 : Fin N).val = 2 := by
      have := (IsMod.of (N := N) 2).val (by omega) (by omega)
      exact_mod_cast this
    rw [show ∀ a b : Fin N, (a / b).val = a.val / b.val from fun _ _ => rfl, h2, Fin.val_add]

/-! ### variance and covariance -/

/-- The pairs accepted by the filter. -/
def accU {N : ℕ} (p : Fin N → Bool) (l1 l2 : List (Fin N)) : List (Fin N × Fin N) := (l1.zip l2).filter fun z => p z.1 && p z.2

/-- The sum of the products of the (signed) deviations from `m1` and `m2`. -/
def devU {N : ℕ} (m1 m2 : ℤ) (l : List (Fin N × Fin N)) : ℤ := (l.map fun z => ((z.1.val : ℤ) - m1) * (z.2.val - m2)).sum

omit [NeZero N] in
theorem covLoopU_value (p : Fin N → Bool) (m1 m2 : Fin N) (l1 l2 : List (Fin N)) (hl : l1.length = l2.length) (res : Fin N) (z : ℤ) (hz : IsMod res z) (cnt : ℕ) :
    ∃ r, covLoopU p m1 m2 res cnt l1 l2 = .ok (r, cnt + (accU p l1 l2).length) ∧ IsMod r (z + devU m1.val m2.val (accU p l1 l2)) := by
  induction l1 generalizing l2 res z cnt with
  | nil => exact ⟨res, rfl, by simpa [accU, devU] using hz⟩
  | cons x xs ih =>
    cases l2 with
    | nil => simp at hl
    | cons y ys =>
      simp only [List.length_cons, add_left_inj] at hl
      simp only [covLoopU]
      by_cases hp : (p x && p y) = true
      · have e : accU p (x :: xs) (y :: ys) = (x, y) :: accU p xs ys := List.filter_cons_of_pos (p := fun z : Fin N × Fin N => p z.1 && p z.2) hp
        have hm := hz.add (((IsMod.self x).sub (IsMod.self m1)).mul ((IsMod.self y).sub (IsMod.self m2)))
        obtain ⟨r, h1, h2⟩ := ih ys hl _ _ hm (cnt + 1)
        rw [if_pos hp, e]
        refine ⟨r, by rw [h1, List.length_cons]; congr 2; omega, ?_⟩
        rw [devU, List.map_cons, List.sum_cons, ← add_assoc]
        exact h2
      · have e : accU p (x :: xs) (y :: ys) = accU p xs ys := List.filter_cons_of_neg (p := fun z : Fin N × Fin N => p z.1 && p z.2) hp
        rw [if_neg hp, e]
        exact ih ys hl _ _ hz cnt

omit [NeZero N] in
theorem accU_le (p : Fin N → Bool) (l1 l2 : List (Fin N)) : (accU p l1 l2).length ≤ l1.length := by
  refine (List.length_filter_le _ _).trans ?_
  rw [List.length_zip]; omega

theorem covarianceU_short (ddof : ℤ) (l1 l2 : List (Fin N)) (h64 : l1.length ≤ 64) (hl : l1.length = l2.length) (hne : l1 ≠ []) (p : Fin N → Bool) :
    covarianceU ddof l1 l2 p = (do
      let r ← covBlockU p l1 l2
      if (r.2.2.2 : ℤ) - ddof ≤ 0 then pure (0, r.2.2.2)
      else do
        let v ← udiv r.2.2.1 (uOf (toI32 r.2.2.2 - ddof))
        pure (v, r.2.2.2)) := by
  unfold covarianceU
  rw [show require (l1.length == l2.length) = .ok () by simp [require, hl], Res.bind_ok, if_neg (by simpa using hne), pairwiseAcc2, if_neg (by simp [hl]),
    if_pos (by exact h64)]
  rfl

/-- C137: the covariance of at most 64 unsigned integers: it is undefined when nothing is accepted on one of the sides; otherwise it is the sum of the products of the
*signed* deviations from the two means, modulo `N`, divided by the count minus the correction and rounded down (0 when there are too few pairs). -/
theorem C137_covariance_partial (hN : 2 ^ 31 ≤ N) (ddof : ℤ) (hd : 0 ≤ ddof) (l1 l2 : List (Fin N)) (h64 : l1.length ≤ 64) (hl : l1.length = l2.length) (hne : l1 ≠ [])
    (p : Fin N → Bool) (m1 m2 : Fin N) (h1 : meanU l1 p = .ok m1) (h2 : meanU l2 p = .ok m2) :
    ∃ v, covarianceU ddof l1 l2 p = .ok (v, (accU p l1 l2).length) ∧ ((accU p l1 l2).length ≤ ddof → v = 0) ∧
      (ddof < (accU p l1 l2).length → (v.val : ℤ) = devU m1.val m2.val (accU p l1 l2) % N / ((accU p l1 l2).length - ddof)) := by
  obtain ⟨r, e1, e2⟩ := covLoopU_value p m1 m2 l1 l2 hl 0 0 IsMod.zero 0
  rw [zero_add] at e1 e2
  have hb : covBlockU p l1 l2 = .ok (m1, m2, r, (accU p l1 l2).length) := by
    unfold covBlockU
    rw [h1, Res.bind_ok, h2, Res.bind_ok, e1]
    rfl
  rw [covarianceU_short ddof l1 l2 h64 hl hne p, hb, Res.bind_ok]
  simp only
  have hle := accU_le p l1 l2
  generalize (accU p l1 l2).length = n at *
  by_cases hn : (n : ℤ) - ddof ≤ 0
  · rw [if_pos hn]
    exact ⟨0, rfl, fun _ => rfl, fun h => by omega⟩
  · rw [if_neg hn, toI32_of_lt (by omega) (by omega)]
    have hu : ((uOf ((n : ℤ) - ddof) : Fin N).val : ℤ) = n - ddof := (IsMod.of _).val (by omega) (by omega)
    have hlt : r.val / (uOf ((n : ℤ) - ddof) : Fin N).val < N := lt_of_le_of_lt (Nat.div_le_self _ _) r.isLt
    refine ⟨⟨_, hlt⟩, ?_, fun h => by omega, fun _ => ?_⟩
    · rw [(udiv_ok (r := ⟨_, hlt⟩)).mpr ⟨by omega, rfl⟩]; rfl
    · rw [Int.natCast_div, hu, show (r.val : ℤ) = _ from e2]

omit [NeZero N] in
theorem accU_true (l : List (Fin N)) : accU (fun _ => true) l l = l.map fun x => (x, x) := by
  simp [accU, List.zip_eq_zipWith, List.zipWith_self]

/-- The stored numbers as integers. -/
def intsU {N : ℕ} (l : List (Fin N)) : List ℤ := l.map fun x => (x.val : ℤ)

omit [NeZero N] in
theorem intsU_sum (l : List (Fin N)) : (intsU l).sum = (nats l).sum := by
  induction l with
  | nil => rfl
  | cons x xs ih =>
    simp only [intsU, nats, List.map_cons, List.sum_cons, Nat.cast_add] at ih ⊢
    rw [ih]

/-- C137: although the deviations from the mean wrap around, the variance of at most 64 unsigned integers of at most `M` is right when `n·M²` is less than `N`: it is the sum
of the squared deviations from the mean rounded down, divided by `n` and rounded down, less than 1 away from the variance. -/
theorem C137_variance_partial (hN : 2 ^ 31 ≤ N) (l : List (Fin N)) (h64 : l.length ≤ 64) (hne : l ≠ []) (M : ℕ) (hM : ∀ x ∈ l, x.val ≤ M) (hb : l.length * M ^ 2 < N) :
    ∃ v, varU 0 l (fun _ => true) = .ok (v, l.length) ∧
      (v.val : ℤ) = ((intsU l).map fun x : ℤ => (x - (((nats l).sum : ℕ) : ℤ) / (l.length : ℤ)) ^ 2).sum / l.length ∧ |(v.val : ℚ) - exactVar (intsU l)| < 1 := by
  have hpos : 0 < l.length := List.length_pos_iff.mpr hne
  have hMM : M ≤ M ^ 2 := by nlinarith [Nat.zero_le M, Nat.le_self_pow (n := 2) (by norm_num) M]
  have hsumle : (nats l).sum ≤ l.length * M := by
    have := List.sum_le_card_nsmul (nats l) M (by
      intro x hx
      obtain ⟨y, hy, rfl⟩ := List.mem_map.mp hx
      exact hM y hy)
    simpa [nats] using this
  have hsumN : (nats l).sum < N := lt_of_le_of_lt (hsumle.trans (Nat.mul_le_mul_left _ hMM)) hb
  obtain ⟨m, e1, -, e2⟩ := (C137_mean hN l hne (fun _ => true) (by rw [List.filter_true]; omega)).2 (by simpa using hne)
  rw [List.filter_true] at e2
  have hm := e2 hsumN
  have hmM : m.val ≤ M := by
    rw [hm]
    exact Nat.div_le_of_le_mul hsumle
  obtain ⟨v, h1, -, h2⟩ := C137_covariance_partial hN 0 le_rfl l l h64 rfl hne (fun _ => true) m m e1 e1
  rw [accU_true, List.length_map] at h1 h2
  have hv := h2 (by exact_mod_cast hpos)
  have hdev : devU (m.val : ℤ) m.val (l.map fun x => (x, x)) = ((intsU l).map fun x : ℤ => (x - (m.val : ℤ)) ^ 2).sum := by
    unfold devU intsU
    rw [List.map_map, List.map_map]
    congr 1
    refine List.map_congr_left fun x _ => ?_
    simp only [Function.comp]
    ring
  have h0 : 0 ≤ ((intsU l).map fun x : ℤ => (x - (m.val : ℤ)) ^ 2).sum := by
    refine List.sum_nonneg fun x hx => ?_
    obtain ⟨y, -, rfl⟩ := List.mem_map.mp hx
    exact sq_nonneg _
  have hlt : ((intsU l).map fun x : ℤ => (x - (m.val : ℤ)) ^ 2).sum < N := by
    have hle := List.sum_le_card_nsmul ((intsU l).map fun x => (x - (m.val : ℤ)) ^ 2) ((M : ℤ) ^ 2) (by
      intro x hx
      obtain ⟨y, hy, rfl⟩ := List.mem_map.mp hx
      obtain ⟨w, hw, rfl⟩ := List.mem_map.mp hy
      refine sq_le_sq' ?_ ?_
      · have := hM w hw; omega
      · have := hM w hw; omega)
    rw [List.length_map, intsU, List.length_map, nsmul_eq_mul] at hle
    refine lt_of_le_of_lt hle ?_
    exact_mod_cast hb
  rw [hdev, Int.emod_eq_of_lt h0 hlt, sub_zero] at hv
  refine ⟨v, h1, ?_, ?_⟩
  · rw [hv, hm, Int.natCast_div]
  · -- the signed variance of the same numbers, in a range that is large enough
    have hne' : intsU l ≠ [] := by simpa [intsU] using hne
    have hlen : (intsU l).length = l.length := by simp [intsU]
    obtain ⟨w, k1⟩ := C135_short_defined (lo := -(l.length * (4 * (M : ℤ) ^ 2))) (hi := l.length * (4 * (M : ℤ) ^ 2)) 0 M le_rfl (intsU l) (intsU l) rfl
      (by rw [hlen]; exact h64) hne' (by rw [hlen]; exact_mod_cast hpos)
      (by
        intro x hx
        obtain ⟨y, hy, rfl⟩ := List.mem_map.mp hx
        rw [Nat.abs_cast]; exact_mod_cast hM y hy)
      (by
        intro x hx
        obtain ⟨y, hy, rfl⟩ := List.mem_map.mp hx
        rw [Nat.abs_cast]; exact_mod_cast hM y hy) (by rw [hlen])
    have hR : Repr' (-(l.length * (4 * (M : ℤ) ^ 2))) (l.length * (4 * (M : ℤ) ^ 2)) 0 := by
      have : (0 : ℤ) ≤ l.length * (4 * (M : ℤ) ^ 2) := by positivity
      exact ⟨by omega, this⟩
    obtain ⟨-, k2⟩ := C135_short_error_partial (intsU l) (by rw [hlen]; exact h64) hne' hR w _ k1
    obtain ⟨-, -, -, k3⟩ := C135_short 0 (intsU l) (intsU l) (by rw [hlen]; exact h64) _ hR w _ k1
    have k4 := k3 (by rw [hlen]; exact_mod_cast hpos) (by rw [hlen]; exact hpos)
    have hw : w = v.val := by
      have hsub : ((intsU l).filter fun _ => true) = intsU l := List.filter_true _
      have htm : truncMean (fun _ => true) (intsU l) = m.val := by
        unfold truncMean
        rw [hsub, intsU_sum, hlen, hm, Int.natCast_div, Int.tdiv_eq_ediv_of_nonneg (by positivity)]
      rw [k4, htm, accPairs_true, hlen, sub_zero, hv, devSum, List.map_map]
      have he : (fun z : ℤ × ℤ => (z.1 - (m.val : ℤ)) * (z.2 - m.val)) ∘ (fun x => (x, x)) = fun x => (x - (m.val : ℤ)) ^ 2 := by
        funext x; simp only [Function.comp]; ring
      rw [he, Int.tdiv_eq_ediv_of_nonneg h0]
    rw [hw] at k2
    exact_mod_cast k2

end

/-! ### the English claims that fail, and concrete cases -/

instance neZeroU32 : NeZero (4294967296 : ℕ) := ⟨by norm_num⟩

/-- C137, false: with 32-bit unsigned integers the mean of `{4294967295, 1}` is 0, their difference `1 - 4294967295` is 2, and the variance of `{0, 2147483648}` is 0. -/
theorem C137_wrap_false : meanU ([4294967295, 1] : List (Fin 4294967296)) (fun _ => true) = .ok 0 ∧
    diffVec ([4294967295, 1] : List (Fin 4294967296)) 1 = .ok [2] ∧ varU 0 ([0, 2147483648] : List (Fin 4294967296)) (fun _ => true) = .ok (0, 2) := by
  refine ⟨by decide +kernel, by decide +kernel, ?_⟩
  unfold varU
  rw [covarianceU_short 0 _ _ (by decide) rfl (by decide)]
  decide +kernel

/-- C137, false: the median of `{4294967295, 1}` is 0, for every `nth_element`. -/
theorem C137_median_false (nth : NthImpl (Fin 4294967296)) : medianU nth [4294967295, 1] = .ok 0 := by
  obtain ⟨m, h1, h2⟩ := (C137_median (by norm_num) nth [4294967295, 1] (by simp)).2 rfl
  have o0 : (orderStat ([4294967295, 1] : List (Fin 4294967296)) 0 (by simp)).val = 1 := by decide +kernel
  have o1 : (orderStat ([4294967295, 1] : List (Fin 4294967296)) 1 (by simp)).val = 4294967295 := by decide +kernel
  rw [h1]
  congr 1
  refine Fin.ext ?_
  rw [h2]
  simp only [List.length_cons, List.length_nil, Nat.zero_add, Nat.reduceAdd, Nat.reduceDiv, Nat.reduceSub, o0, o1]
  rfl

/-- The hypotheses are met: `C137_variance_partial` gives the variance of four `unsigned` (2043, exactly 2043.25). -/
example : ∃ v, varU 0 ([3, 120, 17, 50] : List (Fin 4294967296)) (fun _ => true) = .ok (v, 4) ∧ v.val = 2043 := by
  obtain ⟨v, h1, h2, -⟩ := C137_variance_partial (N := 4294967296) (by norm_num) [3, 120, 17, 50] (by simp) (by simp) 120 (by intro x hx; simp only [List.mem_cons, List.not_mem_nil, or_false] at hx; rcases hx with rfl | rfl | rfl | rfl <;> decide) (by norm_num)
  refine ⟨v, h1, ?_⟩
  have : ((v.val : ℕ) : ℤ) = 2043 := by rw [h2]; decide +kernel
  exact_mod_cast this

example : (sumF true ([4000000000, 500000000] : List (Fin 4294967296)) (fun _ => true)).1.val = 205032704 := by
  rw [(C137_sum_prod _ _).1]; decide +kernel

example : ∃ a, averageU ([10, 21] : List (Fin 4294967296)) [1, 2] = .ok a ∧ a.val = 17 := by
  obtain ⟨a, h1, h2⟩ := ((C137_average ([10, 21] : List (Fin 4294967296)) [1, 2]).2 (by simp) rfl).2 (by decide)
  exact ⟨a, h1, by rw [h2]; decide +kernel⟩

end SciCpp
