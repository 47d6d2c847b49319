import Verif.Model.IntVar
import Verif.Props.IntRed
/-
  Property theorems C135: variance and covariance of integers.
-/
namespace SciCpp

/-! ### Specification -/

/-- The pairs of elements accepted by the filter. -/
def accPairs (p : ℤ → Bool) (l1 l2 : List ℤ) : List (ℤ × ℤ) := (l1.zip l2).filter fun z => p z.1 && p z.2

/-- The mean of the accepted elements, truncated towards zero. -/
def truncMean (p : ℤ → Bool) (l : List ℤ) : ℤ := (l.filter p).sum.tdiv (l.filter p).length

/-- The sum of the products of the deviations from `m1` and `m2`. -/
def devSum (m1 m2 : ℤ) (l : List (ℤ × ℤ)) : ℤ := (l.map fun z => (z.1 - m1) * (z.2 - m2)).sum

/-- The population variance. -/
def exactVar (l : List ℤ) : ℚ := (l.map fun x : ℤ => ((x : ℚ) - (l.sum : ℚ) / l.length) ^ 2).sum / l.length

/-! ### the accumulation -/

section
variable {lo hi : ℤ}

theorem cdiv_ok {a b s : ℤ} : cdiv lo hi a b = .ok s ↔ b ≠ 0 ∧ Repr' lo hi (a.tdiv b) ∧ s = a.tdiv b := by
  unfold cdiv
  by_cases h : b = 0
  · rw [if_pos h]; simp [h]
  · rw [if_neg h, chk_ok]; simp [h]

theorem covLoop_value (p : ℤ → Bool) (m1 m2 : ℤ) (l1 l2 : List ℤ) (hl : l1.length = l2.length) (res : ℤ) (cnt : ℕ) (r : ℤ) (c : ℕ)
    (h : covLoopInt lo hi p m1 m2 res cnt l1 l2 = .ok (r, c)) : r = res + devSum m1 m2 (accPairs p l1 l2) ∧ c = cnt + (accPairs p l1 l2).length := by
  induction l1 generalizing l2 res cnt with
  | nil =>
    simp only [covLoopInt, Res.ok.injEq, Prod.mk.injEq] at h
    simp [accPairs, devSum, h.1, h.2]
  | cons x xs ih =>
    cases l2 with
    | nil => simp at hl
    | cons y ys =>
      simp only [List.length_cons, add_left_inj] at hl
      simp only [covLoopInt] at h
      by_cases hp : (p x && p y) = true
      · rw [if_pos hp] at h
        obtain ⟨dx, e1, h⟩ := Res.bind_eq_ok'.mp h
        obtain ⟨dy, e2, h⟩ := Res.bind_eq_ok'.mp h
        obtain ⟨d, e3, h⟩ := Res.bind_eq_ok'.mp h
        obtain ⟨s, e4, h⟩ := Res.bind_eq_ok'.mp h
        obtain ⟨h1, h2⟩ := ih ys hl _ _ h
        have := (chk_ok.mp e1).2; have := (chk_ok.mp e2).2; have := (chk_ok.mp e3).2; have := (chk_ok.mp e4).2
        subst_vars
        have e : accPairs p (x :: xs) (y :: ys) = (x, y) :: accPairs p xs ys := by
          exact List.filter_cons_of_pos (p := fun z : ℤ × ℤ => p z.1 && p z.2) hp
        rw [e]
        simp only [devSum, List.map_cons, List.sum_cons, List.length_cons]
        constructor <;> ring
      · rw [if_neg hp] at h
        have e : accPairs p (x :: xs) (y :: ys) = accPairs p xs ys := by
          exact List.filter_cons_of_neg (p := fun z : ℤ × ℤ => p z.1 && p z.2) hp
        rw [e]
        exact ih ys hl _ _ h

theorem covAcc_short (p : ℤ → Bool) (l1 l2 : List ℤ) (hl : l1.length = l2.length) (h : l1.length ≤ 64) :
    covAccInt lo hi p l1 l2 = covBlockInt lo hi p l1 l2 := by
  unfold covAccInt
  rw [pairwiseAcc2, if_neg (by simp [hl]), if_pos (by exact h)]
  rfl

theorem pairwise_ok (p : ℤ → Bool) (l1 l2 : List ℤ) (hl : l1.length = l2.length) :
    pairwiseAcc2 (γ := Res (CovAcc ℤ)) pwBlock (fun a b => .ok (covBlockInt lo hi p a b)) (fun a b => do covCombineInt lo hi (← a) (← b)) l1 l2 =
      .ok (covAccInt lo hi p l1 l2) := by
  unfold covAccInt
  induction hn : l1.length using Nat.strong_induction_on generalizing l1 l2 with
  | _ n ih =>
    by_cases h : l1.length ≤ 64
    · rw [pairwiseAcc2, if_neg (by simp [hl]), if_pos (by exact h)]; rfl
    · rw [pairwiseAcc2, if_neg (by simp [hl]), if_neg (by exact h)]
      have a1 := ih (l1.take (l1.length / 2)).length (by simp; omega) (l1.take (l1.length / 2)) (l2.take (l1.length / 2)) (by simp [hl]) rfl
      have a2 := ih (l1.drop (l1.length / 2)).length (by simp; omega) (l1.drop (l1.length / 2)) (l2.drop (l1.length / 2)) (by simp [hl]) rfl
      rw [a1, a2]; rfl

theorem covAcc_long (p : ℤ → Bool) (l1 l2 : List ℤ) (hl : l1.length = l2.length) (h : 64 < l1.length) :
    covAccInt lo hi p l1 l2 = (do
      let a ← covAccInt lo hi p (l1.take (l1.length / 2)) (l2.take (l1.length / 2))
      let b ← covAccInt lo hi p (l1.drop (l1.length / 2)) (l2.drop (l1.length / 2))
      covCombineInt lo hi a b) := by
  have e := pairwise_ok (lo := lo) (hi := hi) p l1 l2 hl
  rw [pairwiseAcc2, if_neg (by simp [hl]), if_neg (show ¬ l1.length ≤ pwBlock from by simpa [pwBlock] using h),
    pairwise_ok p (l1.take _) (l2.take _) (by simp [hl]), pairwise_ok p (l1.drop _) (l2.drop _) (by simp [hl])] at e
  exact (Res.ok.inj e).symm

theorem meanCombine_ok {n1 n2 : ℕ} {m1 m2 m : ℤ} (h : meanCombineInt lo hi n1 n2 m1 m2 = .ok m) :
    toI32 (n1 + n2 : ℕ) ≠ 0 ∧ m = (1 : ℤ).tdiv (toI32 (n1 + n2 : ℕ)) * (toI32 n1 * m1 + toI32 n2 * m2) := by
  unfold meanCombineInt at h
  generalize toI32 (n1 : ℤ) = t1 at *
  generalize toI32 (n2 : ℤ) = t2 at *
  generalize toI32 ((n1 + n2 : ℕ) : ℤ) = t3 at *
  obtain ⟨k, e1, h⟩ := Res.bind_eq_ok'.mp h
  obtain ⟨a, e2, h⟩ := Res.bind_eq_ok'.mp h
  obtain ⟨b, e3, h⟩ := Res.bind_eq_ok'.mp h
  obtain ⟨s, e4, h⟩ := Res.bind_eq_ok'.mp h
  obtain ⟨-, rfl⟩ := chk_ok.mp e2
  obtain ⟨-, rfl⟩ := chk_ok.mp e3
  obtain ⟨-, rfl⟩ := chk_ok.mp e4
  obtain ⟨k0, -, rfl⟩ := cdiv_ok.mp e1
  exact ⟨k0, (chk_ok.mp h).2⟩

theorem covCombine_ok {m11 m12 c1 m21 m22 c2 m1 m2 c : ℤ} {n1 n2 n : ℕ} (h : covCombineInt lo hi (m11, m12, c1, n1) (m21, m22, c2, n2) = .ok (m1, m2, c, n)) :
    meanCombineInt lo hi n1 n2 m11 m21 = .ok m1 ∧ meanCombineInt lo hi n1 n2 m12 m22 = .ok m2 ∧
    c = c1 + c2 + (toI32 n1 * toI32 n2).tdiv (toI32 (n1 + n2 : ℕ)) * (m12 - m22) * (m11 - m21) ∧ n = n1 + n2 ∧ Repr' lo hi (toI32 n1 * toI32 n2) := by
  simp only [covCombineInt] at h
  generalize meanCombineInt lo hi n1 n2 m11 m21 = u1 at *
  generalize meanCombineInt lo hi n1 n2 m12 m22 = u2 at *
  generalize toI32 (n1 : ℤ) = t1 at *
  generalize toI32 (n2 : ℤ) = t2 at *
  generalize toI32 ((n1 + n2 : ℕ) : ℤ) = t3 at *
  obtain ⟨a1, e1, h⟩ := Res.bind_eq_ok'.mp h
  obtain ⟨a2, e2, h⟩ := Res.bind_eq_ok'.mp h
  obtain ⟨a3, e3, h⟩ := Res.bind_eq_ok'.mp h
  obtain ⟨a4, e4, h⟩ := Res.bind_eq_ok'.mp h
  obtain ⟨a5, e5, h⟩ := Res.bind_eq_ok'.mp h
  obtain ⟨a6, e6, h⟩ := Res.bind_eq_ok'.mp h
  obtain ⟨a7, e7, h⟩ := Res.bind_eq_ok'.mp h
  obtain ⟨a8, e8, h⟩ := Res.bind_eq_ok'.mp h
  obtain ⟨a9, e9, h⟩ := Res.bind_eq_ok'.mp h
  obtain ⟨a10, e10, h⟩ := Res.bind_eq_ok'.mp h
  obtain ⟨-, rfl⟩ := chk_ok.mp e3
  obtain ⟨g4, rfl⟩ := chk_ok.mp e4
  obtain ⟨-, -, rfl⟩ := cdiv_ok.mp e5
  obtain ⟨-, rfl⟩ := chk_ok.mp e6
  obtain ⟨-, rfl⟩ := chk_ok.mp e7
  obtain ⟨-, rfl⟩ := chk_ok.mp e8
  obtain ⟨-, rfl⟩ := chk_ok.mp e9
  obtain ⟨-, rfl⟩ := chk_ok.mp e10
  simp only [Res.pure_eq, Res.ok.injEq, Prod.mk.injEq] at h
  obtain ⟨rfl, rfl, rfl, rfl⟩ := h
  exact ⟨e1, e2, rfl, rfl, g4⟩

theorem covBlock_ok {p : ℤ → Bool} {l1 l2 : List ℤ} {m1 m2 c : ℤ} {n : ℕ} (hl : l1.length = l2.length)
    (h : covBlockInt lo hi p l1 l2 = .ok (m1, m2, c, n)) :
    meanIntR lo hi l1 p = .ok m1 ∧ meanIntR lo hi l2 p = .ok m2 ∧ c = devSum m1 m2 (accPairs p l1 l2) ∧ n = (accPairs p l1 l2).length := by
  simp only [covBlockInt] at h
  obtain ⟨a1, e1, h⟩ := Res.bind_eq_ok'.mp h
  obtain ⟨a2, e2, h⟩ := Res.bind_eq_ok'.mp h
  obtain ⟨⟨r, k⟩, e3, h⟩ := Res.bind_eq_ok'.mp h
  simp only [Res.pure_eq, Res.ok.injEq, Prod.mk.injEq] at h
  obtain ⟨rfl, rfl, rfl, rfl⟩ := h
  obtain ⟨h1, h2⟩ := covLoop_value p _ _ l1 l2 hl _ _ _ _ e3
  exact ⟨e1, e2, by rw [h1, zero_add], by rw [h2, zero_add]⟩

theorem accPairs_split (p : ℤ → Bool) (k : ℕ) (l1 l2 : List ℤ) :
    accPairs p l1 l2 = accPairs p (l1.take k) (l2.take k) ++ accPairs p (l1.drop k) (l2.drop k) := by
  unfold accPairs
  rw [← List.filter_append]
  congr 1
  induction k generalizing l1 l2 with
  | zero => simp
  | succ k ih =>
    cases l1 with
    | nil => simp
    | cons x xs =>
      cases l2 with
      | nil => simp
      | cons y ys => simpa using ih xs ys

/-- Induction over the recursion of the accumulation. -/
theorem covAcc_induct {P : List ℤ → List ℤ → CovAcc ℤ → Prop} (p : ℤ → Bool)
    (base : ∀ l1 l2 r, l1.length = l2.length → l1.length ≤ 64 → covBlockInt lo hi p l1 l2 = .ok r → P l1 l2 r)
    (step : ∀ l1 l2 a b r, l1.length = l2.length → 64 < l1.length → P (l1.take (l1.length / 2)) (l2.take (l1.length / 2)) a →
      P (l1.drop (l1.length / 2)) (l2.drop (l1.length / 2)) b → covCombineInt lo hi a b = .ok r → P l1 l2 r)
    (l1 l2 : List ℤ) (hl : l1.length = l2.length) (r : CovAcc ℤ) (h : covAccInt lo hi p l1 l2 = .ok r) : P l1 l2 r := by
  induction hn : l1.length using Nat.strong_induction_on generalizing l1 l2 r with
  | _ n ih =>
    by_cases hs : l1.length ≤ 64
    · rw [covAcc_short p l1 l2 hl hs] at h
      exact base l1 l2 r hl hs h
    · rw [covAcc_long p l1 l2 hl (by omega)] at h
      obtain ⟨a, e1, h⟩ := Res.bind_eq_ok'.mp h
      obtain ⟨b, e2, h⟩ := Res.bind_eq_ok'.mp h
      exact step l1 l2 a b r hl (by omega) (ih _ (by simp; omega) _ _ (by simp [hl]) a e1 rfl) (ih _ (by simp; omega) _ _ (by simp [hl]) b e2 rfl) h

/-- The count is the number of accepted pairs. -/
theorem covAcc_count (p : ℤ → Bool) (l1 l2 : List ℤ) (hl : l1.length = l2.length) (r : CovAcc ℤ) (h : covAccInt lo hi p l1 l2 = .ok r) :
    r.2.2.2 = (accPairs p l1 l2).length := by
  refine covAcc_induct (P := fun l1 l2 r => r.2.2.2 = (accPairs p l1 l2).length) p ?_ ?_ l1 l2 hl r h
  · rintro l1 l2 ⟨m1, m2, c, n⟩ hl - h
    exact (covBlock_ok hl h).2.2.2
  · rintro l1 l2 ⟨m11, m12, c1, n1⟩ ⟨m21, m22, c2, n2⟩ ⟨m1, m2, c, n⟩ hl - h1 h2 h
    simp only at h1 h2 ⊢
    rw [(covCombine_ok h).2.2.2.1, h1, h2, accPairs_split p (l1.length / 2) l1 l2, List.length_append]

theorem accPairs_le (p : ℤ → Bool) (l1 l2 : List ℤ) : (accPairs p l1 l2).length ≤ l1.length := by
  refine (List.length_filter_le _ _).trans ?_
  rw [List.length_zip]; omega

/-! ### C135 -/

theorem devSum_self_nonneg (m : ℤ) (p : ℤ → Bool) (l : List ℤ) : 0 ≤ devSum m m (accPairs p l l) := by
  refine List.sum_nonneg ?_
  intro x hx
  obtain ⟨z, hz, rfl⟩ := List.mem_map.mp hx
  have : z ∈ l.zip l := List.mem_of_mem_filter hz
  rw [List.zip_eq_zipWith, List.zipWith_self] at this
  obtain ⟨a, -, rfl⟩ := List.mem_map.mp this
  exact mul_self_nonneg _

theorem covAcc_nonneg (p : ℤ → Bool) (l : List ℤ) (hlen : l.length < 2 ^ 31) (r : CovAcc ℤ) (h : covAccInt lo hi p l l = .ok r) :
    r.1 = r.2.1 ∧ 0 ≤ r.2.2.1 := by
  refine covAcc_induct (P := fun l1 l2 r => l1 = l2 → l1.length < 2 ^ 31 → r.2.2.2 ≤ l1.length ∧ r.1 = r.2.1 ∧ 0 ≤ r.2.2.1) p ?_ ?_ l l rfl r h rfl hlen |>.2
  · rintro l1 l2 ⟨m1, m2, c, n⟩ hl - h rfl -
    obtain ⟨h1, h2, h3, h4⟩ := covBlock_ok hl h
    have : m1 = m2 := Res.ok.inj (h1.symm.trans h2)
    subst this
    exact ⟨by rw [h4]; exact accPairs_le _ _ _, rfl, by rw [h3]; exact devSum_self_nonneg _ _ _⟩
  · rintro l1 l2 ⟨m11, m12, c1, n1⟩ ⟨m21, m22, c2, n2⟩ ⟨m1, m2, c, n⟩ hl - h1 h2 h rfl hlen
    obtain ⟨k1, k, k2⟩ := h1 rfl (by simp; omega)
    obtain ⟨j1, j, j2⟩ := h2 rfl (by simp; omega)
    replace k : m11 = m12 := k
    replace j : m21 = m22 := j
    subst k j
    obtain ⟨e1, e2, e3, e4, -⟩ := covCombine_ok h
    simp only [List.length_take, List.length_drop] at k1 j1 k2 j2 ⊢
    refine ⟨by omega, Res.ok.inj (e1.symm.trans e2), ?_⟩
    rw [e3, toI32_of_lt (by omega) (by omega), toI32_of_lt (by omega) (by omega), toI32_of_lt (by omega) (by omega)]
    have : 0 ≤ ((n1 : ℤ) * n2).tdiv ((n1 + n2 : ℕ) : ℤ) := Int.tdiv_nonneg (by positivity) (by positivity)
    have := mul_nonneg this (mul_self_nonneg (m11 - m21))
    rw [mul_assoc]
    omega

/-- C135: the variance of integers, when it is defined, is not negative: for every filter, every correction and every length. -/
theorem C135_nonneg (ddof : ℤ) (l : List ℤ) (hlen : l.length < 2 ^ 31) (p : ℤ → Bool) (v : ℤ) (c : ℕ) (h : varInt lo hi ddof l p = .ok (v, c)) :
    0 ≤ v ∧ c = (l.filter p).length := by
  have hz : (accPairs p l l).length = (l.filter p).length := by
    unfold accPairs
    rw [List.zip_eq_zipWith, List.zipWith_self, List.filter_map, List.length_map]
    congr 1
    refine List.filter_congr fun x _ => ?_
    simp
  unfold varInt covarianceInt at h
  simp only [beq_self_eq_true, require, if_true, Res.bind_ok] at h
  by_cases h0 : l.length = 0
  · rw [if_pos h0] at h
    simp only [Res.pure_eq, Res.ok.injEq, Prod.mk.injEq] at h
    obtain ⟨rfl, rfl⟩ := h
    rw [List.length_eq_zero_iff] at h0
    subst h0
    simp
  · rw [if_neg h0] at h
    obtain ⟨r, e, h⟩ := Res.bind_eq_ok'.mp h
    have hc := covAcc_count p l l rfl r e
    obtain ⟨-, h2⟩ := covAcc_nonneg p l hlen r e
    have hle := accPairs_le p l l
    split at h
    · simp only [Res.pure_eq, Res.ok.injEq, Prod.mk.injEq] at h
      obtain ⟨rfl, rfl⟩ := h
      exact ⟨le_rfl, by rw [hc, hz]⟩
    · rename_i hd
      obtain ⟨w, e', h⟩ := Res.bind_eq_ok'.mp h
      simp only [Res.pure_eq, Res.ok.injEq, Prod.mk.injEq] at h
      obtain ⟨rfl, rfl⟩ := h
      obtain ⟨-, -, rfl⟩ := cdiv_ok.mp e'
      refine ⟨Int.tdiv_nonneg h2 ?_, by rw [hc, hz]⟩
      rw [toI32_of_lt (by omega) (by omega)]
      omega

theorem accPairs_swap (p : ℤ → Bool) (l1 l2 : List ℤ) : accPairs p l2 l1 = (accPairs p l1 l2).map Prod.swap := by
  unfold accPairs
  rw [← List.zip_swap l1 l2, List.filter_map]
  congr 1
  refine List.filter_congr fun x _ => ?_
  simp [Bool.and_comm]

theorem devSum_swap (m1 m2 : ℤ) (p : ℤ → Bool) (l1 l2 : List ℤ) : devSum m2 m1 (accPairs p l2 l1) = devSum m1 m2 (accPairs p l1 l2) := by
  rw [accPairs_swap, devSum, devSum, List.map_map]
  congr 1
  refine List.map_congr_left fun z _ => ?_
  simp [mul_comm]

theorem covAcc_swap (p : ℤ → Bool) (l1 l2 : List ℤ) (hl : l1.length = l2.length) (r s : CovAcc ℤ) (h : covAccInt lo hi p l1 l2 = .ok r)
    (h' : covAccInt lo hi p l2 l1 = .ok s) : s = (r.2.1, r.1, r.2.2.1, r.2.2.2) := by
  induction hn : l1.length using Nat.strong_induction_on generalizing l1 l2 r s with
  | _ n ih =>
    obtain ⟨m1, m2, c, n1⟩ := r
    obtain ⟨m1', m2', c', n1'⟩ := s
    by_cases hs : l1.length ≤ 64
    · rw [covAcc_short p l1 l2 hl hs] at h
      rw [covAcc_short p l2 l1 hl.symm (by omega)] at h'
      obtain ⟨a1, a2, a3, a4⟩ := covBlock_ok hl h
      obtain ⟨b1, b2, b3, b4⟩ := covBlock_ok hl.symm h'
      cases a1.symm.trans b2
      cases a2.symm.trans b1
      rw [a3, a4, b3, b4, devSum_swap, accPairs_swap, List.length_map]
    · rw [covAcc_long p l1 l2 hl (by omega)] at h
      rw [covAcc_long p l2 l1 hl.symm (by omega)] at h'
      obtain ⟨⟨am1, am2, ac, an⟩, e1, h⟩ := Res.bind_eq_ok'.mp h
      obtain ⟨⟨bm1, bm2, bc, bn⟩, e2, h⟩ := Res.bind_eq_ok'.mp h
      obtain ⟨a', f1, h'⟩ := Res.bind_eq_ok'.mp h'
      obtain ⟨b', f2, h'⟩ := Res.bind_eq_ok'.mp h'
      rw [← hl] at f1 f2
      obtain rfl := ih _ (by simp; omega) _ _ (by simp [hl]) _ _ e1 f1 rfl
      obtain rfl := ih _ (by simp; omega) _ _ (by simp [hl]) _ _ e2 f2 rfl
      obtain ⟨k1, k2, k3, k4, -⟩ := covCombine_ok h
      obtain ⟨j1, j2, j3, j4, -⟩ := covCombine_ok h'
      cases k1.symm.trans j2
      cases k2.symm.trans j1
      rw [k3, k4, j3, j4]
      simp only [Prod.mk.injEq, true_and, and_true]
      ring

/-- C135: the covariance of integers does not depend on the order of the two arrays, when both orders are defined: for every filter, correction and length. -/
theorem C135_symmetric (ddof : ℤ) (l1 l2 : List ℤ) (p : ℤ → Bool) (r s : ℤ × ℕ) (h : covarianceInt lo hi ddof l1 l2 p = .ok r)
    (h' : covarianceInt lo hi ddof l2 l1 p = .ok s) : r = s := by
  unfold covarianceInt at h h'
  by_cases hl : l1.length = l2.length
  · rw [hl] at h
    rw [hl] at h'
    simp only [beq_self_eq_true, require, if_true, Res.bind_ok] at h h'
    by_cases h0 : l2.length = 0
    · rw [if_pos h0] at h h'
      cases h.symm.trans h'; rfl
    · rw [if_neg h0] at h h'
      obtain ⟨a, e, h⟩ := Res.bind_eq_ok'.mp h
      obtain ⟨b, e', h'⟩ := Res.bind_eq_ok'.mp h'
      obtain rfl := covAcc_swap p l1 l2 hl a b e e'
      exact Res.ok.inj (h.symm.trans h')
  · have : require (l1.length == l2.length) = .ub := by simp [require, hl]
    rw [this] at h
    cases h

theorem mean_trunc (p : ℤ → Bool) (l : List ℤ) (h0 : Repr' lo hi 0) (hlen : l.length < 2 ^ 31) (hne : l.filter p ≠ []) (m : ℤ)
    (h : meanIntR lo hi l p = .ok m) : m = truncMean p l :=
  ((C95_mean lo hi h0 l p hne (lt_of_le_of_lt (List.length_filter_le _ _) hlen) m).mp h).2

theorem accPairs_ne (p : ℤ → Bool) (l1 l2 : List ℤ) (h : accPairs p l1 l2 ≠ []) : l1.filter p ≠ [] ∧ l2.filter p ≠ [] := by
  obtain ⟨z, hz⟩ := List.exists_mem_of_ne_nil _ h
  obtain ⟨h1, h2⟩ := List.mem_filter.mp hz
  obtain ⟨a, b⟩ := List.of_mem_zip h1
  simp only [Bool.and_eq_true] at h2
  exact ⟨List.ne_nil_of_mem (List.mem_filter.mpr ⟨a, h2.1⟩), List.ne_nil_of_mem (List.mem_filter.mpr ⟨b, h2.2⟩)⟩

/-- C135: the covariance of at most 64 integers, when it is defined, is the sum of the products of the deviations from the truncated means, divided by the number of
accepted pairs minus the correction and truncated; it is 0 (the "NaN" and "infinity" of an integer type) when there are too few. -/
theorem C135_short (ddof : ℤ) (l1 l2 : List ℤ) (h64 : l1.length ≤ 64) (p : ℤ → Bool) (h0 : Repr' lo hi 0) (v : ℤ) (c : ℕ)
    (h : covarianceInt lo hi ddof l1 l2 p = .ok (v, c)) :
    l1.length = l2.length ∧ c = (accPairs p l1 l2).length ∧
    ((c : ℤ) ≤ ddof → v = 0) ∧ (ddof < c → 0 < c → v = (devSum (truncMean p l1) (truncMean p l2) (accPairs p l1 l2)).tdiv (c - ddof)) := by
  unfold covarianceInt at h
  by_cases hl : l1.length = l2.length
  · rw [show require (l1.length == l2.length) = .ok () by simp [require, hl], Res.bind_ok] at h
    refine ⟨hl, ?_⟩
    by_cases h1 : l1.length = 0
    · rw [if_pos h1] at h
      simp only [Res.pure_eq, Res.ok.injEq, Prod.mk.injEq] at h
      obtain ⟨rfl, rfl⟩ := h
      rw [List.length_eq_zero_iff] at h1
      subst h1
      simp [accPairs]
    · rw [if_neg h1] at h
      obtain ⟨⟨m1, m2, s, n⟩, e, h⟩ := Res.bind_eq_ok'.mp h
      rw [covAcc_short p l1 l2 hl h64] at e
      obtain ⟨a1, a2, a3, a4⟩ := covBlock_ok hl e
      have hle := accPairs_le p l1 l2
      simp only at h
      split at h
      · rename_i hd
        simp only [Res.pure_eq, Res.ok.injEq, Prod.mk.injEq] at h
        obtain ⟨rfl, rfl⟩ := h
        exact ⟨a4, fun _ => rfl, fun k => by omega⟩
      · rename_i hd
        obtain ⟨w, e', h⟩ := Res.bind_eq_ok'.mp h
        simp only [Res.pure_eq, Res.ok.injEq, Prod.mk.injEq] at h
        obtain ⟨rfl, rfl⟩ := h
        obtain ⟨-, -, rfl⟩ := cdiv_ok.mp e'
        refine ⟨a4, fun k => by omega, fun _ hc => ?_⟩
        obtain ⟨b1, b2⟩ := accPairs_ne p l1 l2 (by rw [← List.length_pos_iff]; omega)
        rw [toI32_of_lt (by omega) (by omega), a3, mean_trunc p l1 h0 (by omega) b1 m1 a1, mean_trunc p l2 h0 (by omega) b2 m2 a2]
  · rw [show require (l1.length == l2.length) = .ub by simp [require, hl]] at h
    cases h

theorem covLoop_defined (D : ℤ) (hD : 0 ≤ D) (hlo : lo ≤ -hi) (m1 m2 : ℤ) (l1 l2 : List ℤ) (hl : l1.length = l2.length) (h1 : ∀ x ∈ l1, |x - m1| ≤ D)
    (h2 : ∀ x ∈ l2, |x - m2| ≤ D) (hDD : D ≤ D * D) (res : ℤ) (cnt : ℕ) (hr : |res| + l1.length * (D * D) ≤ hi) :
    ∃ r, covLoopInt lo hi (fun _ => true) m1 m2 res cnt l1 l2 = .ok r ∧ |r.1| ≤ hi := by
  induction l1 generalizing l2 res cnt with
  | nil => exact ⟨(res, cnt), rfl, by simpa using hr⟩
  | cons x xs ih =>
    cases l2 with
    | nil => simp at hl
    | cons y ys =>
      simp only [List.length_cons, add_left_inj] at hl
      have hx := h1 x (by simp)
      have hy := h2 y (by simp)
      have hp : |(x - m1) * (y - m2)| ≤ D * D := by rw [abs_mul]; exact mul_le_mul hx hy (abs_nonneg _) hD
      have hs : |res + (x - m1) * (y - m2)| ≤ |res| + D * D := (abs_add_le _ _).trans (by omega)
      simp only [List.length_cons, Nat.cast_add, Nat.cast_one, add_mul, one_mul] at hr
      have hn : (0 : ℤ) ≤ xs.length * (D * D) := by positivity
      have hres := abs_nonneg res
      have ok : ∀ z : ℤ, |z| ≤ hi → chk lo hi z = .ok z := fun z hz => chk_ok.mpr ⟨⟨by have := (abs_le.mp hz).1; omega, (abs_le.mp hz).2⟩, rfl⟩
      obtain ⟨r, e, k⟩ := ih ys hl (fun x hx => h1 x (by simp [hx])) (fun x hx => h2 x (by simp [hx])) (res + (x - m1) * (y - m2)) (cnt + 1) (by omega)
      refine ⟨r, ?_, k⟩
      rw [← e]
      simp only [covLoopInt, Bool.and_self, if_true]
      rw [ok _ (by omega), Res.bind_ok, ok _ (by omega), Res.bind_ok, ok _ (by omega), Res.bind_ok, ok _ (by omega), Res.bind_ok]

theorem abs_sum_le_mul (M : ℤ) (l : List ℤ) (h : ∀ x ∈ l, |x| ≤ M) : |l.sum| ≤ l.length * M := by
  induction l with
  | nil => simp
  | cons x xs ih =>
    have := ih fun y hy => h y (by simp [hy])
    have := h x (by simp)
    have := abs_add_le x xs.sum
    simp only [List.sum_cons, List.length_cons, Nat.cast_add, Nat.cast_one, add_mul, one_mul]
    omega

theorem abs_tdiv_nat (a b : ℤ) : |a.tdiv b| = ((a.natAbs / b.natAbs : ℕ) : ℤ) := by
  rw [Int.abs_eq_natAbs, Int.natAbs_tdiv]; rfl

theorem abs_tdiv_le_self (a b : ℤ) : |a.tdiv b| ≤ |a| := by
  rw [abs_tdiv_nat, Int.abs_eq_natAbs]
  exact_mod_cast Nat.div_le_self _ _

theorem abs_tdiv_le (a M : ℤ) (n : ℕ) (hM : 0 ≤ M) (h : |a| ≤ n * M) : |a.tdiv n| ≤ M := by
  rw [abs_tdiv_nat, Int.natAbs_natCast]
  obtain ⟨k, rfl⟩ := Int.eq_ofNat_of_zero_le hM
  rw [Int.abs_eq_natAbs] at h
  have h' : a.natAbs ≤ n * k := by exact_mod_cast h
  have : a.natAbs / n ≤ k := Nat.div_le_of_le_mul h'
  exact_mod_cast this

theorem mean_defined (M : ℤ) (hlo : lo ≤ -hi) (l : List ℤ) (hne : l ≠ []) (hlen : l.length < 2 ^ 31) (h : ∀ x ∈ l, |x| ≤ M) (hM : l.length * M ≤ hi) :
    ∃ m, meanIntR lo hi l (fun _ => true) = .ok m ∧ |m| ≤ M := by
  have hpos : 0 < l.length := List.length_pos_iff.mpr hne
  have hM0 : 0 ≤ M := by
    obtain ⟨x, hx⟩ := List.exists_mem_of_ne_nil _ hne
    exact (abs_nonneg x).trans (h x hx)
  have hhi : 0 ≤ hi := le_trans (by positivity) hM
  refine ⟨_, (C95_mean lo hi ⟨by omega, hhi⟩ l _ (by simpa using hne) (by simpa using hlen) _).mpr ⟨?_, rfl⟩, ?_⟩
  · intro pre hp _
    simp only [List.filter_true] at hp
    have h1 := abs_sum_le_mul M pre fun x hx => h x (hp.subset hx)
    have h2 : (pre.length : ℤ) * M ≤ l.length * M := mul_le_mul_of_nonneg_right (by exact_mod_cast hp.length_le) hM0
    have := abs_le.mp (h1.trans (h2.trans hM))
    exact ⟨by omega, this.2⟩
  · simp only [List.filter_true]
    exact abs_tdiv_le _ _ _ hM0 (abs_sum_le_mul M l h)

/-- C135: the covariance of at most 64 integers of magnitude at most `M` is defined when `4·n·M²` is representable. -/
theorem C135_short_defined (ddof M : ℤ) (hlo : lo ≤ -hi) (l1 l2 : List ℤ) (hl : l1.length = l2.length) (h64 : l1.length ≤ 64) (hne : l1 ≠ [])
    (hd : ddof < l1.length) (h1 : ∀ x ∈ l1, |x| ≤ M) (h2 : ∀ x ∈ l2, |x| ≤ M) (hM : l1.length * (4 * M ^ 2) ≤ hi) :
    ∃ v, covarianceInt lo hi ddof l1 l2 (fun _ => true) = .ok (v, l1.length) := by
  have hpos : 0 < l1.length := List.length_pos_iff.mpr hne
  have hM0 : 0 ≤ M := by
    obtain ⟨x, hx⟩ := List.exists_mem_of_ne_nil _ hne
    exact (abs_nonneg x).trans (h1 x hx)
  have hMM : M ≤ 4 * M ^ 2 := by nlinarith
  have hn : (l1.length : ℤ) * M ≤ hi := le_trans (mul_le_mul_of_nonneg_left hMM (by positivity)) hM
  obtain ⟨m1, e1, k1⟩ := mean_defined M hlo l1 hne (by omega) h1 hn
  obtain ⟨m2, e2, k2⟩ := mean_defined M hlo l2 (by rw [← List.length_pos_iff]; omega) (by omega) h2 (by rw [← hl]; exact hn)
  obtain ⟨⟨r, c⟩, e3, k3⟩ := covLoop_defined (lo := lo) (hi := hi) (2 * M) (by omega) hlo m1 m2 l1 l2 hl
    (fun x hx => (abs_sub x m1).trans (by have := h1 x hx; omega)) (fun x hx => (abs_sub x m2).trans (by have := h2 x hx; omega)) (by nlinarith) 0 0
    (by simp only [abs_zero, zero_add]; calc _ = (l1.length : ℤ) * (4 * M ^ 2) := by ring
                                        _ ≤ hi := hM)
  obtain ⟨-, hc⟩ := covLoop_value _ _ _ _ _ hl _ _ _ _ e3
  have hc' : c = l1.length := by
    rw [hc, zero_add]
    simp [accPairs, hl]
  subst hc'
  have hb : covBlockInt lo hi (fun _ => true) l1 l2 = .ok (m1, m2, r, l1.length) := by
    unfold covBlockInt
    rw [e1, Res.bind_ok, e2, Res.bind_ok, e3]; rfl
  have hq : Repr' lo hi (r.tdiv (l1.length - ddof)) := by
    have : |r.tdiv (l1.length - ddof)| ≤ hi := (abs_tdiv_le_self _ _).trans k3
    have := abs_le.mp this
    exact ⟨by omega, this.2⟩
  refine ⟨r.tdiv (l1.length - ddof), ?_⟩
  unfold covarianceInt
  rw [show require (l1.length == l2.length) = .ok () by simp [require, hl], Res.bind_ok, if_neg (by omega), covAcc_short _ l1 l2 hl h64, hb, Res.bind_ok]
  simp only
  rw [if_neg (by omega), toI32_of_lt (by omega) (by omega), (cdiv_ok (lo := lo) (hi := hi)).mpr ⟨by omega, hq, rfl⟩]
  rfl

theorem accPairs_true (l : List ℤ) : accPairs (fun _ => true) l l = l.map fun x => (x, x) := by
  simp [accPairs, List.zip_eq_zipWith, List.zipWith_self]

theorem sum_sq_dev (l : List ℤ) (a : ℚ) :
    (l.map fun x : ℤ => ((x : ℚ) - a) ^ 2).sum = (l.map fun x : ℤ => (x : ℚ) ^ 2).sum - 2 * a * (l.sum : ℚ) + l.length * a ^ 2 := by
  induction l with
  | nil => simp
  | cons x xs ih =>
    simp only [List.map_cons, List.sum_cons, List.length_cons, ih]
    push_cast
    ring

theorem sum_sq_shift (l : List ℤ) (h : l ≠ []) (a : ℚ) :
    (l.map fun x : ℤ => ((x : ℚ) - a) ^ 2).sum / l.length = exactVar l + ((l.sum : ℚ) / l.length - a) ^ 2 := by
  have hn : (l.length : ℚ) ≠ 0 := by
    have := List.length_pos_iff.mpr h
    positivity
  rw [exactVar, sum_sq_dev, sum_sq_dev]
  field_simp
  ring

theorem tdiv_error (a : ℤ) (n : ℕ) (hn : 0 < n) : |(a : ℚ) / n - (a.tdiv n : ℤ)| < 1 := by
  have h := Int.mul_tdiv_add_tmod a n
  have h1 : |a.tmod n| < n := by
    have := Int.natAbs_tmod a n
    rw [Int.abs_eq_natAbs, this, Int.natAbs_natCast]
    exact_mod_cast Nat.mod_lt _ hn
  have hq : (0 : ℚ) < n := by exact_mod_cast hn
  have e : (a : ℚ) / n - (a.tdiv n : ℤ) = (a.tmod n : ℤ) / n := by
    have : (a : ℚ) = n * (a.tdiv n : ℤ) + (a.tmod n : ℤ) := by exact_mod_cast h.symm
    rw [eq_div_iff hq.ne', sub_mul, div_mul_cancel₀ _ hq.ne']
    linarith
  rw [e, abs_div, Nat.abs_cast, div_lt_one hq]
  exact_mod_cast h1

/-- C135: the variance of at most 64 integers, when it is defined, differs from the variance by less than 1. -/
theorem C135_short_error_partial (l : List ℤ) (h64 : l.length ≤ 64) (hne : l ≠ []) (h0 : Repr' lo hi 0) (v : ℤ) (c : ℕ)
    (h : varInt lo hi 0 l (fun _ => true) = .ok (v, c)) : c = l.length ∧ |(v : ℚ) - exactVar l| < 1 := by
  have hpos : 0 < l.length := List.length_pos_iff.mpr hne
  obtain ⟨-, h1, -, h3⟩ := C135_short 0 l l h64 _ h0 v c h
  have hc : c = l.length := by rw [h1, accPairs_true, List.length_map]
  refine ⟨hc, ?_⟩
  have hv := h3 (by omega) (by omega)
  rw [accPairs_true, sub_zero, hc] at hv
  have hm : truncMean (fun _ => true) l = l.sum.tdiv l.length := by simp [truncMean]
  rw [hm] at hv
  set m := l.sum.tdiv (l.length : ℤ) with hmd
  have hS : ((devSum m m (l.map fun x => (x, x)) : ℤ) : ℚ) = (l.map fun x : ℤ => ((x : ℚ) - m) ^ 2).sum := by
    rw [devSum, List.map_map]
    push_cast
    rw [List.map_map]
    congr 1
    refine List.map_congr_left fun x _ => ?_
    simp only [Function.comp]
    push_cast
    ring
  have hS0 : 0 ≤ devSum m m (l.map fun x => (x, x)) := by rw [← accPairs_true]; exact devSum_self_nonneg _ _ _
  have e1 := tdiv_error l.sum l.length hpos
  rw [← hmd] at e1
  have e2 := tdiv_error (devSum m m (l.map fun x => (x, x))) l.length hpos
  rw [← hv, hS, sum_sq_shift l hne] at e2
  have hle : (v : ℚ) ≤ exactVar l + ((l.sum : ℚ) / l.length - m) ^ 2 := by
    rw [← sum_sq_shift l hne, ← hS, hv]
    have hq : (0 : ℚ) < l.length := by exact_mod_cast hpos
    rw [le_div_iff₀ hq]
    have := Int.mul_tdiv_add_tmod (devSum m m (l.map fun x => (x, x))) l.length
    have h2 := Int.tmod_nonneg (l.length : ℤ) hS0
    have : (devSum m m (l.map fun x => (x, x))).tdiv l.length * l.length ≤ devSum m m (l.map fun x => (x, x)) := by
      rw [mul_comm]; omega
    exact_mod_cast this
  have hsq : ((l.sum : ℚ) / l.length - m) ^ 2 < 1 := by
    rw [← sq_abs]
    exact pow_lt_one₀ (abs_nonneg _) e1 (by norm_num)
  have hsq0 : 0 ≤ ((l.sum : ℚ) / l.length - m) ^ 2 := sq_nonneg _
  rw [abs_lt] at e2 ⊢
  constructor <;> linarith [e2.1, e2.2]

/-! ### long arrays -/

/-- Where blocks are combined, the mean is lost: it is 0. -/
theorem meanCombine_zero {n1 n2 : ℕ} {m1 m2 m : ℤ} (h : meanCombineInt lo hi n1 n2 m1 m2 = .ok m) (h2 : 2 ≤ n1 + n2) (h31 : n1 + n2 < 2 ^ 31) : m = 0 := by
  obtain ⟨-, e⟩ := meanCombine_ok h
  rw [toI32_of_lt (n := ((n1 + n2 : ℕ) : ℤ)) (by omega) (by omega)] at e
  rw [e, show (1 : ℤ).tdiv ((n1 + n2 : ℕ) : ℤ) = 0 from Int.tdiv_eq_zero_of_lt (by norm_num) (by omega), zero_mul]

theorem block_const (n : ℕ) (hn : 0 < n) (h64 : n ≤ 64) (c : ℤ) (h0 : Repr' lo hi 0) (hlo : lo ≤ -hi) (hc : n * |c| ≤ hi) :
    covBlockInt lo hi (fun _ => true) (List.replicate n c) (List.replicate n c) = .ok (c, c, 0, n) := by
  have hm : meanIntR lo hi (List.replicate n c) (fun _ => true) = .ok c := by
    refine (C95_mean lo hi h0 _ _ (by simp; omega) (by simp; omega) c).mpr ⟨?_, ?_⟩
    · intro pre hp _
      simp only [List.filter_true] at hp
      have h1 := abs_sum_le_mul |c| pre fun x hx => by
        rw [List.eq_of_mem_replicate (hp.subset hx)]
      have h2 : (pre.length : ℤ) * |c| ≤ n * |c| := mul_le_mul_of_nonneg_right (by have := hp.length_le; simp at this; exact_mod_cast this) (abs_nonneg c)
      have := abs_le.mp (h1.trans (h2.trans hc))
      exact ⟨by omega, this.2⟩
    · simp only [List.filter_true, List.sum_replicate, List.length_replicate, nsmul_eq_mul]
      rw [mul_comm]
      exact (Int.mul_tdiv_cancel c (by omega)).symm
  have hloop : ∀ k cnt, covLoopInt lo hi (fun _ => true) c c 0 cnt (List.replicate k c) (List.replicate k c) = .ok (0, cnt + k) := by
    have ok : chk lo hi 0 = .ok 0 := chk_ok.mpr ⟨h0, rfl⟩
    intro k
    induction k with
    | zero => intro cnt; rfl
    | succ k ih =>
      intro cnt
      rw [List.replicate_succ]
      simp only [covLoopInt, Bool.and_self, if_true, sub_self, ok, Res.bind_ok, mul_zero, add_zero]
      rw [ih]
      congr 2
      omega
  unfold covBlockInt
  rw [hm, Res.bind_ok, Res.bind_ok, hloop n 0]
  simp

/-- C135: the variance of at most 128 equal integers is 0, when their sums and the products of the counts are representable. -/
theorem C135_constant_partial (n : ℕ) (hn : 0 < n) (h128 : n ≤ 128) (c : ℤ) (hlo : lo ≤ -hi) (hc : n * |c| ≤ hi) (hhi : 4096 ≤ hi) :
    varInt lo hi 0 (List.replicate n c) (fun _ => true) = .ok (0, n) := by
  have h0 : Repr' lo hi 0 := ⟨by omega, by omega⟩
  have ok0 : chk lo hi 0 = .ok 0 := chk_ok.mpr ⟨h0, rfl⟩
  have main : ∃ m, covAccInt lo hi (fun _ => true) (List.replicate n c) (List.replicate n c) = .ok (m, m, 0, n) := by
    by_cases h : n ≤ 64
    · exact ⟨c, by rw [covAcc_short _ _ _ rfl (by simpa using h), block_const n hn h c h0 hlo hc]⟩
    · refine ⟨0, ?_⟩
      rw [covAcc_long _ _ _ rfl (by simp; omega)]
      simp only [List.length_replicate, List.take_replicate, List.drop_replicate]
      rw [show min (n / 2) n = n / 2 by omega]
      have g1 : ((n / 2 : ℕ) : ℤ) * |c| ≤ hi := le_trans (mul_le_mul_of_nonneg_right (by omega) (abs_nonneg c)) hc
      have g2 : ((n - n / 2 : ℕ) : ℤ) * |c| ≤ hi := le_trans (mul_le_mul_of_nonneg_right (by omega) (abs_nonneg c)) hc
      rw [covAcc_short _ _ _ rfl (by simp; omega), covAcc_short _ _ _ rfl (by simp; omega), block_const _ (by omega) (by omega) c h0 hlo g1,
        block_const _ (by omega) (by omega) c h0 hlo g2, Res.bind_ok, Res.bind_ok]
      have a1 : ((n / 2 : ℕ) : ℤ) * c + ((n - n / 2 : ℕ) : ℤ) * c = n * c := by rw [← add_mul]; congr 1; omega
      have r1 : ∀ z : ℤ, |z| ≤ hi → chk lo hi z = .ok z := fun z hz => chk_ok.mpr ⟨⟨by have := (abs_le.mp hz).1; omega, (abs_le.mp hz).2⟩, rfl⟩
      have hmc : meanCombineInt lo hi (n / 2) (n - n / 2) c c = .ok 0 := by
        unfold meanCombineInt
        rw [toI32_of_lt (n := ((n / 2 + (n - n / 2) : ℕ) : ℤ)) (by omega) (by omega), toI32_of_lt (n := ((n / 2 : ℕ) : ℤ)) (by omega) (by omega),
          toI32_of_lt (n := ((n - n / 2 : ℕ) : ℤ)) (by omega) (by omega),
          (cdiv_ok (s := 0)).mpr ⟨by omega, by rw [Int.tdiv_eq_zero_of_lt (by norm_num) (by omega)]; exact h0,
            (Int.tdiv_eq_zero_of_lt (by norm_num) (by omega)).symm⟩, Res.bind_ok,
          r1 _ (by rw [abs_mul, Nat.abs_cast]; exact g1), Res.bind_ok, r1 _ (by rw [abs_mul, Nat.abs_cast]; exact g2), Res.bind_ok,
          r1 _ (by rw [a1, abs_mul, Nat.abs_cast]; exact hc), Res.bind_ok, zero_mul, ok0]
      have hnn : ((n / 2 : ℕ) : ℤ) * ((n - n / 2 : ℕ) : ℤ) ≤ 4096 := by
        have h1 : ((n / 2 : ℕ) : ℤ) ≤ 64 := by omega
        have h2 : ((n - n / 2 : ℕ) : ℤ) ≤ 64 := by omega
        nlinarith
      have hnn0 : (0 : ℤ) ≤ ((n / 2 : ℕ) : ℤ) * ((n - n / 2 : ℕ) : ℤ) := by positivity
      simp only [covCombineInt]
      rw [hmc, Res.bind_ok, Res.bind_ok, add_zero, ok0, Res.bind_ok, toI32_of_lt (n := ((n / 2 : ℕ) : ℤ)) (by omega) (by omega),
        toI32_of_lt (n := ((n - n / 2 : ℕ) : ℤ)) (by omega) (by omega), r1 _ (by rw [abs_of_nonneg hnn0]; omega), Res.bind_ok,
        toI32_of_lt (n := ((n / 2 + (n - n / 2) : ℕ) : ℤ)) (by omega) (by omega)]
      have hq : Repr' lo hi ((((n / 2 : ℕ) : ℤ) * ((n - n / 2 : ℕ) : ℤ)).tdiv ((n / 2 + (n - n / 2) : ℕ) : ℤ)) := by
        have := (abs_tdiv_le_self (((n / 2 : ℕ) : ℤ) * ((n - n / 2 : ℕ) : ℤ)) ((n / 2 + (n - n / 2) : ℕ) : ℤ)).trans_eq (abs_of_nonneg hnn0)
        have := abs_le.mp this
        exact ⟨by omega, by omega⟩
      rw [cdiv_ok.mpr ⟨by omega, hq, rfl⟩, Res.bind_ok, sub_self, ok0, Res.bind_ok, mul_zero, ok0, Res.bind_ok, Res.bind_ok, mul_zero, ok0, Res.bind_ok, add_zero, ok0,
        Res.bind_ok, show n / 2 + (n - n / 2) = n by omega]
      rfl
  obtain ⟨m, e⟩ := main
  unfold varInt covarianceInt
  simp only [List.length_replicate, beq_self_eq_true, require, if_true, Res.bind_ok]
  rw [if_neg (by omega), e, Res.bind_ok]
  simp only
  rw [if_neg (by omega), toI32_of_lt (by omega) (by omega), (cdiv_ok (s := 0)).mpr ⟨by omega, by simpa using h0, by simp⟩]
  rfl

end

/-- C135 (negation): the variance of 129 equal integers is not 0: the halves of 64 and 65 elements have the means 1000 and 0, because the mean of the half of 65, which is
computed from two blocks, is `1 / 65 = 0` times the sum.  So the variance also changes when a constant is added to every element. -/
theorem C135_constant_false :
    varInt (-2147483648) 2147483647 0 (List.replicate 129 1000) (fun _ => true) = .ok (248062, 129) ∧
    varInt (-2147483648) 2147483647 0 (List.replicate 129 0) (fun _ => true) = .ok (0, 129) := by
  have main : ∀ c : ℤ, |c| ≤ 1000 → ∀ r, covCombineInt (-2147483648) 2147483647 (c, c, 0, 32) (c, c, 0, 33) = .ok (0, 0, 0, 65) →
      covCombineInt (-2147483648) 2147483647 (c, c, 0, 64) (0, 0, 0, 65) = .ok r →
      covAccInt (-2147483648) 2147483647 (fun _ => true) (List.replicate 129 c) (List.replicate 129 c) = .ok r := by
    intro c hc r h1 h2
    have b : ∀ n : ℕ, 0 < n → n ≤ 64 → covBlockInt (-2147483648) 2147483647 (fun _ => true) (List.replicate n c) (List.replicate n c) = .ok (c, c, 0, n) :=
      fun n hn h64 => block_const n hn h64 c ⟨by norm_num, by norm_num⟩ (by norm_num) (by
        have : (n : ℤ) ≤ 64 := by omega
        nlinarith [abs_nonneg c])
    rw [covAcc_long _ _ _ rfl (by simp)]
    simp only [List.length_replicate, List.take_replicate, List.drop_replicate]
    rw [covAcc_short _ _ _ rfl (by simp), covAcc_long _ _ _ rfl (by simp)]
    simp only [List.length_replicate, List.take_replicate, List.drop_replicate]
    rw [covAcc_short _ _ _ rfl (by simp), covAcc_short _ _ _ rfl (by simp)]
    rw [show min (129 / 2) 129 = 64 from rfl, show min ((129 - 129 / 2) / 2) (129 - 129 / 2) = 32 from rfl, show 129 - 129 / 2 - (129 - 129 / 2) / 2 = 33 from rfl,
      b 64 (by norm_num) (by norm_num), b 32 (by norm_num) (by norm_num), b 33 (by norm_num) (by norm_num), Res.bind_ok, Res.bind_ok, Res.bind_ok, h1, Res.bind_ok, h2]
  constructor
  · unfold varInt covarianceInt
    rw [main 1000 (by norm_num) (0, 0, 32000000, 129) (by decide +kernel) (by decide +kernel)]
    decide +kernel
  · unfold varInt covarianceInt
    rw [main 0 (by norm_num) (0, 0, 0, 129) (by decide +kernel) (by decide +kernel)]
    decide +kernel

/-- C135 (negation): from 65 elements on the error is not less than 1: the variance of 32 zeros and 33 elements 1000 is 249940.8, the function returns 246153. -/
theorem C135_two_blocks_false : ∃ l : List ℤ, l.length = 65 ∧ varInt (-2147483648) 2147483647 0 l (fun _ => true) = .ok (246153, 65) ∧
    exactVar l = 42240000 / 169 := by
  refine ⟨List.replicate 32 0 ++ List.replicate 33 1000, by simp, ?_, ?_⟩
  · have e : covAccInt (-2147483648) 2147483647 (fun _ => true) (List.replicate 32 0 ++ List.replicate 33 1000) (List.replicate 32 0 ++ List.replicate 33 1000) =
        .ok (0, 0, 16000000, 65) := by
      rw [covAcc_long _ _ _ rfl (by simp)]
      have h1 : (List.replicate 32 (0 : ℤ) ++ List.replicate 33 1000).take ((List.replicate 32 (0 : ℤ) ++ List.replicate 33 1000).length / 2) = List.replicate 32 0 := by
        decide +kernel
      have h2 : (List.replicate 32 (0 : ℤ) ++ List.replicate 33 1000).drop ((List.replicate 32 (0 : ℤ) ++ List.replicate 33 1000).length / 2) = List.replicate 33 1000 := by
        decide +kernel
      rw [h1, h2, covAcc_short _ _ _ rfl (by simp), covAcc_short _ _ _ rfl (by simp),
        block_const 32 (by norm_num) (by norm_num) 0 ⟨by norm_num, by norm_num⟩ (by norm_num) (by norm_num),
        block_const 33 (by norm_num) (by norm_num) 1000 ⟨by norm_num, by norm_num⟩ (by norm_num) (by norm_num), Res.bind_ok, Res.bind_ok]
      decide +kernel
    unfold varInt covarianceInt
    rw [e]
    decide +kernel
  · rw [exactVar]
    decide +kernel

theorem accPairs_length (l : List ℤ) : (accPairs (fun _ => true) l l).length = l.length := by rw [accPairs_true, List.length_map]

/-- C135 (negation): the variance of an array of `int` of 92682 elements or more is undefined, whatever the elements: the product of the counts of the halves overflows. -/
theorem C135_long_false (ddof : ℤ) (l : List ℤ) (h : 92682 ≤ l.length) (h31 : l.length < 2 ^ 31) :
    varInt (-2147483648) 2147483647 ddof l (fun _ => true) = .ub := by
  have key : covAccInt (-2147483648) 2147483647 (fun _ => true) l l = .ub := by
    cases e : covAccInt (-2147483648) 2147483647 (fun _ => true) l l with
    | ub => rfl
    | ok r =>
      exfalso
      rw [covAcc_long _ _ _ rfl (by omega)] at e
      obtain ⟨⟨m11, m12, c1, n1⟩, e1, e⟩ := Res.bind_eq_ok'.mp e
      obtain ⟨⟨m21, m22, c2, n2⟩, e2, e⟩ := Res.bind_eq_ok'.mp e
      obtain ⟨m1, m2, c, n⟩ := r
      have k1 := covAcc_count _ _ _ rfl _ e1
      have k2 := covAcc_count _ _ _ rfl _ e2
      rw [accPairs_length] at k1 k2
      simp only [List.length_take, List.length_drop] at k1 k2
      obtain ⟨-, -, -, -, g⟩ := covCombine_ok e
      rw [toI32_of_lt (by omega) (by omega), toI32_of_lt (by omega) (by omega)] at g
      have g2 := g.2
      have a1 : (46341 : ℤ) ≤ n1 := by omega
      have a2 : (46341 : ℤ) ≤ n2 := by omega
      nlinarith
  unfold varInt covarianceInt
  rw [key]
  simp only [beq_self_eq_true, require, if_true, Res.bind_ok]
  rw [if_neg (by omega)]
  rfl

/-- C135 (negation): `kurtosis` of integers divides by zero whenever the truncated variance is 0, which happens for data that are not constant. -/
theorem C135_kurtosis_false : (∀ lo hi fisher l c, varInt lo hi 0 l (fun _ => true) = .ok (0, c) → kurtosisInt lo hi fisher l = .ub) ∧
    (∀ fisher, kurtosisInt (-2147483648) 2147483647 fisher [0, 1] = .ub) ∧ kurtosisInt (-2147483648) 2147483647 false [0, 10, 20] = .ok 1 := by
  have h1 : ∀ lo hi fisher l c, varInt lo hi 0 l (fun _ => true) = .ok (0, c) → kurtosisInt lo hi fisher l = .ub := by
    intro lo hi fisher l c h
    unfold kurtosisInt
    rw [h, Res.bind_ok]
    cases moment4Int lo hi l with
    | ub => rfl
    | ok m =>
      rw [Res.bind_ok]
      simp only [mul_zero]
      cases e : chk lo hi 0 with
      | ub => rfl
      | ok z =>
        obtain ⟨-, rfl⟩ := chk_ok.mp e
        rw [Res.bind_ok, cdiv, if_pos rfl]; rfl
  have acc : ∀ l : List ℤ, l.length ≤ 64 → varInt (-2147483648) 2147483647 0 l (fun _ => true) = (do
      require (l.length == l.length)
      if l.length = 0 then pure (0, 0)
      else do
        let r ← covBlockInt (-2147483648) 2147483647 (fun _ => true) l l
        if (r.2.2.2 : ℤ) - 0 ≤ 0 then pure (0, r.2.2.2)
        else do
          let v ← cdiv (-2147483648) 2147483647 r.2.2.1 (toI32 r.2.2.2 - 0)
          pure (v, r.2.2.2)) := by
    intro l hl
    unfold varInt covarianceInt
    rw [covAcc_short _ l l rfl hl]
  refine ⟨h1, fun fisher => h1 _ _ _ _ 2 ?_, ?_⟩
  · rw [acc _ (by simp)]
    decide +kernel
  · unfold kurtosisInt
    rw [acc _ (by simp)]
    decide +kernel

/-- The hypotheses of the theorems above hold for ten small integers. -/
theorem C135_example : ∃ v, varInt (-2147483648) 2147483647 0 [3, 1, 4, 1, 5, 9, 2, 6, 5, 3] (fun _ => true) = .ok (v, 10) ∧
    |(v : ℚ) - exactVar [3, 1, 4, 1, 5, 9, 2, 6, 5, 3]| < 1 := by
  obtain ⟨v, h⟩ := C135_short_defined (lo := -2147483648) (hi := 2147483647) 0 9 (by norm_num) [3, 1, 4, 1, 5, 9, 2, 6, 5, 3] [3, 1, 4, 1, 5, 9, 2, 6, 5, 3] rfl (by simp)
    (by simp) (by simp) (by decide) (by decide) (by norm_num)
  exact ⟨v, h, (C135_short_error_partial _ (by simp) (by simp) ⟨by norm_num, by norm_num⟩ v 10 h).2⟩

end SciCpp
