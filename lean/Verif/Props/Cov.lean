import Verif.Proofs.Stats
import Mathlib.Analysis.RCLike.Basic
import Mathlib.Analysis.Complex.Basic
import Mathlib.LinearAlgebra.Matrix.PosDef
import Mathlib.Analysis.Matrix.PosDef
import Mathlib.Algebra.Order.BigOperators.Group.List
import Mathlib.Tactic.NormNum
import Mathlib.Tactic.Positivity
import Mathlib.Algebra.Star.Rat
import Mathlib.Analysis.SpecialFunctions.Pow.NNReal
/-
  Property theorems C18–C21 and C69: covariance, variance, moments, covariance matrix, powers.
-/
namespace SciCpp

set_option linter.unusedSectionVars false

open Spec

/-! ## C18 — covariance -/

section generic
variable {K : Type*} [Field K] [StarRing K] [DecidableEq K] [CharZero K]

/-- C18: whatever the recursive block structure, `covariance<ddof>(x, y)` is the textbook
covariance `Σ (xᵢ - x̄)·conj(yᵢ - ȳ) / (n - ddof)`. -/
theorem C18_covariance (ddof : ℤ) (x y : List K) (hl : x.length = y.length) (hx : x ≠ [])
    (hlen : x.length < 2 ^ 31) (hd : ddof < x.length) :
    covarianceF ddof (x.map Ex.fin) (y.map Ex.fin) (fun _ => true)
      = .ok (Ex.fin (covL ddof (x.zip y)), x.length) := by
  have hz : (x.zip y).length = x.length := by simp [hl]
  have hne : x.zip y ≠ [] := by
    intro h; rw [h] at hz; exact hx (List.length_eq_zero_iff.mp hz.symm)
  have := covarianceF_eq ddof (fun _ => true) (x.map Ex.fin) (y.map Ex.fin) (goodPairs_all x y hl)
    (by rw [pairsOf_all]; exact hne) (Or.inr (everyWindow_all _)) (by rw [pairsOf_all, hz]; exact hlen)
    (by rw [pairsOf_all, hz]; exact hd)
  rw [this, pairsOf_all, hz]

/-- C18: too few samples for the requested degrees of freedom give `+inf`. -/
theorem C18_too_few (ddof : ℤ) (x y : List K) (hl : x.length = y.length) (hx : x ≠ [])
    (hlen : x.length < 2 ^ 31) (hd : (x.length : ℤ) ≤ ddof) :
    covarianceF ddof (x.map Ex.fin) (y.map Ex.fin) (fun _ => true) = .ok (Ex.inf, x.length) := by
  have hz : (x.zip y).length = x.length := by simp [hl]
  have hne : x.zip y ≠ [] := by
    intro h; rw [h] at hz; exact hx (List.length_eq_zero_iff.mp hz.symm)
  have := covarianceF_inf ddof (fun _ => true) (x.map Ex.fin) (y.map Ex.fin) (goodPairs_all x y hl)
    (by rw [pairsOf_all]; exact hne) (Or.inr (everyWindow_all _)) (by rw [pairsOf_all, hz]; exact hlen)
    (by rw [pairsOf_all, hz]; exact hd)
  rw [this, pairsOf_all, hz]

/-- C18: the empty sample gives NaN and count 0; different lengths violate the precondition. -/
theorem C18_boundaries (ddof : ℤ) (p : Ex K → Bool) (l1 l2 : List (Ex K)) :
    covarianceF ddof [] [] p = .ok (Ex.nan, 0) ∧
    (l1.length ≠ l2.length → covarianceF ddof l1 l2 p = .ub) := by
  refine ⟨rfl, fun h => ?_⟩
  unfold covarianceF
  have : (l1.length == l2.length) = false := by simpa using h
  rw [this]; rfl

theorem sum_star_swap (s : List (K × K)) (c d : K) :
    ((s.map Prod.swap).map fun xy => (xy.1 - d) * star (xy.2 - c)).sum
      = star ((s.map fun xy => (xy.1 - c) * star (xy.2 - d)).sum) := by
  induction s with
  | nil => simp
  | cons a s ih =>
    simp only [List.map_cons, List.sum_cons, Prod.fst_swap, Prod.snd_swap, star_add, star_mul,
      star_star, star_sub] at ih ⊢
    rw [ih]

theorem covL_swap (ddof : ℤ) (s : List (K × K)) :
    covL ddof (s.map Prod.swap) = star (covL ddof s) := by
  have h1 : (s.map Prod.swap).map Prod.fst = s.map Prod.snd := by
    rw [List.map_map]; rfl
  have h2 : (s.map Prod.swap).map Prod.snd = s.map Prod.fst := by
    rw [List.map_map]; rfl
  unfold covL covSum
  rw [h1, h2, sum_star_swap, star_div₀, List.length_map]
  simp

/-- C18: `covariance(y, x)` is the conjugate of `covariance(x, y)` (equal to it for real types). -/
theorem C18_hermitian (ddof : ℤ) (x y : List K) (hl : x.length = y.length) (hx : x ≠ [])
    (hlen : x.length < 2 ^ 31) (hd : ddof < x.length) :
    ∃ c : K, covarianceF ddof (x.map Ex.fin) (y.map Ex.fin) (fun _ => true)
        = .ok (Ex.fin c, x.length) ∧
      covarianceF ddof (y.map Ex.fin) (x.map Ex.fin) (fun _ => true)
        = .ok (Ex.fin (star c), x.length) := by
  have hy : y ≠ [] := by
    intro h; subst h; exact hx (List.length_eq_zero_iff.mp hl)
  refine ⟨_, C18_covariance ddof x y hl hx hlen hd, ?_⟩
  rw [C18_covariance ddof y x hl.symm hy (hl ▸ hlen) (hl ▸ hd), ← covL_swap, List.zip_swap, hl]

theorem meanL_shift (s : List K) (c : K) (hs : s ≠ []) : meanL (s.map (· + c)) = meanL s + c := by
  have h0 : (s.length : K) ≠ 0 := by
    rw [Nat.cast_ne_zero]; exact (List.length_pos_iff.mpr hs).ne'
  have h1 : (s.map (· + c)).sum = s.sum + (s.length : K) * c := by
    clear h0 hs
    induction s with
    | nil => simp
    | cons a s ih => simp only [List.map_cons, List.sum_cons, ih, List.length_cons]; push_cast; ring
  unfold meanL
  rw [h1, List.length_map]
  field_simp

/-- C18: adding a constant to either array does not change the covariance. -/
theorem C18_translation (ddof : ℤ) (x y : List K) (a b : K) (hl : x.length = y.length) (hx : x ≠ [])
    (hlen : x.length < 2 ^ 31) (hd : ddof < x.length) :
    covarianceF ddof ((x.map (· + a)).map Ex.fin) ((y.map (· + b)).map Ex.fin) (fun _ => true)
      = covarianceF ddof (x.map Ex.fin) (y.map Ex.fin) (fun _ => true) := by
  rw [C18_covariance ddof x y hl hx hlen hd,
    C18_covariance ddof (x.map (· + a)) (y.map (· + b)) (by simpa using hl) (by simpa using hx)
      (by simpa using hlen) (by simpa using hd), List.length_map]
  have hz : (x.map (· + a)).zip (y.map (· + b)) = (x.zip y).map (Prod.map (· + a) (· + b)) :=
    List.zip_map
  have hne : x.zip y ≠ [] := by
    intro h
    have : (x.zip y).length = x.length := by simp [hl]
    rw [h] at this; exact hx (List.length_eq_zero_iff.mp this.symm)
  have h1 : ((x.zip y).map (Prod.map (· + a) (· + b))).map Prod.fst
      = ((x.zip y).map Prod.fst).map (· + a) := by
    rw [List.map_map, List.map_map]; rfl
  have h2 : ((x.zip y).map (Prod.map (· + a) (· + b))).map Prod.snd
      = ((x.zip y).map Prod.snd).map (· + b) := by
    rw [List.map_map, List.map_map]; rfl
  have : covL ddof ((x.map (· + a)).zip (y.map (· + b))) = covL ddof (x.zip y) := by
    rw [hz]
    unfold covL covSum
    rw [h1, h2, meanL_shift _ _ (by simpa using hne), meanL_shift _ _ (by simpa using hne),
      List.map_map, List.length_map]
    refine congrArg (· / _) (congrArg List.sum (List.map_congr_left ?_))
    intro xy _
    simp only [Function.comp, Prod.map]
    rw [add_sub_add_right_eq_sub, add_sub_add_right_eq_sub]
  rw [this]

/-- C18: the covariance does not depend on the order of the samples. -/
theorem C18_permutation (ddof : ℤ) (s t : List (K × K)) (h : s.Perm t) (hs : s ≠ [])
    (hlen : s.length < 2 ^ 31) (hd : ddof < s.length) :
    covarianceF ddof ((s.map Prod.fst).map Ex.fin) ((s.map Prod.snd).map Ex.fin) (fun _ => true)
      = covarianceF ddof ((t.map Prod.fst).map Ex.fin) ((t.map Prod.snd).map Ex.fin)
          (fun _ => true) := by
  have ht : t ≠ [] := by
    intro h'; subst h'; exact hs (List.perm_nil.mp h)
  have hl := h.length_eq
  have key : ∀ u : List (K × K), (u.map Prod.fst).zip (u.map Prod.snd) = u := by
    intro u
    rw [List.zip_map']
    exact List.map_id _
  rw [C18_covariance ddof _ _ (by simp) (by simpa using hs) (by simpa using hlen) (by simpa using hd),
    C18_covariance ddof _ _ (by simp) (by simpa using ht) (by simpa [← hl] using hlen)
      (by simpa [← hl] using hd), key, key]
  have e1 : meanL (s.map Prod.fst) = meanL (t.map Prod.fst) := by
    unfold meanL; rw [(h.map _).sum_eq]; simp [hl]
  have e2 : meanL (s.map Prod.snd) = meanL (t.map Prod.snd) := by
    unfold meanL; rw [(h.map _).sum_eq]; simp [hl]
  have : covL ddof s = covL ddof t := by
    unfold covL covSum
    rw [e1, e2, (h.map _).sum_eq, hl]
  rw [this, List.length_map, List.length_map, hl]

end generic

example : (([1, 2, 4] : List ℚ).length = ([3, 5, 4] : List ℚ).length) ∧ ([1, 2, 4] : List ℚ) ≠ [] ∧
    ([1, 2, 4] : List ℚ).length < 2 ^ 31 ∧ (1 : ℤ) < ([1, 2, 4] : List ℚ).length := by decide

section rc
variable {K : Type*} [RCLike K] [DecidableEq K]

theorem covSum_self_nonneg (x : List K) :
    ∃ r : ℝ, 0 ≤ r ∧ covSum (x.zip x) = (r : K) := by
  have hz : x.zip x = x.map fun a => (a, a) := by
    induction x with
    | nil => rfl
    | cons a x ih => rw [List.zip_cons_cons, ih]; rfl
  unfold covSum
  rw [hz]
  have h1 : (x.map fun a => (a, a)).map Prod.fst = x := by rw [List.map_map]; exact List.map_id x
  have h2 : (x.map fun a => (a, a)).map Prod.snd = x := by rw [List.map_map]; exact List.map_id x
  rw [h1, h2, List.map_map]
  set m := meanL x
  clear_value m
  clear h1 h2 hz
  induction x with
  | nil => exact ⟨0, le_refl _, by simp⟩
  | cons a x ih =>
    obtain ⟨r, hr, he⟩ := ih
    refine ⟨‖a - m‖ ^ 2 + r, by positivity, ?_⟩
    rw [List.map_cons, List.sum_cons, he]
    simp only [Function.comp]
    have : (a - m) * star (a - m) = ((‖a - m‖ : K)) ^ 2 := RCLike.mul_conj (a - m)
    rw [this]
    push_cast
    rfl

/-- C18: `var` (real or complex samples) is a non-negative real number. -/
theorem C18_var_nonneg (ddof : ℤ) (x : List K) (hx : x ≠ []) (hlen : x.length < 2 ^ 31)
    (hd : ddof < x.length) :
    ∃ r : ℝ, 0 ≤ r ∧ varF ddof (x.map Ex.fin) (fun _ => true) = .ok (Ex.fin (r : K), x.length) := by
  obtain ⟨r, hr, he⟩ := covSum_self_nonneg x
  refine ⟨r / ((x.length - ddof : ℤ) : ℝ), div_nonneg hr ?_, ?_⟩
  · have : (0 : ℤ) ≤ x.length - ddof := by omega
    exact_mod_cast this
  · unfold varF
    rw [C18_covariance ddof x x rfl hx hlen hd]
    unfold covL
    rw [he]
    simp

end rc

/-! ## C19 — filtered variance -/

section filtered
variable {K : Type*} [Field K] [StarRing K] [DecidableEq K] [CharZero K]

/-- C19 (partial): the variance of the accepted elements, with their number, is returned when every
accepted element is finite and the array either has at most 64 elements or has no 32 consecutive
rejected elements.  Missing: longer runs of rejected elements, where the code returns NaN
(`C19_empty_block_is_nan`). -/
theorem C19_filtered_var_partial (ddof : ℤ) (l : List (Ex K)) (p : Ex K → Bool) (s : List K)
    (hs : l.filter p = s.map Ex.fin) (hne : s ≠ [])
    (hw : l.length ≤ 64 ∨ ∀ i, i + 32 ≤ l.length → ∃ x ∈ (l.drop i).take 32, p x = true)
    (hlen : s.length < 2 ^ 31) (hd : ddof < s.length) :
    varF ddof l p = .ok (Ex.fin (covL ddof (s.zip s)), s.length) := by
  have hg : goodPairs p l l := by
    refine ⟨rfl, fun xy hxy => ?_⟩
    have hz : l.zip l = l.map fun a => (a, a) := by
      clear hs hw hxy
      induction l with
      | nil => rfl
      | cons a x ih => rw [List.zip_cons_cons, ih]; rfl
    rw [hz] at hxy
    obtain ⟨a, ha, rfl⟩ := List.mem_map.mp hxy
    refine ⟨rfl, fun hp => ?_⟩
    have : a ∈ l.filter p := List.mem_filter.mpr ⟨ha, hp⟩
    rw [hs] at this
    obtain ⟨k, _, rfl⟩ := List.mem_map.mp this
    exact ⟨k, k, rfl⟩
  have hp : pairsOf p l l = s.zip s := by
    clear hw hd hlen hne hg
    induction l generalizing s with
    | nil =>
      cases s with
      | nil => rfl
      | cons _ _ => simp at hs
    | cons a l ih =>
      rw [List.filter_cons] at hs
      by_cases hpa : p a = true
      · rw [if_pos hpa] at hs
        rcases s with _ | ⟨k, s⟩
        · simp at hs
        · simp only [List.map_cons, List.cons.injEq] at hs
          obtain ⟨rfl, hs⟩ := hs
          have := ih s hs
          simp only [pairsOf, List.zip_cons_cons] at this ⊢
          rw [List.filterMap_cons]
          simp only [hpa, Bool.and_self, if_true]
          rw [this]
      · rw [if_neg hpa] at hs
        have := ih s hs
        simp only [pairsOf, List.zip_cons_cons] at this ⊢
        rw [List.filterMap_cons]
        have hpa' : p a = false := by simpa using hpa
        cases a with
        | fin k => simp only [hpa', Bool.and_self, Bool.false_eq_true, if_false]; exact this
        | inf => exact this
        | nan => exact this
  have hzl : (s.zip s).length = s.length := by simp
  have := covarianceF_eq ddof p l l hg (by rw [hp]; intro h; rw [h] at hzl; exact hne (List.length_eq_zero_iff.mp hzl.symm)) hw
    (by rw [hp, hzl]; exact hlen) (by rw [hp, hzl]; exact hd)
  unfold varF
  rw [this, hp, hzl]

/-- C19: every array of at most 64 elements is handled correctly, whatever its filter. -/
theorem C19_short_arrays (ddof : ℤ) (l : List (Ex K)) (p : Ex K → Bool) (s : List K)
    (hs : l.filter p = s.map Ex.fin) (hne : s ≠ []) (hl : l.length ≤ 64) (hd : ddof < s.length) :
    varF ddof l p = .ok (Ex.fin (covL ddof (s.zip s)), s.length) := by
  refine C19_filtered_var_partial ddof l p s hs hne (Or.inl hl) ?_ hd
  have h1 : (l.filter p).length ≤ l.length := List.length_filter_le ..
  rw [hs, List.length_map] at h1
  have : (64 : ℕ) < 2 ^ 31 := by norm_num
  omega

theorem covLoop_rejected (p : Ex K → Bool) (m1 m2 r : Ex K) (c : ℕ) (l : List (Ex K))
    (h : ∀ x ∈ l, p x = false) : covLoop p m1 m2 r c l l = .ok (r, c) := by
  induction l with
  | nil => rfl
  | cons x l ih =>
    rw [covLoop, h x (by simp)]
    exact ih (fun y hy => h y (List.mem_cons_of_mem _ hy))

theorem covLoop_count (p : Ex K → Bool) (m1 m2 r : Ex K) (c : ℕ) (l : List (Ex K)) :
    ∃ r', covLoop p m1 m2 r c l l = .ok (r', c + (l.filter p).length) := by
  induction l generalizing r c with
  | nil => exact ⟨r, rfl⟩
  | cons x l ih =>
    rw [covLoop]
    cases hp : p x
    · simp only [Bool.and_self, Bool.false_eq_true, if_false]
      obtain ⟨r', h⟩ := ih r c
      exact ⟨r', by rw [h, List.filter_cons]; simp [hp]⟩
    · simp only [Bool.and_self, if_true]
      obtain ⟨r', h⟩ := ih (r + (x - m1) * CppNum.conj (x - m2)) (c + 1)
      exact ⟨r', by rw [h, List.filter_cons]; simp [hp]; omega⟩

/-- On a range with nothing accepted the accumulator holds NaN means. -/
theorem cov_rejected (p : Ex K → Bool) (l : List (Ex K)) (h : ∀ x ∈ l, p x = false) :
    ∃ r, pairwiseAcc2 pwBlock (covBlock p) covCombine l l = .ok (Ex.nan, Ex.nan, r, 0) := by
  induction hn : l.length using Nat.strong_induction_on generalizing l with
  | _ n ih =>
    unfold pairwiseAcc2
    rw [if_neg (by simp)]
    split_ifs with hc
    · have hf : l.filter p = [] := by
        rw [List.filter_eq_nil_iff]; intro a ha; simp [h a ha]
      refine ⟨0, ?_⟩
      unfold covBlock
      simp only [mean_ex_empty l p hf, covLoop_rejected p _ _ _ _ l h]
      rfl
    · have hc' : 64 < l.length := by simpa [pwBlock] using hc
      obtain ⟨r1, e1⟩ := ih _ (by simp; omega) (l.take (l.length / 2))
        (fun x hx => h x (List.mem_of_mem_take hx)) rfl
      obtain ⟨r2, e2⟩ := ih _ (by simp; omega) (l.drop (l.length / 2))
        (fun x hx => h x (List.mem_of_mem_drop hx)) rfl
      rw [e1, e2]
      exact ⟨_, by simp only [Res.bind_ok, Res.pure_eq, covCombine, Ex.mul_nan, Ex.nan_add]; rfl⟩

theorem cov_count (p : Ex K → Bool) (l : List (Ex K)) :
    ∃ m1 m2 r, pairwiseAcc2 pwBlock (covBlock p) covCombine l l
      = .ok (m1, m2, r, (l.filter p).length) := by
  induction hn : l.length using Nat.strong_induction_on generalizing l with
  | _ n ih =>
    unfold pairwiseAcc2
    rw [if_neg (by simp)]
    split_ifs with hc
    · unfold covBlock
      obtain ⟨r', h⟩ := covLoop_count p (mean l p) (mean l p) 0 0 l
      exact ⟨mean l p, mean l p, r', by simp only [h]; simp⟩
    · have hc' : 64 < l.length := by simpa [pwBlock] using hc
      obtain ⟨a1, b1, r1, e1⟩ := ih _ (by simp; omega) (l.take (l.length / 2)) rfl
      obtain ⟨a2, b2, r2, e2⟩ := ih _ (by simp; omega) (l.drop (l.length / 2)) rfl
      rw [e1, e2]
      have hlen : (l.filter p).length = ((l.take (l.length / 2)).filter p).length
          + ((l.drop (l.length / 2)).filter p).length := by
        rw [← List.length_append, ← List.filter_append, List.take_append_drop]
      rw [hlen]
      exact ⟨_, _, _, rfl⟩

/-- C19 is false of the code: whenever an array of more than 64 elements starts with a rejected
first half, its filtered variance is NaN — whatever the accepted elements are.  The mean of the
rejected block is `0/0` and is multiplied by its zero weight (stats.hpp:407, 433-444). -/
theorem C19_empty_block_is_nan (ddof : ℤ) (l : List (Ex K)) (p : Ex K → Bool) (hl : 64 < l.length)
    (hrej : ∀ x ∈ l.take (l.length / 2), p x = false) (hd : ddof < (l.filter p).length) :
    varF ddof l p = .ok (Ex.nan, (l.filter p).length) := by
  obtain ⟨r1, e1⟩ := cov_rejected p (l.take (l.length / 2)) hrej
  obtain ⟨a2, b2, r2, e2⟩ := cov_count p (l.drop (l.length / 2))
  have hcnt : (l.drop (l.length / 2)).filter p = l.filter p := by
    have hnil : (l.take (l.length / 2)).filter p = [] := by
      rw [List.filter_eq_nil_iff]; intro a ha; simp [hrej a ha]
    have h2 : l.filter p = (l.take (l.length / 2)).filter p ++ (l.drop (l.length / 2)).filter p := by
      rw [← List.filter_append, List.take_append_drop]
    rw [h2, hnil, List.nil_append]
  unfold varF covarianceF
  have hr : (l.length == l.length) = true := by simp
  simp only [hr, require_true, Res.bind_ok]
  rw [if_neg (by omega)]
  unfold pairwiseAcc2
  rw [if_neg (by simp), if_neg (by simp only [pwBlock]; omega), e1, e2]
  simp only [Res.bind_ok, Res.pure_eq, covCombine, hcnt, Nat.zero_add]
  rw [if_neg (by omega)]
  simp

/-- C19, the hypotheses are met: 32 NaN followed by 33 ones, for which `nanvar` should be 0. -/
theorem C19_nanvar_false :
    let l : List (Ex ℚ) := List.replicate 32 Ex.nan ++ List.replicate 33 (Ex.fin 1)
    let notNan : Ex ℚ → Bool := fun x => !x.isNan
    varF 0 l notNan = .ok (Ex.nan, 33) ∧ l.filter notNan = (List.replicate 33 (1 : ℚ)).map Ex.fin ∧
      covL 0 ((List.replicate 33 (1 : ℚ)).zip (List.replicate 33 1)) = 0 := by
  intro l notNan
  refine ⟨?_, by decide +kernel, by decide +kernel⟩
  have := C19_empty_block_is_nan 0 l notNan (by decide) (by decide +kernel) (by decide +kernel)
  rw [this]
  congr 2

/-- C19: `nancovariance` of a pair of arrays is not the covariance of the pairs in which both
elements are accepted: the block means are filtered separately (stats.hpp:407-408) while the
products are filtered jointly (414).  Here the accepted pairs are (1,1) and (3,2), covariance 1/2. -/
theorem C19_nancovariance_false :
    let x : List (Ex ℚ) := [Ex.nan, Ex.fin 1, Ex.fin 3, Ex.fin 8]
    let y : List (Ex ℚ) := [Ex.fin 9, Ex.fin 1, Ex.fin 2, Ex.nan]
    covarianceF 0 x y (fun v => !v.isNan) = .ok (Ex.fin (11 / 2), 2) ∧
      covL 0 [((1 : ℚ), (1 : ℚ)), (3, 2)] = 1 / 2 := by
  intro x y
  refine ⟨?_, by decide +kernel⟩
  have hm1 : mean x (fun v => !v.isNan) = Ex.fin 4 := by
    rw [mean_ex x _ [1, 3, 8] (by decide +kernel) (by decide) (by decide)]
    decide +kernel
  have hm2 : mean y (fun v => !v.isNan) = Ex.fin 4 := by
    rw [mean_ex y _ [9, 1, 2] (by decide +kernel) (by decide) (by decide)]
    decide +kernel
  unfold covarianceF
  have hr : (x.length == y.length) = true := by decide
  simp only [hr, require_true, Res.bind_ok]
  rw [if_neg (by decide)]
  unfold pairwiseAcc2
  rw [if_neg (by decide), if_pos (by decide)]
  unfold covBlock
  rw [hm1, hm2]
  decide +kernel

end filtered

/-! ## C69 — powers by squaring -/

/-- C69: `pow<n>(x)` and `power(x, n)` compute `x^|n|` in every monoid; so `x^n` for `n ≥ 0`. -/
theorem C69_power {M : Type*} [Monoid M] (a : M) (n : ℤ) : powSq a n = a ^ n.natAbs := by
  induction hk : n.natAbs using Nat.strong_induction_on generalizing n with
  | _ k ih =>
    unfold powSq
    by_cases h0 : n = 0
    · rw [if_pos h0]; subst h0; simp at hk; subst hk; simp
    · rw [if_neg h0]
      have hd : (n.tdiv 2).natAbs = n.natAbs / 2 := Int.natAbs_tdiv n 2
      have hm : n.tmod 2 = 0 ↔ n.natAbs % 2 = 0 := by
        have : (n.tmod 2).natAbs = n.natAbs % 2 := Int.natAbs_tmod n 2
        rw [← this, Int.natAbs_eq_zero]
      simp only
      rw [ih (n.natAbs / 2) (by omega) _ hd, ← hk, ← pow_add]
      split_ifs with hm1
      · rw [mul_one]; congr 1; rw [hm] at hm1; omega
      · rw [← pow_succ]; congr 1; rw [hm] at hm1; omega

/-- C69: for a non-negative exponent this is the mathematical power. -/
theorem C69_power_nonneg_partial {M : Type*} [Monoid M] (a : M) (n : ℕ) : powSq a (n : ℤ) = a ^ n := by
  rw [C69_power]; simp

/-- C69 is false of the code for negative exponents: `pow<-n>(x)` is `x^n`, not its inverse
(the sign is lost by truncated division), so it is wrong unless `x^(2n) = 1`. -/
theorem C69_negative_exponent_false {G : Type*} [Group G] (a : G) (n : ℕ) :
    powSq a (-(n : ℤ)) = a ^ n ∧ (powSq a (-(n : ℤ)) = a ^ (-(n : ℤ)) ↔ a ^ (2 * n) = 1) := by
  have h : powSq a (-(n : ℤ)) = a ^ n := by rw [C69_power]; simp
  refine ⟨h, ?_⟩
  rw [h, zpow_neg, zpow_natCast, eq_inv_iff_mul_eq_one, ← pow_add, two_mul]

/-- C69, concretely: `pow<-1>(2.)` is 2. -/
theorem C69_negative_example : powSq (2 : ℚ) (-1) = 2 ∧ (2 : ℚ) ^ (-1 : ℤ) ≠ 2 := by
  refine ⟨by rw [C69_power]; norm_num, by norm_num⟩

/-! ## C20 — moments, kurtosis, skewness -/

section moments
variable {K : Type*} [Field K] [StarRing K] [DecidableEq K]

theorem powSq_fin (a : K) (n : ℤ) : powSq (Ex.fin a) n = Ex.fin (powSq a n) := by
  induction hk : n.natAbs using Nat.strong_induction_on generalizing n with
  | _ k ih =>
    unfold powSq
    split_ifs with h0 hm
    · rfl
    · have hd : (n.tdiv 2).natAbs = n.natAbs / 2 := Int.natAbs_tdiv n 2
      simp only [ih _ (by omega) _ hd]
      simp only [Ex.one_def, Ex.fin_mul]
    · have hd : (n.tdiv 2).natAbs = n.natAbs / 2 := Int.natAbs_tdiv n 2
      simp only [ih _ (by omega) _ hd]
      simp only [Ex.fin_mul]

theorem powSq_nan (n : ℤ) (hn : n ≠ 0) : powSq (Ex.nan : Ex K) n = Ex.nan := by
  have h2 : ∀ m : ℤ, powSq (Ex.nan : Ex K) m * powSq (Ex.nan : Ex K) m
      * (if n.tmod 2 = 0 then 1 else Ex.nan) = Ex.nan ∨ m = 0 := by
    intro m
    induction hk : m.natAbs using Nat.strong_induction_on generalizing m with
    | _ k ih =>
      by_cases h0 : m = 0
      · exact Or.inr h0
      · left
        have : powSq (Ex.nan : Ex K) m = Ex.nan := by
          clear hk ih
          induction hk : m.natAbs using Nat.strong_induction_on generalizing m with
          | _ k ih =>
            unfold powSq
            rw [if_neg h0]
            have hd : (m.tdiv 2).natAbs = m.natAbs / 2 := Int.natAbs_tdiv m 2
            by_cases h1 : m.tdiv 2 = 0
            · have hm : m.tmod 2 ≠ 0 := by
                have := Int.mul_tdiv_add_tmod m 2
                rw [h1] at this; intro h; rw [h] at this; omega
              simp only [if_neg hm, Ex.mul_nan]
            · simp only [ih _ (by omega) _ h1 hd, Ex.nan_mul]
        rw [this]; simp
  unfold powSq
  rw [if_neg hn]
  rcases h2 (n.tdiv 2) with h | h
  · exact h
  · have hm : n.tmod 2 ≠ 0 := by
      have := Int.mul_tdiv_add_tmod n 2
      rw [h] at this; intro h'; rw [h'] at this; omega
    simp only [if_neg hm, Ex.mul_nan]

variable [CharZero K]

/-- Moments of order at least 3, for a filter that classifies the powered deviations as it
classifies the elements. -/
theorem moment_ge3 (n : ℕ) (hn : 3 ≤ n) (l : List (Ex K)) (p : Ex K → Bool) (s : List K)
    (hs : l.filter p = s.map Ex.fin) (hne : s ≠ []) (hlen : s.length < 2 ^ 31)
    (hp : ∀ x ∈ l, p (powSq (x - Ex.fin (meanL s)) n) = p x) :
    moment n l p = .ok (Ex.fin (centralMoment n s)) := by
  unfold moment
  rw [if_neg (by omega), if_neg (by omega), if_neg (by omega)]
  simp only [mean_ex l p s hs hne hlen]
  congr 1
  have : (l.map fun x => powSq (x - Ex.fin (meanL s)) n).filter p
      = (s.map fun x => (x - meanL s) ^ n).map Ex.fin := by
    rw [List.filter_map]
    have h1 : l.filter (p ∘ fun x => powSq (x - Ex.fin (meanL s)) n) = l.filter p :=
      List.filter_congr (fun x hx => hp x hx)
    rw [h1, hs, List.map_map, List.map_map]
    refine List.map_congr_left fun x _ => ?_
    simp only [Function.comp, Ex.fin_sub, powSq_fin]
    rw [C69_power_nonneg_partial]
  rw [mean_ex _ p _ this (by simpa using hne) (by simpa using hlen)]
  unfold meanL centralMoment meanL
  rw [List.length_map]

theorem zip_self {β : Type*} (x : List β) : x.zip x = x.map fun a => (a, a) := by
  induction x with
  | nil => rfl
  | cons a x ih => rw [List.zip_cons_cons, ih]; rfl

/-- `covL 0 (s, s)` is the second central moment on real (trivially starred) types. -/
theorem covL_self [TrivialStar K] (s : List K) : covL 0 (s.zip s) = centralMoment 2 s := by
  unfold covL covSum centralMoment
  rw [zip_self, List.map_map, List.map_map, List.map_map, List.length_map]
  have h1 : (Prod.fst ∘ fun a : K => (a, a)) = id := rfl
  have h2 : (Prod.snd ∘ fun a : K => (a, a)) = id := rfl
  rw [h1, h2, List.map_id]
  simp only [Int.cast_zero, sub_zero]
  refine congrArg (· / _) (congrArg List.sum (List.map_congr_left fun x _ => ?_))
  simp [pow_two]

variable [TrivialStar K]

/-- C20: `moment<n>(x)` is the `n`-th central moment `Σ (xᵢ - x̄)ⁿ / N`, for every order. -/
theorem C20_moment (n : ℕ) (x : List K) (hx : x ≠ []) (hlen : x.length < 2 ^ 31) :
    moment n (x.map Ex.fin) (fun _ => true) = .ok (Ex.fin (centralMoment n x)) := by
  have hpos : (x.length : K) ≠ 0 := by
    rw [Nat.cast_ne_zero]; exact (List.length_pos_iff.mpr hx).ne'
  by_cases h0 : n = 0
  · subst h0
    unfold moment centralMoment
    simp [hpos]
  by_cases h1 : n = 1
  · subst h1
    unfold moment centralMoment
    simp only [Nat.one_ne_zero, if_false, if_true, Ex.ofInt_def, pow_one]
    have : (x.map fun a => a - meanL x).sum = x.sum - x.length * meanL x := by
      generalize meanL x = m
      clear hx hlen hpos
      induction x with
      | nil => simp
      | cons a x ih => simp only [List.map_cons, List.sum_cons, ih, List.length_cons]; push_cast; ring
    rw [this, meanL]
    congr 2
    field_simp
    simp
  by_cases h2 : n = 2
  · subst h2
    unfold moment varF
    rw [if_neg (by omega), if_neg (by omega), if_pos rfl, C18_covariance 0 x x rfl hx hlen
      (by have := List.length_pos_iff.mpr hx; omega), covL_self]
    rfl
  · refine moment_ge3 n (by omega) _ _ x ?_ hx hlen (fun _ _ => rfl)
    simp

/-- C20: `moment<0> = 1`, `moment<1> = 0`, whatever the data and the filter. -/
theorem C20_moment_01 (l : List (Ex K)) (p : Ex K → Bool) :
    moment 0 l p = .ok (Ex.fin 1) ∧ moment 1 l p = .ok (Ex.fin 0) := by
  refine ⟨?_, ?_⟩ <;> simp [moment]

/-- C20: NaN-ignoring moments of order at least 3 are those of the non-NaN elements (finite data and
NaNs in any arrangement). -/
theorem C20_nanmoment (n : ℕ) (hn : 3 ≤ n) (l : List (Ex K)) (s : List K)
    (hs : l.filter (fun x => !x.isNan) = s.map Ex.fin) (hne : s ≠ []) (hlen : s.length < 2 ^ 31) :
    moment n l (fun x => !x.isNan) = .ok (Ex.fin (centralMoment n s)) := by
  refine moment_ge3 n hn l _ s hs hne hlen fun x hx => ?_
  cases x with
  | fin k => rw [Ex.fin_sub, powSq_fin]; rfl
  | nan => rw [Ex.nan_sub, powSq_nan _ (by omega)]
  | inf =>
    exfalso
    have : (Ex.inf : Ex K) ∈ l.filter (fun x => !x.isNan) := List.mem_filter.mpr ⟨hx, rfl⟩
    rw [hs] at this
    obtain ⟨k, _, hk⟩ := List.mem_map.mp this
    cases hk

/-- C20 (partial): the second NaN-ignoring moment, under the block condition of C19.  Missing: data
with 32 or more consecutive NaNs, for which the code returns NaN (C19). -/
theorem C20_nanmoment2_partial (l : List (Ex K)) (s : List K)
    (hs : l.filter (fun x => !x.isNan) = s.map Ex.fin) (hne : s ≠ [])
    (hw : l.length ≤ 64 ∨
      ∀ i, i + 32 ≤ l.length → ∃ x ∈ (l.drop i).take 32, (!Ex.isNan x) = true)
    (hlen : s.length < 2 ^ 31) :
    moment 2 l (fun x => !x.isNan) = .ok (Ex.fin (centralMoment 2 s)) := by
  unfold moment
  rw [if_neg (by omega), if_neg (by omega), if_pos rfl,
    C19_filtered_var_partial 0 l _ s hs hne hw hlen (by have := List.length_pos_iff.mpr hne; omega),
    covL_self]
  rfl

example : let l : List (Ex ℚ) := [Ex.fin 1, Ex.nan, Ex.fin 4, Ex.fin 7]
    l.filter (fun x => !x.isNan) = ([1, 4, 7] : List ℚ).map Ex.fin ∧ l.length ≤ 64 := by
  decide +kernel

/-- C20 is false of the code for a value filter: `moment<3>(f, Trim)` applies the filter again to
the cubed deviations (stats.hpp:585).  With `Trim{0, 100}` and the data 1, 2, 6 — all accepted — the
code drops the negative deviations: it returns `27`, the third central moment is `6`. -/
theorem C20_trim_moment_false :
    let trim : Ex ℚ → Bool := fun v =>
      match v with
      | Ex.fin k => trimFilter 0 100 true true k
      | _ => false
    let l : List (Ex ℚ) := [Ex.fin 1, Ex.fin 2, Ex.fin 6]
    l.filter trim = l ∧ moment 3 l trim = .ok (Ex.fin 27) ∧ centralMoment 3 [(1 : ℚ), 2, 6] = 6 := by
  intro trim l
  refine ⟨by decide +kernel, ?_, by decide +kernel⟩
  unfold moment
  rw [if_neg (by decide), if_neg (by decide), if_neg (by decide)]
  have hm : mean l trim = Ex.fin 3 := by
    rw [mean_ex l _ [1, 2, 6] (by decide +kernel) (by decide) (by decide)]
    decide +kernel
  simp only [hm]
  refine congrArg Res.ok ?_
  rw [mean_ex _ trim [27] ?_ (by decide) (by decide)]
  · decide +kernel
  · simp only [l, List.map_cons, List.map_nil, Ex.fin_sub, powSq_fin, C69_power_nonneg_partial]
    decide +kernel

end moments

/-! ### Kurtosis and skewness of real samples -/

theorem centralMoment_even_nonneg (k : ℕ) (hk : Even k) (x : List ℝ) : 0 ≤ centralMoment k x := by
  unfold centralMoment
  refine div_nonneg (List.sum_nonneg fun y hy => ?_) (Nat.cast_nonneg _)
  obtain ⟨z, _, rfl⟩ := List.mem_map.mp hy
  exact hk.pow_nonneg _

/-- `Σ zᵢ² / n ≥ (Σ zᵢ / n)²`. -/
theorem sq_mean_le_mean_sq (z : List ℝ) : meanL z ^ 2 ≤ meanL (z.map (· ^ 2)) := by
  by_cases hz : z = []
  · subst hz; simp [meanL]
  have h0 : (0 : ℝ) < z.length := by exact_mod_cast List.length_pos_iff.mpr hz
  have h1 := centralMoment_even_nonneg 2 (by decide) z
  have h2 : ∀ m : ℝ, (z.map fun x => (x - m) ^ 2).sum
      = (z.map (· ^ 2)).sum - 2 * m * z.sum + z.length * m ^ 2 := by
    intro m
    clear h0 h1 hz
    induction z with
    | nil => simp
    | cons a z ih => simp only [List.map_cons, List.sum_cons, ih, List.length_cons]; push_cast; ring
  unfold centralMoment at h1
  rw [h2, meanL] at h1
  unfold meanL
  rw [List.length_map]
  have e : ((z.map (· ^ 2)).sum - 2 * (z.sum / z.length) * z.sum
      + z.length * (z.sum / z.length) ^ 2) / z.length
      = (z.map (· ^ 2)).sum / z.length - (z.sum / z.length) ^ 2 := by
    field_simp; ring
  rw [e] at h1
  linarith

theorem centralMoment_affine (k : ℕ) (x : List ℝ) (a b : ℝ) (hx : x ≠ []) :
    centralMoment k (x.map fun t => a * t + b) = a ^ k * centralMoment k x := by
  have h0 : (x.length : ℝ) ≠ 0 := by
    rw [Nat.cast_ne_zero]; exact (List.length_pos_iff.mpr hx).ne'
  have hm : meanL (x.map fun t => a * t + b) = a * meanL x + b := by
    have h1 : (x.map fun t => a * t + b).sum = a * x.sum + x.length * b := by
      clear h0 hx
      induction x with
      | nil => simp
      | cons c x ih => simp only [List.map_cons, List.sum_cons, ih, List.length_cons]; push_cast; ring
    unfold meanL
    rw [h1, List.length_map]
    field_simp
  unfold centralMoment
  rw [hm, List.map_map, List.length_map]
  have : (x.map ((fun t => (t - (a * meanL x + b)) ^ k) ∘ fun t => a * t + b)).sum
      = a ^ k * (x.map fun t => (t - meanL x) ^ k).sum := by
    generalize meanL x = m
    clear h0 hx hm
    induction x with
    | nil => simp
    | cons c x ih =>
      simp only [List.map_cons, List.sum_cons, ih, Function.comp, mul_add]
      rw [← mul_pow]; congr 2; ring
  rw [this, mul_div_assoc]

/-- C20: `kurtosis` is `m₄/m₂²` (Pearson) or `m₄/m₂² - 3` (Fisher); a Pearson kurtosis is at least
1; constant data give NaN. -/
theorem C20_kurtosis (x : List ℝ) (hx : x ≠ []) (hlen : x.length < 2 ^ 31) :
    let m2 := centralMoment 2 x
    let m4 := centralMoment 4 x
    (m2 ≠ 0 → kurtosis false (x.map Ex.fin) (fun _ => true) = .ok (Ex.fin (m4 / m2 ^ 2)) ∧
      kurtosis true (x.map Ex.fin) (fun _ => true) = .ok (Ex.fin (m4 / m2 ^ 2 - 3)) ∧
      1 ≤ m4 / m2 ^ 2) ∧
    (m2 = 0 → kurtosis false (x.map Ex.fin) (fun _ => true) = .ok Ex.nan) := by
  intro m2 m4
  have em2 : centralMoment 2 x = m2 := rfl
  have em4 : centralMoment 4 x = m4 := rfl
  unfold kurtosis
  rw [C20_moment 2 x hx hlen, C20_moment 4 x hx hlen]
  refine ⟨fun h => ?_, fun h => ?_⟩
  · have h2 : m2 * m2 ≠ 0 := mul_ne_zero h h
    refine ⟨?_, ?_, ?_⟩
    · simp only [Res.bind_ok, Ex.fin_mul, em2, em4]
      rw [if_neg (by decide), pow_two, Ex.fin_div h2]; rfl
    · simp only [Res.bind_ok, Ex.fin_mul, em2, em4, if_true]
      rw [pow_two, Ex.ofInt_def, Ex.fin_div h2]
      simp only [Int.cast_ofNat, Ex.fin_sub]; rfl
    · rw [le_div_iff₀ (by positivity), one_mul]
      have := sq_mean_le_mean_sq (x.map fun t => (t - meanL x) ^ 2)
      rw [List.map_map] at this
      have e1 : meanL (x.map fun t => (t - meanL x) ^ 2) = m2 := by
        simp only [m2, centralMoment]
        rw [show ∀ l : List ℝ, meanL l = l.sum / l.length from fun _ => rfl, List.length_map]
      have e2 : meanL (x.map ((· ^ 2) ∘ fun t => (t - meanL x) ^ 2)) = m4 := by
        simp only [m4, centralMoment]
        rw [show ∀ l : List ℝ, meanL l = l.sum / l.length from fun _ => rfl, List.length_map]
        refine congrArg (· / _) (congrArg List.sum (List.map_congr_left fun t _ => ?_))
        simp only [Function.comp]; ring
      rw [e1, e2] at this
      exact this
  · simp only [Res.bind_ok, Ex.fin_mul]
    have : centralMoment 2 x = 0 := h
    rw [this, mul_zero, Ex.fin_div_zero]
    rfl

/-- C20: the Pearson and Fisher kurtosis are invariant under every invertible affine map. -/
theorem C20_kurtosis_affine (fisher : Bool) (x : List ℝ) (hx : x ≠ []) (hlen : x.length < 2 ^ 31)
    (a b : ℝ) (ha : a ≠ 0) :
    kurtosis fisher ((x.map fun t => a * t + b).map Ex.fin) (fun _ => true)
      = kurtosis fisher (x.map Ex.fin) (fun _ => true) := by
  have hx' : (x.map fun t => a * t + b) ≠ [] := by simpa using hx
  have hl' : (x.map fun t => a * t + b).length < 2 ^ 31 := by simpa using hlen
  unfold kurtosis
  rw [C20_moment 2 _ hx' hl', C20_moment 4 _ hx' hl', C20_moment 2 x hx hlen,
    C20_moment 4 x hx hlen, centralMoment_affine 2 x a b hx, centralMoment_affine 4 x a b hx]
  simp only [Res.bind_ok, Ex.fin_mul]
  by_cases h : centralMoment 2 x = 0
  · rw [h]; simp only [mul_zero, Ex.fin_div_zero]
  · rw [Ex.fin_div (by positivity), Ex.fin_div (by positivity)]
    have : a ^ 4 * centralMoment 4 x / (a ^ 2 * centralMoment 2 x * (a ^ 2 * centralMoment 2 x))
        = centralMoment 4 x / (centralMoment 2 x * centralMoment 2 x) := by
      field_simp
    rw [this]

/-- `units::sqrt` on non-negative reals (scicpp/core/units/maths.hpp:101-111), extended to `Ex`. -/
noncomputable def exSqrt : Ex ℝ → Ex ℝ := Ex.map Real.sqrt

/-- C20: `skew` is `m₃ / m₂^(3/2)`. -/
theorem C20_skew (x : List ℝ) (hx : x ≠ []) (hlen : x.length < 2 ^ 31)
    (h : centralMoment 2 x ≠ 0) :
    skew exSqrt (x.map Ex.fin) (fun _ => true)
      = .ok (Ex.fin (centralMoment 3 x / centralMoment 2 x ^ (3 / 2 : ℝ))) := by
  have hpos : 0 < centralMoment 2 x :=
    lt_of_le_of_ne (centralMoment_even_nonneg 2 (by decide) x) (Ne.symm h)
  have hsq : Real.sqrt (centralMoment 2 x * centralMoment 2 x * centralMoment 2 x)
      = centralMoment 2 x ^ (3 / 2 : ℝ) := by
    rw [Real.sqrt_eq_rpow]
    have : centralMoment 2 x * centralMoment 2 x * centralMoment 2 x
        = centralMoment 2 x ^ (3 : ℝ) := by
      rw [show (3 : ℝ) = ((3 : ℕ) : ℝ) by norm_num, Real.rpow_natCast]; ring
    rw [this, ← Real.rpow_mul hpos.le]
    norm_num
  unfold skew
  rw [C20_moment 2 x hx hlen, C20_moment 3 x hx hlen]
  simp only [Res.bind_ok, Ex.fin_mul, exSqrt, Ex.map]
  rw [hsq, Ex.fin_div (Real.rpow_pos_of_pos hpos _).ne']
  rfl

/-- C20: skewness is invariant under `t ↦ a·t + b` with `a > 0` and changes sign with `a < 0`. -/
theorem C20_skew_affine (x : List ℝ) (hx : x ≠ []) (hlen : x.length < 2 ^ 31)
    (h : centralMoment 2 x ≠ 0) (a b : ℝ) (ha : 0 < a) :
    skew exSqrt ((x.map fun t => a * t + b).map Ex.fin) (fun _ => true)
      = skew exSqrt (x.map Ex.fin) (fun _ => true) ∧
    ∃ r, skew exSqrt (x.map Ex.fin) (fun _ => true) = .ok (Ex.fin r) ∧
      skew exSqrt ((x.map fun t => -a * t + b).map Ex.fin) (fun _ => true) = .ok (Ex.fin (-r)) := by
  have hpos : 0 < centralMoment 2 x :=
    lt_of_le_of_ne (centralMoment_even_nonneg 2 (by decide) x) (Ne.symm h)
  have key : (a ^ 2 * centralMoment 2 x) ^ (3 / 2 : ℝ)
      = a ^ 3 * centralMoment 2 x ^ (3 / 2 : ℝ) := by
    rw [Real.mul_rpow (by positivity) hpos.le]
    congr 1
    rw [← Real.rpow_natCast, ← Real.rpow_natCast, ← Real.rpow_mul ha.le]
    norm_num
  have hr : centralMoment 2 x ^ (3 / 2 : ℝ) ≠ 0 := (Real.rpow_pos_of_pos hpos _).ne'
  refine ⟨?_, _, C20_skew x hx hlen h, ?_⟩
  · rw [C20_skew x hx hlen h, C20_skew _ (by simpa using hx) (by simpa using hlen)
      (by rw [centralMoment_affine 2 x a b hx]; positivity),
      centralMoment_affine 2 x a b hx, centralMoment_affine 3 x a b hx, key]
    congr 2
    field_simp
  · rw [C20_skew _ (by simpa using hx) (by simpa using hlen)
      (by rw [centralMoment_affine 2 x (-a) b hx]; simp only [neg_sq]; positivity),
      centralMoment_affine 2 x (-a) b hx, centralMoment_affine 3 x (-a) b hx, neg_sq, key]
    congr 2
    field_simp

example : centralMoment 2 [(0 : ℝ), 2] ≠ 0 := by norm_num [centralMoment, meanL]

/-- C20: `sem` is `sqrt(var/n)`. -/
theorem C20_sem (ddof : ℤ) (x : List ℝ) (hx : x ≠ []) (hlen : x.length < 2 ^ 31)
    (hd : ddof < x.length) :
    sem ddof exSqrt (x.map Ex.fin) (fun _ => true)
      = .ok (Ex.fin (Real.sqrt (covL ddof (x.zip x) / x.length))) := by
  have hpos : (x.length : ℝ) ≠ 0 := by
    rw [Nat.cast_ne_zero]; exact (List.length_pos_iff.mpr hx).ne'
  unfold sem varF
  rw [C18_covariance ddof x x rfl hx hlen hd]
  simp only [Res.bind_ok, Ex.ofInt_def, Int.cast_natCast]
  rw [Ex.fin_div hpos]
  rfl

/-! ## C21 — the covariance matrix -/

section matrix
variable {K : Type*} [RCLike K] [DecidableEq K]
open scoped ComplexOrder Matrix

/-- `T(std::real(z))`, the identity on real types (scicpp/core/stats.hpp:478-483, 663, 666). -/
noncomputable def exRe : Ex K → Ex K := Ex.map fun z => ((RCLike.re z : ℝ) : K)

theorem covSum_matrix_psd (s : List (K × K)) (c d : K) :
    (!![(s.map fun xy => (xy.1 - c) * star (xy.1 - c)).sum,
        (s.map fun xy => (xy.1 - c) * star (xy.2 - d)).sum;
        (s.map fun xy => (xy.2 - d) * star (xy.1 - c)).sum,
        (s.map fun xy => (xy.2 - d) * star (xy.2 - d)).sum] : Matrix (Fin 2) (Fin 2) K).PosSemidef := by
  induction s with
  | nil =>
    have : (!![([] : List K).sum, ([] : List K).sum; ([] : List K).sum, ([] : List K).sum] :
        Matrix (Fin 2) (Fin 2) K) = 0 := by
      ext i j; fin_cases i <;> fin_cases j <;> rfl
    simpa only [List.map_nil, this] using Matrix.PosSemidef.zero
  | cons a s ih =>
    have h1 := Matrix.posSemidef_vecMulVec_self_star (![a.1 - c, a.2 - d] : Fin 2 → K)
    have h2 := h1.add ih
    convert h2 using 1
    ext i j
    rw [Matrix.add_apply, Matrix.vecMulVec_apply]
    fin_cases i <;> fin_cases j <;> simp

/-- C21: `cov(x, y)` (real or complex data) has `var(x)` and `var(y)` on the diagonal, the covariance
and its conjugate off the diagonal, and is Hermitian positive semidefinite. -/
theorem C21_cov_matrix (ddof : ℤ) (x y : List K) (hl : x.length = y.length) (hx : x ≠ [])
    (hlen : x.length < 2 ^ 31) (hd : ddof < x.length) :
    ∃ a b c d : K,
      covMatrix ddof exRe (x.map Ex.fin) (y.map Ex.fin) (fun _ => true)
        = .ok ((Ex.fin a, Ex.fin b), (Ex.fin c, Ex.fin d)) ∧
      a = covL ddof (x.zip x) ∧ d = covL ddof (y.zip y) ∧ b = covL ddof (x.zip y) ∧ c = star b ∧
      (!![a, b; c, d] : Matrix (Fin 2) (Fin 2) K).PosSemidef := by
  have hy : y ≠ [] := by
    intro h; subst h; exact hx (List.length_eq_zero_iff.mp hl)
  have hre : ∀ z : List K, (hz : z.length = x.length) →
      ((RCLike.re (covL ddof (z.zip z)) : ℝ) : K) = covL ddof (z.zip z) := by
    intro z hz
    obtain ⟨r, _, hr⟩ := covSum_self_nonneg z
    unfold covL
    rw [hr]
    have e : ((r : K) / (((z.zip z).length : K) - (ddof : K)))
        = ((r / (((z.zip z).length : ℝ) - (ddof : ℝ)) : ℝ) : K) := by push_cast; rfl
    rw [e, RCLike.ofReal_re]
  refine ⟨_, _, _, _, ?_, rfl, rfl, rfl, rfl, ?_⟩
  · unfold covMatrix varF
    rw [C18_covariance ddof x y hl hx hlen hd, C18_covariance ddof x x rfl hx hlen hd,
      C18_covariance ddof y y rfl hy (hl ▸ hlen) (hl ▸ hd)]
    simp only [Res.bind_ok, exRe, Ex.map, hre x rfl, hre y hl.symm, Ex.conj_fin]
    rfl
  · rw [← covL_swap, List.zip_swap]
    unfold covL covSum
    have hf : (x.zip y).map Prod.fst = x := by
      rw [List.map_fst_zip (by omega)]
    have hs : (x.zip y).map Prod.snd = y := by
      rw [List.map_snd_zip (by omega)]
    have hf' : (y.zip x).map Prod.fst = y := by rw [List.map_fst_zip (by omega)]
    have hs' : (y.zip x).map Prod.snd = x := by rw [List.map_snd_zip (by omega)]
    have hxx : x.zip x = (x.zip y).map fun xy => (xy.1, xy.1) := by
      conv_lhs => rw [← hf]
      rw [List.zip_map']
    have hyy : y.zip y = (x.zip y).map fun xy => (xy.2, xy.2) := by
      conv_lhs => rw [← hs]
      rw [List.zip_map']
    have hyx : y.zip x = (x.zip y).map fun xy => (xy.2, xy.1) := by
      rw [← List.zip_swap]; rfl
    have hfx : (x.zip x).map Prod.fst = x := List.map_fst_zip (le_refl _)
    have hsx : (x.zip x).map Prod.snd = x := List.map_snd_zip (le_refl _)
    have hfy : (y.zip y).map Prod.fst = y := List.map_fst_zip (le_refl _)
    have hsy : (y.zip y).map Prod.snd = y := List.map_snd_zip (le_refl _)
    rw [hf, hs, hf', hs', hfx, hsx, hfy, hsy, hxx, hyy, hyx]
    simp only [List.map_map, List.length_map]
    have hpsd := covSum_matrix_psd (x.zip y) (meanL x) (meanL y)
    have hzl : (x.zip y).length = x.length := by simp [hl]
    rw [hzl]
    have hn : (0 : K) ≤ ((((x.length : ℤ) - ddof : ℤ) : ℝ)⁻¹ : ℝ) := by
      rw [RCLike.ofReal_nonneg]
      apply inv_nonneg.mpr
      have : (0 : ℤ) ≤ (x.length : ℤ) - ddof := by omega
      exact_mod_cast this
    have := hpsd.smul hn
    convert this using 1
    ext i j
    rw [Matrix.smul_apply]
    fin_cases i <;> fin_cases j <;>
      simp [div_eq_inv_mul, Function.comp_def]

/-- C21: consequently (Cauchy–Schwarz) the determinant is non-negative. -/
theorem C21_determinant (ddof : ℤ) (x y : List K) (hl : x.length = y.length) (hx : x ≠ [])
    (hlen : x.length < 2 ^ 31) (hd : ddof < x.length) :
    ∃ a b c d : K,
      covMatrix ddof exRe (x.map Ex.fin) (y.map Ex.fin) (fun _ => true)
        = .ok ((Ex.fin a, Ex.fin b), (Ex.fin c, Ex.fin d)) ∧ 0 ≤ a * d - b * c := by
  obtain ⟨a, b, c, d, h, _, _, _, _, hp⟩ := C21_cov_matrix ddof x y hl hx hlen hd
  refine ⟨a, b, c, d, h, ?_⟩
  have := Matrix.PosSemidef.det_nonneg hp
  rwa [Matrix.det_fin_two_of] at this

end matrix

end SciCpp
