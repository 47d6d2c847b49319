import Verif.Proofs.Stats
import Verif.Model.Fl
import Mathlib.Algebra.Order.Floor.Semiring
import Mathlib.Algebra.Order.BigOperators.Group.List
import Mathlib.Data.Rat.Floor
import Mathlib.Tactic.NormNum
import Mathlib.Tactic.Positivity
import Mathlib.Algebra.Star.Rat
/-
  Property theorems C14–C17: extrema, mean/average, median, quantiles.
-/
namespace SciCpp

set_option linter.unusedSectionVars false

open Spec

variable {α : Type*}

/-! ## C14 — amax, amin, ptp -/

/-- C14: on a non-empty array `amax`/`amin` are attained bounds and `ptp` is their difference. -/
theorem C14_amax_amin_ptp [Field α] [LinearOrder α] [IsStrictOrderedRing α] (qnan : α) (l : List α)
    (h : l ≠ []) :
    let lt : α → α → Bool := fun a b => decide (a < b)
    amax qnan lt l ∈ l ∧ (∀ x ∈ l, x ≤ amax qnan lt l) ∧
    amin qnan lt l ∈ l ∧ (∀ x ∈ l, amin qnan lt l ≤ x) ∧
    ptp qnan lt l = amax qnan lt l - amin qnan lt l ∧ 0 ≤ ptp qnan lt l := by
  intro lt
  rcases l with _ | ⟨x, xs⟩
  · exact absurd rfl h
  · obtain ⟨a1, a2⟩ := maxElement_spec x xs
    obtain ⟨b1, b2⟩ := minElement_spec x xs
    obtain ⟨c1, c2⟩ := maxElementLast_spec x xs
    have e : maxElementLast lt x xs = maxElement lt x xs := le_antisymm (a2 _ c1) (c2 _ a1)
    refine ⟨a1, a2, b1, b2, ?_, ?_⟩
    · simp only [ptp, amax, amin, e]
    · simp only [ptp, e]
      have := a2 _ b1
      exact sub_nonneg.mpr this

/-- C14: `amax`, `amin` of any totally ordered element type (integers included). -/
theorem C14_amax_amin_order [LinearOrder α] (qnan : α) (l : List α) (h : l ≠ []) :
    let lt : α → α → Bool := fun a b => decide (a < b)
    (amax qnan lt l ∈ l ∧ ∀ x ∈ l, x ≤ amax qnan lt l) ∧
    (amin qnan lt l ∈ l ∧ ∀ x ∈ l, amin qnan lt l ≤ x) := by
  intro lt
  rcases l with _ | ⟨x, xs⟩
  · exact absurd rfl h
  · exact ⟨maxElement_spec x xs, minElement_spec x xs⟩

/-- C14: empty arrays give `quiet_NaN()`. -/
theorem C14_empty [Sub α] (qnan : α) (lt : α → α → Bool) :
    amax qnan lt [] = qnan ∧ amin qnan lt [] = qnan ∧ ptp qnan lt [] = qnan := ⟨rfl, rfl, rfl⟩

theorem Fl.le_of_lt' {a b : Fl} (h : Fl.lt a b = true) : Fl.le a b = true := by
  cases a with
  | nan => simp [Fl.lt] at h
  | inf n => cases b with
    | nan => cases n <;> simp [Fl.lt] at h
    | inf m => cases n <;> cases m <;> simp_all [Fl.lt, Fl.le]
    | fin q => cases n <;> simp_all [Fl.lt, Fl.le]
  | fin q => cases b with
    | nan => simp [Fl.lt] at h
    | inf m => cases m <;> simp_all [Fl.lt, Fl.le]
    | fin r => simp only [Fl.lt, Fl.le, decide_eq_true_eq] at *; exact le_of_lt h

theorem Fl.le_of_not_lt {a b : Fl} (ha : a ≠ .nan) (hb : b ≠ .nan) (h : Fl.lt a b = false) :
    Fl.le b a = true := by
  cases a with
  | nan => simp at ha
  | inf n => cases b with
    | nan => simp at hb
    | inf m => cases n <;> cases m <;> simp_all [Fl.lt, Fl.le]
    | fin q => cases n <;> simp_all [Fl.lt, Fl.le]
  | fin q => cases b with
    | nan => simp at hb
    | inf m => cases m <;> simp_all [Fl.lt, Fl.le]
    | fin r => simp only [Fl.lt, Fl.le, decide_eq_true_eq, decide_eq_false_iff_not] at *
               exact not_lt.mp h

theorem Fl.le_trans' {a b c : Fl} (h1 : Fl.le a b = true) (h2 : Fl.le b c = true) :
    Fl.le a c = true := by
  cases a with
  | nan => simp [Fl.le] at h1
  | inf n => cases b with
    | nan => simp [Fl.le] at h1
    | inf m => cases n <;> cases m <;> cases c <;> simp_all [Fl.le]
    | fin q => cases n <;> cases c <;> simp_all [Fl.le]
  | fin q => cases b with
    | nan => simp [Fl.le] at h1
    | inf m =>
      cases m with
      | true => simp [Fl.le] at h1
      | false => cases c with
        | nan => simp [Fl.le] at h2
        | inf k => cases k <;> simp_all [Fl.le]
        | fin r => simp [Fl.le] at h2
    | fin r => cases c with
      | nan => simp [Fl.le] at h2
      | inf k => cases k <;> simp_all [Fl.le]
      | fin s => simp only [Fl.le, decide_eq_true_eq] at *; exact le_trans h1 h2

theorem Fl.le_refl' {a : Fl} (ha : a ≠ .nan) : Fl.le a a = true := by
  cases a with
  | nan => simp at ha
  | inf n => cases n <;> rfl
  | fin q => simp [Fl.le]

theorem maxElement_fl (x : Fl) (xs : List Fl) (h : ∀ y ∈ x :: xs, y ≠ .nan) :
    maxElement Fl.lt x xs ∈ x :: xs ∧ ∀ y ∈ x :: xs, Fl.le y (maxElement Fl.lt x xs) = true := by
  induction xs generalizing x with
  | nil => simp only [maxElement, List.mem_singleton, forall_eq, true_and]
           exact Fl.le_refl' (h x (by simp))
  | cons z xs ih =>
    rw [maxElement]
    by_cases hlt : Fl.lt x z = true
    · rw [if_pos hlt]
      obtain ⟨h1, h2⟩ := ih z (fun y hy => h y (List.mem_cons_of_mem _ hy))
      refine ⟨List.mem_cons_of_mem _ h1, fun y hy => ?_⟩
      rcases List.mem_cons.mp hy with rfl | hy
      · exact Fl.le_trans' (Fl.le_of_lt' hlt) (h2 z (by simp))
      · exact h2 y hy
    · rw [if_neg hlt]
      obtain ⟨h1, h2⟩ := ih x (fun y hy => h y (by
        rcases List.mem_cons.mp hy with rfl | hy
        · simp
        · exact List.mem_cons_of_mem _ (List.mem_cons_of_mem _ hy)))
      refine ⟨?_, fun y hy => ?_⟩
      · rcases List.mem_cons.mp h1 with h1 | h1
        · rw [h1]; simp
        · exact List.mem_cons_of_mem _ (List.mem_cons_of_mem _ h1)
      · rcases List.mem_cons.mp hy with rfl | hy
        · exact h2 _ (by simp)
        · rcases List.mem_cons.mp hy with rfl | hy
          · exact Fl.le_trans' (Fl.le_of_not_lt (h x (by simp)) (h y (by simp)) (by simpa using hlt))
              (h2 x (by simp))
          · exact h2 y (List.mem_cons_of_mem _ hy)

/-- C14: with infinities allowed: for every non-empty floating point array without NaN, `amax` is an
element and an upper bound (IEEE `<=`). -/
theorem C14_amax_float (l : List Fl) (h : l ≠ []) (hn : ∀ x ∈ l, x ≠ .nan) :
    amax .nan Fl.lt l ∈ l ∧ ∀ x ∈ l, Fl.le x (amax .nan Fl.lt l) = true := by
  rcases l with _ | ⟨x, xs⟩
  · exact absurd rfl h
  · exact maxElement_fl x xs hn

/-- C14 (outside the stated domain): a leading NaN is returned whatever follows, a later NaN is
skipped — the result depends on the position of the NaN. -/
theorem C14_nan_position (l : List Fl) :
    amax .nan Fl.lt (Fl.nan :: l) = .nan ∧
    amax .nan Fl.lt [.fin 1, .nan, .fin 2] = .fin 2 := by
  constructor
  · have : ∀ l, maxElement Fl.lt Fl.nan l = .nan := by
      intro l; induction l with
      | nil => rfl
      | cons x xs ih => rw [maxElement]; simp only [Fl.lt, Bool.false_eq_true, if_false]; exact ih
    exact this l
  · decide +kernel

example : amax (0 : ℚ) (fun a b => decide (a < b)) [1, 5, -2, 5] = 5 ∧
    amin (0 : ℚ) (fun a b => decide (a < b)) [1, 5, -2, 5] = -2 ∧
    ptp (0 : ℚ) (fun a b => decide (a < b)) [1, 5, -2, 5] = 7 := by decide +kernel

/-! ## C15 — mean, average -/

section
variable {K : Type*} [Field K] [StarRing K] [DecidableEq K]

/-- C15: if the accepted elements of `l` are the finite numbers `s` (at least one, fewer than 2³¹),
`mean(l, filter)` is their sum divided by their number. -/
theorem C15_mean [CharZero K] (l : List (Ex K)) (p : Ex K → Bool) (s : List K)
    (hs : l.filter p = s.map Ex.fin) (hne : s ≠ []) (hlen : s.length < 2 ^ 31) :
    mean l p = Ex.fin (s.sum / (s.length : K)) := mean_ex l p s hs hne hlen

/-- C15: empty input, or no accepted element, gives NaN. -/
theorem C15_mean_nan (l : List (Ex K)) (p : Ex K → Bool) (h : ∀ x ∈ l, p x = false) :
    mean l p = Ex.nan :=
  mean_ex_empty l p (List.filter_eq_nil_iff.mpr (fun x hx => by simp [h x hx]))

/-- C15: `average(f, w)`: `Σ fᵢwᵢ / Σ wᵢ`; NaN when empty, when the sizes differ, or when the weights
sum to zero. -/
theorem C15_average (f w : List K) :
    (f ≠ [] → f.length = w.length → w.sum ≠ 0 →
      average (f.map Ex.fin) (w.map Ex.fin) = .ok (Ex.fin ((List.zipWith (· * ·) f w).sum / w.sum))) ∧
    (f = [] ∨ f.length ≠ w.length ∨ w.sum = 0 →
      average (f.map Ex.fin) (w.map Ex.fin) = .ok Ex.nan) := by
  have hz : ∀ f w : List K, List.zipWith (· * ·) (f.map Ex.fin) (w.map Ex.fin)
      = (List.zipWith (· * ·) f w).map Ex.fin := by
    intro f
    induction f with
    | nil => intro w; simp
    | cons x f ih => intro w; cases w with
      | nil => simp
      | cons y w => simp [ih w]
  have hsum : sum false (w.map Ex.fin) = Ex.fin w.sum := by
    unfold sum
    rw [sumF_ex]; simp [sum_map_fin]
  have hin : f.length = w.length →
      inner (f.map Ex.fin) (w.map Ex.fin) = .ok (Ex.fin (List.zipWith (· * ·) f w).sum) := by
    intro h
    have := innerOp_eq (fun a b : Ex K => a * b) (f.map Ex.fin) (w.map Ex.fin) (by simpa using h)
    unfold inner
    rw [this, hz, sum_map_fin]
  unfold average
  constructor
  · intro h1 h2 h3
    have hc : ((f.map Ex.fin).isEmpty || (f.map Ex.fin).length != (w.map Ex.fin).length) = false := by
      cases f <;> simp_all
    rw [hc, hin h2, hsum]
    simp only [Bool.false_eq_true, if_false, Res.bind_ok, Res.pure_eq]
    rw [Ex.fin_div h3]
  · intro h
    by_cases h1 : f = []
    · subst h1; rfl
    · by_cases h2 : f.length = w.length
      · have h3 : w.sum = 0 := by tauto
        have hc : ((f.map Ex.fin).isEmpty || (f.map Ex.fin).length != (w.map Ex.fin).length)
            = false := by cases f <;> simp_all
        rw [hc, hin h2, hsum, h3]
        simp only [Bool.false_eq_true, if_false, Res.bind_ok, Res.pure_eq]
        rw [Ex.fin_div_zero]
      · have hc : ((f.map Ex.fin).isEmpty || (f.map Ex.fin).length != (w.map Ex.fin).length)
            = true := by simp [h2]
        rw [hc]; rfl

end

theorem sum_le_of_le {K : Type*} [Field K] [LinearOrder K] [IsStrictOrderedRing K] (s : List K) (b : K)
    (h : ∀ x ∈ s, x ≤ b) : s.sum ≤ (s.length : K) * b := by
  induction s with
  | nil => simp
  | cons x s ih =>
    have h1 := ih (fun y hy => h y (List.mem_cons_of_mem _ hy))
    have h2 := h x (by simp)
    simp only [List.sum_cons, List.length_cons]; push_cast; linarith

theorem le_sum_of_le {K : Type*} [Field K] [LinearOrder K] [IsStrictOrderedRing K] (s : List K) (b : K)
    (h : ∀ x ∈ s, b ≤ x) : (s.length : K) * b ≤ s.sum := by
  induction s with
  | nil => simp
  | cons x s ih =>
    have h1 := ih (fun y hy => h y (List.mem_cons_of_mem _ hy))
    have h2 := h x (by simp)
    simp only [List.sum_cons, List.length_cons]; push_cast; linarith

/-- C15: the mean lies between any lower and upper bound of the accepted elements. -/
theorem C15_mean_bounds {K : Type*} [Field K] [LinearOrder K] [IsStrictOrderedRing K] [StarRing K]
    (l : List (Ex K)) (p : Ex K → Bool) (s : List K) (hs : l.filter p = s.map Ex.fin) (hne : s ≠ [])
    (hlen : s.length < 2 ^ 31) (a b : K) (ha : ∀ x ∈ s, a ≤ x) (hb : ∀ x ∈ s, x ≤ b) :
    ∃ m, mean l p = Ex.fin m ∧ a ≤ m ∧ m ≤ b := by
  have hpos : (0 : K) < (s.length : K) := by exact_mod_cast List.length_pos_iff.mpr hne
  refine ⟨_, mean_ex l p s hs hne hlen, ?_, ?_⟩
  · rw [meanL, le_div_iff₀ hpos, mul_comm]; exact le_sum_of_le s a ha
  · rw [meanL, div_le_iff₀ hpos, mul_comm]; exact sum_le_of_le s b hb

/-- C15 (negation): the count goes through `static_cast<int>`; the mean of 2³¹ ones is -1. -/
theorem C15_mean_overflow_false :
    mean (List.replicate (2 ^ 31) (Ex.fin (1 : ℚ))) (fun _ => true) = Ex.fin (-1) := by
  have hf : (List.replicate (2 ^ 31) (Ex.fin (1 : ℚ))).filter (fun _ => true)
      = (List.replicate (2 ^ 31) (1 : ℚ)).map Ex.fin := by
    rw [List.filter_true, List.map_replicate]
  have ht : toI32 2147483648 = -2147483648 := by decide
  unfold mean
  rw [sumF_ex, hf, sum_map_fin]
  simp only [List.length_map, List.length_replicate, List.sum_replicate, Ex.ofInt_def]
  rw [if_neg (by norm_num)]
  push_cast
  rw [ht, Ex.fin_div (by norm_num)]
  norm_num

/-- C15 (negation): for integral element types the division truncates: `mean({1, 2})` is `1`, and a
filter accepting nothing divides by zero. -/
theorem C15_mean_int_false :
    meanInt [1, 2] (fun _ => true) = .ok 1 ∧ meanInt [1, 2] (fun _ => false) = .ub ∧
    meanInt [] (fun _ => true) = .ok 0 := by decide +kernel

theorem abs_tmod_lt (s n : ℤ) (hn : 0 < n) : |s.tmod n| < n := by
  rcases le_or_gt 0 s with hs | hs
  · rw [abs_of_nonneg (Int.tmod_nonneg n hs)]; exact Int.tmod_lt_of_pos s hn
  · have h1 := Int.tmod_nonneg n (show 0 ≤ -s by omega)
    have h2 := Int.tmod_lt_of_pos (-s) hn
    rw [Int.neg_tmod] at h1 h2
    rw [abs_lt]; omega

/-- C15 (integers, exactly what the code computes): for fewer than 2^31 accepted elements (and at least
one), the integer mean is the exact mean of the accepted elements rounded towards zero. -/
theorem C15_mean_int_partial (l : List ℤ) (p : ℤ → Bool) (h0 : l.filter p ≠ [])
    (hn : (l.filter p).length < 2 ^ 31) :
    ∃ r : ℤ, meanInt l p = .ok r ∧
      |r * (l.filter p).length| ≤ |(l.filter p).sum| ∧
      |(l.filter p).sum - r * (l.filter p).length| < (l.filter p).length ∧
      0 ≤ r * (l.filter p).sum := by
  have hl : l.length ≠ 0 := by rintro h; rw [List.length_eq_zero_iff] at h; subst h; simp at h0
  have hpos : 0 < (l.filter p).length := List.length_pos_iff.mpr h0
  have hs : sumF true l p = ((l.filter p).sum, (l.filter p).length) := by
    unfold sumF
    rw [filterReduceAssoc_eq true l p (by intro a b c; ring) (by intro a; ring) (by intro a; ring)]
    simp [List.sum_eq_foldl]
  refine ⟨Int.tdiv (l.filter p).sum (l.filter p).length, ?_, ?_, ?_, ?_⟩
  · unfold meanInt
    rw [if_neg hl, hs]
    simp only []
    rw [toI32_of_lt (by omega) (by omega), if_neg (by omega)]
  · generalize (l.filter p).sum = s
    generalize hm : (l.filter p).length = n at *
    have h1 := Int.mul_tdiv_add_tmod s n
    have h2 : |s.tmod n| < n := abs_tmod_lt s n (by omega)
    rcases le_or_gt 0 s with hs | hs
    · have h3 := Int.tmod_nonneg (n : ℤ) hs
      have h4 := Int.tdiv_nonneg hs (show (0:ℤ) ≤ n by omega)
      rw [abs_of_nonneg (by positivity), abs_of_nonneg hs]; nlinarith
    · have h3 : s.tmod n ≤ 0 := by
        have := Int.tmod_nonneg (n : ℤ) (show 0 ≤ -s by omega)
        rw [Int.neg_tmod] at this; omega
      have h4 : s.tdiv n ≤ 0 := by
        have := Int.tdiv_nonneg (show 0 ≤ -s by omega) (show (0:ℤ) ≤ n by omega)
        rw [Int.neg_tdiv] at this; omega
      rw [abs_of_nonpos (by nlinarith [show (0:ℤ) ≤ n by omega]), abs_of_neg hs]; nlinarith
  · have h1 := Int.mul_tdiv_add_tmod (l.filter p).sum (l.filter p).length
    have h2 := abs_tmod_lt (l.filter p).sum (l.filter p).length (by omega)
    have : (l.filter p).sum - (l.filter p).sum.tdiv (l.filter p).length * (l.filter p).length
        = (l.filter p).sum.tmod (l.filter p).length := by linarith [mul_comm ((l.filter p).length : ℤ) ((l.filter p).sum.tdiv (l.filter p).length)]
    rw [this]; simpa using h2
  · rcases le_or_gt 0 (l.filter p).sum with hs | hs
    · exact mul_nonneg (Int.tdiv_nonneg hs (by omega)) hs
    · have h4 : (l.filter p).sum.tdiv (l.filter p).length ≤ 0 := by
        have := Int.tdiv_nonneg (show 0 ≤ -(l.filter p).sum by omega)
          (show (0:ℤ) ≤ (l.filter p).length by omega)
        rw [Int.neg_tdiv] at this; omega
      exact mul_nonneg_of_nonpos_of_nonpos h4 hs.le

/-- A case: the mean of `{-1, -2}` as integers is `-1`. -/
example : meanInt [-1, -2] (fun _ => true) = .ok (-1) := by decide +kernel

-- non-vacuity of the C15 hypotheses: a filtered array with a NaN
example : ([Ex.fin 1, Ex.nan, Ex.fin 3] : List (Ex ℚ)).filter (fun x => !x.isNan)
    = ([1, 3] : List ℚ).map Ex.fin ∧ ([1, 3] : List ℚ) ≠ [] := by decide +kernel

/-! ## C16 — median -/

section
variable {K : Type*} [Field K] [LinearOrder K] [IsStrictOrderedRing K]

/-- C16: for **every** correct `nth_element`, the median is the middle order statistic (odd length)
or the half sum of the two middle ones (even length). -/
theorem C16_median (nth : NthImpl K) (qnan : K) (l : List K) (h : 0 < l.length) :
    medianInplace nth qnan (fun x => x / 2) l =
      if l.length % 2 = 1 then .ok (orderStat l (l.length / 2) (by omega))
      else .ok ((orderStat l (l.length / 2 - 1) (by omega) + orderStat l (l.length / 2) (by omega)) / 2) := by
  unfold medianInplace
  have hc := nth.correct (l.length / 2) l
  have hlt : l.length / 2 < l.length := by omega
  simp only []
  rw [if_neg (by omega)]
  by_cases hodd : l.length % 2 = 1
  · rw [if_pos (by omega), if_pos hodd, nth_eq hc hlt]
  · rw [if_neg (by omega), if_neg hodd, nth_eq hc hlt]
    obtain ⟨x, xs, e, hm⟩ := max_before hc hlt (by omega)
    rw [e]
    simp only [Res.bind_ok, Res.pure_eq]
    rw [hm]

/-- C16: empty array. -/
theorem C16_median_empty (nth : NthImpl K) (qnan : K) (d : K → K) :
    medianInplace nth qnan d [] = .ok qnan := rfl

/-- C16: independent of the selection algorithm and of the order of the elements. -/
theorem C16_median_perm (nth nth' : NthImpl K) (qnan : K) (l l' : List K) (hp : l.Perm l') :
    medianInplace nth qnan (fun x => x / 2) l = medianInplace nth' qnan (fun x => x / 2) l' := by
  by_cases h : 0 < l.length
  · have h' : 0 < l'.length := by rw [← hp.length_eq]; exact h
    rw [C16_median nth qnan l h, C16_median nth' qnan l' h']
    simp only [orderStat_perm hp, hp.length_eq]
  · have h0 : l = [] := List.length_eq_zero_iff.mp (by omega)
    subst h0
    have h0' : l' = [] := hp.nil_eq.symm
    subst h0'
    rfl

/-- C16: bounded by the minimum and maximum. -/
theorem C16_median_bounds (nth : NthImpl K) (qnan : K) (l : List K) (h : l ≠ []) (a b : K)
    (ha : ∀ x ∈ l, a ≤ x) (hb : ∀ x ∈ l, x ≤ b) :
    ∃ m, medianInplace nth qnan (fun x => x / 2) l = .ok m ∧ a ≤ m ∧ m ≤ b := by
  have hl : 0 < l.length := List.length_pos_iff.mpr h
  rw [C16_median nth qnan l hl]
  split_ifs with hodd
  · exact ⟨_, rfl, ha _ (orderStat_mem _ _ _), hb _ (orderStat_mem _ _ _)⟩
  · refine ⟨_, rfl, ?_, ?_⟩
    · have h1 := ha _ (orderStat_mem l (l.length / 2 - 1) (by omega))
      have h2 := ha _ (orderStat_mem l (l.length / 2) (by omega))
      linarith
    · have h1 := hb _ (orderStat_mem l (l.length / 2 - 1) (by omega))
      have h2 := hb _ (orderStat_mem l (l.length / 2) (by omega))
      linarith

/-- C16: a filtered median (`nanmedian`) is the median of the accepted elements, and a named
argument keeps its contents. -/
theorem C16_median_filter (nth : NthImpl K) (qnan : K) (d : K → K) (l : List K) (p : K → Bool) :
    medianFilter nth qnan d l p = medianInplace nth qnan d (l.filter p) ∧
    (median nth qnan d .lvalue l).2 = l ∧ (median nth qnan d .constLvalue l).2 = l ∧
    (median nth qnan d .rvalue l).2.Perm l ∧
    ∀ cat, (median nth qnan d cat l).1 = medianInplace nth qnan d l := by
  refine ⟨by rw [medianFilter, filterArr_eq], rfl, rfl, (nth.correct _ l).perm, fun cat => ?_⟩
  cases cat <;> rfl

end

/-- C16 (negation for integral types): `median({1, 2})` of ints truncates to 1. -/
theorem C16_median_int_false (nth : NthImpl ℤ) :
    medianInplace nth 0 (fun x => Int.tdiv x 2) [1, 2] = .ok 1 := by
  unfold medianInplace
  have hc := nth.correct 1 [1, 2]
  simp only [List.length_cons, List.length_nil, Nat.zero_add, Nat.reduceAdd, Nat.reduceMod, ne_eq,
    not_true_eq_false, if_false, Nat.reduceDiv, OfNat.ofNat_ne_zero]
  have e1 := nth_eq hc (by simp)
  obtain ⟨x, xs, e, hm⟩ := max_before hc (by simp) (le_refl 1)
  have o1 : orderStat ([1, 2] : List ℤ) 1 (by simp) = 2 := by decide +kernel
  have o0 : orderStat ([1, 2] : List ℤ) 0 (by simp) = 1 := by decide +kernel
  simp only [Nat.cast_one] at e1 ⊢
  rw [e1, e]
  simp only [Res.bind_ok, Res.pure_eq, hm, o1]
  simp only [Nat.sub_self, o0]
  decide

-- a correct `nth_element` exists (sorting) and gives the expected value
example : medianInplace (sortNth ℚ) 0 (fun x => x / 2) [3, 1, 4, 1, 5, 9] = .ok (7/2) := by
  decide +kernel

/-! ## C17 — quantile -/

section
variable {K : Type*} [Field K] [LinearOrder K] [IsStrictOrderedRing K] [FloorRing K]

/-- The declared meaning of the five interpolation methods at the real index `h` (0 ≤ h ≤ n-1):
order statistics below/above/nearest, their mean, or linear interpolation between them. -/
def Spec.quantileAt (m : QInterp) (l : List K) (h : K) : K :=
  let os : ℤ → K := fun k => (sorted l).getD k.toNat 0
  match m with
  | .lower => os ⌊h⌋
  | .higher => os ⌈h⌉
  | .nearest => os (nearbyint h)
  | .midpoint => (os ⌊h⌋ + os ⌈h⌉) / 2
  | .linear => os ⌊h⌋ + (h - ⌊h⌋) * (os ⌈h⌉ - os ⌊h⌋)

theorem getD_sorted (l : List K) (k : ℕ) (h : k < l.length) : (sorted l).getD k 0 = orderStat l k h := by
  simp [orderStat, sorted_length, h]

omit [FloorRing K] in
theorem lerp_eq (a b t : K) : lerp a b t = a + t * (b - a) := by
  unfold lerp
  simp only []
  split_ifs with h1 h2 h3 h4 h4
  · ring
  · subst h2; ring
  · rfl
  · -- b ≥ x but t>1 ↔ b>a
    simp only [gt_iff_lt, decide_eq_decide] at h3
    apply le_antisymm _ (not_lt.mp h4)
    by_cases ht : 1 < t
    · have := h3.mp ht; nlinarith
    · have hb : ¬ a < b := fun hh => ht (h3.mpr hh)
      nlinarith [not_lt.mp ht, not_lt.mp hb]
  · rfl
  · simp only [gt_iff_lt, decide_eq_decide] at h3
    apply le_antisymm (not_lt.mp h4) _
    by_cases ht : 1 < t
    · have hb : ¬ a < b := fun hh => h3 ⟨fun _ => hh, fun _ => ht⟩
      nlinarith [not_lt.mp hb]
    · have hb : a < b := by
        by_contra hb; exact h3 ⟨fun hh => absurd hh ht, fun hh => absurd hh hb⟩
      nlinarith [not_lt.mp ht]

theorem nearbyint_int (z : ℤ) : nearbyint (z : K) = z := by
  unfold nearbyint
  simp only [Int.floor_intCast, sub_self]
  rw [if_pos (by norm_num)]

theorem nearbyint_bounds (h : K) : ⌊h⌋ ≤ nearbyint h ∧ nearbyint h ≤ ⌈h⌉ := by
  unfold nearbyint
  simp only []
  have h1 : ⌊h⌋ ≤ ⌈h⌉ := Int.floor_le_ceil h
  have h3 : h - ⌊h⌋ ≠ 0 → ⌊h⌋ + 1 ≤ ⌈h⌉ := by
    intro hne
    by_contra hc
    have e : ⌈h⌉ = ⌊h⌋ := by omega
    apply hne
    have a1 := Int.le_ceil h
    rw [e] at a1
    have a2 := Int.floor_le h
    linarith
  split_ifs with a b c
  · exact ⟨le_refl _, h1⟩
  · exact ⟨by omega, h3 (by intro h0; rw [h0] at b; norm_num at b)⟩
  · exact ⟨le_refl _, h1⟩
  · exact ⟨by omega, h3 (by intro h0; rw [h0] at a; norm_num at a)⟩

theorem almostEqFin_self (tol a : K) (ht : 0 ≤ tol) : almostEqFin tol a a = true := by
  unfold almostEqFin
  split_ifs
  · simpa using ht
  · simp only [sub_self, abs_zero, decide_eq_true_eq]
    exact mul_nonneg ht (le_max_of_le_left (abs_nonneg a))

/-- The part of `quantile_inplace` after the index computation. -/
theorem quantile_core (nth : NthImpl K) (qnan tol : K) (m : QInterp) (l : List K) (q : K)
    (hq0 : 0 ≤ q) (hq1 : q ≤ 1) (hl : 2 ≤ l.length) (ht : 0 ≤ tol)
    (h0 : K) (hh : h0 = qInterpIndex m (q * ((l.length - 1 : ℕ) : K)))
    (hge : 0 ≤ h0) (hle : h0 ≤ ((l.length - 1 : ℕ) : K))
    (hex : (∃ z : ℤ, h0 = z) ∨ almostEqFin tol (nearbyint h0 : K) h0 = false) :
    quantileInplace nth qnan tol m l q
      = .ok ((sorted l).getD ⌊h0⌋.toNat 0
          + (h0 - ⌊h0⌋) * ((sorted l).getD ⌈h0⌉.toNat 0 - (sorted l).getD ⌊h0⌋.toNat 0)) := by
  unfold quantileInplace
  have hr : decide (0 ≤ q ∧ q ≤ 1) = true := by simp [hq0, hq1]
  simp only [hr, require_true, Res.bind_ok]
  rcases l with _ | ⟨x, _ | ⟨y, l⟩⟩
  · simp at hl
  · simp at hl
  · simp only []
    set L := x :: y :: l with hL
    rw [← hh]
    have hfl : 0 ≤ ⌊h0⌋ := Int.floor_nonneg.mpr hge
    have htr : truncK h0 = ⌊h0⌋ := by rw [truncK, if_pos hge]
    by_cases hint : ∃ z : ℤ, h0 = z
    · obtain ⟨z, hz⟩ := hint
      subst hz
      have hz0 : 0 ≤ z := by exact_mod_cast hge
      have hz1 : z ≤ ((L.length - 1 : ℕ) : ℤ) := by
        have : (z : K) ≤ (((L.length - 1 : ℕ) : ℤ) : K) := by rw [Int.cast_natCast]; exact hle
        exact_mod_cast this
      rw [nearbyint_int, almostEqFin_self tol _ ht, if_pos rfl, htr, Int.floor_intCast,
        Int.ceil_intCast, sub_self, zero_mul, add_zero]
      have hlt : z.toNat < L.length := by omega
      rw [Nat.min_eq_left (le_of_lt hlt), nth_eq (nth.correct _ L) hlt, getD_sorted L _ hlt]
    · have hne := hex.resolve_left hint
      rw [hne, if_neg (by simp), htr]
      -- the floor is strictly below the last index
      have hlt1 : ⌊h0⌋ + 1 ≤ ((L.length - 1 : ℕ) : ℤ) := by
        by_contra hc
        have h2 : ((L.length - 1 : ℕ) : ℤ) ≤ ⌊h0⌋ := by omega
        have h3 : (((L.length - 1 : ℕ) : ℤ) : K) ≤ (⌊h0⌋ : K) := by exact_mod_cast h2
        rw [Int.cast_natCast] at h3
        apply hint
        exact ⟨⌊h0⌋, le_antisymm (le_trans hle h3) (Int.floor_le h0)⟩
      have hn : ⌊h0⌋.toNat + 1 < L.length := by omega
      have hceil : ⌈h0⌉ = ⌊h0⌋ + 1 := by
        apply le_antisymm
        · exact Int.ceil_le_floor_add_one h0
        · by_contra hc
          have e : ⌈h0⌉ ≤ ⌊h0⌋ := by omega
          apply hint
          refine ⟨⌊h0⌋, le_antisymm ?_ (Int.floor_le h0)⟩
          have a1 := Int.le_ceil h0
          have a2 : ((⌈h0⌉ : ℤ) : K) ≤ (⌊h0⌋ : K) := by exact_mod_cast e
          linarith
      have hnt : ⌈h0⌉.toNat = ⌊h0⌋.toNat + 1 := by omega
      rw [Nat.min_eq_left (le_of_lt hn)]
      obtain ⟨a, as, e, hm⟩ := max_before (nth.correct (⌊h0⌋.toNat + 1) L) hn (by omega)
      rw [e]
      simp only []
      rw [nth_eq (nth.correct _ L) hn]
      simp only [Res.bind_ok, Res.pure_eq, hm, Int.floor_intCast, lerp_eq, hnt, Nat.add_sub_cancel]
      rw [getD_sorted L _ hn, getD_sorted L ⌊h0⌋.toNat (by omega)]

theorem quantile_h_bounds (q : K) (n : ℕ) (hq0 : 0 ≤ q) (hq1 : q ≤ 1) :
    0 ≤ q * (n : K) ∧ q * (n : K) ≤ (n : K) := by
  have : (0 : K) ≤ (n : K) := Nat.cast_nonneg n
  exact ⟨mul_nonneg hq0 this, by nlinarith⟩

theorem qIndex_bounds (m : QInterp) (h : K) (n : ℕ) (h0 : 0 ≤ h) (h1 : h ≤ (n : K)) :
    0 ≤ qInterpIndex m h ∧ qInterpIndex m h ≤ (n : K) := by
  have hf : (0 : ℤ) ≤ ⌊h⌋ := Int.floor_nonneg.mpr h0
  have hc : ⌈h⌉ ≤ (n : ℤ) := Int.ceil_le.mpr (by simpa using h1)
  have hfc := Int.floor_le_ceil h
  obtain ⟨n1, n2⟩ := nearbyint_bounds h
  have cst : ∀ z : ℤ, 0 ≤ z → z ≤ (n : ℤ) → (0 : K) ≤ (z : K) ∧ (z : K) ≤ (n : K) := by
    intro z hz1 hz2
    refine ⟨by exact_mod_cast hz1, ?_⟩
    have : (z : K) ≤ ((n : ℤ) : K) := by exact_mod_cast hz2
    simpa using this
  cases m with
  | lower => exact cst _ hf (by omega)
  | higher => exact cst _ (by omega) hc
  | nearest => exact cst _ (by omega) (by omega)
  | midpoint =>
    have a := cst ⌊h⌋ hf (by omega)
    have b := cst ⌈h⌉ (by omega) hc
    simp only [qInterpIndex]
    constructor <;> linarith [a.1, a.2, b.1, b.2]
  | linear => exact ⟨h0, h1⟩

/-- C17 (partial): with tolerance `tol` in the "is an integer" test, and for every `nth_element`
implementation, the declared interpolation is returned provided the interpolation index is not
*within the tolerance of, but different from,* an integer (LOWER, HIGHER, NEAREST never are; for
MIDPOINT `tol·n < 1/2` suffices, see `C17_quantile_midpoint_partial`).  Missing for C17: indices
within the tolerance, where the result is wrong (`C17_quantile_false`). -/
theorem C17_quantile_partial (nth : NthImpl K) (qnan tol : K) (m : QInterp) (l : List K) (q : K)
    (hq0 : 0 ≤ q) (hq1 : q ≤ 1) (hl : 2 ≤ l.length) (ht : 0 ≤ tol)
    (hex : let h0 := qInterpIndex m (q * ((l.length - 1 : ℕ) : K))
      (∃ z : ℤ, h0 = z) ∨ almostEqFin tol (nearbyint h0 : K) h0 = false) :
    quantileInplace nth qnan tol m l q
      = .ok (Spec.quantileAt m l (q * ((l.length - 1 : ℕ) : K))) := by
  set h := q * ((l.length - 1 : ℕ) : K) with hdef
  obtain ⟨b0, b1⟩ := quantile_h_bounds q (l.length - 1) hq0 hq1
  obtain ⟨c0, c1⟩ := qIndex_bounds m h (l.length - 1) b0 b1
  rw [quantile_core nth qnan tol m l q hq0 hq1 hl ht _ rfl c0 c1 hex]
  congr 1
  rw [← hdef]
  cases m with
  | lower => simp only [qInterpIndex, Spec.quantileAt, Int.floor_intCast, sub_self, zero_mul, add_zero]
  | higher => simp only [qInterpIndex, Spec.quantileAt, Int.floor_intCast, sub_self, zero_mul, add_zero]
  | nearest => simp only [qInterpIndex, Spec.quantileAt, Int.floor_intCast, sub_self, zero_mul, add_zero]
  | linear => simp only [qInterpIndex, Spec.quantileAt]
  | midpoint =>
    simp only [qInterpIndex, Spec.quantileAt]
    by_cases hc : ⌈h⌉ = ⌊h⌋
    · rw [hc]
      have : (1 / 2 : K) * ((⌊h⌋ : K) + (⌊h⌋ : K)) = (⌊h⌋ : K) := by ring
      rw [this, Int.floor_intCast, Int.ceil_intCast, sub_self]
      ring
    · have hce : ⌈h⌉ = ⌊h⌋ + 1 := by
        have a1 := Int.ceil_le_floor_add_one h
        have a2 := Int.floor_le_ceil h
        omega
      have e : (1 / 2 : K) * ((⌊h⌋ : K) + (⌈h⌉ : K)) = (⌊h⌋ : K) + 1 / 2 := by
        rw [hce]; push_cast; ring
      have f1 : ⌊(⌊h⌋ : K) + 1 / 2⌋ = ⌊h⌋ := by
        rw [Int.floor_eq_iff]; constructor <;> linarith
      have f2 : ⌈(⌊h⌋ : K) + 1 / 2⌉ = ⌈h⌉ := by
        rw [hce, Int.ceil_eq_iff]; push_cast; constructor <;> linarith
      rw [e, f1, f2]
      ring

/-- C17 (partial): LOWER, HIGHER and NEAREST are right for every `q` and every tolerance. -/
theorem C17_quantile_discrete_partial (nth : NthImpl K) (qnan tol : K) (m : QInterp) (l : List K)
    (q : K) (hq0 : 0 ≤ q) (hq1 : q ≤ 1) (hl : 2 ≤ l.length) (ht : 0 ≤ tol)
    (hm : m = .lower ∨ m = .higher ∨ m = .nearest) :
    quantileInplace nth qnan tol m l q
      = .ok (Spec.quantileAt m l (q * ((l.length - 1 : ℕ) : K))) := by
  apply C17_quantile_partial nth qnan tol m l q hq0 hq1 hl ht
  left
  rcases hm with rfl | rfl | rfl
  · exact ⟨_, rfl⟩
  · exact ⟨_, rfl⟩
  · exact ⟨_, rfl⟩

/-- C17 (partial): MIDPOINT is right when `tol < 1/2` and `tol·n < 1/2` (any array of fewer than
2⁵² doubles). -/
theorem C17_quantile_midpoint_partial (nth : NthImpl K) (qnan tol : K) (l : List K)
    (q : K) (hq0 : 0 ≤ q) (hq1 : q ≤ 1) (hl : 2 ≤ l.length) (ht : 0 ≤ tol)
    (ht2 : tol * (l.length : K) < 1 / 2) :
    quantileInplace nth qnan tol .midpoint l q
      = .ok (Spec.quantileAt .midpoint l (q * ((l.length - 1 : ℕ) : K))) := by
  apply C17_quantile_partial nth qnan tol .midpoint l q hq0 hq1 hl ht
  simp only [qInterpIndex]
  set h := q * ((l.length - 1 : ℕ) : K) with hdef
  obtain ⟨b0, b1⟩ := quantile_h_bounds q (l.length - 1) hq0 hq1
  by_cases hc : ⌈h⌉ = ⌊h⌋
  · left; refine ⟨⌊h⌋, ?_⟩; rw [hc]; ring
  · right
    have hce : ⌈h⌉ = ⌊h⌋ + 1 := by
      have a1 := Int.ceil_le_floor_add_one h
      have a2 := Int.floor_le_ceil h
      omega
    have e : (1 / 2 : K) * ((⌊h⌋ : K) + (⌈h⌉ : K)) = (⌊h⌋ : K) + 1 / 2 := by
      rw [hce]; push_cast; ring
    rw [e]
    have hfl : (0 : K) ≤ (⌊h⌋ : K) := by exact_mod_cast Int.floor_nonneg.mpr b0
    have f1 : ⌊(⌊h⌋ : K) + 1 / 2⌋ = ⌊h⌋ := by
      rw [Int.floor_eq_iff]; constructor <;> linarith
    have hd : |(nearbyint ((⌊h⌋ : K) + 1 / 2) : K) - ((⌊h⌋ : K) + 1 / 2)| = 1 / 2 := by
      unfold nearbyint
      simp only [f1, add_sub_cancel_left, lt_irrefl, if_false]
      split_ifs
      · rw [abs_of_nonpos] <;> [ring; linarith]
      · push_cast; rw [abs_of_nonneg] <;> [ring; linarith]
    have hn0 : (0 : K) ≤ (nearbyint ((⌊h⌋ : K) + 1 / 2) : K) ∧
        (nearbyint ((⌊h⌋ : K) + 1 / 2) : K) ≤ (l.length : K) := by
      have hcl : (⌈h⌉ : K) ≤ ((l.length - 1 : ℕ) : K) := by
        have : ⌈h⌉ ≤ ((l.length - 1 : ℕ) : ℤ) := Int.ceil_le.mpr (by simpa using b1)
        have : (⌈h⌉ : K) ≤ (((l.length - 1 : ℕ) : ℤ) : K) := by exact_mod_cast this
        simpa using this
      have hll : ((l.length - 1 : ℕ) : K) ≤ (l.length : K) := by
        exact_mod_cast Nat.sub_le _ _
      have hc' : (⌈h⌉ : K) = (⌊h⌋ : K) + 1 := by rw [hce]; push_cast; ring
      have hnb := nearbyint_bounds ((⌊h⌋ : K) + 1 / 2)
      rw [f1] at hnb
      have f2 : ⌈(⌊h⌋ : K) + 1 / 2⌉ = ⌊h⌋ + 1 := by
        rw [Int.ceil_eq_iff]; push_cast; constructor <;> linarith
      rw [f2] at hnb
      have g1 : (⌊h⌋ : K) ≤ (nearbyint ((⌊h⌋ : K) + 1 / 2) : K) := by exact_mod_cast hnb.1
      have g2 : (nearbyint ((⌊h⌋ : K) + 1 / 2) : K) ≤ (⌊h⌋ : K) + 1 := by exact_mod_cast hnb.2
      constructor <;> linarith
    have hlen2 : (2 : K) ≤ (l.length : K) := by exact_mod_cast hl
    have htol : tol < 1 / 2 := by nlinarith
    have hsum : (⌊h⌋ : K) + 1 / 2 ≤ (l.length : K) := by
      have : h ≤ ((l.length - 1 : ℕ) : K) := b1
      have h2 : ((l.length - 1 : ℕ) : K) = (l.length : K) - 1 := by
        rw [Nat.cast_sub (by omega)]; simp
      have := Int.floor_le h
      linarith
    unfold almostEqFin
    split_ifs
    · rw [hd]; simp only [decide_eq_false_iff_not, not_le]; exact htol
    · rw [hd]; simp only [decide_eq_false_iff_not, not_le]
      have hmx : max |(nearbyint ((⌊h⌋ : K) + 1 / 2) : K)| |(⌊h⌋ : K) + 1 / 2| ≤ (l.length : K) := by
        apply max_le
        · rw [abs_of_nonneg hn0.1]; exact hn0.2
        · rw [abs_of_nonneg (by linarith)]; exact hsum
      exact lt_of_le_of_lt (mul_le_mul_of_nonneg_left hmx ht) ht2

theorem almostEqFin_zero (a b : K) : almostEqFin 0 a b = true ↔ a = b := by
  unfold almostEqFin
  split_ifs
  · simp [sub_eq_zero]
  · simp [sub_eq_zero]

/-- C17 (partial): with an exact integer test (`tol = 0`) every method returns its declared value,
for every `q` in [0,1] and every `nth_element`. -/
theorem C17_quantile_exact_partial (nth : NthImpl K) (qnan : K) (m : QInterp) (l : List K) (q : K)
    (hq0 : 0 ≤ q) (hq1 : q ≤ 1) (hl : 2 ≤ l.length) :
    quantileInplace nth qnan 0 m l q = .ok (Spec.quantileAt m l (q * ((l.length - 1 : ℕ) : K))) := by
  apply C17_quantile_partial nth qnan 0 m l q hq0 hq1 hl (le_refl 0)
  simp only []
  by_cases hc : almostEqFin 0 (nearbyint (qInterpIndex m (q * ((l.length - 1 : ℕ) : K))) : K)
      (qInterpIndex m (q * ((l.length - 1 : ℕ) : K))) = true
  · left; rw [almostEqFin_zero] at hc; exact ⟨_, hc.symm⟩
  · right; simpa using hc

/-! Properties of the declared value itself (so of the result wherever it agrees). -/

theorem os_mono (l : List K) (i j : ℤ) (h : i ≤ j) (hj : j.toNat < l.length) :
    (sorted l).getD i.toNat 0 ≤ (sorted l).getD j.toNat 0 := by
  rw [getD_sorted l j.toNat hj, getD_sorted l i.toNat (by omega)]
  exact orderStat_mono l (by omega) hj

theorem nearbyint_mono {a b : K} (h : a ≤ b) : nearbyint a ≤ nearbyint b := by
  have hf : ⌊a⌋ ≤ ⌊b⌋ := Int.floor_le_floor h
  rcases lt_or_eq_of_le hf with hlt | heq
  · have h1 := (nearbyint_bounds a).2
    have h2 := (nearbyint_bounds b).1
    have h3 := Int.ceil_le_floor_add_one a
    omega
  · unfold nearbyint
    simp only [heq]
    split_ifs <;> first | omega | (exfalso; linarith)

/-- C17: the declared quantile is non-decreasing in `q`, for every method. -/
theorem C17_quantile_monotone_partial (nth nth' : NthImpl K) (qnan : K) (m : QInterp) (l : List K)
    (q q' : K) (hq0 : 0 ≤ q) (hqq : q ≤ q') (hq1 : q' ≤ 1) (hl : 2 ≤ l.length) :
    ∃ x y, quantileInplace nth qnan 0 m l q = .ok x ∧ quantileInplace nth' qnan 0 m l q' = .ok y ∧
      x ≤ y := by
  refine ⟨_, _, C17_quantile_exact_partial nth qnan m l q hq0 (le_trans hqq hq1) hl,
    C17_quantile_exact_partial nth' qnan m l q' (le_trans hq0 hqq) hq1 hl, ?_⟩
  set h := q * ((l.length - 1 : ℕ) : K) with hdef
  set h' := q' * ((l.length - 1 : ℕ) : K) with hdef'
  obtain ⟨b0, b1⟩ := quantile_h_bounds q (l.length - 1) hq0 (le_trans hqq hq1)
  obtain ⟨b0', b1'⟩ := quantile_h_bounds q' (l.length - 1) (le_trans hq0 hqq) hq1
  have hhh : h ≤ h' := mul_le_mul_of_nonneg_right hqq (Nat.cast_nonneg _)
  have hc' : ⌈h'⌉ ≤ ((l.length - 1 : ℕ) : ℤ) := Int.ceil_le.mpr (by simpa using b1')
  have hf : ⌊h⌋ ≤ ⌊h'⌋ := Int.floor_le_floor hhh
  have hc : ⌈h⌉ ≤ ⌈h'⌉ := Int.ceil_le_ceil hhh
  have hfc' := Int.floor_le_ceil h'
  have hfc := Int.floor_le_ceil h
  have hf0 : 0 ≤ ⌊h⌋ := Int.floor_nonneg.mpr b0
  have n1 := nearbyint_bounds h
  have n1' := nearbyint_bounds h'
  cases m with
  | lower => exact os_mono l _ _ hf (by omega)
  | higher => exact os_mono l _ _ hc (by omega)
  | nearest => exact os_mono l _ _ (nearbyint_mono hhh) (by omega)
  | midpoint =>
    have a := os_mono l _ _ hf (by omega)
    have b := os_mono l _ _ hc (by omega)
    simp only [Spec.quantileAt]; linarith
  | linear =>
    simp only [Spec.quantileAt]
    have hstep : (sorted l).getD ⌊h⌋.toNat 0 ≤ (sorted l).getD ⌈h⌉.toNat 0 :=
      os_mono l _ _ hfc (by omega)
    have hstep' : (sorted l).getD ⌊h'⌋.toNat 0 ≤ (sorted l).getD ⌈h'⌉.toNat 0 :=
      os_mono l _ _ hfc' (by omega)
    have fl1 := Int.floor_le h
    have fl2 := Int.lt_floor_add_one h
    have fl1' := Int.floor_le h'
    rcases lt_or_eq_of_le hf with hlt | heq
    · have hmid : (sorted l).getD ⌈h⌉.toNat 0 ≤ (sorted l).getD ⌊h'⌋.toNat 0 :=
        os_mono l _ _ (by have := Int.ceil_le_floor_add_one h; omega) (by omega)
      nlinarith
    · by_cases hce : ⌈h⌉ = ⌈h'⌉
      · rw [heq, hce] at *
        nlinarith
      · -- h is an integer
        have hint : ⌈h⌉ = ⌊h⌋ := by
          have := Int.ceil_le_floor_add_one h'
          omega
        have : h - (⌊h⌋ : K) = 0 := by
          have a1 := Int.le_ceil h
          rw [hint] at a1
          linarith
        rw [this, zero_mul, add_zero, heq]
        nlinarith
/-- C17: `q = 0` gives the minimum and `q = 1` the maximum, whatever the tolerance, and any result is
between them. -/
theorem C17_quantile_ends (nth : NthImpl K) (qnan tol : K) (m : QInterp) (l : List K)
    (hl : 2 ≤ l.length) (ht : 0 ≤ tol) :
    quantileInplace nth qnan tol m l 0 = .ok (orderStat l 0 (by omega)) ∧
    quantileInplace nth qnan tol m l 1 = .ok (orderStat l (l.length - 1) (by omega)) ∧
    (∀ x ∈ l, orderStat l 0 (by omega) ≤ x ∧ x ≤ orderStat l (l.length - 1) (by omega)) := by
  have key : ∀ (n : ℕ), qInterpIndex m ((n : ℤ) : K) = ((n : ℤ) : K) := by
    intro n
    cases m with
    | lower => simp only [qInterpIndex, Int.floor_intCast]
    | higher => simp only [qInterpIndex, Int.ceil_intCast]
    | nearest => simp only [qInterpIndex, nearbyint_int]
    | midpoint => simp only [qInterpIndex, Int.floor_intCast, Int.ceil_intCast]; ring
    | linear => rfl
  have spec : ∀ n : ℕ, Spec.quantileAt m l ((n : ℤ) : K) = (sorted l).getD n 0 := by
    intro n
    cases m <;> simp only [Spec.quantileAt, Int.floor_intCast, Int.ceil_intCast, nearbyint_int,
      Int.toNat_natCast, sub_self, zero_mul, add_zero, add_self_div_two]
  refine ⟨?_, ?_, fun x hx => ⟨orderStat_zero_le l (by omega) x hx, le_orderStat_last l (by omega) x hx⟩⟩
  · have e : (0 : K) * ((l.length - 1 : ℕ) : K) = (((0 : ℕ) : ℤ) : K) := by simp
    rw [C17_quantile_partial nth qnan tol m l 0 (le_refl 0) zero_le_one hl ht, e, spec,
      getD_sorted l 0 (by omega)]
    simp only []
    rw [e, key]; exact Or.inl ⟨_, rfl⟩
  · have e : (1 : K) * ((l.length - 1 : ℕ) : K) = (((l.length - 1 : ℕ) : ℤ) : K) := by
      rw [one_mul, Int.cast_natCast]
    rw [C17_quantile_partial nth qnan tol m l 1 zero_le_one (le_refl 1) hl ht, e, spec,
      getD_sorted l (l.length - 1) (by omega)]
    simp only []
    rw [e, key]; exact Or.inl ⟨_, rfl⟩

/-- C17: for every tolerance, method, `q` and `nth_element` the result is defined and lies between
the minimum and the maximum (this includes the zone where it is the wrong order statistic). -/
theorem C17_quantile_bounds (nth : NthImpl K) (qnan tol : K) (m : QInterp) (l : List K) (q : K)
    (hq0 : 0 ≤ q) (hq1 : q ≤ 1) (hl : 2 ≤ l.length) (ht : 0 ≤ tol) :
    ∃ x, quantileInplace nth qnan tol m l q = .ok x ∧
      orderStat l 0 (by omega) ≤ x ∧ x ≤ orderStat l (l.length - 1) (by omega) := by
  obtain ⟨b0, b1⟩ := quantile_h_bounds q (l.length - 1) hq0 hq1
  obtain ⟨c0, c1⟩ := qIndex_bounds m _ (l.length - 1) b0 b1
  set h0 := qInterpIndex m (q * ((l.length - 1 : ℕ) : K)) with hh
  have hfl : 0 ≤ ⌊h0⌋ := Int.floor_nonneg.mpr c0
  have hce : ⌈h0⌉ ≤ ((l.length - 1 : ℕ) : ℤ) := Int.ceil_le.mpr (by simpa using c1)
  have hfc := Int.floor_le_ceil h0
  by_cases hex : almostEqFin tol (nearbyint h0 : K) h0 = false
  · rw [quantile_core nth qnan tol m l q hq0 hq1 hl ht h0 hh c0 c1 (Or.inr hex)]
    refine ⟨_, rfl, ?_⟩
    rw [getD_sorted l ⌈h0⌉.toNat (by omega), getD_sorted l ⌊h0⌋.toNat (by omega)]
    have o1 := orderStat_mono l (Nat.zero_le ⌊h0⌋.toNat) (by omega)
    have o2 := orderStat_mono l (by omega : ⌊h0⌋.toNat ≤ ⌈h0⌉.toNat) (by omega)
    have o3 := orderStat_mono l (by omega : ⌈h0⌉.toNat ≤ l.length - 1) (by omega)
    have f1 := Int.floor_le h0
    have f2 := Int.lt_floor_add_one h0
    constructor <;> nlinarith
  · have hex' : almostEqFin tol (nearbyint h0 : K) h0 = true := by simpa using hex
    have hlt : ⌊h0⌋.toNat < l.length := by omega
    have htr : truncK h0 = ⌊h0⌋ := by rw [truncK, if_pos c0]
    have e : quantileInplace nth qnan tol m l q = .ok (orderStat l ⌊h0⌋.toNat hlt) := by
      unfold quantileInplace
      have hr : decide (0 ≤ q ∧ q ≤ 1) = true := by simp [hq0, hq1]
      simp only [hr, require_true, Res.bind_ok]
      rcases l with _ | ⟨x, _ | ⟨y, l⟩⟩
      · simp at hl
      · simp at hl
      · simp only []
        rw [← hh, hex', if_pos rfl, htr, Nat.min_eq_left (le_of_lt hlt),
          nth_eq (nth.correct _ _) hlt]
    refine ⟨_, e, orderStat_mono l (Nat.zero_le _) hlt, orderStat_mono l (by omega) (by omega)⟩

/-- C17: empty and one-element arrays. -/
theorem C17_quantile_small (nth : NthImpl K) (qnan tol : K) (m : QInterp) (q x : K)
    (hq0 : 0 ≤ q) (hq1 : q ≤ 1) :
    quantileInplace nth qnan tol m [] q = .ok qnan ∧
    quantileInplace nth qnan tol m [x] q = .ok x := by
  have hr : decide (0 ≤ q ∧ q ≤ 1) = true := by simp [hq0, hq1]
  constructor <;> simp [quantileInplace, hr]

/-- C17: a probability outside [0,1] is rejected. -/
theorem C17_quantile_range (nth : NthImpl K) (qnan tol : K) (m : QInterp) (l : List K) (q : K)
    (h : q < 0 ∨ 1 < q) : quantileInplace nth qnan tol m l q = .ub := by
  have hr : decide (0 ≤ q ∧ q ≤ 1) = false := by
    rw [decide_eq_false_iff_not, not_and_or, not_le, not_le]; exact h
  simp [quantileInplace, hr]

/-- C17: the inter-quartile range is a difference of quantiles and (exact test) non-negative,
whether or not the argument was rearranged in place between the two calls. -/
theorem C17_iqr_partial (nth : NthImpl K) (qnan : K) (m : QInterp) (l l2 : List K) (hp : l2.Perm l)
    (r0 r1 : K) (h0 : 0 ≤ r0) (h01 : r0 ≤ r1) (h1 : r1 ≤ 100) (hl : 2 ≤ l.length) :
    ∃ d, iqr nth qnan 0 m l l2 r0 r1 = .ok d ∧ 0 ≤ d ∧
      d = Spec.quantileAt m l (r1 / 100 * ((l.length - 1 : ℕ) : K))
        - Spec.quantileAt m l (r0 / 100 * ((l.length - 1 : ℕ) : K)) := by
  have q0 : (0 : K) ≤ r0 / 100 := by positivity
  have q01 : r0 / 100 ≤ r1 / 100 := by linarith
  have q1 : r1 / 100 ≤ 1 := by linarith
  obtain ⟨x, y, hx, hy, hxy⟩ := C17_quantile_monotone_partial nth nth qnan m l (r0 / 100) (r1 / 100)
    q0 q01 q1 hl
  have e1 := C17_quantile_exact_partial nth qnan m l (r0 / 100) q0 (by linarith) hl
  have e2 := C17_quantile_exact_partial nth qnan m l (r1 / 100) (by linarith) q1 hl
  have e3 := C17_quantile_exact_partial nth qnan m l2 (r1 / 100) (by linarith) q1
    (by rw [hp.length_eq]; exact hl)
  have hs : sorted l2 = sorted l := sorted_eq_of_perm hp
  have hq : ∀ h, Spec.quantileAt m l2 h = Spec.quantileAt m l h := by
    intro h; cases m <;> simp only [Spec.quantileAt, hs]
  rw [hq, hp.length_eq] at e3
  rw [hx] at e1; rw [hy] at e2
  injection e1 with e1; injection e2 with e2
  refine ⟨y - x, ?_, sub_nonneg.mpr hxy, by rw [e1, e2]⟩
  simp only [iqr, percentile, hx, e3, Res.bind_ok, Res.pure_eq, e2]

end

/-- C17 (negation): for **every** positive tolerance (below 1/4), the LINEAR quantile of `{0, 1}` at
`q = 1 - tol` — just below the maximum — is `0` instead of `1 - tol`, and is smaller than the
quantile at the smaller `q = 1 - 2·tol`: the index is recognised as "the integer 1" but then truncated to 0.
(With doubles `tol = 2⁻⁵³` and `1 - tol` is the predecessor of 1.) -/
theorem C17_quantile_false {K : Type*} [Field K] [LinearOrder K] [IsStrictOrderedRing K] [FloorRing K]
    (nth : NthImpl K) (qnan tol : K) (h0 : 0 < tol) (h1 : tol < 1 / 4) :
    quantileInplace nth qnan tol .linear [0, 1] (1 - tol) = .ok 0 ∧
    quantileInplace nth qnan tol .linear [0, 1] (1 - 2 * tol) = .ok (1 - 2 * tol) ∧
    Spec.quantileAt .linear [0, 1] ((1 - tol) * (([0, 1] : List K).length - 1 : ℕ)) = 1 - tol := by
  have hs : sorted ([0, 1] : List K) = [0, 1] := by
    apply List.Perm.eq_of_pairwise (le := (· ≤ ·)) _ (sorted_pairwise _) (by simp) (sorted_perm _)
    intro a b _ _ h1 h2; exact le_antisymm h1 h2
  have hf : ∀ t : K, 0 < t → t < 1 → ⌊1 - t⌋ = 0 := by
    intro t a b; rw [Int.floor_eq_iff]; push_cast; constructor <;> linarith
  have hc : ∀ t : K, 0 < t → t < 1 → ⌈1 - t⌉ = 1 := by
    intro t a b; rw [Int.ceil_eq_iff]; push_cast; constructor <;> linarith
  have hn : ∀ t : K, 0 < t → t < 1 / 2 → nearbyint (1 - t) = 1 := by
    intro t a b
    unfold nearbyint
    simp only [hf t a (by linarith), Int.cast_zero, sub_zero]
    rw [if_neg (by linarith), if_pos (by linarith)]; rfl
  refine ⟨?_, ?_, ?_⟩
  · unfold quantileInplace
    have hr : decide (0 ≤ 1 - tol ∧ 1 - tol ≤ 1) = true := by
      simp only [decide_eq_true_eq]; constructor <;> linarith
    simp only [hr, require_true, Res.bind_ok, qInterpIndex, List.length_cons, List.length_nil,
      Nat.zero_add, Nat.reduceAdd, Nat.reduceSub, Nat.cast_one, mul_one, hn tol h0 (by linarith),
      Int.cast_one]
    have ha : almostEqFin tol 1 (1 - tol) = true := by
      unfold almostEqFin
      have e1 : |(1 : K) - (1 - tol)| = tol := by rw [sub_sub_cancel, abs_of_pos h0]
      have e2 : |(1 : K) - tol| = 1 - tol := abs_of_pos (by linarith)
      rw [e1, e2, abs_one, max_eq_left (by linarith)]
      split_ifs <;> simp
    rw [ha, if_pos rfl, truncK, if_pos (by linarith), hf tol h0 (by linarith)]
    simp only [Int.toNat_zero, Nat.zero_min]
    rw [nth_eq (nth.correct 0 _) (by simp)]
    congr 1
    rw [← getD_sorted, hs]; rfl
  · rw [C17_quantile_partial nth qnan tol .linear [0, 1] (1 - 2 * tol) (by linarith) (by linarith)
      (by simp) (le_of_lt h0)]
    · simp only [Spec.quantileAt, hs, List.length_cons, List.length_nil,
        Nat.zero_add, Nat.reduceAdd, Nat.reduceSub, Nat.cast_one, mul_one,
        hf (2 * tol) (by linarith) (by linarith), hc (2 * tol) (by linarith) (by linarith)]
      simp
    · right
      simp only [qInterpIndex, List.length_cons, List.length_nil,
        Nat.zero_add, Nat.reduceAdd, Nat.reduceSub, Nat.cast_one, mul_one,
        hn (2 * tol) (by linarith) (by linarith), Int.cast_one]
      unfold almostEqFin
      have e1 : |(1 : K) - (1 - 2 * tol)| = 2 * tol := by
        rw [sub_sub_cancel, abs_of_pos (by linarith)]
      have e2 : |(1 : K) - 2 * tol| = 1 - 2 * tol := abs_of_pos (by linarith)
      rw [e1, e2, abs_one, max_eq_left (by linarith)]
      split_ifs
      · rw [decide_eq_false_iff_not]; linarith
      · rw [decide_eq_false_iff_not]; linarith
  · simp only [Spec.quantileAt, hs, List.length_cons, List.length_nil,
      Nat.zero_add, Nat.reduceAdd, Nat.reduceSub, Nat.cast_one, mul_one,
      hf tol h0 (by linarith), hc tol h0 (by linarith)]
    simp

-- the hypotheses of C17 are satisfiable: a non-trivial array, a non-integral index
example : quantileInplace (sortNth ℚ) 0 (1/1000000) .linear [3, 1, 4, 1, 5] (3/10) = .ok (7/5) := by
  decide +kernel

end SciCpp
