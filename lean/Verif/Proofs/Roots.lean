import Verif.Spec.Roots
import Mathlib.Analysis.Complex.Basic
import Mathlib.Tactic.Linarith
import Mathlib.Tactic.Ring
import Mathlib.Tactic.Positivity
import Mathlib.Algebra.BigOperators.Intervals
/-
  The residual of an eigenvalue of a matrix close to a companion matrix.
-/
namespace SciCpp
namespace Roots

open Finset

/-- The components of an eigenvector, from the last one upwards. -/
theorem vec_bound {d : ℕ} {a e x : ℕ → ℂ} {z : ℂ} {Λ M t : ℝ} (hΛ : 1 ≤ Λ) (hz : ‖z‖ ≤ Λ) (ha : ∀ i < d, ‖a i‖ ≤ M) (he : ∀ i < d, ‖e i‖ ≤ t)
    (hM : 0 ≤ M) (ht : 0 ≤ t) (h : ∀ i, 1 ≤ i → i < d → x (i - 1) - a i * x (d - 1) + e i = z * x i) (k : ℕ) (hk : k < d) :
    ‖x (d - 1 - k)‖ ≤ Λ ^ k * (‖x (d - 1)‖ + k * (M * ‖x (d - 1)‖ + t)) := by
  induction k with
  | zero => simp
  | succ k ih =>
    have ih := ih (by omega)
    have h1 := h (d - 1 - k) (by omega) (by omega)
    have e1 : x (d - 1 - (k + 1)) = z * x (d - 1 - k) + (a (d - 1 - k) * x (d - 1) - e (d - 1 - k)) := by
      rw [← h1, show d - 1 - (k + 1) = d - 1 - k - 1 by omega]; ring
    have hX := norm_nonneg (x (d - 1))
    have hq : 0 ≤ M * ‖x (d - 1)‖ + t := by positivity
    have hp : (1 : ℝ) ≤ Λ ^ (k + 1) := one_le_pow₀ hΛ
    have s1 : ‖z * x (d - 1 - k)‖ ≤ Λ ^ (k + 1) * (‖x (d - 1)‖ + k * (M * ‖x (d - 1)‖ + t)) := by
      rw [norm_mul, pow_succ']
      calc ‖z‖ * ‖x (d - 1 - k)‖ ≤ Λ * (Λ ^ k * (‖x (d - 1)‖ + k * (M * ‖x (d - 1)‖ + t))) :=
            mul_le_mul hz ih (norm_nonneg _) (by linarith)
        _ = _ := by ring
    have s2 : ‖a (d - 1 - k) * x (d - 1) - e (d - 1 - k)‖ ≤ M * ‖x (d - 1)‖ + t := by
      refine (norm_sub_le _ _).trans (add_le_add ?_ (he _ (by omega)))
      rw [norm_mul]
      exact mul_le_mul_of_nonneg_right (ha _ (by omega)) hX
    rw [e1]
    refine (norm_add_le _ _).trans ?_
    push_cast
    nlinarith

/-- Summation of the rows of the eigenvalue equation with weights `z^i`. -/
theorem residual {d : ℕ} (hd : 1 ≤ d) {a e x : ℕ → ℂ} {z : ℂ} (h0 : -(a 0) * x (d - 1) + e 0 = z * x 0)
    (h : ∀ i, 1 ≤ i → i < d → x (i - 1) - a i * x (d - 1) + e i = z * x i) :
    (z ^ d + ∑ i ∈ range d, a i * z ^ i) * x (d - 1) = ∑ i ∈ range d, z ^ i * e i := by
  have key : ∀ n, n ≤ d → 1 ≤ n → z ^ n * x (n - 1) + (∑ i ∈ range n, a i * z ^ i) * x (d - 1) = ∑ i ∈ range n, z ^ i * e i := by
    intro n
    induction n with
    | zero => intro _ h; omega
    | succ n ih =>
      intro hn _
      rcases Nat.eq_zero_or_pos n with rfl | hp
      · rw [sum_range_one, sum_range_one, Nat.add_sub_cancel, zero_add, pow_one, pow_zero, one_mul, mul_one, ← h0]
        ring
      · rw [sum_range_succ, sum_range_succ, ← ih (by omega) hp, Nat.add_sub_cancel, pow_succ, mul_assoc, ← h n hp (by omega)]
        ring
  rw [add_mul]
  exact key d le_rfl hd

/-- The residual bound. -/
theorem residual_le {d : ℕ} (hd : 1 ≤ d) {a : ℕ → ℂ} {E : ℕ → ℕ → ℂ} {x : ℕ → ℂ} {z : ℂ} {Λ M η : ℝ} (hΛ : 1 ≤ Λ) (hz : ‖z‖ ≤ Λ) (hM : 0 ≤ M)
    (ha : ∀ i < d, ‖a i‖ ≤ M) (hη : 0 ≤ η) (hE : ∀ i < d, ∀ j < d, ‖E i j‖ ≤ η) (hx : ∃ i < d, x i ≠ 0)
    (h0 : -(a 0) * x (d - 1) + ∑ j ∈ range d, E 0 j * x j = z * x 0)
    (h : ∀ i, 1 ≤ i → i < d → x (i - 1) - a i * x (d - 1) + ∑ j ∈ range d, E i j * x j = z * x i) :
    ‖z ^ d + ∑ i ∈ range d, a i * z ^ i‖ * (1 - d ^ 2 * Λ ^ d * η) ≤ d ^ 2 * Λ ^ (2 * d) * (1 + d * M) * η := by
  rcases le_or_gt (1 - (d : ℝ) ^ 2 * Λ ^ d * η) 0 with hneg | hpos
  · have : 0 ≤ (d : ℝ) ^ 2 * Λ ^ (2 * d) * (1 + d * M) * η := by positivity
    nlinarith [norm_nonneg (z ^ d + ∑ i ∈ range d, a i * z ^ i)]
  set S : ℝ := ∑ j ∈ range d, ‖x j‖ with hS
  set X : ℝ := ‖x (d - 1)‖ with hX
  have hX0 : 0 ≤ X := norm_nonneg _
  have hS0 : 0 < S := by
    obtain ⟨i, hi, hxi⟩ := hx
    exact lt_of_lt_of_le (norm_pos_iff.mpr hxi) (single_le_sum (f := fun j => ‖x j‖) (fun _ _ => norm_nonneg _) (mem_range.mpr hi))
  have he : ∀ i < d, ‖∑ j ∈ range d, E i j * x j‖ ≤ η * S := by
    intro i hi
    refine (norm_sum_le _ _).trans ?_
    rw [hS, mul_sum]
    refine sum_le_sum fun j hj => ?_
    rw [norm_mul]
    exact mul_le_mul_of_nonneg_right (hE i hi j (mem_range.mp hj)) (norm_nonneg _)
  have ht : 0 ≤ η * S := by positivity
  have hL : 0 < Λ ^ d := by positivity
  have hd1 : (1 : ℝ) ≤ d := by exact_mod_cast hd
  have hdpos : (0 : ℝ) ≤ d := by linarith
  -- every component, hence the sum
  have hcomp : ∀ j < d, ‖x j‖ ≤ Λ ^ d * (X + d * (M * X + η * S)) := by
    intro j hj
    have := vec_bound (e := fun i => ∑ j ∈ range d, E i j * x j) hΛ hz ha he hM ht h (d - 1 - j) (by omega)
    rw [show d - 1 - (d - 1 - j) = j by omega] at this
    refine this.trans (mul_le_mul (pow_le_pow_right₀ hΛ (by omega)) ?_ (by positivity) hL.le)
    have : ((d - 1 - j : ℕ) : ℝ) ≤ d := by exact_mod_cast (by omega : d - 1 - j ≤ d)
    have : 0 ≤ M * X + η * S := by positivity
    nlinarith
  have hsum : S ≤ d * (Λ ^ d * (X + d * (M * X + η * S))) := by
    have := sum_le_sum fun j hj => hcomp j (mem_range.mp hj)
    rwa [sum_const, card_range, nsmul_eq_mul] at this
  have hsum2 : S * (1 - d ^ 2 * Λ ^ d * η) ≤ d * Λ ^ d * (1 + d * M) * X := by nlinarith
  have hXpos : 0 < X := by
    by_contra hc
    have : X = 0 := le_antisymm (not_lt.mp hc) hX0
    rw [this, mul_zero] at hsum2
    exact absurd hsum2 (not_le.mpr (mul_pos hS0 hpos))
  -- the residual
  have hres := residual (e := fun i => ∑ j ∈ range d, E i j * x j) hd h0 h
  have hr : ‖z ^ d + ∑ i ∈ range d, a i * z ^ i‖ * X ≤ d * Λ ^ d * (η * S) := by
    rw [hX, ← norm_mul, hres]
    refine (norm_sum_le _ _).trans ?_
    have : ∀ i ∈ range d, ‖z ^ i * ∑ j ∈ range d, E i j * x j‖ ≤ Λ ^ d * (η * S) := by
      intro i hi
      have hi := mem_range.mp hi
      rw [norm_mul, norm_pow]
      exact mul_le_mul ((pow_le_pow_left₀ (norm_nonneg _) hz i).trans (pow_le_pow_right₀ hΛ hi.le)) (he i hi) (norm_nonneg _) hL.le
    have := sum_le_sum this
    rw [sum_const, card_range, nsmul_eq_mul] at this
    linarith
  refine le_of_mul_le_mul_right ?_ hXpos
  calc ‖z ^ d + ∑ i ∈ range d, a i * z ^ i‖ * (1 - d ^ 2 * Λ ^ d * η) * X
      = ‖z ^ d + ∑ i ∈ range d, a i * z ^ i‖ * X * (1 - d ^ 2 * Λ ^ d * η) := by ring
    _ ≤ d * Λ ^ d * (η * S) * (1 - d ^ 2 * Λ ^ d * η) := mul_le_mul_of_nonneg_right hr hpos.le
    _ = d * Λ ^ d * η * (S * (1 - d ^ 2 * Λ ^ d * η)) := by ring
    _ ≤ d * Λ ^ d * η * (d * Λ ^ d * (1 + d * M) * X) := mul_le_mul_of_nonneg_left hsum2 (by positivity)
    _ = d ^ 2 * Λ ^ (2 * d) * (1 + d * M) * η * X := by rw [two_mul d, pow_add]; ring

end Roots
end SciCpp
