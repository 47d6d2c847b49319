import Verif.Model.CppFloat
import Verif.Proofs.RFl
import Mathlib.Tactic.Positivity
import Mathlib.Tactic.Linarith
import Mathlib.Tactic.FieldSimp
import Mathlib.Algebra.Order.Field.Rat
/-
  A calculus of relative errors of positive numbers: `Near g k X q` says that `q` is between `X·g^k` and
  `X/g^k`; a rounding with relative error `u` costs one factor `g = 1 - u`.
-/
namespace SciCpp

/-- `X·g^k ≤ q ≤ X/g^k`. -/
def Near (g : ℚ) (k : ℕ) (X q : ℚ) : Prop := 0 < X ∧ X * g ^ k ≤ q ∧ q * g ^ k ≤ X

namespace Near

variable {g : ℚ} {k j : ℕ} {X Y p q : ℚ}

theorem pos (hg : 0 < g) (h : Near g k X q) : 0 < q := lt_of_lt_of_le (mul_pos h.1 (pow_pos hg k)) h.2.1

theorem refl (h : 0 < X) : Near g 0 X X := ⟨h, by simp, by simp⟩

theorem mono (hg : 0 < g) (hg1 : g ≤ 1) (h : Near g k X q) (hk : k ≤ j) : Near g j X q := by
  have hp := pow_le_pow_of_le_one hg.le hg1 hk
  refine ⟨h.1, le_trans (mul_le_mul_of_nonneg_left hp h.1.le) h.2.1,
    le_trans (mul_le_mul_of_nonneg_left hp (h.pos hg).le) h.2.2⟩

theorem mul (hg : 0 < g) (h : Near g k X p) (h' : Near g j Y q) : Near g (k + j) (X * Y) (p * q) := by
  have := pow_pos hg k
  have := pow_pos hg j
  have hp := h.pos hg
  have hq := h'.pos hg
  obtain ⟨a, b, c⟩ := h
  obtain ⟨a', b', c'⟩ := h'
  refine ⟨mul_pos a a', ?_, ?_⟩
  · calc X * Y * g ^ (k + j) = (X * g ^ k) * (Y * g ^ j) := by rw [pow_add]; ring
      _ ≤ p * q := mul_le_mul b b' (by positivity) hp.le
  · calc p * q * g ^ (k + j) = (p * g ^ k) * (q * g ^ j) := by rw [pow_add]; ring
      _ ≤ X * Y := mul_le_mul c c' (by positivity) a.le

theorem inv (hg : 0 < g) (h : Near g k X q) : Near g k X⁻¹ q⁻¹ := by
  have hq := h.pos hg
  have := pow_pos hg k
  obtain ⟨a, b, c⟩ := h
  refine ⟨by positivity, ?_, ?_⟩
  · rw [inv_mul_le_iff₀ a, ← div_eq_mul_inv, le_div_iff₀ hq]; linarith
  · rw [inv_mul_le_iff₀ hq, ← div_eq_mul_inv, le_div_iff₀ a]; linarith

theorem div (hg : 0 < g) (h : Near g k X p) (h' : Near g j Y q) : Near g (k + j) (X / Y) (p / q) := by
  rw [div_eq_mul_inv, div_eq_mul_inv]; exact h.mul hg (h'.inv hg)

theorem add (h : Near g k X p) (h' : Near g k Y q) : Near g k (X + Y) (p + q) := by
  obtain ⟨a, b, c⟩ := h
  obtain ⟨a', b', c'⟩ := h'
  exact ⟨by linarith, by rw [add_mul]; linarith, by rw [add_mul]; linarith⟩

theorem trans (hg : 0 < g) (h : Near g k X p) (h' : Near g j p q) : Near g (k + j) X q := by
  have := pow_pos hg k
  have := pow_pos hg j
  obtain ⟨a, b, c⟩ := h
  obtain ⟨a', b', c'⟩ := h'
  refine ⟨a, ?_, ?_⟩
  · rw [pow_add, ← mul_assoc]
    exact le_trans (mul_le_mul_of_nonneg_right b (by positivity)) b'
  · rw [pow_add, mul_comm (g ^ k), ← mul_assoc]
    exact le_trans (mul_le_mul_of_nonneg_right c' (by positivity)) c

/-- One rounding. -/
theorem round {u : ℚ} {rnd : ℚ → ℚ} (hu : 0 ≤ u) (hu1 : u < 1) (hr : ∀ x, |rnd x - x| ≤ u * |x|)
    (h : Near (1 - u) k X q) : Near (1 - u) (k + 1) X (rnd q) := by
  have hq := h.pos (by linarith)
  refine h.trans (by linarith) ⟨hq, ?_, ?_⟩
  · have := abs_le.1 (hr q)
    rw [abs_of_pos hq] at this
    rw [pow_one]; linarith [this.1]
  · have := abs_le.1 (hr q)
    rw [abs_of_pos hq] at this
    rw [pow_one]
    have h1 : rnd q ≤ q * (1 + u) := by linarith [this.2]
    have h2 : (0 : ℚ) ≤ 1 - u := by linarith
    have h3 := mul_le_mul_of_nonneg_right h1 h2
    nlinarith [mul_nonneg hq.le (mul_nonneg hu hu)]

end Near
end SciCpp
