import Verif.Proofs.Ieee
/-
  Rounding to a binary format is monotone.
-/
namespace SciCpp
namespace Fmt
variable (f : Fmt)

/-- Rounding a positive number. -/
theorem rnd_of_pos {q : ℚ} (h : 0 < q) :
    f.rnd q = (nearestEven (q * (2 : ℚ) ^ ((f.frac : ℤ) - max (expo q) f.emin)) : ℚ) /
      (2 : ℚ) ^ ((f.frac : ℤ) - max (expo q) f.emin) := by
  unfold rnd; rw [if_neg h.ne']

theorem rnd_nonneg {q : ℚ} (h : 0 ≤ q) : 0 ≤ f.rnd q := by
  rcases eq_or_lt_of_le h with h | h
  · rw [← h]; simp [rnd]
  · rw [f.rnd_of_pos h]
    refine div_nonneg ?_ (by positivity)
    have := nearestEven_mono (show (((0 : ℤ) : ℚ)) ≤ q * (2 : ℚ) ^ ((f.frac : ℤ) - max (expo q) f.emin) by
      push_cast; positivity)
    rw [nearestEven_int] at this
    exact_mod_cast this

/-- A power of two above a positive number bounds its rounding from above, when it is on the grid. -/
theorem rnd_le_zpow {q : ℚ} (h : 0 < q) {e : ℤ} (hq : q ≤ (2 : ℚ) ^ e)
    (he : max (expo q) f.emin - (f.frac : ℤ) ≤ e) : f.rnd q ≤ (2 : ℚ) ^ e := by
  rw [f.rnd_of_pos h, div_le_iff₀ (by positivity), ← zpow_add₀ two_ne_zero]
  obtain ⟨j, hj⟩ := Int.eq_ofNat_of_zero_le (show 0 ≤ e + ((f.frac : ℤ) - max (expo q) f.emin) by omega)
  rw [hj]
  have h1 : q * (2 : ℚ) ^ ((f.frac : ℤ) - max (expo q) f.emin) ≤ ((2 ^ j : ℤ) : ℚ) := by
    push_cast
    rw [← zpow_natCast, ← hj, zpow_add₀ two_ne_zero]
    exact mul_le_mul_of_nonneg_right hq (by positivity)
  have := nearestEven_mono h1
  rw [nearestEven_int] at this
  rw [zpow_natCast]
  exact_mod_cast this

/-- A power of two below a positive number bounds its rounding from below, when it is on the grid. -/
theorem zpow_le_rnd {q : ℚ} {e : ℤ} (hq : (2 : ℚ) ^ e ≤ q)
    (he : max (expo q) f.emin - (f.frac : ℤ) ≤ e) : (2 : ℚ) ^ e ≤ f.rnd q := by
  have h : 0 < q := lt_of_lt_of_le (by positivity) hq
  rw [f.rnd_of_pos h, le_div_iff₀ (by positivity), ← zpow_add₀ two_ne_zero]
  obtain ⟨j, hj⟩ := Int.eq_ofNat_of_zero_le (show 0 ≤ e + ((f.frac : ℤ) - max (expo q) f.emin) by omega)
  rw [hj]
  have h1 : ((2 ^ j : ℤ) : ℚ) ≤ q * (2 : ℚ) ^ ((f.frac : ℤ) - max (expo q) f.emin) := by
    push_cast
    rw [← zpow_natCast, ← hj, zpow_add₀ two_ne_zero]
    exact mul_le_mul_of_nonneg_right hq (by positivity)
  have := nearestEven_mono h1
  rw [nearestEven_int] at this
  rw [zpow_natCast]
  exact_mod_cast this

theorem rnd_mono_pos {q r : ℚ} (h0 : 0 < q) (h : q ≤ r) : f.rnd q ≤ f.rnd r := by
  have hr0 : 0 < r := lt_of_lt_of_le h0 h
  have hm := expo_mono h0 h
  by_cases heq : max (expo q) f.emin = max (expo r) f.emin
  · rw [f.rnd_of_pos h0, f.rnd_of_pos hr0, heq]
    set s : ℚ := (2 : ℚ) ^ ((f.frac : ℤ) - max (expo r) f.emin)
    have hs : 0 < s := by positivity
    rw [div_le_div_iff_of_pos_right hs]
    exact_mod_cast nearestEven_mono (mul_le_mul_of_nonneg_right h hs.le)
  · have h1 : f.emin < expo r := by
      by_contra hc
      rw [max_eq_right (by omega), max_eq_right (by omega)] at heq
      exact heq rfl
    have h2 : expo q < expo r := by
      by_contra hc
      rw [show expo q = expo r by omega] at heq
      exact heq rfl
    have hq2 := (expo_spec h0.ne').2
    rw [abs_of_pos h0] at hq2
    have hr1 := (expo_spec hr0.ne').1
    rw [abs_of_pos hr0] at hr1
    have hle : q ≤ (2 : ℚ) ^ expo r :=
      hq2.le.trans (zpow_le_zpow_right₀ (by norm_num) (by omega))
    exact (f.rnd_le_zpow h0 hle (by
      have : max (expo q) f.emin ≤ expo r := max_le (by omega) (by omega)
      omega)).trans (f.zpow_le_rnd hr1 (by rw [max_eq_left (by omega)]; omega))

theorem rnd_mono {q r : ℚ} (h : q ≤ r) : f.rnd q ≤ f.rnd r := by
  rcases lt_or_ge 0 q with hq | hq
  · exact f.rnd_mono_pos hq h
  · rcases lt_or_ge r 0 with hr | hr
    · have := f.rnd_mono_pos (q := -r) (r := -q) (by linarith) (by linarith)
      rw [rnd_neg, rnd_neg] at this
      linarith
    · have h1 := f.rnd_nonneg (q := -q) (by linarith)
      rw [rnd_neg] at h1
      have h2 := f.rnd_nonneg hr
      linarith

end Fmt
end SciCpp
