import Verif.Proofs.IeeeMono
import Verif.Proofs.ApproxI
/-
  Representable numbers of a binary format are fixed points of its rounding.
-/
namespace SciCpp
namespace Fmt
variable (f : Fmt)

/-- A multiple of `2^k` of at most `frac + 1` significant bits is exact. -/
theorem rnd_exact_lt (m k : ℤ) (hk : f.emin - f.frac ≤ k)
    (hm : |(m : ℚ) * (2 : ℚ) ^ k| < (2 : ℚ) ^ (k + f.frac + 1)) :
    f.rnd ((m : ℚ) * (2 : ℚ) ^ k) = (m : ℚ) * (2 : ℚ) ^ k := by
  set r : ℚ := (m : ℚ) * (2 : ℚ) ^ k with hr
  by_cases h0 : r = 0
  · rw [h0]; exact f.rnd_zero
  obtain ⟨h1, h2⟩ := expo_spec h0
  have he : expo r < k + f.frac + 1 :=
    (zpow_lt_zpow_iff_right₀ (by norm_num : (1 : ℚ) < 2)).mp (lt_of_le_of_lt h1 hm)
  unfold rnd
  rw [if_neg h0]
  simp only
  obtain ⟨j, hj⟩ := Int.eq_ofNat_of_zero_le (show 0 ≤ k + ((f.frac : ℤ) - max (expo r) f.emin) by omega)
  have hint : r * (2 : ℚ) ^ ((f.frac : ℤ) - max (expo r) f.emin) = ((m * 2 ^ j : ℤ) : ℚ) := by
    rw [hr, mul_assoc, ← zpow_add₀ two_ne_zero, ← hr, hj, zpow_natCast]
    push_cast; ring
  rw [hint, nearestEven_int, ← hint]
  have : (2 : ℚ) ^ ((f.frac : ℤ) - max (expo r) f.emin) ≠ 0 := by positivity
  field_simp

/-- A multiple of `2^k` of magnitude at most `2^(k + frac + 1)` is exact. -/
theorem rnd_exact (m k : ℤ) (hk : f.emin - f.frac ≤ k) (hm : |m| ≤ 2 ^ (f.frac + 1)) :
    f.rnd ((m : ℚ) * (2 : ℚ) ^ k) = (m : ℚ) * (2 : ℚ) ^ k := by
  have hp : (0 : ℚ) < (2 : ℚ) ^ k := by positivity
  rcases lt_or_eq_of_le hm with h | h
  · refine f.rnd_exact_lt m k hk ?_
    rw [abs_mul, abs_of_pos hp, ← Int.cast_abs]
    have h' : ((|m| : ℤ) : ℚ) < (2 : ℚ) ^ ((f.frac : ℤ) + 1) := by exact_mod_cast h
    rw [show k + (f.frac : ℤ) + 1 = ((f.frac : ℤ) + 1) + k by ring, zpow_add₀ two_ne_zero _ k]
    exact mul_lt_mul_of_pos_right h' hp
  · have key : ∀ s : ℤ, |s| = 1 → m = s * 2 ^ (f.frac + 1) →
        f.rnd ((m : ℚ) * (2 : ℚ) ^ k) = (m : ℚ) * (2 : ℚ) ^ k := by
      intro s hs hms
      have e : (m : ℚ) * (2 : ℚ) ^ k = (s : ℚ) * (2 : ℚ) ^ (k + f.frac + 1) := by
        rw [hms, show k + (f.frac : ℤ) + 1 = ((f.frac + 1 : ℕ) : ℤ) + k by push_cast; ring,
          zpow_add₀ two_ne_zero, zpow_natCast]
        push_cast; ring
      rw [e]
      refine f.rnd_exact_lt s _ (by omega) ?_
      rw [abs_mul, ← Int.cast_abs, hs, Int.cast_one, one_mul, abs_of_pos (by positivity)]
      exact zpow_lt_zpow_right₀ (by norm_num) (by omega)
    rcases abs_cases m with ⟨e, -⟩ | ⟨e, -⟩
    · exact key 1 (by norm_num) (by rw [one_mul, ← h, e])
    · exact key (-1) (by norm_num) (by rw [← h, e]; ring)

/-- Rounding is idempotent. -/
theorem rnd_idem (q : ℚ) : f.rnd (f.rnd q) = f.rnd q := by
  have pos : ∀ q : ℚ, 0 < q → f.rnd (f.rnd q) = f.rnd q := by
    intro q hq
    set E := max (expo q) f.emin with hE
    have hform : f.rnd q = ((nearestEven (q * (2 : ℚ) ^ ((f.frac : ℤ) - E)) : ℤ) : ℚ) * (2 : ℚ) ^ (E - f.frac) := by
      rw [f.rnd_of_pos hq, div_eq_mul_inv, ← zpow_neg]
      congr 2; ring
    have hle : f.rnd q ≤ (2 : ℚ) ^ (E + 1) := by
      have h2 := (expo_spec hq.ne').2
      rw [abs_of_pos hq] at h2
      refine f.rnd_le_zpow hq (h2.le.trans (zpow_le_zpow_right₀ (by norm_num) (by omega))) (by omega)
    have h0 := f.rnd_nonneg hq.le
    set m := nearestEven (q * (2 : ℚ) ^ ((f.frac : ℤ) - E))
    have hp : (0 : ℚ) < (2 : ℚ) ^ (E - f.frac) := by positivity
    have hm : |m| ≤ 2 ^ (f.frac + 1) := by
      have hm0 : (0 : ℚ) ≤ m := by
        rw [hform] at h0
        exact nonneg_of_mul_nonneg_left h0 hp
      rw [abs_of_nonneg (by exact_mod_cast hm0)]
      rw [hform, show E + 1 = ((f.frac + 1 : ℕ) : ℤ) + (E - f.frac) by push_cast; ring,
        zpow_add₀ two_ne_zero, zpow_natCast] at hle
      have := le_of_mul_le_mul_right hle hp
      exact_mod_cast this
    rw [hform]
    exact f.rnd_exact m _ (by omega) hm
  rcases lt_trichotomy q 0 with h | h | h
  · have := pos (-q) (by linarith)
    rw [rnd_neg, rnd_neg] at this
    linarith
  · subst h; simp
  · exact pos q h

theorem round_ofRat (q : ℚ) : f.round (f.ofRat q) = f.ofRat q := by
  unfold ofRat
  split_ifs with h
  · rfl
  · show f.ofRat (f.rnd q) = _
    unfold ofRat
    rw [f.rnd_idem, if_neg h]

/-- Rounding twice changes nothing. -/
theorem round_round (x : Fl) : f.round (f.round x) = f.round x := by
  rcases x with _ | s | q
  · rfl
  · rfl
  · exact f.round_ofRat q

/-- Rounding to a format, with its overflow, keeps the order. -/
theorem ofRat_mono {p q : ℚ} (h : p ≤ q) : Fl.lt (f.ofRat q) (f.ofRat p) = false := by
  have hm := f.rnd_mono h
  have pos : (0 : ℚ) < (2 : ℚ) ^ f.emax := by positivity
  unfold ofRat
  split_ifs with h1 h2 h2
  · by_cases hq : q < 0
    · have hp : p < 0 := lt_of_le_of_lt h hq
      simp [hq, hp, Fl.lt]
    · simp [hq, Fl.lt]
  · have hq0 : ¬ q < 0 := by
      intro hq
      have h3 := f.rnd_mono hq.le
      rw [f.rnd_zero] at h3
      rw [abs_of_nonpos h3] at h1
      rw [abs_of_nonpos (hm.trans h3)] at h2
      linarith
    simp [hq0, Fl.lt]
  · have hp0 : p < 0 := by
      by_contra hp
      have h3 := f.rnd_nonneg (not_lt.mp hp)
      rw [abs_of_nonneg h3] at h2
      rw [abs_of_nonneg (h3.trans hm)] at h1
      linarith
    simp [hp0, Fl.lt]
  · simp [Fl.lt, hm]

end Fmt
end SciCpp
