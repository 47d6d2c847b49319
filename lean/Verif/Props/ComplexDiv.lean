import Verif.Props.ComplexF
/-
  Property theorems C139, continued: division of complex numbers in floating point (the operator of the compiler, Smith's method).

  The error bound is relative to `(|ac| + |bd|) / |y|²` for the real part of `(a + bi) / (c + di)` and to `(|bc| + |ad|) / |y|²` for the
  imaginary part; with exact arithmetic (`u = 0`) the quotient is the quotient of `ℂ`.
-/
set_option linter.unusedSectionVars false
namespace SciCpp
open Spec Finset

section
variable {rnd : ℚ → ℚ} {u : ℚ}

/-- The quotient of one component: `p` is the rounded product `b * r`. -/
theorem smith_component (hu : 0 ≤ u) (hu8 : u ≤ 1 / 8) (hr : ∀ x, |rnd x - x| ≤ u * |x|) (a b c d p : ℚ) (hc : c ≠ 0)
    (hp : |p - b * rnd (d / c)| ≤ u * |b * rnd (d / c)|) :
    rnd (rnd (d * rnd (d / c)) + c) ≠ 0 ∧
    |rnd (rnd (p + a) / rnd (rnd (d * rnd (d / c)) + c)) - (a * c + b * d) / (c ^ 2 + d ^ 2)| ≤
      (2 * ((1 + u) ^ 3 - 1) + u * (1 + u) ^ 3) / (2 - (1 + u) ^ 3) * ((|a * c| + |b * d|) / (c ^ 2 + d ^ 2)) := by
  have hg0 : (1 + u) ^ 3 < 2 := by nlinarith [mul_nonneg hu hu, mul_nonneg (mul_nonneg hu hu) hu, mul_le_mul hu8 hu8 hu (by norm_num)]
  have hg1 : (1 : ℚ) ≤ (1 + u) ^ 3 := one_le_pow₀ (by linarith)
  have hcd : 0 < c ^ 2 + d ^ 2 := by positivity
  -- `r`
  have e1 := hr (d / c)
  generalize hR : rnd (d / c) = r at *
  -- the absolute error of `v * r`
  have mulr : ∀ v w : ℚ, |w - v * r| ≤ u * |v * r| → |w - v * d / c| ≤ ((1 + u) ^ 2 - 1) * |v * d / c| := by
    intro v w h
    have h1 : |v * r - v * d / c| ≤ u * |v * d / c| := by
      rw [show v * r - v * d / c = v * (r - d / c) by ring, abs_mul, show v * d / c = v * (d / c) by ring, abs_mul]
      nlinarith [abs_nonneg v]
    have h2 : |v * r| ≤ (1 + u) * |v * d / c| := by
      have := abs_add_le (v * r - v * d / c) (v * d / c)
      rw [sub_add_cancel] at this
      linarith
    have h3 := abs_add_le (w - v * r) (v * r - v * d / c)
    rw [sub_add_sub_cancel] at h3
    nlinarith [mul_le_mul_of_nonneg_left h2 hu]
  -- adding and rounding
  have addr : ∀ v w t A : ℚ, |w - v| ≤ ((1 + u) ^ 2 - 1) * A → |v + t| ≤ A + |t| → |v| ≤ A → 
      |w + t - (v + t)| ≤ ((1 + u) ^ 2 - 1) * (A + |t|) := by
    intro v w t A h _ _
    rw [add_sub_add_right_eq_sub]
    have : 0 ≤ ((1 + u) ^ 2 - 1) * |t| := mul_nonneg (by nlinarith) (abs_nonneg t)
    linarith
  have round3 : ∀ w v A : ℚ, |w - v| ≤ ((1 + u) ^ 2 - 1) * A → |v| ≤ A → |rnd w - v| ≤ ((1 + u) ^ 3 - 1) * A := by
    intro w v A h1 h2
    have h3 := hr w
    have h4 := abs_add_le (w - v) v
    rw [sub_add_cancel] at h4
    have h5 := abs_add_le (rnd w - w) (w - v)
    rw [sub_add_sub_cancel] at h5
    nlinarith [mul_le_mul_of_nonneg_left (h4.trans (add_le_add h1 h2)) hu]
  -- the denominator
  have hD : |rnd (rnd (d * r) + c) - (c ^ 2 + d ^ 2) / c| ≤ ((1 + u) ^ 3 - 1) * |(c ^ 2 + d ^ 2) / c| := by
    have hs : |d * d / c| + |c| = |(c ^ 2 + d ^ 2) / c| := by
      rw [abs_div, abs_div, abs_of_pos hcd, abs_of_nonneg (mul_self_nonneg d)]
      have : |c| ≠ 0 := by simpa using hc
      field_simp
      rw [sq_abs]; ring
    have he : d * d / c + c = (c ^ 2 + d ^ 2) / c := by field_simp; ring
    rw [← hs, ← he]
    exact round3 _ _ _ (addr _ _ c _ (mulr d _ (hr _)) (abs_add_le _ _) le_rfl) (abs_add_le _ _)
  -- the numerator
  have hN : |rnd (p + a) - (a * c + b * d) / c| ≤ ((1 + u) ^ 3 - 1) * ((|a * c| + |b * d|) / |c|) := by
    have hs : |b * d / c| + |a| = (|a * c| + |b * d|) / |c| := by
      have : |c| ≠ 0 := by simpa using hc
      rw [abs_div, abs_mul a c]; field_simp; ring
    have he : b * d / c + a = (a * c + b * d) / c := by field_simp; ring
    rw [← hs, ← he]
    exact round3 _ _ _ (addr _ _ a _ (mulr b _ hp) (abs_add_le _ _) le_rfl) (abs_add_le _ _)
  have hNA : |(a * c + b * d) / c| ≤ (|a * c| + |b * d|) / |c| := by
    rw [abs_div]; exact div_le_div_of_nonneg_right (abs_add_le _ _) (abs_nonneg c)
  have hDa : |(c ^ 2 + d ^ 2) / c| = (c ^ 2 + d ^ 2) / |c| := by rw [abs_div, abs_of_pos hcd]
  have hq : (a * c + b * d) / (c ^ 2 + d ^ 2) = (a * c + b * d) / c / ((c ^ 2 + d ^ 2) / c) := by field_simp
  have hB : (|a * c| + |b * d|) / (c ^ 2 + d ^ 2) = (|a * c| + |b * d|) / |c| / |(c ^ 2 + d ^ 2) / c| := by
    have : |c| ≠ 0 := by simpa using hc
    rw [hDa]; field_simp
  have hDne : (c ^ 2 + d ^ 2) / c ≠ 0 := div_ne_zero hcd.ne' hc
  rw [hq, hB]
  have hDpos : 0 < |(c ^ 2 + d ^ 2) / c| := abs_pos.2 hDne
  generalize (c ^ 2 + d ^ 2) / c = D at *
  generalize rnd (rnd (d * r) + c) = Dh at *
  generalize rnd (p + a) = Nh at *
  generalize (a * c + b * d) / c = N at *
  generalize (|a * c| + |b * d|) / |c| = A at *
  generalize hG : (1 + u) ^ 3 = G at *
  have hA : 0 ≤ A := (abs_nonneg N).trans hNA
  have hDh : (2 - G) * |D| ≤ |Dh| := by
    have := abs_sub_abs_le_abs_sub D Dh
    rw [abs_sub_comm] at this
    nlinarith
  have hDhpos : 0 < |Dh| := lt_of_lt_of_le (mul_pos (by linarith) hDpos) hDh
  have hDhne : Dh ≠ 0 := abs_pos.1 hDhpos
  refine ⟨hDhne, ?_⟩
  have hkey : |Nh / Dh - N / D| ≤ 2 * (G - 1) / (2 - G) * (A / |D|) := by
    have h1 : Nh / Dh - N / D = ((Nh - N) * D + N * (D - Dh)) / (Dh * D) := by field_simp; ring
    rw [h1, abs_div, abs_mul, div_le_iff₀ (mul_pos hDhpos hDpos)]
    have h2 : |(Nh - N) * D + N * (D - Dh)| ≤ 2 * (G - 1) * A * |D| := by
      refine (abs_add_le _ _).trans ?_
      rw [abs_mul, abs_mul, abs_sub_comm D Dh]
      have t1 := mul_le_mul_of_nonneg_right hN (abs_nonneg D)
      have t2 := mul_le_mul hNA hD (abs_nonneg _) hA
      nlinarith
    refine h2.trans ?_
    have h3 : 2 * (G - 1) / (2 - G) * (A / |D|) * (|Dh| * |D|) = 2 * (G - 1) * A * (|Dh| / (2 - G)) := by field_simp
    rw [h3]
    refine mul_le_mul_of_nonneg_left ?_ (mul_nonneg (by linarith) hA)
    rw [le_div_iff₀ (by linarith)]; linarith
  have hval : |Nh / Dh| ≤ G / (2 - G) * (A / |D|) := by
    rw [abs_div, div_le_iff₀ hDhpos]
    have h1 : |Nh| ≤ G * A := by
      have := abs_add_le (Nh - N) N
      rw [sub_add_cancel] at this
      linarith
    refine h1.trans ?_
    have h3 : G / (2 - G) * (A / |D|) * |Dh| = G * A * (|Dh| / ((2 - G) * |D|)) := by field_simp
    rw [h3]
    refine le_mul_of_one_le_right (mul_nonneg (by linarith) hA) ?_
    rw [le_div_iff₀ (mul_pos (by linarith) hDpos)]; linarith
  have h5 := abs_add_le (rnd (Nh / Dh) - Nh / Dh) (Nh / Dh - N / D)
  rw [sub_add_sub_cancel] at h5
  have h6 := (hr (Nh / Dh)).trans (mul_le_mul_of_nonneg_left hval hu)
  have h7 : (2 * (G - 1) + u * G) / (2 - G) * (A / |D|) = u * (G / (2 - G) * (A / |D|)) + 2 * (G - 1) / (2 - G) * (A / |D|) := by ring
  rw [h7]
  linarith

/-- **C139 (division).**  The quotient of two complex numbers, the divisor not being `0`, is finite and each component has an error of a few
units in the last place of the sum of the magnitudes of its terms. -/
theorem C139_div (hu : 0 ≤ u) (hu8 : u ≤ 1 / 8) (hr : ∀ x, |rnd x - x| ≤ u * |x|) (x y : CK ℚ) (hy : y.re ≠ 0 ∨ y.im ≠ 0) :
    ∃ z : CK ℚ, (finC x / finC y : CK (RFl rnd)) = finC z ∧
      |z.re - (x.re * y.re + x.im * y.im) / (y.re ^ 2 + y.im ^ 2)| ≤
        (2 * ((1 + u) ^ 3 - 1) + u * (1 + u) ^ 3) / (2 - (1 + u) ^ 3) * ((|x.re * y.re| + |x.im * y.im|) / (y.re ^ 2 + y.im ^ 2)) ∧
      |z.im - (x.im * y.re - x.re * y.im) / (y.re ^ 2 + y.im ^ 2)| ≤
        (2 * ((1 + u) ^ 3 - 1) + u * (1 + u) ^ 3) / (2 - (1 + u) ^ 3) * ((|x.im * y.re| + |x.re * y.im|) / (y.re ^ 2 + y.im ^ 2)) := by
  obtain ⟨a, b⟩ := x
  obtain ⟨c, d⟩ := y
  by_cases hlt : |c| < |d|
  · have hd : d ≠ 0 := by rintro rfl; simp only [abs_zero] at hlt; exact absurd hlt (not_lt.2 (abs_nonneg c))
    have k1 := smith_component hu hu8 hr b a d c (rnd (a * rnd (c / d))) hd (hr _)
    have k2 := smith_component hu hu8 hr (-a) b d c (rnd (b * rnd (c / d))) hd (hr _)
    refine ⟨⟨rnd (rnd (rnd (a * rnd (c / d)) + b) / rnd (rnd (c * rnd (c / d)) + d)),
      rnd (rnd (rnd (b * rnd (c / d)) + -a) / rnd (rnd (c * rnd (c / d)) + d))⟩, ?_, ?_, ?_⟩
    · show CK.div _ _ = _
      unfold CK.div finC
      rw [if_pos]
      · simp only [RFl.div_fin hd, RFl.mul_fin, RFl.add_fin, RFl.sub_fin, RFl.div_fin k1.1, ← sub_eq_add_neg]
      · show decide (|c| < |d|) = true
        simpa using hlt
    · have := k1.2
      rw [add_comm (d ^ 2), add_comm (b * d), add_comm |b * d|] at this
      exact this
    · have := k2.2
      rw [add_comm (d ^ 2), show -a * d + b * c = b * c - a * d by ring, show |-a * d| = |a * d| by rw [neg_mul, abs_neg],
        add_comm |a * d|] at this
      exact this
  · have hc : c ≠ 0 := by
      rintro rfl
      rw [abs_zero, not_lt] at hlt
      rcases hy with h | h
      · exact h rfl
      · exact h (abs_eq_zero.1 (le_antisymm hlt (abs_nonneg d)))
    have k1 := smith_component hu hu8 hr a b c d (rnd (b * rnd (d / c))) hc (hr _)
    have k2 := smith_component hu hu8 hr b (-a) c d (-rnd (a * rnd (d / c))) hc (by
      rw [neg_mul, ← neg_sub', abs_neg, abs_neg]; exact hr _)
    refine ⟨⟨rnd (rnd (rnd (b * rnd (d / c)) + a) / rnd (rnd (d * rnd (d / c)) + c)),
      rnd (rnd (-rnd (a * rnd (d / c)) + b) / rnd (rnd (d * rnd (d / c)) + c))⟩, ?_, k1.2, ?_⟩
    · show CK.div _ _ = _
      unfold CK.div finC
      rw [if_neg]
      · simp only [RFl.div_fin hc, RFl.mul_fin, RFl.add_fin, RFl.sub_fin, RFl.div_fin k1.1, neg_add_eq_sub]
      · show ¬ (decide (|c| < |d|) = true)
        simpa using hlt
    · have := k2.2
      rw [show b * c + -a * d = b * c - a * d by ring, show |-a * d| = |a * d| by rw [neg_mul, abs_neg]] at this
      exact this

end

/-- **C139 (division), exact arithmetic.**  The quotient of two exactly computed complex numbers is the quotient of `ℂ`. -/
theorem C139_div_exact (x y : CK ℚ) (hy : y.re ≠ 0 ∨ y.im ≠ 0) :
    ∃ z : CK ℚ, (finC x / finC y : CK (RFl id)) = finC z ∧ toC z = toC x / toC y := by
  obtain ⟨z, hz, h1, h2⟩ := C139_div (rnd := id) (u := 0) le_rfl (by norm_num) (fun x => by simp) x y hy
  refine ⟨z, hz, ?_⟩
  simp only [add_zero, one_pow, sub_self, mul_zero, zero_mul, zero_div] at h1 h2
  have e1 := sub_eq_zero.1 (abs_eq_zero.1 (le_antisymm h1 (abs_nonneg _)))
  have e2 := sub_eq_zero.1 (abs_eq_zero.1 (le_antisymm h2 (abs_nonneg _)))
  rw [Complex.ext_iff, Complex.div_re, Complex.div_im]
  simp only [toC, e1, e2, Complex.normSq_apply]
  constructor <;> push_cast <;> ring

/-- The bound in `double`: about 7 units of roundoff. -/
example : (2 * ((1 + 1 / 2 ^ 53 : ℚ) ^ 3 - 1) + 1 / 2 ^ 53 * (1 + 1 / 2 ^ 53) ^ 3) / (2 - (1 + 1 / 2 ^ 53) ^ 3) < 8 / 2 ^ 53 := by norm_num

/-- `double`: `(1+2i)/(3+4i)`. -/
example : ∃ z : CK ℚ, (finC ⟨1, 2⟩ / finC ⟨3, 4⟩ : CK (RFl rnd64)) = finC z ∧ |z.re - 11 / 25| ≤ 8 / 2 ^ 53 * (11 / 25) ∧
    |z.im - 2 / 25| ≤ 8 / 2 ^ 53 * (10 / 25) := by
  obtain ⟨z, hz, h1, h2⟩ := C139_div u64_pos (by norm_num) rnd64_err ⟨1, 2⟩ ⟨3, 4⟩ (Or.inl (by norm_num))
  refine ⟨z, hz, ?_, ?_⟩
  · norm_num at h1 ⊢
    exact h1.trans (by norm_num)
  · norm_num at h2 ⊢
    exact h2.trans (by norm_num)

example : (finC ⟨11, 2⟩ / finC ⟨3, 4⟩ : CK (RFl id)) = finC ⟨41 / 25, -38 / 25⟩ := by decide +kernel

end SciCpp
