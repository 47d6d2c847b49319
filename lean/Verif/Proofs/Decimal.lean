import Verif.Model.FloatText
import Verif.Spec.Decimal
import Verif.Proofs.Io
import Verif.Proofs.Ieee
/-
  Decimal rounding, and reading back the text of a number.
-/
namespace SciCpp
open Spec

theorem nearestEven_best (x : ℚ) (n : ℤ) : |x - nearestEven x| ≤ |x - n| := by
  by_cases h : n = nearestEven x
  · rw [h]
  · have h1 := nearestEven_err x
    rw [abs_sub_comm] at h1
    have h2 : (1 : ℚ) ≤ |(nearestEven x : ℚ) - n| := by
      have : (1 : ℤ) ≤ |nearestEven x - n| := Int.one_le_abs (by omega)
      exact_mod_cast this
    have h3 : |(nearestEven x : ℚ) - n| ≤ |x - nearestEven x| + |x - n| := by
      have := abs_sub_le (nearestEven x : ℚ) x n
      rwa [abs_sub_comm (nearestEven x : ℚ) x] at this
    linarith

/-- The number a pair `(k, X)` stands for. -/
def decVal (P : ℕ) (r : ℕ × ℤ) : ℚ := (r.1 : ℚ) * (10 : ℚ) ^ (r.2 - (P : ℤ) + 1)

theorem ten_zpow_pos (e : ℤ) : (0 : ℚ) < (10 : ℚ) ^ e := zpow_pos (by norm_num) e

theorem decRound_aux (P : ℕ) (hP : 1 ≤ P) (q : ℚ) (hq : 0 < q) :
    let e := Int.log 10 q
    let x := q * (10 : ℚ) ^ ((P : ℤ) - 1 - e)
    (10 : ℚ) ^ (P - 1) ≤ x ∧ x < (10 : ℚ) ^ P ∧ q = x * (10 : ℚ) ^ (e - P + 1) := by
  intro e x
  have h1 : ((10 : ℕ) : ℚ) ^ e ≤ q := Int.zpow_log_le_self (by norm_num) hq
  have h2 : q < ((10 : ℕ) : ℚ) ^ (e + 1) := Int.lt_zpow_succ_log_self (by norm_num) q
  push_cast at h1 h2
  have hp := ten_zpow_pos ((P : ℤ) - 1 - e)
  refine ⟨?_, ?_, ?_⟩
  · have : (10 : ℚ) ^ (P - 1) = (10 : ℚ) ^ e * (10 : ℚ) ^ ((P : ℤ) - 1 - e) := by
      rw [← zpow_add₀ (by norm_num), ← zpow_natCast]
      congr 1; omega
    rw [this]; exact mul_le_mul_of_nonneg_right h1 hp.le
  · have : (10 : ℚ) ^ P = (10 : ℚ) ^ (e + 1) * (10 : ℚ) ^ ((P : ℤ) - 1 - e) := by
      rw [← zpow_add₀ (by norm_num), ← zpow_natCast]
      congr 1; omega
    rw [this]; exact mul_lt_mul_of_pos_right h2 hp
  · simp only [x]
    rw [mul_assoc, ← zpow_add₀ (by norm_num), show (P : ℤ) - 1 - e + (e - P + 1) = 0 by ring,
      zpow_zero, mul_one]

theorem decRound_spec (P : ℕ) (hP : 1 ≤ P) (q : ℚ) (hq : 0 < q) :
    10 ^ (P - 1) ≤ (decRound P q).1 ∧ (decRound P q).1 < 10 ^ P ∧
    decVal P (decRound P q) =
      (nearestEven (q * (10 : ℚ) ^ ((P : ℤ) - 1 - Int.log 10 q)) : ℚ) *
        (10 : ℚ) ^ (Int.log 10 q - P + 1) := by
  obtain ⟨h1, h2, h3⟩ := decRound_aux P hP q hq
  set e := Int.log 10 q with he
  set x := q * (10 : ℚ) ^ ((P : ℤ) - 1 - e) with hx
  have n1 : (10 : ℤ) ^ (P - 1) ≤ nearestEven x := by
    have := nearestEven_mono h1
    rwa [show ((10 : ℚ) ^ (P - 1)) = (((10 : ℤ) ^ (P - 1) : ℤ) : ℚ) by push_cast; rfl,
      nearestEven_int] at this
  have n2 : nearestEven x ≤ (10 : ℤ) ^ P := by
    have := nearestEven_mono h2.le
    rwa [show ((10 : ℚ) ^ P) = (((10 : ℤ) ^ P : ℤ) : ℚ) by push_cast; rfl, nearestEven_int] at this
  have hpos : (0 : ℤ) < 10 ^ (P - 1) := by positivity
  obtain ⟨k, hk⟩ := Int.eq_ofNat_of_zero_le (show 0 ≤ nearestEven x by omega)
  have hkn : (nearestEven x).toNat = k := by rw [hk]; rfl
  have k1 : 10 ^ (P - 1) ≤ k := by rw [hk] at n1; exact_mod_cast n1
  have k2 : k ≤ 10 ^ P := by rw [hk] at n2; exact_mod_cast n2
  have hpp : 10 ^ P = 10 * 10 ^ (P - 1) := by
    rw [← pow_succ']; congr 1; omega
  unfold decRound decVal
  simp only
  rw [← he, ← hx, hkn, hk]
  by_cases h : k = 10 ^ P
  · rw [if_pos h]
    refine ⟨le_rfl, ?_, ?_⟩
    · show 10 ^ (P - 1) < 10 ^ P
      have : 0 < 10 ^ (P - 1) := by positivity
      omega
    · show ((10 ^ (P - 1) : ℕ) : ℚ) * (10 : ℚ) ^ (e + 1 - (P : ℤ) + 1) = _
      rw [h, hpp]
      push_cast
      rw [show e + 1 - (P : ℤ) + 1 = (e - P + 1) + 1 by ring, zpow_add_one₀ (by norm_num)]
      ring
  · rw [if_neg h]
    refine ⟨k1, by show k < 10 ^ P; omega, ?_⟩
    push_cast; rfl

/-- `decRound` is a nearest decimal. -/
theorem decRound_nearest (P : ℕ) (hP : 1 ≤ P) (q : ℚ) (hq : 0 < q) :
    IsNearestDecimal P q (decVal P (decRound P q)) := by
  obtain ⟨h1, h2, h3⟩ := decRound_aux P hP q hq
  obtain ⟨s1, s2, s3⟩ := decRound_spec P hP q hq
  set e := Int.log 10 q with he
  set x := q * (10 : ℚ) ^ ((P : ℤ) - 1 - e) with hx
  have ht := ten_zpow_pos (e - P + 1)
  -- the distance to an integer multiple of the unit
  have hbest : ∀ n : ℤ, |q - decVal P (decRound P q)| ≤ |q - n * (10 : ℚ) ^ (e - P + 1)| := by
    intro n
    have a : q - decVal P (decRound P q) = (x - nearestEven x) * (10 : ℚ) ^ (e - P + 1) := by
      rw [s3, sub_mul, ← h3]
    have b : q - n * (10 : ℚ) ^ (e - P + 1) = (x - n) * (10 : ℚ) ^ (e - P + 1) := by
      rw [sub_mul, ← h3]
    rw [a, b, abs_mul, abs_mul]
    exact mul_le_mul_of_nonneg_right (nearestEven_best x n) (abs_nonneg _)
  refine ⟨⟨(decRound P q).1, (decRound P q).2 - P + 1, ?_, by unfold decVal; push_cast; rfl⟩, ?_⟩
  · rw [abs_of_nonneg (by positivity)]; exact_mod_cast s2
  · rintro d' ⟨k', e', hk', rfl⟩
    by_cases hee : e - P + 1 ≤ e'
    · obtain ⟨j, hj⟩ := Int.eq_ofNat_of_zero_le (show 0 ≤ e' - (e - P + 1) by omega)
      have := hbest (k' * 10 ^ j)
      have he' : ((k' * 10 ^ j : ℤ) : ℚ) * (10 : ℚ) ^ (e - P + 1) = (k' : ℚ) * (10 : ℚ) ^ e' := by
        push_cast
        rw [mul_assoc, ← zpow_natCast, ← zpow_add₀ (by norm_num)]
        congr 2; omega
      rwa [he'] at this
    · have hlow := hbest (10 ^ (P - 1))
      have h10 : (((10 : ℤ) ^ (P - 1) : ℤ) : ℚ) * (10 : ℚ) ^ (e - P + 1) = (10 : ℚ) ^ e := by
        push_cast
        rw [← zpow_natCast, ← zpow_add₀ (by norm_num)]
        congr 1; omega
      rw [h10] at hlow
      have hle : (10 : ℚ) ^ e ≤ q := by
        have := Int.zpow_log_le_self (R := ℚ) (b := 10) (by norm_num) hq
        push_cast at this; exact this
      have hd : (k' : ℚ) * (10 : ℚ) ^ e' ≤ (10 : ℚ) ^ e := by
        have h5 : (10 : ℚ) ^ e = (10 : ℚ) ^ P * (10 : ℚ) ^ (e - P) := by
          rw [← zpow_natCast, ← zpow_add₀ (by norm_num)]; congr 1; ring
        rw [h5]
        have hk2 : (k' : ℚ) ≤ (10 : ℚ) ^ P := by
          have := (le_abs_self k').trans hk'.le
          exact_mod_cast this
        have hz : (10 : ℚ) ^ e' ≤ (10 : ℚ) ^ (e - P) :=
          zpow_le_zpow_right₀ (by norm_num) (by omega)
        calc (k' : ℚ) * (10 : ℚ) ^ e' ≤ (10 : ℚ) ^ P * (10 : ℚ) ^ e' :=
              mul_le_mul_of_nonneg_right hk2 (ten_zpow_pos e').le
          _ ≤ _ := mul_le_mul_of_nonneg_left hz (by positivity)
      rw [abs_of_nonneg (by linarith : 0 ≤ q - (10 : ℚ) ^ e)] at hlow
      rw [abs_of_nonneg (by linarith : 0 ≤ q - (k' : ℚ) * (10 : ℚ) ^ e')]
      linarith

/-- Its relative error. -/
theorem decRound_err (P : ℕ) (hP : 1 ≤ P) (q : ℚ) (hq : 0 < q) :
    |decVal P (decRound P q) - q| ≤ 1 / (2 * 10 ^ (P - 1)) * q := by
  obtain ⟨h1, h2, h3⟩ := decRound_aux P hP q hq
  obtain ⟨s1, s2, s3⟩ := decRound_spec P hP q hq
  set e := Int.log 10 q with he
  set x := q * (10 : ℚ) ^ ((P : ℤ) - 1 - e) with hx
  have ht := ten_zpow_pos (e - P + 1)
  have a : decVal P (decRound P q) - q = ((nearestEven x : ℚ) - x) * (10 : ℚ) ^ (e - P + 1) := by
    rw [s3, sub_mul, ← h3]
  rw [a, abs_mul, abs_of_pos ht]
  have hn := nearestEven_err x
  have hpp : (0 : ℚ) < 10 ^ (P - 1) := by positivity
  calc |(nearestEven x : ℚ) - x| * (10 : ℚ) ^ (e - P + 1) ≤ 1 / 2 * (10 : ℚ) ^ (e - P + 1) :=
        mul_le_mul_of_nonneg_right hn ht.le
    _ ≤ 1 / (2 * 10 ^ (P - 1)) * (x * (10 : ℚ) ^ (e - P + 1)) := by
        rw [← mul_assoc]
        refine mul_le_mul_of_nonneg_right ?_ ht.le
        rw [div_mul_eq_mul_div, one_mul, le_div_iff₀ (by positivity)]
        linarith
    _ = _ := by rw [← h3]

/-- A non-zero decimal in normal form. -/
theorem decimal_normal {P : ℕ} {d : ℚ} (hP : 1 ≤ P) (h : IsDecimal P d) (h0 : d ≠ 0) :
    ∃ k e : ℤ, 10 ^ (P - 1) ≤ |k| ∧ |k| < 10 ^ P ∧ d = k * (10 : ℚ) ^ e := by
  obtain ⟨k, e, hk, rfl⟩ := h
  have hk0 : k ≠ 0 := by rintro rfl; simp at h0
  -- multiply the significand by ten as long as it is too small
  have key : ∀ (n : ℕ) (k e : ℤ), k ≠ 0 → |k| < 10 ^ P → 10 ^ (P - 1) ≤ |k| * 10 ^ n →
      ∃ k' e' : ℤ, 10 ^ (P - 1) ≤ |k'| ∧ |k'| < 10 ^ P ∧ (k : ℚ) * (10 : ℚ) ^ e = k' * (10 : ℚ) ^ e' := by
    intro n
    induction n with
    | zero => intro k e _ h1 h2; exact ⟨k, e, by simpa using h2, h1, rfl⟩
    | succ n ih =>
      intro k e h0 h1 h2
      by_cases hb : (10 : ℤ) ^ (P - 1) ≤ |k|
      · exact ⟨k, e, hb, h1, rfl⟩
      · obtain ⟨k', e', a, b, c⟩ := ih (k * 10) (e - 1) (by omega) (by
          rw [abs_mul, show |(10 : ℤ)| = 10 from rfl]
          have : (10 : ℤ) ^ P = 10 ^ (P - 1) * 10 := by rw [← pow_succ]; congr 1; omega
          rw [this]; omega) (by
          rw [abs_mul, show |(10 : ℤ)| = 10 from rfl, mul_assoc, ← pow_succ']; exact h2)
        refine ⟨k', e', a, b, ?_⟩
        rw [← c]
        push_cast
        rw [zpow_sub_one₀ (by norm_num)]
        ring
  refine key (P - 1) k e hk0 hk ?_
  have := Int.one_le_abs hk0
  nlinarith [show (0 : ℤ) < 10 ^ (P - 1) by positivity]

/-- Different decimals of the same precision are well separated. -/
theorem decimal_sep {P : ℕ} {a b : ℚ} (hP : 1 ≤ P) (ha : IsDecimal P a) (hb : IsDecimal P b)
    (h : |a - b| < |b| / 10 ^ P) : a = b := by
  by_cases hb0 : b = 0
  · subst hb0; simp only [abs_zero, zero_div] at h; exact absurd h (not_lt.mpr (abs_nonneg _))
  obtain ⟨k, e, k1, k2, rfl⟩ := decimal_normal hP hb hb0
  have hpow : (1 : ℚ) ≤ 10 ^ P := one_le_pow₀ (by norm_num)
  have ha0 : a ≠ 0 := by
    rintro rfl
    rw [zero_sub, abs_neg] at h
    have : |(k : ℚ) * (10 : ℚ) ^ e| / 10 ^ P ≤ |(k : ℚ) * (10 : ℚ) ^ e| :=
      div_le_self (abs_nonneg _) hpow
    linarith
  obtain ⟨l, g, l1, l2, rfl⟩ := decimal_normal hP ha ha0
  have k1' : (10 : ℚ) ^ (P - 1) ≤ |(k : ℚ)| := by exact_mod_cast k1
  have k2' : |(k : ℚ)| < (10 : ℚ) ^ P := by exact_mod_cast k2
  have l1' : (10 : ℚ) ^ (P - 1) ≤ |(l : ℚ)| := by exact_mod_cast l1
  have l2' : |(l : ℚ)| ≤ (10 : ℚ) ^ P - 1 := by
    have : |l| ≤ 10 ^ P - 1 := by omega
    exact_mod_cast this
  have k3' : |(k : ℚ)| ≤ (10 : ℚ) ^ P - 1 := by
    have : |k| ≤ 10 ^ P - 1 := by omega
    exact_mod_cast this
  have hPP : (10 : ℚ) ^ P = 10 * 10 ^ (P - 1) := by rw [← pow_succ']; congr 1; omega
  have he := ten_zpow_pos e
  have hg := ten_zpow_pos g
  have hpp : (0 : ℚ) < 10 ^ P := by positivity
  rw [abs_mul _ ((10 : ℚ) ^ e), abs_of_pos he, lt_div_iff₀ hpp] at h
  -- compare the exponents
  rcases lt_trichotomy g e with hge | hge | hge
  · -- `a` is below the decade of `b`
    exfalso
    have h10 : (10 : ℚ) ^ g ≤ (10 : ℚ) ^ e / 10 := by
      rw [show (10 : ℚ) ^ e / 10 = (10 : ℚ) ^ (e - 1) by rw [zpow_sub_one₀ (by norm_num)]; rfl]
      exact zpow_le_zpow_right₀ (by norm_num) (by omega)
    have h1 : |(k : ℚ)| * (10 : ℚ) ^ e - |(l : ℚ)| * (10 : ℚ) ^ g ≤ |(l : ℚ) * (10 : ℚ) ^ g - k * (10 : ℚ) ^ e| := by
      have := abs_sub_abs_le_abs_sub ((k : ℚ) * (10 : ℚ) ^ e) ((l : ℚ) * (10 : ℚ) ^ g)
      rw [abs_sub_comm] at this
      rwa [abs_mul, abs_mul, abs_of_pos he, abs_of_pos hg] at this
    have h2 : |(l : ℚ)| * (10 : ℚ) ^ g ≤ ((10 : ℚ) ^ P - 1) * ((10 : ℚ) ^ e / 10) :=
      mul_le_mul l2' h10 hg.le (by linarith)
    have h3 : (|(k : ℚ)| - ((10 : ℚ) ^ P - 1) / 10) * (10 : ℚ) ^ P < |(k : ℚ)| := by
      by_contra hc
      push Not at hc
      have h4 := mul_le_mul_of_nonneg_right hc he.le
      have h5 : (|(k : ℚ)| - ((10 : ℚ) ^ P - 1) / 10) * (10 : ℚ) ^ e
          ≤ |(l : ℚ) * (10 : ℚ) ^ g - k * (10 : ℚ) ^ e| := by
        calc _ = |(k : ℚ)| * (10 : ℚ) ^ e - ((10 : ℚ) ^ P - 1) * ((10 : ℚ) ^ e / 10) := by ring
          _ ≤ _ := by linarith
      have h6 := mul_le_mul_of_nonneg_right h5 hpp.le
      nlinarith
    have h7 : (|(k : ℚ)| - (10 : ℚ) ^ (P - 1)) * ((10 : ℚ) ^ P - 1) ≥ 0 :=
      mul_nonneg (by linarith) (by linarith)
    nlinarith
  · subst hge
    rw [← sub_mul, abs_mul, abs_of_pos hg] at h
    have : |(l : ℚ) - k| < 1 := by
      by_contra hc
      push Not at hc
      have : (10 : ℚ) ^ g * 10 ^ P ≤ |(l : ℚ) - k| * (10 : ℚ) ^ g * 10 ^ P :=
        mul_le_mul_of_nonneg_right (le_mul_of_one_le_left hg.le hc) hpp.le
      nlinarith
    have : |l - k| < 1 := by exact_mod_cast this
    rw [Int.abs_lt_one_iff] at this
    rw [show l = k by omega]
  · exfalso
    have h10 : (10 : ℚ) ^ e ≤ (10 : ℚ) ^ g / 10 := by
      rw [show (10 : ℚ) ^ g / 10 = (10 : ℚ) ^ (g - 1) by rw [zpow_sub_one₀ (by norm_num)]; rfl]
      exact zpow_le_zpow_right₀ (by norm_num) (by omega)
    have h1 : |(l : ℚ)| * (10 : ℚ) ^ g - |(k : ℚ)| * (10 : ℚ) ^ e ≤ |(l : ℚ) * (10 : ℚ) ^ g - k * (10 : ℚ) ^ e| := by
      have := abs_sub_abs_le_abs_sub ((l : ℚ) * (10 : ℚ) ^ g) ((k : ℚ) * (10 : ℚ) ^ e)
      rwa [abs_mul, abs_mul, abs_of_pos he, abs_of_pos hg] at this
    have h2 : (10 : ℚ) ^ P * (10 : ℚ) ^ e ≤ |(l : ℚ)| * (10 : ℚ) ^ g := by
      calc (10 : ℚ) ^ P * (10 : ℚ) ^ e ≤ (10 : ℚ) ^ P * ((10 : ℚ) ^ g / 10) :=
            mul_le_mul_of_nonneg_left h10 hpp.le
        _ = (10 : ℚ) ^ (P - 1) * (10 : ℚ) ^ g := by rw [hPP]; ring
        _ ≤ _ := mul_le_mul_of_nonneg_right l1' hg.le
    have h3 : (10 : ℚ) ^ e ≤ |(l : ℚ) * (10 : ℚ) ^ g - k * (10 : ℚ) ^ e| := by nlinarith
    nlinarith

theorem decimal_neg {P : ℕ} {d : ℚ} (h : IsDecimal P d) : IsDecimal P (-d) := by
  obtain ⟨k, e, hk, rfl⟩ := h
  exact ⟨-k, e, by rwa [abs_neg], by push_cast; ring⟩

theorem nearest_neg {P : ℕ} {q d : ℚ} (h : IsNearestDecimal P q d) :
    IsNearestDecimal P (-q) (-d) := by
  refine ⟨decimal_neg h.1, fun d' hd' => ?_⟩
  have := h.2 (-d') (decimal_neg hd')
  rw [show -q - -d = -(q - d) by ring, show -q - d' = -(q - -d') by ring, abs_neg, abs_neg]
  exact this

/-- The digits and the exponent are determined by the value. -/
theorem decVal_inj {P : ℕ} {r s : ℕ × ℤ} (hP : 1 ≤ P) (r1 : 10 ^ (P - 1) ≤ r.1) (r2 : r.1 < 10 ^ P)
    (s1 : 10 ^ (P - 1) ≤ s.1) (s2 : s.1 < 10 ^ P) (h : decVal P r = decVal P s) : r = s := by
  obtain ⟨k, X⟩ := r
  obtain ⟨l, Y⟩ := s
  simp only [decVal] at *
  have hPP : 10 ^ P = 10 * 10 ^ (P - 1) := by rw [← pow_succ']; congr 1; omega
  have aux : ∀ (k l : ℕ) (X Y : ℤ), 10 ^ (P - 1) ≤ k → l < 10 ^ P → 0 < l → Y < X →
      (k : ℚ) * (10 : ℚ) ^ (X - (P : ℤ) + 1) ≠ (l : ℚ) * (10 : ℚ) ^ (Y - (P : ℤ) + 1) := by
    intro k l X Y hk hl _ hXY e
    obtain ⟨j, hj⟩ := Int.eq_ofNat_of_zero_le (show 0 ≤ X - 1 - Y by omega)
    have hX : (10 : ℚ) ^ (X - (P : ℤ) + 1) = 10 ^ (j + 1) * (10 : ℚ) ^ (Y - (P : ℤ) + 1) := by
      rw [← zpow_natCast, ← zpow_add₀ (by norm_num)]
      congr 1; push_cast; omega
    rw [hX, ← mul_assoc] at e
    have e' := mul_right_cancel₀ (ten_zpow_pos _).ne' e
    have e'' : k * 10 ^ (j + 1) = l := by exact_mod_cast e'
    have : 10 ^ 1 ≤ 10 ^ (j + 1) := Nat.pow_le_pow_right (by norm_num) (by omega)
    have := Nat.mul_le_mul hk this
    omega
  have hp : 0 < 10 ^ (P - 1) := by positivity
  rcases lt_trichotomy X Y with hXY | hXY | hXY
  · exact absurd h.symm (aux l k Y X s1 r2 (by omega) hXY)
  · subst hXY
    have := mul_right_cancel₀ (ten_zpow_pos _).ne' h
    have : k = l := by exact_mod_cast this
    rw [this]
  · exact absurd h (aux k l X Y r1 s2 (by omega) hXY)

end SciCpp
