import Verif.Model.Ieee
import Verif.Proofs.F64
/-
  Rounding in a bounded format.
-/
namespace SciCpp
namespace Fmt

variable (f : Fmt)

/-- Unit roundoff. -/
def u : ℚ := 1 / 2 ^ (f.frac + 1)
/-- Half the spacing of the subnormal numbers. -/
def eta : ℚ := (2 : ℚ) ^ (f.emin - f.frac - 1)
/-- Multiples of the smallest positive number: every representable number is one. -/
def Grid (q : ℚ) : Prop := ∃ m : ℤ, q = m * (2 : ℚ) ^ (f.emin - f.frac)

theorem u_nonneg : 0 ≤ f.u := by unfold u; positivity
theorem eta_pos : 0 < f.eta := by unfold eta; positivity

theorem grid_zero : f.Grid 0 := ⟨0, by simp⟩

theorem Grid.add {f : Fmt} {a b : ℚ} (ha : f.Grid a) (hb : f.Grid b) : f.Grid (a + b) := by
  obtain ⟨m, rfl⟩ := ha; obtain ⟨n, rfl⟩ := hb
  exact ⟨m + n, by push_cast; ring⟩

theorem Grid.neg {f : Fmt} {a : ℚ} (ha : f.Grid a) : f.Grid (-a) := by
  obtain ⟨m, rfl⟩ := ha
  exact ⟨-m, by push_cast; ring⟩

theorem Grid.sub {f : Fmt} {a b : ℚ} (ha : f.Grid a) (hb : f.Grid b) : f.Grid (a - b) := by
  rw [sub_eq_add_neg]; exact ha.add hb.neg

@[simp] theorem rnd_zero : f.rnd 0 = 0 := by unfold rnd; simp

theorem rnd_neg (q : ℚ) : f.rnd (-q) = -f.rnd q := by
  unfold rnd
  by_cases h : q = 0
  · subst h; simp
  · rw [if_neg (by simpa using h), if_neg h]
    simp only [expo_neg, neg_mul, nearestEven_neg]
    push_cast; ring

/-- A rounded number is representable (at least a multiple of the smallest number). -/
theorem rnd_grid (q : ℚ) : f.Grid (f.rnd q) := by
  unfold rnd
  split_ifs with h
  · exact f.grid_zero
  · simp only
    obtain ⟨j, hj⟩ := Int.eq_ofNat_of_zero_le (show 0 ≤ max (expo q) f.emin - f.emin by omega)
    refine ⟨nearestEven (q * (2 : ℚ) ^ ((f.frac : ℤ) - max (expo q) f.emin)) * 2 ^ j, ?_⟩
    rw [div_eq_mul_inv, ← zpow_neg]
    push_cast
    rw [mul_assoc]
    congr 1
    rw [← zpow_natCast, ← hj, ← zpow_add₀ two_ne_zero]
    congr 1; ring

/-- The rounding error: relative `u` plus half a subnormal spacing. -/
theorem rnd_err (q : ℚ) : |f.rnd q - q| ≤ f.u * |q| + f.eta := by
  unfold rnd
  split_ifs with h
  · subst h; simp [f.eta_pos.le]
  · simp only
    obtain ⟨h1, h2⟩ := expo_spec h
    set e := expo q
    set s : ℚ := (2 : ℚ) ^ ((f.frac : ℤ) - max e f.emin) with hsd
    have hs : 0 < s := by positivity
    have : (nearestEven (q * s) : ℚ) / s - q = ((nearestEven (q * s) : ℚ) - q * s) / s := by
      field_simp
    rw [this, abs_div, abs_of_pos hs, div_le_iff₀ hs]
    refine (nearestEven_err _).trans ?_
    rcases le_total f.emin e with hle | hle
    · have hse : s * 2 ^ e = 2 ^ f.frac := by
        rw [hsd, max_eq_left hle, ← zpow_add₀ two_ne_zero, sub_add_cancel, zpow_natCast]
      have h3 : (1 : ℚ) / 2 ≤ f.u * |q| * s := by
        calc (1 : ℚ) / 2 = f.u * (s * 2 ^ e) := by
              rw [hse, Fmt.u, pow_succ]; field_simp
          _ ≤ f.u * (s * |q|) := by
            apply mul_le_mul_of_nonneg_left _ f.u_nonneg
            apply mul_le_mul_of_nonneg_left h1 hs.le
          _ = _ := by ring
      have := mul_nonneg f.eta_pos.le hs.le
      linarith
    · have h3 : f.eta * s = 1 / 2 := by
        rw [hsd, max_eq_right hle, Fmt.eta, ← zpow_add₀ two_ne_zero,
          show f.emin - f.frac - 1 + ((f.frac : ℤ) - f.emin) = -1 by ring]
        norm_num
      have : 0 ≤ f.u * |q| * s := by have := f.u_nonneg; positivity
      linarith

/-- On multiples of the smallest number (so for sums and differences of representable numbers) the error
is relative only. -/
theorem rnd_err_grid {q : ℚ} (hg : f.Grid q) : |f.rnd q - q| ≤ f.u * |q| := by
  by_cases h : q = 0
  · subst h; simp
  obtain ⟨h1, h2⟩ := expo_spec h
  rcases le_or_gt f.emin (expo q) with hle | hlt
  · unfold rnd
    rw [if_neg h]
    simp only
    set e := expo q
    set s : ℚ := (2 : ℚ) ^ ((f.frac : ℤ) - max e f.emin) with hsd
    have hs : 0 < s := by positivity
    have : (nearestEven (q * s) : ℚ) / s - q = ((nearestEven (q * s) : ℚ) - q * s) / s := by
      field_simp
    rw [this, abs_div, abs_of_pos hs, div_le_iff₀ hs]
    refine (nearestEven_err _).trans ?_
    have hse : s * 2 ^ e = 2 ^ f.frac := by
      rw [hsd, max_eq_left hle, ← zpow_add₀ two_ne_zero, sub_add_cancel, zpow_natCast]
    calc (1 : ℚ) / 2 = f.u * (s * 2 ^ e) := by
          rw [hse, Fmt.u, pow_succ]; field_simp
      _ ≤ f.u * (s * |q|) := by
        apply mul_le_mul_of_nonneg_left _ f.u_nonneg
        apply mul_le_mul_of_nonneg_left h1 hs.le
      _ = _ := by ring
  · have : f.rnd q = q := by
      unfold rnd
      rw [if_neg h]
      simp only
      obtain ⟨m, hm⟩ := hg
      rw [max_eq_right hlt.le]
      have h3 : q * (2 : ℚ) ^ ((f.frac : ℤ) - f.emin) = (m : ℚ) := by
        rw [hm, mul_assoc, ← zpow_add₀ two_ne_zero,
          show f.emin - (f.frac : ℤ) + ((f.frac : ℤ) - f.emin) = 0 by ring, zpow_zero, mul_one]
      rw [h3, nearestEven_int, ← h3]
      have : (2 : ℚ) ^ ((f.frac : ℤ) - f.emin) ≠ 0 := by positivity
      field_simp
    rw [this, sub_self, abs_zero]
    exact mul_nonneg f.u_nonneg (abs_nonneg _)

/-- Integers of at most `frac + 1` bits are exact. -/
theorem rnd_nat (n : ℕ) (h : n < 2 ^ (f.frac + 1)) (he : f.emin ≤ f.frac) : f.rnd n = n := by
  by_cases h0 : n = 0
  · subst h0; simp
  have hq : (n : ℚ) ≠ 0 := by exact_mod_cast h0
  obtain ⟨h1, h2⟩ := expo_spec hq
  unfold rnd
  rw [if_neg hq]
  simp only
  have hlt : expo (n : ℚ) < f.frac + 1 := by
    rw [Nat.abs_cast] at h1
    have h3 : (2 : ℚ) ^ expo (n : ℚ) < 2 ^ ((f.frac : ℤ) + 1) := by
      refine lt_of_le_of_lt h1 ?_
      have : (n : ℚ) < 2 ^ (f.frac + 1) := by exact_mod_cast h
      exact_mod_cast this
    exact (zpow_lt_zpow_iff_right₀ (by norm_num : (1 : ℚ) < 2)).mp h3
  obtain ⟨j, hj⟩ := Int.eq_ofNat_of_zero_le (show 0 ≤ (f.frac : ℤ) - max (expo (n : ℚ)) f.emin by omega)
  rw [hj]
  have hint : (n : ℚ) * (2 : ℚ) ^ ((j : ℕ) : ℤ) = (((n * 2 ^ j : ℕ) : ℤ) : ℚ) := by push_cast; simp
  rw [hint, nearestEven_int, ← hint]
  have : (2 : ℚ) ^ ((j : ℕ) : ℤ) ≠ 0 := by positivity
  field_simp

theorem ofRat_fin {q : ℚ} (h : |f.rnd q| < (2 : ℚ) ^ f.emax) : f.ofRat q = .fin (f.rnd q) := by
  unfold ofRat; rw [if_neg (not_le.mpr h)]

theorem ofRat_eq_fin {q r : ℚ} (h : f.ofRat q = .fin r) : r = f.rnd q ∧ |f.rnd q| < (2 : ℚ) ^ f.emax := by
  unfold ofRat at h
  split_ifs at h with h1
  exact ⟨(Fl.fin.inj h).symm, not_le.mp h1⟩

end Fmt
end SciCpp
