import Verif.Model.F64
import Mathlib.Algebra.Order.Field.Power
import Mathlib.Data.Nat.Log
import Mathlib.Tactic.Linarith
import Mathlib.Tactic.NormNum
import Mathlib.Tactic.Positivity
import Mathlib.Tactic.FieldSimp
import Mathlib.Tactic.Ring
/-
  `rnd64` is a correct rounding: relative error at most 2^-53, monotone, odd, exact on 53-bit values.
-/
namespace SciCpp

theorem nearestEven_err (h : ℚ) : |(nearestEven h : ℚ) - h| ≤ 1 / 2 := by
  have h1 := Int.floor_le h
  have h2 := Int.lt_floor_add_one h
  unfold nearestEven
  simp only
  split_ifs with a b c
  · rw [abs_le]; constructor <;> linarith
  · push_cast; rw [abs_le]; constructor <;> linarith
  · rw [abs_le]; constructor <;> linarith
  · push_cast; rw [abs_le]; constructor <;> linarith

theorem nearestEven_range (h : ℚ) : nearestEven h = ⌊h⌋ ∨ nearestEven h = ⌊h⌋ + 1 := by
  unfold nearestEven
  simp only
  split_ifs <;> simp

theorem nearestEven_int (n : ℤ) : nearestEven (n : ℚ) = n := by
  unfold nearestEven
  simp

theorem nearestEven_mono {a b : ℚ} (h : a ≤ b) : nearestEven a ≤ nearestEven b := by
  have hf : ⌊a⌋ ≤ ⌊b⌋ := Int.floor_le_floor h
  rcases lt_or_eq_of_le hf with hlt | heq
  · have h1 : nearestEven a ≤ ⌊a⌋ + 1 := by rcases nearestEven_range a with h | h <;> omega
    have h2 : ⌊b⌋ ≤ nearestEven b := by rcases nearestEven_range b with h | h <;> omega
    omega
  · unfold nearestEven
    simp only
    rw [heq]
    have : a - (⌊b⌋ : ℚ) ≤ b - ⌊b⌋ := by linarith
    split_ifs <;> first | omega | (exfalso; linarith)

theorem nearestEven_neg (h : ℚ) : nearestEven (-h) = -nearestEven h := by
  by_cases hi : (⌊h⌋ : ℚ) = h
  · rw [← hi, ← Int.cast_neg, nearestEven_int, nearestEven_int]
  · have h1 := Int.floor_le h
    have h2 := Int.lt_floor_add_one h
    have hlt : (⌊h⌋ : ℚ) < h := lt_of_le_of_ne h1 hi
    have hf : ⌊-h⌋ = -⌊h⌋ - 1 := by
      rw [Int.floor_eq_iff]; push_cast; constructor <;> linarith
    unfold nearestEven
    simp only
    rw [hf]
    push_cast
    split_ifs <;> first | omega | (exfalso; linarith)

theorem expo_spec {q : ℚ} (hq : q ≠ 0) : (2 : ℚ) ^ expo q ≤ |q| ∧ |q| < (2 : ℚ) ^ (expo q + 1) := by
  have hn : q.num.natAbs ≠ 0 := by simpa using hq
  have hd : q.den ≠ 0 := q.den_nz
  set n := q.num.natAbs
  set d := q.den with hdd
  have hq' : |q| = (n : ℚ) / d := by
    have h1 : q = (q.num : ℚ) / (d : ℚ) := (Rat.num_div_den q).symm
    rw [h1, abs_div, Nat.abs_cast]
    congr 1
    rw [← Int.cast_abs, Int.abs_eq_natAbs, Int.cast_natCast]
  have a1 : (2 : ℚ) ^ (Nat.log2 n) ≤ n := by exact_mod_cast Nat.log2_self_le hn
  have a2 : (n : ℚ) < 2 ^ (Nat.log2 n + 1) := by exact_mod_cast Nat.lt_log2_self
  have b1 : (2 : ℚ) ^ (Nat.log2 d) ≤ d := by exact_mod_cast Nat.log2_self_le hd
  have b2 : (d : ℚ) < 2 ^ (Nat.log2 d + 1) := by exact_mod_cast Nat.lt_log2_self
  have hdpos : (0 : ℚ) < d := by positivity
  set a := Nat.log2 n
  set b := Nat.log2 d
  have two : (2 : ℚ) ≠ 0 := two_ne_zero
  have up : |q| < (2 : ℚ) ^ ((a : ℤ) - b + 1) := by
    rw [hq', div_lt_iff₀ hdpos]
    have : (2 : ℚ) ^ ((a : ℤ) - b + 1) * 2 ^ b = 2 ^ (a + 1) := by
      rw [← zpow_natCast, ← zpow_natCast, ← zpow_add₀ two]; congr 1; push_cast; ring
    calc (n : ℚ) < 2 ^ (a + 1) := a2
      _ = (2 : ℚ) ^ ((a : ℤ) - b + 1) * 2 ^ b := this.symm
      _ ≤ _ := by apply mul_le_mul_of_nonneg_left b1; positivity
  have lo : (2 : ℚ) ^ ((a : ℤ) - b - 1) ≤ |q| := by
    rw [hq', le_div_iff₀ hdpos]
    have : (2 : ℚ) ^ ((a : ℤ) - b - 1) * 2 ^ (b + 1) = 2 ^ a := by
      rw [← zpow_natCast, ← zpow_natCast, ← zpow_add₀ two]; congr 1; push_cast; ring
    calc (2 : ℚ) ^ ((a : ℤ) - b - 1) * d ≤ (2 : ℚ) ^ ((a : ℤ) - b - 1) * 2 ^ (b + 1) := by
          apply mul_le_mul_of_nonneg_left b2.le; positivity
      _ = 2 ^ a := this
      _ ≤ n := a1
  have he : expo q = if (2 : ℚ) ^ ((a : ℤ) - b) ≤ |q| then (a : ℤ) - b else (a : ℤ) - b - 1 := rfl
  rw [he]
  split_ifs with hc
  · exact ⟨hc, up⟩
  · refine ⟨lo, ?_⟩
    rw [sub_add_cancel]; exact not_le.mp hc

theorem expo_neg (q : ℚ) : expo (-q) = expo q := by
  unfold expo
  simp

/-- `rnd64` has relative error at most `2^-53`. -/
theorem rnd64_err (q : ℚ) : |rnd64 q - q| ≤ 1 / 2 ^ 53 * |q| := by
  unfold rnd64
  split_ifs with h
  · subst h; simp
  · simp only
    obtain ⟨h1, h2⟩ := expo_spec h
    set e := expo q
    set s : ℚ := (2 : ℚ) ^ (52 - e)
    have hs : 0 < s := by positivity
    have : (nearestEven (q * s) : ℚ) / s - q = ((nearestEven (q * s) : ℚ) - q * s) / s := by
      field_simp
    rw [this, abs_div, abs_of_pos hs, div_le_iff₀ hs]
    have hse : s * 2 ^ e = 2 ^ 52 := by
      rw [← zpow_add₀ two_ne_zero, sub_add_cancel]; norm_num
    calc _ ≤ (1 : ℚ) / 2 := nearestEven_err _
      _ = 1 / 2 ^ 53 * (s * 2 ^ e) := by rw [hse]; norm_num
      _ ≤ 1 / 2 ^ 53 * (s * |q|) := by
        apply mul_le_mul_of_nonneg_left _ (by positivity)
        apply mul_le_mul_of_nonneg_left h1 hs.le
      _ = _ := by ring

theorem rnd64_neg (q : ℚ) : rnd64 (-q) = -rnd64 q := by
  unfold rnd64
  by_cases h : q = 0
  · subst h; simp
  · rw [if_neg (by simpa using h), if_neg h]
    simp only [expo_neg, neg_mul, nearestEven_neg]
    push_cast; ring

@[simp] theorem rnd64_zero : rnd64 0 = 0 := by unfold rnd64; simp

theorem rnd64_bounds {q : ℚ} (h : 0 < q) :
    (2 : ℚ) ^ expo q ≤ rnd64 q ∧ rnd64 q ≤ 2 ^ (expo q + 1) := by
  obtain ⟨h1, h2⟩ := expo_spec h.ne'
  rw [abs_of_pos h] at h1 h2
  unfold rnd64
  rw [if_neg h.ne']
  simp only
  set e := expo q
  set s : ℚ := (2 : ℚ) ^ (52 - e) with hsd
  have hs : 0 < s := by positivity
  have e1 : (2 : ℚ) ^ e * s = ((2 ^ 52 : ℤ) : ℚ) := by
    rw [hsd, ← zpow_add₀ two_ne_zero, add_sub_cancel]; norm_num
  have e2 : (2 : ℚ) ^ (e + 1) * s = ((2 ^ 53 : ℤ) : ℚ) := by
    rw [hsd, ← zpow_add₀ two_ne_zero, show e + 1 + (52 - e) = 53 by ring]; norm_num
  constructor
  · rw [le_div_iff₀ hs, e1]
    have := nearestEven_mono (mul_le_mul_of_nonneg_right h1 hs.le)
    rw [e1, nearestEven_int] at this
    exact_mod_cast this
  · rw [div_le_iff₀ hs, e2]
    have := nearestEven_mono (mul_le_mul_of_nonneg_right h2.le hs.le)
    rw [e2, nearestEven_int] at this
    exact_mod_cast this

theorem expo_mono {q r : ℚ} (h0 : 0 < q) (h : q ≤ r) : expo q ≤ expo r := by
  by_contra hc
  have h1 := (expo_spec h0.ne').1
  have h2 := (expo_spec (lt_of_lt_of_le h0 h).ne').2
  rw [abs_of_pos h0] at h1
  rw [abs_of_pos (lt_of_lt_of_le h0 h)] at h2
  have : (2 : ℚ) ^ (expo r + 1) ≤ 2 ^ expo q := zpow_le_zpow_right₀ (by norm_num) (by omega)
  linarith

theorem rnd64_mono_pos {q r : ℚ} (h0 : 0 < q) (h : q ≤ r) : rnd64 q ≤ rnd64 r := by
  have hr0 : 0 < r := lt_of_lt_of_le h0 h
  rcases lt_or_eq_of_le (expo_mono h0 h) with hlt | heq
  · calc rnd64 q ≤ 2 ^ (expo q + 1) := (rnd64_bounds h0).2
      _ ≤ 2 ^ expo r := zpow_le_zpow_right₀ (by norm_num) (by omega)
      _ ≤ rnd64 r := (rnd64_bounds hr0).1
  · unfold rnd64
    rw [if_neg h0.ne', if_neg hr0.ne', heq]
    simp only
    set s : ℚ := (2 : ℚ) ^ (52 - expo r)
    have hs : 0 < s := by positivity
    rw [div_le_div_iff_of_pos_right hs]
    exact_mod_cast nearestEven_mono (mul_le_mul_of_nonneg_right h hs.le)

theorem rnd64_pos {q : ℚ} (h : 0 < q) : 0 < rnd64 q :=
  lt_of_lt_of_le (by positivity) (rnd64_bounds h).1

/-- `rnd64` is monotone. -/
theorem rnd64_mono {q r : ℚ} (h : q ≤ r) : rnd64 q ≤ rnd64 r := by
  rcases lt_trichotomy q 0 with hq | hq | hq
  · rcases lt_trichotomy r 0 with hr | hr | hr
    · have := rnd64_mono_pos (q := -r) (r := -q) (by linarith) (by linarith)
      rw [rnd64_neg, rnd64_neg] at this
      linarith
    · subst hr; have := rnd64_pos (q := -q) (by linarith)
      rw [rnd64_neg] at this; simp; linarith
    · have h1 := rnd64_pos (q := -q) (by linarith)
      rw [rnd64_neg] at h1
      have h2 := rnd64_pos hr
      linarith
  · subst hq
    rcases eq_or_lt_of_le h with h' | h'
    · rw [← h']
    · simp; exact (rnd64_pos h').le
  · exact rnd64_mono_pos hq h

/-- `rnd64` is exact on values with at most 53 significant bits. -/
theorem rnd64_exact (m : ℤ) (k : ℤ) (hm : |m| < 2 ^ 53) : rnd64 (m * 2 ^ k) = m * 2 ^ k := by
  by_cases h0 : m = 0
  · subst h0; simp
  have hq : (m : ℚ) * 2 ^ k ≠ 0 := by
    have : (m : ℚ) ≠ 0 := by exact_mod_cast h0
    positivity
  obtain ⟨h1, _⟩ := expo_spec hq
  unfold rnd64
  rw [if_neg hq]
  simp only
  set e := expo ((m : ℚ) * 2 ^ k)
  have hek : e - k < 53 := by
    have hm' : |(m : ℚ)| < 2 ^ 53 := by exact_mod_cast hm
    rw [abs_mul, abs_of_pos (a := (2 : ℚ) ^ k) (by positivity)] at h1
    have h2 : (2 : ℚ) ^ e < 2 ^ (53 + k) := by
      rw [zpow_add₀ two_ne_zero]
      calc (2 : ℚ) ^ e ≤ |(m : ℚ)| * 2 ^ k := h1
        _ < 2 ^ 53 * 2 ^ k := by apply mul_lt_mul_of_pos_right hm'; positivity
        _ = _ := by norm_num
    have := (zpow_lt_zpow_iff_right₀ (by norm_num : (1 : ℚ) < 2)).mp h2
    omega
  obtain ⟨j, hj⟩ := Int.eq_ofNat_of_zero_le (show 0 ≤ k + (52 - e) by omega)
  have hint : (m : ℚ) * 2 ^ k * 2 ^ (52 - e) = ((m * 2 ^ j : ℤ) : ℚ) := by
    rw [mul_assoc, ← zpow_add₀ two_ne_zero, hj]; push_cast; simp
  rw [hint, nearestEven_int, ← hint]
  have : (2 : ℚ) ^ (52 - e) ≠ 0 := by positivity
  field_simp

theorem rnd64_nat (n : ℕ) (h : n < 2 ^ 53) : rnd64 n = n := by
  have := rnd64_exact n 0 (by rw [Nat.abs_cast]; exact_mod_cast h)
  simpa using this

end SciCpp
