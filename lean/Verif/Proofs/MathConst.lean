import Mathlib.NumberTheory.Harmonic.EulerMascheroni
import Mathlib.Analysis.SpecialFunctions.Log.Deriv
import Mathlib.Analysis.PSeries
import Mathlib.Tactic.NormNum
import Mathlib.Tactic.Positivity
/-
  Numerical enclosures of Euler's constant and of ζ(3), needed by C85.
-/
namespace SciCpp
open Filter Topology

/-! ### log(1 + 1/a) -/

theorem log_inv_lower {a : ℝ} (h : 0 < a) :
    2 * (1 / (2 * a + 1)) + 2 / 3 * (1 / (2 * a + 1)) ^ 3 + 2 / 5 * (1 / (2 * a + 1)) ^ 5 +
      2 / 7 * (1 / (2 * a + 1)) ^ 7 ≤ Real.log (1 + a⁻¹) := by
  have hs := Real.hasSum_log_one_add_inv h
  have := sum_le_hasSum (Finset.range 4) (fun k _ => by positivity) hs
  refine le_trans (le_of_eq ?_) this
  simp only [Finset.sum_range_succ, Finset.sum_range_zero]
  push_cast
  ring

theorem log_inv_upper {a : ℝ} (h : 0 < a) :
    Real.log (1 + a⁻¹) ≤ 2 * (1 / (2 * a + 1)) + 2 / 3 * (1 / (2 * a + 1)) ^ 3 +
      2 / 5 * (1 / (2 * a + 1)) ^ 5 + 2 / 7 * (1 / (2 * a + 1)) ^ 7 * (1 - (1 / (2 * a + 1)) ^ 2)⁻¹ := by
  have hs := Real.hasSum_log_one_add_inv h
  have ht := (hasSum_nat_add_iff' 3).mpr hs
  set s := 1 / (2 * a + 1) with hsd
  have hs0 : 0 < s := by positivity
  have hs1 : s < 1 := by rw [hsd, div_lt_one (by positivity)]; linarith
  have hg := (hasSum_geometric_of_lt_one (r := s ^ 2) (by positivity) (by nlinarith)).mul_left (2 / 7 * s ^ 7)
  have := hasSum_le (fun k => ?_) ht hg
  · simp only [Finset.sum_range_succ, Finset.sum_range_zero] at this
    push_cast at this
    norm_num at this ⊢
    linarith
  · push_cast
    have e : s ^ (2 * (k + 3) + 1) = s ^ 7 * (s ^ 2) ^ k := by rw [← pow_mul, ← pow_add]; congr 1; ring
    rw [e]
    have hk : (1 : ℝ) / (2 * ((k : ℝ) + 3) + 1) ≤ 1 / 7 :=
      one_div_le_one_div_of_le (by norm_num) (by have : (0 : ℝ) ≤ k := Nat.cast_nonneg k; linarith)
    have hp : 0 ≤ s ^ 7 * (s ^ 2) ^ k := by positivity
    nlinarith

/-! ### Euler's constant -/

/-- The correction terms of the Euler-Maclaurin formula for the harmonic numbers. -/
noncomputable def gLow (x : ℝ) : ℝ := -1 / (2 * x) + 1 / (12 * x ^ 2) - 1 / (120 * x ^ 4)
noncomputable def gUp (x : ℝ) : ℝ := -1 / (2 * x) + 1 / (12 * x ^ 2) - 1 / (120 * x ^ 4) + 1 / (252 * x ^ 6)

theorem gUp_step {x : ℝ} (h : 1 ≤ x) :
    1 / (x + 1) + gUp (x + 1) - gUp x ≤ Real.log (1 + x⁻¹) := by
  refine le_trans ?_ (log_inv_lower (by linarith))
  obtain ⟨y, hy, rfl⟩ : ∃ y : ℝ, 0 ≤ y ∧ x = y + 1 := ⟨x - 1, by linarith, by ring⟩
  rw [← sub_nonneg]
  unfold gUp
  have : ∀ P Q : ℝ, 0 ≤ P → 0 < Q → 0 ≤ P / Q := fun P Q h1 h2 => div_nonneg h1 h2.le
  have h1 : y + 1 ≠ 0 := by positivity
  have h2 : y + 1 + 1 ≠ 0 := by positivity
  have h3 : 2 * (y + 1) + 1 ≠ 0 := by positivity
  field_simp
  ring_nf
  positivity

theorem gLow_step {x : ℝ} (h : 1 ≤ x) :
    Real.log (1 + x⁻¹) ≤ 1 / (x + 1) + gLow (x + 1) - gLow x := by
  refine le_trans (log_inv_upper (by linarith)) ?_
  obtain ⟨y, hy, rfl⟩ : ∃ y : ℝ, 0 ≤ y ∧ x = y + 1 := ⟨x - 1, by linarith, by ring⟩
  rw [← sub_nonneg]
  unfold gLow
  have h1 : y + 1 ≠ 0 := by positivity
  have h2 : y + 1 + 1 ≠ 0 := by positivity
  have h3 : 2 * (y + 1) + 1 ≠ 0 := by positivity
  have e : (1 - (1 / (2 * (y + 1) + 1)) ^ 2)⁻¹ = (2 * (y + 1) + 1) ^ 2 / (4 * (y + 1) * (y + 1 + 1)) := by
    rw [inv_eq_one_div, div_eq_div_iff]
    · field_simp; ring
    · have : 1 - (1 / (2 * (y + 1) + 1)) ^ 2 = 4 * (y + 1) * (y + 1 + 1) / (2 * (y + 1) + 1) ^ 2 := by
        field_simp; ring
      rw [this]; positivity
    · positivity
  rw [e]
  field_simp
  ring_nf
  positivity

/-- The sequences that enclose Euler's constant. -/
noncomputable def seqUp (n : ℕ) : ℝ := Real.eulerMascheroniSeq' (n + 1) + gUp (n + 1)
noncomputable def seqLow (n : ℕ) : ℝ := Real.eulerMascheroniSeq' (n + 1) + gLow (n + 1)

theorem euler_step (n : ℕ) : Real.eulerMascheroniSeq' (n + 1) - Real.eulerMascheroniSeq' (n + 1 + 1) =
    Real.log (1 + ((n : ℝ) + 1)⁻¹) - 1 / ((n : ℝ) + 1 + 1) := by
  unfold Real.eulerMascheroniSeq'
  rw [if_neg (by omega), if_neg (by omega), harmonic_succ (n + 1)]
  have h1 : (1 + ((n : ℝ) + 1)⁻¹) = ((n : ℝ) + 1 + 1) / ((n : ℝ) + 1) := by field_simp
  rw [h1, Real.log_div (by positivity) (by positivity)]
  push_cast
  ring

theorem antitone_seqUp : Antitone seqUp := by
  refine antitone_nat_of_succ_le fun n => ?_
  have h := gUp_step (x := (n : ℝ) + 1) (by have : (0 : ℝ) ≤ n := Nat.cast_nonneg n; linarith)
  have e := euler_step n
  unfold seqUp
  push_cast
  linarith

theorem monotone_seqLow : Monotone seqLow := by
  refine monotone_nat_of_le_succ fun n => ?_
  have h := gLow_step (x := (n : ℝ) + 1) (by have : (0 : ℝ) ≤ n := Nat.cast_nonneg n; linarith)
  have e := euler_step n
  unfold seqLow
  push_cast
  linarith

theorem tendsto_inv_pow (c : ℝ) (k : ℕ) (hk : k ≠ 0) :
    Tendsto (fun n : ℕ => 1 / (c * ((n : ℝ) + 1) ^ k)) atTop (𝓝 0) := by
  have h1 : Tendsto (fun n : ℕ => 1 / ((n : ℝ) + 1)) atTop (𝓝 0) := tendsto_one_div_add_atTop_nhds_zero_nat
  have h2 := (h1.pow k).const_mul (1 / c)
  rw [zero_pow hk, mul_zero] at h2
  refine h2.congr fun n => ?_
  rw [div_pow, one_pow, div_mul_div_comm, one_mul]

theorem tendsto_seqUp : Tendsto seqUp atTop (𝓝 Real.eulerMascheroniConstant) := by
  have h := (tendsto_add_atTop_iff_nat 1).mpr Real.tendsto_eulerMascheroniSeq'
  have := ((((h.sub (tendsto_inv_pow 2 1 (by norm_num))).add (tendsto_inv_pow 12 2 (by norm_num))).sub
    (tendsto_inv_pow 120 4 (by norm_num))).add (tendsto_inv_pow 252 6 (by norm_num)))
  simp only [sub_zero, add_zero] at this
  refine this.congr fun n => ?_
  unfold seqUp gUp
  rw [pow_one]; ring

theorem tendsto_seqLow : Tendsto seqLow atTop (𝓝 Real.eulerMascheroniConstant) := by
  have h := (tendsto_add_atTop_iff_nat 1).mpr Real.tendsto_eulerMascheroniSeq'
  have := (((h.sub (tendsto_inv_pow 2 1 (by norm_num))).add (tendsto_inv_pow 12 2 (by norm_num))).sub
    (tendsto_inv_pow 120 4 (by norm_num)))
  simp only [sub_zero, add_zero] at this
  refine this.congr fun n => ?_
  unfold seqLow gLow
  rw [pow_one]; ring

theorem euler_enclosure (n : ℕ) : seqLow n ≤ Real.eulerMascheroniConstant ∧
    Real.eulerMascheroniConstant ≤ seqUp n :=
  ⟨monotone_seqLow.ge_of_tendsto tendsto_seqLow n, antitone_seqUp.le_of_tendsto tendsto_seqUp n⟩

/-! ### log 2 -/

/-- A rational approximation of `log 2`. -/
def log2Q : ℚ := ∑ i ∈ Finset.range 80, (1 / 2) ^ (i + 1) / (i + 1)

theorem log_two_near : |Real.log 2 - (log2Q : ℝ)| ≤ 1 / 2 ^ 80 := by
  have h := Real.abs_log_sub_add_sum_range_le (x := 1 / 2) (by rw [abs_of_pos (by norm_num)]; norm_num) 80
  rw [show (1 : ℝ) - 1 / 2 = 2⁻¹ by norm_num, Real.log_inv, abs_of_pos (show (0 : ℝ) < 1 / 2 by norm_num)] at h
  have e : (log2Q : ℝ) = ∑ i ∈ Finset.range 80, (1 / 2 : ℝ) ^ (i + 1) / (i + 1) := by
    unfold log2Q
    push_cast
    rfl
  rw [e, abs_sub_comm, sub_eq_add_neg]
  refine h.trans ?_
  norm_num

/-! ### ζ(3) -/

noncomputable def zLow (x : ℝ) : ℝ := 1 / (2 * x ^ 2) + 1 / (2 * x ^ 3) + 1 / (4 * x ^ 4) - 1 / (12 * x ^ 6)
noncomputable def zUp (x : ℝ) : ℝ := 1 / (2 * x ^ 2) + 1 / (2 * x ^ 3) + 1 / (4 * x ^ 4) - 1 / (12 * x ^ 6) + 1 / (12 * x ^ 8)

theorem zUp_step {x : ℝ} (h : 1 ≤ x) : 1 / x ^ 3 + zUp (x + 1) ≤ zUp x := by
  obtain ⟨y, hy, rfl⟩ : ∃ y : ℝ, 0 ≤ y ∧ x = y + 1 := ⟨x - 1, by linarith, by ring⟩
  rw [← sub_nonneg]
  unfold zUp
  have h1 : y + 1 ≠ 0 := by positivity
  have h2 : y + 1 + 1 ≠ 0 := by positivity
  field_simp
  ring_nf
  positivity

theorem zLow_step {x : ℝ} (h : 1 ≤ x) : zLow x ≤ 1 / x ^ 3 + zLow (x + 1) := by
  obtain ⟨y, hy, rfl⟩ : ∃ y : ℝ, 0 ≤ y ∧ x = y + 1 := ⟨x - 1, by linarith, by ring⟩
  rw [← sub_nonneg]
  unfold zLow
  have h1 : y + 1 ≠ 0 := by positivity
  have h2 : y + 1 + 1 ≠ 0 := by positivity
  field_simp
  ring_nf
  positivity

theorem zeta3_enclosure (n : ℕ) :
    (∑ i ∈ Finset.range n, 1 / ((i : ℝ) + 1) ^ 3) + zLow (n + 1) ≤ ∑' i : ℕ, 1 / ((i : ℝ) + 1) ^ 3 ∧
    ∑' i : ℕ, 1 / ((i : ℝ) + 1) ^ 3 ≤ (∑ i ∈ Finset.range n, 1 / ((i : ℝ) + 1) ^ 3) + zUp (n + 1) := by
  have hsum : Summable fun i : ℕ => 1 / ((i : ℝ) + 1) ^ 3 := by
    have := (summable_nat_add_iff 1).mpr (Real.summable_one_div_nat_pow.mpr (show 1 < 3 by norm_num))
    refine this.congr fun i => ?_
    push_cast; rfl
  have ht := hsum.hasSum.tendsto_sum_nat
  have hl : Tendsto (fun n : ℕ => zLow ((n : ℝ) + 1)) atTop (𝓝 0) := by
    have := (((tendsto_inv_pow 2 2 (by norm_num)).add (tendsto_inv_pow 2 3 (by norm_num))).add
      (tendsto_inv_pow 4 4 (by norm_num))).sub (tendsto_inv_pow 12 6 (by norm_num))
    simp only [add_zero, sub_zero] at this
    exact this
  have hu : Tendsto (fun n : ℕ => zUp ((n : ℝ) + 1)) atTop (𝓝 0) := by
    have := hl.add (tendsto_inv_pow 12 8 (by norm_num))
    simp only [add_zero] at this
    exact this
  have tl := ht.add hl
  have tu := ht.add hu
  rw [add_zero] at tl tu
  constructor
  · refine (monotone_nat_of_le_succ fun n => ?_).ge_of_tendsto tl n
    have h := zLow_step (x := (n : ℝ) + 1) (by have : (0 : ℝ) ≤ n := Nat.cast_nonneg n; linarith)
    rw [Finset.sum_range_succ]
    push_cast
    linarith
  · refine (antitone_nat_of_succ_le fun n => ?_).le_of_tendsto tu n
    have h := zUp_step (x := (n : ℝ) + 1) (by have : (0 : ℝ) ≤ n := Nat.cast_nonneg n; linarith)
    rw [Finset.sum_range_succ]
    push_cast
    linarith

end SciCpp
