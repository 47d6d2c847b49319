import Verif.Proofs.MathConst
import Verif.Props.Constants
import Mathlib.NumberTheory.LSeries.RiemannZeta
/-
  Property theorems C85: Euler's constant and Apéry's constant.
-/
namespace SciCpp

theorem harmonic_sum (n : ℕ) : harmonic n = ∑ i ∈ Finset.range n, 1 / ((i : ℚ) + 1) := by
  induction n with
  | zero => simp
  | succ n ih => rw [harmonic_succ, Finset.sum_range_succ, ih]; push_cast; rw [one_div]

theorem harmonic_num :
    |(∑ i ∈ Finset.range 1024, 1 / ((i : ℚ) + 1)) - 10 * log2Q - 1 / 2048 + 1 / (12 * 1024 ^ 2) -
      1 / (120 * 1024 ^ 4) - litGamma| ≤ 5 / 10 ^ 21 := by
  decide +kernel

theorem zeta3_num :
    |(∑ i ∈ Finset.range 1023, 1 / ((i : ℚ) + 1) ^ 3) + 1 / (2 * 1024 ^ 2) + 1 / (2 * 1024 ^ 3) +
      1 / (4 * 1024 ^ 4) - 1 / (12 * 1024 ^ 6) - litApery| ≤ 99 / 10 ^ 22 := by
  decide +kernel

/-- C85 (Euler's constant and ζ(3)): the literals are within `10^-19` of Euler's constant and within
`10^-20` of ζ(3) = 1 + 1/8 + 1/27 + ..., and their `double` roundings within half a unit in the last place (`2^-54` and
`2^-53`). -/
theorem C85_gamma_zeta3 :
    |(litGamma : ℝ) - Real.eulerMascheroniConstant| ≤ 1 / 10 ^ 19 ∧
    |(litApery : ℝ) - ∑' n : ℕ, 1 / ((n : ℝ) + 1) ^ 3| ≤ 1 / 10 ^ 20 ∧
    ((∑' n : ℕ, 1 / ((n : ℝ) + 1) ^ 3 : ℝ) : ℂ) = riemannZeta 3 ∧
    |(rnd64 litGamma : ℝ) - Real.eulerMascheroniConstant| ≤ 1 / 2 ^ 54 ∧
    |(rnd64 litApery : ℝ) - ∑' n : ℕ, 1 / ((n : ℝ) + 1) ^ 3| ≤ 1 / 2 ^ 53 := by
  have hg : |(litGamma : ℝ) - Real.eulerMascheroniConstant| ≤ 1 / 10 ^ 19 := by
    obtain ⟨h1, h2⟩ := euler_enclosure 1023
    have hl := abs_le.mp log_two_near
    have hn := (Rat.cast_le (K := ℝ)).mpr harmonic_num
    have hlog : Real.log ((1024 : ℕ) : ℝ) = 10 * Real.log 2 := by
      rw [show ((1024 : ℕ) : ℝ) = 2 ^ 10 by norm_num, Real.log_pow]; norm_num
    have hs : Real.eulerMascheroniSeq' (1023 + 1) = (harmonic 1024 : ℝ) - 10 * Real.log 2 := by
      unfold Real.eulerMascheroniSeq'
      rw [if_neg (by norm_num), ← hlog]
    rw [← harmonic_sum] at hn
    push_cast at hn
    have hn := abs_le.mp hn
    unfold seqLow gLow at h1
    unfold seqUp gUp at h2
    rw [hs] at h1 h2
    generalize (harmonic 1024 : ℝ) = H at *
    generalize (log2Q : ℝ) = L at *
    generalize (litGamma : ℝ) = G at *
    generalize Real.eulerMascheroniConstant = g at *
    rw [abs_le]
    norm_num at h1 h2 hn hl ⊢
    constructor <;> linarith [hl.1, hl.2, hn.1, hn.2]
  have hz : |(litApery : ℝ) - ∑' n : ℕ, 1 / ((n : ℝ) + 1) ^ 3| ≤ 1 / 10 ^ 20 := by
    obtain ⟨h1, h2⟩ := zeta3_enclosure 1023
    have hn := (Rat.cast_le (K := ℝ)).mpr zeta3_num
    push_cast at hn
    have hn := abs_le.mp hn
    unfold zLow at h1
    unfold zUp at h2
    generalize (∑ i ∈ Finset.range 1023, 1 / ((i : ℝ) + 1) ^ 3) = S at *
    generalize (∑' n : ℕ, 1 / ((n : ℝ) + 1) ^ 3) = z at *
    generalize (litApery : ℝ) = A at *
    rw [abs_le]
    norm_num at h1 h2 hn ⊢
    constructor <;> linarith [hn.1, hn.2]
  refine ⟨hg, hz, ?_, ?_, ?_⟩
  · have h := zeta_nat_eq_tsum_of_gt_one (k := 3) (by norm_num)
    push_cast at h
    have hsum : Summable fun n : ℕ => 1 / (n : ℝ) ^ 3 :=
      Real.summable_one_div_nat_pow.mpr (by norm_num)
    have e : ∑' n : ℕ, 1 / (n : ℝ) ^ 3 = ∑' n : ℕ, 1 / ((n : ℝ) + 1) ^ 3 := by
      rw [hsum.tsum_eq_zero_add]
      norm_num
    rw [h, ← e]
    push_cast
    rfl
  · have e : |rnd64 litGamma - litGamma| ≤ 1 / 2 ^ 54 - 1 / 10 ^ 19 := by decide +kernel
    have e := (Rat.cast_le (K := ℝ)).mpr e
    push_cast at e
    have := abs_sub_le (rnd64 litGamma : ℝ) litGamma Real.eulerMascheroniConstant
    linarith
  · have e : |rnd64 litApery - litApery| ≤ 1 / 2 ^ 53 - 1 / 10 ^ 20 := by decide +kernel
    have e := (Rat.cast_le (K := ℝ)).mpr e
    push_cast at e
    have := abs_sub_le (rnd64 litApery : ℝ) litApery (∑' n : ℕ, 1 / ((n : ℝ) + 1) ^ 3)
    linarith

end SciCpp
