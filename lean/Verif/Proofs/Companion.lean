import Verif.Proofs.Poly
import Mathlib.LinearAlgebra.Matrix.Charpoly.LinearMap
import Mathlib.LinearAlgebra.Matrix.Charpoly.Coeff
/-
  The companion matrix has the (normalised) polynomial as characteristic polynomial.
-/
namespace SciCpp

open Finset Spec Polynomial Matrix

variable {K : Type*} [Field K]

/-- The matrix whose rows are given as lists. -/
def matOf (rows : List (List K)) (d : ℕ) : Matrix (Fin d) (Fin d) K :=
  Matrix.of fun i j => (rows.getD i []).getD j 0

theorem companion_rows (P : List K) (d : ℕ) (hd : P.length = d + 1) (h1 : 1 ≤ d) :
    ∃ rows, polycompanion P = .ok rows ∧ rows.length = d ∧ (∀ r ∈ rows, r.length = d) ∧
      ∀ i j : Fin d, matOf rows d i j = companionEntry P i j := by
  unfold polycompanion
  have e : ((P.length : Int) - 1) = (d : Int) := by omega
  have e2 : P.length - 1 = d := by omega
  have hr : decide (1 ≤ (d : Int)) = true := by simp; omega
  simp only [e, e2, hr, require_true, Res.bind_ok, Res.pure_eq]
  refine ⟨_, rfl, by simp, by simp, fun i j => ?_⟩
  simp [matOf, List.getD_eq_getElem?_getD]

theorem companion_charpoly (P : List K) (d : ℕ) (hd : P.length = d + 1) (h1 : 1 ≤ d)
    (hlead : P.getD d 0 ≠ 0) (M : Matrix (Fin d) (Fin d) K)
    (hM : ∀ i j : Fin d, M i j = companionEntry P i j) :
    M.charpoly = C (P.getD d 0)⁻¹ * polyOf P := by
  set c := P.getD d 0 with hc
  set p := C c⁻¹ * polyOf P with hp
  have hcoef : ∀ i, p.coeff i = c⁻¹ * P.getD i 0 := fun i => by
    rw [hp, coeff_C_mul, coeff_polyOf]
  let e0 : Fin d → K := fun i => if (i : ℕ) = 0 then 1 else 0
  have hent : ∀ i j : Fin d, M i j =
      if (j : ℕ) = d - 1 then -(P.getD i 0) / c else if (i : ℕ) = j + 1 then 1 else 0 := by
    intro i j
    rw [hM]
    simp only [companionEntry]
    have e2 : P.length - 1 = d := by omega
    rw [e2]
  -- powers applied to the first basis vector
  have hpow : ∀ k, k < d → (M ^ k) *ᵥ e0 = fun i : Fin d => if (i : ℕ) = k then (1 : K) else 0 := by
    intro k
    induction k with
    | zero => intro _; simp [e0]
    | succ k ih =>
      intro hk
      rw [pow_succ', ← Matrix.mulVec_mulVec, ih (by omega)]
      funext i
      rw [Matrix.mulVec, dotProduct, Finset.sum_eq_single (⟨k, by omega⟩ : Fin d)]
      · rw [hent]
        have : ¬ k = d - 1 := by omega
        simp [this]
      · intro b _ hb
        have : ¬ (b : ℕ) = k := fun h => hb (Fin.ext h)
        simp [this]
      · simp
  have hpowd : (M ^ d) *ᵥ e0 = fun i : Fin d => -(P.getD i 0) / c := by
    obtain ⟨k, rfl⟩ : ∃ k, d = k + 1 := ⟨d - 1, by omega⟩
    rw [pow_succ', ← Matrix.mulVec_mulVec, hpow k (by omega)]
    funext i
    rw [Matrix.mulVec, dotProduct, Finset.sum_eq_single (⟨k, by omega⟩ : Fin (k + 1))]
    · rw [hent]; simp
    · intro b _ hb
      have : ¬ (b : ℕ) = k := fun h => hb (Fin.ext h)
      simp [this]
    · simp
  have hsum : ∀ (g : K[X]) (n : ℕ), g.natDegree < n →
      (aeval M g) *ᵥ e0 = ∑ i ∈ range n, g.coeff i • ((M ^ i) *ᵥ e0) := by
    intro g n hn
    rw [aeval_eq_sum_range' hn, Matrix.sum_mulVec]
    simp only [Matrix.smul_mulVec]
  have hpdeg : p.degree = d := by
    apply le_antisymm
    · rw [degree_le_iff_coeff_zero]
      intro m hm
      rw [hcoef, getD_of_ge _ _ (by have : d < m := by exact_mod_cast hm
                                    omega), mul_zero]
    · apply le_degree_of_ne_zero
      rw [hcoef, ← hc, inv_mul_cancel₀ hlead]; exact one_ne_zero
  -- p annihilates e0
  have hpann : (aeval M p) *ᵥ e0 = 0 := by
    have hdeg : p.natDegree < d + 1 := by
      rw [natDegree_eq_of_degree_eq_some hpdeg]; omega
    rw [hsum p (d + 1) hdeg, Finset.sum_range_succ, hpowd]
    funext r
    simp only [Pi.add_apply, Finset.sum_apply, Pi.smul_apply, smul_eq_mul, Pi.zero_apply]
    rw [Finset.sum_eq_single (r : ℕ)]
    · rw [hpow r r.2, hcoef, hcoef, ← hc]
      simp
      field_simp
      ring
    · intro b hb hbr
      rw [hpow b (by simpa using hb)]
      have : ¬ (r : ℕ) = b := fun h => hbr h.symm
      simp [this]
    · intro h; exact absurd (Finset.mem_range.2 r.2) h
  -- both are monic of degree d
  have hpmonic : p.Monic := by
    rw [Monic, leadingCoeff, natDegree_eq_of_degree_eq_some hpdeg, hcoef, ← hc,
      inv_mul_cancel₀ hlead]
  have hχm := M.charpoly_monic
  have hχd : M.charpoly.degree = d := by
    rw [Matrix.charpoly_degree_eq_dim]; simp
  have hdiff : (M.charpoly - p).degree < d := by
    rw [← hχd]
    apply degree_sub_lt_left (by rw [hχd, hpdeg]) hχm.ne_zero
    rw [hχm.leadingCoeff, hpmonic.leadingCoeff]
  have hann : (aeval M (M.charpoly - p)) *ᵥ e0 = 0 := by
    rw [map_sub, Matrix.sub_mulVec, hpann, Matrix.aeval_self_charpoly, Matrix.zero_mulVec, sub_zero]
  have hzero : M.charpoly - p = 0 := by
    by_contra hne
    rw [hsum _ d ((natDegree_lt_iff_degree_lt hne).2 hdiff)] at hann
    apply hne
    ext k
    rw [coeff_zero]
    by_cases hk : k < d
    · have := congrFun hann ⟨k, hk⟩
      simp only [Finset.sum_apply, Pi.smul_apply, smul_eq_mul, Pi.zero_apply] at this
      rw [Finset.sum_eq_single k] at this
      · rw [hpow k hk] at this
        simpa using this
      · intro b hb hbk
        rw [hpow b (by simpa using hb)]
        have : ¬ k = b := fun h => hbk h.symm
        simp [this]
      · intro h; exact absurd (Finset.mem_range.2 hk) h
    · apply coeff_eq_zero_of_degree_lt
      exact lt_of_lt_of_le hdiff (by exact_mod_cast Nat.not_lt.mp hk)
  exact sub_eq_zero.mp hzero

end SciCpp
