import Verif.Model.Roots
import Verif.Spec.Roots
import Verif.Proofs.Roots
import Verif.Props.Poly
import Verif.Props.FftF
import Mathlib.Analysis.Complex.Polynomial.Basic
/-
  Property theorems C143: the roots of polynomials.
-/
namespace SciCpp
namespace Roots

open Polynomial Spec

theorem companionK_eq {K : Type} [Field K] (P : List K) : companionK P = polycompanion P := rfl

theorem mat_eq {K : Type} [Field K] (φ : K →+* ℂ) (d : ℕ) (rows : List (List K)) : mat φ d rows = (matOf rows d).map φ := by
  ext i j
  simp only [mat, matOf, Matrix.of_apply, Matrix.map_apply, List.getD_eq_getElem?_getD, List.getElem?_map]
  cases rows[(i : ℕ)]? with
  | none => simp
  | some r =>
    simp only [Option.map_some, Option.getD_some, List.getElem?_map]
    cases r[(j : ℕ)]? <;> simp

theorem polyOf_map {K : Type} [Field K] (φ : K →+* ℂ) (P : List K) : polyOf (P.map φ) = (polyOf P).map φ := by
  ext k
  rw [coeff_map, coeff_polyOf, coeff_polyOf]
  simp only [List.getD_eq_getElem?_getD, List.getElem?_map]
  cases P[k]? <;> simp

/-- The list of eigenvalues, as a product. -/
theorem roots_key {K : Type} [Field K] (φ : K →+* ℂ) (eig : List (List K) → List ℂ) (he : Exact φ eig) (P : List K) (d : ℕ) (hd : P.length = d + 1)
    (h1 : 1 ≤ d) (hlead : P.getD d 0 ≠ 0) :
    ∃ rs, polyroots eig P = .ok rs ∧ (rs : Multiset ℂ) = (polyOf (P.map φ)).roots ∧ rs.length = d ∧
      polyOf (P.map φ) = C (φ (P.getD d 0)) * (rs.map fun r => X - C r).prod := by
  obtain ⟨rows, r1, r2, r3, r4⟩ := companion_rows P d hd h1
  have hc := companion_charpoly P d hd h1 hlead _ r4
  have hl : φ (P.getD d 0) ≠ 0 := by rw [Ne, map_eq_zero]; exact hlead
  have e1 : (mat φ d rows).charpoly = C (φ (P.getD d 0))⁻¹ * polyOf (P.map φ) := by
    rw [mat_eq, Matrix.charpoly_map, hc, Polynomial.map_mul, map_C, map_inv₀, polyOf_map]
  have e2 := he d rows r2 r3
  have hsplit : Polynomial.Splits (mat φ d rows).charpoly := IsAlgClosed.splits _
  have hmon := Matrix.charpoly_monic (mat φ d rows)
  have hdeg : (mat φ d rows).charpoly.natDegree = d := by rw [Matrix.charpoly_natDegree_eq_dim, Fintype.card_fin]
  refine ⟨eig rows, ?_, ?_, ?_, ?_⟩
  · unfold polyroots
    rw [companionK_eq, r1]
    rfl
  · rw [e2, e1, roots_C_mul _ (inv_ne_zero hl)]
  · have := congrArg Multiset.card e2
    rw [Multiset.coe_card] at this
    rw [this, ← hsplit.natDegree_eq_card_roots, hdeg]
  · have h3 := hsplit.eq_prod_roots_of_monic hmon
    rw [← e2, e1, Multiset.map_coe, Multiset.prod_coe] at h3
    rw [← h3, ← mul_assoc, ← C_mul, mul_inv_cancel₀ hl, C_1, one_mul]

/-- C143: with exact eigenvalues, `polyroots(P)` lists the roots of `P` with their multiplicities: as many as the degree, `P` is its leading coefficient
times the product of the factors `x - r`, and `P(z) = 0` exactly for the listed numbers. -/
theorem C143_roots {K : Type} [Field K] (φ : K →+* ℂ) (eig : List (List K) → List ℂ) (he : Exact φ eig) (P : List K) (d : ℕ)
    (hd : P.length = d + 1) (h1 : 1 ≤ d) (hlead : P.getD d 0 ≠ 0) :
    ∃ rs, polyroots eig P = .ok rs ∧ rs.length = d ∧ (∀ z, polyval z (P.map φ) = φ (P.getD d 0) * (rs.map fun r => z - r).prod) ∧
      (∀ z, polyval z (P.map φ) = 0 ↔ z ∈ rs) ∧ ∀ z, rs.count z = (polyOf (P.map φ)).rootMultiplicity z := by
  obtain ⟨rs, r1, r2, r3, r4⟩ := roots_key φ eig he P d hd h1 hlead
  have hl : φ (P.getD d 0) ≠ 0 := by rw [Ne, map_eq_zero]; exact hlead
  have hv : ∀ z, polyval z (P.map φ) = φ (P.getD d 0) * (rs.map fun r => z - r).prod := by
    intro z
    rw [polyval_eq, r4, eval_mul, eval_C, eval_list_prod, List.map_map]
    congr 2
    apply List.map_congr_left
    intro r _
    simp
  refine ⟨rs, r1, r3, hv, fun z => ?_, fun z => ?_⟩
  · rw [hv, mul_eq_zero, or_iff_right hl, List.prod_eq_zero_iff, List.mem_map]
    constructor
    · rintro ⟨r, hr, h⟩
      rw [sub_eq_zero.mp h]; exact hr
    · intro h
      exact ⟨z, h, sub_self z⟩
  · rw [← count_roots, ← r2, Multiset.coe_count]

/-- C143: the polynomial with the roots of `P` is `P` divided by its leading coefficient. -/
theorem C143_back {K : Type} [Field K] (φ : K →+* ℂ) (eig : List (List K) → List ℂ) (he : Exact φ eig) (P : List K) (d : ℕ)
    (hd : P.length = d + 1) (h1 : 1 ≤ d) (hlead : P.getD d 0 ≠ 0) (hsz : P.length < 2 ^ 64) :
    ∃ rs Q, polyroots eig P = .ok rs ∧ polyfromroots rs = .ok Q ∧ polyScale Q (φ (P.getD d 0)) = P.map φ := by
  obtain ⟨rs, r1, r2, r3, r4⟩ := roots_key φ eig he P d hd h1 hlead
  obtain ⟨Q, q1, q2, q3, -⟩ := C60_polyfromroots rs (by omega)
  refine ⟨rs, Q, r1, q1, list_eq_of_polyOf (by simp [polyScale, q2, r3, hd]) ?_⟩
  rw [polyScale_poly, q3, ← r4]

/-- C143: the roots of the polynomial made from a list of complex numbers are these numbers, in some order. -/
theorem C143_from_roots (eig : List (List ℂ) → List ℂ) (he : Exact (RingHom.id ℂ) eig) (rs : List ℂ) (h0 : rs ≠ []) (hsz : rs.length + 1 < 2 ^ 64) :
    ∃ Q rs', polyfromroots rs = .ok Q ∧ polyroots eig Q = .ok rs' ∧ rs'.Perm rs := by
  obtain ⟨Q, q1, q2, q3, -⟩ := C60_polyfromroots rs hsz
  obtain ⟨Q', q1', hmon, -⟩ := C60_polyfromroots_roots rs hsz
  rw [q1] at q1'
  cases q1'
  obtain ⟨rs', r1, r2, r3, r4⟩ := roots_key (RingHom.id ℂ) eig he Q rs.length q2 (List.length_pos_iff.mpr h0) (by rw [hmon]; exact one_ne_zero)
  refine ⟨Q, rs', q1, r1, ?_⟩
  rw [← Multiset.coe_eq_coe, r2]
  have : Q.map (RingHom.id ℂ) = Q := by simp
  rw [this, q3, ← Multiset.prod_coe, ← Multiset.map_coe, roots_multiset_prod_X_sub_C]

/-- C143: constant polynomials and empty arrays have no companion matrix, and `polyroots` of them is undefined behaviour. -/
theorem C143_constant {K Z : Type} [Zero K] [One K] [Neg K] [Div K] (eig : List (List K) → List Z) (P : List K) (h : P.length ≤ 1) :
    polyroots eig P = .ub := by
  unfold polyroots companionK
  have hr : decide (1 ≤ (P.length : ℤ) - 1) = false := decide_eq_false (by omega)
  rw [hr]
  rfl

/-! ### Computed eigenvalues -/

/-- A matrix close to the companion matrix of `x^d + a_{d-1} x^{d-1} + … + a_0`. -/
theorem near_residual {d : ℕ} (hd : 1 ≤ d) {a : ℕ → ℂ} {B : Matrix (Fin d) (Fin d) ℂ} {z : ℂ} {Λ M η : ℝ} (hΛ : 1 ≤ Λ) (hz : ‖z‖ ≤ Λ) (hM : 0 ≤ M)
    (ha : ∀ i < d, ‖a i‖ ≤ M) (hη : 0 ≤ η)
    (hB : ∀ i j : Fin d, ‖B i j - (if (j : ℕ) = d - 1 then -a i else if (i : ℕ) = j + 1 then 1 else 0)‖ ≤ η)
    (hx : ∃ x : Fin d → ℂ, x ≠ 0 ∧ B.mulVec x = z • x) :
    ‖z ^ d + ∑ i ∈ Finset.range d, a i * z ^ i‖ * (1 - d ^ 2 * Λ ^ d * η) ≤ d ^ 2 * Λ ^ (2 * d) * (1 + d * M) * η := by
  obtain ⟨x, hx0, hx⟩ := hx
  set c : ℕ → ℕ → ℂ := fun i j => if j = d - 1 then -a i else if i = j + 1 then 1 else 0 with hc
  set E : ℕ → ℕ → ℂ := fun i j => if h : i < d ∧ j < d then B ⟨i, h.1⟩ ⟨j, h.2⟩ - c i j else 0 with hE
  set y : ℕ → ℂ := fun i => if h : i < d then x ⟨i, h⟩ else 0 with hy
  have hyx : ∀ i : Fin d, y i = x i := fun i => by rw [hy]; exact dif_pos i.isLt
  have row : ∀ i, i < d → ∑ j ∈ Finset.range d, c i j * y j + ∑ j ∈ Finset.range d, E i j * y j = z * y i := by
    intro i hi
    have := congrFun hx ⟨i, hi⟩
    rw [Matrix.mulVec, dotProduct, Pi.smul_apply, smul_eq_mul, ← hyx] at this
    rw [← this, ← Finset.sum_add_distrib, ← Fin.sum_univ_eq_sum_range (fun j => c i j * y j + E i j * y j) d]
    refine Finset.sum_congr rfl fun j _ => ?_
    have hEij : E i j = B ⟨i, hi⟩ j - c i j := by rw [hE]; exact dif_pos ⟨hi, j.isLt⟩
    rw [hEij, hyx]
    ring
  have crow : ∀ i, i < d → ∑ j ∈ Finset.range d, c i j * y j = (if 1 ≤ i then y (i - 1) else 0) - a i * y (d - 1) := by
    intro i hi
    have e : ∀ j ∈ Finset.range d, c i j * y j = (if j = d - 1 then -a i * y j else 0) + (if j = i - 1 then (if 1 ≤ i then y j else 0) else 0) := by
      intro j hj
      have hj := Finset.mem_range.mp hj
      rw [hc]
      show (if j = d - 1 then -a i else if i = j + 1 then 1 else 0) * y j = _
      by_cases h1 : j = d - 1
      · rw [if_pos h1, if_pos h1]
        by_cases h2 : j = i - 1
        · rw [if_pos h2, if_neg (by omega), add_zero]
        · rw [if_neg h2, add_zero]
      · rw [if_neg h1, if_neg h1, zero_add]
        by_cases h2 : i = j + 1
        · rw [if_pos h2, if_pos (by omega), if_pos (by omega), one_mul]
        · rw [if_neg h2, zero_mul]
          by_cases h3 : j = i - 1
          · rw [if_pos h3, if_neg (by omega)]
          · rw [if_neg h3]
    rw [Finset.sum_congr rfl e, Finset.sum_add_distrib, Finset.sum_ite_eq' (Finset.range d) (d - 1) (fun j => -a i * y j),
      Finset.sum_ite_eq' (Finset.range d) (i - 1) (fun j => if 1 ≤ i then y j else 0), if_pos (Finset.mem_range.mpr (by omega)),
      if_pos (Finset.mem_range.mpr (by omega))]
    ring
  refine residual_le (E := E) (x := y) hd hΛ hz hM ha hη ?_ ?_ ?_ ?_
  · intro i hi j hj
    have hEij : E i j = B ⟨i, hi⟩ ⟨j, hj⟩ - c i j := by rw [hE]; exact dif_pos ⟨hi, hj⟩
    rw [hEij]
    exact hB ⟨i, hi⟩ ⟨j, hj⟩
  · by_contra hall
    push Not at hall
    exact hx0 (funext fun i => by rw [← hyx]; exact hall i i.isLt)
  · rw [← row 0 (by omega), crow 0 (by omega), if_neg (by omega)]
    ring
  · intro i hi1 hi
    rw [← row i hi, crow i hi, if_pos hi1]

theorem pow_le_prod {α : Type} (f : α → ℝ) (l : List α) (m : ℝ) (hm : 0 ≤ m) (h : ∀ r ∈ l, m ≤ f r) : m ^ l.length ≤ (l.map f).prod := by
  induction l with
  | nil => simp
  | cons r l ih =>
    rw [List.length_cons, List.map_cons, List.prod_cons, pow_succ']
    exact mul_le_mul (h r (by simp)) (ih fun s hs => h s (by simp [hs])) (pow_nonneg hm _) (hm.trans (h r (by simp)))

theorem near_root (q : ℂ[X]) (hq : q.Monic) (hd : 1 ≤ q.natDegree) (z : ℂ) : ∃ r, q.IsRoot r ∧ ‖z - r‖ ^ q.natDegree ≤ ‖q.eval z‖ := by
  have hs : Polynomial.Splits q := IsAlgClosed.splits _
  have hcard := hs.natDegree_eq_card_roots
  obtain ⟨l, hl⟩ : ∃ l : List ℂ, (l : Multiset ℂ) = q.roots := ⟨q.roots.toList, q.roots.coe_toList⟩
  have hprod := hs.eq_prod_roots_of_monic hq
  rw [← hl, Multiset.map_coe, Multiset.prod_coe] at hprod
  rw [← hl, Multiset.coe_card] at hcard
  have hne : l.toFinset.Nonempty := by
    rw [List.toFinset_nonempty_iff]
    intro h
    rw [h] at hcard
    simp at hcard; omega
  obtain ⟨r, hr, hmin⟩ := Finset.exists_min_image l.toFinset (fun r => ‖z - r‖) hne
  refine ⟨r, ?_, ?_⟩
  · have : r ∈ q.roots := by rw [← hl]; exact Multiset.mem_coe.mpr (List.mem_toFinset.mp hr)
    exact isRoot_of_mem_roots this
  · rw [hcard]
    refine (pow_le_prod (fun r => ‖z - r‖) l ‖z - r‖ (norm_nonneg _) fun s hs => hmin s (List.mem_toFinset.mpr hs)).trans (le_of_eq ?_)
    conv_rhs => rw [hprod, eval_list_prod, List.map_map]
    clear hprod hcard hl hne hr hmin
    induction l with
    | nil => simp
    | cons s l ih => simp [ih]

theorem polyval_monic {K : Type} [Field K] (φ : K →+* ℂ) (P : List K) (d : ℕ) (hd : P.length = d + 1) (hlead : P.getD d 0 ≠ 0) (z : ℂ) :
    polyval z (P.map φ) = φ (P.getD d 0) * (z ^ d + ∑ i ∈ Finset.range d, φ (P.getD i 0) / φ (P.getD d 0) * z ^ i) := by
  have hl : φ (P.getD d 0) ≠ 0 := by rw [Ne, map_eq_zero]; exact hlead
  have hdeg : (polyOf (P.map φ)).natDegree < d + 1 := by
    refine Nat.lt_succ_of_le (natDegree_le_iff_coeff_eq_zero.mpr fun k hk => ?_)
    rw [coeff_polyOf, getD_of_ge _ _ (by rw [List.length_map]; omega)]
  have hc : ∀ k, (polyOf (P.map φ)).coeff k = φ (P.getD k 0) := by
    intro k
    rw [polyOf_map, coeff_map, coeff_polyOf]
  rw [polyval_eq, eval_eq_sum_range' hdeg, Finset.sum_range_succ, mul_add, Finset.mul_sum, add_comm, hc]
  congr 1
  refine Finset.sum_congr rfl fun i _ => ?_
  rw [hc, ← mul_assoc, mul_div_cancel₀ _ hl]

/-- Both conclusions, from a matrix close to the exact companion matrix. -/
theorem conclude {K : Type} [Field K] (φ : K →+* ℂ) (P : List K) (d : ℕ) (hd : P.length = d + 1) (h1 : 1 ≤ d) (hlead : P.getD d 0 ≠ 0) (z : ℂ)
    {Λ M η : ℝ} (hη : 0 ≤ η) (hΛ : 1 ≤ Λ) (hz : ‖z‖ ≤ Λ) (hM : ∀ i < d, ‖φ (P.getD i 0)‖ ≤ M * ‖φ (P.getD d 0)‖)
    (hsmall : d ^ 2 * Λ ^ d * η < 1) {B : Matrix (Fin d) (Fin d) ℂ} (hB : ∀ i j : Fin d, ‖B i j - φ (companionEntry P i j)‖ ≤ η)
    (hx : ∃ x : Fin d → ℂ, x ≠ 0 ∧ B.mulVec x = z • x) :
    ‖polyval z (P.map φ)‖ ≤ ‖φ (P.getD d 0)‖ * rootBound d Λ M η ∧ ∃ r, polyval r (P.map φ) = 0 ∧ ‖z - r‖ ^ d ≤ rootBound d Λ M η := by
  have hl : φ (P.getD d 0) ≠ 0 := by rw [Ne, map_eq_zero]; exact hlead
  have hl' : 0 < ‖φ (P.getD d 0)‖ := norm_pos_iff.mpr hl
  have ha : ∀ i < d, ‖φ (P.getD i 0) / φ (P.getD d 0)‖ ≤ M := by
    intro i hi
    rw [norm_div, div_le_iff₀ hl']
    exact hM i hi
  have hM0 : 0 ≤ M := (norm_nonneg _).trans (ha 0 (by omega))
  have hB' : ∀ i j : Fin d, ‖B i j - (if (j : ℕ) = d - 1 then -(φ (P.getD i 0) / φ (P.getD d 0)) else if (i : ℕ) = j + 1 then 1 else 0)‖ ≤ η := by
    intro i j
    have := hB i j
    have e2 : P.length - 1 = d := by omega
    simp only [companionEntry, e2] at this
    by_cases h1 : (j : ℕ) = d - 1
    · rw [if_pos h1] at this ⊢
      rwa [map_div₀, map_neg, neg_div] at this
    · rw [if_neg h1] at this ⊢
      by_cases h2 : (i : ℕ) = j + 1
      · rw [if_pos h2] at this ⊢
        rwa [map_one] at this
      · rw [if_neg h2] at this ⊢
        rwa [map_zero] at this
  have key := near_residual (a := fun i => φ (P.getD i 0) / φ (P.getD d 0)) h1 hΛ hz hM0 ha hη hB' hx
  have hpos : 0 < 1 - (d : ℝ) ^ 2 * Λ ^ d * η := by linarith
  have kb : ‖z ^ d + ∑ i ∈ Finset.range d, φ (P.getD i 0) / φ (P.getD d 0) * z ^ i‖ ≤ rootBound d Λ M η := by
    unfold rootBound
    rw [le_div_iff₀ hpos]
    exact key
  obtain ⟨rows, r1, r2, r3, r4⟩ := companion_rows P d hd h1
  have hc := companion_charpoly P d hd h1 hlead _ r4
  have e1 : ((matOf rows d).map φ).charpoly = C (φ (P.getD d 0))⁻¹ * polyOf (P.map φ) := by
    rw [Matrix.charpoly_map, hc, Polynomial.map_mul, map_C, map_inv₀, polyOf_map]
  have hdeg : ((matOf rows d).map φ).charpoly.natDegree = d := by rw [Matrix.charpoly_natDegree_eq_dim, Fintype.card_fin]
  have hev : ∀ w, ((matOf rows d).map φ).charpoly.eval w = (φ (P.getD d 0))⁻¹ * polyval w (P.map φ) := by
    intro w
    rw [e1, eval_mul, eval_C, polyval_eq]
  obtain ⟨r, g1, g2⟩ := near_root _ (Matrix.charpoly_monic ((matOf rows d).map φ)) (by omega) z
  refine ⟨?_, r, ?_, ?_⟩
  · rw [polyval_monic φ P d hd hlead, norm_mul]
    exact mul_le_mul_of_nonneg_left kb hl'.le
  · rw [IsRoot, hev] at g1
    rcases mul_eq_zero.mp g1 with h | h
    · exact absurd h (inv_ne_zero hl)
    · exact h
  · rw [hdeg, hev, polyval_monic φ P d hd hlead, ← mul_assoc, inv_mul_cancel₀ hl, one_mul] at g2
    exact g2.trans kb

/-- C143, computed eigenvalues: when a number is an eigenvalue of a matrix whose entries are within `η` of those of the companion matrix (the guarantee
of a backward stable solver), the polynomial is small there and a root is near. -/
theorem C143_residual {K : Type} [Field K] (φ : K →+* ℂ) (P : List K) (d : ℕ) (hd : P.length = d + 1) (h1 : 1 ≤ d) (hlead : P.getD d 0 ≠ 0) :
    ∃ rows, companionK P = .ok rows ∧ ∀ (z : ℂ) (Λ M η : ℝ), 0 ≤ η → 1 ≤ Λ → ‖z‖ ≤ Λ → (∀ i < d, ‖φ (P.getD i 0)‖ ≤ M * ‖φ (P.getD d 0)‖) →
      d ^ 2 * Λ ^ d * η < 1 → NearEigenvalue (mat φ d rows) η z →
      ‖polyval z (P.map φ)‖ ≤ ‖φ (P.getD d 0)‖ * rootBound d Λ M η ∧ ∃ r, polyval r (P.map φ) = 0 ∧ ‖z - r‖ ^ d ≤ rootBound d Λ M η := by
  obtain ⟨rows, r1, r2, r3, r4⟩ := companion_rows P d hd h1
  refine ⟨rows, by rw [companionK_eq]; exact r1, fun z Λ M η hη hΛ hz hM hsmall hnear => ?_⟩
  obtain ⟨B, b1, b2⟩ := hnear
  refine conclude φ P d hd h1 hlead z hη hΛ hz hM hsmall (B := B) (fun i j => ?_) b2
  have := b1 i j
  rwa [mat_eq, Matrix.map_apply, r4] at this

variable {rnd : ℚ → ℚ} {u : ℚ}

theorem mat_companionK {K : Type} [Zero K] [One K] [Neg K] [Div K] (P : List K) (d : ℕ) (hd : P.length = d + 1) (h1 : 1 ≤ d) (φ : K → ℂ) :
    ∃ rows, companionK P = .ok rows ∧ ∀ i j : Fin d, mat φ d rows i j = φ (entryK P i j) := by
  unfold companionK
  have hr : decide (1 ≤ (P.length : ℤ) - 1) = true := decide_eq_true (by omega)
  have e2 : P.length - 1 = d := by omega
  rw [hr, e2]
  refine ⟨_, rfl, fun i j => ?_⟩
  simp [mat, List.getD_eq_getElem?_getD]

/-- C143 in floating point: the companion matrix is computed with one rounding per coefficient, so that the eigenvalues of a solver with backward error
`η` have the residual and the distance to a root of a backward error `η + u M`. -/
theorem C143_float (hu : 0 ≤ u) (hr : ∀ x, |rnd x - x| ≤ u * |x|) (p : List ℚ) (d : ℕ) (hd : p.length = d + 1) (h1 : 1 ≤ d) (hlead : p.getD d 0 ≠ 0) :
    ∃ rows, companionK (p.map fun q => (RFl.fin q : RFl rnd)) = .ok rows ∧ ∀ (z : ℂ) (Λ M η : ℝ), 0 ≤ η → 1 ≤ Λ → ‖z‖ ≤ Λ →
      (∀ i < d, |((p.getD i 0 : ℚ) : ℝ)| ≤ M * |((p.getD d 0 : ℚ) : ℝ)|) → d ^ 2 * Λ ^ d * (η + u * M) < 1 →
      NearEigenvalue (mat (fun t : RFl rnd => ((valR t : ℝ) : ℂ)) d rows) η z →
      ‖polyval z (p.map fun q : ℚ => (q : ℂ))‖ ≤ |((p.getD d 0 : ℚ) : ℝ)| * rootBound d Λ M (η + u * M) ∧
      ∃ r, polyval r (p.map fun q : ℚ => (q : ℂ)) = 0 ∧ ‖z - r‖ ^ d ≤ rootBound d Λ M (η + u * M) := by
  obtain ⟨rows, r1, r2⟩ := mat_companionK (p.map fun q => (RFl.fin q : RFl rnd)) d (by simpa using hd) h1 (fun t : RFl rnd => ((valR t : ℝ) : ℂ))
  refine ⟨rows, r1, fun z Λ M η hη hΛ hz hM hsmall hnear => ?_⟩
  obtain ⟨B, b1, b2⟩ := hnear
  have hn : ∀ q : ℚ, ‖(Rat.castHom ℂ) q‖ = |(q : ℝ)| := fun q => by
    rw [Rat.coe_castHom, ← Complex.ofReal_ratCast, Complex.norm_real, Real.norm_eq_abs]
  have hl0 : (0 : ℝ) < |((p.getD d 0 : ℚ) : ℝ)| := abs_pos.mpr (by exact_mod_cast hlead)
  have hM0 : 0 ≤ M := by
    have := (abs_nonneg _).trans (hM 0 (by omega))
    exact nonneg_of_mul_nonneg_left this hl0
  have hu' : (0 : ℝ) ≤ u := Rat.cast_nonneg.mpr hu
  have hgetD : ∀ k, k < p.length → (p.map fun q => (RFl.fin q : RFl rnd)).getD k 0 = RFl.fin (p.getD k 0) := by
    intro k hk
    rw [getD_of_lt _ _ (by rw [List.length_map]; exact hk), List.getElem_map, getD_of_lt _ _ hk]
  have main := conclude (Rat.castHom ℂ) p d hd h1 hlead z (η := η + u * M) (by positivity) hΛ hz
    (fun i hi => by rw [hn, hn]; exact hM i hi) hsmall (B := B) (fun i j => ?_) b2
  · rw [hn] at main
    exact main
  · have h2 := b1 i j
    rw [r2] at h2
    refine (norm_sub_le_norm_sub_add_norm_sub _ (((valR (entryK (p.map fun q => (RFl.fin q : RFl rnd)) i j) : ℝ) : ℂ)) _).trans (add_le_add h2 ?_)
    have e2 : p.length - 1 = d := by omega
    unfold entryK companionEntry
    simp only [List.length_map, e2]
    by_cases h3 : (j : ℕ) = d - 1
    · rw [if_pos h3, if_pos h3, hgetD i (by omega), hgetD d (by omega), RFl.neg_fin, RFl.div_fin hlead, Rat.coe_castHom, ← Complex.ofReal_ratCast]
      show ‖(((rnd (-(p.getD i 0) / p.getD d 0) : ℚ) : ℝ) : ℂ) - _‖ ≤ _
      rw [← Complex.ofReal_sub, Complex.norm_real, Real.norm_eq_abs, ← Rat.cast_sub, ← Rat.cast_abs]
      have h4 := (Rat.cast_le (K := ℝ)).mpr (hr (-(p.getD i 0) / p.getD d 0))
      refine h4.trans ?_
      rw [Rat.cast_mul, Rat.cast_abs, Rat.cast_div, Rat.cast_neg, abs_div, abs_neg]
      exact mul_le_mul_of_nonneg_left (by rw [div_le_iff₀ hl0]; exact hM i (by omega)) hu'
    · rw [if_neg h3, if_neg h3]
      have h5 : (0 : ℝ) ≤ u * M := by positivity
      by_cases h6 : (i : ℕ) = j + 1
      · rw [if_pos h6, if_pos h6]
        have : (((valR (1 : RFl rnd) : ℝ) : ℂ)) = 1 := by
          show ((((1 : ℚ) : ℝ)) : ℂ) = 1
          simp
        rw [this, map_one, sub_self, norm_zero]
        exact h5
      · rw [if_neg h6, if_neg h6, FftF.valR_zero, map_zero, Complex.ofReal_zero, sub_self, norm_zero]
        exact h5

-- exact solvers exist
theorem exact_exists {K : Type} (φ : K → ℂ) : ∃ eig : List (List K) → List ℂ, Exact φ eig :=
  ⟨fun rows => (mat φ rows.length rows).charpoly.roots.toList, fun d rows hd _ => by subst hd; exact Multiset.coe_toList _⟩

-- the roots of `6 - 7x + x³`
example : ∃ rs : List ℂ, rs.length = 3 ∧ ∀ z : ℂ, polyval z [6, -7, 0, 1] = 0 ↔ z ∈ rs := by
  obtain ⟨eig, he⟩ := exact_exists (RingHom.id ℂ)
  obtain ⟨rs, -, h1, -, h2, -⟩ := C143_roots (RingHom.id ℂ) eig he [6, -7, 0, 1] 3 rfl (by norm_num) (by simp)
  exact ⟨rs, h1, by simpa using h2⟩

-- a computed eigenvalue of the companion matrix of `x - 2` that is off by 1/100
example : ∃ rows, companionK [(-2 : ℂ), 1] = .ok rows ∧ ∃ r, polyval r [(-2 : ℂ), 1] = 0 ∧ ‖(2.01 : ℂ) - r‖ ≤ rootBound 1 3 2 (1 / 100) := by
  obtain ⟨rows, h1, h2⟩ := C143_residual (RingHom.id ℂ) [-2, 1] 1 rfl le_rfl (by simp)
  have e : rows = [[2]] := by
    have : companionK [(-2 : ℂ), 1] = .ok [[2]] := by
      unfold companionK entryK
      norm_num [require, List.range_succ]
    rw [this] at h1
    cases h1
    rfl
  obtain ⟨-, r, h3, h4⟩ := h2 2.01 3 2 (1 / 100) (by norm_num) (by norm_num) (by norm_num)
    (by intro i hi; obtain rfl : i = 0 := by omega
        simp) (by norm_num) ⟨Matrix.of fun _ _ => 2.01, fun i j => by
      subst e
      obtain rfl := Fin.fin_one_eq_zero i
      obtain rfl := Fin.fin_one_eq_zero j
      simp [mat]
      norm_num, fun _ => 1, by intro h; have := congrFun h 0; simp at this, by
      ext i
      simp [Matrix.mulVec, dotProduct]⟩
  exact ⟨rows, h1, r, by simpa using h3, by simpa using h4⟩

end Roots
end SciCpp
