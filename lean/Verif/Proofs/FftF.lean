import Verif.Proofs.Dft
import Verif.Props.Spectral
import Mathlib.Analysis.InnerProductSpace.PiL2
/-
  Euclidean norms of spectra and the propagation of errors through `convolve<FFT>`.
-/
namespace SciCpp

open Finset

/-- The Euclidean norm of the first `n` entries. -/
noncomputable def Spec.l2 (n : ℕ) (f : ℕ → ℂ) : ℝ := √(∑ k ∈ range n, ‖f k‖ ^ 2)

namespace L2
open Spec

theorem eq_norm (n : ℕ) (f : ℕ → ℂ) : l2 n f = ‖(WithLp.toLp 2 (fun i : Fin n => f i) : EuclideanSpace ℂ (Fin n))‖ := by
  rw [EuclideanSpace.norm_eq, l2, Finset.sum_range]

theorem nonneg (n : ℕ) (f : ℕ → ℂ) : 0 ≤ l2 n f := Real.sqrt_nonneg _

theorem sq (n : ℕ) (f : ℕ → ℂ) : l2 n f ^ 2 = ∑ k ∈ range n, ‖f k‖ ^ 2 := Real.sq_sqrt (sum_nonneg fun _ _ => by positivity)

theorem add_le (n : ℕ) (f g : ℕ → ℂ) : l2 n (fun k => f k + g k) ≤ l2 n f + l2 n g := by
  rw [eq_norm, eq_norm, eq_norm]
  exact norm_add_le (WithLp.toLp 2 (fun i : Fin n => f i) : EuclideanSpace ℂ (Fin n)) (WithLp.toLp 2 (fun i : Fin n => g i))

theorem mono (n : ℕ) (f : ℕ → ℂ) (g : ℕ → ℂ) (h : ∀ k < n, ‖f k‖ ≤ ‖g k‖) : l2 n f ≤ l2 n g :=
  Real.sqrt_le_sqrt (sum_le_sum fun k hk => pow_le_pow_left₀ (norm_nonneg _) (h k (mem_range.mp hk)) 2)

theorem congr {n : ℕ} {f g : ℕ → ℂ} (h : ∀ k < n, f k = g k) : l2 n f = l2 n g := by
  unfold l2; rw [sum_congr rfl fun k hk => by rw [h k (mem_range.mp hk)]]

theorem mono_len {m n : ℕ} (h : m ≤ n) (f : ℕ → ℂ) : l2 m f ≤ l2 n f :=
  Real.sqrt_le_sqrt (sum_le_sum_of_subset_of_nonneg (range_mono h) fun _ _ _ => by positivity)

theorem one_le {n k : ℕ} (h : k < n) (f : ℕ → ℂ) : ‖f k‖ ≤ l2 n f := by
  apply Real.le_sqrt_of_sq_le
  exact single_le_sum (f := fun k => ‖f k‖ ^ 2) (fun _ _ => by positivity) (mem_range.mpr h)

theorem smul (n : ℕ) (c : ℝ) (hc : 0 ≤ c) (f : ℕ → ℂ) : l2 n (fun k => (c : ℂ) * f k) = c * l2 n f := by
  unfold l2
  have : ∀ k ∈ range n, ‖(c : ℂ) * f k‖ ^ 2 = c ^ 2 * ‖f k‖ ^ 2 := by
    intro k _
    rw [norm_mul, mul_pow, Complex.norm_real, Real.norm_of_nonneg hc]
  rw [sum_congr rfl this, ← mul_sum, Real.sqrt_mul (sq_nonneg c), Real.sqrt_sq hc]

theorem mul_le (n : ℕ) (f g : ℕ → ℂ) : l2 n (fun k => f k * g k) ≤ l2 n f * l2 n g := by
  apply Real.sqrt_le_iff.mpr
  refine ⟨mul_nonneg (nonneg _ _) (nonneg _ _), ?_⟩
  rw [mul_pow, sq, sq, sum_mul_sum]
  refine sum_le_sum fun k hk => ?_
  rw [norm_mul, mul_pow]
  exact single_le_sum (f := fun j => ‖f k‖ ^ 2 * ‖g j‖ ^ 2) (fun _ _ => by positivity) hk

theorem sub_comm' (n : ℕ) (f g : ℕ → ℂ) : l2 n (fun k => f k - g k) = l2 n (fun k => g k - f k) := by
  unfold l2; simp only [norm_sub_rev]

theorem le_of_dist (n : ℕ) {f g : ℕ → ℂ} {e : ℝ} (h : l2 n (fun k => f k - g k) ≤ e * l2 n g) : l2 n f ≤ (1 + e) * l2 n g := by
  have := add_le n (fun k => f k - g k) g
  simp only [sub_add_cancel] at this
  linarith

/-- The transform of the entries `0 … n-1`. -/
noncomputable def F (n : ℕ) (x : ℕ → ℂ) (k : ℕ) : ℂ := ∑ j ∈ range n, x j * twiddle n ^ (j * k)
/-- The inverse transform. -/
noncomputable def G (n : ℕ) (y : ℕ → ℂ) (j : ℕ) : ℂ := (∑ k ∈ range n, y k * (twiddle n)⁻¹ ^ (j * k)) / (n : ℂ)

theorem parseval (n : ℕ) (x : ℕ → ℂ) : l2 n (F n x) = √n * l2 n x := by
  unfold l2
  rw [← Real.sqrt_mul (Nat.cast_nonneg n)]
  congr 1
  have h : ∀ z : ℂ, ‖z‖ ^ 2 = Complex.normSq z := fun z => by rw [Complex.normSq_eq_norm_sq]
  simp only [h]
  apply Complex.ofReal_injective
  push_cast
  simp only [Complex.normSq_eq_conj_mul_self, F, map_sum, map_mul, map_pow, conj_twiddle]
  have e : ∀ k ∈ range n,
      (∑ m ∈ range n, (starRingEnd ℂ) (x m) * (twiddle n)⁻¹ ^ (m * k)) * ∑ j ∈ range n, x j * twiddle n ^ (j * k)
        = ∑ m ∈ range n, ∑ j ∈ range n, ((starRingEnd ℂ) (x m) * x j) * (twiddle n ^ (j * k) * (twiddle n)⁻¹ ^ (m * k)) := by
    intro k _
    rw [sum_mul_sum]
    exact sum_congr rfl fun m _ => sum_congr rfl fun j _ => by ring
  rw [sum_congr rfl e, sum_comm, mul_sum]
  refine sum_congr rfl fun m hm => ?_
  rw [sum_comm]
  have e2 : ∀ j ∈ range n, ∑ k ∈ range n, ((starRingEnd ℂ) (x m) * x j) * (twiddle n ^ (j * k) * (twiddle n)⁻¹ ^ (m * k))
      = if m = j then ((starRingEnd ℂ) (x m) * x j) * (n : ℂ) else 0 := by
    intro j hj
    rw [← mul_sum, sum_twiddle n m j (mem_range.mp hm) (mem_range.mp hj)]
    split_ifs <;> simp
  rw [sum_congr rfl e2, sum_ite_eq, if_pos hm]
  ring

theorem G_sub (n : ℕ) (f g : ℕ → ℂ) (j : ℕ) : G n f j - G n g j = G n (fun k => f k - g k) j := by
  unfold G
  rw [← sub_div, ← sum_sub_distrib]
  simp only [sub_mul]

theorem G_F (n : ℕ) (x : ℕ → ℂ) (j : ℕ) (hj : j < n) : G n (F n x) j = x j := by
  have hn : (n : ℂ) ≠ 0 := by exact_mod_cast (by omega : n ≠ 0)
  unfold G
  have : ∀ k ∈ range n, F n x k * (twiddle n)⁻¹ ^ (j * k) = ∑ i ∈ range n, x i * (twiddle n ^ (i * k) * (twiddle n)⁻¹ ^ (j * k)) := by
    intro k hk
    rw [F, sum_mul]
    exact sum_congr rfl fun j _ => by ring
  rw [sum_congr rfl this, sum_comm]
  have h2 : ∀ i ∈ range n, ∑ k ∈ range n, x i * (twiddle n ^ (i * k) * (twiddle n)⁻¹ ^ (j * k)) = if j = i then x j * n else 0 := by
    intro i hi
    rw [← mul_sum, sum_twiddle _ j i hj (mem_range.mp hi)]
    split_ifs with h
    · rw [h]
    · ring
  rw [sum_congr rfl h2, sum_ite_eq, if_pos (mem_range.mpr hj)]
  field_simp

/-- Every vector of bins is a transform. -/
theorem parsevalG (n : ℕ) (hn : n ≠ 0) (y : ℕ → ℂ) : √n * l2 n (G n y) = l2 n y := by
  have hn' : (n : ℂ) ≠ 0 := by exact_mod_cast hn
  have hc : ∀ j, G n y j = (starRingEnd ℂ) (F n (fun k => (starRingEnd ℂ) (y k)) j) / n := by
    intro j
    unfold G F
    rw [map_sum]
    congr 1
    refine sum_congr rfl fun k _ => ?_
    rw [map_mul, map_pow, conj_twiddle, Complex.conj_conj, mul_comm j k]
  have h1 : l2 n (G n y) = (n : ℝ)⁻¹ * l2 n (F n (fun k => (starRingEnd ℂ) (y k))) := by
    rw [← smul n _ (by positivity)]
    unfold l2
    congr 1
    refine sum_congr rfl fun j _ => ?_
    rw [hc, div_eq_inv_mul, norm_mul, norm_mul, RCLike.norm_conj]
    simp
  have h2 : l2 n (fun k => (starRingEnd ℂ) (y k)) = l2 n y := by
    unfold l2; simp only [RCLike.norm_conj]
  rw [h1, parseval, h2]
  have h3 : (0 : ℝ) < n := by exact_mod_cast Nat.pos_of_ne_zero hn
  have h4 : √(n : ℝ) * √n = n := Real.mul_self_sqrt h3.le
  calc √(n : ℝ) * ((n : ℝ)⁻¹ * (√n * l2 n y)) = (√(n : ℝ) * √n) * (n : ℝ)⁻¹ * l2 n y := by ring
    _ = l2 n y := by rw [h4, mul_inv_cancel₀ h3.ne', one_mul]

/-- The error of a product of spectra. -/
theorem prod_err (n : ℕ) {e g : ℝ} (he : 0 ≤ e) (hg : 0 ≤ g) {A A' V V' P : ℕ → ℂ} (hA : l2 n (fun k => A' k - A k) ≤ e * l2 n A)
    (hV : l2 n (fun k => V' k - V k) ≤ e * l2 n V) (hP : ∀ k < n, ‖P k - A' k * V' k‖ ≤ g * (‖A' k‖ * ‖V' k‖)) :
    l2 n (fun k => P k - A k * V k) ≤ ((1 + e) ^ 2 * (1 + g) - 1) * (l2 n A * l2 n V) := by
  have a0 := nonneg n A
  have v0 := nonneg n V
  have a' := le_of_dist n hA
  have v' := le_of_dist n hV
  have hAV : 0 ≤ l2 n A * l2 n V := mul_nonneg a0 v0
  have h1 : l2 n (fun k => P k - A' k * V' k) ≤ g * ((1 + e) ^ 2 * (l2 n A * l2 n V)) := by
    have h : l2 n (fun k => P k - A' k * V' k) ≤ l2 n (fun k => (g : ℂ) * (A' k * V' k)) :=
      mono n _ _ fun k hk => (hP k hk).trans (by rw [norm_mul, norm_mul, Complex.norm_real, Real.norm_of_nonneg hg])
    rw [smul n g hg (fun k => A' k * V' k)] at h
    refine h.trans (mul_le_mul_of_nonneg_left ?_ hg)
    refine (mul_le n A' V').trans ?_
    calc l2 n A' * l2 n V' ≤ ((1 + e) * l2 n A) * ((1 + e) * l2 n V) := mul_le_mul a' v' (nonneg _ _) (by positivity)
      _ = _ := by ring
  have h2 : l2 n (fun k => (A' k - A k) * V' k) ≤ e * (1 + e) * (l2 n A * l2 n V) := by
    refine (mul_le n (fun k => A' k - A k) V').trans ?_
    calc _ ≤ (e * l2 n A) * ((1 + e) * l2 n V) := mul_le_mul hA v' (nonneg _ _) (by positivity)
      _ = _ := by ring
  have h3 : l2 n (fun k => A k * (V' k - V k)) ≤ e * (l2 n A * l2 n V) := by
    refine (mul_le n A (fun k => V' k - V k)).trans ?_
    calc _ ≤ l2 n A * (e * l2 n V) := mul_le_mul_of_nonneg_left hV a0
      _ = _ := by ring
  have h4 := add_le n (fun k => P k - A' k * V' k) (fun k => (A' k - A k) * V' k + A k * (V' k - V k))
  have h5 := add_le n (fun k => (A' k - A k) * V' k) (fun k => A k * (V' k - V k))
  have h6 : (fun k => P k - A' k * V' k + ((A' k - A k) * V' k + A k * (V' k - V k))) = fun k => P k - A k * V k := by
    funext k; ring
  rw [h6] at h4
  calc _ ≤ g * ((1 + e) ^ 2 * (l2 n A * l2 n V)) + (e * (1 + e) * (l2 n A * l2 n V) + e * (l2 n A * l2 n V)) := by linarith
    _ = _ := by ring

/-- The error of the whole chain: two transforms, the product, the inverse transform. -/
theorem chain (n : ℕ) (hn : n ≠ 0) {e g : ℝ} (he : 0 ≤ e) (hg : 0 ≤ g) {a v c : ℕ → ℂ} {A' V' P R : ℕ → ℂ}
    (hA : l2 n (fun k => A' k - F n a k) ≤ e * l2 n (F n a)) (hV : l2 n (fun k => V' k - F n v k) ≤ e * l2 n (F n v))
    (hP : ∀ k < n, ‖P k - A' k * V' k‖ ≤ g * (‖A' k‖ * ‖V' k‖)) (hc : ∀ k < n, F n a k * F n v k = F n c k)
    (hR : l2 n (fun j => R j - G n P j) ≤ e * l2 n (G n P) ∨
      ((∀ j < n, (c j).im = 0) ∧ l2 n (fun j => R j - ((G n P j).re : ℂ)) ≤ e * l2 n (G n P))) :
    l2 n (fun j => R j - c j) ≤ ((1 + e) ^ 3 * (1 + g) - 1) * (√n * (l2 n a * l2 n v)) := by
  have hp := prod_err n he hg hA hV hP
  rw [parseval, parseval] at hp
  set S := l2 n a * l2 n v with hS
  have hS0 : 0 ≤ S := mul_nonneg (nonneg _ _) (nonneg _ _)
  have hn1 : (0 : ℝ) < n := by exact_mod_cast Nat.pos_of_ne_zero hn
  have hq : 0 < √(n : ℝ) := Real.sqrt_pos.mpr hn1
  have hqq : √(n : ℝ) * √n = n := Real.mul_self_sqrt hn1.le
  have e1 : √(n : ℝ) * l2 n a * (√n * l2 n v) = √n * (√n * S) := by rw [hS]; ring
  rw [e1] at hp
  have hp' : l2 n (fun k => P k - F n c k) ≤ ((1 + e) ^ 2 * (1 + g) - 1) * (√n * (√n * S)) := by
    rw [congr (g := fun k => P k - F n a k * F n v k) fun k hk => by rw [hc k hk]]; exact hp
  -- the inverse transform of the computed product
  have hg1 : l2 n (fun j => G n P j - c j) ≤ ((1 + e) ^ 2 * (1 + g) - 1) * (√n * S) := by
    have h := parsevalG n hn (fun k => P k - F n c k)
    have h' : l2 n (G n (fun k => P k - F n c k)) = l2 n (fun j => G n P j - c j) :=
      congr fun j hj => by rw [← G_sub, G_F _ _ _ hj]
    rw [h'] at h
    rw [← h] at hp'
    have : √(n : ℝ) * l2 n (fun j => G n P j - c j) ≤ √n * (((1 + e) ^ 2 * (1 + g) - 1) * (√n * S)) := by
      calc _ ≤ _ := hp'
        _ = _ := by ring
    exact le_of_mul_le_mul_left this hq
  -- the exact result
  have hc0 : l2 n c ≤ √n * S := by
    have h1 : l2 n (F n c) ≤ √n * (√n * S) := by
      rw [congr (g := fun k => F n a k * F n v k) fun k hk => (hc k hk).symm, ← e1, ← parseval, ← parseval]
      exact mul_le n _ _
    rw [parseval] at h1
    exact le_of_mul_le_mul_left h1 hq
  have hGP : l2 n (G n P) ≤ (1 + e) ^ 2 * (1 + g) * (√n * S) := by
    have := add_le n (fun j => G n P j - c j) c
    simp only [sub_add_cancel] at this
    calc l2 n (G n P) ≤ _ := this
      _ ≤ ((1 + e) ^ 2 * (1 + g) - 1) * (√n * S) + √n * S := add_le_add hg1 hc0
      _ = _ := by ring
  have fin : ∀ Q : ℕ → ℂ, l2 n (fun j => R j - Q j) ≤ e * l2 n (G n P) → l2 n (fun j => Q j - c j) ≤ ((1 + e) ^ 2 * (1 + g) - 1) * (√n * S) →
      l2 n (fun j => R j - c j) ≤ ((1 + e) ^ 3 * (1 + g) - 1) * (√n * S) := by
    intro Q h1 h2
    have h3 := add_le n (fun j => R j - Q j) (fun j => Q j - c j)
    simp only [sub_add_sub_cancel] at h3
    have h4 : e * l2 n (G n P) ≤ e * ((1 + e) ^ 2 * (1 + g) * (√n * S)) := mul_le_mul_of_nonneg_left hGP he
    calc _ ≤ e * ((1 + e) ^ 2 * (1 + g) * (√n * S)) + ((1 + e) ^ 2 * (1 + g) - 1) * (√n * S) := by linarith
      _ = _ := by ring
  rcases hR with hR | ⟨hreal, hR⟩
  · exact fin _ hR hg1
  · refine fin _ hR (le_trans (mono n _ _ fun j hj => ?_) hg1)
    have : ((G n P j).re : ℂ) - c j = (((G n P j - c j).re : ℝ) : ℂ) := by
      apply Complex.ext
      · simp
      · simp [hreal j hj]
    rw [this, Complex.norm_real]
    exact Complex.abs_re_le_norm _

end L2
end SciCpp
