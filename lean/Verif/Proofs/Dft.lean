import Verif.Model.Dft
import Verif.Proofs.Convolve
import Verif.Props.Manips
import Mathlib.RingTheory.RootsOfUnity.Complex
/-
  Facts about the exact DFT: inversion, Hermitian symmetry, polynomial evaluation.
-/
namespace SciCpp

open Finset Spec Polynomial

theorem twiddle_prim (n : ℕ) (hn : n ≠ 0) : IsPrimitiveRoot (twiddle n) n := by
  unfold twiddle
  rw [Complex.exp_neg]
  exact (Complex.isPrimitiveRoot_exp n hn).inv

theorem twiddle_ne (n : ℕ) : twiddle n ≠ 0 := Complex.exp_ne_zero _

theorem twiddle_pow_self (n : ℕ) (hn : n ≠ 0) : twiddle n ^ n = 1 := (twiddle_prim n hn).pow_eq_one

theorem conj_twiddle (n : ℕ) : (starRingEnd ℂ) (twiddle n) = (twiddle n)⁻¹ := by
  unfold twiddle
  rw [← Complex.exp_conj, ← Complex.exp_neg]
  congr 1
  simp only [map_neg, map_div₀, map_mul, Complex.conj_ofReal, Complex.conj_I, map_ofNat,
    map_natCast]
  ring

/-- Orthogonality of the characters. -/
theorem sum_twiddle (n : ℕ) (i j : ℕ) (hi : i < n) (hj : j < n) :
    ∑ k ∈ range n, twiddle n ^ (j * k) * (twiddle n)⁻¹ ^ (i * k) = if i = j then (n : ℂ) else 0 := by
  have hn : n ≠ 0 := by omega
  have hne := twiddle_ne n
  set ω := twiddle n with hω
  have hprim := twiddle_prim n hn
  rw [← hω] at hprim
  have hterm : ∀ k, ω ^ (j * k) * ω⁻¹ ^ (i * k) = (ω ^ j * ω⁻¹ ^ i) ^ k := by
    intro k; rw [mul_pow, ← pow_mul, ← pow_mul]
  simp only [hterm]
  split_ifs with h
  · subst h
    rw [← mul_pow, mul_inv_cancel₀ hne]; simp
  · have h1 : ω ^ j * ω⁻¹ ^ i ≠ 1 := by
      intro hc
      have : ω ^ j = ω ^ i := by
        have h2 : ω⁻¹ ^ i * ω ^ i = 1 := by rw [← mul_pow, inv_mul_cancel₀ hne, one_pow]
        calc ω ^ j = ω ^ j * (ω⁻¹ ^ i * ω ^ i) := by rw [h2, mul_one]
          _ = ω ^ i := by rw [← mul_assoc, hc, one_mul]
      exact h (hprim.pow_inj hj hi this).symm
    have h2 : (ω ^ j * ω⁻¹ ^ i) ^ n = 1 := by
      rw [mul_pow, ← pow_mul, ← pow_mul, mul_comm j, mul_comm i, pow_mul, pow_mul, inv_pow,
        hprim.pow_eq_one]; simp
    have := mul_neg_geom_sum (ω ^ j * ω⁻¹ ^ i) n
    rw [h2, sub_self] at this
    rcases mul_eq_zero.mp this with h3 | h3
    · exact absurd (sub_eq_zero.mp h3).symm h1
    · exact h3

theorem dft_length (x : List ℂ) : (dft x).length = x.length := by simp [dft]

theorem idft_length (x : List ℂ) : (idft x).length = x.length := by simp [idft]

theorem getD_map_range {α : Type} (f : ℕ → α) (n k : ℕ) (d : α) (h : k < n) :
    ((List.range n).map f).getD k d = f k := by
  rw [List.getD_eq_getElem?_getD, List.getElem?_map, List.getElem?_range h]; rfl

theorem dft_getD (x : List ℂ) (k : ℕ) (h : k < x.length) :
    (dft x).getD k 0 = ∑ j ∈ range x.length, x.getD j 0 * twiddle x.length ^ (j * k) :=
  getD_map_range _ _ _ _ h

theorem list_ext_getD {α : Type} [Zero α] {a b : List α} (hl : a.length = b.length)
    (h : ∀ i, i < a.length → a.getD i 0 = b.getD i 0) : a = b := by
  apply List.ext_getElem hl
  intro i h1 h2
  have := h i h1
  rwa [getD_of_lt _ _ h1, getD_of_lt _ _ h2] at this

/-- The inverse DFT undoes the DFT. -/
theorem idft_dft (x : List ℂ) : idft (dft x) = x := by
  apply list_ext_getD (by rw [idft_length, dft_length])
  intro i hi
  rw [idft_length, dft_length] at hi
  have hn : (x.length : ℂ) ≠ 0 := by exact_mod_cast (by omega : x.length ≠ 0)
  unfold idft
  rw [getD_map_range _ _ _ _ (by rw [dft_length]; exact hi), dft_length]
  have : ∀ k ∈ range x.length, (dft x).getD k 0 * (twiddle x.length)⁻¹ ^ (i * k)
      = ∑ j ∈ range x.length, x.getD j 0 * (twiddle x.length ^ (j * k)
          * (twiddle x.length)⁻¹ ^ (i * k)) := by
    intro k hk
    rw [dft_getD x k (mem_range.mp hk), Finset.sum_mul]
    exact Finset.sum_congr rfl fun j _ => by ring
  rw [Finset.sum_congr rfl this, Finset.sum_comm]
  have h2 : ∀ j ∈ range x.length, ∑ k ∈ range x.length, x.getD j 0 * (twiddle x.length ^ (j * k)
      * (twiddle x.length)⁻¹ ^ (i * k)) = if i = j then x.getD i 0 * x.length else 0 := by
    intro j hj
    rw [← Finset.mul_sum, sum_twiddle _ i j hi (mem_range.mp hj)]
    split_ifs with h
    · rw [h]
    · ring
  rw [Finset.sum_congr rfl h2, Finset.sum_ite_eq, if_pos (mem_range.mpr hi)]
  field_simp

theorem eval_polyOf (x : List ℂ) (z : ℂ) (n : ℕ) (h : x.length ≤ n) :
    (polyOf x).eval z = ∑ j ∈ range n, x.getD j 0 * z ^ j := by
  induction x generalizing n with
  | nil => simp [polyOf]
  | cons a l ih =>
    obtain ⟨n', rfl⟩ : ∃ n', n = n' + 1 := ⟨n - 1, by simp at h; omega⟩
    rw [Finset.sum_range_succ']
    simp only [polyOf, eval_add, eval_C, eval_mul, eval_X, List.getD_cons_succ, List.getD_cons_zero,
      pow_zero, mul_one]
    rw [ih n' (by simpa using h), Finset.mul_sum, add_comm]
    congr 1
    exact Finset.sum_congr rfl fun j _ => by ring

/-- `zero_padding` keeps `getD` (as long as nothing is cut off). -/
theorem pad_getD {α : Type} [Zero α] (v : List α) (n k : ℕ) (h : v.length ≤ n ∨ k < n) :
    (v.take n ++ List.replicate (n - v.length) 0).getD k 0 = v.getD k 0 := by
  simp only [List.getD_eq_getElem?_getD]
  rcases Nat.lt_or_ge k (v.take n).length with h1 | h1
  · rw [List.getElem?_append_left h1]
    simp only [List.length_take] at h1
    rw [List.getElem?_take_of_lt (by omega)]
  · rw [List.getElem?_append_right h1, List.getElem?_replicate]
    simp only [List.length_take] at h1 ⊢
    have : v[k]? = none := by rw [List.getElem?_eq_none_iff]; omega
    rw [this]
    split_ifs <;> rfl

theorem dft_pad_getD (x : List ℂ) (n k : ℕ) (hk : k < n) :
    (dft (x.take n ++ List.replicate (n - x.length) 0)).getD k 0
      = ∑ j ∈ range n, x.getD j 0 * twiddle n ^ (j * k) := by
  have hl : (x.take n ++ List.replicate (n - x.length) (0 : ℂ)).length = n := (C46_zero_padding x n).2.2
  rw [dft_getD _ _ (by rw [hl]; exact hk), hl]
  refine Finset.sum_congr rfl fun j hj => ?_
  rw [pad_getD _ _ _ (.inr (mem_range.mp hj))]

/-- The product of the spectra of the padded operands is the spectrum of the padded linear
convolution, whenever the padded length holds the whole convolution. -/
theorem dft_conv (a v r : List ℂ) (n : ℕ) (hn : a.length + v.length - 1 ≤ n)
    (hr : r.length = a.length + v.length - 1) (hp : polyOf r = polyOf a * polyOf v) (k : ℕ)
    (hk : k < n) :
    (dft (a.take n ++ List.replicate (n - a.length) 0)).getD k 0
      * (dft (v.take n ++ List.replicate (n - v.length) 0)).getD k 0
      = (dft (r.take n ++ List.replicate (n - r.length) 0)).getD k 0 := by
  rw [dft_pad_getD _ _ _ hk, dft_pad_getD _ _ _ hk, dft_pad_getD _ _ _ hk]
  have hpow : ∀ x : List ℂ, ∑ j ∈ range n, x.getD j 0 * twiddle n ^ (j * k)
      = ∑ j ∈ range n, x.getD j 0 * (twiddle n ^ k) ^ j := fun x =>
    Finset.sum_congr rfl fun j _ => by rw [← pow_mul, mul_comm k]
  rw [hpow, hpow, hpow]
  have hr2 : r.length ≤ n := by omega
  rw [← eval_polyOf r _ n hr2, hp]
  rcases Nat.eq_zero_or_pos a.length with h0 | h0
  · rw [List.length_eq_zero_iff.mp h0]; simp [polyOf]
  rcases Nat.eq_zero_or_pos v.length with h1 | h1
  · rw [List.length_eq_zero_iff.mp h1]; simp [polyOf]
  rw [← eval_polyOf a _ n (by omega), ← eval_polyOf v _ n (by omega), eval_mul]

/-- Hermitian symmetry of the spectrum of a real signal. -/
theorem dft_real_symm (x : List ℝ) (k : ℕ) (h0 : 0 < k) (hk : k < x.length) :
    (dft (x.map (fun v : ℝ => (v : ℂ)))).getD k 0
      = (starRingEnd ℂ) ((dft (x.map (fun v : ℝ => (v : ℂ)))).getD (x.length - k) 0) := by
  set n := x.length with hn
  have hl : (x.map (fun v : ℝ => (v : ℂ))).length = n := by simp [hn]
  rw [dft_getD _ _ (by omega), dft_getD _ _ (by omega), hl, map_sum]
  refine Finset.sum_congr rfl fun j hj => ?_
  have hj' := mem_range.mp hj
  rw [map_mul, map_pow, conj_twiddle]
  have hreal : (starRingEnd ℂ) ((x.map (fun v : ℝ => (v : ℂ))).getD j 0)
      = (x.map (fun v : ℝ => (v : ℂ))).getD j 0 := by
    rw [getD_of_lt _ _ (by omega)]
    simp
  rw [hreal]
  congr 1
  have hne := twiddle_ne n
  have h1 : twiddle n ^ (j * k) * twiddle n ^ (j * (n - k)) = 1 := by
    rw [← pow_add, ← Nat.mul_add, Nat.add_sub_cancel' (by omega), mul_comm, pow_mul,
      twiddle_pow_self n (by omega), one_pow]
  rw [inv_pow]
  exact eq_inv_of_mul_eq_one_left h1

/-- The inverse real transform recovers a real signal from the lower half of its spectrum. -/
theorem eigenInvReal_half (x : List ℝ) (y : List ℂ) (hx : x ≠ []) (hy : y.length = x.length)
    (hhalf : ∀ k, k ≤ x.length / 2 → y.getD k 0 = (dft (x.map (fun v : ℝ => (v : ℂ)))).getD k 0) :
    eigenInvReal y = .ok x := by
  have hl : 0 < x.length := List.length_pos_iff.mpr hx
  unfold eigenInvReal
  rw [if_neg (by omega), hy]
  have hext : hermExt x.length y = dft (x.map (fun v : ℝ => (v : ℂ))) := by
    apply list_ext_getD (by simp [hermExt, dft_length])
    intro k hk
    have hk' : k < x.length := by simpa [hermExt] using hk
    unfold hermExt
    rw [getD_map_range _ _ _ _ hk']
    split_ifs with h
    · exact hhalf k h
    · rw [hhalf _ (by omega), ← dft_real_symm x k (by omega) hk']
  rw [hext, idft_dft]
  simp [Function.comp_def]

end SciCpp
