import Verif.Props.Poly
import Verif.Props.Numeric
import Mathlib.Analysis.Complex.Basic
set_option linter.unusedSectionVars false
/-
  Property theorems C147: laws of convolutions and correlations, and estimation of a delay, in exact arithmetic.
-/
namespace SciCpp
open Finset

section conv
variable {R : Type*} [CommSemiring R]

theorem sum_eq_range (l : List R) : l.sum = ∑ i ∈ range l.length, l.getD i 0 := by
  induction l with
  | nil => simp
  | cons x l ih =>
    rw [List.sum_cons, List.length_cons, Finset.sum_range_succ', ih, add_comm]
    simp

/-- **C147 (sums).**  The sum of a convolution is the product of the sums. -/
theorem C147_convolve_sum (a v : List R) (ha : a ≠ []) : ∃ r, convolve a v = .ok r ∧ r.sum = a.sum * v.sum := by
  obtain ⟨r, h1, h2, h3⟩ := C40_convolve_full a v ha
  refine ⟨r, h1, ?_⟩
  have hn : 1 ≤ a.length := List.length_pos_iff.mpr ha
  rw [sum_eq_range, sum_eq_range a, sum_eq_range v, Finset.sum_mul_sum]
  have e : ∀ k ∈ range r.length, r.getD k 0 = ∑ i ∈ range a.length, ∑ j ∈ range v.length, if i + j = k then a.getD i 0 * v.getD j 0 else 0 := by
    intro k hk
    rw [Finset.mem_range] at hk
    rw [getD_of_lt _ _ hk, h3 k hk, antidiagonal_sum_eq (fun i => a.getD i 0) (fun i => v.getD i 0) a.length v.length k
      (fun i hi => getD_of_ge _ _ hi) (fun i hi => getD_of_ge _ _ hi)]
  rw [Finset.sum_congr rfl e, Finset.sum_comm]
  apply Finset.sum_congr rfl
  intro i hi
  rw [Finset.sum_comm]
  apply Finset.sum_congr rfl
  intro j hj
  rw [Finset.mem_range] at hi hj
  rw [Finset.sum_ite_eq, if_pos (Finset.mem_range.2 (by omega))]

/-- **C147 (delay).**  Delaying an input by `d` samples delays the convolution by `d` samples. -/
theorem C147_convolve_delay (a v : List R) (ha : a ≠ []) (hv : v ≠ []) (d : ℕ) :
    ∃ r, convolve a v = .ok r ∧ convolve (List.replicate d 0 ++ a) v = .ok (List.replicate d 0 ++ r) := by
  obtain ⟨r, h1, h2, h3⟩ := C40_convolve_full a v ha
  obtain ⟨s, g1, g2, g3⟩ := C40_convolve_full (List.replicate d 0 ++ a) v (by simp [ha])
  refine ⟨r, h1, ?_⟩
  rw [g1]
  congr 1
  have hn : 1 ≤ a.length := List.length_pos_iff.mpr ha
  have hm : 1 ≤ v.length := List.length_pos_iff.mpr hv
  rw [List.length_append, List.length_replicate] at g2
  apply List.ext_getElem (by rw [List.length_append, List.length_replicate]; omega)
  intro k hk hk'
  rw [g3 k hk]
  have e1 : ∀ i, i < d → (List.replicate d 0 ++ a).getD i 0 = 0 := by
    intro i hi
    rw [List.getD_eq_getElem?_getD, List.getElem?_append_left (by simpa using hi), List.getElem?_replicate_of_lt hi]; rfl
  have e2 : ∀ i, (List.replicate d 0 ++ a).getD (d + i) 0 = a.getD i 0 := by
    intro i
    rw [List.getD_eq_getElem?_getD, List.getElem?_append_right (by simp), List.length_replicate, Nat.add_sub_cancel_left, List.getD_eq_getElem?_getD]
  rw [Finset.Nat.sum_antidiagonal_eq_sum_range_succ (fun i j : ℕ => (List.replicate d (0 : R) ++ a : List R).getD i 0 * v.getD j 0)]
  rcases Nat.lt_or_ge k d with h | h
  · rw [List.getElem_append_left (by simpa using h), List.getElem_replicate]
    apply Finset.sum_eq_zero
    intro i hi
    rw [Finset.mem_range] at hi
    rw [e1 i (by omega), zero_mul]
  · rw [List.getElem_append_right (by simpa using h)]
    simp only [List.length_replicate]
    obtain ⟨q, rfl⟩ := Nat.exists_eq_add_of_le h
    simp only [Nat.add_sub_cancel_left]
    rw [h3 q (by omega), Finset.Nat.sum_antidiagonal_eq_sum_range_succ (fun i j : ℕ => a.getD i 0 * v.getD j 0), Nat.succ_eq_add_one, add_assoc, Finset.sum_range_add,
      Finset.sum_eq_zero, zero_add]
    · apply Finset.sum_congr rfl
      intro i hi
      rw [Finset.mem_range] at hi
      rw [e2, Nat.add_sub_add_left]
    · intro i hi
      rw [Finset.mem_range] at hi
      rw [e1 i hi, zero_mul]

end conv

/-! ### correlation -/

/-- Energy of a signal. -/
noncomputable def Spec.energyC (l : List ℂ) : ℝ := (l.map fun z => ‖z‖ ^ 2).sum

theorem energyC_eq (l : List ℂ) : Spec.energyC l = ∑ i ∈ range l.length, ‖l.getD i 0‖ ^ 2 := by
  unfold Spec.energyC
  rw [sum_eq_range, List.length_map]
  apply Finset.sum_congr rfl
  intro i hi
  rw [Finset.mem_range] at hi
  simp [List.getD_eq_getElem?_getD, hi]

/-- **C147 (Cauchy-Schwarz).**  No value of a correlation exceeds the geometric mean of the energies. -/
theorem C147_correlate_bound (a v : List ℂ) (hv : v ≠ []) :
    ∃ r, correlate (starRingEnd ℂ) a v = .ok r ∧ ∀ z ∈ r, ‖z‖ ^ 2 ≤ Spec.energyC a * Spec.energyC v := by
  obtain ⟨r, h1, h2, h3⟩ := C42_correlate (starRingEnd ℂ) a v hv
  refine ⟨r, h1, fun z hz => ?_⟩
  obtain ⟨k, hk, rfl⟩ := List.getElem_of_mem hz
  rw [h3 k hk, energyC_eq, energyC_eq]
  set S := (range a.length ×ˢ range v.length).filter fun p => p.1 + (v.length - 1) = p.2 + k with hS
  have hsum : (∑ i ∈ range a.length, ∑ j ∈ range v.length, if i + (v.length - 1) = j + k then a.getD i 0 * (starRingEnd ℂ) (v.getD j 0) else 0)
      = ∑ p ∈ S, a.getD p.1 0 * (starRingEnd ℂ) (v.getD p.2 0) := by
    rw [hS, Finset.sum_filter, Finset.sum_product]
  rw [hsum]
  have hn : ‖∑ p ∈ S, a.getD p.1 0 * (starRingEnd ℂ) (v.getD p.2 0)‖ ≤ ∑ p ∈ S, ‖a.getD p.1 0‖ * ‖v.getD p.2 0‖ := by
    refine (norm_sum_le _ _).trans (le_of_eq (Finset.sum_congr rfl fun p _ => ?_))
    rw [norm_mul, RCLike.norm_conj]
  have hcs := Finset.sum_mul_sq_le_sq_mul_sq S (fun p => ‖a.getD p.1 0‖) (fun p => ‖v.getD p.2 0‖)
  have i1 : ∑ p ∈ S, ‖a.getD p.1 0‖ ^ 2 ≤ ∑ i ∈ range a.length, ‖a.getD i 0‖ ^ 2 := by
    have hinj : Set.InjOn Prod.fst (S : Set (ℕ × ℕ)) := by
      rintro ⟨i, j⟩ h ⟨i', j'⟩ h' e
      simp only [hS, coe_filter, mem_product, Finset.mem_range, Set.mem_ofPred_eq] at h h' e
      simp only [Prod.mk.injEq]; omega
    rw [← Finset.sum_image (f := fun i => ‖a.getD i 0‖ ^ 2) hinj]
    apply Finset.sum_le_sum_of_subset_of_nonneg
    · intro i hi
      obtain ⟨p, hp, rfl⟩ := Finset.mem_image.1 hi
      simp only [hS, mem_filter, mem_product] at hp
      exact hp.1.1
    · intros; positivity
  have i2 : ∑ p ∈ S, ‖v.getD p.2 0‖ ^ 2 ≤ ∑ j ∈ range v.length, ‖v.getD j 0‖ ^ 2 := by
    have hinj : Set.InjOn Prod.snd (S : Set (ℕ × ℕ)) := by
      rintro ⟨i, j⟩ h ⟨i', j'⟩ h' e
      simp only [hS, coe_filter, mem_product, Finset.mem_range, Set.mem_ofPred_eq] at h h' e
      simp only [Prod.mk.injEq]; omega
    rw [← Finset.sum_image (f := fun i => ‖v.getD i 0‖ ^ 2) hinj]
    apply Finset.sum_le_sum_of_subset_of_nonneg
    · intro i hi
      obtain ⟨p, hp, rfl⟩ := Finset.mem_image.1 hi
      simp only [hS, mem_filter, mem_product] at hp
      exact hp.1.2
    · intros; positivity
  calc ‖∑ p ∈ S, a.getD p.1 0 * (starRingEnd ℂ) (v.getD p.2 0)‖ ^ 2 ≤ (∑ p ∈ S, ‖a.getD p.1 0‖ * ‖v.getD p.2 0‖) ^ 2 := by gcongr
    _ ≤ _ := hcs
    _ ≤ _ := mul_le_mul i1 i2 (Finset.sum_nonneg fun _ _ => by positivity) (Finset.sum_nonneg fun _ _ => by positivity)

/-- **C147 (zero lag).**  The autocorrelation at lag 0 is the energy. -/
theorem C147_autocorrelation (a : List ℂ) (ha : a ≠ []) :
    ∃ r, correlate (starRingEnd ℂ) a a = .ok r ∧ r[a.length - 1]? = some (Spec.energyC a : ℂ) ∧
      ∀ z ∈ r, ‖z‖ ≤ Spec.energyC a := by
  obtain ⟨r, h1, h2, h3⟩ := C42_correlate (starRingEnd ℂ) a a ha
  obtain ⟨r', g1, g2⟩ := C147_correlate_bound a a ha
  rw [h1] at g1; cases g1
  have hn : 1 ≤ a.length := List.length_pos_iff.mpr ha
  refine ⟨r, h1, ?_, fun z hz => ?_⟩
  · rw [List.getElem?_eq_getElem (by omega), h3 _ (by omega), energyC_eq]
    congr 1
    push_cast
    apply Finset.sum_congr rfl
    intro i hi
    rw [Finset.sum_eq_single i]
    · rw [if_pos rfl, Complex.mul_conj, Complex.normSq_eq_norm_sq]; push_cast; rfl
    · intro j _ hj
      rw [if_neg (by omega)]
    · intro h; exact absurd hi h
  · have h := g2 z hz
    have he : 0 ≤ Spec.energyC a := by rw [energyC_eq]; exact Finset.sum_nonneg fun _ _ => by positivity
    nlinarith [norm_nonneg z]

/-! ### estimation of a delay -/

section delay
variable {K : Type*} [Field K] [LinearOrder K] [IsStrictOrderedRing K]

/-- A list as a two-sided sequence of finite support. -/
def zext (a : List K) (t : ℤ) : K := if 0 ≤ t then a.getD t.toNat 0 else 0

theorem zext_nat (a : List K) (j : ℕ) : zext a (j : ℤ) = a.getD j 0 := by simp [zext]

theorem zext_out (a : List K) (t : ℤ) (h : t < 0 ∨ (a.length : ℤ) ≤ t) : zext a t = 0 := by
  unfold zext
  split
  · exact getD_of_ge _ _ (by omega)
  · rfl

theorem shift_energy_le (a : List K) (s : ℤ) : ∑ j ∈ range a.length, zext a ((j : ℤ) + s) ^ 2 ≤ ∑ j ∈ range a.length, zext a (j : ℤ) ^ 2 := by
  have e1 : ∑ j ∈ range a.length, zext a ((j : ℤ) + s) ^ 2 = ∑ t ∈ (range a.length).image (fun j : ℕ => (j : ℤ) + s), zext a t ^ 2 := by
    rw [Finset.sum_image]; intro i _ j _ h; simpa using h
  have e2 : ∑ j ∈ range a.length, zext a (j : ℤ) ^ 2 = ∑ t ∈ (range a.length).image (fun j : ℕ => (j : ℤ)), zext a t ^ 2 := by
    rw [Finset.sum_image]; intro i _ j _ h; simpa using h
  rw [e1, e2]
  set A := (range a.length).image (fun j : ℕ => (j : ℤ) + s)
  set B := (range a.length).image (fun j : ℕ => (j : ℤ))
  have h : ∑ t ∈ A ∪ B, zext a t ^ 2 = ∑ t ∈ B, zext a t ^ 2 := by
    symm
    apply Finset.sum_subset Finset.subset_union_right
    intro t _ ht
    rw [zext_out, zero_pow two_ne_zero]
    by_contra hc
    push Not at hc
    exact ht (Finset.mem_image.2 ⟨t.toNat, Finset.mem_range.2 (by omega), by omega⟩)
  rw [← h]
  exact Finset.sum_le_sum_of_subset_of_nonneg Finset.subset_union_left fun _ _ _ => sq_nonneg _

theorem autocorr_lt (a : List K) (ha : ∃ x ∈ a, x ≠ 0) (s : ℤ) (hs : s ≠ 0) :
    ∑ j ∈ range a.length, zext a (j : ℤ) * zext a ((j : ℤ) + s) < ∑ j ∈ range a.length, zext a (j : ℤ) ^ 2 := by
  have hle := shift_energy_le a s
  -- an index where the shifted signal is zero and the signal is not
  have hex : ∃ j ∈ range a.length, zext a (j : ℤ) ≠ 0 ∧ zext a ((j : ℤ) + s) = 0 := by
    obtain ⟨S, hS⟩ : ∃ S, S = (range a.length).filter fun j : ℕ => zext a (j : ℤ) ≠ 0 := ⟨_, rfl⟩
    have hne : S.Nonempty := by
      obtain ⟨x, hx, h0⟩ := ha
      obtain ⟨i, hi, rfl⟩ := List.getElem_of_mem hx
      exact ⟨i, by rw [hS, mem_filter, zext_nat, getD_of_lt _ _ hi]; exact ⟨Finset.mem_range.2 hi, h0⟩⟩
    have hzero : ∀ t : ℤ, t.toNat ∉ S → zext a t = 0 := by
      intro t ht
      by_contra hc
      rcases lt_or_ge t 0 with h | h
      · exact hc (zext_out a t (Or.inl h))
      · rcases lt_or_ge t (a.length : ℤ) with h' | h'
        · exact ht (by rw [hS, mem_filter, Int.toNat_of_nonneg h]; exact ⟨Finset.mem_range.2 (by omega), hc⟩)
        · exact hc (zext_out a t (Or.inr h'))
    rcases lt_or_gt_of_ne hs with h | h
    · have hm : S.min' hne ∈ (range a.length).filter fun j : ℕ => zext a (j : ℤ) ≠ 0 := hS ▸ S.min'_mem hne
      rw [mem_filter] at hm
      refine ⟨S.min' hne, hm.1, hm.2, ?_⟩
      rcases lt_or_ge ((S.min' hne : ℤ) + s) 0 with h' | h'
      · exact zext_out a _ (Or.inl h')
      · refine hzero _ fun hc => ?_
        have := S.min'_le _ hc
        omega
    · have hm : S.max' hne ∈ (range a.length).filter fun j : ℕ => zext a (j : ℤ) ≠ 0 := hS ▸ S.max'_mem hne
      rw [mem_filter] at hm
      refine ⟨S.max' hne, hm.1, hm.2, hzero _ fun hc => ?_⟩
      have := S.le_max' _ hc
      omega
  obtain ⟨j0, hj0, hn0, hz0⟩ := hex
  have hpos : 0 < ∑ j ∈ range a.length, (zext a (j : ℤ) - zext a ((j : ℤ) + s)) ^ 2 := by
    apply Finset.sum_pos' (fun _ _ => sq_nonneg _) ⟨j0, hj0, ?_⟩
    rw [hz0, sub_zero]; positivity
  have hid : ∑ j ∈ range a.length, (zext a (j : ℤ) - zext a ((j : ℤ) + s)) ^ 2 =
      ∑ j ∈ range a.length, zext a (j : ℤ) ^ 2 + ∑ j ∈ range a.length, zext a ((j : ℤ) + s) ^ 2 -
        2 * ∑ j ∈ range a.length, zext a (j : ℤ) * zext a ((j : ℤ) + s) := by
    rw [Finset.mul_sum, ← Finset.sum_add_distrib, ← Finset.sum_sub_distrib]
    apply Finset.sum_congr rfl
    intros; ring
  linarith

/-- The received signal: `d` zeros, the signal scaled by `c`, `e` zeros. -/
def Spec.received (c : K) (d e : ℕ) (a : List K) : List K := List.replicate d 0 ++ a.map (c * ·) ++ List.replicate e 0

theorem received_getD (c : K) (d e : ℕ) (a : List K) (i : ℕ) : (Spec.received c d e a).getD i 0 = c * zext a ((i : ℤ) - d) := by
  unfold Spec.received
  rw [List.getD_eq_getElem?_getD]
  rcases Nat.lt_or_ge i d with h | h
  · rw [zext_out _ _ (Or.inl (by omega)), List.append_assoc, List.getElem?_append_left (by simpa using h), List.getElem?_replicate_of_lt h]
    simp
  · obtain ⟨q, rfl⟩ := Nat.exists_eq_add_of_le h
    rw [show ((d + q : ℕ) : ℤ) - d = (q : ℤ) by push_cast; ring, zext_nat, List.append_assoc, List.getElem?_append_right (by simp),
      List.length_replicate, Nat.add_sub_cancel_left]
    rcases Nat.lt_or_ge q a.length with h' | h'
    · rw [List.getElem?_append_left (by simpa using h'), List.getElem?_map, List.getElem?_eq_getElem h', getD_of_lt _ _ h']; rfl
    · rw [List.getElem?_append_right (by simpa using h'), getD_of_ge _ _ h', mul_zero, List.getElem?_replicate]
      split <;> rfl

theorem received_correlate (c : K) (d e : ℕ) (a : List K) (ha : a ≠ []) :
    ∃ r, correlate id (Spec.received c d e a) a = .ok r ∧ r.length = d + a.length + e + a.length - 1 ∧
      ∀ k, (hk : k < r.length) → r[k] = c * ∑ j ∈ range a.length, zext a (j : ℤ) * zext a ((j : ℤ) + ((k : ℤ) - (a.length - 1) - d)) := by
  obtain ⟨r, h1, h2, h3⟩ := C42_correlate id (Spec.received c d e a) a ha
  have hn : 1 ≤ a.length := List.length_pos_iff.mpr ha
  have hlen : (Spec.received c d e a).length = d + a.length + e := by simp [Spec.received]; omega
  rw [hlen] at h2
  refine ⟨r, h1, h2, fun k hk => ?_⟩
  rw [h3 k hk, Finset.sum_comm, Finset.mul_sum]
  apply Finset.sum_congr rfl
  intro j hj
  rw [Finset.mem_range] at hj
  rw [zext_nat]
  by_cases hin : a.length - 1 ≤ j + k ∧ j + k - (a.length - 1) < d + a.length + e
  · rw [Finset.sum_eq_single (j + k - (a.length - 1))]
    · rw [if_pos (by omega), received_getD, id, show ((j + k - (a.length - 1) : ℕ) : ℤ) - d = (j : ℤ) + ((k : ℤ) - (a.length - 1) - d) by omega]
      ring
    · intro i _ hi
      rw [if_neg (by omega)]
    · intro h
      rw [hlen, Finset.mem_range] at h
      omega
  · rw [Finset.sum_eq_zero, zext_out a _ (by omega), mul_zero, mul_zero]
    intro i hi
    rw [hlen, Finset.mem_range] at hi
    rw [if_neg (by omega)]

/-- **C147 (delay estimation).**  A signal that is not zero is received `d` samples later, scaled by a positive gain and followed by any number of zeros.
The index of the largest value of the correlation with the transmitted signal, minus the length of the latter plus one, is the delay. -/
theorem C147_delay (c : K) (hc : 0 < c) (d e : ℕ) (a : List K) (ha : ∃ x ∈ a, x ≠ 0) :
    ∃ r, correlate id (Spec.received c d e a) a = .ok r ∧ argmax (fun u v => decide (u > v)) r (fun _ => true) = .ok (d + a.length - 1) := by
  have hne : a ≠ [] := by rintro rfl; obtain ⟨x, hx, -⟩ := ha; simp at hx
  have hn : 1 ≤ a.length := List.length_pos_iff.mpr hne
  obtain ⟨r, h1, h2, h3⟩ := received_correlate c d e a hne
  refine ⟨r, h1, ?_⟩
  have hr : r ≠ [] := by rw [← List.length_pos_iff]; omega
  obtain ⟨⟨i, hi, h4, h5, -⟩, -⟩ := (C08_argmax_argmin r).1 hr
  rw [h4]
  by_contra hcon
  have hid : i ≠ d + a.length - 1 := fun h => hcon (by rw [h])
  have hp : d + a.length - 1 < r.length := by omega
  have hmax := h5 _ (List.getElem_mem hp)
  rw [h3 _ hp, h3 i hi] at hmax
  have h6 := autocorr_lt a ha ((i : ℤ) - (a.length - 1) - d) (by omega)
  have h7 : ∑ j ∈ range a.length, zext a (j : ℤ) * zext a ((j : ℤ) + (((d + a.length - 1 : ℕ) : ℤ) - (a.length - 1) - d)) =
      ∑ j ∈ range a.length, zext a (j : ℤ) ^ 2 := by
    apply Finset.sum_congr rfl
    intro j _
    rw [show (j : ℤ) + (((d + a.length - 1 : ℕ) : ℤ) - (a.length - 1) - d) = (j : ℤ) by omega, sq]
  rw [h7] at hmax
  nlinarith [mul_lt_mul_of_pos_left h6 hc]

/-- The margin of a signal: no autocorrelation at another lag comes closer than this to the energy. -/
def Spec.Margin (a : List K) (μ : K) : Prop :=
  ∀ s : ℤ, s ≠ 0 → ∑ j ∈ range a.length, zext a (j : ℤ) * zext a ((j : ℤ) + s) + μ ≤ ∑ j ∈ range a.length, zext a (j : ℤ) ^ 2

/-- **C147 (margin).**  Every signal that is not zero has a positive margin. -/
theorem C147_margin (a : List K) (ha : ∃ x ∈ a, x ≠ 0) : ∃ μ, 0 < μ ∧ Spec.Margin a μ := by
  have hE : 0 < ∑ j ∈ range a.length, zext a (j : ℤ) ^ 2 := by
    obtain ⟨x, hx, h0⟩ := ha
    obtain ⟨i, hi, rfl⟩ := List.getElem_of_mem hx
    refine Finset.sum_pos' (fun _ _ => sq_nonneg _) ⟨i, Finset.mem_range.2 hi, ?_⟩
    rw [zext_nat, getD_of_lt _ _ hi]; positivity
  set E := ∑ j ∈ range a.length, zext a (j : ℤ) ^ 2 with hEdef
  set S : Finset ℤ := (Finset.Icc (-(a.length : ℤ)) a.length).erase 0 with hS
  set f : ℤ → K := fun s => E - ∑ j ∈ range a.length, zext a (j : ℤ) * zext a ((j : ℤ) + s) with hf
  have hfar : ∀ s : ℤ, s ≠ 0 → s ∉ S → f s = E := by
    intro s h0 hs
    rw [hf]
    simp only [sub_eq_self]
    apply Finset.sum_eq_zero
    intro j hj
    rw [Finset.mem_range] at hj
    rw [hS, Finset.mem_erase, Finset.mem_Icc] at hs
    rw [zext_out a ((j : ℤ) + s) (by by_contra hc; push Not at hc; exact hs ⟨h0, by omega, by omega⟩), mul_zero]
  have hpos : ∀ s : ℤ, s ≠ 0 → 0 < f s := fun s h0 => sub_pos.2 (autocorr_lt a ha s h0)
  have key : ∀ T : Finset ℤ, (∀ s ∈ T, s ≠ 0) → ∃ μ, 0 < μ ∧ μ ≤ E ∧ ∀ s ∈ T, μ ≤ f s := by
    intro T
    induction T using Finset.induction_on with
    | empty => intro _; exact ⟨E, hE, le_rfl, by simp⟩
    | insert t T _ ih =>
      intro h
      obtain ⟨μ, m1, m2, m3⟩ := ih fun s hs => h s (Finset.mem_insert_of_mem hs)
      refine ⟨min μ (f t), lt_min m1 (hpos t (h t (Finset.mem_insert_self _ _))), (min_le_left _ _).trans m2, fun s hs => ?_⟩
      rcases Finset.mem_insert.1 hs with rfl | hs
      · exact min_le_right _ _
      · exact (min_le_left _ _).trans (m3 s hs)
  obtain ⟨μ, m1, m2, m3⟩ := key S fun s hs => (Finset.mem_erase.1 hs).1
  refine ⟨μ, m1, fun s h0 => ?_⟩
  have : μ ≤ f s := by
    by_cases hs : s ∈ S
    · exact m3 s hs
    · rw [hfar s h0 hs]; exact m2
  rw [hf] at this
  linarith

/-- **C147 (robustness).**  The largest value stays at the delay when every value of the correlation has an error below half of the gain times the margin,
whatever the errors come from (rounding, the FFT method, noise). -/
theorem C147_delay_robust (c μ : K) (hc : 0 < c) (d e : ℕ) (a : List K) (ha : a ≠ []) (hm : Spec.Margin a μ) :
    ∃ r, correlate id (Spec.received c d e a) a = .ok r ∧
      ∀ r' : List K, r'.length = r.length → (∀ k (h : k < r.length) (h' : k < r'.length), |r'[k] - r[k]| < c * μ / 2) →
        argmax (fun u v => decide (u > v)) r' (fun _ => true) = .ok (d + a.length - 1) := by
  have hn : 1 ≤ a.length := List.length_pos_iff.mpr ha
  obtain ⟨r, h1, h2, h3⟩ := received_correlate c d e a ha
  refine ⟨r, h1, fun r' hl hb => ?_⟩
  have hr : r' ≠ [] := by rw [← List.length_pos_iff]; omega
  obtain ⟨⟨i, hi, h4, h5, -⟩, -⟩ := (C08_argmax_argmin r').1 hr
  rw [h4]
  by_contra hcon
  have hid : i ≠ d + a.length - 1 := fun h => hcon (by rw [h])
  have hp : d + a.length - 1 < r.length := by omega
  have hmax := h5 _ (List.getElem_mem (show d + a.length - 1 < r'.length by omega))
  have b1 := abs_lt.1 (hb _ hp (by omega))
  have b2 := abs_lt.1 (hb i (by omega) hi)
  rw [h3 _ hp] at b1
  rw [h3 i (by omega)] at b2
  have h6 := hm ((i : ℤ) - (a.length - 1) - d) (by omega)
  have h7 : ∑ j ∈ range a.length, zext a (j : ℤ) * zext a ((j : ℤ) + (((d + a.length - 1 : ℕ) : ℤ) - (a.length - 1) - d)) =
      ∑ j ∈ range a.length, zext a (j : ℤ) ^ 2 := by
    apply Finset.sum_congr rfl
    intro j _
    rw [show (j : ℤ) + (((d + a.length - 1 : ℕ) : ℤ) - (a.length - 1) - d) = (j : ℤ) by omega, sq]
  rw [h7] at b1
  have h8 := mul_le_mul_of_nonneg_left h6 hc.le
  rw [mul_add] at h8
  linarith [b1.1, b2.2]

theorem sum_sq_eq (l : List K) : (l.map (· ^ 2)).sum = ∑ i ∈ range l.length, l.getD i 0 ^ 2 := by
  rw [sum_eq_range, List.length_map]
  apply Finset.sum_congr rfl
  intro i hi
  rw [Finset.mem_range] at hi
  simp [List.getD_eq_getElem?_getD, hi]

/-- **C147 (noise).**  With additive noise whose energy times that of the signal is below the square of half of the gain times the margin, the delay is still recovered. -/
theorem C147_delay_noise (c μ : K) (hc : 0 < c) (hμ : 0 < μ) (d e : ℕ) (a w : List K) (ha : a ≠ []) (hm : Spec.Margin a μ)
    (hw : w.length = (Spec.received c d e a).length)
    (hn : (w.map (· ^ 2)).sum * (a.map (· ^ 2)).sum < (c * μ / 2) ^ 2) :
    ∃ r, correlate id (List.zipWith (· + ·) (Spec.received c d e a) w) a = .ok r ∧
      argmax (fun u v => decide (u > v)) r (fun _ => true) = .ok (d + a.length - 1) := by
  set x := Spec.received c d e a with hx
  obtain ⟨r, h1, h2⟩ := C147_delay_robust c μ hc d e a ha hm
  obtain ⟨r0, g1, g2, g3⟩ := C42_correlate id x a ha
  rw [h1] at g1; cases g1
  obtain ⟨s, s1, s2, s3⟩ := C42_correlate id (List.zipWith (· + ·) x w) a ha
  have hzl : (List.zipWith (· + ·) x w).length = x.length := by rw [List.length_zipWith, hw, min_self]
  rw [hzl] at s2 s3
  refine ⟨s, s1, h2 s (by omega) fun k hk hk' => ?_⟩
  rw [s3 k hk', g3 k hk]
  have hz : ∀ i, i < x.length → (List.zipWith (· + ·) x w).getD i 0 = x.getD i 0 + w.getD i 0 := by
    intro i hi
    have hi2 : i < w.length := by omega
    simp [List.getD_eq_getElem?_getD, hi, hi2]
  set S := (range x.length ×ˢ range a.length).filter fun p => p.1 + (a.length - 1) = p.2 + k with hS
  have hdiff : (∑ i ∈ range x.length, ∑ j ∈ range a.length, if i + (a.length - 1) = j + k then (List.zipWith (· + ·) x w).getD i 0 * id (a.getD j 0) else 0)
      - (∑ i ∈ range x.length, ∑ j ∈ range a.length, if i + (a.length - 1) = j + k then x.getD i 0 * id (a.getD j 0) else 0)
      = ∑ p ∈ S, w.getD p.1 0 * a.getD p.2 0 := by
    rw [hS, Finset.sum_filter, Finset.sum_product, ← Finset.sum_sub_distrib]
    apply Finset.sum_congr rfl
    intro i hi
    rw [Finset.mem_range] at hi
    rw [← Finset.sum_sub_distrib]
    apply Finset.sum_congr rfl
    intro j _
    simp only [id]
    split
    · rw [hz i hi]; ring
    · simp
  rw [hdiff]
  have hcs := Finset.sum_mul_sq_le_sq_mul_sq S (fun p => w.getD p.1 0) (fun p => a.getD p.2 0)
  have i1 : ∑ p ∈ S, w.getD p.1 0 ^ 2 ≤ (w.map (· ^ 2)).sum := by
    rw [sum_sq_eq, hw]
    have hinj : Set.InjOn Prod.fst (S : Set (ℕ × ℕ)) := by
      rintro ⟨i, j⟩ h ⟨i', j'⟩ h' e
      simp only [hS, coe_filter, mem_product, Finset.mem_range, Set.mem_ofPred_eq] at h h' e
      simp only [Prod.mk.injEq]; omega
    rw [← Finset.sum_image (f := fun i => w.getD i 0 ^ 2) hinj]
    apply Finset.sum_le_sum_of_subset_of_nonneg
    · intro i hi
      obtain ⟨p, hp, rfl⟩ := Finset.mem_image.1 hi
      simp only [hS, mem_filter, mem_product] at hp
      exact hp.1.1
    · intros; positivity
  have i2 : ∑ p ∈ S, a.getD p.2 0 ^ 2 ≤ (a.map (· ^ 2)).sum := by
    rw [sum_sq_eq]
    have hinj : Set.InjOn Prod.snd (S : Set (ℕ × ℕ)) := by
      rintro ⟨i, j⟩ h ⟨i', j'⟩ h' e
      simp only [hS, coe_filter, mem_product, Finset.mem_range, Set.mem_ofPred_eq] at h h' e
      simp only [Prod.mk.injEq]; omega
    rw [← Finset.sum_image (f := fun i => a.getD i 0 ^ 2) hinj]
    apply Finset.sum_le_sum_of_subset_of_nonneg
    · intro i hi
      obtain ⟨p, hp, rfl⟩ := Finset.mem_image.1 hi
      simp only [hS, mem_filter, mem_product] at hp
      exact hp.1.2
    · intros; positivity
  have hfin := (hcs.trans (mul_le_mul i1 i2 (Finset.sum_nonneg fun _ _ => sq_nonneg _) ((Finset.sum_nonneg fun _ _ => sq_nonneg _).trans i1))).trans_lt hn
  exact abs_lt_of_sq_lt_sq hfin (by positivity)

end delay

/-! ### examples -/

example : ∃ r, correlate id (Spec.received (1 / 2) 3 2 [1, -2, (3 : ℚ)]) [1, -2, 3] = .ok r ∧
    argmax (fun u v => decide (u > v)) r (fun _ => true) = .ok 5 :=
  C147_delay (1 / 2) (by norm_num) 3 2 [1, -2, 3] ⟨1, by simp, by norm_num⟩

/-- A pulse of one sample has its energy as margin. -/
example : Spec.Margin [(2 : ℚ)] 4 := by
  intro s hs
  have : zext [(2 : ℚ)] s = 0 := by
    rcases lt_or_gt_of_ne hs with h | h
    · exact zext_out _ _ (Or.inl h)
    · exact zext_out _ _ (Or.inr (by simp; omega))
  simp [this]
  norm_num [zext]

example : convolve [1, 2, (3 : ℤ)] [4, -1] = .ok [4, 7, 10, -3] := by decide +kernel
example : convolve [0, 0, 1, 2, (3 : ℤ)] [4, -1] = .ok [0, 0, 4, 7, 10, -3] := by decide +kernel

end SciCpp
