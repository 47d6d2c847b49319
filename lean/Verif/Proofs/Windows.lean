import Verif.Model.Windows
import Mathlib.Tactic.Linarith
import Mathlib.Tactic.FieldSimp
import Mathlib.Tactic.NormNum
import Mathlib.Tactic.Positivity
import Mathlib.Tactic.Push
import Mathlib.Analysis.SpecialFunctions.Trigonometric.Bounds
/-
  Lemmas about the window fillers.
-/
namespace SciCpp

set_option linter.unusedSectionVars false

universe u
variable {α : Type u}

/-- What `symmetric_filler` computes: sample `i` is `f` at the larger of `i` and `N-1-i`. -/
theorem symmetricFiller_eq (cast : ℕ → α) (f : α → α) (w : List α) :
    symmetricFiller cast f w =
      .ok ((List.range w.length).map fun i : ℕ => f (cast (max i (w.length - 1 - i)))) := by
  unfold symmetricFiller
  simp only
  set N := w.length with hN
  set h := N / 2 with hh
  have hlt : (w.take h).length = h := by rw [List.length_take]; omega
  have e1 : List.take h (w.take h ++ (List.range (N - h)).map fun k : ℕ => cast (h + k)) = w.take h := by
    rw [List.take_left' hlt]
  have e2 : List.drop h (w.take h ++ (List.range (N - h)).map fun k : ℕ => cast (h + k))
      = (List.range (N - h)).map fun k : ℕ => cast (h + k) := by
    rw [List.drop_left' hlt]
  rw [e1, e2, List.map_map]
  have hget : ∀ i, h ≤ i → i < N →
      (w.take h ++ (List.range (N - h)).map (f ∘ fun k : ℕ => cast (h + k)))[i]? = some (f (cast i)) := by
    intro i h1 h2
    rw [List.getElem?_append_right (by omega), hlt, List.getElem?_map, List.getElem?_range (by omega)]
    simp only [Option.map_some, Function.comp]
    rw [show h + (i - h) = i by omega]
  obtain ⟨t, ht, hlen, hp⟩ := forN_inv (n := N - h)
    (f := fun k (w : List α) => (do
      let v ← rd w ((w.length - 1 - k : ℕ) : ℤ)
      wr w (k : ℤ) v : Res (List α)))
    (s := w.take h ++ (List.range (N - h)).map (f ∘ fun k : ℕ => cast (h + k)))
    (fun k t => t.length = N ∧ ∀ i, i < N →
      (h ≤ i → t[i]? = some (f (cast i))) ∧ (i < k → t[i]? = some (f (cast (max i (N - 1 - i))))))
    ⟨by simp [hlt]; omega, fun i hi => ⟨fun h1 => hget i h1 hi, fun h1 => absurd h1 (by omega)⟩⟩
    (by
      intro k hk t ⟨hlen, ht⟩
      have hr : N - 1 - k < t.length := by omega
      have hv := (ht (N - 1 - k) (by omega)).1 (by omega)
      rw [List.getElem?_eq_getElem hr] at hv
      have hv' := Option.some.inj hv
      refine ⟨t.set k (f (cast (N - 1 - k))), ?_, by simpa using hlen, ?_⟩
      · rw [show (t.length - 1 - k : ℕ) = N - 1 - k by rw [hlen], rd_nat t _ hr, hv']
        simp only [Res.bind_ok]
        exact wr_nat t k _ (by omega)
      · intro i hi
        by_cases hik : i = k
        · subst hik
          rw [List.getElem?_set_self (by omega)]
          constructor
          · intro h1; rw [show N - 1 - i = i by omega]
          · intro _; rw [show max i (N - 1 - i) = N - 1 - i by omega]
        · rw [List.getElem?_set_ne (by omega)]
          exact ⟨(ht i hi).1, fun h1 => (ht i hi).2 (by omega)⟩)
  rw [ht]
  congr 1
  apply List.ext_getElem?
  intro i
  by_cases hi : i < N
  · rw [List.getElem?_map, List.getElem?_range hi]
    simp only [Option.map_some]
    by_cases hk : i < N - h
    · exact (hp i hi).2 hk
    · rw [(hp i hi).1 (by omega), show max i (N - 1 - i) = i by omega]
  · rw [List.getElem?_eq_none (by omega), List.getElem?_eq_none (by simp; omega)]

/-- A symmetric window equals its textbook formula on all samples if it does so on the upper half
and the formula is symmetric. -/
theorem symmetricFiller_spec (cast : ℕ → Ex ℝ) (f : Ex ℝ → Ex ℝ) (w : List (Ex ℝ)) (g : ℕ → ℝ)
    (hg : ∀ i, w.length / 2 ≤ i → i < w.length → f (cast i) = .fin (g i))
    (hs : ∀ i, i < w.length → g (w.length - 1 - i) = g i) :
    symmetricFiller cast f w = .ok ((List.range w.length).map fun i : ℕ => Ex.fin (g i)) := by
  rw [symmetricFiller_eq]
  congr 1
  apply List.map_congr_left
  intro i hi
  rw [List.mem_range] at hi
  rw [hg _ (by omega) (by omega)]
  rcases le_total i (w.length - 1 - i) with h | h
  · rw [max_eq_right h, hs i hi]
  · rw [max_eq_left h]

@[simp] theorem toIdx_idx (i : ℕ) : toIdx (idx i) = i := by simp [toIdx, idx]

theorem fillIdx_spec (f : ℕ → Ex ℝ) (w : List (Ex ℝ)) (g : ℕ → ℝ)
    (hg : ∀ i, w.length / 2 ≤ i → i < w.length → f i = .fin (g i))
    (hs : ∀ i, i < w.length → g (w.length - 1 - i) = g i) :
    fillIdx f w = .ok ((List.range w.length).map fun i : ℕ => Ex.fin (g i)) :=
  symmetricFiller_spec _ _ _ g (fun i h1 h2 => by rw [toIdx_idx]; exact hg i h1 h2) hs

theorem sizeM1_pos {n : ℕ} (h : 1 ≤ n) : sizeM1 n = .fin ((n : ℝ) - 1) := by
  unfold sizeM1
  rw [if_neg (by omega), Nat.cast_sub h]; simp

/-- The textbook symmetric window of `m` points. -/
noncomputable def specWin (g : ℕ → ℕ → ℝ) (m : ℕ) : List (Ex ℝ) :=
  (List.range m).map fun i : ℕ => Ex.fin (g m i)

/-- Symmetric and periodic windows from the filler. -/
theorem buildR_spec (filler : List (Ex ℝ) → Res (List (Ex ℝ))) (g : ℕ → ℕ → ℝ) (k : ℕ)
    (hf : ∀ w : List (Ex ℝ), k ≤ w.length → filler w = .ok (specWin g w.length)) (m : ℕ) :
    (k ≤ m → buildR .symmetric m filler = .ok (specWin g m)) ∧
    (k ≤ m + 1 → buildR .periodic m filler = .ok ((specWin g (m + 1)).take m)) := by
  constructor
  · intro h
    unfold buildR buildWindow
    simp only
    rw [hf _ (by simpa using h), List.length_replicate]
  · intro h
    unfold buildR buildWindow
    simp only
    rw [hf _ (by simpa using h), List.length_replicate]
    rfl

/-! ### The fillers compute the textbook windows -/

section Real
open Real

theorem flip_idx {N i : ℕ} (hi : i < N) : ((N - 1 - i : ℕ) : ℝ) = (N : ℝ) - 1 - i := by
  rw [Nat.cast_sub (by omega), Nat.cast_sub (by omega)]; simp

theorem centred_flip {N i : ℕ} (hi : i < N) : Spec.centred N (N - 1 - i) = Spec.centred N i := by
  unfold Spec.centred
  rw [flip_idx hi, ← abs_neg]; congr 1; ring

theorem x_flip {N i : ℕ} (hN : 2 ≤ N) (hi : i < N) :
    2 * ((N - 1 - i : ℕ) : ℝ) / (N - 1) - 1 = -(2 * (i : ℝ) / (N - 1) - 1) := by
  have h1 : (N : ℝ) - 1 ≠ 0 := by
    have : (2 : ℝ) ≤ N := by exact_mod_cast hN
    linarith
  rw [flip_idx hi]; field_simp; ring

theorem bartlettFiller_eq (w : List (Ex ℝ)) (h : 2 ≤ w.length) :
    bartlettFiller w = .ok (specWin Spec.bartlett w.length) := by
  have hN : (2 : ℝ) ≤ w.length := by exact_mod_cast h
  have hne : (w.length : ℝ) - 1 ≠ 0 := by linarith
  unfold bartlettFiller specWin
  simp only [sizeM1_pos (show 1 ≤ w.length by omega), Ex.fin_div hne]
  refine symmetricFiller_spec _ _ _ _ ?_ ?_
  · intro i h1 h2
    simp only [idx, Ex.fin_mul, Ex.fin_add]
    unfold Spec.bartlett
    have h3 : (w.length : ℝ) ≤ 2 * i + 1 := by exact_mod_cast (show w.length ≤ 2 * i + 1 by omega)
    rw [abs_of_nonneg]
    · congr 1; field_simp; ring
    · rw [sub_nonneg, le_div_iff₀ (by linarith)]; linarith
  · intro i hi
    unfold Spec.bartlett
    rw [x_flip h hi, abs_neg]

theorem cosineFiller_eq (w : List (Ex ℝ)) :
    cosineFiller w = .ok (specWin Spec.cosineWin w.length) := by
  unfold cosineFiller
  split
  · rename_i h; subst h; simp [specWin]
  · rename_i h
    have hl : w.length ≠ 0 := fun h' => h (List.length_eq_zero_iff.mp h')
    have hne : (w.length : ℝ) ≠ 0 := by exact_mod_cast hl
    unfold specWin
    simp only [Ex.fin_div hne]
    refine fillIdx_spec _ _ _ ?_ ?_
    · intro i h1 h2
      simp only [idx, Ex.fin_mul, Ex.fin_add, Ex.fn]
      unfold Spec.cosineWin
      congr 2; field_simp; ring
    · intro i hi
      unfold Spec.cosineWin
      rw [flip_idx hi, ← sin_pi_sub]; congr 1; field_simp; ring

theorem bohmanFiller_eq (w : List (Ex ℝ)) (h : 2 ≤ w.length) :
    bohmanFiller w = .ok (specWin Spec.bohman w.length) := by
  have hN : (2 : ℝ) ≤ w.length := by exact_mod_cast h
  have hne : (w.length : ℝ) - 1 ≠ 0 := by linarith
  unfold bohmanFiller
  rw [if_neg (by rintro rfl; simp at h)]
  unfold specWin
  simp only [sizeM1_pos (show 1 ≤ w.length by omega), Ex.fin_div hne]
  refine fillIdx_spec _ _ _ ?_ ?_
  · intro i h1 h2
    have h3 : (w.length : ℝ) ≤ 2 * i + 1 := by exact_mod_cast (show w.length ≤ 2 * i + 1 by omega)
    simp only [idx, Ex.fin_mul, Ex.fin_add, Ex.fin_sub, Ex.fn, Ex.fin_div pi_ne_zero]
    unfold Spec.bohman
    simp only
    rw [abs_of_nonneg (by rw [sub_nonneg, le_div_iff₀ (by linarith)]; linarith)]
    have : (i : ℝ) * (2 / (↑w.length - 1)) - 1 = 2 * ↑i / (↑w.length - 1) - 1 := by
      field_simp
    rw [this]
  · intro i hi
    unfold Spec.bohman
    simp only
    rw [x_flip h hi, abs_neg]

theorem cosineLoop_eq (s : ℝ) (i : ℕ) (a : List ℝ) (j : ℕ) (sign tmp : ℝ) :
    cosineLoop (.fin s) i a j (.fin sign) (.fin tmp) =
      .fin (tmp + ∑ k ∈ Finset.range a.length,
        sign * (-1) ^ (k + 1) * a.getD k 0 * cos (s * ((i * (j + k) : ℕ) : ℝ))) := by
  induction a generalizing j sign tmp with
  | nil => simp [cosineLoop]
  | cons c cs ih =>
    rw [cosineLoop]
    simp only [Ex.fin_mul, Ex.fn, Ex.fin_add]
    rw [ih]
    congr 1
    rw [List.length_cons, Finset.sum_range_succ', add_assoc]
    congr 1
    rw [add_comm]
    congr 1
    · apply Finset.sum_congr rfl
      intro k _
      rw [List.getD_cons_succ, show j + 1 + k = j + (k + 1) by omega]
      ring
    · simp

theorem generalCosineFiller_eq (a : List ℝ) (w : List (Ex ℝ)) (h : 2 ≤ w.length) :
    generalCosineFiller a w = .ok (specWin (Spec.generalCosine a) w.length) := by
  have hN : (2 : ℝ) ≤ w.length := by exact_mod_cast h
  have hne : (w.length : ℝ) - 1 ≠ 0 := by linarith
  unfold generalCosineFiller specWin
  simp only [sizeM1_pos (show 1 ≤ w.length by omega), Ex.fin_mul, Ex.fin_div hne]
  refine fillIdx_spec _ _ _ ?_ ?_
  · intro i h1 h2
    rw [cosineLoop_eq]
    unfold Spec.generalCosine
    rw [zero_add]
    congr 1
    apply Finset.sum_congr rfl
    intro k _
    rw [pow_succ]
    rw [show 2 * π / ((w.length : ℝ) - 1) * ((i * (0 + k) : ℕ) : ℝ) = 2 * π * i * k / (w.length - 1) by
      push_cast; field_simp; ring]
    ring
  · intro i hi
    unfold Spec.generalCosine
    apply Finset.sum_congr rfl
    intro k _
    congr 1
    rw [flip_idx hi]
    have : 2 * π * ((w.length : ℝ) - 1 - i) * k / (w.length - 1)
        = (k : ℝ) * (2 * π) - 2 * π * i * k / (w.length - 1) := by field_simp
    rw [this, cos_nat_mul_two_pi_sub]

theorem centreIdx_eq (N : ℕ) (h : 1 ≤ N) : centreIdx N = .fin (((N : ℝ) - 1) / 2) := by
  unfold centreIdx
  simp only
  split
  · rename_i h2
    obtain ⟨k, rfl⟩ : ∃ k, N = 2 * k := ⟨N / 2, by omega⟩
    rw [show 2 * k / 2 = k by omega]
    simp only [Ex.fin_sub]; congr 1; push_cast; norm_num; ring
  · rename_i h2
    obtain ⟨k, rfl⟩ : ∃ k, N = 2 * k + 1 := ⟨N / 2, by omega⟩
    rw [show (2 * k + 1) / 2 = k by omega]
    simp only [Ex.fin_sub]; congr 1; push_cast; ring

theorem centred_upper {N i : ℕ} (h1 : N / 2 ≤ i) (_ : i < N) :
    0 ≤ (i : ℝ) - ((N : ℝ) - 1) / 2 := by
  have h3 : (N : ℝ) ≤ 2 * i + 1 := by exact_mod_cast (show N ≤ 2 * i + 1 by omega)
  linarith

theorem gaussianFiller_eq (σ : ℝ) (hσ : σ ≠ 0) (w : List (Ex ℝ)) :
    gaussianFiller σ w = .ok (specWin (Spec.gaussian σ) w.length) := by
  unfold gaussianFiller specWin
  refine fillIdx_spec _ _ _ ?_ ?_
  · intro i h1 h2
    simp only [centreIdx_eq w.length (by omega), idx, Ex.fin_mul, Ex.fin_sub]
    rw [Ex.fin_div (by positivity)]
    simp only [Ex.fin_mul, Ex.fn]
    unfold Spec.gaussian Spec.centred
    rw [abs_of_nonneg (centred_upper h1 h2)]
    congr 2; field_simp
  · intro i hi
    unfold Spec.gaussian; rw [centred_flip hi]

theorem generalGaussianFiller_eq (p σ : ℝ) (hσ : 0 < σ) (w : List (Ex ℝ)) :
    generalGaussianFiller p σ w = .ok (specWin (Spec.generalGaussian p σ) w.length) := by
  unfold generalGaussianFiller specWin
  refine fillIdx_spec _ _ _ ?_ ?_
  · intro i h1 h2
    simp only [centreIdx_eq w.length (by omega), idx, Ex.fin_sub]
    rw [Ex.fin_div hσ.ne']
    simp only [Ex.pow]
    have := centred_upper h1 h2
    rw [if_pos (by positivity)]
    simp only [Ex.fin_mul, Ex.fn]
    unfold Spec.generalGaussian Spec.centred
    rw [abs_of_nonneg this]
    congr 2; ring
  · intro i hi
    unfold Spec.generalGaussian; rw [centred_flip hi]

theorem kaiserFiller_eq (β : ℝ) (hβ : 0 ≤ β) (hI : Spec.besselI0 β ≠ 0) (w : List (Ex ℝ))
    (h : 2 ≤ w.length) :
    kaiserFiller β w = .ok (specWin (Spec.kaiser β) w.length) := by
  have hN : (2 : ℝ) ≤ w.length := by exact_mod_cast h
  have hne : (0.5 : ℝ) * ((w.length : ℝ) - 1) ≠ 0 := by
    have : (0 : ℝ) < 0.5 * (w.length - 1) := by norm_num; linarith
    exact this.ne'
  unfold kaiserFiller specWin
  simp only [hβ, decide_true, require_true, Res.bind_ok]
  simp only [sizeM1_pos (show 1 ≤ w.length by omega), Ex.fin_mul]
  refine fillIdx_spec _ _ _ ?_ ?_
  · intro i h1 h2
    simp only [idx, Ex.fin_sub, Ex.fin_div hne, Ex.fin_mul]
    have hr : ((i : ℝ) - 0.5 * (w.length - 1)) / (0.5 * (w.length - 1)) = 2 * i / (w.length - 1) - 1 := by
      have : (w.length : ℝ) - 1 ≠ 0 := by linarith
      norm_num; field_simp
    rw [hr]
    have h3 : (w.length : ℝ) ≤ 2 * i + 1 := by exact_mod_cast (show w.length ≤ 2 * i + 1 by omega)
    have h4 : (i : ℝ) + 1 ≤ w.length := by exact_mod_cast h2
    have h5 : 0 ≤ 2 * (i : ℝ) / (w.length - 1) - 1 := by
      rw [sub_nonneg, le_div_iff₀ (by linarith)]; linarith
    have h6 : 2 * (i : ℝ) / (w.length - 1) - 1 ≤ 1 := by
      rw [sub_le_iff_le_add, div_le_iff₀ (by linarith)]; linarith
    simp only [Ex.sqrt]
    rw [if_pos (by nlinarith)]
    simp only [Ex.fin_mul, Ex.fn, Ex.fin_div hI]
    unfold Spec.kaiser
    rw [sq]
  · intro i hi
    unfold Spec.kaiser
    rw [x_flip h hi, neg_sq]

theorem parzenFiller_eq (w : List (Ex ℝ)) :
    parzenFiller w = .ok (specWin Spec.parzen w.length) := by
  unfold parzenFiller specWin
  refine fillIdx_spec _ _ _ ?_ ?_
  · intro i h1 h2
    have hN0 : (w.length : ℝ) ≠ 0 := by
      have : w.length ≠ 0 := by omega
      exact_mod_cast this
    have hNpos : (0 : ℝ) < w.length := by
      have : 0 < w.length := by omega
      exact_mod_cast this
    have hc := centred_upper h1 h2
    simp only [centreIdx_eq w.length (by omega), idx, Ex.fin_sub, Ex.fn, Ex.fin_mul,
      Ex.fin_div hN0]
    unfold Spec.parzen
    simp only
    have hcen : Spec.centred w.length i = (i : ℝ) - ((w.length : ℝ) - 1) / 2 := by
      unfold Spec.centred; rw [abs_of_nonneg hc]
    rw [hcen, abs_of_nonneg hc]
    set c := (i : ℝ) - ((w.length : ℝ) - 1) / 2 with hcdef
    have e1 : (2 : ℝ) * c / w.length = c / (w.length / 2) := by field_simp
    rw [e1]
    have hn : (i : ℤ) - Int.tdiv ((w.length : ℤ) - 1) 2 ≥ 0 := by
      rw [Int.tdiv_eq_ediv_of_nonneg (by omega)]; omega
    rw [if_pos hn, Int.tdiv_eq_ediv_of_nonneg (show 0 ≤ (w.length : ℤ) - 1 by omega),
      Int.tdiv_eq_ediv_of_nonneg (show 0 ≤ (w.length : ℤ) by omega)]
    split
    · rename_i hle
      rw [if_pos]
      · congr 1; ring
      · have : 4 * i ≤ 3 * w.length - 2 := by omega
        have h' : 4 * (i : ℝ) + 2 ≤ 3 * w.length := by
          have : 4 * i + 2 ≤ 3 * w.length := by omega
          exact_mod_cast this
        rw [hcdef]; linarith
    · rename_i hgt
      by_cases hb : c ≤ (w.length : ℝ) / 4
      · -- boundary point: the two pieces agree
        rw [if_pos hb]
        have h' : 4 * (i : ℝ) + 2 ≤ 3 * w.length := by rw [hcdef] at hb; linarith
        have h'' : 4 * i + 2 ≤ 3 * w.length := by exact_mod_cast h'
        have heq : 4 * i + 2 = 3 * w.length := by omega
        have heq' : 4 * (i : ℝ) + 2 = 3 * w.length := by exact_mod_cast heq
        have hcq : c = (w.length : ℝ) / 4 := by rw [hcdef]; linarith
        have hd : c / ((w.length : ℝ) / 2) = 1 / 2 := by rw [hcq]; field_simp; norm_num
        rw [hd]; congr 1; norm_num
      · rw [if_neg hb]
        congr 1; ring
  · intro i hi
    unfold Spec.parzen; simp only [centred_flip hi]

theorem sincEx_fin (x : ℝ) : sincEx (.fin x) = .fin (Spec.sinc x) := by
  unfold sincEx Spec.sinc
  simp only
  split
  · rfl
  · rename_i h
    have : π * x ≠ 0 := mul_ne_zero pi_ne_zero h
    simp only [Ex.fin_mul, Ex.fn, Ex.fin_div this]

theorem sinc_neg (x : ℝ) : Spec.sinc (-x) = Spec.sinc x := by
  unfold Spec.sinc
  simp only [neg_eq_zero, mul_neg, sin_neg, neg_div_neg_eq]

theorem lanczosFiller_eq (w : List (Ex ℝ)) (h : 2 ≤ w.length) :
    lanczosFiller w = .ok (specWin Spec.lanczos w.length) := by
  have hN : (2 : ℝ) ≤ w.length := by exact_mod_cast h
  have hne : (w.length : ℝ) - 1 ≠ 0 := by linarith
  unfold lanczosFiller specWin
  refine fillIdx_spec _ _ _ ?_ ?_
  · intro i h1 h2
    simp only [sizeM1_pos (show 1 ≤ w.length by omega), Ex.fin_div hne, Ex.fin_sub, sincEx_fin]
    unfold Spec.lanczos
    rw [← sinc_neg]; congr 2; push_cast; ring
  · intro i hi
    unfold Spec.lanczos
    rw [x_flip h hi, sinc_neg]

/-- For an odd number of points the Tukey window is the textbook one. -/
theorem tukeyFiller_odd (α : ℝ) (h0 : 0 < α) (h1 : α < 1) (w : List (Ex ℝ)) (ho : w.length % 2 = 1) :
    tukeyFiller α w = .ok (specWin (Spec.tukey α) w.length) := by
  unfold tukeyFiller specWin
  simp only
  refine fillIdx_spec _ _ _ ?_ ?_
  · intro i hi1 hi2
    have hc := centred_upper hi1 hi2
    obtain ⟨k, hk⟩ : ∃ k, w.length = 2 * k + 1 := ⟨w.length / 2, by omega⟩
    rw [hk] at hc hi1 hi2 ⊢
    rw [if_neg (show ¬ ((2 * k + 1) % 2 = 0 ∧ _) by omega), show (2 * k + 1) / 2 = k by omega]
    have hk0 : (0 : ℝ) ≤ k := Nat.cast_nonneg k
    have hx : 0 ≤ (1 - α) * (k : ℝ) := mul_nonneg (by linarith) hk0
    simp only [if_pos hx]
    unfold Spec.tukey Spec.centred
    rw [abs_of_nonneg hc]
    have e1 : (((2 * k + 1 : ℕ) : ℝ) - 1) / 2 = k := by push_cast; ring
    rw [e1]
    have e2 : (i : ℤ) - Int.tdiv (((2 * k + 1 : ℕ) : ℤ) - 1) 2 = (i : ℤ) - k := by
      rw [Int.tdiv_eq_ediv_of_nonneg (by omega)]; omega
    rw [e2]
    have e3 : (i : ℤ) - k ≤ ⌊(1 - α) * (k : ℝ)⌋ ↔ (i : ℝ) - k ≤ (1 - α) * k := by
      rw [Int.le_floor]; push_cast; rfl
    by_cases hle : (i : ℝ) - k ≤ (1 - α) * k
    · rw [if_pos (e3.mpr hle), if_pos hle]
    · rw [if_neg (fun h => hle (e3.mp h)), if_neg hle]
      have hkpos : (0 : ℝ) < k := by
        have : 0 < k := by
          rcases Nat.eq_zero_or_pos k with h | h
          · exfalso; subst h
            have : i = 0 := by omega
            subst this; simp at hle
          · exact h
        exact_mod_cast this
      rw [Ex.fin_div h0.ne']
      have hne : (((2 * k + 1 : ℕ) : ℤ) - 1 : ℤ) = ((2 * k : ℕ) : ℤ) := by push_cast; ring
      rw [hne]
      have hne' : ((((2 * k : ℕ) : ℤ)) : ℝ) ≠ 0 := by push_cast; positivity
      simp only [idx, Ex.fin_sub, Ex.fin_mul, Ex.fin_div hne', Ex.fin_add, Ex.fn]
      congr 1
      have : π * (1 - 2 / α + 2 / α * (i : ℝ) / (((2 * k : ℕ) : ℤ) : ℝ))
          = π * ((i : ℝ) - k - (1 - α) * k) / (α * k) := by
        push_cast; field_simp; ring
      rw [this]; norm_num; ring
  · intro i hi
    unfold Spec.tukey; rw [centred_flip hi]

end Real
end SciCpp

namespace SciCpp
section Real
open Real

/-! ### Values of the textbook windows -/

theorem unit_x {N i : ℕ} (hN : 2 ≤ N) (hi : i < N) : |2 * (i : ℝ) / (N - 1) - 1| ≤ 1 := by
  have h1 : (2 : ℝ) ≤ N := by exact_mod_cast hN
  have h2 : (i : ℝ) + 1 ≤ N := by exact_mod_cast hi
  have h0 : (0 : ℝ) ≤ i := Nat.cast_nonneg i
  rw [abs_le]
  constructor
  · have : 0 ≤ 2 * (i : ℝ) / (N - 1) := div_nonneg (by linarith) (by linarith)
    linarith
  · rw [sub_le_iff_le_add, div_le_iff₀ (by linarith)]; linarith

theorem centred_le {N i : ℕ} (hi : i < N) : Spec.centred N i ≤ ((N : ℝ) - 1) / 2 := by
  unfold Spec.centred
  have h2 : (i : ℝ) + 1 ≤ N := by exact_mod_cast hi
  have h0 : (0 : ℝ) ≤ i := Nat.cast_nonneg i
  rw [abs_le]; constructor <;> linarith

theorem bartlett_range {N i : ℕ} (hN : 2 ≤ N) (hi : i < N) :
    0 ≤ Spec.bartlett N i ∧ Spec.bartlett N i ≤ 1 := by
  unfold Spec.bartlett
  have := unit_x hN hi
  have h' := abs_nonneg (2 * (i : ℝ) / (N - 1) - 1)
  constructor <;> linarith

theorem cosineWin_range {N i : ℕ} (hi : i < N) :
    0 ≤ Spec.cosineWin N i ∧ Spec.cosineWin N i ≤ 1 := by
  unfold Spec.cosineWin
  refine ⟨sin_nonneg_of_nonneg_of_le_pi (by positivity) ?_, sin_le_one _⟩
  have h2 : (i : ℝ) + 1 ≤ N := by exact_mod_cast hi
  have h0 : (0 : ℝ) ≤ i := Nat.cast_nonneg i
  rw [div_le_iff₀ (by linarith)]
  exact mul_le_mul_of_nonneg_left (by linarith) pi_pos.le

/-- `(1-x) cos(πx) + sin(πx)/π` lies in `[0,1]` for `x ∈ [0,1]`. -/
theorem bohman_aux {x : ℝ} (h0 : 0 ≤ x) (h1 : x ≤ 1) :
    0 ≤ (1 - x) * cos (π * x) + sin (π * x) / π ∧ (1 - x) * cos (π * x) + sin (π * x) / π ≤ 1 := by
  have hpi := pi_pos
  constructor
  · -- with y = π(1-x): value = (sin y - y cos y)/π ≥ 0 on [0,π]
    set y := π * (1 - x) with hy
    have e : (1 - x) * cos (π * x) + sin (π * x) / π = (sin y - y * cos y) / π := by
      have : π * x = π - y := by rw [hy]; ring
      rw [this, cos_pi_sub, sin_pi_sub, hy]; field_simp; ring
    rw [e]
    apply div_nonneg _ hpi.le
    have hy0 : 0 ≤ y := mul_nonneg hpi.le (by linarith)
    have hy1 : y ≤ π := by rw [hy]; nlinarith
    by_cases hc : cos y ≤ 0
    · have := sin_nonneg_of_nonneg_of_le_pi hy0 hy1
      nlinarith
    · push Not at hc
      have hyh : y < π / 2 := by
        by_contra hcon
        push Not at hcon
        exact absurd (cos_nonpos_of_pi_div_two_le_of_le hcon (by linarith)) (not_le.mpr hc)
      rcases eq_or_lt_of_le hy0 with h | h
      · rw [← h]; simp
      · have := lt_tan h hyh
        rw [tan_eq_sin_div_cos, lt_div_iff₀ hc] at this
        linarith
  · -- upper bound: cos ≤ 1 and sin(πx) ≤ πx
    have h2 : sin (π * x) ≤ π * x := sin_le (by positivity)
    have h3 : sin (π * x) / π ≤ x := by rw [div_le_iff₀ hpi]; linarith
    have h4 := cos_le_one (π * x)
    nlinarith

theorem bohman_range {N i : ℕ} (hN : 2 ≤ N) (hi : i < N) :
    0 ≤ Spec.bohman N i ∧ Spec.bohman N i ≤ 1 :=
  bohman_aux (abs_nonneg _) (unit_x hN hi)

theorem hann_range (N i : ℕ) : 0 ≤ Spec.hann N i ∧ Spec.hann N i ≤ 1 := by
  unfold Spec.hann
  have h1 := cos_le_one (2 * π * i / ((N : ℝ) - 1))
  have h2 := neg_one_le_cos (2 * π * i / ((N : ℝ) - 1))
  constructor <;> linarith

theorem hamming_range (N i : ℕ) : 0.08 ≤ Spec.hamming N i ∧ Spec.hamming N i ≤ 1 := by
  unfold Spec.hamming
  have h1 := cos_le_one (2 * π * i / ((N : ℝ) - 1))
  have h2 := neg_one_le_cos (2 * π * i / ((N : ℝ) - 1))
  constructor <;> norm_num <;> linarith

theorem cos4 (N i : ℕ) : cos (4 * π * i / ((N : ℝ) - 1)) = 2 * cos (2 * π * i / ((N : ℝ) - 1)) ^ 2 - 1 := by
  rw [show 4 * π * (i : ℝ) / ((N : ℝ) - 1) = 2 * (2 * π * i / ((N : ℝ) - 1)) by ring, cos_two_mul]

theorem cos6 (N i : ℕ) : cos (6 * π * i / ((N : ℝ) - 1))
    = 4 * cos (2 * π * i / ((N : ℝ) - 1)) ^ 3 - 3 * cos (2 * π * i / ((N : ℝ) - 1)) := by
  rw [show 6 * π * (i : ℝ) / ((N : ℝ) - 1) = 3 * (2 * π * i / ((N : ℝ) - 1)) by ring, cos_three_mul]

theorem cos8 (N i : ℕ) : cos (8 * π * i / ((N : ℝ) - 1))
    = 2 * (2 * cos (2 * π * i / ((N : ℝ) - 1)) ^ 2 - 1) ^ 2 - 1 := by
  rw [show 8 * π * (i : ℝ) / ((N : ℝ) - 1) = 2 * (4 * π * i / ((N : ℝ) - 1)) by ring, cos_two_mul, cos4]

theorem blackman_range (N i : ℕ) : 0 ≤ Spec.blackman N i ∧ Spec.blackman N i ≤ 1 := by
  unfold Spec.blackman
  rw [cos4]
  have h1 := cos_le_one (2 * π * i / ((N : ℝ) - 1))
  have h2 := neg_one_le_cos (2 * π * i / ((N : ℝ) - 1))
  generalize cos (2 * π * i / ((N : ℝ) - 1)) = c at *
  constructor <;> norm_num <;> nlinarith

theorem nuttall_range (N i : ℕ) : 0 ≤ Spec.nuttall N i ∧ Spec.nuttall N i ≤ 1 := by
  unfold Spec.nuttall
  rw [cos4, cos6]
  have h1 := cos_le_one (2 * π * i / ((N : ℝ) - 1))
  have h2 := neg_one_le_cos (2 * π * i / ((N : ℝ) - 1))
  generalize cos (2 * π * i / ((N : ℝ) - 1)) = c at *
  have h3 : 0 ≤ (1 - c) := by linarith
  have h4 : 0 ≤ (1 + c) := by linarith
  have h5 := mul_nonneg h3 h4
  constructor <;> norm_num <;>
    nlinarith [mul_nonneg h3 (sq_nonneg (1 - c)), mul_nonneg h4 (sq_nonneg (1 + c)),
      mul_nonneg h3 (sq_nonneg c), mul_nonneg h4 (sq_nonneg c), mul_nonneg h5 h3, mul_nonneg h5 h4]

theorem blackmanharris_range (N i : ℕ) :
    0 ≤ Spec.blackmanharris N i ∧ Spec.blackmanharris N i ≤ 1 := by
  unfold Spec.blackmanharris
  rw [cos4, cos6]
  have h1 := cos_le_one (2 * π * i / ((N : ℝ) - 1))
  have h2 := neg_one_le_cos (2 * π * i / ((N : ℝ) - 1))
  generalize cos (2 * π * i / ((N : ℝ) - 1)) = c at *
  have h3 : 0 ≤ (1 - c) := by linarith
  have h4 : 0 ≤ (1 + c) := by linarith
  have h5 := mul_nonneg h3 h4
  constructor <;> norm_num <;>
    nlinarith [mul_nonneg h3 (sq_nonneg (1 - c)), mul_nonneg h4 (sq_nonneg (1 + c)),
      mul_nonneg h3 (sq_nonneg c), mul_nonneg h4 (sq_nonneg c), mul_nonneg h5 h3, mul_nonneg h5 h4]

theorem gaussian_range (σ : ℝ) (N i : ℕ) : 0 ≤ Spec.gaussian σ N i ∧ Spec.gaussian σ N i ≤ 1 := by
  unfold Spec.gaussian
  refine ⟨(exp_pos _).le, exp_le_one_iff.mpr ?_⟩
  rw [neg_div]
  exact neg_nonpos.mpr (by positivity)

theorem generalGaussian_range (p σ : ℝ) (hσ : 0 < σ) (N i : ℕ) :
    0 ≤ Spec.generalGaussian p σ N i ∧ Spec.generalGaussian p σ N i ≤ 1 := by
  unfold Spec.generalGaussian
  refine ⟨(exp_pos _).le, exp_le_one_iff.mpr ?_⟩
  have : 0 ≤ Spec.centred N i / σ := div_nonneg (abs_nonneg _) hσ.le
  have := rpow_nonneg this (2 * p)
  linarith

theorem parzen_range {N i : ℕ} (hi : i < N) : 0 ≤ Spec.parzen N i ∧ Spec.parzen N i ≤ 1 := by
  unfold Spec.parzen
  simp only
  have hN : (0 : ℝ) < N := by
    have : 0 < N := by omega
    exact_mod_cast this
  have hc0 : 0 ≤ Spec.centred N i := abs_nonneg _
  have hc1 := centred_le hi
  set d := Spec.centred N i / ((N : ℝ) / 2) with hd
  have hd0 : 0 ≤ d := by positivity
  have hd1 : d ≤ 1 := by rw [hd, div_le_iff₀ (by positivity)]; linarith
  split
  · rename_i hle
    have hd2 : d ≤ 1 / 2 := by rw [hd, div_le_iff₀ (by positivity)]; linarith
    constructor
    · nlinarith [mul_nonneg hd0 (show 0 ≤ 1 / 2 - d by linarith), sq_nonneg d,
        mul_nonneg (mul_nonneg hd0 hd0) (show 0 ≤ 1 / 2 - d by linarith)]
    · have : 0 ≤ 6 * d ^ 2 * (1 - d) := mul_nonneg (by positivity) (by linarith)
      linarith
  · rename_i hgt
    push Not at hgt
    have hd2 : 1 / 2 ≤ d := by rw [hd, le_div_iff₀ (by positivity)]; linarith
    have h3 : 0 ≤ 1 - d := by linarith
    refine ⟨by positivity, ?_⟩
    have : (1 - d) ^ 3 ≤ (1 / 2) ^ 3 := pow_le_pow_left₀ h3 (by linarith) 3
    linarith

theorem sinc_range {x : ℝ} (h : |x| ≤ 1) : 0 ≤ Spec.sinc x ∧ Spec.sinc x ≤ 1 := by
  have key : ∀ x : ℝ, 0 ≤ x → x ≤ 1 → 0 ≤ Spec.sinc x ∧ Spec.sinc x ≤ 1 := by
    intro x h0 h1
    unfold Spec.sinc
    split
    · constructor <;> norm_num
    · rename_i hx
      have hx0 : 0 < x := lt_of_le_of_ne h0 (Ne.symm hx)
      have hp : 0 < π * x := mul_pos pi_pos hx0
      refine ⟨div_nonneg (sin_nonneg_of_nonneg_of_le_pi hp.le ?_) hp.le, ?_⟩
      · nlinarith [pi_pos]
      · rw [div_le_one hp]; exact sin_le hp.le
  rcases le_total 0 x with h0 | h0
  · exact key x h0 (by rwa [abs_of_nonneg h0] at h)
  · rw [← sinc_neg]
    exact key (-x) (by linarith) (by rwa [abs_of_nonpos h0] at h)

theorem lanczos_range {N i : ℕ} (hN : 2 ≤ N) (hi : i < N) :
    0 ≤ Spec.lanczos N i ∧ Spec.lanczos N i ≤ 1 := sinc_range (unit_x hN hi)

theorem tukey_range (α : ℝ) (N i : ℕ) : 0 ≤ Spec.tukey α N i ∧ Spec.tukey α N i ≤ 1 := by
  unfold Spec.tukey
  split
  · constructor <;> norm_num
  · set t := π * (Spec.centred N i - (1 - α) * (((N : ℝ) - 1) / 2)) / (α * (((N : ℝ) - 1) / 2))
    have h1 := cos_le_one t
    have h2 := neg_one_le_cos t
    constructor <;> linarith

theorem summable_besselI0 (x : ℝ) :
    Summable fun k : ℕ => (x / 2) ^ (2 * k) / (k.factorial : ℝ) ^ 2 := by
  have h := Real.summable_pow_div_factorial ((x / 2) ^ 2)
  refine Summable.of_nonneg_of_le (fun k => by rw [pow_mul]; positivity) (fun k => ?_) h
  rw [pow_mul]
  apply div_le_div_of_nonneg_left (by positivity) (by positivity)
  have : (1 : ℝ) ≤ k.factorial := by exact_mod_cast Nat.one_le_iff_ne_zero.mpr (Nat.factorial_ne_zero k)
  nlinarith

theorem besselI0_mono {x y : ℝ} (h : |x| ≤ |y|) : Spec.besselI0 x ≤ Spec.besselI0 y := by
  unfold Spec.besselI0
  refine Summable.tsum_le_tsum (fun k => ?_) (summable_besselI0 x) (summable_besselI0 y)
  apply div_le_div_of_nonneg_right _ (by positivity)
  rw [pow_mul, pow_mul]
  apply pow_le_pow_left₀ (by positivity)
  rw [div_pow, div_pow]
  have := sq_le_sq.mpr h
  linarith

theorem besselI0_zero : Spec.besselI0 0 = 1 := by
  unfold Spec.besselI0
  rw [tsum_eq_single 0]
  · simp
  · intro k hk
    rw [zero_div, zero_pow (by omega), zero_div]

theorem one_le_besselI0 (x : ℝ) : 1 ≤ Spec.besselI0 x := by
  rw [← besselI0_zero]; exact besselI0_mono (by simp)

theorem kaiser_range (β : ℝ) (N i : ℕ) : 0 ≤ Spec.kaiser β N i ∧ Spec.kaiser β N i ≤ 1 := by
  unfold Spec.kaiser
  have h1 := one_le_besselI0 β
  refine ⟨div_nonneg (by linarith [one_le_besselI0 (β * √(1 - (2 * (i : ℝ) / (N - 1) - 1) ^ 2))])
    (by linarith), ?_⟩
  rw [div_le_one (by linarith)]
  apply besselI0_mono
  rw [abs_mul]
  have : |√(1 - (2 * (i : ℝ) / (N - 1) - 1) ^ 2)| ≤ 1 := by
    rw [abs_of_nonneg (sqrt_nonneg _), sqrt_le_one]
    nlinarith [sq_nonneg (2 * (i : ℝ) / (N - 1) - 1)]
  nlinarith [abs_nonneg β]

end Real
end SciCpp
