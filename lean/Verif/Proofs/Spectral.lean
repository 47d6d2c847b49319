import Verif.Model.Spectral
import Verif.Spec.Spectral
import Verif.Props.Fft
import Verif.Props.Numeric
import Mathlib.Algebra.BigOperators.Field
/-
  Lemmas about the model of `Spectrum`.
-/
namespace SciCpp

open Finset

noncomputable section

theorem list_eq_map_range {α : Type} [Zero α] (l : List α) :
    l = (List.range l.length).map fun i : ℕ => l.getD i 0 := by
  apply list_ext_getD (by simp)
  intro i hi
  rw [getD_map_range _ _ _ _ hi]

theorem list_sum_range {K : Type} [Field K] (l : List K) :
    l.sum = ∑ m ∈ range l.length, l.getD m 0 := by
  conv_lhs => rw [list_eq_map_range l]
  rfl

theorem zip_map_range {α β γ : Type} (f : α → β → γ) (n : ℕ) (a : ℕ → α) (b : ℕ → β) :
    List.zipWith f ((List.range n).map a) ((List.range n).map b) = (List.range n).map fun i => f (a i) (b i) := by
  rw [List.zipWith_map, List.zipWith_self]

theorem sum_false_eq {K : Type} [Field K] (l : List K) : sum false l = ∑ m ∈ range l.length, l.getD m 0 := by
  rw [(C01_sum_prod_all (R := K) false l).1, list_sum_range]

theorem take_drop_getD {α : Type} [Zero α] (x : List α) (s n j : ℕ) (h : j < n) :
    ((x.drop s).take n).getD j 0 = x.getD (s + j) 0 := by
  simp only [List.getD_eq_getElem?_getD, List.getElem?_take_of_lt h, List.getElem?_drop]

/-- One windowed segment. -/
theorem windowedSeg_ok {K : Type} [Field K] (w x : List K) (s : ℕ) (h : s + w.length ≤ x.length) :
    windowedSeg w w.length s x = .ok ((List.range w.length).map fun j : ℕ =>
      (x.getD (s + j) 0 - (∑ m ∈ range w.length, x.getD (s + m) 0) / (w.length : K)) * w.getD j 0) := by
  have hl : ((x.drop s).take w.length).length = w.length := by simp; omega
  unfold windowedSeg
  rw [(C46_subvector_partial x w.length s).1 h]
  simp only [Res.bind_ok, hl, beq_self_eq_true, require_true]
  unfold mulLists
  have hd : (detrend ((x.drop s).take w.length)).length = w.length := by
    unfold detrend; rw [List.length_map, hl]
  simp only [hd, beq_self_eq_true, require_true, Res.bind_ok, Res.pure_eq]
  congr 1
  have e1 : detrend ((x.drop s).take w.length) = (List.range w.length).map fun j : ℕ =>
      (x.getD (s + j) 0 - (∑ m ∈ range w.length, x.getD (s + m) 0) / (w.length : K)) := by
    unfold detrend
    have hs : sum false ((x.drop s).take w.length) = ∑ m ∈ range w.length, x.getD (s + m) 0 := by
      rw [sum_false_eq, hl]
      exact sum_congr rfl fun m hm => take_drop_getD _ _ _ _ (mem_range.mp hm)
    rw [hs, hl]
    have hx : (x.drop s).take w.length = (List.range w.length).map fun j : ℕ => x.getD (s + j) 0 := by
      rw [list_eq_map_range ((x.drop s).take w.length), hl]
      apply List.map_congr_left
      intro j hj
      rw [take_drop_getD _ _ _ _ (List.mem_range.mp hj)]
    rw [hx, List.map_map]
    rfl
  rw [e1]
  have hw : w = (List.range w.length).map fun j : ℕ => w.getD j 0 := list_eq_map_range w
  generalize w.length = n at *
  rw [hw, zip_map_range]
  apply List.map_congr_left
  intro j hj
  rw [← hw]

/-- A valid configuration: what `window`, `noverlap` guarantee, and a positive step. -/
structure SpecCfg.Valid (c : SpecCfg) : Prop where
  np : c.nperseg = c.window.length
  pos : 1 ≤ c.window.length
  step : c.noverlap < c.nperseg

/-- The step between segments. -/
def SpecCfg.step (c : SpecCfg) : ℕ := (c.nperseg - c.noverlap).toNat

/-- The signal as a function. -/
def Sig.at (s : Sig) : ℕ → ℂ := fun i : ℕ => s.toC.getD i 0

/-- The window as a function. -/
def SpecCfg.win (c : SpecCfg) : ℕ → ℝ := fun i : ℕ => c.window.getD i 0

theorem map_getD_ofReal (x : List ℝ) (i : ℕ) :
    (x.map fun v : ℝ => (v : ℂ)).getD i 0 = ((x.getD i 0 : ℝ) : ℂ) := by
  simp only [List.getD_eq_getElem?_getD, List.getElem?_map]
  cases x[i]? <;> simp

theorem toC_length (s : Sig) : s.toC.length = s.size := by cases s <;> simp [Sig.toC, Sig.size]

theorem SpecCfg.Valid.step_eq {c : SpecCfg} (hv : c.Valid) : c.nperseg - c.noverlap = (c.step : ℤ) := by
  unfold SpecCfg.step; have := hv.step; omega

theorem SpecCfg.Valid.step_pos {c : SpecCfg} (hv : c.Valid) : 1 ≤ c.step := by
  have := hv.step_eq; have := hv.step; omega

theorem dft_map_range (n : ℕ) (f : ℕ → ℂ) :
    dft ((List.range n).map f) = (List.range n).map fun k : ℕ => ∑ j ∈ range n, f j * twiddle n ^ (j * k) := by
  unfold dft
  simp only [List.length_map, List.length_range]
  apply List.map_congr_left
  intro k _
  refine sum_congr rfl fun j hj => ?_
  rw [getD_map_range _ _ _ _ (mem_range.mp hj)]

/-- One transformed segment. -/
theorem segFft_ok (c : SpecCfg) (hv : c.Valid) (x : List ℂ) (i : ℕ)
    (h : i * c.step + c.window.length ≤ x.length) :
    segFft c x i = .ok ((List.range c.window.length).map fun k : ℕ =>
      Spec.segBin (fun m : ℕ => x.getD m 0) c.win c.window.length c.step i k) := by
  unfold segFft
  have hl : (c.window.map fun v : ℝ => (v : ℂ)).length = c.window.length := List.length_map _
  have hw := windowedSeg_ok (c.window.map fun v : ℝ => (v : ℂ)) x (i * c.step) (by rw [hl]; exact h)
  rw [hl] at hw
  rw [hv.step_eq, show (i : ℤ) * (c.step : ℤ) = ((i * c.step : ℕ) : ℤ) by push_cast; rfl, hv.np, hw]
  simp only [Res.bind_ok]
  rw [fft_eq]
  · rw [dft_map_range]
    congr 1
    apply List.map_congr_left
    intro k _
    unfold Spec.segBin SpecCfg.win
    refine sum_congr rfl fun j _ => ?_
    rw [map_getD_ofReal]; rfl
  · intro hc
    have := congrArg List.length hc
    simp at this
    have := hv.pos; simp_all

theorem segRfft_eq (c : SpecCfg) (hv : c.Valid) (x : List ℝ) (i : ℕ)
    (h : i * c.step + c.window.length ≤ x.length) :
    segRfft c x i = .ok ((List.range (c.window.length / 2 + 1)).map fun k : ℕ =>
      Spec.segBin (Sig.real x).at c.win c.window.length c.step i k) := by
  unfold segRfft
  have hw := windowedSeg_ok c.window x (i * c.step) h
  rw [hv.step_eq, show (i : ℤ) * (c.step : ℤ) = ((i * c.step : ℕ) : ℤ) by push_cast; rfl, hv.np, hw]
  simp only [Res.bind_ok]
  have hpos := hv.pos
  rw [rfft_eq]
  · rw [List.map_map, dft_map_range, List.length_map, List.length_range, ← List.map_take,
      List.take_range, Nat.min_eq_left (by omega)]
    congr 1
    apply List.map_congr_left
    intro k _
    unfold Spec.segBin SpecCfg.win Sig.at Sig.toC
    refine sum_congr rfl fun j _ => ?_
    simp only [Function.comp, map_getD_ofReal]
    push_cast
    rfl
  · intro hc
    have := congrArg List.length hc
    simp at this
    simp_all

/-- The accumulation loop. -/
theorem computeSpectrum_ok {K : Type} [Field K] [CharZero K] [DecidableEq K] [StarRing K] (nfft nseg : ℕ)
    (hn : 1 ≤ nseg) (f : ℤ → Res (List K)) (g : ℕ → ℕ → K)
    (hf : ∀ i : ℕ, i < nseg → f i = .ok ((List.range nfft).map fun k : ℕ => g i k)) :
    computeSpectrum nfft nseg f = .ok ((List.range nfft).map fun k : ℕ =>
      Ex.fin ((∑ i ∈ range nseg, g i k) / nseg)) := by
  obtain ⟨t, h1, h2⟩ := forN_inv (n := nseg) (s := List.replicate nfft (0 : K))
    (f := fun (i : ℕ) res => do
      let p ← f (i : ℤ)
      addLists res p)
    (fun m l => l = (List.range nfft).map fun k : ℕ => ∑ i ∈ range m, g i k)
    (by
      simp only [range_zero, sum_empty]
      exact (List.map_const' ..).symm ▸ by simp)
    (by
      intro m hm t ht
      refine ⟨(List.range nfft).map fun k : ℕ => ∑ i ∈ range (m + 1), g i k, ?_, rfl⟩
      rw [hf m hm, ht]
      simp only [Res.bind_ok]
      unfold addLists
      simp only [List.length_map, beq_self_eq_true, require_true, Res.bind_ok, Res.pure_eq]
      rw [zip_map_range]
      congr 1
      apply List.map_congr_left
      intro k _
      rw [sum_range_succ])
  unfold computeSpectrum
  rw [Int.toNat_natCast, h1]
  simp only [Res.bind_ok, Res.pure_eq]
  rw [h2, List.map_map]
  congr 1
  apply List.map_congr_left
  intro k _
  simp only [Function.comp, Int.cast_natCast]
  rw [Ex.fin_div (by exact_mod_cast (by omega : nseg ≠ 0))]

theorem numSegs_ok (c : SpecCfg) (hv : c.Valid) (N : ℕ) (h : c.window.length ≤ N) :
    numSegs c N = .ok ((Spec.numSegs N c.window.length c.step : ℕ) : ℤ) := by
  unfold numSegs Spec.numSegs
  have h1 := hv.step_pos
  simp only [hv.step_eq]
  rw [if_neg (by omega), hv.np]
  congr 1
  rw [show ((N : ℤ) - c.window.length) = ((N - c.window.length : ℕ) : ℤ) by omega, Int.tdiv_eq_ediv_of_nonneg (by omega)]
  push_cast; ring

theorem numSegs_pos (N np step : ℕ) : 1 ≤ Spec.numSegs N np step := Nat.le_add_left 1 _

theorem numSegs_spec (N np step : ℕ) (hs : 1 ≤ step) (h : np ≤ N) (i : ℕ) :
    i < Spec.numSegs N np step ↔ i * step + np ≤ N := by
  unfold Spec.numSegs
  rw [Nat.lt_succ_iff, Nat.le_div_iff_mul_le (by omega)]
  omega

variable {c : SpecCfg}

theorem welchImplC_ok (hv : c.Valid) (x : List ℂ) (h : c.window.length ≤ x.length) :
    welchImplC c x = .ok ((List.range c.window.length).map fun k : ℕ =>
      Ex.fin (Spec.power (Sig.cplx x).at c.win c.window.length c.step
        (Spec.numSegs x.length c.window.length c.step) k)) := by
  unfold welchImplC
  rw [numSegs_ok c hv _ h]
  simp only [Res.bind_ok]
  rw [hv.np, Int.toNat_natCast, computeSpectrum_ok _ _ (numSegs_pos _ _ _) _
    (fun i k => Complex.normSq (Spec.segBin (Sig.cplx x).at c.win c.window.length c.step i k))]
  · rfl
  · intro i hi
    rw [segFft_ok c hv x i ((numSegs_spec _ _ _ hv.step_pos h i).mp hi)]
    simp only [Res.bind_ok, Res.pure_eq, List.map_map]
    rfl

theorem welchImplR_ok (hv : c.Valid) (x : List ℝ) (h : c.window.length ≤ x.length) :
    welchImplR c x = .ok ((List.range (c.window.length / 2 + 1)).map fun k : ℕ =>
      Ex.fin (Spec.power (Sig.real x).at c.win c.window.length c.step
        (Spec.numSegs x.length c.window.length c.step) k)) := by
  unfold welchImplR
  rw [numSegs_ok c hv _ h]
  simp only [Res.bind_ok]
  rw [hv.np, Int.toNat_natCast, computeSpectrum_ok _ _ (numSegs_pos _ _ _) _
    (fun i k => Complex.normSq (Spec.segBin (Sig.real x).at c.win c.window.length c.step i k))]
  · rfl
  · intro i hi
    rw [segRfft_eq c hv x i ((numSegs_spec _ _ _ hv.step_pos h i).mp hi)]
    simp only [Res.bind_ok, Res.pure_eq, List.map_map]
    rfl

theorem mulLists_map_range {α : Type} [Mul α] (n : ℕ) (a b : ℕ → α) :
    mulLists ((List.range n).map a) ((List.range n).map b) = .ok ((List.range n).map fun k => a k * b k) := by
  unfold mulLists
  simp only [List.length_map, beq_self_eq_true, require_true, Res.bind_ok, Res.pure_eq]
  rw [zip_map_range]

theorem welch2ImplC_ok (hv : c.Valid) (x y : List ℂ) (h : c.window.length ≤ x.length)
    (hl : x.length = y.length) :
    welch2ImplC c x y = .ok ((List.range c.window.length).map fun k : ℕ =>
      Ex.fin (Spec.cross (Sig.cplx x).at (Sig.cplx y).at c.win c.window.length c.step
        (Spec.numSegs x.length c.window.length c.step) k)) := by
  unfold welch2ImplC
  rw [numSegs_ok c hv _ h]
  simp only [Res.bind_ok, hl, beq_self_eq_true, require_true]
  rw [hv.np, Int.toNat_natCast, computeSpectrum_ok _ _ (numSegs_pos _ _ _) _
    (fun i k => (starRingEnd ℂ) (Spec.segBin (Sig.cplx x).at c.win c.window.length c.step i k)
      * Spec.segBin (Sig.cplx y).at c.win c.window.length c.step i k)]
  · rfl
  · intro i hi
    have hb := (numSegs_spec _ _ _ hv.step_pos (hl ▸ h) i).mp hi
    rw [segFft_ok c hv x i (by rw [hl]; exact hb), segFft_ok c hv y i hb]
    simp only [Res.bind_ok, List.map_map]
    rw [mulLists_map_range]
    rfl

theorem welch2ImplR_ok (hv : c.Valid) (x y : List ℝ) (h : c.window.length ≤ x.length)
    (hl : x.length = y.length) :
    welch2ImplR c x y = .ok ((List.range (c.window.length / 2 + 1)).map fun k : ℕ =>
      Ex.fin (Spec.cross (Sig.real x).at (Sig.real y).at c.win c.window.length c.step
        (Spec.numSegs x.length c.window.length c.step) k)) := by
  unfold welch2ImplR
  rw [numSegs_ok c hv _ h]
  simp only [Res.bind_ok, hl, beq_self_eq_true, require_true]
  rw [hv.np, Int.toNat_natCast, computeSpectrum_ok _ _ (numSegs_pos _ _ _) _
    (fun i k => (starRingEnd ℂ) (Spec.segBin (Sig.real x).at c.win c.window.length c.step i k)
      * Spec.segBin (Sig.real y).at c.win c.window.length c.step i k)]
  · rfl
  · intro i hi
    have hb := (numSegs_spec _ _ _ hv.step_pos (hl ▸ h) i).mp hi
    rw [segRfft_eq c hv x i (by rw [hl]; exact hb), segRfft_eq c hv y i hb]
    simp only [Res.bind_ok, List.map_map]
    rw [mulLists_map_range]
    rfl

theorem set_map_range {α : Type} (n : ℕ) (f : ℕ → α) (i : ℕ) (v : α) :
    ((List.range n).map f).set i v = (List.range n).map fun k => if k = i then v else f k := by
  apply List.ext_getElem (by simp)
  intro k h1 h2
  simp only [List.getElem_set, List.getElem_map, List.getElem_range]
  by_cases h : i = k
  · simp [h]
  · rw [if_neg h, if_neg (Ne.symm h)]

/-- The one-sided factors. -/
theorem foldSides_ok {K : Type} [RCLike K] [DecidableEq K] (hv : c.Valid) (f : ℕ → K) :
    foldSides c ((List.range (c.window.length / 2 + 1)).map fun k : ℕ => Ex.fin (f k))
      = .ok ((List.range (c.window.length / 2 + 1)).map fun k : ℕ =>
        Ex.fin ((Spec.sideFactor c.window.length k : ℝ) * f k)) := by
  have hpos := hv.pos
  unfold foldSides
  rw [List.map_map]
  simp only [hv.np]
  have h0 : rd ((List.range (c.window.length / 2 + 1)).map ((fun e => Ex.fin 2 * e) ∘ fun k : ℕ => Ex.fin (f k))) (0 : ℤ)
      = .ok (Ex.fin (2 * f 0)) := by
    rw [show (0 : ℤ) = ((0 : ℕ) : ℤ) by rfl, rd_nat _ _ (by simp)]
    simp
  rw [h0]
  simp only [Res.bind_ok]
  rw [show (0 : ℤ) = ((0 : ℕ) : ℤ) by rfl, wr_nat _ _ _ (by simp), set_map_range]
  simp only [Res.bind_ok, List.length_map, List.length_range]
  by_cases he : c.window.length % 2 = 0
  · rw [if_pos (by exact_mod_cast he)]
    have h2 : 1 ≤ c.window.length / 2 := by omega
    rw [show (((c.window.length / 2 + 1 : ℕ) : ℤ) - 1) = ((c.window.length / 2 : ℕ) : ℤ) by push_cast; ring,
      rd_nat _ _ (by simp)]
    simp only [Res.bind_ok]
    rw [wr_nat _ _ _ (by simp), set_map_range]
    congr 1
    apply List.map_congr_left
    intro k hk
    have hk := List.mem_range.mp hk
    unfold Spec.sideFactor
    by_cases h1 : k = c.window.length / 2
    · subst h1
      simp only [if_true]
      rw [if_pos (.inr (by omega))]
      simp only [List.getElem_map, List.getElem_range]
      rw [if_neg (by omega)]
      simp [mul_comm]
    · rw [if_neg h1]
      by_cases h3 : k = 0
      · subst h3; simp [mul_comm]
      · rw [if_neg h3, if_neg (by omega)]
        simp [RCLike.ofReal_ofNat]
  · rw [if_neg (by exact_mod_cast he)]
    congr 1
    apply List.map_congr_left
    intro k hk
    have hk := List.mem_range.mp hk
    unfold Spec.sideFactor
    by_cases h3 : k = 0
    · subst h3; simp [mul_comm]
    · rw [if_neg h3, if_neg (by omega)]
      simp [RCLike.ofReal_ofNat]

end

end SciCpp
