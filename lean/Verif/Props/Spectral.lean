import Verif.Proofs.Spectral
import Verif.Props.Windows
import Mathlib.Analysis.InnerProductSpace.Basic
import Mathlib.Algebra.Order.BigOperators.Ring.Finset
/-
  Property theorems C49 (Welch segments), C51 (coherence), C52 (csd, tfestimate), C53 (configuration)
  and C54 (one-sided spectra).
-/
namespace SciCpp

open Finset

noncomputable section

variable {c : SpecCfg}

/-! ## Specification vocabulary -/

/-- Number of bins of the spectrum of `x`: `np` for complex signals, `np/2 + 1` for real ones. -/
def Sig.bins (x : Sig) (np : ℕ) : ℕ := if x.isC then np else np / 2 + 1

/-- Factor of bin `k`: real signals have one-sided spectra. -/
def Sig.factor (x : Sig) (np k : ℕ) : ℝ := if x.isC then 1 else Spec.sideFactor np k

/-- The divisor of each scaling: `fs Σ w²`, `(Σ w)²` (as stored in the object) and 1. -/
def SpecCfg.scale (c : SpecCfg) : Scaling → ℝ
  | .density => c.fs * c.s2
  | .spectrum => c.s1
  | .none => 1

/-- `np`, the segment length. -/
abbrev SpecCfg.len (c : SpecCfg) : ℕ := c.window.length

/-- Frequency of bin `k`: `k fs / np`, or `(k - np) fs / np` for the upper half of a two-sided
spectrum. -/
def binFreq (complex : Bool) (np : ℕ) (fs : ℝ) (k : ℕ) : ℝ :=
  if complex = true ∧ (np + 1) / 2 ≤ k then ((k : ℝ) - np) * fs / np else (k : ℝ) * fs / np

theorem scaleSpec_ok {K : Type} [RCLike K] [DecidableEq K] (s : Scaling) (hs : c.scale s ≠ 0) (n : ℕ)
    (f : ℕ → K) : scaleSpec c s ((List.range n).map fun k : ℕ => Ex.fin (f k))
      = (List.range n).map fun k : ℕ => Ex.fin (f k / ((c.scale s : ℝ) : K)) := by
  have hs' : ((c.scale s : ℝ) : K) ≠ 0 := by exact_mod_cast hs
  cases s with
  | none => simp [scaleSpec, SpecCfg.scale]
  | density =>
    simp only [scaleSpec, List.map_map]
    apply List.map_congr_left
    intro k _
    exact Ex.fin_div hs'
  | spectrum =>
    simp only [scaleSpec, List.map_map]
    apply List.map_congr_left
    intro k _
    exact Ex.fin_div hs'

theorem getFreqs_ok (hv : c.Valid) (hfs : 0 < c.fs) (b : Bool) :
    ∃ f, getFreqs c b = .ok f ∧ f.length = (if b then c.len else c.len / 2 + 1) ∧
      ∀ k : ℕ, k < f.length → f[k]? = some (binFreq b c.len c.fs k) := by
  have hpos := hv.pos
  have hd : (0 : ℝ) < 1 / c.fs := by positivity
  unfold getFreqs
  rw [hv.np, Int.toNat_natCast]
  cases b with
  | true =>
    obtain ⟨r, h1, h2, h3, h4, _⟩ := C45_fftfreq c.len (1 / c.fs) hpos hd
    refine ⟨r, by simpa using h1, by simpa using h2, fun k hk => ?_⟩
    rw [h2] at hk
    unfold binFreq
    by_cases h : (c.len + 1) / 2 ≤ k
    · rw [h4 k h hk, if_pos ⟨rfl, h⟩]
      congr 1; field_simp
    · rw [h3 k (by omega), if_neg (by tauto)]
      congr 1; field_simp
  | false =>
    obtain ⟨r, h1, h2, h3⟩ := C45_rfftfreq c.len (1 / c.fs) hpos hd
    refine ⟨r, by simpa using h1, by simpa using h2, fun k hk => ?_⟩
    rw [h3 k (by omega), binFreq, if_neg (by simp)]
    congr 1; field_simp

theorem welchPsd_ok (hv : c.Valid) (s : Scaling) (hs : c.scale s ≠ 0) (x : Sig) (h : c.len ≤ x.size) :
    welchPsd c s x = .ok ((List.range (x.bins c.len)).map fun k : ℕ =>
      Ex.fin (x.factor c.len k * Spec.power x.at c.win c.len c.step
        (Spec.numSegs x.size c.len c.step) k / c.scale s)) := by
  have hpos := hv.pos
  unfold welchPsd
  rw [if_neg (by simp only [SpecCfg.len] at h; omega)]
  cases x with
  | real x =>
    simp only []
    rw [welchImplR_ok hv x h]
    simp only [Res.bind_ok]
    rw [foldSides_ok hv]
    simp only [Res.bind_ok, Res.pure_eq]
    have := scaleSpec_ok (c := c) (K := ℝ) s hs (c.window.length / 2 + 1)
      (fun k => Spec.sideFactor c.window.length k * Spec.power (Sig.real x).at c.win c.window.length c.step
        (Spec.numSegs x.length c.window.length c.step) k)
    simp only [RCLike.ofReal_real_eq_id, id] at this ⊢
    rw [this]
    rfl
  | cplx x =>
    simp only []
    rw [welchImplC_ok hv x h]
    simp only [Res.bind_ok, Res.pure_eq]
    have := scaleSpec_ok (c := c) (K := ℝ) s hs c.window.length
      (fun k => Spec.power (Sig.cplx x).at c.win c.window.length c.step
        (Spec.numSegs x.length c.window.length c.step) k)
    simp only [RCLike.ofReal_real_eq_id, id] at this
    rw [this]
    simp [Sig.bins, Sig.factor, Sig.isC, Sig.size]

/-! ## C49 — segments -/

/-- C49: the segments used are exactly those that fit into the signal. -/
theorem C49_segments_fit (N np step : ℕ) (hs : 1 ≤ step) (h : np ≤ N) :
    1 ≤ Spec.numSegs N np step ∧
    (∀ i, i < Spec.numSegs N np step → i * step + np ≤ N) ∧
    N < Spec.numSegs N np step * step + np ∧
    Spec.numSegs N np step = 1 + (N - np) / step := by
  refine ⟨numSegs_pos _ _ _, fun i hi => (numSegs_spec N np step hs h i).mp hi, ?_, Nat.add_comm _ _⟩
  by_contra hc
  exact absurd ((numSegs_spec N np step hs h (Spec.numSegs N np step)).mpr (by omega)) (by omega)

/-- C49: `welch` of every signal at least one window long, with `noverlap < nperseg`, never leaves the
bounds of the signal and returns, for every bin, the mean over exactly the `1 + (N - np)/step` fitting
segments of the squared modulus of the transform of the mean-free windowed segment, one-sided for
real signals, divided by the scaling; with the matching frequencies. -/
theorem C49_welch (hv : c.Valid) (hfs : 0 < c.fs) (s : Scaling) (hs : c.scale s ≠ 0) (x : Sig)
    (h : c.len ≤ x.size) :
    ∃ f, welch c s x = .ok (f, (List.range (x.bins c.len)).map fun k : ℕ =>
        Ex.fin (x.factor c.len k * Spec.power x.at c.win c.len c.step
          (Spec.numSegs x.size c.len c.step) k / c.scale s)) ∧
      f.length = x.bins c.len ∧
      ∀ k : ℕ, k < f.length → f[k]? = some (binFreq x.isC c.len c.fs k) := by
  obtain ⟨f, h1, h2, h3⟩ := getFreqs_ok hv hfs x.isC
  refine ⟨f, ?_, h2, h3⟩
  have hpos := hv.pos
  unfold welch
  rw [if_neg (by simp only [SpecCfg.len] at h; omega), welchPsd_ok hv s hs x h, h1]
  rfl

/-- C49, boundary: `noverlap = nperseg` (accepted by `noverlap()` and `window()`) makes `welch` divide
by zero. -/
theorem C49_full_overlap_ub (h : c.noverlap = c.nperseg) (s : Scaling) (x : Sig) (hx : x.size ≠ 0) :
    welch c s x = .ub ∧ welchPsd c s x = .ub := by
  have hp : welchPsd c s x = .ub := by
    unfold welchPsd
    rw [if_neg hx]
    cases x with
    | real x => simp [welchImplR, numSegs, h]
    | cplx x => simp [welchImplC, numSegs, h]
  refine ⟨?_, hp⟩
  unfold welch
  rw [if_neg hx, hp]
  rfl

theorem forN_first_ub {σ : Type} (n : ℕ) (hn : 1 ≤ n) (f : ℕ → σ → Res σ) (s : σ) (h : f 0 s = .ub) :
    forN n f s = .ub := by
  induction n with
  | zero => omega
  | succ n ih =>
    cases n with
    | zero => simpa [forN, Res.bind] using h
    | succ m => rw [forN, ih (by omega)]; rfl

/-- C49, boundary: a non-empty signal shorter than the window is never padded: when it lacks fewer
than one step of samples the call is undefined behaviour (a violated `scicpp_require`). -/
theorem C49_short_signal_ub (hv : c.Valid) (s : Scaling) (x : Sig) (hx : x.size ≠ 0)
    (h : x.size < c.len) (hd : c.len - x.size < c.step) : welch c s x = .ub := by
  have hnum : numSegs c x.size = .ok 1 := by
    unfold numSegs
    have h1 := hv.step_pos
    simp only [hv.step_eq]
    rw [if_neg (by omega), hv.np]
    have : Int.tdiv ((x.size : ℤ) - (c.window.length : ℤ)) (c.step : ℤ) = 0 := by
      have e : ((x.size : ℤ) - (c.window.length : ℤ)) = -((c.window.length - x.size : ℕ) : ℤ) := by
        simp only [SpecCfg.len] at h; omega
      rw [e, Int.neg_tdiv, Int.tdiv_eq_zero_of_lt (by omega) (by exact_mod_cast hd)]
      rfl
    rw [this]; rfl
  have hseg : ∀ (K : Type) [Field K] (w y : List K), w.length = c.window.length → y.length = x.size →
      windowedSeg w c.nperseg (((0 : ℕ) : ℤ) * (c.nperseg - c.noverlap)) y = .ub := by
    intro K _ w y hw hy
    unfold windowedSeg
    rw [hv.np, Nat.cast_zero, zero_mul, (C46_subvector_partial y c.window.length 0).2]
    simp only [Res.bind_ok]
    rw [require_beq_ne]
    · rfl
    · simp only [SpecCfg.len] at h
      rw [List.length_take, hw, hy]; omega
  have hp : welchPsd c s x = .ub := by
    unfold welchPsd
    rw [if_neg hx]
    cases x with
    | real y =>
      simp only []
      unfold welchImplR
      rw [show numSegs c y.length = .ok 1 from hnum]
      simp only [Res.bind_ok]
      unfold computeSpectrum
      rw [forN_first_ub _ (by decide)]
      · rfl
      · unfold segRfft
        beta_reduce
        rw [hseg ℝ c.window y rfl rfl]
        rfl
    | cplx y =>
      simp only []
      unfold welchImplC
      rw [show numSegs c y.length = .ok 1 from hnum]
      simp only [Res.bind_ok]
      unfold computeSpectrum
      rw [forN_first_ub _ (by decide)]
      · rfl
      · unfold segFft
        beta_reduce
        rw [hseg ℂ (c.window.map fun v : ℝ => (v : ℂ)) y (List.length_map _) rfl]
        rfl
  unfold welch
  rw [if_neg hx, hp]
  rfl

/-- C49, boundary: a complex signal that lacks at least one step of samples gives a spectrum of zeros,
or of NaN when exactly the count is 0: no segment contributes. -/
theorem C49_very_short_signal (hv : c.Valid) (s : Scaling) (hs : c.scale s ≠ 0) (x : List ℂ)
    (hx : x ≠ []) (h : x.length < c.len) (hd : c.step ≤ c.len - x.length) :
    welchPsd c s (.cplx x) = .ok (List.replicate c.len
      (if c.len - x.length < 2 * c.step then Ex.nan else Ex.fin 0)) := by
  have hstep := hv.step_pos
  set q := (c.len - x.length) / c.step with hq
  have hq1 : 1 ≤ q := (Nat.one_le_div_iff (by omega)).mpr hd
  have hnum : numSegs c x.length = .ok (1 - (q : ℤ)) := by
    unfold numSegs
    simp only [hv.step_eq]
    rw [if_neg (by omega), hv.np]
    have e : ((x.length : ℤ) - (c.window.length : ℤ)) = -((c.window.length - x.length : ℕ) : ℤ) := by
      simp only [SpecCfg.len] at h; omega
    rw [e, Int.neg_tdiv, Int.tdiv_eq_ediv_of_nonneg (by omega), hq]
    push_cast; ring_nf
  have hlt : c.len - x.length < 2 * c.step ↔ q = 1 := by
    constructor
    · intro hl
      have : q < 2 := by rw [hq]; exact (Nat.div_lt_iff_lt_mul (by omega)).mpr hl
      omega
    · intro h1
      have : q < 2 := by omega
      rw [hq] at this
      exact (Nat.div_lt_iff_lt_mul (by omega)).mp this
  unfold welchPsd
  rw [if_neg (by simpa [Sig.size] using hx)]
  simp only []
  unfold welchImplC
  rw [hnum]
  simp only [Res.bind_ok]
  unfold computeSpectrum
  rw [show (1 - (q : ℤ)).toNat = 0 by omega, hv.np]
  simp only [forN, Res.bind_ok, Res.pure_eq, Int.toNat_natCast, List.map_replicate]
  congr 1
  by_cases h1 : q = 1
  · rw [if_pos (hlt.mpr h1), h1]
    have e : (Ex.fin (0 : ℝ) / Ex.fin (((1 - ((1 : ℕ) : ℤ) : ℤ)) : ℝ) : Ex ℝ) = Ex.nan := by
      rw [show (((1 - ((1 : ℕ) : ℤ) : ℤ)) : ℝ) = 0 by simp]; exact Ex.fin_div_zero 0
    rw [e]
    cases s <;> simp [scaleSpec]
  · rw [if_neg (by rw [hlt]; exact h1)]
    have hne : (((1 - (q : ℤ) : ℤ)) : ℝ) ≠ 0 := by
      have : (1 - (q : ℤ)) ≠ 0 := by omega
      exact_mod_cast this
    rw [Ex.fin_div hne, zero_div]
    cases s with
    | none => simp [scaleSpec]
    | density =>
      have : ((c.fs * c.s2 : ℝ)) ≠ 0 := hs
      simp [scaleSpec, Ex.fin_div this]
    | spectrum =>
      have : c.s1 ≠ 0 := hs
      simp [scaleSpec, Ex.fin_div this]

/-! ## C54 — one-sided spectra -/

/-- Bins `k` and `np - k` of a real segment are conjugate. -/
theorem segBin_symm (x : ℕ → ℂ) (hx : ∀ m, (starRingEnd ℂ) (x m) = x m) (w : ℕ → ℝ) (np step i k : ℕ)
    (hk : k < np) :
    Spec.segBin x w np step i (np - k) = (starRingEnd ℂ) (Spec.segBin x w np step i k) := by
  have hnp : np ≠ 0 := by omega
  unfold Spec.segBin
  rw [map_sum]
  refine sum_congr rfl fun j _ => ?_
  have ht := conj_twiddle np
  have h1 := twiddle_pow_self np hnp
  unfold twiddle at ht h1
  simp only [map_mul, map_sub, map_div₀, map_sum, hx, map_natCast, Complex.conj_ofReal, map_pow, ht]
  congr 1
  rw [Nat.mul_sub, inv_pow, ← mul_right_inj' (pow_ne_zero (j * k) (Complex.exp_ne_zero _)),
    mul_inv_cancel₀ (pow_ne_zero _ (Complex.exp_ne_zero _)), ← pow_add,
    Nat.add_sub_cancel' (Nat.mul_le_mul_left j hk.le), Nat.mul_comm j np, pow_mul, h1, one_pow]

/-- Folding a symmetric function. -/
theorem fold_sum (P : ℕ → ℝ) (n : ℕ) (hn : 1 ≤ n) (hs : ∀ k, 0 < k → k < n → P (n - k) = P k) :
    ∑ k ∈ range (n / 2 + 1), Spec.sideFactor n k * P k = ∑ k ∈ range n, P k := by
  rcases Nat.even_or_odd' n with ⟨m, rfl | rfl⟩
  · obtain ⟨l, rfl⟩ : ∃ l, m = l + 1 := ⟨m - 1, by omega⟩
    rw [show 2 * (l + 1) / 2 + 1 = l + 1 + 1 by omega, sum_range_succ, sum_range_succ']
    have e1 : ∑ k ∈ range l, Spec.sideFactor (2 * (l + 1)) (k + 1) * P (k + 1) = ∑ k ∈ range l, 2 * P (k + 1) :=
      sum_congr rfl fun k hk => by
        have := mem_range.mp hk
        unfold Spec.sideFactor; rw [if_neg (by omega)]
    have e2 : ∑ i ∈ range l, P (l + 2 + i) = ∑ i ∈ range l, P (i + 1) := by
      rw [← sum_range_reflect]
      refine sum_congr rfl fun i hi => ?_
      have := mem_range.mp hi
      rw [← hs (i + 1) (by omega) (by omega)]
      congr 1; omega
    rw [e1, show 2 * (l + 1) = (l + 2) + l by omega, sum_range_add, sum_range_succ, sum_range_succ', e2,
      ← mul_sum]
    have f0 : Spec.sideFactor (l + 2 + l) 0 = 1 := by simp [Spec.sideFactor]
    have f1 : Spec.sideFactor (l + 2 + l) (l + 1) = 1 := by unfold Spec.sideFactor; rw [if_pos (.inr (by omega))]
    rw [f0, f1]; ring
  · rw [show (2 * m + 1) / 2 + 1 = m + 1 by omega, sum_range_succ']
    have e1 : ∑ k ∈ range m, Spec.sideFactor (2 * m + 1) (k + 1) * P (k + 1) = ∑ k ∈ range m, 2 * P (k + 1) :=
      sum_congr rfl fun k hk => by
        have := mem_range.mp hk
        unfold Spec.sideFactor; rw [if_neg (by omega)]
    have e2 : ∑ i ∈ range m, P (m + 1 + i) = ∑ i ∈ range m, P (i + 1) := by
      rw [← sum_range_reflect]
      refine sum_congr rfl fun i hi => ?_
      have := mem_range.mp hi
      rw [← hs (i + 1) (by omega) (by omega)]
      congr 1; omega
    rw [e1, show 2 * m + 1 = (m + 1) + m by omega, sum_range_add, sum_range_succ', e2, ← mul_sum]
    have f0 : Spec.sideFactor (m + 1 + m) 0 = 1 := by simp [Spec.sideFactor]
    rw [f0]; ring

theorem at_real_conj (x : List ℝ) (m : ℕ) : (starRingEnd ℂ) ((Sig.real x).at m) = (Sig.real x).at m := by
  unfold Sig.at Sig.toC
  rw [map_getD_ofReal, Complex.conj_ofReal]

theorem power_symm (x : List ℝ) (w : ℕ → ℝ) (np step nseg k : ℕ) (hk : k < np) :
    Spec.power (Sig.real x).at w np step nseg (np - k) = Spec.power (Sig.real x).at w np step nseg k := by
  unfold Spec.power
  congr 1
  refine sum_congr rfl fun i _ => ?_
  rw [segBin_symm _ (at_real_conj x) w np step i k hk, Complex.normSq_conj]

theorem sum_map_range (n : ℕ) (f : ℕ → ℝ) : ((List.range n).map f).sum = ∑ k ∈ range n, f k := rfl

/-- C54: for every real signal (at least one window long), window of either parity, overlap and
scaling, the one-sided spectrum of `welch` is the two-sided spectrum of the same samples (passed as
complex numbers) with every bin doubled except frequency 0 and Nyquist, and both have the same total
power. -/
theorem C54_onesided_folded (hv : c.Valid) (hfs : 0 < c.fs) (s : Scaling) (hs : c.scale s ≠ 0)
    (x : List ℝ) (h : c.len ≤ x.length) :
    ∃ (f1 f2 p1 p2 : List ℝ),
      welch c s (.real x) = .ok (f1, p1.map Ex.fin) ∧
      welch c s (.cplx (x.map fun v : ℝ => (v : ℂ))) = .ok (f2, p2.map Ex.fin) ∧
      p1.length = c.len / 2 + 1 ∧ p2.length = c.len ∧
      (∀ k : ℕ, k ≤ c.len / 2 →
        p1.getD k 0 = (if k = 0 ∨ 2 * k = c.len then 1 else 2) * p2.getD k 0) ∧
      p1.sum = p2.sum := by
  have hpos := hv.pos
  obtain ⟨f1, a1, _, _⟩ := C49_welch hv hfs s hs (.real x) h
  obtain ⟨f2, b1, _, _⟩ := C49_welch hv hfs s hs (.cplx (x.map fun v : ℝ => (v : ℂ)))
    (by simpa [Sig.size] using h)
  have hat : (Sig.cplx (x.map fun v : ℝ => (v : ℂ))).at = (Sig.real x).at := rfl
  have hsz : (Sig.cplx (x.map fun v : ℝ => (v : ℂ))).size = (Sig.real x).size := by simp [Sig.size]
  rw [hat, hsz] at b1
  simp only [Sig.bins, Sig.factor, Sig.isC, Bool.false_eq_true, if_false, if_true] at a1 b1
  refine ⟨f1, f2, (List.range (c.len / 2 + 1)).map fun k : ℕ => Spec.sideFactor c.len k *
    Spec.power (Sig.real x).at c.win c.len c.step (Spec.numSegs (Sig.real x).size c.len c.step) k / c.scale s,
    (List.range c.len).map fun k : ℕ => 1 *
    Spec.power (Sig.real x).at c.win c.len c.step (Spec.numSegs (Sig.real x).size c.len c.step) k / c.scale s,
    ?_, ?_, by simp, by simp, ?_, ?_⟩
  · rw [a1, List.map_map]; rfl
  · rw [b1, List.map_map]; rfl
  · intro k hk
    have : k < c.len := by simp only [SpecCfg.len] at *; omega
    rw [getD_map_range _ _ _ _ (by omega), getD_map_range _ _ _ _ this]
    unfold Spec.sideFactor
    split_ifs <;> ring
  · rw [sum_map_range, sum_map_range]
    simp only [mul_div_assoc]
    have := fold_sum (fun k => Spec.power (Sig.real x).at c.win c.len c.step
      (Spec.numSegs (Sig.real x).size c.len c.step) k / c.scale s) c.len hpos (fun k _ hk => by
        rw [power_symm x _ _ _ _ _ hk])
    rw [this]
    exact sum_congr rfl fun k _ => by ring

/-- Parseval for one segment. -/
theorem segBin_parseval (x : ℕ → ℂ) (w : ℕ → ℝ) (np step i : ℕ) :
    ∑ k ∈ range np, Complex.normSq (Spec.segBin x w np step i k)
      = np * ∑ j ∈ range np, Complex.normSq
        ((x (i * step + j) - (∑ m ∈ range np, x (i * step + m)) / np) * (w j : ℂ)) := by
  set a : ℕ → ℂ := fun j => (x (i * step + j) - (∑ m ∈ range np, x (i * step + m)) / np) * (w j : ℂ)
  have hX : ∀ k, Spec.segBin x w np step i k = ∑ j ∈ range np, a j * twiddle np ^ (j * k) := fun k => rfl
  show _ = (np : ℝ) * ∑ j ∈ range np, Complex.normSq (a j)
  clear_value a
  apply Complex.ofReal_injective
  push_cast
  simp only [Complex.normSq_eq_conj_mul_self, hX, map_sum, map_mul, map_pow, conj_twiddle]
  have e : ∀ k ∈ range np,
      (∑ m ∈ range np, (starRingEnd ℂ) (a m) * (twiddle np)⁻¹ ^ (m * k)) * ∑ j ∈ range np, a j * twiddle np ^ (j * k)
        = ∑ m ∈ range np, ∑ j ∈ range np, ((starRingEnd ℂ) (a m) * a j)
          * (twiddle np ^ (j * k) * (twiddle np)⁻¹ ^ (m * k)) := by
    intro k _
    rw [sum_mul_sum]
    exact sum_congr rfl fun m _ => sum_congr rfl fun j _ => by ring
  rw [sum_congr rfl e, sum_comm, mul_sum]
  refine sum_congr rfl fun m hm => ?_
  rw [sum_comm]
  have e2 : ∀ j ∈ range np, ∑ k ∈ range np, ((starRingEnd ℂ) (a m) * a j)
          * (twiddle np ^ (j * k) * (twiddle np)⁻¹ ^ (m * k))
      = if m = j then ((starRingEnd ℂ) (a m) * a j) * (np : ℂ) else 0 := by
    intro j hj
    rw [← mul_sum, sum_twiddle np m j (mem_range.mp hm) (mem_range.mp hj)]
    split_ifs <;> simp
  rw [sum_congr rfl e2, sum_ite_eq, if_pos hm]
  ring

/-- C54, Parseval: the total of the returned spectrum (one-sided or two-sided) is `np` times the mean
over the segments of the energy of the mean-free windowed samples, divided by the scaling. -/
theorem C54_parseval (hv : c.Valid) (hfs : 0 < c.fs) (s : Scaling) (hs : c.scale s ≠ 0)
    (x : Sig) (h : c.len ≤ x.size) :
    ∃ (f p : List ℝ), welch c s x = .ok (f, p.map Ex.fin) ∧
      p.sum = c.len * ((∑ i ∈ range (Spec.numSegs x.size c.len c.step), ∑ j ∈ range c.len,
        Complex.normSq ((x.at (i * c.step + j) - (∑ m ∈ range c.len, x.at (i * c.step + m)) / c.len)
          * (c.win j : ℂ))) / Spec.numSegs x.size c.len c.step) / c.scale s := by
  have hpos := hv.pos
  have tot : ∀ y : ℕ → ℂ, ∑ k ∈ range c.len, Spec.power y c.win c.len c.step (Spec.numSegs x.size c.len c.step) k
      = c.len * ((∑ i ∈ range (Spec.numSegs x.size c.len c.step), ∑ j ∈ range c.len,
        Complex.normSq ((y (i * c.step + j) - (∑ m ∈ range c.len, y (i * c.step + m)) / c.len)
          * (c.win j : ℂ))) / Spec.numSegs x.size c.len c.step) := by
    intro y
    unfold Spec.power
    rw [← sum_div, sum_comm, sum_congr rfl fun i _ => segBin_parseval y c.win c.len c.step i,
      ← mul_sum, mul_div_assoc]
  cases x with
  | real x =>
    obtain ⟨f1, f2, p1, p2, a1, a2, a3, a4, a5, a6⟩ := C54_onesided_folded hv hfs s hs x h
    refine ⟨f1, p1, a1, ?_⟩
    obtain ⟨f2', b1, _, _⟩ := C49_welch hv hfs s hs (.cplx (x.map fun v : ℝ => (v : ℂ)))
      (by simpa [Sig.size] using h)
    have hat : (Sig.cplx (x.map fun v : ℝ => (v : ℂ))).at = (Sig.real x).at := rfl
    have hsz : (Sig.cplx (x.map fun v : ℝ => (v : ℂ))).size = (Sig.real x).size := by simp [Sig.size]
    rw [a2, hat, hsz] at b1
    simp only [Sig.bins, Sig.factor, Sig.isC, if_true, Res.ok.injEq, Prod.mk.injEq, one_mul] at b1
    have hp : p2 = (List.range c.len).map fun k : ℕ => Spec.power (Sig.real x).at c.win c.len c.step
        (Spec.numSegs (Sig.real x).size c.len c.step) k / c.scale s := by
      have hinj : Function.Injective (Ex.fin : ℝ → Ex ℝ) := fun a b h => by injection h
      apply List.map_injective_iff.mpr hinj
      rw [b1.2, List.map_map]; rfl
    rw [a6, hp, sum_map_range, ← sum_div, tot]
  | cplx x =>
    obtain ⟨f, b1, _, _⟩ := C49_welch hv hfs s hs (.cplx x) h
    refine ⟨f, (List.range c.len).map fun k : ℕ => Spec.power (Sig.cplx x).at c.win c.len c.step
        (Spec.numSegs (Sig.cplx x).size c.len c.step) k / c.scale s, ?_, ?_⟩
    · rw [b1, List.map_map]
      simp only [Sig.bins, Sig.factor, Sig.isC, if_true, one_mul]
      rfl
    · rw [sum_map_range, ← sum_div, tot]

/-! ## C52 — cross spectra and transfer functions -/

/-- Number of bins of a cross spectrum. -/
def bins2 (x y : Sig) (np : ℕ) : ℕ := if x.isC || y.isC then np else np / 2 + 1

/-- Factor of bin `k` of a cross spectrum. -/
def factor2 (x y : Sig) (np k : ℕ) : ℝ := if x.isC || y.isC then 1 else Spec.sideFactor np k

theorem csdSame_ok (hv : c.Valid) (hfs : 0 < c.fs) (s : Scaling) (hs : c.scale s ≠ 0) (x y : Sig)
    (h : c.len ≤ x.size) (hl : x.size = y.size) :
    ∃ f, getFreqs c (x.isC || y.isC) = .ok f ∧
      csdSame c s x y = .ok (f, (List.range (bins2 x y c.len)).map fun k : ℕ =>
        Ex.fin (((factor2 x y c.len k : ℝ) : ℂ) * Spec.cross x.at y.at c.win c.len c.step
          (Spec.numSegs x.size c.len c.step) k / ((c.scale s : ℝ) : ℂ))) ∧
      f.length = bins2 x y c.len ∧
      ∀ k : ℕ, k < f.length → f[k]? = some (binFreq (x.isC || y.isC) c.len c.fs k) := by
  obtain ⟨f, h1, h2, h3⟩ := getFreqs_ok hv hfs (x.isC || y.isC)
  refine ⟨f, h1, ?_, h2, h3⟩
  have gen : ∀ u v : List ℂ, u.length = x.size → v.length = y.size → (x.isC || y.isC) = true →
      (Sig.cplx u).at = x.at → (Sig.cplx v).at = y.at →
      (do
        let w ← welch2ImplC c u v
        let f ← getFreqs c true
        pure (f, scaleSpec c s w) : Res (List ℝ × List (Ex ℂ)))
      = .ok (f, (List.range (bins2 x y c.len)).map fun k : ℕ =>
        Ex.fin (((factor2 x y c.len k : ℝ) : ℂ) * Spec.cross x.at y.at c.win c.len c.step
          (Spec.numSegs x.size c.len c.step) k / ((c.scale s : ℝ) : ℂ))) := by
    intro u v hu hw hb hxu hyv
    rw [hb] at h1
    rw [welch2ImplC_ok hv u v (by rw [hu]; exact h) (by rw [hu, hw, hl]), h1]
    simp only [Res.bind_ok, Res.pure_eq]
    have := scaleSpec_ok (c := c) (K := ℂ) s hs c.window.length
      (fun k => Spec.cross x.at y.at c.win c.window.length c.step
        (Spec.numSegs x.size c.window.length c.step) k)
    rw [hxu, hyv, hu, this]
    simp [bins2, factor2, hb]
  cases x with
  | real x =>
    cases y with
    | real y =>
      unfold csdSame
      simp only []
      rw [welch2ImplR_ok hv x y h hl]
      simp only [Res.bind_ok]
      rw [foldSides_ok hv]
      simp only [Res.bind_ok, Res.pure_eq]
      have h1' : getFreqs c false = .ok f := h1
      rw [h1']
      simp only [Res.bind_ok]
      have := scaleSpec_ok (c := c) (K := ℂ) s hs (c.window.length / 2 + 1)
        (fun k => ((Spec.sideFactor c.window.length k : ℝ) : ℂ) * Spec.cross (Sig.real x).at (Sig.real y).at c.win
          c.window.length c.step (Spec.numSegs x.length c.window.length c.step) k)
      have e := this
      simp only [Complex.coe_algebraMap] at e ⊢
      erw [e]
      rfl
    | cplx y =>
      exact gen _ _ (toC_length _) (toC_length _) rfl rfl rfl
  | cplx x =>
    cases y with
    | real y => exact gen _ _ (toC_length _) (toC_length _) rfl rfl rfl
    | cplx y => exact gen _ _ (toC_length _) (toC_length _) rfl rfl rfl

theorem zeroPad_ok (x : Sig) (n : ℕ) (h : x.size ≤ n) :
    ∃ x', x.zeroPad n = .ok x' ∧ x'.size = n ∧ x'.isC = x.isC ∧ x'.at = x.at := by
  cases x with
  | real x =>
    refine ⟨.real (x.take n ++ List.replicate (n - x.length) 0), ?_, (C46_zero_padding x n).2.2, rfl, ?_⟩
    · unfold Sig.zeroPad; simp only [(C46_zero_padding x n).1]; rfl
    · funext k
      unfold Sig.at Sig.toC
      rw [map_getD_ofReal, map_getD_ofReal, pad_getD _ _ _ (.inl h)]
  | cplx x =>
    refine ⟨.cplx (x.take n ++ List.replicate (n - x.length) 0), ?_, (C46_zero_padding x n).2.2, rfl, ?_⟩
    · unfold Sig.zeroPad; simp only [(C46_zero_padding x n).1]; rfl
    · funext k
      exact pad_getD _ _ _ (.inl h)

/-- C52 / C49: `csd(x, y)` of every pair of non-empty signals (real, complex or mixed, of any lengths
with the longer one at least one window long): per bin the mean over the segments of
`conj X_i(k) Y_i(k)` of the zero-extended signals. -/
theorem C52_csd (hv : c.Valid) (hfs : 0 < c.fs) (s : Scaling) (hs : c.scale s ≠ 0) (x y : Sig)
    (hx : x.size ≠ 0) (hy : y.size ≠ 0) (h : c.len ≤ max x.size y.size) :
    ∃ f, getFreqs c (x.isC || y.isC) = .ok f ∧
      csd c s x y = .ok (f, (List.range (bins2 x y c.len)).map fun k : ℕ =>
        Ex.fin (((factor2 x y c.len k : ℝ) : ℂ) * Spec.cross x.at y.at c.win c.len c.step
          (Spec.numSegs (max x.size y.size) c.len c.step) k / ((c.scale s : ℝ) : ℂ))) ∧
      f.length = bins2 x y c.len ∧
      ∀ k : ℕ, k < f.length → f[k]? = some (binFreq (x.isC || y.isC) c.len c.fs k) := by
  unfold csd
  rw [if_neg (by tauto)]
  rcases lt_trichotomy x.size y.size with hlt | heq | hgt
  · rw [if_neg (by omega), if_neg (by omega)]
    obtain ⟨x', e1, e2, e3, e4⟩ := zeroPad_ok x y.size hlt.le
    rw [e1]
    simp only [Res.bind_ok]
    have hm : max x.size y.size = y.size := by omega
    have := csdSame_ok hv hfs s hs x' y (by rw [e2, ← hm]; exact h) e2
    rw [e2, e3, e4] at this
    rw [hm]
    simpa only [bins2, factor2, e3] using this
  · rw [if_pos heq]
    have hm : max x.size y.size = x.size := by omega
    rw [hm] at h ⊢
    exact csdSame_ok hv hfs s hs x y h heq
  · rw [if_neg (by omega), if_pos (by omega)]
    obtain ⟨y', e1, e2, e3, e4⟩ := zeroPad_ok y x.size (le_of_lt hgt)
    rw [e1]
    simp only [Res.bind_ok]
    have hm : max x.size y.size = x.size := by omega
    rw [hm] at h ⊢
    have := csdSame_ok hv hfs s hs x y' h e2.symm
    rw [e3, e4] at this
    simpa only [bins2, factor2, e3] using this

theorem cross_conj (x y : ℕ → ℂ) (w : ℕ → ℝ) (np step nseg k : ℕ) :
    Spec.cross y x w np step nseg k = (starRingEnd ℂ) (Spec.cross x y w np step nseg k) := by
  unfold Spec.cross
  rw [map_div₀, map_natCast, map_sum]
  congr 1
  refine sum_congr rfl fun i _ => ?_
  rw [map_mul, Complex.conj_conj, mul_comm]

theorem cross_self (x : ℕ → ℂ) (w : ℕ → ℝ) (np step nseg k : ℕ) :
    Spec.cross x x w np step nseg k = ((Spec.power x w np step nseg k : ℝ) : ℂ) := by
  unfold Spec.cross Spec.power
  push_cast
  congr 1
  exact sum_congr rfl fun i _ => (Complex.normSq_eq_conj_mul_self).symm

/-- C52: exchanging the signals conjugates the cross spectrum (real, complex or mixed signals, equal
or different lengths). -/
theorem C52_csd_hermitian (hv : c.Valid) (hfs : 0 < c.fs) (s : Scaling) (hs : c.scale s ≠ 0) (x y : Sig)
    (hx : x.size ≠ 0) (hy : y.size ≠ 0) (h : c.len ≤ max x.size y.size) :
    ∃ (f : List ℝ) (p : List ℂ), csd c s x y = .ok (f, p.map Ex.fin) ∧
      csd c s y x = .ok (f, (p.map (starRingEnd ℂ)).map Ex.fin) := by
  obtain ⟨f, a1, a2, _, _⟩ := C52_csd hv hfs s hs x y hx hy h
  obtain ⟨f', b1, b2, _, _⟩ := C52_csd hv hfs s hs y x hy hx (by rwa [max_comm])
  rw [Bool.or_comm, a1] at b1
  have hf : f = f' := by injection b1
  subst hf
  refine ⟨f, (List.range (bins2 x y c.len)).map fun k : ℕ =>
        ((factor2 x y c.len k : ℝ) : ℂ) * Spec.cross x.at y.at c.win c.len c.step
          (Spec.numSegs (max x.size y.size) c.len c.step) k / ((c.scale s : ℝ) : ℂ), ?_, ?_⟩
  · rw [a2, List.map_map]; rfl
  · rw [b2, List.map_map, List.map_map]
    have e1 : bins2 y x c.len = bins2 x y c.len := by unfold bins2; rw [Bool.or_comm]
    rw [e1]
    congr 2
    apply List.map_congr_left
    intro k _
    have e2 : factor2 y x c.len k = factor2 x y c.len k := by unfold factor2; rw [Bool.or_comm]
    simp only [Function.comp, e2, max_comm y.size, cross_conj x.at y.at, map_div₀, map_mul, Complex.conj_ofReal]

/-- C52: `csd(x, x)` is `welch(x)`. -/
theorem C52_csd_self (hv : c.Valid) (hfs : 0 < c.fs) (s : Scaling) (hs : c.scale s ≠ 0) (x : Sig)
    (h : c.len ≤ x.size) :
    ∃ (f p : List ℝ), welch c s x = .ok (f, p.map Ex.fin) ∧
      csd c s x x = .ok (f, (p.map fun v : ℝ => (v : ℂ)).map Ex.fin) := by
  have hpos := hv.pos
  have hx : x.size ≠ 0 := by simp only [SpecCfg.len] at h; omega
  obtain ⟨f, a1, a2, _, _⟩ := C52_csd hv hfs s hs x x hx hx (by rwa [max_self])
  obtain ⟨f', h1, _, _⟩ := getFreqs_ok hv hfs x.isC
  rw [Bool.or_self, h1] at a1
  have hf : f' = f := by injection a1
  subst hf
  refine ⟨f', (List.range (x.bins c.len)).map fun k : ℕ => x.factor c.len k * Spec.power x.at c.win c.len c.step
          (Spec.numSegs x.size c.len c.step) k / c.scale s, ?_, ?_⟩
  · unfold welch
    rw [if_neg hx, welchPsd_ok hv s hs x h, h1, List.map_map]
    rfl
  · rw [a2, List.map_map, List.map_map, max_self]
    have e1 : bins2 x x c.len = x.bins c.len := by unfold bins2 Sig.bins; rw [Bool.or_self]
    rw [e1]
    congr 2
    apply List.map_congr_left
    intro k _
    simp only [Function.comp, cross_self]
    have e2 : factor2 x x c.len k = x.factor c.len k := by unfold factor2 Sig.factor; rw [Bool.or_self]
    rw [e2]; push_cast; rfl

theorem scale_none : c.scale .none ≠ 0 := one_ne_zero

theorem sideFactor_pos (np k : ℕ) : 0 < Spec.sideFactor np k := by
  unfold Spec.sideFactor; split_ifs <;> norm_num

theorem factor_pos (x : Sig) (np k : ℕ) : 0 < x.factor np k := by
  unfold Sig.factor; split_ifs
  · norm_num
  · exact sideFactor_pos _ _

/-- C52: `tfestimate(x, y)` (signals of one length; `x` complex, or both real) is
`conj Y X / |X|²` averaged over the segments: NaN where `x` has no power. -/
theorem C52_tfestimate_value (hv : c.Valid) (hfs : 0 < c.fs) (x y : Sig) (h : c.len ≤ x.size)
    (hl : x.size = y.size) (ht : x.isC = true ∨ y.isC = false) :
    ∃ (f : List ℝ) (v : List (Ex ℂ)), tfestimate c x y = .ok (f, v) ∧ v.length = x.bins c.len ∧
      ∀ k : ℕ, k < x.bins c.len → v[k]? = some
        (if Spec.power x.at c.win c.len c.step (Spec.numSegs x.size c.len c.step) k = 0 then Ex.nan
         else Ex.fin (Spec.cross y.at x.at c.win c.len c.step (Spec.numSegs x.size c.len c.step) k
          / ((Spec.power x.at c.win c.len c.step (Spec.numSegs x.size c.len c.step) k : ℝ) : ℂ))) := by
  have hpos := hv.pos
  have hx : x.size ≠ 0 := by simp only [SpecCfg.len] at h; omega
  obtain ⟨f, _, a2, _, _⟩ := C52_csd hv hfs .none scale_none y x (by rw [← hl]; exact hx) hx
    (by rw [← hl, max_self]; exact h)
  have e1 : bins2 y x c.len = x.bins c.len := by
    unfold bins2 Sig.bins; rcases ht with ht | ht <;> simp [ht]
  have e2 : ∀ k, factor2 y x c.len k = x.factor c.len k := by
    intro k; unfold factor2 Sig.factor; rcases ht with ht | ht <;> simp [ht]
  rw [e1, ← hl, max_self] at a2
  unfold tfestimate
  rw [hl]
  simp only [beq_self_eq_true, require_true, Res.bind_ok, a2, welchPsd_ok hv .none scale_none x h,
    List.length_map, Res.pure_eq]
  refine ⟨_, _, rfl, by simp, fun k hk => ?_⟩
  rw [zip_map_range, List.getElem?_map, List.getElem?_range hk]
  simp only [Option.map_some, Ex.divReal, e2, SpecCfg.scale, ← hl]
  congr 1
  have hfp := factor_pos x c.len k
  by_cases hp : Spec.power x.at c.win c.len c.step (Spec.numSegs x.size c.len c.step) k = 0
  · rw [if_pos hp, if_pos (by rw [hp]; simp)]
  · rw [if_neg hp, if_neg (by
      rw [div_one]; exact mul_ne_zero hfp.ne' hp)]
    have h1 : ((x.factor c.len k : ℝ) : ℂ) ≠ 0 := by exact_mod_cast hfp.ne'
    congr 1
    push_cast
    rw [div_one, div_one, mul_div_mul_left _ _ h1]

/-- C52 (partial): if `Y = H X` on every segment at bin `k` and `x` has power there, `tfestimate(x, y)`
returns the complex conjugate of `H`; this is `H` itself for real gains only.  Missing: the property
says `H` (see `C52_tfestimate_false`). -/
theorem C52_tfestimate_partial (hv : c.Valid) (hfs : 0 < c.fs) (x y : Sig) (h : c.len ≤ x.size)
    (hl : x.size = y.size) (ht : x.isC = true ∨ y.isC = false) (k : ℕ) (hk : k < x.bins c.len) (H : ℂ)
    (hH : ∀ i, i < Spec.numSegs x.size c.len c.step →
      Spec.segBin y.at c.win c.len c.step i k = H * Spec.segBin x.at c.win c.len c.step i k)
    (hp : Spec.power x.at c.win c.len c.step (Spec.numSegs x.size c.len c.step) k ≠ 0) :
    ∃ (f : List ℝ) (v : List (Ex ℂ)), tfestimate c x y = .ok (f, v) ∧
      v[k]? = some (Ex.fin ((starRingEnd ℂ) H)) := by
  obtain ⟨f, v, h1, _, h3⟩ := C52_tfestimate_value hv hfs x y h hl ht
  refine ⟨f, v, h1, ?_⟩
  rw [h3 k hk, if_neg hp]
  congr 2
  have hpc : ((Spec.power x.at c.win c.len c.step (Spec.numSegs x.size c.len c.step) k : ℝ) : ℂ) ≠ 0 := by
    exact_mod_cast hp
  rw [div_eq_iff hpc, ← cross_self]
  unfold Spec.cross
  rw [← mul_div_assoc, mul_sum]
  congr 1
  refine sum_congr rfl fun i hi => ?_
  rw [hH i (mem_range.mp hi), map_mul]; ring

theorem exp_quarter : Complex.exp (-(2 * Real.pi * Complex.I / (4 : ℕ))) = -Complex.I := by
  rw [show -(2 * (Real.pi : ℂ) * Complex.I / (4 : ℕ)) = ((-(Real.pi / 2) : ℝ) : ℂ) * Complex.I by
    push_cast; ring, Complex.exp_mul_I, ← Complex.ofReal_cos, ← Complex.ofReal_sin, Real.cos_neg,
    Real.sin_neg, Real.cos_pi_div_two, Real.sin_pi_div_two]
  simp

/-- A configuration with a rectangular window of `n` points. -/
def rectCfg (n : ℕ) (noverlap : ℤ) : SpecCfg :=
  { fs := 1, window := List.replicate n 1, s1 := (n : ℝ) * n, s2 := n, nperseg := n, useDflt := false,
    noverlap := noverlap, nthreads := 0 }

/-- C52 ("returns `H`") is false of the code: a delay of one sample has gain `-i` at a quarter of the
sampling frequency; `tfestimate` returns `+i` there (the call uses `csd(y, x)` where `csd(x, y)` is
needed). -/
theorem C52_tfestimate_false :
    ∃ (c : SpecCfg) (x y : Sig) (H : ℂ), c.Valid ∧ c.len ≤ x.size ∧ x.size = y.size ∧
      (∀ i, i < Spec.numSegs x.size c.len c.step →
        Spec.segBin y.at c.win c.len c.step i 1 = H * Spec.segBin x.at c.win c.len c.step i 1) ∧
      ∃ (f : List ℝ) (v : List (Ex ℂ)), tfestimate c x y = .ok (f, v) ∧
        v[1]? = some (Ex.fin (-H)) ∧ H ≠ -H := by
  have hv : (rectCfg 4 0).Valid := ⟨rfl, by simp [rectCfg], by simp [rectCfg]⟩
  have hlen : (rectCfg 4 0).len = 4 := rfl
  have hstep : (rectCfg 4 0).step = 4 := rfl
  have hwin : ∀ j : ℕ, j < 4 → (rectCfg 4 0).win j = 1 := by
    intro j hj
    have : j = 0 ∨ j = 1 ∨ j = 2 ∨ j = 3 := by omega
    rcases this with rfl | rfl | rfl | rfl <;> rfl
  have hns : Spec.numSegs 4 4 4 = 1 := rfl
  have I2 : Complex.I ^ 2 = -1 := Complex.I_sq
  have hX : Spec.segBin (Sig.cplx [1, 0, 0, 0]).at (rectCfg 4 0).win 4 4 0 1 = 1 := by
    unfold Spec.segBin
    rw [exp_quarter]
    simp only [sum_range_succ, range_zero, sum_empty, hwin _ (by norm_num : 0 < 4),
      hwin _ (by norm_num : 1 < 4), hwin _ (by norm_num : 2 < 4), hwin _ (by norm_num : 3 < 4)]
    simp [Sig.at, Sig.toC]
    linear_combination (1 / 4 : ℂ) * Complex.I * I2
  have hY : Spec.segBin (Sig.cplx [0, 1, 0, 0]).at (rectCfg 4 0).win 4 4 0 1 = -Complex.I := by
    unfold Spec.segBin
    rw [exp_quarter]
    simp only [sum_range_succ, range_zero, sum_empty, hwin _ (by norm_num : 0 < 4),
      hwin _ (by norm_num : 1 < 4), hwin _ (by norm_num : 2 < 4), hwin _ (by norm_num : 3 < 4)]
    simp [Sig.at, Sig.toC]
    linear_combination (1 / 4 : ℂ) * Complex.I * I2
  have hgain : ∀ i, i < Spec.numSegs (Sig.cplx [1, 0, 0, 0]).size (rectCfg 4 0).len (rectCfg 4 0).step →
      Spec.segBin (Sig.cplx [0, 1, 0, 0]).at (rectCfg 4 0).win (rectCfg 4 0).len (rectCfg 4 0).step i 1
        = -Complex.I * Spec.segBin (Sig.cplx [1, 0, 0, 0]).at (rectCfg 4 0).win (rectCfg 4 0).len
          (rectCfg 4 0).step i 1 := by
    intro i hi
    have : i = 0 := by
      have : i < 1 := hi
      omega
    subst this
    show Spec.segBin _ _ 4 4 0 1 = -Complex.I * Spec.segBin _ _ 4 4 0 1
    rw [hX, hY, mul_one]
  refine ⟨rectCfg 4 0, .cplx [1, 0, 0, 0], .cplx [0, 1, 0, 0], -Complex.I, hv, by simp [hlen, Sig.size],
    rfl, hgain, ?_⟩
  obtain ⟨f, v, h1, h2⟩ := C52_tfestimate_partial hv one_pos (.cplx [1, 0, 0, 0]) (.cplx [0, 1, 0, 0])
    (by simp [hlen, Sig.size]) rfl (.inl rfl) 1 (by simp [Sig.bins, Sig.isC, hlen]) _ hgain (by
      show Spec.power _ _ 4 4 1 1 ≠ 0
      unfold Spec.power
      rw [sum_range_one, hX]; simp)
  refine ⟨f, v, h1, by rw [h2]; simp, ?_⟩
  intro h
  have := congrArg Complex.im h
  norm_num at this

/-! ## C51 — coherence -/

/-- Cauchy-Schwarz for cross spectra. -/
theorem cross_le (x y : ℕ → ℂ) (w : ℕ → ℝ) (np step nseg k : ℕ) :
    Complex.normSq (Spec.cross x y w np step nseg k)
      ≤ Spec.power x w np step nseg k * Spec.power y w np step nseg k := by
  unfold Spec.cross Spec.power
  rw [map_div₀, Complex.normSq_natCast, div_mul_div_comm]
  apply div_le_div_of_nonneg_right _ (by positivity)
  simp only [Complex.normSq_eq_norm_sq]
  calc ‖∑ i ∈ range nseg, (starRingEnd ℂ) (Spec.segBin x w np step i k) * Spec.segBin y w np step i k‖ ^ 2
      ≤ (∑ i ∈ range nseg, ‖Spec.segBin x w np step i k‖ * ‖Spec.segBin y w np step i k‖) ^ 2 := by
        apply pow_le_pow_left₀ (norm_nonneg _)
        refine (norm_sum_le _ _).trans (sum_le_sum fun i _ => ?_)
        rw [norm_mul, RCLike.norm_conj]
    _ ≤ _ := sum_mul_sq_le_sq_mul_sq _ _ _

theorem power_nonneg (x : ℕ → ℂ) (w : ℕ → ℝ) (np step nseg k : ℕ) : 0 ≤ Spec.power x w np step nseg k :=
  div_nonneg (sum_nonneg fun _ _ => Complex.normSq_nonneg _) (Nat.cast_nonneg _)

/-- C51 (partial): for every two signals of one kind (both real or both complex) and one length, at
least one window long, `coherence` is NaN where a spectrum vanishes and otherwise
`|Pxy|² / (Pxx Pyy)`, which lies in `[0, 1]`.  Missing: one real and one complex signal
(`C51_mixed_false`). -/
theorem C51_coherence_partial (hv : c.Valid) (hfs : 0 < c.fs) (x y : Sig) (h : c.len ≤ x.size)
    (hl : x.size = y.size) (ht : x.isC = y.isC) :
    ∃ (f : List ℝ) (v : List (Ex ℝ)), coherence c x y = .ok (f, v) ∧ v.length = x.bins c.len ∧
      ∀ k : ℕ, k < x.bins c.len →
        let n := Spec.numSegs x.size c.len c.step
        let pxx := Spec.power x.at c.win c.len c.step n k
        let pyy := Spec.power y.at c.win c.len c.step n k
        let pxy := Spec.cross x.at y.at c.win c.len c.step n k
        (pxx = 0 ∨ pyy = 0 → v[k]? = some Ex.nan) ∧
        (pxx ≠ 0 → pyy ≠ 0 → ∃ r : ℝ, v[k]? = some (Ex.fin r) ∧ r = Complex.normSq pxy / (pxx * pyy) ∧
          0 ≤ r ∧ r ≤ 1) := by
  have hpos := hv.pos
  have hx : x.size ≠ 0 := by simp only [SpecCfg.len] at h; omega
  obtain ⟨f, _, a2, _, _⟩ := C52_csd hv hfs .none scale_none x y hx (by rw [← hl]; exact hx)
    (by rw [← hl, max_self]; exact h)
  obtain ⟨f2, b2, _, _⟩ := C49_welch hv hfs .none scale_none x h
  obtain ⟨f3, c2, _, _⟩ := C49_welch hv hfs .none scale_none y (by rw [← hl]; exact h)
  have e1 : bins2 x y c.len = x.bins c.len := by unfold bins2 Sig.bins; simp [ht]
  have e2 : ∀ k, factor2 x y c.len k = x.factor c.len k := by
    intro k; unfold factor2 Sig.factor; simp [ht]
  have e3 : y.bins c.len = x.bins c.len := by unfold Sig.bins; rw [ht]
  have e4 : ∀ k, y.factor c.len k = x.factor c.len k := by intro k; unfold Sig.factor; rw [ht]
  rw [e1, ← hl, max_self] at a2
  rw [e3, ← hl] at c2
  unfold coherence
  rw [hl]
  simp only [beq_self_eq_true, require_true, Res.bind_ok, a2, b2, c2, List.length_map, Res.pure_eq,
    List.map_map]
  refine ⟨_, _, rfl, by simp, fun k hk => ?_⟩
  rw [zip_map_range, zip_map_range, List.getElem?_map, List.getElem?_range hk]
  simp only [Option.map_some, Function.comp, Ex.normSq, e2, e4, SpecCfg.scale, ← hl, Complex.ofReal_one, div_one]
  have hfp := factor_pos x c.len k
  set F := x.factor c.len k with hF
  set pxx := Spec.power x.at c.win c.len c.step (Spec.numSegs x.size c.len c.step) k with hpxx
  set pyy := Spec.power y.at c.win c.len c.step (Spec.numSegs x.size c.len c.step) k with hpyy
  set pxy := Spec.cross x.at y.at c.win c.len c.step (Spec.numSegs x.size c.len c.step) k with hpxy
  have hcs : Complex.normSq pxy ≤ pxx * pyy := cross_le _ _ _ _ _ _ _
  have hxn : 0 ≤ pxx := power_nonneg _ _ _ _ _ _
  have hyn : 0 ≤ pyy := power_nonneg _ _ _ _ _ _
  constructor
  · rintro (h0 | h0)
    · rw [h0, mul_zero, Ex.fin_div_zero, Ex.nan_div]
    · rw [h0, mul_zero]
      by_cases h1 : F * pxx = 0
      · rw [h1, Ex.fin_div_zero, Ex.nan_div]
      · rw [Ex.fin_div h1, Ex.fin_div_zero]
  · intro h0 h1
    rw [Ex.fin_div (mul_ne_zero hfp.ne' h0), Ex.fin_div (mul_ne_zero hfp.ne' h1)]
    refine ⟨_, rfl, ?_, ?_, ?_⟩
    · rw [Complex.normSq_mul, Complex.normSq_ofReal]
      field_simp
    · exact div_nonneg (div_nonneg (Complex.normSq_nonneg _) (by positivity)) (by positivity)
    · rw [Complex.normSq_mul, Complex.normSq_ofReal]
      have : F * F * Complex.normSq pxy / (F * pxx) / (F * pyy) = Complex.normSq pxy / (pxx * pyy) := by
        field_simp
      rw [this]
      exact div_le_one_of_le₀ hcs (by positivity)

/-- C51: symmetry. -/
theorem C51_symmetric (hv : c.Valid) (hfs : 0 < c.fs) (x y : Sig) (h : c.len ≤ x.size)
    (hl : x.size = y.size) (ht : x.isC = y.isC) (f f' : List ℝ) (v v' : List (Ex ℝ))
    (h1 : coherence c x y = .ok (f, v)) (h2 : coherence c y x = .ok (f', v')) : v = v' := by
  obtain ⟨g, u, a1, a2, a3⟩ := C51_coherence_partial hv hfs x y h hl ht
  obtain ⟨g', u', b1, b2, b3⟩ := C51_coherence_partial hv hfs y x (by rw [← hl]; exact h) hl.symm ht.symm
  rw [h1] at a1; rw [h2] at b1
  have e1 : v = u := by injection a1 with a1; exact (Prod.mk.inj a1).2
  have e2 : v' = u' := by injection b1 with b1; exact (Prod.mk.inj b1).2
  subst e1; subst e2
  have e3 : y.bins c.len = x.bins c.len := by unfold Sig.bins; rw [ht]
  apply List.ext_getElem?
  intro k
  rcases Nat.lt_or_ge k (x.bins c.len) with hk | hk
  · obtain ⟨p1, p2⟩ := a3 k hk
    obtain ⟨q1, q2⟩ := b3 k (by rw [e3]; exact hk)
    rw [← hl] at q1 q2
    by_cases hx0 : Spec.power x.at c.win c.len c.step (Spec.numSegs x.size c.len c.step) k = 0
    · rw [p1 (.inl hx0), q1 (.inr hx0)]
    · by_cases hy0 : Spec.power y.at c.win c.len c.step (Spec.numSegs x.size c.len c.step) k = 0
      · rw [p1 (.inr hy0), q1 (.inl hy0)]
      · obtain ⟨r, r1, r2, _⟩ := p2 hx0 hy0
        obtain ⟨r', s1, s2, _⟩ := q2 hy0 hx0
        rw [r1, s1, r2, s2, cross_conj x.at y.at, Complex.normSq_conj, mul_comm]
  · rw [List.getElem?_eq_none (by omega), List.getElem?_eq_none (by omega)]

/-- C51: with a single segment, or when `Y = a X` on every segment (for instance `y = a x`), the
coherence is 1 wherever both spectra are non-zero. -/
theorem C51_one (hv : c.Valid) (hfs : 0 < c.fs) (x y : Sig) (h : c.len ≤ x.size)
    (hl : x.size = y.size) (ht : x.isC = y.isC) (k : ℕ) (hk : k < x.bins c.len)
    (hone : Spec.numSegs x.size c.len c.step = 1 ∨ ∃ a : ℂ, ∀ i, i < Spec.numSegs x.size c.len c.step →
      Spec.segBin y.at c.win c.len c.step i k = a * Spec.segBin x.at c.win c.len c.step i k)
    (hx0 : Spec.power x.at c.win c.len c.step (Spec.numSegs x.size c.len c.step) k ≠ 0)
    (hy0 : Spec.power y.at c.win c.len c.step (Spec.numSegs x.size c.len c.step) k ≠ 0) :
    ∃ (f : List ℝ) (v : List (Ex ℝ)), coherence c x y = .ok (f, v) ∧ v[k]? = some (Ex.fin 1) := by
  obtain ⟨f, v, h1, _, h3⟩ := C51_coherence_partial hv hfs x y h hl ht
  obtain ⟨r, r1, r2, _⟩ := (h3 k hk).2 hx0 hy0
  refine ⟨f, v, h1, ?_⟩
  rw [r1, r2]
  congr 2
  rw [div_eq_one_iff_eq (mul_ne_zero hx0 hy0)]
  rcases hone with h1 | ⟨a, ha⟩
  · rw [h1]
    simp [Spec.cross, Spec.power]
  · have e1 : Spec.cross x.at y.at c.win c.len c.step (Spec.numSegs x.size c.len c.step) k
        = a * ((Spec.power x.at c.win c.len c.step (Spec.numSegs x.size c.len c.step) k : ℝ) : ℂ) := by
      rw [← cross_self]
      unfold Spec.cross
      rw [← mul_div_assoc, mul_sum]
      congr 1
      refine sum_congr rfl fun i hi => ?_
      rw [ha i (mem_range.mp hi)]; ring
    have e2 : Spec.power y.at c.win c.len c.step (Spec.numSegs x.size c.len c.step) k
        = Complex.normSq a * Spec.power x.at c.win c.len c.step (Spec.numSegs x.size c.len c.step) k := by
      unfold Spec.power
      rw [← mul_div_assoc, mul_sum]
      congr 1
      refine sum_congr rfl fun i hi => ?_
      rw [ha i (mem_range.mp hi), Complex.normSq_mul]
    rw [e1, e2, Complex.normSq_mul, Complex.normSq_ofReal]
    ring

/-- `y = a x` gives `Y = a X` on every segment. -/
theorem C51_scaled_signal (x : ℕ → ℂ) (a : ℂ) (w : ℕ → ℝ) (np step i k : ℕ) :
    Spec.segBin (fun m => a * x m) w np step i k = a * Spec.segBin x w np step i k := by
  unfold Spec.segBin
  rw [mul_sum]
  refine sum_congr rfl fun j _ => ?_
  rw [← mul_sum]; ring

/-- C51 is false of the code for one real and one complex signal: `csd` is two-sided and `welch` of
the real signal one-sided, so the requirement of equal sizes is violated for every window of three
points or more. -/
theorem C51_mixed_false (hv : c.Valid) (hfs : 0 < c.fs) (x : List ℝ) (y : List ℂ)
    (h : c.len ≤ x.length) (hl : x.length = y.length) (h3 : 3 ≤ c.len) :
    coherence c (.real x) (.cplx y) = .ub ∧ tfestimate c (.real x) (.cplx y) = .ub := by
  have hx : (Sig.real x).size ≠ 0 := by simp only [Sig.size]; omega
  have hy : (Sig.cplx y).size ≠ 0 := by simp only [Sig.size]; omega
  obtain ⟨f, _, a2, _, _⟩ := C52_csd hv hfs .none scale_none (.real x) (.cplx y) hx hy
    (by simp only [Sig.size]; omega)
  obtain ⟨f', _, a3, _, _⟩ := C52_csd hv hfs .none scale_none (.cplx y) (.real x) hy hx
    (by simp only [Sig.size]; omega)
  obtain ⟨f2, b2, _, _⟩ := C49_welch hv hfs .none scale_none (.real x) h
  obtain ⟨f3, c2, _, _⟩ := C49_welch hv hfs .none scale_none (.cplx y) (by simp only [Sig.size]; omega)
  have hsz : (Sig.real x).size = (Sig.cplx y).size := hl
  constructor
  · unfold coherence
    rw [hsz]
    simp only [beq_self_eq_true, require_true, Res.bind_ok, a2, b2, c2, List.length_map, List.length_range]
    rw [require_beq_ne]
    · rfl
    · simp only [bins2, Sig.bins, Sig.isC]; simp; omega
  · unfold tfestimate
    rw [hsz]
    simp only [beq_self_eq_true, require_true, Res.bind_ok, a3, welchPsd_ok hv .none scale_none (.real x) h,
      List.length_map, List.length_range]
    rw [require_beq_ne]
    · rfl
    · simp only [bins2, Sig.bins, Sig.isC]; simp; omega

/-! ## C53 — the configuration -/

/-- What every reachable configuration satisfies. -/
structure SpecCfg.Consistent (c : SpecCfg) : Prop where
  np : c.nperseg = c.window.length
  s1 : c.s1 = c.window.sum ^ 2
  s2 : c.s2 = (c.window.map fun v => v ^ 2).sum
  le : c.noverlap ≤ c.nperseg
  dflt : c.useDflt = true → c.noverlap = ((c.window.length / 2 : ℕ) : ℤ)

/-- Is the call a configuration setter? -/
def SpecOp.isSetter : SpecOp → Bool
  | .fs _ | .noverlap _ | .nthreads _ | .window _ => true
  | _ => false

/-- Is the call `periodogram`? -/
def SpecOp.isPeriodogram : SpecOp → Bool
  | .periodogram _ _ => true
  | _ => false

theorem require_ok_iff (b : Bool) (u : PUnit) : require b = .ok u ↔ b = true := by
  cases b <;> simp [require]

theorem bind_eq_ok {α β : Type} (m : Res α) (f : α → Res β) (b : β) :
    (m >>= f) = .ok b ↔ ∃ a, m = .ok a ∧ f a = .ok b := by
  cases m with
  | ok a => simp
  | ub => simp

theorem setNoverlap_eq (c c' : SpecCfg) (n : ℤ) (h : c.setNoverlap n = .ok c') :
    n ≤ c.nperseg ∧ c' = { c with useDflt := false, noverlap := n } := by
  unfold SpecCfg.setNoverlap at h
  by_cases hn : n ≤ c.nperseg
  · simp only [hn, decide_true, require_true, Res.bind_ok, Res.pure_eq, Res.ok.injEq] at h
    exact ⟨hn, h.symm⟩
  · simp [hn] at h

theorem setWindow_consistent (c c' : SpecCfg) (w : List ℝ) (h : c.setWindow w = .ok c') :
    c'.Consistent ∧ c'.window = w ∧ c'.fs = c.fs ∧ c'.useDflt = c.useDflt ∧
      (c.useDflt = false → c'.noverlap = c.noverlap) := by
  unfold SpecCfg.setWindow SpecCfg.setParameters at h
  simp only [] at h
  have e1 := (C48_gains w (1 : ℝ)).1
  have e2 := (C48_gains w (1 : ℝ)).2.1
  have htd : Int.tdiv (w.length : ℤ) 2 = ((w.length / 2 : ℕ) : ℤ) := by
    rw [Int.tdiv_eq_ediv_of_nonneg (by omega)]; omega
  by_cases hn : (if c.useDflt = true then Int.tdiv (w.length : ℤ) 2 else c.noverlap) ≤ (w.length : ℤ)
  · simp only [hn, decide_true, require_true, Res.bind_ok, Res.pure_eq, Res.ok.injEq] at h
    subst h
    refine ⟨⟨rfl, e1, e2, hn, fun hd => ?_⟩, rfl, rfl, rfl, fun hd => ?_⟩
    · have hd : c.useDflt = true := hd
      simp only [hd, if_true]; exact htd
    · simp [hd]
  · simp only [hn, decide_false, require_false, Res.bind_ub, reduceCtorEq] at h

/-- The initial configuration is consistent. -/
theorem init_consistent : SpecCfg.init.Consistent := by
  refine ⟨rfl, ?_, ?_, ?_, fun _ => ?_⟩
  · exact (C48_gains SpecCfg.init.window (1 : ℝ)).1
  · unfold SpecCfg.init
    generalize (List.range 256).map (fun i : ℕ => Spec.hann 256 i) = w
    exact (C48_gains w (1 : ℝ)).2.1
  · unfold SpecCfg.init
    simp only [List.length_map, List.length_range]
    rw [show Int.tdiv ((256 : ℕ) : ℤ) 2 = 128 from rfl]; norm_num
  · unfold SpecCfg.init
    simp only [List.length_map, List.length_range]
    rw [show Int.tdiv ((256 : ℕ) : ℤ) 2 = 128 from rfl]; norm_num

/-- One call: either the configuration is unchanged, or the call is a setter or `periodogram`. -/
theorem exec_computation (c c' : SpecCfg) (op : SpecOp) (o : SpecOut) (h : c.exec op = .ok (o, c'))
    (hs : op.isSetter = false) (hp : op.isPeriodogram = false) : c' = c := by
  cases op <;> simp only [SpecOp.isSetter, SpecOp.isPeriodogram, Bool.true_eq_false] at hs hp
  all_goals
    simp only [SpecCfg.exec, bind_eq_ok, Res.pure_eq, Res.ok.injEq, Prod.mk.injEq] at h
    obtain ⟨_, _, _, h⟩ := h
    exact h.symm

theorem exec_periodogram (c c' : SpecCfg) (s : Scaling) (x : Sig) (o : SpecOut)
    (h : c.exec (.periodogram s x) = .ok (o, c')) : c.setNoverlap 0 = .ok c' := by
  simp only [SpecCfg.exec, bind_eq_ok, Res.pure_eq, Res.ok.injEq, Prod.mk.injEq] at h
  obtain ⟨⟨r, c2⟩, h1, _, h2⟩ := h
  unfold periodogram at h1
  simp only [bind_eq_ok, Res.pure_eq, Res.ok.injEq, Prod.mk.injEq] at h1
  obtain ⟨_, _, c3, h3, _, _, _, h4⟩ := h1
  rw [h3, h4, ← h2]

/-- C53: in every history that does not hit undefined behaviour, the stored segment length, window
gains and overlap are those of the stored window; the overlap never exceeds the segment length. -/
theorem C53_consistent (c c' : SpecCfg) (hc : c.Consistent) (ops : List SpecOp) (os : List SpecOut)
    (h : c.run ops = .ok (os, c')) : c'.Consistent := by
  induction ops generalizing c os with
  | nil =>
    simp only [SpecCfg.run, Res.ok.injEq, Prod.mk.injEq] at h
    rw [← h.2]; exact hc
  | cons op ops ih =>
    simp only [SpecCfg.run, bind_eq_ok, Res.pure_eq, Res.ok.injEq, Prod.mk.injEq] at h
    obtain ⟨⟨o, c1⟩, h1, ⟨os', c2⟩, h2, _, h3⟩ := h
    simp only at h1 h2 h3
    subst h3
    refine ih c1 ?_ os' h2
    cases op with
    | fs f =>
      simp only [SpecCfg.exec, Res.ok.injEq, Prod.mk.injEq] at h1
      rw [← h1.2]
      exact ⟨hc.np, hc.s1, hc.s2, hc.le, hc.dflt⟩
    | nthreads f =>
      simp only [SpecCfg.exec, Res.ok.injEq, Prod.mk.injEq] at h1
      rw [← h1.2]
      exact ⟨hc.np, hc.s1, hc.s2, hc.le, hc.dflt⟩
    | noverlap n =>
      simp only [SpecCfg.exec, bind_eq_ok, Res.pure_eq, Res.ok.injEq, Prod.mk.injEq] at h1
      obtain ⟨c3, h4, _, h5⟩ := h1
      obtain ⟨h6, h7⟩ := setNoverlap_eq _ _ _ h4
      rw [← h5, h7]
      exact ⟨hc.np, hc.s1, hc.s2, h6, by simp⟩
    | window w =>
      simp only [SpecCfg.exec, bind_eq_ok, Res.pure_eq, Res.ok.injEq, Prod.mk.injEq] at h1
      obtain ⟨c3, h4, _, h5⟩ := h1
      rw [← h5]
      exact (setWindow_consistent _ _ _ h4).1
    | periodogram s x =>
      obtain ⟨h6, h7⟩ := setNoverlap_eq _ _ _ (exec_periodogram _ _ _ _ _ h1)
      rw [h7]
      exact ⟨hc.np, hc.s1, hc.s2, h6, by simp⟩
    | welch s x => rw [exec_computation _ _ _ _ h1 rfl rfl]; exact hc
    | csd s x y => rw [exec_computation _ _ _ _ h1 rfl rfl]; exact hc
    | coherence x y => rw [exec_computation _ _ _ _ h1 rfl rfl]; exact hc
    | tfestimate x y => rw [exec_computation _ _ _ _ h1 rfl rfl]; exact hc

/-- Replace `periodogram` by the setter it calls and drop the other computations. -/
def SpecOp.settersOnly : List SpecOp → List SpecOp
  | [] => []
  | .periodogram _ _ :: l => .noverlap 0 :: settersOnly l
  | op :: l => if op.isSetter then op :: settersOnly l else settersOnly l

/-- C53: in every history, `welch`, `csd`, `coherence` and `tfestimate` leave no trace, and
`periodogram` acts on the configuration exactly as `noverlap(0)`. -/
theorem C53_computations_leave_no_trace (c c' : SpecCfg) (ops : List SpecOp) (os : List SpecOut)
    (h : c.run ops = .ok (os, c')) : ∃ os', c.run (SpecOp.settersOnly ops) = .ok (os', c') := by
  induction ops generalizing c os with
  | nil =>
    simp only [SpecCfg.run, Res.ok.injEq, Prod.mk.injEq] at h
    exact ⟨[], by rw [SpecOp.settersOnly, SpecCfg.run, h.2]⟩
  | cons op ops ih =>
    simp only [SpecCfg.run, bind_eq_ok, Res.pure_eq, Res.ok.injEq, Prod.mk.injEq] at h
    obtain ⟨⟨o, c1⟩, h1, ⟨os', c2⟩, h2, _, h3⟩ := h
    simp only at h1 h2 h3
    subst h3
    obtain ⟨os2, h4⟩ := ih c1 os' h2
    have keep : ∀ op' : SpecOp, (∃ o', c.exec op' = .ok (o', c1)) →
        ∃ os', c.run (op' :: SpecOp.settersOnly ops) = .ok (os', c2) := by
      intro op' ⟨o', ho⟩
      exact ⟨o' :: os2, by simp only [SpecCfg.run, ho, Res.bind_ok, h4, Res.pure_eq]⟩
    have drop : op.isSetter = false → op.isPeriodogram = false →
        ∃ os', c.run (SpecOp.settersOnly ops) = .ok (os', c2) := by
      intro a b
      rw [exec_computation _ _ _ _ h1 a b] at h4
      exact ⟨os2, h4⟩
    cases op with
    | periodogram s x =>
      refine keep (.noverlap 0) ⟨.unit, ?_⟩
      simp only [SpecCfg.exec, exec_periodogram _ _ _ _ _ h1, Res.bind_ok, Res.pure_eq]
    | fs f => exact keep _ ⟨o, h1⟩
    | noverlap n => exact keep _ ⟨o, h1⟩
    | nthreads n => exact keep _ ⟨o, h1⟩
    | window w => exact keep _ ⟨o, h1⟩
    | welch s x => exact drop rfl rfl
    | csd s x y => exact drop rfl rfl
    | coherence x y => exact drop rfl rfl
    | tfestimate x y => exact drop rfl rfl

/-- The value last given by a call that `f` recognises, or `init` if there was none. -/
def lastSet {T : Type} (f : SpecOp → Option T) (init : T) (ops : List SpecOp) : T :=
  ((ops.filterMap f).getLast?).getD init

/-- The sampling frequency a call sets. -/
def SpecOp.asFs : SpecOp → Option ℝ
  | .fs f => some f
  | _ => none

/-- The number of threads a call sets. -/
def SpecOp.asNthreads : SpecOp → Option ℕ
  | .nthreads n => some n
  | _ => none

/-- The window a call sets. -/
def SpecOp.asWindow : SpecOp → Option (List ℝ)
  | .window w => some w
  | _ => none

/-- The overlap a call sets: `periodogram` sets it to zero. -/
def SpecOp.asNoverlap : SpecOp → Option ℤ
  | .noverlap n => some n
  | .periodogram _ _ => some 0
  | _ => none

theorem lastSet_cons {T : Type} (f : SpecOp → Option T) (init : T) (op : SpecOp) (ops : List SpecOp) :
    lastSet f init (op :: ops) = lastSet f ((f op).getD init) ops := by
  unfold lastSet
  cases h : f op with
  | none => simp [h]
  | some v =>
    simp only [List.filterMap_cons, h, Option.getD_some]
    cases hl : ops.filterMap f with
    | nil => simp
    | cons a l => simp [List.getLast?_cons]

/-- What one call leaves in the configuration. -/
theorem exec_fields (c c' : SpecCfg) (op : SpecOp) (o : SpecOut) (h : c.exec op = .ok (o, c')) :
    c'.fs = op.asFs.getD c.fs ∧ c'.nthreads = op.asNthreads.getD c.nthreads ∧
    c'.window = op.asWindow.getD c.window ∧
    c'.useDflt = (c.useDflt && op.asNoverlap.isNone) ∧
    (c'.useDflt = false → c'.noverlap = op.asNoverlap.getD c.noverlap) := by
  cases op with
  | fs f =>
    simp only [SpecCfg.exec, Res.ok.injEq, Prod.mk.injEq] at h
    rw [← h.2]; simp [SpecOp.asFs, SpecOp.asNthreads, SpecOp.asWindow, SpecOp.asNoverlap, SpecCfg.setFs]
  | nthreads f =>
    simp only [SpecCfg.exec, Res.ok.injEq, Prod.mk.injEq] at h
    rw [← h.2]
    simp [SpecOp.asFs, SpecOp.asNthreads, SpecOp.asWindow, SpecOp.asNoverlap, SpecCfg.setNthreads]
  | noverlap n =>
    simp only [SpecCfg.exec, bind_eq_ok, Res.pure_eq, Res.ok.injEq, Prod.mk.injEq] at h
    obtain ⟨c3, h4, _, h5⟩ := h
    rw [← h5, (setNoverlap_eq _ _ _ h4).2]
    simp [SpecOp.asFs, SpecOp.asNthreads, SpecOp.asWindow, SpecOp.asNoverlap]
  | window w =>
    simp only [SpecCfg.exec, bind_eq_ok, Res.pure_eq, Res.ok.injEq, Prod.mk.injEq] at h
    obtain ⟨c3, h4, _, h5⟩ := h
    subst h5
    obtain ⟨_, a1, a2, a3, a4⟩ := setWindow_consistent _ _ _ h4
    refine ⟨a2, ?_, a1, by simp [a3, SpecOp.asNoverlap], fun hd => a4 (a3 ▸ hd)⟩
    unfold SpecCfg.setWindow SpecCfg.setParameters at h4
    simp only [bind_eq_ok, Res.pure_eq, Res.ok.injEq] at h4
    obtain ⟨_, _, h6⟩ := h4
    rw [← h6]; rfl
  | periodogram s x =>
    rw [(setNoverlap_eq _ _ _ (exec_periodogram _ _ _ _ _ h)).2]
    simp [SpecOp.asFs, SpecOp.asNthreads, SpecOp.asWindow, SpecOp.asNoverlap]
  | welch s x =>
    rw [exec_computation _ _ _ _ h rfl rfl]
    simp [SpecOp.asFs, SpecOp.asNthreads, SpecOp.asWindow, SpecOp.asNoverlap]
  | csd s x y =>
    rw [exec_computation _ _ _ _ h rfl rfl]
    simp [SpecOp.asFs, SpecOp.asNthreads, SpecOp.asWindow, SpecOp.asNoverlap]
  | coherence x y =>
    rw [exec_computation _ _ _ _ h rfl rfl]
    simp [SpecOp.asFs, SpecOp.asNthreads, SpecOp.asWindow, SpecOp.asNoverlap]
  | tfestimate x y =>
    rw [exec_computation _ _ _ _ h rfl rfl]
    simp [SpecOp.asFs, SpecOp.asNthreads, SpecOp.asWindow, SpecOp.asNoverlap]

/-- C53: after any history, the sampling frequency, the number of threads and the window are those last
set; the overlap is the one last set (`periodogram` counting as `noverlap(0)`), or half the window while
none was set. -/
theorem C53_last_set (c c' : SpecCfg) (ops : List SpecOp) (os : List SpecOut)
    (h : c.run ops = .ok (os, c')) :
    c'.fs = lastSet SpecOp.asFs c.fs ops ∧
    c'.nthreads = lastSet SpecOp.asNthreads c.nthreads ops ∧
    c'.window = lastSet SpecOp.asWindow c.window ops ∧
    (c'.useDflt = true ↔ c.useDflt = true ∧ ops.filterMap SpecOp.asNoverlap = []) ∧
    (c'.useDflt = false → c'.noverlap = lastSet SpecOp.asNoverlap c.noverlap ops) ∧
    (c.Consistent → c'.useDflt = true → c'.noverlap = ((c'.window.length / 2 : ℕ) : ℤ)) := by
  refine (fun a => ⟨a.1, a.2.1, a.2.2.1, a.2.2.2.1, a.2.2.2.2,
    fun hc => (C53_consistent c c' hc ops os h).dflt⟩ :
      (_ ∧ _ ∧ _ ∧ _ ∧ _) → _) ?_
  induction ops generalizing c os with
  | nil =>
    simp only [SpecCfg.run, Res.ok.injEq, Prod.mk.injEq] at h
    rw [← h.2]; simp [lastSet]
  | cons op ops ih =>
    simp only [SpecCfg.run, bind_eq_ok, Res.pure_eq, Res.ok.injEq, Prod.mk.injEq] at h
    obtain ⟨⟨o, c1⟩, h1, ⟨os', c2⟩, h2, _, h3⟩ := h
    simp only at h1 h2 h3
    subst h3
    obtain ⟨i1, i2, i3, i4, i5⟩ := ih c1 os' h2
    obtain ⟨e1, e2, e3, e4, e5⟩ := exec_fields _ _ _ _ h1
    rw [e1] at i1; rw [e2] at i2; rw [e3] at i3; rw [e4] at i4
    refine ⟨by rw [lastSet_cons, i1], by rw [lastSet_cons, i2], by rw [lastSet_cons, i3], ?_, ?_⟩
    · rw [i4]
      cases hv : op.asNoverlap with
      | none => simp [hv]
      | some v => simp [hv]
    · intro hd
      rw [i5 hd, lastSet_cons]
      by_cases hc : c1.useDflt = false
      · rw [e5 hc]
      · have hc' : c1.useDflt = true := by simpa using hc
        rw [e4] at hc'
        rw [hc'] at i4
        have hn : ops.filterMap SpecOp.asNoverlap ≠ [] := by
          intro he
          have := i4.2 ⟨rfl, he⟩
          rw [hd] at this; cases this
        obtain ⟨z, l, hl⟩ : ∃ z l, ops.filterMap SpecOp.asNoverlap = z :: l := List.exists_cons_of_ne_nil hn
        simp [lastSet, hl, List.getLast?_cons]

/-- A concrete history. -/
example : lastSet SpecOp.asNthreads 0 [.nthreads 2, .fs 1, .nthreads 4, .window [1]] = 4 := by
  simp [lastSet, List.filterMap_cons, SpecOp.asNthreads]

/-- C53 (partial): without `periodogram`, the same computation later in a history of computations gives
the same answer.  Missing: `periodogram` (`C53_periodogram_false`). -/
theorem C53_repeatable_partial (c c' : SpecCfg) (ops : List SpecOp) (os : List SpecOut)
    (h : c.run ops = .ok (os, c')) (hc : ∀ op ∈ ops, op.isSetter = false ∧ op.isPeriodogram = false)
    (op : SpecOp) : c'.exec op = c.exec op := by
  have : c' = c := by
    induction ops generalizing c os with
    | nil =>
      simp only [SpecCfg.run, Res.ok.injEq, Prod.mk.injEq] at h
      exact h.2.symm
    | cons o ops ih =>
      simp only [SpecCfg.run, bind_eq_ok, Res.pure_eq, Res.ok.injEq, Prod.mk.injEq] at h
      obtain ⟨⟨o', c1⟩, h1, ⟨os', c2⟩, h2, _, h3⟩ := h
      simp only at h1 h2 h3
      subst h3
      obtain ⟨a, b⟩ := hc o (List.mem_cons_self ..)
      rw [exec_computation _ _ _ _ h1 a b] at h2
      exact ih c os' h2 fun op hop => hc op (List.mem_cons_of_mem _ hop)
  rw [this]

theorem exp_half : Complex.exp (-(2 * Real.pi * Complex.I / (2 : ℕ))) = -1 := by
  rw [show -(2 * (Real.pi : ℂ) * Complex.I / (2 : ℕ)) = -(Real.pi * Complex.I) by push_cast; ring,
    Complex.exp_neg, Complex.exp_pi_mul_I]
  norm_num

/-- C53 is false of the code: `periodogram` changes the overlap for good.  A two-point window with the
default overlap of one: `welch` of `0, 1, 3` gives 5/2 at the Nyquist bin before a `periodogram` and 1
after it. -/
theorem C53_periodogram_false :
    ∃ (c c' : SpecCfg) (o : SpecOut) (f f' : List ℝ) (p p' : List (Ex ℝ)),
      SpecCfg.init.setWindow [1, 1] = .ok c ∧
      c.exec (.periodogram .none (.real [1, 2])) = .ok (o, c') ∧
      welch c .none (.real [0, 1, 3]) = .ok (f, p) ∧ welch c' .none (.real [0, 1, 3]) = .ok (f', p') ∧
      p[1]? = some (Ex.fin (5 / 2)) ∧ p'[1]? = some (Ex.fin 1) := by
  have hw : ∃ c, SpecCfg.init.setWindow [1, 1] = .ok c ∧ c.noverlap = 1 ∧ c.window = [1, 1] ∧
      c.nperseg = 2 ∧ c.fs = 1 := ⟨_, rfl, rfl, rfl, rfl, rfl⟩
  obtain ⟨c, h1, h2, h3, h4, h5⟩ := hw
  have h6 : c.setNoverlap 0 = .ok { c with useDflt := false, noverlap := 0 } := by
    unfold SpecCfg.setNoverlap; rw [h4]; rfl
  have hv : c.Valid := ⟨by rw [h4, h3]; rfl, by rw [h3]; decide, by rw [h2, h4]; decide⟩
  set c' : SpecCfg := { c with useDflt := false, noverlap := 0 } with hc'
  have hv' : c'.Valid := ⟨hv.np, hv.pos, by show (0 : ℤ) < c.nperseg; rw [h4]; decide⟩
  have hfs : 0 < c.fs := by rw [h5]; exact one_pos
  have hlen : c.len = 2 := by simp only [SpecCfg.len]; rw [h3]; rfl
  have hlen' : c'.len = 2 := hlen
  have hst : c.step = 1 := by unfold SpecCfg.step; rw [h2, h4]; rfl
  have hst' : c'.step = 2 := by unfold SpecCfg.step; show (c.nperseg - 0).toNat = 2; rw [h4]; rfl
  have hwin : c.win 0 = 1 ∧ c.win 1 = 1 := by unfold SpecCfg.win; rw [h3]; exact ⟨rfl, rfl⟩
  have hwin' : c'.win 0 = 1 ∧ c'.win 1 = 1 := hwin
  obtain ⟨f, a1, _, _⟩ := C49_welch hv hfs .none scale_none (.real [0, 1, 3]) (by rw [hlen]; decide)
  obtain ⟨f', b1, _, _⟩ := C49_welch (c := c') hv' hfs .none scale_none (.real [0, 1, 3]) (by rw [hlen']; decide)
  obtain ⟨g, pg, e1⟩ : ∃ g pg, welch c' .none (.real [1, 2]) = .ok (g, pg) := by
    obtain ⟨g, e1, _, _⟩ := C49_welch (c := c') hv' hfs .none scale_none (.real [1, 2]) (by rw [hlen']; decide)
    exact ⟨g, _, e1⟩
  have hseg : ∀ (w : ℕ → ℝ) (step i : ℕ), w 0 = 1 → w 1 = 1 →
      Spec.segBin (Sig.real [0, 1, 3]).at w 2 step i 1
        = (Sig.real [0, 1, 3]).at (i * step) - (Sig.real [0, 1, 3]).at (i * step + 1) := by
    intro w step i hw0 hw1
    unfold Spec.segBin
    rw [exp_half]
    simp only [sum_range_succ, range_zero, sum_empty, hw0, hw1]
    simp
  refine ⟨c, c', .real g pg, f, f', _, _, h1, ?_, a1, b1, ?_, ?_⟩
  · simp only [SpecCfg.exec, periodogram]
    rw [show (Sig.real [1, 2]).size = 2 from rfl, show c.window.length = 2 from hlen]
    simp only [beq_self_eq_true, require_true, Res.bind_ok, h6]
    rw [e1]
    rfl
  · rw [hlen, hst, List.getElem?_map, show (Sig.real [0, 1, 3]).bins 2 = 2 from rfl]
    show some (Ex.fin (Spec.sideFactor 2 1 * Spec.power _ c.win 2 1 2 1 / 1)) = _
    have : Spec.sideFactor 2 1 = 1 := by simp [Spec.sideFactor]
    rw [this]
    congr 2
    unfold Spec.power
    rw [sum_range_succ, sum_range_one, hseg _ _ _ hwin.1 hwin.2, hseg _ _ _ hwin.1 hwin.2]
    simp [Sig.at, Sig.toC, Complex.normSq_apply]
    norm_num
  · rw [hlen', hst', List.getElem?_map, show (Sig.real [0, 1, 3]).bins 2 = 2 from rfl]
    show some (Ex.fin (Spec.sideFactor 2 1 * Spec.power _ c'.win 2 2 1 1 / 1)) = _
    have : Spec.sideFactor 2 1 = 1 := by simp [Spec.sideFactor]
    rw [this]
    congr 2
    unfold Spec.power
    rw [sum_range_one, hseg _ _ _ hwin'.1 hwin'.2]
    simp [Sig.at, Sig.toC, Complex.normSq_apply]

/-- C53: the order of setters matters: an overlap larger than the current window is rejected even if
the window is enlarged next; and an overlap set explicitly survives a change of window, so a shorter
window is rejected. -/
theorem C53_setter_order (w : List ℝ) (n : ℕ) (h1 : 256 < n) (h2 : n ≤ w.length) :
    (∃ c, (SpecCfg.init.setWindow w >>= fun c => c.setNoverlap n) = .ok c ∧ c.window = w ∧
      c.noverlap = n ∧ c.useDflt = false) ∧
    (SpecCfg.init.setNoverlap n >>= fun c => c.setWindow w) = .ub ∧
    (∀ (c : SpecCfg) (v : List ℝ), c.useDflt = false → (v.length : ℤ) < c.noverlap → c.setWindow v = .ub) := by
  have htd : Int.tdiv (w.length : ℤ) 2 ≤ (w.length : ℤ) := by
    rw [Int.tdiv_eq_ediv_of_nonneg (by omega)]; omega
  refine ⟨?_, ?_, ?_⟩
  · have hw : SpecCfg.init.setWindow w = .ok { SpecCfg.init with
        window := w, s1 := winS1 w, s2 := winS2 w, nperseg := w.length,
        noverlap := Int.tdiv (w.length : ℤ) 2 } := by
      unfold SpecCfg.setWindow SpecCfg.setParameters
      have : SpecCfg.init.useDflt = true := rfl
      simp only [this, if_true, htd, decide_true, require_true, Res.bind_ok, Res.pure_eq]
    rw [hw]
    simp only [Res.bind_ok]
    unfold SpecCfg.setNoverlap
    have : ((n : ℤ) ≤ (w.length : ℤ)) := by exact_mod_cast h2
    simp only [this, decide_true, require_true, Res.bind_ok, Res.pure_eq]
    exact ⟨_, rfl, rfl, rfl, rfl⟩
  · have : ¬ ((n : ℤ) ≤ SpecCfg.init.nperseg) := by
      have e : SpecCfg.init.nperseg = 256 := by
        show (((List.range 256).map fun i : ℕ => Spec.hann 256 i).length : ℤ) = 256
        simp
      rw [e]; omega
    unfold SpecCfg.setNoverlap
    simp [this]
  · intro c v hd hlt
    unfold SpecCfg.setWindow SpecCfg.setParameters
    have : ¬ (c.noverlap ≤ (v.length : ℤ)) := by omega
    simp [hd, this]

/-- Non-vacuity: the default configuration is valid. -/
example : SpecCfg.init.Valid ∧ 0 < SpecCfg.init.fs ∧ SpecCfg.init.len = 256 ∧ SpecCfg.init.step = 128 := by
  have e : (((List.range 256).map fun i : ℕ => Spec.hann 256 i)).length = 256 := by simp
  have hn : SpecCfg.init.nperseg = 256 := by
    show (((List.range 256).map fun i : ℕ => Spec.hann 256 i).length : ℤ) = 256
    rw [e]; rfl
  have ho : SpecCfg.init.noverlap = 128 := by
    show Int.tdiv (((List.range 256).map fun i : ℕ => Spec.hann 256 i).length : ℤ) 2 = 128
    rw [e]; rfl
  have hl : SpecCfg.init.window.length = 256 := e
  refine ⟨⟨by rw [hn, hl]; rfl, by rw [hl]; omega, by rw [hn, ho]; decide⟩, one_pos, hl, ?_⟩
  unfold SpecCfg.step; rw [hn, ho]; rfl

end

end SciCpp
