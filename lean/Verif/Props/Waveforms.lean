import Verif.Model.Waveforms
import Verif.Props.Poly
import Mathlib.Analysis.Calculus.Deriv.Polynomial
import Mathlib.Analysis.Calculus.Deriv.Mul
import Mathlib.Analysis.Calculus.Deriv.Add
/-
  C67 — waveforms (scicpp/signal/waveforms.hpp) and C74 — sweep_poly.
-/
namespace SciCpp

open Spec

/-- Specification: one period of an asymmetric triangle wave of rising fraction `w`, as a function of the
phase `p ∈ [0, 1)`: from -1 at phase 0 up to 1 at phase `w`, then down to -1 at phase 1. -/
noncomputable def triangleWave (w p : ℝ) : ℝ :=
  if p < w then 2 * (p / w) - 1 else 1 - 2 * ((p - w) / (1 - w))

/-- The specification stays within [-1, 1], starts each period at -1 (for `w > 0`), reaches 1 at `w`. -/
theorem triangleWave_range {w p : ℝ} (hp : 0 ≤ p) (hp1 : p < 1) :
    -1 ≤ triangleWave w p ∧ triangleWave w p ≤ 1 := by
  unfold triangleWave
  split
  · rename_i h
    have hw0 : 0 < w := lt_of_le_of_lt hp h
    have h1 : 0 ≤ p / w := by positivity
    have h2 : p / w ≤ 1 := by rw [div_le_one hw0]; exact h.le
    constructor <;> linarith
  · rename_i h
    rw [not_lt] at h
    have hw0 : 0 < 1 - w := by linarith
    have h1 : 0 ≤ (p - w) / (1 - w) := div_nonneg (by linarith) hw0.le
    have h2 : (p - w) / (1 - w) ≤ 1 := by rw [div_le_one hw0]; linarith
    constructor <;> linarith

theorem fmodR_nonneg {t : ℝ} (ht : 0 ≤ t) :
    fmodR t (2 * Real.pi) = 2 * Real.pi * Int.fract (t / (2 * Real.pi)) := by
  have hpi := Real.pi_pos
  have h : 0 ≤ t / (2 * Real.pi) := by positivity
  unfold fmodR
  rw [if_pos h, Int.fract]
  field_simp

/-- C67, for times `t ≥ 0`: `sawtooth` is defined for every `width` in [0, 1] and is the triangle wave of
rising fraction `width` at the phase `t / 2π mod 1`; hence in [-1, 1] and periodic.  Missing: negative
times (`C67_negative_times`). -/
theorem C67_sawtooth_partial {w t : ℝ} (hw : 0 ≤ w) (hw1 : w ≤ 1) (ht : 0 ≤ t) :
    sawtoothR w t = .ok (triangleWave w (Int.fract (t / (2 * Real.pi)))) ∧
    sawtoothR w (t + 2 * Real.pi) = sawtoothR w t ∧
    ∃ v, sawtoothR w t = .ok v ∧ -1 ≤ v ∧ v ≤ 1 := by
  have hpi := Real.pi_pos
  have main : ∀ t : ℝ, 0 ≤ t → sawtoothR w t = .ok (triangleWave w (Int.fract (t / (2 * Real.pi)))) := by
    intro t ht
    unfold sawtoothR sawtoothAt
    rw [if_pos ⟨hw, hw1⟩, fmodR_nonneg ht]
    generalize hp : Int.fract (t / (2 * Real.pi)) = p
    have hp0 : 0 ≤ p := by rw [← hp]; exact Int.fract_nonneg _
    have hp1 : p < 1 := by rw [← hp]; exact Int.fract_lt_one _
    have hcmp : (2 * Real.pi * p < w * 2 * Real.pi) ↔ p < w := by
      constructor
      · intro h; nlinarith
      · intro h; nlinarith
    unfold triangleWave
    simp only [decide_eq_true_eq, hcmp]
    by_cases h : p < w
    · have hw0 : 0 < w := lt_of_le_of_lt hp0 h
      rw [if_pos h, if_pos hw0, if_pos h]
      congr 1
      field_simp
    · rw [if_neg h, if_neg h]
      rw [not_lt] at h
      have hw0 : w < 1 := lt_of_le_of_lt h hp1
      have : 1 - w ≠ 0 := by linarith
      rw [if_pos hw0]
      congr 1
      field_simp
      ring
  refine ⟨main t ht, ?_, _, main t ht, ?_⟩
  · rw [main t ht, main _ (by positivity)]
    have : (t + 2 * Real.pi) / (2 * Real.pi) = t / (2 * Real.pi) + 1 := by field_simp
    rw [this, Int.fract_add_one]
  · exact triangleWave_range (Int.fract_nonneg _) (Int.fract_lt_one _)

/-- C67, arrays: element-wise, and undefined for `width` outside [0, 1]. -/
theorem C67_sawtooth_array {w : ℝ} (ts : List ℝ) :
    ((0 ≤ w ∧ w ≤ 1) → (∀ t ∈ ts, 0 ≤ t) →
      sawtoothArr w ts = .ok (ts.map fun t => triangleWave w (Int.fract (t / (2 * Real.pi))))) ∧
    (¬ (0 ≤ w ∧ w ≤ 1) → sawtoothArr w ts = .ub) := by
  constructor
  · intro hw ht
    unfold sawtoothArr
    rw [if_pos hw]
    induction ts with
    | nil => rfl
    | cons t ts ih =>
      rw [List.mapM_cons, (C67_sawtooth_partial hw.1 hw.2 (ht t (by simp))).1,
        ih fun t h => ht t (by simp [h])]
      rfl
  · intro hw
    unfold sawtoothArr
    rw [if_neg hw]

/-- Satisfiable: a quarter period of a wave of rising fraction one half. -/
example : sawtoothR (1 / 2) (Real.pi / 2) = .ok 0 := by
  have hpi := Real.pi_pos
  rw [(C67_sawtooth_partial (by norm_num) (by norm_num) (by positivity)).1]
  have : Real.pi / 2 / (2 * Real.pi) = 1 / 4 := by field_simp; norm_num
  rw [this, Int.fract_eq_self.2 (by norm_num)]
  unfold triangleWave
  norm_num

/-- C67 is false of the code for negative times: with the default width 1 every time in (-2π, 0) gives a
value below -1 (−2 at −π, where the wave should be 0), and with width 0 it is undefined behaviour. -/
theorem C67_negative_times {t : ℝ} (h1 : -(2 * Real.pi) < t) (h0 : t < 0) :
    (∃ v, sawtoothR 1 t = .ok v ∧ v < -1) ∧ sawtoothR 1 (-Real.pi) = .ok (-2) ∧ sawtoothR 0 t = .ub := by
  have hpi := Real.pi_pos
  have hmod : ∀ t : ℝ, -(2 * Real.pi) < t → t < 0 → fmodR t (2 * Real.pi) = t := by
    intro t h1 h0
    unfold fmodR
    have hlt : t / (2 * Real.pi) < 0 := div_neg_of_neg_of_pos h0 (by positivity)
    have hgt : -1 < t / (2 * Real.pi) := by rw [lt_div_iff₀ (by positivity)]; linarith
    have hc : ⌈t / (2 * Real.pi)⌉ = 0 := by
      rw [Int.ceil_eq_iff]
      constructor
      · push_cast; linarith
      · push_cast; linarith
    rw [if_neg (by linarith), hc]
    push_cast
    ring
  have main : ∀ t : ℝ, -(2 * Real.pi) < t → t < 0 → sawtoothR 1 t = .ok (t / Real.pi - 1) := by
    intro t h1 h0
    unfold sawtoothR sawtoothAt
    rw [if_pos (by norm_num), hmod t h1 h0]
    simp only [decide_eq_true_eq]
    rw [if_pos (by nlinarith), if_pos (by norm_num)]
    congr 1
    ring
  refine ⟨⟨_, main t h1 h0, ?_⟩, ?_, ?_⟩
  · have : t / Real.pi < 0 := div_neg_of_neg_of_pos h0 hpi
    linarith
  · rw [main _ (by linarith) (by linarith)]
    congr 1
    field_simp
    norm_num
  · unfold sawtoothR sawtoothAt
    rw [if_pos (by norm_num), hmod t h1 h0]
    simp only [decide_eq_true_eq]
    rw [if_pos (by nlinarith), if_neg (by norm_num)]

/-- C67 is false of the code in binary64, also for positive times: with the width just below 1
(`1 - 2^-52`) the falling edge overshoots to 2. -/
theorem C67_rounding_overshoot :
    sawtoothF64 (RFl.fin (4503599627370495 / 4503599627370496) : F64)
      (RFl.fin (3537118876014219 / 562949953421312) : F64) = .ok (RFl.fin 2 : F64) := by
  decide +kernel

/-- C67: `unit_impulse(len, idx)` has `len` samples, 1 at `idx` and 0 elsewhere; all zeros when `idx` is
out of range. -/
theorem C67_unit_impulse {K : Type} [Zero K] [One K] (len idx : ℕ) :
    (unitImpulse len idx : List K).length = len ∧
    ∀ (i : ℕ) (h : i < (unitImpulse len idx : List K).length),
      (unitImpulse len idx : List K)[i] = if i = idx then 1 else 0 := by
  have hlen : (unitImpulse len idx : List K).length = len := by
    unfold unitImpulse
    split <;> simp
  refine ⟨hlen, fun i hi => ?_⟩
  by_cases h : idx < len
  · have e : (unitImpulse len idx : List K) = (List.replicate len 0).set idx 1 := by
      unfold unitImpulse; rw [if_pos h]
    simp only [e, List.getElem_set, List.getElem_replicate, eq_comm]
  · have e : (unitImpulse len idx : List K) = List.replicate len 0 := by
      unfold unitImpulse; rw [if_neg h]
    have : i ≠ idx := by omega
    simp only [e, List.getElem_replicate, if_neg this]

/-- Satisfiable. -/
example : (unitImpulse 4 2 : List ℤ) = [0, 0, 1, 0] ∧ (unitImpulse 3 7 : List ℤ) = [0, 0, 0] := by decide

/-- C74: for every non-empty polynomial, `sweep_poly(t, poly, phi)` is the cosine of a phase that is `phi`
at time 0 and whose derivative (2π times the instantaneous frequency) is `2π poly(t)` at every time. -/
theorem C74_instantaneous_frequency (poly : List ℝ) (hp : poly ≠ []) (phi : ℝ) :
    ∃ phase : ℝ → ℝ, (∀ t, sweepPoly t poly phi = .ok (Real.cos (phase t))) ∧ phase 0 = phi ∧
      ∀ t, HasDerivAt phase (2 * Real.pi * ∑ i ∈ Finset.range poly.length, poly.getD i 0 * t ^ i) t := by
  obtain ⟨ip, h1, _, h3, h4⟩ := C58_polyint poly 1 hp
  have h1' : polyint poly = .ok ip := h1
  refine ⟨fun t => 2 * Real.pi * polyval t ip + phi, fun t => ?_, ?_, fun t => ?_⟩
  · unfold sweepPoly
    rw [h1']
    rfl
  · have h0 : (polyOf ip).coeff 0 = 0 := by rw [coeff_polyOf]; exact h4 0 (by omega)
    show 2 * Real.pi * polyval 0 ip + phi = phi
    rw [polyval_eq, ← Polynomial.coeff_zero_eq_eval_zero, h0]
    ring
  · rw [← C55_polyval, polyval_eq]
    have hd := (polyOf ip).hasDerivAt t
    have h3' : (polyOf ip).derivative = polyOf poly := h3
    rw [h3'] at hd
    have := (hd.const_mul (2 * Real.pi)).add_const phi
    refine this.congr_of_eventuallyEq (Filter.Eventually.of_forall fun s => ?_)
    simp only [polyval_eq]

/-- Satisfiable: a linear chirp. -/
example : sweepPoly 1 [0, 1] 0 = .ok (Real.cos Real.pi) := by
  have : polyint [(0 : ℝ), 1] = .ok [0, 0, 1 / 2] := by
    simp [polyint, polyintLoop, polyintOnce, List.mapIdx_cons, one_add_one_eq_two]
  unfold sweepPoly
  rw [this]
  show Res.ok _ = _
  congr 2
  rw [C55_polyval]
  simp [Finset.sum_range_succ]
  ring

end SciCpp
