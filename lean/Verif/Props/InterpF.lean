import Verif.Model.InterpF
import Verif.Proofs.RFl
import Verif.Props.Interp
import Verif.Props.FloatSign
/-
  Property theorems C123: interpolation in floating point.
-/
namespace SciCpp

variable {rnd : ℚ → ℚ} {u : ℚ}

/-! ### Specification -/

/-- The rescaled abscissa computed with a rounding `rnd` after each operation. -/
def scaledF (rnd : ℚ → ℚ) (m M v : ℚ) : ℚ := rnd (rnd (v - m) / rnd (M - m))

/-! ### Lemmas -/

theorem foldmin_fin (xs : List ℚ) (a : ℚ) :
    (xs.map (RFl.fin (rnd := rnd))).foldl (fun m v => if RFl.lt v m then v else m) (RFl.fin a) = RFl.fin (xs.foldl min a) := by
  induction xs generalizing a with
  | nil => rfl
  | cons b xs ih =>
    simp only [List.map_cons, List.foldl_cons]
    have : (if RFl.lt (RFl.fin b) (RFl.fin a : RFl rnd) = true then RFl.fin b else RFl.fin a : RFl rnd) = RFl.fin (min a b) := by
      by_cases h : b < a
      · rw [if_pos (by simpa using h), min_eq_right h.le]
      · rw [if_neg (by simpa using h), min_eq_left (not_lt.mp h)]
    rw [this, ih]

theorem foldmax_fin (xs : List ℚ) (a : ℚ) :
    (xs.map (RFl.fin (rnd := rnd))).foldl (fun m v => if RFl.lt m v then v else m) (RFl.fin a) = RFl.fin (xs.foldl max a) := by
  induction xs generalizing a with
  | nil => rfl
  | cons b xs ih =>
    simp only [List.map_cons, List.foldl_cons]
    have : (if RFl.lt (RFl.fin a) (RFl.fin b : RFl rnd) = true then RFl.fin b else RFl.fin a : RFl rnd) = RFl.fin (max a b) := by
      by_cases h : a < b
      · rw [if_pos (by simpa using h), max_eq_right h.le]
      · rw [if_neg (by simpa using h), max_eq_left (not_lt.mp h)]
    rw [this, ih]

theorem coeff_fin {x : List ℚ} {m M : ℚ} (h : IsMinMax x m M) :
    minCoeffF RFl.lt (x.map (RFl.fin (rnd := rnd))) = .ok (RFl.fin m) ∧ maxCoeffF RFl.lt (x.map (RFl.fin (rnd := rnd))) = .ok (RFl.fin M) := by
  have hx : x ≠ [] := by rintro rfl; exact absurd h.1 (by simp)
  obtain ⟨m', M', h1, h2, h3⟩ := minmax_spec x hx
  have em : m' = m := le_antisymm (h3.2.2 m h.1).1 (h.2.2 m' h3.1).1
  have eM : M' = M := le_antisymm (h.2.2 M' h3.2.1).2 (h3.2.2 M h.2.1).2
  subst em eM
  cases x with
  | nil => exact absurd rfl hx
  | cons a as =>
    simp only [minCoeff, maxCoeff, Res.ok.injEq] at h1 h2
    simp only [List.map_cons, minCoeffF, maxCoeffF, foldmin_fin, foldmax_fin, h1, h2, and_self]

theorem rnd_ne_zero (hu1 : u < 1) (hr : ∀ x, |rnd x - x| ≤ u * |x|) {q : ℚ} (h : q ≠ 0) : rnd q ≠ 0 := by
  intro e
  have := hr q
  rw [e, zero_sub, abs_neg] at this
  have hq := abs_pos.mpr h
  nlinarith

theorem scaled_fin (hu1 : u < 1) (hr : ∀ x, |rnd x - x| ≤ u * |x|) {m M : ℚ} (h : m < M) (v : ℚ) :
    scaledValueF (RFl.fin m) (RFl.fin M) (RFl.fin v : RFl rnd) = RFl.fin (scaledF rnd m M v) := by
  unfold scaledValueF scaledF
  rw [RFl.sub_fin, RFl.sub_fin, RFl.div_fin (rnd_ne_zero hu1 hr (by linarith))]

/-- `interp1d` on finite data: the spline through the rescaled abscissae, evaluated at the equally rescaled query. -/
theorem interp1dF_eq (hu1 : u < 1) (hr : ∀ x, |rnd x - x| ≤ u * |x|)
    (spline : ℕ → List (RFl rnd) → List (RFl rnd) → RFl rnd → RFl rnd) (kind : ℕ) {x y : List ℚ} {m M : ℚ}
    (h : IsMinMax x m M) (hmM : m < M) (hl : x.length = y.length) :
    ∃ f, interp1dF RFl.lt id id spline kind (x.map RFl.fin) (y.map RFl.fin) = .ok f ∧
      ∀ q : ℚ, f (RFl.fin q) = spline (min (x.length - 1) kind) (y.map RFl.fin) (x.map fun v => RFl.fin (scaledF rnd m M v)) (RFl.fin (scaledF rnd m M q)) := by
  obtain ⟨h1, h2⟩ := coeff_fin (rnd := rnd) h
  refine ⟨fun q => spline (min (x.length - 1) kind) (y.map RFl.fin) (x.map fun v => RFl.fin (scaledF rnd m M v)) (scaledValueF (RFl.fin m) (RFl.fin M) q), ?_, fun q => ?_⟩
  · unfold interp1dF
    rw [h1, h2]
    have hd : (RFl.lt (RFl.fin m) (RFl.fin M : RFl rnd)) = true := by simpa using hmM
    simp only [Res.bind_ok, List.length_map, hl, beq_self_eq_true, require_true, hd, Res.pure_eq, List.map_map, id]
    congr 1
    funext q
    congr 1
    apply List.map_congr_left
    intro v _
    exact scaled_fin hu1 hr hmM v
  · simp only [scaled_fin hu1 hr hmM]

theorem rnd_pos' (hu1 : u < 1) (hr : ∀ x, |rnd x - x| ≤ u * |x|) {q : ℚ} (h : 0 < q) : 0 < rnd q := by
  have := hr q
  rw [abs_of_pos h, abs_le] at this
  nlinarith [this.1]

/-- Relative error of a rescaled abscissa. -/
theorem scaled_err (hu : 0 ≤ u) (hu1 : u < 1) (hr : ∀ x, |rnd x - x| ≤ u * |x|) {m M : ℚ} (h : m < M) (v : ℚ) :
    |scaledF rnd m M v - (v - m) / (M - m)| ≤ ((1 + u) ^ 2 / (1 - u) - 1) * |(v - m) / (M - m)| := by
  have hd : 0 < M - m := by linarith
  have h1u : 0 < 1 - u := by linarith
  set D := rnd (M - m) with hD
  have hD0 : 0 < D := rnd_pos' hu1 hr hd
  have e1 := hr (v - m)
  have e2 := hr (M - m)
  rw [abs_of_pos hd, ← hD] at e2
  have e3 := hr (rnd (v - m) / D)
  unfold scaledF
  rw [← hD]
  have b1 : |rnd (v - m)| ≤ (1 + u) * |v - m| := by
    have := abs_sub_abs_le_abs_sub (rnd (v - m)) (v - m); linarith
  have b2 : (1 - u) * (M - m) ≤ D := by
    rw [abs_le] at e2; linarith [e2.1]
  have b3 : |rnd (v - m) / D - (v - m) / (M - m)| ≤ ((1 + u) / (1 - u) - 1) * |(v - m) / (M - m)| := by
    have e : rnd (v - m) / D - (v - m) / (M - m) = ((rnd (v - m) - (v - m)) + (v - m) * ((M - m) - D) / (M - m)) / D := by
      field_simp
      ring
    have e' : |(rnd (v - m) - (v - m)) + (v - m) * ((M - m) - D) / (M - m)| ≤ 2 * u * |v - m| := by
      refine (abs_add_le _ _).trans ?_
      have : |(v - m) * ((M - m) - D) / (M - m)| ≤ u * |v - m| := by
        rw [abs_div, abs_mul, abs_of_pos hd, div_le_iff₀ hd, abs_sub_comm (M - m)]
        calc _ ≤ |v - m| * (u * (M - m)) := mul_le_mul_of_nonneg_left e2 (abs_nonneg _)
          _ = _ := by ring
      linarith
    rw [e, abs_div, abs_of_pos hD0, abs_div, abs_of_pos hd, div_le_iff₀ hD0]
    have hk : (1 + u) / (1 - u) - 1 = 2 * u / (1 - u) := by field_simp; ring
    rw [hk]
    calc _ ≤ 2 * u * |v - m| := e'
      _ = 2 * u / (1 - u) * (|v - m| / (M - m)) * ((1 - u) * (M - m)) := by field_simp
      _ ≤ _ := mul_le_mul_of_nonneg_left b2 (by positivity)
  have b4 : |rnd (v - m) / D| ≤ (1 + u) / (1 - u) * |(v - m) / (M - m)| := by
    have := abs_sub_abs_le_abs_sub (rnd (v - m) / D) ((v - m) / (M - m)); linarith
  have t := abs_sub_le (rnd (rnd (v - m) / D)) (rnd (v - m) / D) ((v - m) / (M - m))
  have b5 := mul_le_mul_of_nonneg_left b4 hu
  have hk : (1 + u) ^ 2 / (1 - u) - 1 = u * ((1 + u) / (1 - u)) + ((1 + u) / (1 - u) - 1) := by field_simp; ring
  rw [hk, add_mul]
  linarith

/-! ### Theorems -/

/-- C123: the computed knots: the smallest abscissa goes exactly to 0, the largest exactly to 1, the order is kept (distinct abscissae may meet), everything else
stays within [0, 1] and has relative error at most `(1 + u)² / (1 - u) - 1`; the query is rescaled by the same function. -/
theorem C123_rescaling (hu : 0 ≤ u) (hu1 : u < 1) (hr : ∀ x, |rnd x - x| ≤ u * |x|) (hm : Monotone rnd) (h1 : rnd 1 = 1)
    (spline : ℕ → List (RFl rnd) → List (RFl rnd) → RFl rnd → RFl rnd) (kind : ℕ) {x y : List ℚ} {m M : ℚ}
    (h : IsMinMax x m M) (hmM : m < M) (hl : x.length = y.length) :
    ∃ s : ℚ → ℚ, s m = 0 ∧ s M = 1 ∧ Monotone s ∧ (∀ v ∈ x, 0 ≤ s v ∧ s v ≤ 1) ∧
      (∀ v, |s v - (v - m) / (M - m)| ≤ ((1 + u) ^ 2 / (1 - u) - 1) * |(v - m) / (M - m)|) ∧
      ∃ f, interp1dF RFl.lt id id spline kind (x.map RFl.fin) (y.map RFl.fin) = .ok f ∧
        ∀ q : ℚ, f (RFl.fin q) = spline (min (x.length - 1) kind) (y.map RFl.fin) (x.map fun v => RFl.fin (s v)) (RFl.fin (s q)) := by
  have r0 : rnd 0 = 0 := by
    have := hr 0
    rw [abs_zero, mul_zero, sub_zero] at this
    exact abs_eq_zero.1 (le_antisymm this (abs_nonneg _))
  have hD := rnd_pos' hu1 hr (show 0 < M - m by linarith)
  have s0 : scaledF rnd m M m = 0 := by unfold scaledF; rw [sub_self, r0, zero_div, r0]
  have s1 : scaledF rnd m M M = 1 := by unfold scaledF; rw [div_self hD.ne', h1]
  have sm : Monotone (scaledF rnd m M) := fun v w hvw =>
    hm (div_le_div_of_nonneg_right (hm (by linarith)) hD.le)
  refine ⟨scaledF rnd m M, s0, s1, sm, fun v hv => ?_, scaled_err hu hu1 hr hmM, interp1dF_eq hu1 hr spline kind h hmM hl⟩
  obtain ⟨a, b⟩ := h.2.2 v hv
  exact ⟨by rw [← s0]; exact sm a, by rw [← s1]; exact sm b⟩

/-- C123: abscissae that are further apart than `2 ((1 + u)² / (1 - u) - 1)` times the range stay distinct and in order. -/
theorem C123_separated (hu : 0 ≤ u) (hu1 : u < 1) (hr : ∀ x, |rnd x - x| ≤ u * |x|) {x : List ℚ} {m M : ℚ}
    (h : IsMinMax x m M) (hmM : m < M) {v w : ℚ} (hv : v ∈ x) (hw : w ∈ x) (hvw : 2 * ((1 + u) ^ 2 / (1 - u) - 1) * (M - m) < w - v) :
    scaledF rnd m M v < scaledF rnd m M w := by
  have hd : 0 < M - m := by linarith
  have h1u : 0 < 1 - u := by linarith
  have ev := scaled_err hu hu1 hr hmM v
  have ew := scaled_err hu hu1 hr hmM w
  have hk : 0 ≤ (1 + u) ^ 2 / (1 - u) - 1 := by
    rw [sub_nonneg, le_div_iff₀ h1u]; nlinarith
  have bound : ∀ t ∈ x, |(t - m) / (M - m)| ≤ 1 := fun t ht => by
    obtain ⟨a, b⟩ := h.2.2 t ht
    rw [abs_div, abs_of_pos hd, abs_of_nonneg (by linarith), div_le_one hd]; linarith
  have ev' := ev.trans (mul_le_mul_of_nonneg_left (bound v hv) hk)
  have ew' := ew.trans (mul_le_mul_of_nonneg_left (bound w hw) hk)
  rw [abs_le] at ev' ew'
  have hdiff : 2 * ((1 + u) ^ 2 / (1 - u) - 1) < (w - m) / (M - m) - (v - m) / (M - m) := by
    rw [← sub_div, lt_div_iff₀ hd]; linarith
  linarith [ev'.2, ew'.1]

/-- C123: at a data point the query is rescaled to exactly the knot, so that a spline that passes through its data (when the knots are distinct) returns the
ordinate, bit for bit. -/
theorem C123_through_data_partial (hu1 : u < 1) (hr : ∀ x, |rnd x - x| ≤ u * |x|)
    (spline : ℕ → List (RFl rnd) → List (RFl rnd) → RFl rnd → RFl rnd) (kind : ℕ) {x y : List ℚ} {m M : ℚ}
    (h : IsMinMax x m M) (hmM : m < M) (hl : x.length = y.length)
    (hs : ∀ (deg : ℕ) (y knots : List (RFl rnd)), knots.length = y.length → knots.Nodup →
      ∀ (i : ℕ) (hi : i < knots.length) (hy : i < y.length), spline deg y knots knots[i] = y[i])
    (hd : (x.map (scaledF rnd m M)).Nodup) :
    ∃ f, interp1dF RFl.lt id id spline kind (x.map RFl.fin) (y.map RFl.fin) = .ok f ∧
      ∀ (i : ℕ) (hi : i < x.length) (hy : i < y.length), f (RFl.fin x[i]) = RFl.fin y[i] := by
  obtain ⟨f, hf, hq⟩ := interp1dF_eq hu1 hr spline kind h hmM hl
  refine ⟨f, hf, fun i hi hy => ?_⟩
  have hn : (x.map fun v => (RFl.fin (scaledF rnd m M v) : RFl rnd)).Nodup := by
    have := List.Nodup.map (f := (RFl.fin : ℚ → RFl rnd)) (fun a b hab => by rwa [RFl.fin_inj] at hab) hd
    rwa [List.map_map] at this
  have := hs (min (x.length - 1) kind) (y.map RFl.fin) (x.map fun v => RFl.fin (scaledF rnd m M v)) (by simpa using hl) hn i (by simpa using hi) (by simpa using hy)
  rw [hq]
  rw [List.getElem_map, List.getElem_map] at this
  exact this

/-- C123: abscissae that are all further apart than `2 ((1 + u)² / (1 - u) - 1)` times their range: the interpolation passes through the data. -/
theorem C123_through_separated (hu : 0 ≤ u) (hu1 : u < 1) (hr : ∀ x, |rnd x - x| ≤ u * |x|)
    (spline : ℕ → List (RFl rnd) → List (RFl rnd) → RFl rnd → RFl rnd) (kind : ℕ) {x y : List ℚ} {m M : ℚ}
    (h : IsMinMax x m M) (hmM : m < M) (hl : x.length = y.length)
    (hs : ∀ (deg : ℕ) (y knots : List (RFl rnd)), knots.length = y.length → knots.Nodup →
      ∀ (i : ℕ) (hi : i < knots.length) (hy : i < y.length), spline deg y knots knots[i] = y[i])
    (hsep : x.Pairwise fun v w => 2 * ((1 + u) ^ 2 / (1 - u) - 1) * (M - m) < |w - v|) :
    ∃ f, interp1dF RFl.lt id id spline kind (x.map RFl.fin) (y.map RFl.fin) = .ok f ∧
      ∀ (i : ℕ) (hi : i < x.length) (hy : i < y.length), f (RFl.fin x[i]) = RFl.fin y[i] := by
  refine C123_through_data_partial hu1 hr spline kind h hmM hl hs ?_
  rw [List.Nodup, List.pairwise_map]
  refine hsep.imp_of_mem fun {v w} hv hw hvw => ?_
  rcases le_total v w with hle | hle
  · rw [abs_of_nonneg (by linarith)] at hvw
    exact (C123_separated hu hu1 hr h hmM hv hw hvw).ne
  · rw [abs_of_nonpos (by linarith), neg_sub] at hvw
    exact (C123_separated hu hu1 hr h hmM hw hv hvw).ne'

/-- C123: a change of the unit of the abscissae by a power of two changes nothing. -/
theorem C123_pow2 (k : ℤ) (spline : ℕ → List F64 → List F64 → F64 → F64) (kind : ℕ) {x y : List ℚ} {m M : ℚ}
    (h : IsMinMax x m M) (hmM : m < M) (hl : x.length = y.length) :
    ∃ f g, interp1dF RFl.lt id id spline kind (x.map RFl.fin) (y.map RFl.fin) = .ok f ∧
      interp1dF RFl.lt id id spline kind (x.map fun v => RFl.fin (2 ^ k * v)) (y.map RFl.fin) = .ok g ∧
      ∀ q : ℚ, g (RFl.fin (2 ^ k * q)) = f (RFl.fin q) := by
  have h2 : (0 : ℚ) < 2 ^ k := by positivity
  have h' : IsMinMax (x.map fun v => 2 ^ k * v) (2 ^ k * m) (2 ^ k * M) := by
    refine ⟨List.mem_map.2 ⟨m, h.1, rfl⟩, List.mem_map.2 ⟨M, h.2.1, rfl⟩, ?_⟩
    intro v hv
    obtain ⟨w, hw, rfl⟩ := List.mem_map.1 hv
    obtain ⟨a, b⟩ := h.2.2 w hw
    exact ⟨mul_le_mul_of_nonneg_left a h2.le, mul_le_mul_of_nonneg_left b h2.le⟩
  have hmM' : (2 : ℚ) ^ k * m < 2 ^ k * M := mul_lt_mul_of_pos_left hmM h2
  obtain ⟨f, hf, fq⟩ := interp1dF_eq (rnd := rnd64) (u := 1 / 2 ^ 53) (by norm_num) rnd64_err spline kind h hmM hl
  obtain ⟨g, hg, gq⟩ := interp1dF_eq (rnd := rnd64) (u := 1 / 2 ^ 53) (by norm_num) rnd64_err spline kind h' hmM' (by simpa using hl)
  have hsc : ∀ v, scaledF rnd64 (2 ^ k * m) (2 ^ k * M) (2 ^ k * v) = scaledF rnd64 m M v := fun v => by
    unfold scaledF
    rw [← mul_sub, ← mul_sub, rnd64_pow2, rnd64_pow2, mul_div_mul_left _ _ h2.ne']
  rw [List.map_map] at hg
  refine ⟨f, g, hf, hg, fun q => ?_⟩
  rw [fq, gq, hsc, List.length_map, List.map_map]
  congr 1
  apply List.map_congr_left
  intro v _
  show RFl.fin (scaledF rnd64 (2 ^ k * m) (2 ^ k * M) (2 ^ k * v)) = _
  rw [hsc]

/-- C123, negation: distinct binary64 abscissae can be rescaled to the same knot: 2⁻⁶⁰ and 2⁻⁵⁹ between -1 and 1. -/
theorem C123_collapse_false :
    ∃ x : List ℚ, x.Pairwise (· < ·) ∧ (∀ v ∈ x, rnd64 v = v) ∧ IsMinMax x (-1) 1 ∧ ¬ (x.map (scaledF rnd64 (-1) 1)).Nodup := by
  refine ⟨[-1, 1 / 2 ^ 60, 1 / 2 ^ 59, 1], by norm_num, by decide +kernel, ⟨by simp, by simp, ?_⟩, by decide +kernel⟩
  intro v hv
  fin_cases hv <;> norm_num

/-- C123: a shift of the abscissae and of the query (that is exact) changes nothing. -/
theorem C123_shift (hu1 : u < 1) (hr : ∀ x, |rnd x - x| ≤ u * |x|) (b : ℚ) (spline : ℕ → List (RFl rnd) → List (RFl rnd) → RFl rnd → RFl rnd) (kind : ℕ)
    {x y : List ℚ} {m M : ℚ} (h : IsMinMax x m M) (hmM : m < M) (hl : x.length = y.length) :
    ∃ f g, interp1dF RFl.lt id id spline kind (x.map RFl.fin) (y.map RFl.fin) = .ok f ∧
      interp1dF RFl.lt id id spline kind (x.map fun v => RFl.fin (v + b)) (y.map RFl.fin) = .ok g ∧
      ∀ q : ℚ, g (RFl.fin (q + b)) = f (RFl.fin q) := by
  have h' : IsMinMax (x.map fun v => v + b) (m + b) (M + b) := by
    refine ⟨List.mem_map.2 ⟨m, h.1, rfl⟩, List.mem_map.2 ⟨M, h.2.1, rfl⟩, ?_⟩
    intro v hv
    obtain ⟨w, hw, rfl⟩ := List.mem_map.1 hv
    obtain ⟨a, c⟩ := h.2.2 w hw
    exact ⟨by linarith, by linarith⟩
  obtain ⟨f, hf, fq⟩ := interp1dF_eq hu1 hr spline kind h hmM hl
  obtain ⟨g, hg, gq⟩ := interp1dF_eq hu1 hr spline kind h' (by linarith) (by simpa using hl)
  have hsc : ∀ v, scaledF rnd (m + b) (M + b) (v + b) = scaledF rnd m M v := fun v => by
    unfold scaledF
    rw [add_sub_add_right_eq_sub, add_sub_add_right_eq_sub]
  rw [List.map_map] at hg
  refine ⟨f, g, hf, hg, fun q => ?_⟩
  rw [fq, gq, hsc, List.length_map, List.map_map]
  congr 1
  apply List.map_congr_left
  intro v _
  show RFl.fin (scaledF rnd (m + b) (M + b) (v + b)) = _
  rw [hsc]

/-- C123, negation: tripling the abscissae (exactly, in binary64) changes the knots. -/
theorem C123_scale_false :
    ∃ x : List ℚ, (∀ v ∈ x, rnd64 v = v ∧ rnd64 (3 * v) = 3 * v) ∧ IsMinMax x (-(1 / 2 ^ 53)) 2 ∧
      x.map (fun v => scaledF rnd64 (3 * -(1 / 2 ^ 53)) (3 * 2) (3 * v)) ≠ x.map (scaledF rnd64 (-(1 / 2 ^ 53)) 2) := by
  refine ⟨[-(1 / 2 ^ 53), 1, 2], by decide +kernel, ⟨by simp, by simp, ?_⟩, by decide +kernel⟩
  intro v hv
  fin_cases hv <;> norm_num

/-- C123, negation: with abscissae that coincide in `float`, a `float` query at a data point is rescaled to NaN. -/
theorem C123_float_query_false (spline : ℕ → List F64 → List F64 → F64 → F64) (kind : ℕ) (y : List F64) (hy : y.length = 2) :
    (∀ v ∈ ([1, 1 + 1 / 2 ^ 40] : List ℚ), rnd64 v = v) ∧ rnd32 1 = 1 ∧
    ∃ f, interp1dF RFl.lt toF32 ofF32 spline kind ([1, 1 + 1 / 2 ^ 40].map RFl.fin) y = .ok f ∧
      f (RFl.fin 1) = spline (min 1 kind) y ([0, 1].map RFl.fin) RFl.nan := by
  refine ⟨by decide +kernel, by decide +kernel,
    fun q => spline (min 1 kind) y ([0, 1].map RFl.fin) (ofF32 (scaledValueF (toF32 (RFl.fin 1)) (toF32 (RFl.fin (1 + 1 / 2 ^ 40))) q)), ?_, ?_⟩
  · have e1 : minCoeffF RFl.lt ([1, 1 + 1 / 2 ^ 40].map (RFl.fin (rnd := rnd64))) = .ok (RFl.fin 1) := by decide +kernel
    have e2 : maxCoeffF RFl.lt ([1, 1 + 1 / 2 ^ 40].map (RFl.fin (rnd := rnd64))) = .ok (RFl.fin (1 + 1 / 2 ^ 40)) := by decide +kernel
    have e3 : ([1, 1 + 1 / 2 ^ 40].map (RFl.fin (rnd := rnd64))).map (scaledValueF (RFl.fin 1) (RFl.fin (1 + 1 / 2 ^ 40))) = [0, 1].map RFl.fin := by decide +kernel
    have e4 : (([1, 1 + 1 / 2 ^ 40].map (RFl.fin (rnd := rnd64))).length == y.length) = true := by rw [hy]; rfl
    have e5 : RFl.lt (RFl.fin 1) (RFl.fin (1 + 1 / 2 ^ 40) : F64) = true := by decide +kernel
    unfold interp1dF
    rw [e1, Res.bind_ok, e2, Res.bind_ok, e4, require_true, Res.bind_ok, e5, require_true, Res.bind_ok, e3]
    rfl
  · have e : ofF32 (scaledValueF (toF32 (RFl.fin 1)) (toF32 (RFl.fin (1 + 1 / 2 ^ 40))) (RFl.fin 1)) = RFl.nan := by decide +kernel
    show spline (min 1 kind) y _ (ofF32 _) = _
    rw [e]

/-- C123, negation: when the range of the abscissae overflows, the knots are 0, 0 and NaN. -/
theorem C123_overflow_false (spline : ℕ → List D64 → List D64 → D64 → D64) (kind : ℕ) (y : List D64) (hy : y.length = 3) :
    (∀ v ∈ ([-(2 ^ 1023), 0, 2 ^ 1023] : List ℚ), (binary64.ofRat v : Fl) = Fl.fin v) ∧
    ∃ f, interp1dF IFl.lt id id spline kind ([-(2 ^ 1023), 0, 2 ^ 1023].map IFl.fin) y = .ok f ∧
      ∃ g : D64 → D64, ∀ q, f q = spline (min 2 kind) y [IFl.fin 0, IFl.fin 0, IFl.nan] (g q) := by
  refine ⟨by decide +kernel, fun q => spline (min 2 kind) y [IFl.fin 0, IFl.fin 0, IFl.nan] (scaledValueF (IFl.fin (-(2 ^ 1023))) (IFl.fin (2 ^ 1023)) q), ?_,
    fun q => scaledValueF (IFl.fin (-(2 ^ 1023))) (IFl.fin (2 ^ 1023)) q, fun q => rfl⟩
  have e1 : minCoeffF IFl.lt ([-(2 ^ 1023), 0, 2 ^ 1023].map (IFl.fin (f := binary64))) = .ok (IFl.fin (-(2 ^ 1023))) := by decide +kernel
  have e2 : maxCoeffF IFl.lt ([-(2 ^ 1023), 0, 2 ^ 1023].map (IFl.fin (f := binary64))) = .ok (IFl.fin (2 ^ 1023)) := by decide +kernel
  have e3 : ([-(2 ^ 1023), 0, 2 ^ 1023].map (IFl.fin (f := binary64))).map (scaledValueF (IFl.fin (-(2 ^ 1023))) (IFl.fin (2 ^ 1023))) = [IFl.fin 0, IFl.fin 0, IFl.nan] := by
    decide +kernel
  have e4 : (([-(2 ^ 1023), 0, 2 ^ 1023].map (IFl.fin (f := binary64))).length == y.length) = true := by rw [hy]; rfl
  have e5 : IFl.lt (IFl.fin (-(2 ^ 1023))) (IFl.fin (2 ^ 1023) : D64) = true := by decide +kernel
  unfold interp1dF
  rw [e1, Res.bind_ok, e2, Res.bind_ok, e4, require_true, Res.bind_ok, e5, require_true, Res.bind_ok, e3]
  rfl

/-- The hypotheses are met in binary64. -/
example (spline : ℕ → List F64 → List F64 → F64 → F64) : ∃ s : ℚ → ℚ, s 1 = 0 ∧ s 4 = 1 ∧ Monotone s ∧
    ∃ f, interp1dF RFl.lt id id spline 1 ([2, 1, 4].map RFl.fin) ([5, 6, 7].map RFl.fin) = .ok f ∧
      ∀ q : ℚ, f (RFl.fin q) = spline 1 ([5, 6, 7].map RFl.fin) ([2, 1, 4].map fun v => RFl.fin (s v)) (RFl.fin (s q)) := by
  obtain ⟨s, a, b, c, -, -, f, hf, hq⟩ := C123_rescaling (rnd := rnd64) (u := 1 / 2 ^ 53) (by norm_num) (by norm_num) rnd64_err (fun _ _ => rnd64_mono)
    (by simpa using rnd64_nat 1 (by norm_num)) spline 1 (x := [2, 1, 4]) (y := [5, 6, 7]) (m := 1) (M := 4)
    ⟨by simp, by simp, fun v hv => by fin_cases hv <;> norm_num⟩ (by norm_num) rfl
  exact ⟨s, a, b, c, f, hf, hq⟩

end SciCpp
