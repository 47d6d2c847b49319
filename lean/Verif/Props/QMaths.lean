import Mathlib.Analysis.SpecialFunctions.Trigonometric.Bounds
import Verif.Model.QMaths
import Verif.Props.Units
/-
  C73 (continued) functions of quantities, C83 complex quantities, C84 rounding of quantities.
-/
set_option linter.unusedSectionVars false
namespace SciCpp

/-- The value denoted by a real quantity (unfolded form). -/
theorem denote_real (q : Qty ℝ) : q.denote = q.ty.scal.val * q.val + (q.ty.off : ℝ) := by
  simp [Qty.denote]

/-! ### C73, continued -/

/-- C73: `fmin` denotes the minimum, for every unit (offsets included). -/
theorem C73_fmin (t : QTy) (ht : t.Valid) (x y : ℝ) :
    (qFmin t x y).denote = min (⟨t, x⟩ : Qty ℝ).denote (⟨t, y⟩ : Qty ℝ).denote := by
  have hs := RootRatio.val_pos t.scal ht.2
  simp only [qFmin, denote_real]
  rw [mul_min_of_nonneg _ _ hs.le, min_add_add_right]

/-- C73: `fdim`, three-dimensional `hypot`, `copysign` and `signbit` (units without offset). -/
theorem C73_more_same_type_partial (t : QTy) (ht : t.Valid) (h0 : t.off = 0) (x y z : ℝ) :
    (qFdim t x y).denote = max ((⟨t, x⟩ : Qty ℝ).denote - (⟨t, y⟩ : Qty ℝ).denote) 0 ∧
    (qHypot3 t x y z).denote = Real.sqrt ((⟨t, x⟩ : Qty ℝ).denote ^ 2 +
      (⟨t, y⟩ : Qty ℝ).denote ^ 2 + (⟨t, z⟩ : Qty ℝ).denote ^ 2) ∧
    |(qCopysign t x y).denote| = |(⟨t, x⟩ : Qty ℝ).denote| ∧
    ((⟨t, y⟩ : Qty ℝ).denote < 0 → (qCopysign t x y).denote ≤ 0) ∧
    (0 ≤ (⟨t, y⟩ : Qty ℝ).denote → 0 ≤ (qCopysign t x y).denote) ∧
    (qSignbit ⟨t, x⟩ = true ↔ (⟨t, x⟩ : Qty ℝ).denote < 0) := by
  have hs := RootRatio.val_pos t.scal ht.2
  simp only [qFdim, qHypot3, qCopysign, qSignbit, denote_real, h0, Rat.cast_zero, add_zero]
  have hneg : ∀ v : ℝ, t.scal.val * v < 0 ↔ v < 0 := fun v => by
    constructor
    · intro h; by_contra hv; push Not at hv; nlinarith
    · intro h; nlinarith
  refine ⟨?_, ?_, ?_, ?_, ?_, ?_⟩
  · split_ifs with h
    · rw [max_eq_left (by nlinarith)]; ring
    · push Not at h; rw [max_eq_right (by nlinarith), mul_zero]
  · rw [mul_pow, mul_pow, mul_pow, ← mul_add, ← mul_add, Real.sqrt_mul (by positivity),
      Real.sqrt_sq hs.le]
  · split_ifs <;> simp [abs_mul]
  · intro h
    rw [if_pos ((hneg y).mp h)]
    nlinarith [abs_nonneg x]
  · intro h
    rw [if_neg (fun hc => absurd ((hneg y).mpr hc) (not_lt.mpr h))]
    positivity
  · rw [decide_eq_true_eq, hneg]

theorem toRadian_eq (angle : RootRatio) (x : Qty ℝ) (hx : x.ty.Valid) (hd : x.ty.dim = angle) :
    toRadian angle x = .ok x.denote := by
  subst hd
  obtain ⟨r, h1, h2, h3⟩ := C38_cast_iff (radianTy x.ty.dim) x hx ⟨hx.1, valid_one⟩ rfl
  unfold toRadian
  rw [if_neg (by simp), h1]
  have h4 := h3.mpr (Or.inr val_one)
  have h5 : r.denote = r.val := by
    rw [denote_real, h2]; simp [radianTy, val_one]
  simp only [Res.bind_ok, Res.pure_eq]
  rw [← h4, h5]

/-- C73: `cos` and `tan` of an angle in any unit are those of the denoted angle in radians; other
dimensions are rejected. -/
theorem C73_cos_tan (angle : RootRatio) (x : Qty ℝ) (hx : x.ty.Valid) :
    (x.ty.dim = angle → qCos angle x = .ok (Real.cos x.denote) ∧
      qTan angle x = .ok (Real.tan x.denote)) ∧
    (x.ty.dim ≠ angle → qCos angle x = .ub ∧ qTan angle x = .ub) := by
  constructor
  · intro hd
    unfold qCos qTan
    rw [toRadian_eq angle x hx hd]
    exact ⟨rfl, rfl⟩
  · intro hd
    unfold qCos qTan toRadian
    rw [if_pos hd]
    exact ⟨rfl, rfl⟩

/-- C73: the inverse trigonometric functions give angles that the trigonometric functions map back,
for dimensionless arguments of scale 1 (plain numbers). -/
theorem C73_inverse_trig (angle : RootRatio) (ha : angle.Valid) (v : ℝ) :
    let x : Qty ℝ := ⟨⟨⟨1, 1, 1⟩, ⟨1, 1, 1⟩, 0⟩, v⟩
    (-1 ≤ v → v ≤ 1 → ∃ a, qAsin angle x = .ok a ∧ qSin angle a = .ok v ∧
      -(Real.pi / 2) ≤ a.denote ∧ a.denote ≤ Real.pi / 2) ∧
    (-1 ≤ v → v ≤ 1 → ∃ a, qAcos angle x = .ok a ∧ qCos angle a = .ok v ∧
      0 ≤ a.denote ∧ a.denote ≤ Real.pi) ∧
    (∃ a, qAtan angle x = .ok a ∧ qTan angle a = .ok v ∧
      -(Real.pi / 2) < a.denote ∧ a.denote < Real.pi / 2) := by
  intro x
  have hd : ∀ w : ℝ, (⟨radianTy angle, w⟩ : Qty ℝ).denote = w := fun w => by
    rw [denote_real]; simp [radianTy, val_one]
  have hv : (radianTy angle).Valid := ⟨ha, valid_one⟩
  refine ⟨fun h1 h2 => ?_, fun h1 h2 => ?_, ?_⟩
  · refine ⟨⟨radianTy angle, Real.arcsin v⟩, by simp [qAsin, x], ?_, ?_, ?_⟩
    · rw [C73_sin angle _ hv rfl, hd, Real.sin_arcsin h1 h2]
    · rw [hd]; exact Real.neg_pi_div_two_le_arcsin v
    · rw [hd]; exact Real.arcsin_le_pi_div_two v
  · refine ⟨⟨radianTy angle, Real.arccos v⟩, by simp [qAcos, x], ?_, ?_, ?_⟩
    · rw [((C73_cos_tan angle _ hv).1 rfl).1, hd, Real.cos_arccos h1 h2]
    · rw [hd]; exact Real.arccos_nonneg v
    · rw [hd]; exact Real.arccos_le_pi v
  · refine ⟨⟨radianTy angle, Real.arctan v⟩, by simp [qAtan, x], ?_, ?_, ?_⟩
    · rw [((C73_cos_tan angle _ hv).1 rfl).2, hd, Real.tan_arctan]
    · rw [hd]; exact Real.neg_pi_div_two_lt_arctan v
    · rw [hd]; exact Real.arctan_lt_pi_div_two v

/-- C73: a quantity with a dimension is not accepted by the inverse trigonometric functions. -/
theorem C73_inverse_trig_dimension (angle : RootRatio) (x : Qty ℝ) (hx : x.ty.dim ≠ ⟨1, 1, 1⟩) :
    qAsin angle x = .ub ∧ qAcos angle x = .ub ∧ qAtan angle x = .ub := by
  simp [qAsin, qAcos, qAtan, hx]

/-- C73: `atan2` does not depend on the (common) unit of its arguments: it is the angle of the
denoted values (units without offset). -/
theorem C73_atan2_partial (angle : RootRatio) (t : QTy) (ht : t.Valid) (h0 : t.off = 0) (x y : ℝ) :
    (qAtan2 angle t x y).denote =
      Complex.arg ⟨(⟨t, y⟩ : Qty ℝ).denote, (⟨t, x⟩ : Qty ℝ).denote⟩ := by
  have hs := RootRatio.val_pos t.scal ht.2
  rw [denote_real, denote_real, denote_real]
  simp only [qAtan2, radianTy, val_one, h0, Rat.cast_zero, add_zero, one_mul]
  rw [← Complex.arg_real_mul ⟨y, x⟩ hs]
  congr 1
  apply Complex.ext <;> simp

/-- C73: functions of dimensionless quantities use the bare value: for every function `f`
(`log`, `log10`, `exp2`, …) the result is `f` of the denoted number when the scale is 1, and the
dimension is checked. -/
theorem C73_dimensionless_partial (f : ℝ → ℝ) (x : Qty ℝ) (h0 : x.ty.off = 0) :
    (x.ty.dim = ⟨1, 1, 1⟩ → x.ty.scal.val = 1 → qDimless f x = .ok (f x.denote)) ∧
    (x.ty.dim ≠ ⟨1, 1, 1⟩ → qDimless f x = .ub) := by
  constructor
  · intro h1 h2
    unfold qDimless
    rw [if_neg (not_not.mpr h1), denote_real, h2, h0]
    simp
  · intro h
    unfold qDimless
    rw [if_pos h]

/-- C73: the logarithm of a positive dimensionless quantity is off by the logarithm of its scale
(so it is right exactly for scale 1). -/
theorem C73_log_iff (x : Qty ℝ) (hx : x.ty.Valid) (hd : x.ty.dim = ⟨1, 1, 1⟩) (h0 : x.ty.off = 0)
    (hv : 0 < x.val) :
    ∃ l, qDimless Real.log x = .ok l ∧ Real.log x.denote = l + Real.log x.ty.scal.val ∧
      (l = Real.log x.denote ↔ x.ty.scal.val = 1) := by
  have hs := RootRatio.val_pos x.ty.scal hx.2
  have e : Real.log x.denote = Real.log x.val + Real.log x.ty.scal.val := by
    rw [denote_real, h0, Rat.cast_zero, add_zero, Real.log_mul hs.ne' hv.ne', add_comm]
  refine ⟨Real.log x.val, by unfold qDimless; rw [if_neg (not_not.mpr hd)], e, ?_⟩
  rw [e]
  constructor
  · intro h
    have hl : Real.log x.ty.scal.val = 0 := by linarith
    have := Real.exp_log hs
    rw [hl, Real.exp_zero] at this
    exact this.symm
  · intro h; rw [h]; simp

/-- C73: `sinc` is continuous at its special case: it is `sin(πx)/(πx)` with value 1 at 0, equal to
1 in absolute value only there, and zero exactly at the non-zero integers. -/
theorem C73_sinc (v : ℝ) :
    ∃ s, qSinc ⟨⟨⟨1, 1, 1⟩, ⟨1, 1, 1⟩, 0⟩, v⟩ = .ok s ∧ s * (Real.pi * v) = Real.sin (Real.pi * v) ∧
      |s| ≤ 1 ∧ (s = 0 ↔ v ≠ 0 ∧ ∃ n : ℤ, v = n) := by
  by_cases h : v = 0
  · refine ⟨1, by simp [qSinc, h], by simp [h], by simp, by simp [h]⟩
  · have hp : Real.pi * v ≠ 0 := mul_ne_zero Real.pi_ne_zero h
    refine ⟨Real.sin (Real.pi * v) / (Real.pi * v), by simp [qSinc, h], div_mul_cancel₀ _ hp, ?_, ?_⟩
    · rw [abs_div, div_le_one (abs_pos.mpr hp)]
      exact Real.abs_sin_le_abs
    · rw [div_eq_zero_iff, or_iff_left hp, Real.sin_eq_zero_iff]
      constructor
      · rintro ⟨n, hn⟩
        refine ⟨h, n, ?_⟩
        have : Real.pi * v = Real.pi * n := by rw [← hn]; ring
        exact mul_left_cancel₀ Real.pi_ne_zero this
      · rintro ⟨-, n, rfl⟩
        exact ⟨n, by ring⟩

/-! ### C84: rounding -/

/-- C84: `floor`, `ceil`, `trunc`, `round` keep the unit and give a whole number of units: the largest
not above, the smallest not below, towards zero, and nearest (units without offset). -/
theorem C84_rounding_partial (x : Qty ℝ) (hx : x.ty.Valid) (h0 : x.ty.off = 0) :
    let u := x.ty.scal.val
    (∃ n : ℤ, (qFloor x).denote = u * n) ∧ (qFloor x).denote ≤ x.denote ∧
      x.denote < (qFloor x).denote + u ∧
    (∃ n : ℤ, (qCeil x).denote = u * n) ∧ x.denote ≤ (qCeil x).denote ∧
      (qCeil x).denote < x.denote + u ∧
    (∃ n : ℤ, (qTrunc x).denote = u * n) ∧ |(qTrunc x).denote| ≤ |x.denote| ∧
      |x.denote| < |(qTrunc x).denote| + u ∧ 0 ≤ (qTrunc x).denote * x.denote ∧
    (∃ n : ℤ, (qRound x).denote = u * n) ∧ |(qRound x).denote - x.denote| ≤ u / 2 ∧
    (qFloor x).ty = x.ty ∧ (qCeil x).ty = x.ty ∧ (qTrunc x).ty = x.ty ∧ (qRound x).ty = x.ty := by
  intro u
  have hu : 0 < u := RootRatio.val_pos x.ty.scal hx.2
  have hd : x.denote = u * x.val := by rw [denote_real, h0]; simp [u]
  have hf : (qFloor x).denote = u * (⌊x.val⌋ : ℝ) := by
    rw [denote_real]; simp [qFloor, h0, u]
  have hc : (qCeil x).denote = u * (⌈x.val⌉ : ℝ) := by
    rw [denote_real]; simp [qCeil, h0, u]
  have ht : (qTrunc x).denote = u * (if 0 ≤ x.val then (⌊x.val⌋ : ℝ) else (⌈x.val⌉ : ℝ)) := by
    rw [denote_real]; simp only [qTrunc, h0, Rat.cast_zero, add_zero, u]
  have hr : (qRound x).denote =
      u * (if 0 ≤ x.val then (⌊x.val + 1 / 2⌋ : ℝ) else (⌈x.val - 1 / 2⌉ : ℝ)) := by
    rw [denote_real]; simp only [qRound, h0, Rat.cast_zero, add_zero, u]
  have f1 := Int.floor_le x.val
  have f2 := Int.lt_floor_add_one x.val
  have c1 := Int.le_ceil x.val
  have c2 := Int.ceil_lt_add_one x.val
  rw [hf, hc, ht, hr, hd]
  refine ⟨⟨_, rfl⟩, by nlinarith, by nlinarith, ⟨_, rfl⟩, by nlinarith, by nlinarith, ?_, ?_, ?_, ?_,
    ?_, ?_, rfl, rfl, rfl, rfl⟩
  · split_ifs
    · exact ⟨_, rfl⟩
    · exact ⟨_, rfl⟩
  · rw [abs_mul, abs_mul, abs_of_pos hu]
    apply mul_le_mul_of_nonneg_left _ hu.le
    split_ifs with h
    · have : (0 : ℝ) ≤ (⌊x.val⌋ : ℝ) := by exact_mod_cast Int.floor_nonneg.mpr h
      rw [abs_of_nonneg this, abs_of_nonneg h]; exact f1
    · push Not at h
      have : (⌈x.val⌉ : ℝ) ≤ 0 := by
        have : ⌈x.val⌉ ≤ 0 := Int.ceil_le.mpr (by simpa using h.le)
        exact_mod_cast this
      rw [abs_of_nonpos this, abs_of_neg h]; linarith
  · rw [abs_mul, abs_mul, abs_of_pos hu]
    split_ifs with h
    · have : (0 : ℝ) ≤ (⌊x.val⌋ : ℝ) := by exact_mod_cast Int.floor_nonneg.mpr h
      rw [abs_of_nonneg this, abs_of_nonneg h]; nlinarith
    · push Not at h
      have : (⌈x.val⌉ : ℝ) ≤ 0 := by
        have : ⌈x.val⌉ ≤ 0 := Int.ceil_le.mpr (by simpa using h.le)
        exact_mod_cast this
      rw [abs_of_nonpos this, abs_of_neg h]; nlinarith
  · split_ifs with h
    · have : (0 : ℝ) ≤ (⌊x.val⌋ : ℝ) := by exact_mod_cast Int.floor_nonneg.mpr h
      positivity
    · push Not at h
      have : (⌈x.val⌉ : ℝ) ≤ 0 := by
        have : ⌈x.val⌉ ≤ 0 := Int.ceil_le.mpr (by simpa using h.le)
        exact_mod_cast this
      have h2 : 0 ≤ (⌈x.val⌉ : ℝ) * x.val := mul_nonneg_of_nonpos_of_nonpos this h.le
      have : u * (⌈x.val⌉ : ℝ) * (u * x.val) = u ^ 2 * ((⌈x.val⌉ : ℝ) * x.val) := by ring
      rw [this]; positivity
  · split_ifs
    · exact ⟨_, rfl⟩
    · exact ⟨_, rfl⟩
  · rw [← mul_sub, abs_mul, abs_of_pos hu]
    have key : |(if 0 ≤ x.val then (⌊x.val + 1 / 2⌋ : ℝ) else (⌈x.val - 1 / 2⌉ : ℝ)) - x.val| ≤ 1 / 2 := by
      split_ifs
      · have a1 := Int.floor_le (x.val + 1 / 2)
        have a2 := Int.lt_floor_add_one (x.val + 1 / 2)
        rw [abs_le]; constructor <;> linarith
      · have a1 := Int.le_ceil (x.val - 1 / 2)
        have a2 := Int.ceil_lt_add_one (x.val - 1 / 2)
        rw [abs_le]; constructor <;> linarith
    nlinarith

/-- C84 (negation of "rounding does not depend on the unit an amount is expressed in"): 1500 m is
unchanged by `floor`, the equal 1.5 km becomes 1 km. -/
theorem C84_unit_dependent_false (d : RootRatio) :
    let m : Qty ℝ := ⟨⟨d, ⟨1, 1, 1⟩, 0⟩, 1500⟩
    let km : Qty ℝ := ⟨⟨d, ⟨1000, 1, 1⟩, 0⟩, 3 / 2⟩
    m.denote = km.denote ∧ (qFloor m).denote = 1500 ∧ (qFloor km).denote = 1000 := by
  intro m km
  have s1000 : (⟨1000, 1, 1⟩ : RootRatio).val = 1000 := by simp [RootRatio.val]
  have f1 : ⌊(1500 : ℝ)⌋ = 1500 := by
    have : (1500 : ℝ) = ((1500 : ℤ) : ℝ) := by norm_num
    rw [this, Int.floor_intCast]
  have f2 : ⌊(3 / 2 : ℝ)⌋ = 1 := by rw [Int.floor_eq_iff]; norm_num
  refine ⟨?_, ?_, ?_⟩
  · rw [denote_real, denote_real]; simp only [m, km, val_one, s1000]; norm_num
  · rw [denote_real]; simp only [m, qFloor, val_one, f1]; norm_num
  · rw [denote_real]; simp only [km, qFloor, s1000, f2]; norm_num

/-! ### C83: complex quantities -/

theorem denote_complex (q : Qty ℂ) : q.denote = (q.ty.scal.val : ℂ) * q.val + (q.ty.off : ℂ) := rfl

theorem toC_denote (q : Qty ℝ) : q.toC.denote = (q.denote : ℂ) := by
  rw [denote_complex, denote_real]
  simp [Qty.toC]

/-- C83: products of complex quantities, of a real and a complex quantity (both orders of operands
have the same type), and of a number and a complex quantity denote the product of what is denoted;
dimensions multiply (units without offset). -/
theorem C83_mul_partial (a b : Qty ℂ) (q : Qty ℝ) (k : ℂ) (ha : a.ty.Valid) (hb : b.ty.Valid)
    (hq : q.ty.Valid) (h0 : a.ty.off = 0) (h0' : b.ty.off = 0) (h0'' : q.ty.off = 0) :
    (∃ r, cMul a b = .ok r ∧ r.ty.Valid ∧ r.denote = a.denote * b.denote ∧
      r.ty.dim.val = a.ty.dim.val * b.ty.dim.val) ∧
    (∃ r, qcMul q b = .ok r ∧ r.ty.Valid ∧ r.denote = (q.denote : ℂ) * b.denote ∧
      r.ty.dim.val = q.ty.dim.val * b.ty.dim.val) ∧
    (cScale k a).denote = k * a.denote ∧ (cScale k a).ty = a.ty := by
  refine ⟨?_, ?_, ?_, rfl⟩
  · obtain ⟨r, e, hv, hd, hdim, hoff⟩ := C36_mul_partial a b ha hb h0 h0'
    have hval : r.val = a.val * b.val := by
      unfold qMul at e
      rw [if_neg (by simp [h0'])] at e
      cases h1 : rrMul a.ty.dim b.ty.dim with
      | ub => rw [h1] at e; cases e
      | ok d =>
        cases h2 : rrMul a.ty.scal b.ty.scal with
        | ub => rw [h1, h2] at e; cases e
        | ok s => rw [h1, h2] at e; cases e; rfl
    refine ⟨⟨r.ty, b.val * a.val⟩, by unfold cMul; rw [e]; rfl, hv, ?_, hdim⟩
    rw [← hd, denote_complex, denote_complex, hval, mul_comm a.val]
  · obtain ⟨r, e, hv, hd, hdim, hoff⟩ := C36_mul_partial q.toC b hq hb h0'' h0'
    have hval : r.val = q.toC.val * b.val := by
      unfold qMul at e
      rw [if_neg (by simp [h0'])] at e
      cases h1 : rrMul q.toC.ty.dim b.ty.dim with
      | ub => rw [h1] at e; cases e
      | ok d =>
        cases h2 : rrMul q.toC.ty.scal b.ty.scal with
        | ub => rw [h1, h2] at e; cases e
        | ok s => rw [h1, h2] at e; cases e; rfl
    refine ⟨⟨r.ty, b.val * (q.val : ℂ)⟩, by unfold qcMul; rw [e]; rfl, hv, ?_, hdim⟩
    rw [← toC_denote, ← hd, denote_complex, denote_complex, hval, mul_comm b.val]
    rfl
  · rw [denote_complex, denote_complex]
    simp only [cScale, h0]; push_cast; ring

theorem qDiv_val {K : Type} [RCLike K] (a b r : Qty K) (h0' : b.ty.off = 0) (e : qDiv a b = .ok r) :
    r.val = a.val / b.val := by
  unfold qDiv at e
  rw [if_neg (by simp [h0'])] at e
  cases h1 : rrDiv a.ty.dim b.ty.dim with
  | ub => rw [h1] at e; cases e
  | ok d =>
    cases h2 : rrDiv a.ty.scal b.ty.scal with
    | ub => rw [h1, h2] at e; cases e
    | ok s => rw [h1, h2] at e; cases e; rfl

/-- C83: quotients of complex quantities, of real and complex ones, and with numbers
(units without offset). -/
theorem C83_div_partial (a b : Qty ℂ) (q : Qty ℝ) (k : ℂ) (ha : a.ty.Valid) (hb : b.ty.Valid)
    (hq : q.ty.Valid) (h0 : a.ty.off = 0) (h0' : b.ty.off = 0) (h0'' : q.ty.off = 0) :
    (∃ r, cDiv a b = .ok r ∧ r.ty.Valid ∧ r.denote = a.denote / b.denote ∧
      r.ty.dim.val = a.ty.dim.val / b.ty.dim.val) ∧
    (∃ r, qcDiv q b = .ok r ∧ r.ty.Valid ∧ r.denote = (q.denote : ℂ) / b.denote ∧
      r.ty.dim.val = q.ty.dim.val / b.ty.dim.val) ∧
    (a.ty = q.ty → ∃ r, cqDiv a q = .ok r ∧ r.ty.Valid ∧ r.denote = a.denote / (q.denote : ℂ) ∧
      r.ty.dim.val = 1) ∧
    (∃ r, scalarDivC k a = .ok r ∧ r.ty.Valid ∧ r.denote = k / a.denote ∧
      r.ty.dim.val = 1 / a.ty.dim.val) ∧
    (cDivScalar a k).denote = a.denote / k ∧ (cDivScalar a k).ty = a.ty := by
  refine ⟨?_, ?_, ?_, ?_, ?_, rfl⟩
  · obtain ⟨r, e, hv, hd, hdim, hoff⟩ := C36_div_partial a b ha hb h0 h0'
    have hval := qDiv_val a b r h0' e
    refine ⟨⟨r.ty, a.val / b.val⟩, by unfold cDiv; rw [e]; rfl, hv, ?_, hdim⟩
    rw [← hd, denote_complex, denote_complex, hval]
  · obtain ⟨r, e, hv, hd, hdim, hoff⟩ := C36_div_partial q.toC b hq hb h0'' h0'
    have hval := qDiv_val q.toC b r h0' e
    refine ⟨⟨r.ty, (q.val : ℂ) / b.val⟩, by unfold qcDiv; rw [e]; rfl, hv, ?_, hdim⟩
    rw [← toC_denote, ← hd, denote_complex, denote_complex, hval]
    rfl
  · intro hty
    obtain ⟨r, e, hv, hd, hdim, hoff⟩ := C36_div_partial a q.toC ha hq h0 h0''
    have hval := qDiv_val a q.toC r h0'' e
    refine ⟨⟨r.ty, a.val / (q.val : ℂ)⟩, by unfold cqDiv; rw [if_neg (not_not.mpr hty), e]; rfl, hv, ?_, ?_⟩
    · rw [← toC_denote, ← hd, denote_complex, denote_complex, hval]
      rfl
    · show r.ty.dim.val = 1
      rw [hdim]
      show a.ty.dim.val / q.ty.dim.val = 1
      rw [hty]
      exact div_self (RootRatio.val_pos q.ty.dim hq.1).ne'
  · obtain ⟨⟨r, e, hv, hd, hdim⟩, -⟩ := C36_inv a ha h0 k
    have hoff : r.ty.off = 0 ∧ r.val = 1 / a.val := by
      unfold qInv at e
      cases h1 : rrDiv ⟨1, 1, 1⟩ a.ty.dim with
      | ub => rw [h1] at e; cases e
      | ok d =>
        cases h2 : rrDiv ⟨1, 1, 1⟩ a.ty.scal with
        | ub => rw [h1, h2] at e; cases e
        | ok s => rw [h1, h2] at e; cases e; exact ⟨rfl, rfl⟩
    refine ⟨⟨r.ty, k / a.val⟩, by unfold scalarDivC; rw [e]; rfl, hv, ?_, hdim⟩
    have h2 : r.denote = 1 / a.denote := hd
    have : k / a.denote = k * r.denote := by rw [h2]; ring
    rw [this, denote_complex, denote_complex, hoff.1, hoff.2]
    push_cast; ring
  · rw [denote_complex, denote_complex]
    simp only [cDivScalar, h0]; push_cast; ring

/-- C83: modulus, argument and polar form: `abs` denotes the modulus of what is denoted, `arg` its
argument whatever the unit, and `polar(abs(z), arg(z))` is `z` again (units without offset). -/
theorem C83_polar_partial (angle : RootRatio) (hang : angle.Valid) (z : Qty ℂ) (hz : z.ty.Valid)
    (h0 : z.ty.off = 0) :
    (cAbs z).denote = ‖z.denote‖ ∧ (cArg angle z).denote = Complex.arg z.denote ∧
    cPolar angle (cAbs z) (cArg angle z) = .ok z := by
  have hs := RootRatio.val_pos z.ty.scal hz.2
  have hzd : z.denote = (z.ty.scal.val : ℂ) * z.val := by
    rw [denote_complex, h0]; simp
  refine ⟨?_, ?_, ?_⟩
  · rw [hzd, norm_mul, denote_real]
    simp [cAbs, h0, abs_of_pos hs]
  · rw [hzd, Complex.arg_real_mul _ hs, denote_real]
    simp [cArg, radianTy, val_one]
  · unfold cPolar
    rw [toRadian_eq angle (cArg angle z) ⟨hang, valid_one⟩ rfl]
    simp only [Res.bind_ok, Res.pure_eq]
    have hd : (cArg angle z).denote = Complex.arg z.val := by
      rw [denote_real]; simp [cArg, radianTy, val_one]
    have e : (⟨(cAbs z).val * Real.cos (cArg angle z).denote,
        (cAbs z).val * Real.sin (cArg angle z).denote⟩ : ℂ) = z.val := by
      rw [hd]
      apply Complex.ext
      · exact Complex.norm_mul_cos_arg z.val
      · exact Complex.norm_mul_sin_arg z.val
    rw [e]
    rfl

/-- C83: `polar(r, θ)` for an angle in any unit denotes `r·(cos θ + i sin θ)`, and a `θ` that is not an
angle is rejected. -/
theorem C83_polar_any_unit (angle : RootRatio) (r θ : Qty ℝ) (hθ : θ.ty.Valid) (h0 : r.ty.off = 0) :
    (θ.ty.dim = angle → ∃ z, cPolar angle r θ = .ok z ∧ z.ty = r.ty ∧
      z.denote = (r.denote : ℂ) * Complex.exp (θ.denote * Complex.I)) ∧
    (θ.ty.dim ≠ angle → cPolar angle r θ = .ub) := by
  constructor
  · intro hd
    unfold cPolar
    rw [toRadian_eq angle θ hθ hd]
    refine ⟨_, rfl, rfl, ?_⟩
    have hr : r.denote = r.ty.scal.val * r.val := by rw [denote_real, h0]; simp
    rw [denote_complex, hr]
    simp only [h0]
    generalize θ.denote = t
    apply Complex.ext
    · simp [Complex.exp_ofReal_mul_I_re, Complex.exp_ofReal_mul_I_im, mul_assoc]
    · simp [Complex.exp_ofReal_mul_I_re, Complex.exp_ofReal_mul_I_im, mul_assoc]
  · intro hd
    unfold cPolar toRadian
    rw [if_pos hd]
    rfl

/-- C83 (negation of "dimension errors are rejected at compile time"): the exponential of a complex
quantity is accepted whatever its dimension, and depends on the unit: the same length written in
metres and in kilometres has different exponentials. -/
theorem C83_complex_exp_false (d : RootRatio) :
    let m : Qty ℂ := ⟨⟨d, ⟨1, 1, 1⟩, 0⟩, 1000⟩
    let km : Qty ℂ := ⟨⟨d, ⟨1000, 1, 1⟩, 0⟩, 1⟩
    m.denote = km.denote ∧ cExp m = .ok (Complex.exp 1000) ∧ cExp km = .ok (Complex.exp 1) ∧
      Complex.exp 1000 ≠ Complex.exp 1 := by
  intro m km
  have s1000 : (⟨1000, 1, 1⟩ : RootRatio).val = 1000 := by simp [RootRatio.val]
  refine ⟨?_, rfl, rfl, ?_⟩
  · rw [denote_complex, denote_complex]; simp only [m, km, val_one, s1000]; norm_num
  · intro h
    have h2 := congrArg (fun z : ℂ => ‖z‖) h
    simp only [Complex.norm_exp] at h2
    have h3 := Real.exp_injective h2
    norm_num at h3

-- non-vacuity: an impedance of 3 + 4i kΩ (dimension 1, scale 1000)
example : (⟨⟨⟨1, 1, 1⟩, ⟨1000, 1, 1⟩, 0⟩, ⟨3, 4⟩⟩ : Qty ℂ).ty.Valid ∧
    (⟨⟨⟨1, 1, 1⟩, ⟨1000, 1, 1⟩, 0⟩, ⟨3, 4⟩⟩ : Qty ℂ).ty.off = 0 := by
  refine ⟨⟨valid_one, ?_⟩, rfl⟩
  simp [RootRatio.Valid]

end SciCpp
