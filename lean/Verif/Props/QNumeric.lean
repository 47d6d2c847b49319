import Verif.Model.QNumeric
import Verif.Props.QStats
import Verif.Props.Numeric
import Verif.Props.Quantity
/-
  Property theorems C130: numeric functions of quantities.
-/
namespace SciCpp
open Spec

/-! ### types -/

theorem trapzSumTy_plain (t : QTy) (h : t.RatScale) : trapzSumTy t = .ok t := by
  unfold trapzSumTy
  rw [sumTy_plain t h]
  simp only [Res.bind_ok]
  rw [tyAdd_self t h]
  simp only [Res.bind_ok]
  rw [tyAdd_self t h]

theorem tyMul_off (t u : QTy) (h : u.off ≠ 0) : tyMul t u = .ub := by
  unfold tyMul; rw [if_pos h]

theorem trapzTy_zero (t u : QTy) (ht : t.RatScale) (hu : u.RatScale) (h0 : t.off = 0) (h0' : u.off = 0) : trapzTy t u = tyMul t u := by
  obtain ⟨w, w1, -⟩ := tyMul_plain t u ht hu h0'
  unfold trapzTy
  rw [w1, trapzSumTy_plain t ht]
  simp only [Res.bind_ok]
  rw [Ovl.tyMul_comm u t h0' h0, w1]
  show (if w = w then _ else _) = _
  rw [if_pos rfl]; rfl

theorem trapzTy_off (t u : QTy) (ht : t.RatScale) (hu : u.RatScale) (h : ¬ (t.off = 0 ∧ u.off = 0)) : trapzTy t u = .ub := by
  unfold trapzTy
  by_cases h0 : u.off = 0
  · have h1 : t.off ≠ 0 := fun e => h ⟨e, h0⟩
    obtain ⟨w, w1, -⟩ := tyMul_plain t u ht hu h0
    rw [w1, trapzSumTy_plain t ht]
    simp only [Res.bind_ok]
    rw [tyMul_off u t h1]; rfl
  · rw [tyMul_off t u h0]; rfl

theorem trapzTyN_plain (t : QTy) (h : t.RatScale) : trapzTyN t = .ok t := by
  unfold trapzTyN
  rw [trapzSumTy_plain t h]
  show (if t = t then _ else _) = _
  rw [if_pos rfl]; rfl

theorem tyMul_dim (t u w : QTy) (h : tyMul t u = .ok w) : rrMul t.dim u.dim = .ok w.dim ∧ rrMul t.scal u.scal = .ok w.scal := by
  unfold tyMul at h
  by_cases h0 : u.off ≠ 0
  · rw [if_pos h0] at h; cases h
  · rw [if_neg h0] at h
    cases hx : rrMul t.dim u.dim with
    | ub => rw [hx] at h; cases h
    | ok d =>
      rw [hx] at h
      cases hy : rrMul t.scal u.scal with
      | ub => rw [hy] at h; cases h
      | ok s => rw [hy] at h; injection h with h; rw [← h]; exact ⟨rfl, rfl⟩

theorem sq_self_pos {a : ℝ} (h : 0 < a) (e : a * a = a) : a = 1 := by
  have : a * a = a * 1 := by rw [e, mul_one]
  exact mul_left_cancel₀ h.ne' this

/-- `T * T` has the dimension of `T` exactly for dimensionless `T`. -/
theorem cumprodTy_iff (t : QTy) (ht : t.RatScale) (hr : t.dim.root = 1) :
    (t.off = 0 ∧ t.dim.val = 1 → ∃ w, cumprodTy t = .ok w ∧ w.RatScale ∧ w.off = 0 ∧ w.dim = t.dim ∧ w.scal.val = t.scal.val * t.scal.val) ∧
    (¬ (t.off = 0 ∧ t.dim.val = 1) → cumprodTy t = .ub) := by
  have hd := rr_val_pos t.dim ht.1.1
  constructor
  · rintro ⟨h0, h1⟩
    obtain ⟨w, w1, w2, w3, w4, w5⟩ := tyMul_plain t t ht ht h0
    have e : w.dim = t.dim := mul_canonical t.dim t.dim t.dim w.dim ht.1.1 ht.1.1 ht.1.1 hr (tyMul_dim t t w w1).1 (by rw [w4, h1, mul_one])
    refine ⟨w, ?_, w2, w3, e, w5⟩
    unfold cumprodTy
    rw [w1]
    show (if w.dim ≠ t.dim then _ else _) = _
    rw [if_neg (by simp [e])]; rfl
  · intro h
    unfold cumprodTy
    by_cases h0 : t.off = 0
    · obtain ⟨w, w1, w2, w3, w4, w5⟩ := tyMul_plain t t ht ht h0
      rw [w1]
      show (if w.dim ≠ t.dim then _ else _) = _
      rw [if_pos]
      intro e
      exact h ⟨h0, sq_self_pos hd (by rw [← w4, e])⟩
    · rw [tyMul_off t t h0]; rfl

theorem prodTy_iff (t : QTy) (ht : t.RatScale) (hr : t.dim.root = 1) :
    prodTy t = if t.off = 0 ∧ t.dim.val = 1 ∧ t.scal.val = 1 then .ok t else .ub := by
  have hs := rr_val_pos t.scal ht.1.2
  have hd := rr_val_pos t.dim ht.1.1
  unfold prodTy
  by_cases h0 : t.off = 0
  · obtain ⟨w, w1, w2, w3, w4, w5⟩ := tyMul_plain t t ht ht h0
    rw [w1]
    show (if w = t then _ else _) = _
    by_cases h : t.off = 0 ∧ t.dim.val = 1 ∧ t.scal.val = 1
    · rw [if_pos h]
      obtain ⟨-, h1, h2⟩ := h
      have e : w.dim = t.dim := mul_canonical t.dim t.dim t.dim w.dim ht.1.1 ht.1.1 ht.1.1 hr (tyMul_dim t t w w1).1 (by rw [w4, h1, mul_one])
      have e' : w.scal = t.scal := mul_canonical t.scal t.scal t.scal w.scal ht.1.2 ht.1.2 ht.1.2 ht.2 (tyMul_dim t t w w1).2
        (by rw [w5, h2, mul_one])
      rw [if_pos (show w = t from ?_)]
      · rfl
      · cases w; cases t; simp_all
    · rw [if_neg h, if_neg]
      intro e
      exact h ⟨h0, sq_self_pos hd (by rw [← w4, e]), sq_self_pos hs (by rw [← w5, e])⟩
  · rw [tyMul_off t t h0, if_neg (fun h => h0 h.1)]; rfl

/-- C130: which numeric functions of arrays of quantities compile: cumulative sums, differences and the integral with a number as spacing for every
unit; the integral with a quantity as spacing exactly when neither unit has an offset; the inner product exactly when the second one has none; the
product exactly for dimensionless quantities of scale 1; the cumulative product exactly for dimensionless quantities (also percents). -/
theorem C130_compiles (t u : QTy) (ht : t.RatScale) (hu : u.RatScale) :
    cumsumTy t = .ok t ∧ trapzTyN t = .ok t ∧ trapzTyNQ u = .ok u ∧
    ((∃ w, trapzTy t u = .ok w) ↔ t.off = 0 ∧ u.off = 0) ∧ ((∃ w, innerTy t u = .ok w) ↔ u.off = 0) ∧
    (t.dim.root = 1 → ((∃ w, prodTy t = .ok w) ↔ t.off = 0 ∧ t.dim.val = 1 ∧ t.scal.val = 1)) ∧
    (t.dim.root = 1 → ((∃ w, cumprodTy t = .ok w) ↔ t.off = 0 ∧ t.dim.val = 1)) := by
  refine ⟨tyAdd_self t ht, trapzTyN_plain t ht, rfl, ?_, ?_, fun hr => ?_, fun hr => ?_⟩
  · by_cases h : t.off = 0 ∧ u.off = 0
    · obtain ⟨w, w1, -⟩ := tyMul_plain t u ht hu h.2
      exact ⟨fun _ => h, fun _ => ⟨w, by rw [trapzTy_zero t u ht hu h.1 h.2, w1]⟩⟩
    · rw [trapzTy_off t u ht hu h]
      exact ⟨fun ⟨w, hw⟩ => (by cases hw), fun h2 => absurd h2 h⟩
  · by_cases h : u.off = 0
    · obtain ⟨w, w1, -⟩ := tyMul_plain t u ht hu h
      exact ⟨fun _ => h, fun _ => ⟨w, by rw [innerTy_zero t u ht hu h, w1]⟩⟩
    · have : innerTy t u = .ub := by unfold innerTy; rw [tyMul_off t u h]; rfl
      rw [this]
      exact ⟨fun ⟨w, hw⟩ => (by cases hw), fun h2 => absurd h2 h⟩
  · rw [prodTy_iff t ht hr]
    by_cases h : t.off = 0 ∧ t.dim.val = 1 ∧ t.scal.val = 1
    · rw [if_pos h]; exact ⟨fun _ => h, fun _ => ⟨t, rfl⟩⟩
    · rw [if_neg h]; exact ⟨fun ⟨w, hw⟩ => (by cases hw), fun h2 => absurd h2 h⟩
  · by_cases h : t.off = 0 ∧ t.dim.val = 1
    · obtain ⟨w, w1, -⟩ := (cumprodTy_iff t ht hr).1 h
      exact ⟨fun _ => h, fun _ => ⟨w, w1⟩⟩
    · rw [(cumprodTy_iff t ht hr).2 h]; exact ⟨fun ⟨w, hw⟩ => (by cases hw), fun h2 => absurd h2 h⟩

/-! ### values -/

theorem trapezoidRule_scale (a b dx : ℝ) (f : List ℝ) :
    trapezoidRule (b * dx) (f.map fun v => a * v) = a * b * trapezoidRule dx f := by
  induction f with
  | nil => simp [trapezoidRule]
  | cons x r ih =>
    cases r with
    | nil => simp [trapezoidRule]
    | cons y r =>
      simp only [List.map_cons, trapezoidRule] at ih ⊢
      rw [ih]; ring

/-- C130: the integral of quantities over quantities has the product of the units and is the trapezoidal rule on the data in base units, for every
number of samples other than one. -/
theorem C130_trapz (t u : QTy) (ht : t.RatScale) (hu : u.RatScale) (h0 : t.off = 0) (h0' : u.off = 0) (f : List ℝ) (dx : ℝ) (hf : f.length ≠ 1) :
    ∃ w v, qTrapz t u f dx = .ok ⟨w, v⟩ ∧ w.off = 0 ∧ w.dim.val = t.dim.val * u.dim.val ∧
      w.scal.val * v = trapezoidRule (u.scal.val * dx) (t.inBase f) := by
  obtain ⟨w, w1, w2, w3, w4, w5⟩ := tyMul_plain t u ht hu h0'
  refine ⟨w, trapezoidRule dx f, ?_, w3, w4, ?_⟩
  · unfold qTrapz
    rw [trapzTy_zero t u ht hu h0 h0', w1, C11_trapz_partial false f dx hf]; rfl
  · rw [QTy.inBase, trapezoidRule_scale, w5]

/-- C130: with a number as spacing the integral has the unit of the data, with numbers as data that of the spacing. -/
theorem C130_trapz_number (t : QTy) (ht : t.RatScale) (f : List ℝ) (dx : ℝ) (hf : f.length ≠ 1) :
    (∃ v, qTrapzN t f dx = .ok ⟨t, v⟩ ∧ t.scal.val * v = trapezoidRule dx (t.inBase f)) ∧
    (∃ v, qTrapzNQ t f dx = .ok ⟨t, v⟩ ∧ t.scal.val * v = trapezoidRule (t.scal.val * dx) f) := by
  refine ⟨⟨trapezoidRule dx f, ?_, ?_⟩, ⟨trapezoidRule dx f, ?_, ?_⟩⟩
  · unfold qTrapzN
    rw [trapzTyN_plain t ht, C11_trapz_partial false f dx hf]; rfl
  · have := trapezoidRule_scale t.scal.val 1 dx f
    rw [one_mul, mul_one] at this
    rw [QTy.inBase, this]
  · unfold qTrapzNQ trapzTyNQ
    rw [C11_trapz_partial false f dx hf]; rfl
  · have := trapezoidRule_scale 1 t.scal.val dx f
    simp only [one_mul, List.map_id'] at this
    rw [this]

/-- C130: one sample is undefined for quantities as well. -/
theorem C130_trapz_single_ub (t u : QTy) (x dx : ℝ) : qTrapz t u [x] dx = .ub ∧ qTrapzN t [x] dx = .ub ∧ qTrapzNQ u [x] dx = .ub := by
  refine ⟨?_, ?_, rfl⟩
  · unfold qTrapz
    cases trapzTy t u <;> rfl
  · unfold qTrapzN
    cases trapzTyN t <;> rfl

/-- C130: the inner product has the product of the units and is that of the data in base units; arrays of different sizes are rejected. -/
theorem C130_inner (t u : QTy) (ht : t.RatScale) (hu : u.RatScale) (h0 : u.off = 0) (a b : List ℝ) :
    (a.length = b.length → ∃ w v, qInner t u a b = .ok ⟨w, v⟩ ∧ w.off = 0 ∧ w.dim.val = t.dim.val * u.dim.val ∧
      w.scal.val * v = (List.zipWith (· * ·) (t.inBase a) (u.inBase b)).sum) ∧
    (a.length ≠ b.length → qInner t u a b = .ub) := by
  obtain ⟨w, w1, w2, w3, w4, w5⟩ := tyMul_plain t u ht hu h0
  constructor
  · intro hl
    refine ⟨w, (List.zipWith (· * ·) a b).sum, ?_, w3, w4, ?_⟩
    · unfold qInner
      rw [innerTy_zero t u ht hu h0, w1, (C12_inner_spec a b).1 hl]; rfl
    · rw [w5]
      unfold QTy.inBase
      clear hl
      induction a generalizing b with
      | nil => simp
      | cons x a ih =>
        cases b with
        | nil => simp
        | cons y b => simp only [List.map_cons, List.zipWith_cons_cons, List.sum_cons, ← ih]; ring
  · intro hl
    unfold qInner
    rw [innerTy_zero t u ht hu h0, w1, (C12_inner_spec a b).2 hl]; rfl

/-- C130: the cumulative sum keeps unit and length, and entry `i` in base units is the sum of the first `i + 1` entries in base units. -/
theorem C130_cumsum (t : QTy) (ht : t.RatScale) (a : List ℝ) :
    ∃ r, qCumsum t a = .ok (t, r) ∧ r.length = a.length ∧
      ∀ i < a.length, (t.inBase r)[i]? = some ((t.inBase a).take (i + 1)).sum := by
  obtain ⟨h1, -, h2, -⟩ := C09_cumsum_spec .constLvalue .vec a
  refine ⟨partialSum (· + ·) a, ?_, h1, fun i hi => ?_⟩
  · unfold qCumsum cumsumTy
    rw [tyAdd_self t ht]; rfl
  · have e : (partialSum (fun x y : ℝ => x + y) a)[i]? = some (a.take (i + 1)).sum := h2 i hi
    rw [QTy.inBase, List.getElem?_map, e, QTy.inBase, ← List.map_take, List.sum_map_mul_left, List.map_id']
    rfl

/-- C130: the differences of order `n` keep the unit; in base units they are the forward differences of the data in base units. -/
theorem C130_diff (t : QTy) (ht : t.RatScale) (a : List ℝ) (n : ℕ) :
    ∃ r, qDiff t a n = .ok (t, r) ∧ r.length = a.length - n ∧
      ∀ (i : ℕ) (_ : i < r.length), (t.inBase r)[i]? = some (∑ k ∈ Finset.range (n + 1),
          ((-1 : ℝ) ^ (n - k) * n.choose k) * (t.inBase a).getD (i + k) 0) := by
  obtain ⟨r, h1, -, h2, h3⟩ := C10_diff_spec a n
  refine ⟨r, ?_, h2, fun i hi => ?_⟩
  · unfold qDiff cumsumTy
    rw [tyAdd_self t ht, h1]; rfl
  · rw [QTy.inBase, List.getElem?_map, h3 i hi]
    simp only [Option.map_some, Option.some.injEq]
    rw [Finset.mul_sum]
    refine Finset.sum_congr rfl fun k _ => ?_
    have : (t.inBase a).getD (i + k) 0 = t.scal.val * a.getD (i + k) 0 := by
      simp only [QTy.inBase, List.getD_eq_getElem?_getD, List.getElem?_map]
      cases a[i + k]? <;> simp
    rw [this, zsmul_eq_mul]
    push_cast
    ring

/-- C130: the product of dimensionless quantities of scale 1 is the product of the values. -/
theorem C130_prod (t : QTy) (ht : t.RatScale) (hr : t.dim.root = 1) (h0 : t.off = 0) (h1 : t.dim.val = 1) (h2 : t.scal.val = 1) (a : List ℝ) :
    ∃ v, qProd t a = .ok ⟨t, v⟩ ∧ t.scal.val * v = (t.inBase a).prod := by
  refine ⟨a.prod, ?_, ?_⟩
  · unfold qProd
    rw [prodTy_iff t ht hr, if_pos ⟨h0, h1, h2⟩, (C01_sum_prod_all false a).2]; rfl
  · rw [QTy.inBase, h2]; simp

theorem partialSum_prod_scaled (c : ℝ) (a : List ℝ) :
    (partialSum (fun acc x => c * (acc * x)) a).map (fun v => c * v) = partialSum (· * ·) (a.map fun v => c * v) := by
  cases a with
  | nil => rfl
  | cons x xs =>
    simp only [partialSum, List.map_cons, List.cons.injEq, true_and]
    induction xs generalizing x with
    | nil => rfl
    | cons y ys ih =>
      simp only [partialSumLoop, List.map_cons]
      rw [ih]
      have : c * (c * (x * y)) = c * x * (c * y) := by ring
      rw [this]

/-- C130: the cumulative product of dimensionless quantities in any scale (percents) is right in base units: entry `i` is the product of the first
`i + 1` ratios. -/
theorem C130_cumprod (t : QTy) (ht : t.RatScale) (hr : t.dim.root = 1) (h0 : t.off = 0) (h1 : t.dim.val = 1) (a : List ℝ) :
    ∃ r, qCumprod t a = .ok (t, r) ∧ r.length = a.length ∧
      ∀ i < a.length, (t.inBase r)[i]? = some ((t.inBase a).take (i + 1)).prod := by
  obtain ⟨w, w1, w2, w3, w4, w5⟩ := (cumprodTy_iff t ht hr).1 ⟨h0, h1⟩
  obtain ⟨s, s1, s2, s3⟩ := C34_divide w.scal t.scal w2.1.2 ht.1.2
  have hs := rr_val_pos t.scal ht.1.2
  have sr : s.root = 1 := rrDiv_root _ _ _ w2.2 ht.2 s1
  have e : (evalRR s : ℝ) = t.scal.val := by
    unfold evalRR
    rw [if_pos sr, ← plain_val s sr, s3, w5, mul_div_assoc, div_self hs.ne', mul_one]
  have d0 : (w.off - t.off : ℚ) = 0 := by rw [w3, h0, sub_zero]
  refine ⟨partialSum (fun acc x => t.scal.val * (acc * x)) a, ?_, partialSum_length .., fun i hi => ?_⟩
  · unfold qCumprod
    rw [w1]
    simp only [Res.bind_ok]
    rw [s1]
    simp only [Res.bind_ok]
    rw [d0, e]
    simp
  · obtain ⟨-, -, -, h2⟩ := C09_cumsum_spec .constLvalue .vec (t.inBase a)
    have h3 : (partialSum (fun x y : ℝ => x * y) (t.inBase a))[i]? = some ((t.inBase a).take (i + 1)).prod :=
      h2 i (by simpa [QTy.inBase] using hi)
    rw [← h3]
    unfold QTy.inBase
    rw [partialSum_prod_scaled]

theorem fmodR_scale (s x y : ℝ) (hs : 0 < s) : fmodR (s * x) (s * y) = s * fmodR x y := by
  unfold fmodR
  have : s * x / (s * y) = x / y := mul_div_mul_left x y hs.ne'
  rw [this]
  split <;> ring

/-- C130: the remainder of quantities of one unit without an offset is that of the values in base units. -/
theorem C130_mod (t : QTy) (ht : t.RatScale) (a : List ℝ) (y : ℝ) :
    (qModArr t a y).1 = t ∧ (qModScalar t y a).1 = t ∧
    t.inBase (qModArr t a y).2 = (t.inBase a).map (fun v => fmodR v (t.scal.val * y)) ∧
    t.inBase (qModScalar t y a).2 = (t.inBase a).map (fun v => fmodR (t.scal.val * y) v) := by
  have hs := rr_val_pos t.scal ht.1.2
  refine ⟨rfl, rfl, ?_, ?_⟩
  · simp only [QTy.inBase, qModArr, List.map_map]
    apply List.map_congr_left
    intro v _
    simp only [Function.comp_apply, fmodR_scale _ _ _ hs]
  · simp only [QTy.inBase, qModScalar, List.map_map]
    apply List.map_congr_left
    intro v _
    simp only [Function.comp_apply, fmodR_scale _ _ _ hs]

/-! ### units with an offset -/

/-- C130, negation: with temperatures in degrees Celsius the functions that compile answer in degrees Celsius, zero point included: the difference of
10 °C and 20 °C is "10 °C" (283.15 K, not 10 K), the cumulative sum of 10 °C and 20 °C ends in "30 °C" (303.15 K, not 576.3 K), the integral of
10 °C and 20 °C with spacing 2 is "30 °C" (303.15 K, not 576.3 K), and 25 °C % 10 °C is "5 °C" (278.15 K; 298.15 % 283.15 is 15).  An integral over
time does not compile. -/
theorem C130_celsius_false : ∃ c s : QTy, c.RatScale ∧ s.RatScale ∧ c.off = 273.15 ∧ s.off = 0 ∧ c.scal.val = 1 ∧
    (qDiff c [10, 20] 1 = .ok (c, [(10 : ℝ)]) ∧ (10 : ℝ) + c.off ≠ (20 + c.off) - (10 + c.off)) ∧
    (qCumsum c [10, 20] = .ok (c, [10, (30 : ℝ)]) ∧ (30 : ℝ) + c.off ≠ (10 + c.off) + (20 + c.off)) ∧
    (qTrapzN c [10, 20] 2 = .ok ⟨c, (30 : ℝ)⟩ ∧ (30 : ℝ) + c.off ≠ trapezoidRule (2 : ℝ) [10 + (c.off : ℝ), 20 + (c.off : ℝ)]) ∧
    (qModArr c [25] 10 = (c, [5]) ∧ (5 : ℝ) + c.off ≠ fmodR (25 + c.off) (10 + c.off)) ∧
    qTrapz c s [10, (20 : ℝ)] 1 = .ub := by
  have h : (⟨⟨5, 1, 1⟩, ⟨1, 1, 1⟩, 273.15⟩ : QTy).RatScale :=
    ⟨⟨⟨by decide, by decide, by decide, by decide⟩, ⟨by decide, by decide, by decide, by decide⟩⟩, rfl⟩
  have hs : (⟨⟨3, 1, 1⟩, ⟨1, 1, 1⟩, 0⟩ : QTy).RatScale :=
    ⟨⟨⟨by decide, by decide, by decide, by decide⟩, ⟨by decide, by decide, by decide, by decide⟩⟩, rfl⟩
  refine ⟨⟨⟨5, 1, 1⟩, ⟨1, 1, 1⟩, 273.15⟩, ⟨⟨3, 1, 1⟩, ⟨1, 1, 1⟩, 0⟩, h, hs, rfl, rfl, ?_, ⟨?_, ?_⟩, ⟨?_, ?_⟩, ⟨?_, ?_⟩, ⟨?_, ?_⟩, ?_⟩
  · rw [plain_val _ rfl]; norm_num
  · unfold qDiff cumsumTy
    rw [tyAdd_self _ h]
    simp only [Res.bind_ok]
    have : diffVec [(10 : ℝ), 20] 1 = .ok [10] := by
      simp [diffVec, diffVecLoop, diffOnceVec, adjDiff, adjDiffLoop]; norm_num
    rw [this]; rfl
  · norm_num
  · unfold qCumsum cumsumTy
    rw [tyAdd_self _ h]
    simp only [Res.bind_ok]
    have : partialSum (fun x y : ℝ => x + y) [(10 : ℝ), 20] = [10, 30] := by
      simp [partialSum, partialSumLoop]; norm_num
    rw [this]; rfl
  · norm_num
  · unfold qTrapzN
    rw [trapzTyN_plain _ h, C11_trapz_partial _ _ _ (by simp)]
    have : trapezoidRule 2 [(10 : ℝ), 20] = 30 := by norm_num [trapezoidRule]
    rw [this]; rfl
  · norm_num [trapezoidRule]
  · unfold qModArr
    have : fmodR 25 10 = 5 := by
      unfold fmodR
      have : ⌊(25 : ℝ) / 10⌋ = 2 := by rw [Int.floor_eq_iff]; norm_num
      rw [if_pos (by norm_num), this]; norm_num
    simp [this]
  · unfold fmodR
    have : ⌊((25 : ℝ) + ((273.15 : ℚ) : ℝ)) / (10 + ((273.15 : ℚ) : ℝ))⌋ = 1 := by rw [Int.floor_eq_iff]; norm_num
    rw [if_pos (by norm_num), this]; norm_num
  · unfold qTrapz
    rw [trapzTy_off _ _ h hs]
    · rfl
    · rintro ⟨h1, -⟩; norm_num at h1

/-- C130 on a case: the distance travelled at 36, 72 and 36 km/h sampled every 2 minutes is 3600 m. -/
theorem C130_distance : ∃ v s : QTy, v.RatScale ∧ s.RatScale ∧ v.off = 0 ∧ s.off = 0 ∧ ∃ w r, qTrapz v s [36, 72, 36] 2 = .ok ⟨w, r⟩ ∧
    w.dim.val = v.dim.val * s.dim.val ∧ w.scal.val * r = (3600 : ℝ) := by
  have h : (⟨⟨2, 3, 1⟩, ⟨5, 18, 1⟩, 0⟩ : QTy).RatScale :=
    ⟨⟨⟨by decide, by decide, by decide, by decide⟩, ⟨by decide, by decide, by decide, by decide⟩⟩, rfl⟩
  have hs : (⟨⟨3, 1, 1⟩, ⟨60, 1, 1⟩, 0⟩ : QTy).RatScale :=
    ⟨⟨⟨by decide, by decide, by decide, by decide⟩, ⟨by decide, by decide, by decide, by decide⟩⟩, rfl⟩
  obtain ⟨w, r, h1, -, h3, h4⟩ := C130_trapz _ _ h hs rfl rfl [36, 72, 36] 2 (by simp)
  refine ⟨_, _, h, hs, rfl, rfl, w, r, h1, h3, ?_⟩
  rw [h4, QTy.inBase, plain_val _ rfl, plain_val _ rfl]
  norm_num [trapezoidRule]

/-- C130 on a case: 50 %, then 20 % of it, is 10 %; the product of percents does not compile. -/
theorem C130_percent : ∃ p : QTy, p.RatScale ∧ p.off = 0 ∧ p.dim.val = 1 ∧ prodTy p = .ub ∧
    ∃ r, qCumprod p [50, 20] = .ok (p, r) ∧ (p.inBase r)[1]? = some (1 / 10 : ℝ) := by
  have h : (⟨⟨1, 1, 1⟩, ⟨1, 100, 1⟩, 0⟩ : QTy).RatScale :=
    ⟨⟨⟨by decide, by decide, by decide, by decide⟩, ⟨by decide, by decide, by decide, by decide⟩⟩, rfl⟩
  have hd : (⟨1, 1, 1⟩ : RootRatio).val = 1 := by rw [plain_val _ rfl]; norm_num
  obtain ⟨r, h1, h2, h3⟩ := C130_cumprod _ h rfl rfl hd [50, 20]
  refine ⟨_, h, rfl, hd, ?_, r, h1, ?_⟩
  · rw [prodTy_iff _ h rfl, if_neg]
    rintro ⟨-, -, h2⟩
    rw [plain_val _ rfl] at h2
    norm_num at h2
  · rw [h3 1 (by simp), QTy.inBase, plain_val _ rfl]
    norm_num

end SciCpp
