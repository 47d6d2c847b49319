import Verif.Props.Range
import Verif.Props.Numeric
import Verif.Props.Stats
/-
  Property theorems C26 (almost_equal) and C65 (lerp).
-/
namespace SciCpp

set_option linter.unusedSectionVars false

variable {rnd : ℚ → ℚ}

/-! ## C02 — instance for binary64 -/

/-- C02 for `double`: binary64 rounding satisfies the hypothesis with `u = 2^-53`. -/
theorem C02_binary64 (l : List ℚ) (p : ℚ → Bool) :
    |(roundedSum rnd64 l p).1 - (l.filter p).sum|
      ≤ ((1 + 1 / 2 ^ 53) ^ (64 + Nat.clog 2 l.length) - 1) * ((l.filter p).map abs).sum :=
  C02_sum_rounding_error rnd64 (1 / 2 ^ 53) (by norm_num) rnd64_err l p

/-! ## C26 — almost_equal -/

/-- C26: `almost_equal` is reflexive, on every value including NaN and ±∞. -/
theorem C26_refl (h0 : rnd 0 = 0) (hpos : ∀ x, 0 ≤ x → 0 ≤ rnd x) (tol : ℚ) (ht : 0 ≤ tol)
    (a : RFl rnd) : almostEqual tol a a = true := by
  rcases RFl.cases a with rfl | ⟨s, rfl⟩ | ⟨q, rfl⟩
  · rfl
  · simp [almostEqual, fpEqual]
  · have := hpos (tol * |q|) (by positivity)
    simp only [almostEqual, fpEqual, RFl.isNan_fin, RFl.isInf_fin, RFl.abs_fin, RFl.max_fin,
      RFl.sub_fin, RFl.mul_fin, sub_self, h0, RFl.le_fin, max_self, abs_zero]
    simp only [this, ht, decide_true, Bool.false_eq_true, Bool.and_self, if_false, ite_self]

/-- C26, the specification for finite values (exact or rounded arithmetic): an absolute comparison
when one of them is zero or both are tiny, a comparison relative to the larger one otherwise. -/
theorem C26_finite (tol a b : ℚ) :
    almostEqual tol (RFl.fin a : RFl rnd) (RFl.fin b) = true ↔
      ((a = 0 ∨ b = 0 ∨ max |a| |b| < tol) ∧ |rnd (a - b)| ≤ tol) ∨
      (a ≠ 0 ∧ b ≠ 0 ∧ tol ≤ max |a| |b| ∧ |rnd (a - b)| ≤ rnd (tol * max |a| |b|)) := by
  simp only [almostEqual, fpEqual, RFl.isNan_fin, RFl.isInf_fin, RFl.abs_fin, RFl.max_fin,
      RFl.sub_fin, RFl.mul_fin, RFl.le_fin, RFl.isZero_fin, RFl.lt_fin, Bool.and_self,
      Bool.false_eq_true, if_false]
  by_cases h : a = 0 ∨ b = 0 ∨ max |a| |b| < tol
  · have h' : (decide (a = 0) || decide (b = 0) || decide (max |a| |b| < tol)) = true := by
      simpa [or_assoc] using h
    rw [if_pos h', decide_eq_true_eq]
    constructor
    · exact fun h2 => Or.inl ⟨h, h2⟩
    · rintro (⟨_, h2⟩ | ⟨h1, h2, h3, _⟩)
      · exact h2
      · rcases h with h | h | h
        · exact absurd h h1
        · exact absurd h h2
        · exact absurd h (not_lt.mpr h3)
  · have h' : ¬ (decide (a = 0) || decide (b = 0) || decide (max |a| |b| < tol)) = true := by
      simpa [or_assoc] using h
    rw [if_neg h', decide_eq_true_eq]
    simp only [not_or, not_lt] at h
    constructor
    · exact fun h2 => Or.inr ⟨h.1, h.2.1, h.2.2, h2⟩
    · rintro (⟨h1 | h1 | h1, _⟩ | ⟨_, _, _, h2⟩)
      · exact absurd h1 h.1
      · exact absurd h1 h.2.1
      · exact absurd h1 (not_lt.mpr h.2.2)
      · exact h2

/-- C26: `almost_equal` is symmetric (any rounding that commutes with the sign). -/
theorem C26_symm (hodd : ∀ x, rnd (-x) = -rnd x) (tol : ℚ) (a b : RFl rnd) :
    almostEqual tol a b = almostEqual tol b a := by
  rcases RFl.cases a with rfl | ⟨s, rfl⟩ | ⟨x, rfl⟩ <;>
    rcases RFl.cases b with rfl | ⟨t, rfl⟩ | ⟨y, rfl⟩
  · rfl
  · simp [almostEqual, fpEqual, RFl.max]
  · simp [almostEqual, fpEqual, RFl.max]
  · simp [almostEqual, fpEqual, RFl.max]
  · simp [almostEqual, fpEqual, Bool.beq_comm]
  · simp [almostEqual, fpEqual, RFl.max]
  · simp [almostEqual, fpEqual, RFl.max]
  · simp [almostEqual, fpEqual, RFl.max]
  · have e1 := C26_finite (rnd := rnd) tol x y
    have e2 := C26_finite (rnd := rnd) tol y x
    have hs : |rnd (x - y)| = |rnd (y - x)| := by
      rw [← neg_sub y x, hodd, abs_neg]
    rw [max_comm |y|, ← hs] at e2
    rw [Bool.eq_iff_iff, e1, e2]
    constructor <;> rintro (⟨h, h'⟩ | ⟨h1, h2, h3, h4⟩)
    · exact Or.inl ⟨by tauto, h'⟩
    · exact Or.inr ⟨h2, h1, h3, h4⟩
    · exact Or.inl ⟨by tauto, h'⟩
    · exact Or.inr ⟨h2, h1, h3, h4⟩

/-- C26: NaN is almost equal to NaN and to nothing else; an infinity is almost equal to itself and
never to the opposite one, nor to zero. -/
theorem C26_special (tol : ℚ) (a : RFl rnd) (s s' : Bool) :
    (almostEqual tol a RFl.nan = true ↔ a = RFl.nan) ∧
    (almostEqual tol RFl.nan a = true ↔ a = RFl.nan) ∧
    (almostEqual tol (RFl.inf s : RFl rnd) (RFl.inf s') = true ↔ s = s') ∧
    almostEqual tol (RFl.inf s : RFl rnd) (RFl.fin 0) = false := by
  refine ⟨?_, ?_, by simp [almostEqual, fpEqual], by simp [almostEqual, fpEqual]⟩
  · rcases RFl.cases a with rfl | ⟨s, rfl⟩ | ⟨x, rfl⟩ <;> simp [almostEqual, fpEqual, RFl.max]
  · rcases RFl.cases a with rfl | ⟨s, rfl⟩ | ⟨x, rfl⟩ <;> simp [almostEqual, fpEqual, RFl.max]

/-- C26 ("an infinity is never almost equal to a finite number") is false of the code: for every
positive tolerance an infinity is almost equal to *every* finite non-zero number, because the test
is `|∞ - q| <= tol * ∞`. -/
theorem C26_infinity_false (tol : ℚ) (ht : 0 < tol) (s : Bool) (q : ℚ) (hq : q ≠ 0) :
    almostEqual tol (RFl.inf s : RFl rnd) (RFl.fin q) = true := by
  simp [almostEqual, fpEqual, RFl.max, hq, RFl.mul_inf_pos false ht]

/-- C26: what "almost equal" guarantees, exactly and in binary64.  Exact arithmetic: the difference
is at most `tol·max(|a|, |b|)` or, near zero, at most `tol`.  Binary64: the same with the relative
bound inflated by at most `(1 + 2^-53)/(1 - 2^-53)`; conversely a difference of at most
`tol·max(|a|, |b|)` is accepted for non-tiny non-zero values. -/
theorem C26_bound_partial (tol a b : ℚ) (ht : 0 ≤ tol) :
    (almostEqual tol (RFl.fin a : RFl id) (RFl.fin b) = true →
      |a - b| ≤ tol ∨ |a - b| ≤ tol * max |a| |b|) ∧
    (almostEqual tol (RFl.fin a : F64) (RFl.fin b) = true →
      (1 - 1 / 2 ^ 53) * |a - b| ≤ max tol ((1 + 1 / 2 ^ 53) * (tol * max |a| |b|))) ∧
    (a ≠ 0 → b ≠ 0 → tol ≤ max |a| |b| → |a - b| ≤ tol * max |a| |b| →
      almostEqual tol (RFl.fin a : F64) (RFl.fin b) = true) := by
  refine ⟨fun h => ?_, fun h => ?_, fun ha hb hm h => ?_⟩
  · rcases (C26_finite tol a b).mp h with ⟨_, h⟩ | ⟨_, _, _, h⟩
    · exact Or.inl h
    · exact Or.inr h
  · have he := rnd64_err (a - b)
    have h1 : (1 - 1 / 2 ^ 53) * |a - b| ≤ |rnd64 (a - b)| := by
      have := abs_sub_abs_le_abs_sub (a - b) (rnd64 (a - b))
      rw [abs_sub_comm (a - b) (rnd64 (a - b))] at this
      linarith
    rcases (C26_finite tol a b).mp h with ⟨_, h⟩ | ⟨_, _, _, h⟩
    · exact le_max_of_le_left (h1.trans h)
    · refine le_max_of_le_right (h1.trans (h.trans ?_))
      have hnn : 0 ≤ tol * max |a| |b| := mul_nonneg ht (le_max_of_le_left (abs_nonneg a))
      have := rnd64_err (tol * max |a| |b|)
      rw [abs_of_nonneg hnn] at this
      have := (abs_le.mp this).2
      linarith
  · refine (C26_finite tol a b).mpr (Or.inr ⟨ha, hb, hm, ?_⟩)
    rw [abs_le] at h ⊢
    refine ⟨?_, rnd64_mono h.2⟩
    rw [← rnd64_neg]; exact rnd64_mono h.1

/-- C26: on arrays: same length and element-wise almost equal; on complex numbers: both parts. -/
theorem C26_arrays (tol : ℚ) (f g : List (RFl rnd)) (a b : RFl rnd × RFl rnd) :
    (almostEqualArr tol f g = true ↔ f.length = g.length ∧
      ∀ (i : ℕ) (x y : RFl rnd), f[i]? = some x → g[i]? = some y → almostEqual tol x y = true) ∧
    (almostEqualC tol a b = true ↔ almostEqual tol a.1 b.1 = true ∧ almostEqual tol a.2 b.2 = true) := by
  refine ⟨?_, by simp [almostEqualC, almostEqual]⟩
  unfold almostEqualArr
  induction f generalizing g with
  | nil => cases g <;> simp [stdEqual]
  | cons x xs ih =>
    cases g with
    | nil => simp [stdEqual]
    | cons y ys =>
      simp only [stdEqual, Bool.and_eq_true, ih, List.length_cons, Nat.add_right_cancel_iff]
      constructor
      · rintro ⟨h1, h2, h3⟩
        refine ⟨h2, fun i u v hu hv => ?_⟩
        cases i with
        | zero =>
          simp only [List.getElem?_cons_zero, Option.some.injEq] at hu hv
          subst hu hv; exact h1
        | succ i => exact h3 i u v (by simpa using hu) (by simpa using hv)
      · rintro ⟨h2, h3⟩
        exact ⟨h3 0 x y rfl rfl, h2, fun i u v hu hv => h3 (i + 1) u v (by simpa using hu)
          (by simpa using hv)⟩

/-- C26: the hypotheses hold of binary64, and the relation separates values: 1 and 1+2^-52 are not
almost equal at the default tolerance; 2 and 2-2^-52 are. -/
example : (rnd64 0 = 0) ∧ (∀ x, 0 ≤ x → 0 ≤ rnd64 x) ∧ (∀ x, rnd64 (-x) = -rnd64 x) ∧
    almostEqual tol64 (RFl.fin 1 : F64) (RFl.fin (1 + 1 / 2 ^ 52)) = false ∧
    almostEqual tol64 (RFl.fin 2 : F64) (RFl.fin (2 - 1 / 2 ^ 52)) = true :=
  ⟨rnd64_zero, fun x h => by have := rnd64_mono h; rwa [rnd64_zero] at this, rnd64_neg,
    by decide +kernel, by decide +kernel⟩

/-! ## C65 — lerp -/

theorem stdEqual_iff {α : Type*} (p : α → α → Bool) (f g : List α) :
    stdEqual p f g = true ↔
      f.length = g.length ∧ ∀ i (hf : i < f.length) (hg : i < g.length), p f[i] g[i] = true := by
  induction f generalizing g with
  | nil => cases g <;> simp [stdEqual]
  | cons x f ih =>
    cases g with
    | nil => simp [stdEqual]
    | cons y g =>
      simp only [stdEqual, Bool.and_eq_true, ih, List.length_cons, Nat.succ_inj]
      constructor
      · rintro ⟨h1, h2, h3⟩
        refine ⟨h2, fun i hf hg => ?_⟩
        cases i with
        | zero => exact h1
        | succ i => exact h3 i (by omega) (by omega)
      · rintro ⟨h2, h3⟩
        exact ⟨h3 0 (by omega) (by omega), h2, fun i hf hg => h3 (i + 1) (by omega) (by omega)⟩

/-- C26: `array_equal(a, b)` is true exactly when both arrays have the same length and equal elements. -/
theorem C26_array_equal {α : Type*} (eq : α → α → Bool) (f g : List α) :
    arrayEqual eq f g = true ↔
      f.length = g.length ∧ ∀ i (hf : i < f.length) (hg : i < g.length), eq f[i] g[i] = true := stdEqual_iff eq f g

/-- C26: with an exact `==`, `array_equal` is equality. -/
theorem C26_array_equal_exact {α : Type*} [DecidableEq α] (f g : List α) :
    arrayEqual (fun a b => decide (a = b)) f g = true ↔ f = g := by
  rw [C26_array_equal]
  constructor
  · rintro ⟨h, h'⟩
    exact List.ext_getElem h fun i h1 h2 => by simpa using h' i h1 h2
  · rintro rfl
    simp

example : arrayEqual (fun a b : ℕ => decide (a = b)) [1, 2, 3] [1, 2] = false := by decide

/-- C65: in exact arithmetic (any ordered field) every branch computes `a + t·(b - a)`; the end
points are exact, the value is monotone in `t` and stays between `a` and `b` for `t ∈ [0, 1]`. -/
theorem C65_lerp {K : Type*} [Field K] [LinearOrder K] [IsStrictOrderedRing K] (a b : K) :
    (∀ t, lerp a b t = a + t * (b - a)) ∧ lerp a b 0 = a ∧ lerp a b 1 = b ∧
    (a ≤ b → ∀ s t, s ≤ t → lerp a b s ≤ lerp a b t) ∧
    (b ≤ a → ∀ s t, s ≤ t → lerp a b t ≤ lerp a b s) ∧
    (∀ t, 0 ≤ t → t ≤ 1 → min a b ≤ lerp a b t ∧ lerp a b t ≤ max a b) := by
  refine ⟨lerp_eq a b, by rw [lerp_eq]; ring, by rw [lerp_eq]; ring, fun h s t hst => ?_,
    fun h s t hst => ?_, fun t h0 h1 => ?_⟩
  · rw [lerp_eq, lerp_eq]
    have := mul_le_mul_of_nonneg_right hst (sub_nonneg.mpr h)
    linarith
  · rw [lerp_eq, lerp_eq]
    have := mul_le_mul_of_nonneg_right hst (sub_nonneg.mpr h)
    linarith
  · rw [lerp_eq]
    rcases le_total a b with h | h
    · rw [min_eq_left h, max_eq_right h]
      have e1 := mul_nonneg h0 (sub_nonneg.mpr h)
      have e2 := mul_le_mul_of_nonneg_right h1 (sub_nonneg.mpr h)
      constructor <;> linarith
    · rw [min_eq_right h, max_eq_left h]
      have e1 := mul_nonneg h0 (sub_nonneg.mpr h)
      have e2 := mul_le_mul_of_nonneg_right h1 (sub_nonneg.mpr h)
      constructor <;> linarith

/-- The finite case of `lerpF`. -/
def lerpR (rnd : ℚ → ℚ) (a b t : ℚ) : ℚ :=
  if (a ≤ 0 ∧ 0 ≤ b) ∨ (0 ≤ a ∧ b ≤ 0) then rnd (rnd (t * b) + rnd (rnd (1 - t) * a))
  else if t = 1 then b
  else if (1 < t ↔ a < b) then max b (rnd (a + rnd (t * rnd (b - a))))
  else min b (rnd (a + rnd (t * rnd (b - a))))

theorem lerpF_fin (a b t : ℚ) :
    lerpF (RFl.fin a : RFl rnd) (RFl.fin b) (RFl.fin t) = RFl.fin (lerpR rnd a b t) := by
  unfold lerpF lerpR
  simp only [RFl.le_fin, RFl.lt_fin, RFl.eqv_fin, RFl.sub_fin, RFl.mul_fin, RFl.add_fin]
  by_cases h1 : (a ≤ 0 ∧ 0 ≤ b) ∨ (0 ≤ a ∧ b ≤ 0)
  · rw [if_pos (by simpa using h1), if_pos h1]
  · rw [if_neg (by simpa using h1), if_neg h1]
    by_cases h2 : t = 1
    · simp [h2]
    · rw [if_neg (by simpa using h2), if_neg h2]
      by_cases h3 : (1 < t ↔ a < b)
      · rw [if_pos (by simpa using h3), if_pos h3]
        by_cases h4 : b < rnd (a + rnd (t * rnd (b - a)))
        · rw [if_pos (by simpa using h4), max_eq_right h4.le]
        · rw [if_neg (by simpa using h4), max_eq_left (not_lt.mp h4)]
      · rw [if_neg (by simpa using h3), if_neg h3]
        by_cases h4 : rnd (a + rnd (t * rnd (b - a))) < b
        · rw [if_pos (by simpa using h4), min_eq_right h4.le]
        · rw [if_neg (by simpa using h4), min_eq_left (not_lt.mp h4)]

theorem lerpR_mono (hmono : ∀ x y, x ≤ y → rnd x ≤ rnd y) (h0 : rnd 0 = 0) (a b : ℚ)
    (ha : rnd a = a) (hab : a ≤ b)
    (s t : ℚ) (hst : s ≤ t) : lerpR rnd a b s ≤ lerpR rnd a b t := by
  unfold lerpR
  by_cases h1 : (a ≤ 0 ∧ 0 ≤ b) ∨ (0 ≤ a ∧ b ≤ 0)
  · rw [if_pos h1, if_pos h1]
    have ha0 : a ≤ 0 := by rcases h1 with h | h <;> linarith [h.1, h.2]
    have hb : 0 ≤ b := by rcases h1 with h | h <;> linarith [h.1, h.2]
    apply hmono
    have e1 := hmono _ _ (mul_le_mul_of_nonneg_right hst hb)
    have e2 := hmono _ _ (mul_le_mul_of_nonpos_right (hmono (1 - t) (1 - s) (by linarith)) ha0)
    linarith
  · rw [if_neg h1, if_neg h1]
    have hd : 0 ≤ rnd (b - a) := by rw [← h0]; exact hmono _ _ (by linarith)
    have hx : rnd (a + rnd (s * rnd (b - a))) ≤ rnd (a + rnd (t * rnd (b - a))) := by
      apply hmono
      have := hmono _ _ (mul_le_mul_of_nonneg_right hst hd)
      linarith
    rcases hab.lt_or_eq with hlt | rfl
    · simp only [hlt, iff_true]
      rcases lt_trichotomy s 1 with hs | hs | hs <;> rcases lt_trichotomy t 1 with ht | ht | ht
      · rw [if_neg hs.ne, if_neg (not_lt.mpr hs.le), if_neg ht.ne, if_neg (not_lt.mpr ht.le)]
        exact min_le_min le_rfl hx
      · rw [if_neg hs.ne, if_neg (not_lt.mpr hs.le), if_pos ht]
        exact min_le_left _ _
      · rw [if_neg hs.ne, if_neg (not_lt.mpr hs.le), if_neg ht.ne', if_pos ht]
        exact (min_le_left _ _).trans (le_max_left _ _)
      · linarith
      · rw [if_pos hs, if_pos ht]
      · rw [if_pos hs, if_neg ht.ne', if_pos ht]
        exact le_max_left _ _
      · linarith
      · linarith
      · rw [if_neg hs.ne', if_pos hs, if_neg ht.ne', if_pos ht]
        exact max_le_max le_rfl hx
    · simp only [sub_self, h0, mul_zero, add_zero, ha, max_self, min_self, ite_self, le_refl]

theorem lerpR_anti (hmono : ∀ x y, x ≤ y → rnd x ≤ rnd y) (h0 : rnd 0 = 0) (a b : ℚ)
    (hab : b < a) (s t : ℚ) (hst : s ≤ t) : lerpR rnd a b t ≤ lerpR rnd a b s := by
  unfold lerpR
  by_cases h1 : (a ≤ 0 ∧ 0 ≤ b) ∨ (0 ≤ a ∧ b ≤ 0)
  · rw [if_pos h1, if_pos h1]
    have ha0 : 0 ≤ a := by rcases h1 with h | h <;> linarith [h.1, h.2]
    have hb : b ≤ 0 := by rcases h1 with h | h <;> linarith [h.1, h.2]
    apply hmono
    have e1 := hmono _ _ (mul_le_mul_of_nonpos_right hst hb)
    have e2 := hmono _ _ (mul_le_mul_of_nonneg_right (hmono (1 - t) (1 - s) (by linarith)) ha0)
    linarith
  · rw [if_neg h1, if_neg h1]
    have hd : rnd (b - a) ≤ 0 := by rw [← h0]; exact hmono _ _ (by linarith)
    have hx : rnd (a + rnd (t * rnd (b - a))) ≤ rnd (a + rnd (s * rnd (b - a))) := by
      apply hmono
      have := hmono _ _ (mul_le_mul_of_nonpos_right hst hd)
      linarith
    simp only [not_lt.mpr hab.le, iff_false, not_lt]
    rcases lt_trichotomy s 1 with hs | hs | hs <;> rcases lt_trichotomy t 1 with ht | ht | ht
    · rw [if_neg hs.ne, if_pos hs.le, if_neg ht.ne, if_pos ht.le]
      exact max_le_max le_rfl hx
    · rw [if_neg hs.ne, if_pos hs.le, if_pos ht]
      exact le_max_left _ _
    · rw [if_neg hs.ne, if_pos hs.le, if_neg ht.ne', if_neg (not_le.mpr ht)]
      exact (min_le_left _ _).trans (le_max_left _ _)
    · linarith
    · rw [if_pos hs, if_pos ht]
    · rw [if_pos hs, if_neg ht.ne', if_neg (not_le.mpr ht)]
      exact min_le_left _ _
    · linarith
    · linarith
    · rw [if_neg hs.ne', if_neg (not_le.mpr hs), if_neg ht.ne', if_neg (not_le.mpr ht)]
      exact min_le_min le_rfl hx

theorem lerpR_ends (h0 : rnd 0 = 0) (h1' : rnd 1 = 1) (a b : ℚ) (ha : rnd a = a)
    (hb : rnd b = b) : lerpR rnd a b 0 = a ∧ lerpR rnd a b 1 = b := by
  unfold lerpR
  constructor
  · by_cases h1 : (a ≤ 0 ∧ 0 ≤ b) ∨ (0 ≤ a ∧ b ≤ 0)
    · rw [if_pos h1]; simp [h0, h1', ha]
    · rw [if_neg h1]
      simp only [zero_mul, h0, add_zero, ha]
      have : ¬ (1 : ℚ) < 0 := by norm_num
      rw [if_neg (by norm_num)]
      by_cases hab : a < b
      · simp [this, hab, hab.le]
      · simp [this, hab, not_lt.mp hab]
  · by_cases h1 : (a ≤ 0 ∧ 0 ≤ b) ∨ (0 ≤ a ∧ b ≤ 0)
    · rw [if_pos h1]; simp [h0, hb]
    · rw [if_neg h1]; simp

/-- C65 in rounded arithmetic (any monotone rounding exact at 0 and 1, e.g. binary64; `a` and `b`
representable): despite the roundings, the end points are exact, the result is monotone in `t` over
all `t`, and it stays between `a` and `b` for `t ∈ [0, 1]`. -/
theorem C65_rounded (hmono : ∀ x y, x ≤ y → rnd x ≤ rnd y) (h0 : rnd 0 = 0) (h1 : rnd 1 = 1)
    (a b : ℚ) (ha : rnd a = a) (hb : rnd b = b) :
    ∃ f : ℚ → ℚ, (∀ t, lerpF (RFl.fin a : RFl rnd) (RFl.fin b) (RFl.fin t) = RFl.fin (f t)) ∧
      f 0 = a ∧ f 1 = b ∧
      (a ≤ b → ∀ s t, s ≤ t → f s ≤ f t) ∧ (b ≤ a → ∀ s t, s ≤ t → f t ≤ f s) ∧
      (∀ t, 0 ≤ t → t ≤ 1 → min a b ≤ f t ∧ f t ≤ max a b) := by
  obtain ⟨e0, e1⟩ := lerpR_ends h0 h1 a b ha hb
  have hm : a ≤ b → ∀ s t, s ≤ t → lerpR rnd a b s ≤ lerpR rnd a b t :=
    fun hab s t => lerpR_mono hmono h0 a b ha hab s t
  have han : b ≤ a → ∀ s t, s ≤ t → lerpR rnd a b t ≤ lerpR rnd a b s := by
    intro hab s t hst
    rcases hab.lt_or_eq with h | rfl
    · exact lerpR_anti hmono h0 a b h s t hst
    · unfold lerpR
      by_cases c : (b ≤ 0 ∧ 0 ≤ b) ∨ (0 ≤ b ∧ b ≤ 0)
      · have hz : b = 0 := by rcases c with h | h <;> linarith [h.1, h.2]
        subst hz; simp [h0]
      · simp only [if_neg c, sub_self, h0, mul_zero, add_zero, ha, max_self, min_self, ite_self,
          le_refl]
  refine ⟨lerpR rnd a b, lerpF_fin a b, e0, e1, hm, han, fun t ht0 ht1 => ?_⟩
  rcases le_total a b with h | h
  · rw [min_eq_left h, max_eq_right h]
    exact ⟨by simpa [e0] using hm h 0 t ht0, by simpa [e1] using hm h t 1 ht1⟩
  · rw [min_eq_right h, max_eq_left h]
    exact ⟨by simpa [e1] using han h t 1 ht1, by simpa [e0] using han h 0 t ht0⟩

/-- C65: binary64 satisfies the hypotheses for, e.g., `a = 1/8`, `b = 3`. -/
example : (∀ x y, x ≤ y → rnd64 x ≤ rnd64 y) ∧ rnd64 0 = 0 ∧ rnd64 1 = 1 ∧
    rnd64 (1 / 8) = 1 / 8 ∧ rnd64 3 = 3 :=
  ⟨fun _ _ => rnd64_mono, rnd64_zero, by decide +kernel, by decide +kernel, by decide +kernel⟩

end SciCpp
