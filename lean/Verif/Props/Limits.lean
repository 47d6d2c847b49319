import Verif.Model.Limits
import Verif.Props.QFloat
/-
  Property theorems C107: the numeric limits of quantities.
-/
namespace SciCpp
open Spec

namespace Spec

/-- A finite number of the format. -/
def Finite (f : Fmt) (x : ℚ) : Prop := f.rnd x = x ∧ |x| < (2 : ℚ) ^ f.emax

end Spec

variable {f : Fmt}

theorem Spec.Finite.form {x : ℚ} (hx : Finite f x) (h0 : x ≠ 0) :
    ∃ n : ℤ, x = (n : ℚ) * (2 : ℚ) ^ (max (expo x) f.emin - (f.frac : ℤ)) := by
  have h := hx.1
  unfold Fmt.rnd at h
  rw [if_neg h0] at h
  refine ⟨nearestEven (x * (2 : ℚ) ^ ((f.frac : ℤ) - max (expo x) f.emin)), ?_⟩
  conv_lhs => rw [← h]
  simp only
  rw [div_eq_mul_inv, ← zpow_neg]
  congr 2
  ring

theorem Spec.Finite.neg {x : ℚ} (hx : Finite f x) : Finite f (-x) :=
  ⟨by rw [f.rnd_neg, hx.1], by rw [abs_neg]; exact hx.2⟩

theorem finite_le_max (hf : StdFmt f) {x : ℚ} (hx : Finite f x) : |x| ≤ f.maxVal := by
  have hlow := hf.low
  have hhigh := hf.high
  have two : (1 : ℚ) ≤ 2 := by norm_num
  have hp : (0 : ℚ) < (2 : ℚ) ^ (f.emax - 1 - f.frac) := by positivity
  by_cases h0 : x = 0
  · rw [h0, abs_zero]
    have : (1 : ℚ) ≤ (2 : ℚ) ^ (f.frac + 1) := one_le_pow₀ two
    exact mul_nonneg (by linarith) hp.le
  obtain ⟨n, hn⟩ := hx.form h0
  obtain ⟨e1, e2⟩ := expo_spec h0
  have hE : expo x < f.emax := by
    by_contra hc
    have := zpow_le_zpow_right₀ two (not_lt.1 hc)
    linarith [hx.2]
  set E := max (expo x) f.emin with hEdef
  have hE' : E ≤ f.emax - 1 := by omega
  rcases lt_or_eq_of_le hE' with h | h
  · have h1 : |x| < (2 : ℚ) ^ (f.emax - 1) := lt_of_lt_of_le e2 (zpow_le_zpow_right₀ two (by omega))
    refine h1.le.trans ?_
    unfold Fmt.maxVal
    have h2 : (2 : ℚ) ^ (f.emax - 1) = (2 : ℚ) ^ f.frac * (2 : ℚ) ^ (f.emax - 1 - f.frac) := by
      rw [← zpow_natCast, ← zpow_add₀ two_ne_zero]; congr 1; ring
    rw [h2]
    refine mul_le_mul_of_nonneg_right ?_ hp.le
    have : (1 : ℚ) ≤ (2 : ℚ) ^ f.frac := one_le_pow₀ two
    rw [pow_succ]; linarith
  · rw [h] at hn
    have h2 := hx.2
    unfold Fmt.maxVal
    rw [hn, abs_mul, abs_of_pos hp] at h2 ⊢
    refine mul_le_mul_of_nonneg_right ?_ hp.le
    have h3 : (2 : ℚ) ^ f.emax = (2 : ℚ) ^ (f.frac + 1) * (2 : ℚ) ^ (f.emax - 1 - f.frac) := by
      rw [← zpow_natCast, ← zpow_add₀ two_ne_zero]; congr 1; push_cast; ring
    rw [h3] at h2
    have h4 : |(n : ℚ)| < (2 : ℚ) ^ (f.frac + 1) := lt_of_mul_lt_mul_right h2 hp.le
    have h5 : |n| < 2 ^ (f.frac + 1) := by exact_mod_cast h4
    have h6 : |n| ≤ 2 ^ (f.frac + 1) - 1 := by omega
    exact_mod_cast h6

theorem finite_max (hf : StdFmt f) : Finite f f.maxVal := by
  have hlow := hf.low
  have hhigh := hf.high
  have hp : (0 : ℚ) < (2 : ℚ) ^ (f.emax - 1 - f.frac) := by positivity
  have h1 : (1 : ℚ) ≤ (2 : ℚ) ^ (f.frac + 1) := one_le_pow₀ (by norm_num)
  have e : f.maxVal = (((2 ^ (f.frac + 1) - 1 : ℤ)) : ℚ) * (2 : ℚ) ^ (f.emax - 1 - f.frac) := by
    unfold Fmt.maxVal; push_cast; rfl
  refine ⟨?_, ?_⟩
  · rw [e]
    refine f.rnd_exact _ _ (by omega) ?_
    have : (1 : ℤ) ≤ 2 ^ (f.frac + 1) := one_le_pow₀ (by norm_num)
    rw [abs_of_nonneg (by omega)]
    omega
  · unfold Fmt.maxVal
    rw [abs_of_nonneg (mul_nonneg (by linarith) hp.le)]
    have h3 : (2 : ℚ) ^ f.emax = (2 : ℚ) ^ (f.frac + 1) * (2 : ℚ) ^ (f.emax - 1 - f.frac) := by
      rw [← zpow_natCast, ← zpow_add₀ two_ne_zero]; congr 1; push_cast; ring
    rw [h3]
    exact mul_lt_mul_of_pos_right (by linarith) hp

theorem finite_zpow (e : ℤ) (h1 : f.emin - f.frac ≤ e) (h2 : e < f.emax) :
    Finite f ((2 : ℚ) ^ e) := by
  refine ⟨?_, ?_⟩
  · have := f.rnd_exact 1 e h1 (by rw [abs_one]; exact one_le_pow₀ (by norm_num))
    simpa using this
  · rw [abs_of_pos (by positivity)]
    exact zpow_lt_zpow_right₀ (by norm_num) h2

/-- C107, values: the limits are numbers of the format, and they are the extreme ones: the greatest and the
lowest finite number, the least positive one, the least positive normal one, and the distance from one to the
next number. -/
theorem C107_values (hf : StdFmt f) (hfr : 1 ≤ f.frac) :
    (Finite f f.maxVal ∧ Finite f f.minVal ∧ Finite f f.denormVal ∧ Finite f (1 + f.epsVal)) ∧
    (0 < f.denormVal ∧ 0 < f.epsVal) ∧
    ∀ x, Finite f x →
      (-f.maxVal ≤ x ∧ x ≤ f.maxVal) ∧ (0 < x → f.denormVal ≤ x) ∧
      (0 < x → f.emin ≤ expo x → f.minVal ≤ x) ∧ (1 < x → 1 + f.epsVal ≤ x) := by
  have hlow := hf.low
  have hhigh := hf.high
  refine ⟨⟨finite_max hf, finite_zpow _ (by omega) (by omega), finite_zpow _ (by omega) (by omega), ?_⟩,
    ⟨by unfold Fmt.denormVal; positivity, by unfold Fmt.epsVal; positivity⟩, ?_⟩
  · have e : 1 + f.epsVal = ((2 ^ f.frac + 1 : ℤ) : ℚ) * (2 : ℚ) ^ (-(f.frac : ℤ)) := by
      unfold Fmt.epsVal
      push_cast
      rw [add_mul, one_mul, ← zpow_natCast, ← zpow_add₀ two_ne_zero]
      simp
    have hp : (1 : ℤ) ≤ 2 ^ f.frac := one_le_pow₀ (by norm_num)
    refine ⟨?_, ?_⟩
    · rw [e]
      refine f.rnd_exact _ _ (by omega) ?_
      rw [abs_of_nonneg (by omega), pow_succ]
      omega
    · have h1 : f.epsVal ≤ 1 := by
        unfold Fmt.epsVal
        exact zpow_le_one_of_nonpos₀ (by norm_num) (by omega)
      have h2 : 0 < f.epsVal := by unfold Fmt.epsVal; positivity
      rw [abs_of_pos (by linarith)]
      have h3 : f.epsVal ≤ 1 / 2 := by
        unfold Fmt.epsVal
        have := zpow_le_zpow_right₀ (show (1 : ℚ) ≤ 2 by norm_num) (show -(f.frac : ℤ) ≤ -1 by omega)
        rw [zpow_neg_one] at this
        linarith
      have h4 : (2 : ℚ) ^ (1 : ℤ) ≤ (2 : ℚ) ^ f.emax := zpow_le_zpow_right₀ (by norm_num) (by omega)
      rw [zpow_one] at h4
      linarith
  · intro x hx
    have hm := abs_le.1 (finite_le_max hf hx)
    refine ⟨hm, fun h0 => ?_, fun h0 he => ?_, fun h1 => ?_⟩
    · obtain ⟨n, hn⟩ := hx.form h0.ne'
      have hp : (0 : ℚ) < (2 : ℚ) ^ (max (expo x) f.emin - (f.frac : ℤ)) := by positivity
      have hn0 : 0 < n := by
        by_contra hc
        have : (n : ℚ) ≤ 0 := by exact_mod_cast not_lt.1 hc
        have := mul_nonpos_of_nonpos_of_nonneg this hp.le
        rw [← hn] at this; linarith
      have hn1 : (1 : ℚ) ≤ n := by exact_mod_cast hn0
      have h2 : (2 : ℚ) ^ (f.emin - (f.frac : ℤ)) ≤ (2 : ℚ) ^ (max (expo x) f.emin - (f.frac : ℤ)) :=
        zpow_le_zpow_right₀ (by norm_num) (by omega)
      unfold Fmt.denormVal
      rw [hn]
      nlinarith
    · have h2 := (expo_spec h0.ne').1
      rw [abs_of_pos h0] at h2
      exact (zpow_le_zpow_right₀ (by norm_num) he).trans h2
    · by_contra hc
      have h0 : 0 < x := by linarith
      have hlt := not_le.1 hc
      have heps : f.epsVal ≤ 1 := by
        unfold Fmt.epsVal
        exact zpow_le_one_of_nonpos₀ (by norm_num) (by omega)
      obtain ⟨e1, e2⟩ := expo_spec h0.ne'
      rw [abs_of_pos h0] at e1 e2
      have hE : expo x = 0 := by
        have a1 : expo x < 1 := by
          by_contra hh
          have := zpow_le_zpow_right₀ (show (1 : ℚ) ≤ 2 by norm_num) (not_lt.1 hh)
          rw [zpow_one] at this
          linarith
        have a2 : -1 < expo x := by
          by_contra hh
          have := zpow_le_zpow_right₀ (show (1 : ℚ) ≤ 2 by norm_num) (show expo x + 1 ≤ 0 by omega)
          rw [zpow_zero] at this
          linarith
        omega
      obtain ⟨n, hn⟩ := hx.form h0.ne'
      rw [hE, show max 0 f.emin - (f.frac : ℤ) = -(f.frac : ℤ) by omega] at hn
      have hp : (0 : ℚ) < (2 : ℚ) ^ (-(f.frac : ℤ)) := by positivity
      have h1' : (2 : ℚ) ^ f.frac * (2 : ℚ) ^ (-(f.frac : ℤ)) = 1 := by
        rw [← zpow_natCast, ← zpow_add₀ two_ne_zero]; simp
      rw [hn, ← h1'] at h1
      rw [hn] at hlt
      unfold Fmt.epsVal at hlt
      have g1 : (2 : ℚ) ^ f.frac < n := lt_of_mul_lt_mul_right h1 hp.le
      have g2 : (n : ℚ) < (2 : ℚ) ^ f.frac + 1 := by
        refine lt_of_mul_lt_mul_right (a := (2 : ℚ) ^ (-(f.frac : ℤ))) ?_ hp.le
        rw [add_mul, h1', one_mul]; exact hlt
      have g1' : (2 : ℤ) ^ f.frac < n := by exact_mod_cast g1
      have g2' : n < (2 : ℤ) ^ f.frac + 1 := by exact_mod_cast g2
      omega

/-- A unit whose own comparison scale is exactly representable. -/
structure Spec.OwnUnit (f : Fmt) (t : QTy) : Prop extends PlainUnit t where
  small : t.scal.num * t.scal.den < 2 ^ (f.frac + 1)

theorem amount_le_own (t : QTy) {x y : ℚ} (h : x ≤ y) : amount t x ≤ amount t y := by
  unfold amount
  have : (0 : ℚ) ≤ (t.scal.num : ℚ) / t.scal.den := by positivity
  have := mul_le_mul_of_nonneg_left h this
  linarith

/-- C107, extremes: no finite quantity is below `lowest()` or above `max()`, and no positive one is below
`denorm_min()`. -/
theorem C107_extremes (hf : StdFmt f) (hfr : 1 ≤ f.frac) (t : QTy) (ht : OwnUnit f t) (x : ℚ) (hx : Finite f x) :
    qfGe IFl.lt (⟨t, IFl.fin x⟩ : Qty (IFl f)) (limLowest t) = true ∧
    qfLt IFl.lt (⟨t, IFl.fin x⟩ : Qty (IFl f)) (limLowest t) = false ∧
    qfLe IFl.lt (⟨t, IFl.fin x⟩ : Qty (IFl f)) (limMax t) = true ∧
    qfGt IFl.lt (⟨t, IFl.fin x⟩ : Qty (IFl f)) (limMax t) = false ∧
    (0 < x → qfLe IFl.lt (limDenorm t) (⟨t, IFl.fin x⟩ : Qty (IFl f)) = true) ∧
    (0 < x → f.emin ≤ expo x → qfLe IFl.lt (limMin t) (⟨t, IFl.fin x⟩ : Qty (IFl f)) = true) ∧
    (1 < x → qfLe IFl.lt (⟨t, IFl.fin (1 + f.epsVal)⟩ : Qty (IFl f)) ⟨t, IFl.fin x⟩ = true) := by
  have hs : SmallPair f t t := ⟨ht.small, ht.small⟩
  have hp := ht.toPlainUnit
  obtain ⟨-, -, h⟩ := C107_values hf hfr
  obtain ⟨⟨h1, h2⟩, h3, h4, h5⟩ := h x hx
  have le : ∀ a b : ℚ, a ≤ b → qfLe IFl.lt (⟨t, IFl.fin a⟩ : Qty (IFl f)) ⟨t, IFl.fin b⟩ = true := fun a b hab =>
    (C100_compare hf t t hp hp hs a b).2.2.1 (amount_le_own t hab)
  have no : ∀ p q : Qty (IFl f), qfLe IFl.lt p q = true → qfLt IFl.lt q p = false := fun p q hq => by
    unfold qfLe at hq
    simpa using hq
  refine ⟨le _ _ h1, no _ _ (le _ _ h1), le _ _ h2, no _ _ (le _ _ h2), fun h => le _ _ (h3 h),
    fun a b => le _ _ (h4 a b), fun h => le _ _ (h5 h)⟩

theorem qSide_inf (hf : StdFmt f) (t : QTy) (ht : OwnUnit f t) :
    qSide t t (IFl.inf false : IFl f) = IFl.inf false := by
  rw [qSide_plain hf t t ht.off ht.off ht.small]
  have h : (0 : ℚ) < ((t.scal.num * t.scal.den : ℕ) : ℚ) := by
    have := Nat.mul_pos ht.num_pos ht.den_pos
    exact_mod_cast this
  show f.round (Fl.mul (.fin ((t.scal.num * t.scal.den : ℕ) : ℚ)) (.inf false)) = .inf false
  simp only [Fl.mul, if_neg h.ne', Fmt.round, h.not_gt, decide_false]
  rfl

/-- C107, infinity: no finite quantity is above `infinity()`, and exactly the quantities whose comparison
scale does not overflow are below it. -/
theorem C107_infinity_partial (hf : StdFmt f) (t : QTy) (ht : OwnUnit f t) (x : ℚ) :
    qfGt IFl.lt (⟨t, IFl.fin x⟩ : Qty (IFl f)) (limInf t) = false ∧
    qfLe IFl.lt (⟨t, IFl.fin x⟩ : Qty (IFl f)) (limInf t) = true ∧
    (qfLt IFl.lt (⟨t, IFl.fin x⟩ : Qty (IFl f)) (limInf t) = true ↔
      f.rnd (((t.scal.num * t.scal.den : ℕ) : ℚ) * x) < (2 : ℚ) ^ f.emax) := by
  have e := qSide_inf hf t ht
  have e2 := qSide_fin hf t t ht.off ht.off ht.small x
  have l1 : qfLt IFl.lt (limInf t : Qty (IFl f)) ⟨t, IFl.fin x⟩ = false := by
    show IFl.lt (qSide t t (IFl.inf false : IFl f)) (qSide t t (IFl.fin x : IFl f)) = false
    rw [e, e2]
    unfold Fmt.ofRat
    split_ifs <;> simp [IFl.inf, IFl.lt, Fl.lt]
  refine ⟨l1, by unfold qfLe; rw [l1]; rfl, ?_⟩
  show IFl.lt (qSide t t (IFl.fin x : IFl f)) (qSide t t (IFl.inf false : IFl f)) = true ↔ _
  rw [e, e2]
  set q := ((t.scal.num * t.scal.den : ℕ) : ℚ) * x
  have hpow : (0 : ℚ) < (2 : ℚ) ^ f.emax := by positivity
  unfold Fmt.ofRat
  split_ifs with h
  · by_cases hq : q < 0
    · have h0 : f.rnd q ≤ 0 := by
        have := f.rnd_mono hq.le
        rwa [f.rnd_zero] at this
      simp only [hq, decide_true]
      exact iff_of_true rfl (by linarith)
    · have h0 : 0 ≤ f.rnd q := f.rnd_nonneg (not_lt.1 hq)
      rw [abs_of_nonneg h0] at h
      simp only [hq, decide_false]
      exact iff_of_false (by simp [IFl.lt, IFl.inf, Fl.lt]) (by linarith)
  · exact iff_of_true rfl (lt_of_abs_lt (not_le.1 h))

/-- C107: in the base unit `infinity()` is above every finite quantity. -/
theorem C107_infinity (hf : StdFmt f) (t : QTy) (ht : OwnUnit f t) (h1 : t.scal.num = 1) (h2 : t.scal.den = 1)
    (x : ℚ) (hx : Finite f x) :
    qfLt IFl.lt (⟨t, IFl.fin x⟩ : Qty (IFl f)) (limInf t) = true ∧
    qfEq IFl.eqv (⟨t, IFl.fin x⟩ : Qty (IFl f)) (limInf t) = false := by
  have e2 := qSide_fin hf t t ht.off ht.off ht.small x
  rw [h1, h2, Nat.mul_one, Nat.cast_one, one_mul, f.ofRat_fin (by rw [hx.1]; exact hx.2), hx.1] at e2
  refine ⟨(C107_infinity_partial hf t ht x).2.2.2 ?_, ?_⟩
  · rw [h1, h2, Nat.mul_one, Nat.cast_one, one_mul, hx.1]
    exact lt_of_abs_lt hx.2
  · show IFl.eqv (qSide t t (IFl.fin x : IFl f)) (qSide t t (IFl.inf false : IFl f)) = false
    rw [e2, qSide_inf hf t ht]
    rfl

theorem qSide_nan (a b : QTy) : qSide a b (IFl.nan : IFl f) = IFl.nan := by
  unfold qSide
  generalize (CppNum.ofInt ((a.scal.num * b.scal.den * a.off.den * b.off.den : ℕ) : ℤ) : IFl f) = u
  generalize (CppNum.ofInt (a.off.num * ((b.scal.den * a.scal.den * b.off.den : ℕ) : ℤ)) : IFl f) = v
  show f.round (Fl.add (f.round (Fl.mul u .nan)) v) = .nan
  cases u <;> cases v <;> rfl

/-- C107: `quiet_NaN()` of any unit equals nothing and is ordered with nothing, whatever the other unit is. -/
theorem C107_nan (t : QTy) (q : Qty (IFl f)) :
    qfEq IFl.eqv (limNaN t) q = false ∧ qfEq IFl.eqv q (limNaN t) = false ∧
    qfNe IFl.eqv (limNaN t : Qty (IFl f)) (limNaN t) = true ∧
    qfLt IFl.lt (limNaN t) q = false ∧ qfLt IFl.lt q (limNaN t) = false ∧
    qfGt IFl.lt (limNaN t) q = false ∧ qfGt IFl.lt q (limNaN t) = false := by
  have l : ∀ v : IFl f, IFl.eqv IFl.nan v = false ∧ IFl.eqv v IFl.nan = false ∧ IFl.lt IFl.nan v = false ∧
      IFl.lt v IFl.nan = false := by
    intro v; cases v <;> simp [IFl.eqv, IFl.lt, IFl.nan, Fl.eqv, Fl.lt]
  have e1 : qSide t q.ty (limNaN t : Qty (IFl f)).val = IFl.nan := qSide_nan t q.ty
  have e2 : qSide t t (limNaN t : Qty (IFl f)).val = IFl.nan := qSide_nan t t
  have a1 : qfEq IFl.eqv (limNaN t) q = false := by
    show IFl.eqv (qSide t q.ty (limNaN t : Qty (IFl f)).val) _ = false
    rw [e1]; exact (l _).1
  have a2 : qfEq IFl.eqv q (limNaN t) = false := by
    show IFl.eqv _ (qSide t q.ty (limNaN t : Qty (IFl f)).val) = false
    rw [e1]; exact (l _).2.1
  have a3 : qfLt IFl.lt (limNaN t) q = false := by
    show IFl.lt (qSide t q.ty (limNaN t : Qty (IFl f)).val) _ = false
    rw [e1]; exact (l _).2.2.1
  have a4 : qfLt IFl.lt q (limNaN t) = false := by
    show IFl.lt _ (qSide t q.ty (limNaN t : Qty (IFl f)).val) = false
    rw [e1]; exact (l _).2.2.2
  refine ⟨a1, a2, ?_, a3, a4, a4, a3⟩
  show (!IFl.eqv (qSide t t (limNaN t : Qty (IFl f)).val) (qSide t t (limNaN t : Qty (IFl f)).val)) = true
  rw [e2]; rfl

/-- C107, round_error: half, in every unit; and the value of `lowest()` is minus that of `max()`. -/
theorem C107_own (t : QTy) :
    (limRoundError t : Qty (IFl f)).val = IFl.fin (1 / 2) ∧ (limRoundError t : Qty (IFl f)).ty = t ∧
    (limEps t : Qty (IFl f)).ty = t ∧ (limMax t : Qty (IFl f)).ty = t ∧ (limLowest t : Qty (IFl f)).ty = t ∧
    (limMin t : Qty (IFl f)).ty = t ∧ (limInf t : Qty (IFl f)).ty = t ∧ (limNaN t : Qty (IFl f)).ty = t ∧
    (limDenorm t : Qty (IFl f)).ty = t ∧ (limEps t : Qty (IFl f)).val = IFl.fin f.epsVal ∧
    (limLowest t : Qty (IFl f)).val = -(limMax t : Qty (IFl f)).val := by
  exact ⟨rfl, rfl, rfl, rfl, rfl, rfl, rfl, rfl, rfl, rfl, rfl⟩

/-- C107 is false for other units: in kilometres the comparison multiplies both sides by 1000, so `max()`
compares equal to `infinity()`. -/
theorem C107_infinity_false :
    let km : QTy := ⟨⟨2, 1, 1⟩, ⟨1000, 1, 1⟩, 0⟩
    OwnUnit binary64 km ∧ Finite binary64 binary64.maxVal ∧
    qfEq IFl.eqv (limMax km : Qty D64) (limInf km) = true ∧
    qfLt IFl.lt (limMax km : Qty D64) (limInf km) = false := by
  intro km
  refine ⟨⟨⟨by decide, by decide, rfl, rfl⟩, by decide⟩, finite_max stdFmt_64, ?_, ?_⟩ <;> decide +kernel

end SciCpp
