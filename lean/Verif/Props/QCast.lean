import Verif.Props.QFloat
/-
  C101: unit conversion and addition of quantities in floating point arithmetic.
-/
namespace SciCpp

open Spec

namespace Spec

/-- How many units `b` make one unit `a` (plain scales). -/
def ratio (a b : QTy) : ℚ := ((a.scal.num : ℚ) / a.scal.den) / ((b.scal.num : ℚ) / b.scal.den)

end Spec

variable {f : Fmt}

/-- The relative rounding error of a number that is not subnormal. -/
theorem Fmt.rnd_err_norm (f : Fmt) {q : ℚ} (hq : (2 : ℚ) ^ f.emin ≤ |q|) : |f.rnd q - q| ≤ f.u * |q| := by
  have h0 : q ≠ 0 := by
    rintro rfl
    rw [abs_zero] at hq
    have : (0 : ℚ) < (2 : ℚ) ^ f.emin := by positivity
    linarith
  obtain ⟨h1, h2⟩ := expo_spec h0
  have he : f.emin < expo q + 1 :=
    (zpow_lt_zpow_iff_right₀ (by norm_num : (1 : ℚ) < 2)).mp (lt_of_le_of_lt hq h2)
  unfold Fmt.rnd
  rw [if_neg h0]
  simp only
  rw [max_eq_left (by omega)]
  set e := expo q
  set s : ℚ := (2 : ℚ) ^ ((f.frac : ℤ) - e) with hsd
  have hs : 0 < s := by positivity
  have : (nearestEven (q * s) : ℚ) / s - q = ((nearestEven (q * s) : ℚ) - q * s) / s := by
    field_simp
  rw [this, abs_div, abs_of_pos hs, div_le_iff₀ hs]
  refine (nearestEven_err _).trans ?_
  have hse : s * 2 ^ e = 2 ^ f.frac := by
    rw [hsd, ← zpow_add₀ two_ne_zero, sub_add_cancel, zpow_natCast]
  have h3 : f.u * (s * 2 ^ e) ≤ f.u * (s * |q|) :=
    mul_le_mul_of_nonneg_left (mul_le_mul_of_nonneg_left h1 hs.le) f.u_nonneg
  rw [hse] at h3
  have h4 : f.u * 2 ^ f.frac = 1 / 2 := by
    unfold Fmt.u; rw [pow_succ]; field_simp
  linarith

/-- The quotient of two plain scales. -/
theorem rrDiv_ratio (a b : QTy) (ha : a.scal.Valid) (hb : b.scal.Valid) (hra : a.scal.root = 1)
    (hrb : b.scal.root = 1) :
    ∃ s, rrDiv a.scal b.scal = .ok s ∧ s.root = 1 ∧ 0 < s.num ∧ 0 < s.den ∧
      (s.num : ℚ) / s.den = ratio a b ∧ s.num ≤ a.scal.num * b.scal.den ∧ s.den ≤ b.scal.num * a.scal.den := by
  have hs := rrDiv_plain a.scal b.scal hra hrb
  rw [rrMk_den_num b.scal hb] at hs
  have hN : 0 < a.scal.num * b.scal.den := Nat.mul_pos ha.1 hb.2.1
  have hD : 0 < a.scal.den * b.scal.num := Nat.mul_pos ha.2.1 hb.1
  have hg := Nat.gcd_pos_of_pos_left (a.scal.den * b.scal.num) hN
  refine ⟨_, hs, rfl, ?_, ?_, ?_, ?_, ?_⟩
  · exact Nat.div_pos (Nat.gcd_le_left _ hN) hg
  · exact Nat.div_pos (Nat.gcd_le_right _ hD) hg
  · unfold rrMk ratio
    simp only
    rw [Nat.cast_div (Nat.gcd_dvd_left _ _) (by exact_mod_cast hg.ne'),
      Nat.cast_div (Nat.gcd_dvd_right _ _) (by exact_mod_cast hg.ne')]
    have h1 : (a.scal.den : ℚ) ≠ 0 := by exact_mod_cast ha.2.1.ne'
    have h2 : (b.scal.den : ℚ) ≠ 0 := by exact_mod_cast hb.2.1.ne'
    have h3 : (b.scal.num : ℚ) ≠ 0 := by exact_mod_cast hb.1.ne'
    have h4 : ((Nat.gcd (a.scal.num * b.scal.den) (a.scal.den * b.scal.num) : ℕ) : ℚ) ≠ 0 := by
      exact_mod_cast hg.ne'
    rw [div_div_div_cancel_right₀ h4]
    push_cast
    field_simp
  · exact Nat.div_le_self _ _
  · rw [Nat.mul_comm b.scal.num]; exact Nat.div_le_self _ _

theorem ratio_pos {a b : QTy} (ha : a.scal.Valid) (hb : b.scal.Valid) : 0 < ratio a b := by
  unfold ratio
  have h1 : (0 : ℚ) < a.scal.num := by exact_mod_cast ha.1
  have h2 : (0 : ℚ) < a.scal.den := by exact_mod_cast ha.2.1
  have h3 : (0 : ℚ) < b.scal.num := by exact_mod_cast hb.1
  have h4 : (0 : ℚ) < b.scal.den := by exact_mod_cast hb.2.1
  positivity

/-- The quotient of two small integers is a normal, finite number. -/
theorem quot_normal (hf : StdFmt f) (n d : ℕ) (hn : 0 < n) (hd : 0 < d) (hn' : n < 2 ^ (f.frac + 1))
    (hd' : d < 2 ^ (f.frac + 1)) :
    |f.rnd ((n : ℚ) / d) - (n : ℚ) / d| ≤ f.u * ((n : ℚ) / d) ∧ 0 ≤ f.rnd ((n : ℚ) / d) ∧
      |f.rnd ((n : ℚ) / d)| < (2 : ℚ) ^ f.emax := by
  have hdq : (0 : ℚ) < d := by exact_mod_cast hd
  have hnq : (1 : ℚ) ≤ n := by exact_mod_cast hn
  have hpos : 0 < (n : ℚ) / d := by positivity
  refine ⟨?_, f.rnd_nonneg hpos.le, ?_⟩
  · have := f.rnd_err_norm (q := (n : ℚ) / d) (by
      rw [abs_of_pos hpos, le_div_iff₀ hdq]
      have h1 : (d : ℚ) ≤ (2 : ℚ) ^ ((f.frac : ℤ) + 1) := by
        have : (d : ℚ) < (2 : ℚ) ^ (f.frac + 1) := by exact_mod_cast hd'
        have h2 : (2 : ℚ) ^ (f.frac + 1) = (2 : ℚ) ^ ((f.frac : ℤ) + 1) := by
          rw [← zpow_natCast]; push_cast; rfl
        linarith
      calc (2 : ℚ) ^ f.emin * d ≤ (2 : ℚ) ^ f.emin * (2 : ℚ) ^ ((f.frac : ℤ) + 1) := by gcongr
        _ = (2 : ℚ) ^ (f.emin + (f.frac + 1)) := (zpow_add₀ two_ne_zero _ _).symm
        _ ≤ (2 : ℚ) ^ (0 : ℤ) := zpow_le_zpow_right₀ (by norm_num) (by have := hf.low; omega)
        _ = 1 := zpow_zero _
        _ ≤ n := hnq)
    rwa [abs_of_pos hpos] at this
  · rw [abs_of_nonneg (f.rnd_nonneg hpos.le)]
    have h1 : (n : ℚ) / d ≤ n := div_le_self (by linarith) (by exact_mod_cast hd)
    have h2 := f.rnd_mono h1
    rw [f.rnd_nat n hn' (by have := hf.low; omega)] at h2
    refine lt_of_le_of_lt h2 ?_
    have h3 : (n : ℚ) < (2 : ℚ) ^ ((f.frac : ℤ) + 1) := by exact_mod_cast hn'
    exact h3.trans_le (zpow_le_zpow_right₀ (by norm_num) hf.high)

/-- The compile-time factor of a plain scale is the rounded ratio. -/
theorem evalRRF_plain (hf : StdFmt f) (fuel : ℕ) (s : RootRatio) (hr : s.root = 1) (hn : 0 < s.num)
    (hd : 0 < s.den) (hn' : s.num < 2 ^ (f.frac + 1)) (hd' : s.den < 2 ^ (f.frac + 1)) :
    evalRRF IFl.lt IFl.eqv fuel s = some (IFl.fin (f.rnd ((s.num : ℚ) / s.den)) : IFl f) := by
  obtain ⟨-, h2, h3⟩ := quot_normal hf s.num s.den hn hd hn' hd'
  unfold evalRRF
  rw [ofInt_small hf _ hn', ofInt_small hf _ hd', IFl.div_fin (by exact_mod_cast hd.ne'), hr]
  have e : (IFl.ofQ ((s.num : ℚ) / s.den) : IFl f) = IFl.fin (f.rnd ((s.num : ℚ) / s.den)) := f.ofRat_fin h3
  rw [e]
  unfold ctRootF
  rw [if_neg, if_pos rfl]
  show ¬ (decide (f.rnd ((s.num : ℚ) / s.den) < 0) = true)
  simpa using h2

theorem offF_zero (hf : StdFmt f) : (offF 0 : IFl f) = IFl.fin 0 := by
  unfold offF
  have h1 : (CppNum.ofInt (((0 : ℚ).den : ℕ) : ℤ) : IFl f) = IFl.fin 1 := by
    have := ofInt_small hf 1 (Nat.one_lt_two_pow (by omega))
    simpa using this
  have h0 : (CppNum.ofInt (0 : ℚ).num : IFl f) = IFl.fin 0 := ofInt_zero
  rw [h0, h1, IFl.div_fin one_ne_zero, zero_div]
  show f.ofRat 0 = Fl.fin 0
  rw [f.ofRat_fin, f.rnd_zero]
  rw [f.rnd_zero, abs_zero]; positivity

/-- The computed conversion between units of one offset: two roundings. -/
theorem cast_eq (hf : StdFmt f) (fuel : ℕ) (a b : QTy) (ha : a.scal.Valid) (hb : b.scal.Valid)
    (hra : a.scal.root = 1) (hrb : b.scal.root = 1) (hdim : a.dim = b.dim) (hoff : a.off = b.off)
    (hs : SmallPair f a b) (x : IFl f) :
    quantityCastF IFl.lt IFl.eqv fuel b (⟨a, x⟩ : Qty (IFl f)) =
      .ok ⟨b, (IFl.fin (f.rnd (ratio a b)) : IFl f) * x⟩ := by
  obtain ⟨s, h1, h2, h3, h4, h5, h6, h7⟩ := rrDiv_ratio a b ha hb hra hrb
  unfold quantityCastF
  rw [if_neg (by simpa using hdim), h1]
  simp only [Res.bind_ok]
  rw [evalRRF_plain hf fuel s h2 h3 h4 (lt_of_le_of_lt h6 hs.1) (lt_of_le_of_lt h7 hs.2), h5]
  simp only [Res.pure_eq]
  rw [hoff, sub_self, offF_zero hf, add_fin_zero]
  congr 2
  exact f.round_round _

theorem ratio_rnd (hf : StdFmt f) {a b : QTy} (ha : a.scal.Valid) (hb : b.scal.Valid)
    (hra : a.scal.root = 1) (hrb : b.scal.root = 1) (hs : SmallPair f a b) :
    |f.rnd (ratio a b) - ratio a b| ≤ f.u * ratio a b ∧ 0 ≤ f.rnd (ratio a b) := by
  obtain ⟨s, h1, h2, h3, h4, h5, h6, h7⟩ := rrDiv_ratio a b ha hb hra hrb
  obtain ⟨g1, g2, g3⟩ := quot_normal hf s.num s.den h3 h4 (lt_of_le_of_lt h6 hs.1) (lt_of_le_of_lt h7 hs.2)
  rw [h5] at g1 g2
  exact ⟨g1, g2⟩

/-- The error of rounding a product with a rounded factor. -/
theorem two_roundings {r x : ℚ} (hr : 0 < r) (h : |f.rnd r - r| ≤ f.u * r) :
    |f.rnd (f.rnd r * x) - r * x| ≤ ((1 + f.u) ^ 2 - 1) * |r * x| + f.eta := by
  have h1 := f.rnd_err (f.rnd r * x)
  have hu := f.u_nonneg
  have h2 : |f.rnd r * x - r * x| ≤ f.u * |r * x| := by
    rw [← sub_mul, abs_mul, abs_mul, abs_of_pos hr, ← mul_assoc]
    exact mul_le_mul_of_nonneg_right h (abs_nonneg _)
  have h3 : |f.rnd r * x| ≤ |f.rnd r * x - r * x| + |r * x| := by
    have := abs_add_le (f.rnd r * x - r * x) (r * x)
    rwa [sub_add_cancel] at this
  have h4 : |f.rnd (f.rnd r * x) - r * x| ≤ |f.rnd (f.rnd r * x) - f.rnd r * x| + |f.rnd r * x - r * x| :=
    abs_sub_le _ _ _
  have h5 : f.u * |f.rnd r * x| ≤ f.u * (f.u * |r * x| + |r * x|) :=
    mul_le_mul_of_nonneg_left (by linarith) hu
  nlinarith

/-- C101: converting a finite number of a unit to another unit of the same offset: the result has the target
type, is within two roundings (and half the smallest positive number) of the exact conversion, and is finite
unless the exact conversion is near or beyond the largest number. -/
theorem C101_cast (hf : StdFmt f) (fuel : ℕ) (a b : QTy) (ha : a.scal.Valid) (hb : b.scal.Valid)
    (hra : a.scal.root = 1) (hrb : b.scal.root = 1) (hdim : a.dim = b.dim) (hoff : a.off = b.off)
    (hs : SmallPair f a b) (x : ℚ) :
    ∃ v : IFl f, quantityCastF IFl.lt IFl.eqv fuel b (⟨a, IFl.fin x⟩ : Qty (IFl f)) = .ok ⟨b, v⟩ ∧
      (∀ w, v = IFl.fin w → |w - ratio a b * x| ≤ ((1 + f.u) ^ 2 - 1) * |ratio a b * x| + f.eta) ∧
      ((1 + f.u) ^ 2 * |ratio a b * x| + f.eta < (2 : ℚ) ^ f.emax → ∃ w, v = IFl.fin w) := by
  refine ⟨_, cast_eq hf fuel a b ha hb hra hrb hdim hoff hs _, ?_, ?_⟩
  all_goals
    have hr := ratio_pos ha hb
    have hc := (ratio_rnd hf ha hb hra hrb hs).1
    have h2 := two_roundings (f := f) (x := x) hr hc
    rw [IFl.mul_fin]
  · intro w hw
    rw [(f.ofRat_eq_fin hw).1]
    exact h2
  · intro ho
    refine ⟨_, f.ofRat_fin ?_⟩
    have h3 : |f.rnd (f.rnd (ratio a b) * x)| ≤
        |f.rnd (f.rnd (ratio a b) * x) - ratio a b * x| + |ratio a b * x| := by
      have := abs_add_le (f.rnd (f.rnd (ratio a b) * x) - ratio a b * x) (ratio a b * x)
      rwa [sub_add_cancel] at this
    generalize |ratio a b * x| = z at *
    nlinarith

/-- C101: for units without offset, in base units: the converted quantity denotes the same amount up to two
roundings. -/
theorem C101_amount (hf : StdFmt f) (fuel : ℕ) (a b : QTy) (ha : a.scal.Valid) (hb : b.scal.Valid)
    (hra : a.scal.root = 1) (hrb : b.scal.root = 1) (hdim : a.dim = b.dim) (hoff : a.off = 0) (hoff' : b.off = 0)
    (hs : SmallPair f a b) (x w : ℚ)
    (h : quantityCastF IFl.lt IFl.eqv fuel b (⟨a, IFl.fin x⟩ : Qty (IFl f)) = .ok ⟨b, IFl.fin w⟩) :
    |amount b w - amount a x| ≤ ((1 + f.u) ^ 2 - 1) * |amount a x| + (b.scal.num : ℚ) / b.scal.den * f.eta := by
  obtain ⟨v, h1, h2, -⟩ := C101_cast hf fuel a b ha hb hra hrb hdim (hoff.trans hoff'.symm) hs x
  rw [h1] at h
  have hv : v = IFl.fin w := by injection h with h; injection h
  have h3 := h2 w hv
  have p1 : (0 : ℚ) < (b.scal.num : ℚ) / b.scal.den := by
    have h3 : (0 : ℚ) < b.scal.num := by exact_mod_cast hb.1
    have h4 : (0 : ℚ) < b.scal.den := by exact_mod_cast hb.2.1
    positivity
  unfold amount
  rw [hoff, hoff', add_zero, add_zero]
  have e : (b.scal.num : ℚ) / b.scal.den * (ratio a b * x) = (a.scal.num : ℚ) / a.scal.den * x := by
    unfold ratio
    have h3 : (b.scal.num : ℚ) ≠ 0 := by exact_mod_cast hb.1.ne'
    have h4 : (b.scal.den : ℚ) ≠ 0 := by exact_mod_cast hb.2.1.ne'
    field_simp
  rw [← e, ← mul_sub, abs_mul, abs_mul, abs_of_pos p1]
  calc _ ≤ (b.scal.num : ℚ) / b.scal.den * (((1 + f.u) ^ 2 - 1) * |ratio a b * x| + f.eta) :=
        mul_le_mul_of_nonneg_left h3 p1.le
    _ = _ := by ring

/-- C101: the conversion is exact when the ratio of the units and the converted number are representable
(for instance metres from kilometres, when the product has at most `frac + 1` significant bits). -/
theorem C101_exact (hf : StdFmt f) (fuel : ℕ) (a b : QTy) (ha : a.scal.Valid) (hb : b.scal.Valid)
    (hra : a.scal.root = 1) (hrb : b.scal.root = 1) (hdim : a.dim = b.dim) (hoff : a.off = b.off)
    (hs : SmallPair f a b) (x : ℚ) (h1 : f.rnd (ratio a b) = ratio a b)
    (h2 : f.rnd (ratio a b * x) = ratio a b * x) (h3 : |ratio a b * x| < (2 : ℚ) ^ f.emax) :
    quantityCastF IFl.lt IFl.eqv fuel b (⟨a, IFl.fin x⟩ : Qty (IFl f)) = .ok ⟨b, IFl.fin (ratio a b * x)⟩ := by
  rw [cast_eq hf fuel a b ha hb hra hrb hdim hoff hs, IFl.mul_fin, h1]
  have : (IFl.ofQ (ratio a b * x) : IFl f) = IFl.fin (ratio a b * x) := by
    show f.ofRat _ = Fl.fin _
    rw [f.ofRat_fin (by rw [h2]; exact h3), h2]
  rw [this]

/-- C101: converting to the same unit returns the same number (infinities and NaN included). -/
theorem C101_same_unit (hf : StdFmt f) (fuel : ℕ) (a : QTy) (ha : a.scal.Valid) (hra : a.scal.root = 1)
    (hs : SmallPair f a a) (x : IFl f) (hx : f.round x = x) :
    quantityCastF IFl.lt IFl.eqv fuel a (⟨a, x⟩ : Qty (IFl f)) = .ok ⟨a, x⟩ := by
  rw [cast_eq hf fuel a a ha ha hra hra rfl rfl hs]
  have e : ratio a a = 1 := by
    unfold ratio
    have h1 : (a.scal.num : ℚ) ≠ 0 := by exact_mod_cast ha.1.ne'
    have h2 : (a.scal.den : ℚ) ≠ 0 := by exact_mod_cast ha.2.1.ne'
    exact div_self (div_ne_zero h1 h2)
  have e1 : f.rnd 1 = 1 := by
    have := f.rnd_nat 1 (Nat.one_lt_two_pow (by omega)) (by have := hf.low; omega)
    simpa using this
  rw [e, e1]
  have : (IFl.fin 1 : IFl f) * x = f.round x := by
    rcases x with _ | s | q
    · rfl
    · cases s <;> rfl
    · show f.ofRat (1 * q) = f.ofRat q
      rw [one_mul]
  rw [this, hx]

/-- C101: conversions keep the order of the values: a smaller value never becomes a larger one. -/
theorem C101_mono (hf : StdFmt f) (fuel : ℕ) (a b : QTy) (ha : a.scal.Valid) (hb : b.scal.Valid)
    (hra : a.scal.root = 1) (hrb : b.scal.root = 1) (hdim : a.dim = b.dim) (hoff : a.off = b.off)
    (hs : SmallPair f a b) (x y : ℚ) (hxy : x ≤ y) (v w : IFl f)
    (hv : quantityCastF IFl.lt IFl.eqv fuel b (⟨a, IFl.fin x⟩ : Qty (IFl f)) = .ok ⟨b, v⟩)
    (hw : quantityCastF IFl.lt IFl.eqv fuel b (⟨a, IFl.fin y⟩ : Qty (IFl f)) = .ok ⟨b, w⟩) :
    IFl.lt w v = false := by
  rw [cast_eq hf fuel a b ha hb hra hrb hdim hoff hs] at hv hw
  have e1 : v = IFl.ofQ (f.rnd (ratio a b) * x) := by injection hv with h; injection h with _ h; exact h.symm
  have e2 : w = IFl.ofQ (f.rnd (ratio a b) * y) := by injection hw with h; injection h with _ h; exact h.symm
  rw [e1, e2]
  exact f.ofRat_mono (mul_le_mul_of_nonneg_left hxy (ratio_rnd hf ha hb hra hrb hs).2)

/-- C101: converting there and back changes a number by at most four roundings. -/
theorem C101_roundtrip (hf : StdFmt f) (fuel : ℕ) (a b : QTy) (ha : a.scal.Valid) (hb : b.scal.Valid)
    (hra : a.scal.root = 1) (hrb : b.scal.root = 1) (hdim : a.dim = b.dim) (hoff : a.off = b.off)
    (hs : SmallPair f a b) (x w z : ℚ)
    (h1 : quantityCastF IFl.lt IFl.eqv fuel b (⟨a, IFl.fin x⟩ : Qty (IFl f)) = .ok ⟨b, IFl.fin w⟩)
    (h2 : quantityCastF IFl.lt IFl.eqv fuel a (⟨b, IFl.fin w⟩ : Qty (IFl f)) = .ok ⟨a, IFl.fin z⟩) :
    |z - x| ≤ ((1 + f.u) ^ 4 - 1) * |x| + ((1 + f.u) ^ 2 * ratio b a + 1) * f.eta := by
  obtain ⟨v, e1, g1, -⟩ := C101_cast hf fuel a b ha hb hra hrb hdim hoff hs x
  obtain ⟨v', e2, g2, -⟩ := C101_cast hf fuel b a hb ha hrb hra hdim.symm hoff.symm ⟨hs.2, hs.1⟩ w
  rw [h1] at e1
  rw [h2] at e2
  have i1 := g1 w (by injection e1 with h; injection h with _ h; exact h.symm)
  have i2 := g2 z (by injection e2 with h; injection h with _ h; exact h.symm)
  have hr := ratio_pos ha hb
  have hr' := ratio_pos hb ha
  have hinv : ratio b a * ratio a b = 1 := by
    unfold ratio at *
    have h1 : (a.scal.num : ℚ) ≠ 0 := by exact_mod_cast ha.1.ne'
    have h2 : (a.scal.den : ℚ) ≠ 0 := by exact_mod_cast ha.2.1.ne'
    have h3 : (b.scal.num : ℚ) ≠ 0 := by exact_mod_cast hb.1.ne'
    have h4 : (b.scal.den : ℚ) ≠ 0 := by exact_mod_cast hb.2.1.ne'
    field_simp
  set r := ratio a b
  set s := ratio b a
  have hM : 0 ≤ (1 + f.u) ^ 2 - 1 := by have := f.u_nonneg; nlinarith
  have j1 : |s * w - x| ≤ ((1 + f.u) ^ 2 - 1) * |x| + s * f.eta := by
    have e : s * w - x = s * (w - r * x) := by
      rw [mul_sub, ← mul_assoc, hinv, one_mul]
    rw [e, abs_mul, abs_of_pos hr']
    calc _ ≤ s * (((1 + f.u) ^ 2 - 1) * |r * x| + f.eta) := mul_le_mul_of_nonneg_left i1 hr'.le
      _ = _ := by
        rw [abs_mul, abs_of_pos hr]
        linear_combination (((1 + f.u) ^ 2 - 1) * |x|) * hinv
  have j2 : |s * w| ≤ |s * w - x| + |x| := by
    have := abs_add_le (s * w - x) x
    rwa [sub_add_cancel] at this
  have j3 : |z - x| ≤ |z - s * w| + |s * w - x| := abs_sub_le _ _ _
  have j4 : ((1 + f.u) ^ 2 - 1) * |s * w| ≤
      ((1 + f.u) ^ 2 - 1) * (((1 + f.u) ^ 2 - 1) * |x| + s * f.eta + |x|) :=
    mul_le_mul_of_nonneg_left (by linarith) hM
  have e4 : (1 + f.u) ^ 4 = (1 + f.u) ^ 2 * (1 + f.u) ^ 2 := by ring
  rw [e4]
  generalize (1 + f.u) ^ 2 = M at *
  generalize |x| = X at *
  nlinarith

/-- C101 is false of the code for exactness: 15e9 nanoseconds compare equal to 15 seconds and convert to
15.000000000000002 seconds; 7 inches converted to centimetres and back are 7.000000000000001 inches. -/
theorem C101_exact_false :
    (let ns : QTy := ⟨⟨3, 1, 1⟩, ⟨1, 1000000000, 1⟩, 0⟩
     let s : QTy := ⟨⟨3, 1, 1⟩, ⟨1, 1, 1⟩, 0⟩
     qfEq IFl.eqv (⟨ns, IFl.fin 15000000000⟩ : Qty D64) ⟨s, IFl.fin 15⟩ = true ∧
     quantityCastF IFl.lt IFl.eqv 1 s (⟨ns, IFl.fin 15000000000⟩ : Qty D64) =
       .ok ⟨s, IFl.fin (15 + 1 / 2 ^ 49)⟩) ∧
    (let inch : QTy := (lengthIn 127 5000 0).ty
     let cm : QTy := (lengthIn 1 100 0).ty
     ∃ w, quantityCastF IFl.lt IFl.eqv 1 cm (⟨inch, IFl.fin 7⟩ : Qty D64) = .ok ⟨cm, IFl.fin w⟩ ∧
       quantityCastF IFl.lt IFl.eqv 1 inch (⟨cm, IFl.fin w⟩ : Qty D64) = .ok ⟨inch, IFl.fin (7 + 1 / 2 ^ 50)⟩) := by
  refine ⟨⟨by decide +kernel, ?_⟩, binary64.rnd (binary64.rnd (127 / 50) * 7), ?_, ?_⟩
  · refine (cast_eq stdFmt_64 1 ⟨⟨3, 1, 1⟩, ⟨1, 1000000000, 1⟩, 0⟩ ⟨⟨3, 1, 1⟩, ⟨1, 1, 1⟩, 0⟩
      (by unfold RootRatio.Valid; decide) (by unfold RootRatio.Valid; decide) rfl rfl rfl rfl
      (by unfold SmallPair; decide +kernel) _).trans ?_
    congr 2
    decide +kernel
  · refine (cast_eq stdFmt_64 1 (lengthIn 127 5000 0).ty (lengthIn 1 100 0).ty
      (by unfold RootRatio.Valid; decide) (by unfold RootRatio.Valid; decide) rfl rfl rfl rfl
      (by unfold SmallPair; decide +kernel) _).trans ?_
    congr 2
    decide +kernel
  · refine (cast_eq stdFmt_64 1 (lengthIn 1 100 0).ty (lengthIn 127 5000 0).ty
      (by unfold RootRatio.Valid; decide) (by unfold RootRatio.Valid; decide) rfl rfl rfl rfl
      (by unfold SmallPair; decide +kernel) _).trans ?_
    congr 2
    decide +kernel

end SciCpp
