import Verif.Props.QCast
/-
  C101: sums and differences of quantities, conversion with an offset, `eval`, in floating point arithmetic.
-/
namespace SciCpp

open Spec

variable {f : Fmt}

/-- The common unit of two plain units: greatest common divisor of the numerators over the least common multiple
of the denominators. -/
theorem rrCommon_plain (a b : RootRatio) (ha : a.Valid) (hb : b.Valid) (hra : a.root = 1) (hrb : b.root = 1) :
    rrCommon a b = .ok ⟨Nat.gcd a.num b.num, Nat.lcm a.den b.den, 1⟩ := by
  have hc : Nat.Coprime (Nat.gcd a.num b.num) (Nat.lcm a.den b.den) := by
    have h1 : Nat.Coprime (Nat.gcd a.num b.num) a.den :=
      Nat.Coprime.coprime_dvd_left (Nat.gcd_dvd_left _ _) ha.2.2.2
    have h2 : Nat.Coprime (Nat.gcd a.num b.num) b.den :=
      Nat.Coprime.coprime_dvd_left (Nat.gcd_dvd_right _ _) hb.2.2.2
    exact Nat.Coprime.coprime_dvd_right (Nat.lcm_dvd_mul _ _) (h1.mul_right h2)
  have hQ : 0 < Nat.gcd a.num b.num := Nat.gcd_pos_of_pos_left _ ha.1
  have hP : 0 < Nat.lcm a.den b.den := Nat.lcm_pos ha.2.1 hb.2.1
  have hl : a.den / Nat.gcd a.den b.den * b.den = Nat.lcm a.den b.den := by
    rw [Nat.lcm, Nat.div_mul_right_comm (Nat.gcd_dvd_left _ _)]
  unfold rrCommon
  simp only [C69_power_nonneg_partial, hra, hrb, pow_one, Nat.mul_one, hl]
  have hm : rrMk (Nat.gcd a.num b.num) (Nat.lcm a.den b.den) 1
      = ⟨Nat.gcd a.num b.num, Nat.lcm a.den b.den, 1⟩ := by
    unfold rrMk; rw [hc.gcd_eq_one, Nat.div_one, Nat.div_one]
  rw [hm]
  have hv : (⟨Nat.gcd a.num b.num, Nat.lcm a.den b.den, 1⟩ : RootRatio).Valid := ⟨hQ, hP, one_pos, hc⟩
  obtain ⟨r, e1, e2, e3⟩ := C34_root _ 1 hv one_pos
  have := C34_root_rational _ r 1 _ _ hv one_pos hQ hP hc e1 (by rw [e3]; simp [RootRatio.val])
  rw [e1, this]

namespace Spec

/-- The unit in which `a + b` is expressed. -/
def commonUnit (a b : QTy) : QTy :=
  ⟨a.dim, ⟨Nat.gcd a.scal.num b.scal.num, Nat.lcm a.scal.den b.scal.den, 1⟩, a.off⟩

end Spec

theorem commonUnit_valid {a b : QTy} (ha : a.scal.Valid) (hb : b.scal.Valid) : (commonUnit a b).scal.Valid := by
  have h1 : Nat.Coprime (Nat.gcd a.scal.num b.scal.num) a.scal.den :=
    Nat.Coprime.coprime_dvd_left (Nat.gcd_dvd_left _ _) ha.2.2.2
  have h2 : Nat.Coprime (Nat.gcd a.scal.num b.scal.num) b.scal.den :=
    Nat.Coprime.coprime_dvd_left (Nat.gcd_dvd_right _ _) hb.2.2.2
  exact ⟨Nat.gcd_pos_of_pos_left _ ha.1, Nat.lcm_pos ha.2.1 hb.2.1, one_pos,
    Nat.Coprime.coprime_dvd_right (Nat.lcm_dvd_mul _ _) (h1.mul_right h2)⟩

theorem commonUnit_comm {a b : QTy} (hd : a.dim = b.dim) (ho : a.off = b.off) :
    commonUnit a b = commonUnit b a := by
  unfold commonUnit
  rw [Nat.gcd_comm, Nat.lcm_comm, hd, ho]

/-- A unit is a whole number of common units, not larger than the product of its numerator with the other
denominator. -/
theorem ratio_common {a b : QTy} (ha : a.scal.Valid) (hb : b.scal.Valid) :
    ∃ m : ℕ, 0 < m ∧ m ≤ a.scal.num * b.scal.den ∧ ratio a (commonUnit a b) = m ∧
      (∃ s, rrDiv a.scal (commonUnit a b).scal = .ok s ∧ (a.scal.root = 1 → s = ⟨m, 1, 1⟩)) := by
  obtain ⟨q, hq⟩ := Nat.gcd_dvd_left a.scal.num b.scal.num
  obtain ⟨p, hp⟩ := Nat.dvd_lcm_left a.scal.den b.scal.den
  have hg : 0 < Nat.gcd a.scal.num b.scal.num := Nat.gcd_pos_of_pos_left _ ha.1
  have hl : 0 < Nat.lcm a.scal.den b.scal.den := Nat.lcm_pos ha.2.1 hb.2.1
  have hq0 : 0 < q := by
    rcases Nat.eq_zero_or_pos q with h | h
    · rw [h, Nat.mul_zero] at hq; have := ha.1; omega
    · exact h
  have hp0 : 0 < p := by
    rcases Nat.eq_zero_or_pos p with h | h
    · rw [h, Nat.mul_zero] at hp; omega
    · exact h
  have hqle : q ≤ a.scal.num := by
    conv_rhs => rw [hq]
    exact Nat.le_mul_of_pos_left q hg
  have hple : p ≤ b.scal.den := by
    have h1 : Nat.lcm a.scal.den b.scal.den ≤ a.scal.den * b.scal.den :=
      Nat.le_of_dvd (Nat.mul_pos ha.2.1 hb.2.1) (Nat.lcm_dvd_mul _ _)
    rw [hp] at h1
    exact Nat.le_of_mul_le_mul_left h1 ha.2.1
  have hcv := commonUnit_valid ha hb
  refine ⟨q * p, Nat.mul_pos hq0 hp0, Nat.mul_le_mul hqle hple, ?_, ?_⟩
  · unfold ratio commonUnit
    simp only
    have h1 : (a.scal.num : ℚ) = Nat.gcd a.scal.num b.scal.num * q := by exact_mod_cast hq
    have h2 : ((Nat.lcm a.scal.den b.scal.den : ℕ) : ℚ) = a.scal.den * p := by exact_mod_cast hp
    rw [h2]
    have h3 : (a.scal.den : ℚ) ≠ 0 := by exact_mod_cast ha.2.1.ne'
    have h4 : ((Nat.gcd a.scal.num b.scal.num : ℕ) : ℚ) ≠ 0 := by exact_mod_cast hg.ne'
    have h5 : (p : ℚ) ≠ 0 := by exact_mod_cast hp0.ne'
    push_cast
    rw [div_div_eq_mul_div, div_eq_iff h4]
    have h6 : (a.scal.num : ℚ) / a.scal.den * (a.scal.den * p) = a.scal.num * p := by field_simp
    rw [h6]
    calc (a.scal.num : ℚ) * p = (Nat.gcd a.scal.num b.scal.num * q) * p := by rw [← h1]
      _ = _ := by ring
  · obtain ⟨s, hs, -, -⟩ := C34_divide a.scal (commonUnit a b).scal ha hcv
    refine ⟨s, hs, fun hra => ?_⟩
    have h0 := rrDiv_plain a.scal (commonUnit a b).scal hra rfl
    rw [rrMk_den_num _ hcv, hs] at h0
    injection h0 with h0
    rw [h0]
    unfold commonUnit rrMk
    simp only
    have e1 : a.scal.num * Nat.lcm a.scal.den b.scal.den =
        (q * p) * (a.scal.den * Nat.gcd a.scal.num b.scal.num) := by
      rw [hp]; conv_lhs => rw [hq]
      ring
    rw [e1, Nat.gcd_mul_left_left]
    have hpos : 0 < a.scal.den * Nat.gcd a.scal.num b.scal.num := Nat.mul_pos ha.2.1 hg
    rw [Nat.mul_div_cancel _ hpos, Nat.div_self hpos]

/-- The conversion to the common unit is a multiplication by an integer: one rounding. -/
theorem conv_common (hf : StdFmt f) (fuel : ℕ) (a b : QTy) (ha : a.scal.Valid) (hb : b.scal.Valid)
    (hra : a.scal.root = 1) (hs : a.scal.num * b.scal.den < 2 ^ (f.frac + 1)) (x : IFl f)
    (hx : f.round x = x) :
    ∃ m : ℕ, 0 < m ∧ m < 2 ^ (f.frac + 1) ∧ ratio a (commonUnit a b) = m ∧
      qfConv IFl.lt IFl.eqv fuel (commonUnit a b) (⟨a, x⟩ : Qty (IFl f)) =
        .ok ⟨commonUnit a b, (IFl.fin (m : ℚ) : IFl f) * x⟩ := by
  obtain ⟨m, h1, h2, h3, s, h4, h5⟩ := ratio_common ha hb
  have hm : m < 2 ^ (f.frac + 1) := lt_of_le_of_lt h2 hs
  refine ⟨m, h1, hm, h3, ?_⟩
  unfold qfConv
  split_ifs with hc
  · have hc' : a = commonUnit a b := hc
    have e : ratio a (commonUnit a b) = 1 := by
      rw [← hc']
      unfold ratio
      have h1 : (a.scal.num : ℚ) ≠ 0 := by exact_mod_cast ha.1.ne'
      have h2 : (a.scal.den : ℚ) ≠ 0 := by exact_mod_cast ha.2.1.ne'
      exact div_self (div_ne_zero h1 h2)
    have hm1 : (m : ℚ) = 1 := h3.symm.trans e
    rw [hm1, ← hc']
    have : (IFl.fin 1 : IFl f) * x = f.round x := by
      rcases x with _ | s | q
      · rfl
      · cases s <;> rfl
      · show f.ofRat (1 * q) = f.ofRat q
        rw [one_mul]
    rw [this, hx]
  · have hs' := h5 hra
    unfold quantityCastF
    rw [if_neg (by simp [commonUnit]), h4]
    simp only [Res.bind_ok]
    rw [evalRRF_plain hf fuel s (by rw [hs']) (by rw [hs']; exact h1) (by rw [hs']; exact one_pos)
      (by rw [hs']; exact hm) (by rw [hs']; exact Nat.one_lt_two_pow (by omega))]
    simp only [Res.pure_eq, hs']
    have e : ((m : ℕ) : ℚ) / ((1 : ℕ) : ℚ) = m := by simp
    rw [e, f.rnd_nat m hm (by have := hf.low; omega), show a.off - (commonUnit a b).off = 0 from sub_self _,
      offF_zero hf, add_fin_zero]
    congr 2
    exact f.round_round _

theorem commonQuantity_plain (a b : QTy) (ha : a.scal.Valid) (hb : b.scal.Valid) (hra : a.scal.root = 1)
    (hrb : b.scal.root = 1) (hoff : a.off = b.off) : commonQuantity a b = .ok (commonUnit a b) := by
  unfold commonQuantity
  rw [if_neg (by simpa using hoff), rrCommon_plain _ _ ha hb hra hrb]
  rfl

/-- The computed sum and difference. -/
theorem qfAdd_eq (hf : StdFmt f) (fuel : ℕ) (a b : QTy) (ha : a.scal.Valid) (hb : b.scal.Valid)
    (hra : a.scal.root = 1) (hrb : b.scal.root = 1) (hdim : a.dim = b.dim) (hoff : a.off = b.off)
    (hs : SmallPair f a b) (x y : IFl f) (hx : f.round x = x) (hy : f.round y = y) :
    ∃ m n : ℕ, ratio a (commonUnit a b) = m ∧ ratio b (commonUnit a b) = n ∧
      qfAdd IFl.lt IFl.eqv fuel (⟨a, x⟩ : Qty (IFl f)) ⟨b, y⟩ =
        .ok ⟨commonUnit a b, (IFl.fin (m : ℚ) : IFl f) * x + (IFl.fin (n : ℚ) : IFl f) * y⟩ ∧
      qfSub IFl.lt IFl.eqv fuel (⟨a, x⟩ : Qty (IFl f)) ⟨b, y⟩ =
        .ok ⟨commonUnit a b, (IFl.fin (m : ℚ) : IFl f) * x - (IFl.fin (n : ℚ) : IFl f) * y⟩ := by
  obtain ⟨m, -, -, m3, m4⟩ := conv_common hf fuel a b ha hb hra hs.1 x hx
  obtain ⟨n, -, -, n3, n4⟩ := conv_common hf fuel b a hb ha hrb hs.2 y hy
  rw [← commonUnit_comm hdim hoff] at n3 n4
  refine ⟨m, n, m3, n3, ?_, ?_⟩
  · unfold qfAdd
    rw [if_neg (by simpa using hdim)]
    simp only [commonQuantity_plain a b ha hb hra hrb hoff, m4, n4, Res.bind_ok, Res.pure_eq]
  · unfold qfSub
    rw [if_neg (by simpa using hdim)]
    simp only [commonQuantity_plain a b ha hb hra hrb hoff, m4, n4, Res.bind_ok, Res.pure_eq]

theorem ratio_amount {a c : QTy} (ha : a.off = 0) (hc : c.off = 0) (hcv : c.scal.Valid)
    (x : ℚ) : amount c (ratio a c * x) = amount a x := by
  unfold amount ratio
  rw [ha, hc]
  have h3 : (c.scal.num : ℚ) ≠ 0 := by exact_mod_cast hcv.1.ne'
  have h4 : (c.scal.den : ℚ) ≠ 0 := by exact_mod_cast hcv.2.1.ne'
  field_simp

/-- C101: the sum (and the difference) of two finite quantities of different units without offset is a quantity
in their common unit; it denotes the sum of the amounts up to two roundings of each term (and twice the smallest
positive number of common units), and is finite unless this could overflow. -/
theorem C101_add (hf : StdFmt f) (fuel : ℕ) (a b : QTy) (ha : a.scal.Valid) (hb : b.scal.Valid)
    (hra : a.scal.root = 1) (hrb : b.scal.root = 1) (hdim : a.dim = b.dim) (hoff : a.off = 0) (hoff' : b.off = 0)
    (hs : SmallPair f a b) (x y : ℚ) (hx : f.ofRat x = .fin x) (hy : f.ofRat y = .fin y) :
    let c := commonUnit a b
    let A := amount a x
    let B := amount b y
    let unit := (c.scal.num : ℚ) / c.scal.den
    let err := ((1 + f.u) ^ 2 - 1) * (|A| + |B|) + (1 + f.u) ^ 2 * (2 * f.eta) * unit
    ∃ v w : IFl f,
      qfAdd IFl.lt IFl.eqv fuel (⟨a, IFl.fin x⟩ : Qty (IFl f)) ⟨b, IFl.fin y⟩ = .ok ⟨c, v⟩ ∧
      qfSub IFl.lt IFl.eqv fuel (⟨a, IFl.fin x⟩ : Qty (IFl f)) ⟨b, IFl.fin y⟩ = .ok ⟨c, w⟩ ∧
      (∀ q, v = IFl.fin q → |amount c q - (A + B)| ≤ err) ∧
      (∀ q, w = IFl.fin q → |amount c q - (A - B)| ≤ err) ∧
      ((1 + f.u) ^ 2 * ((|A| + |B|) / unit + 2 * f.eta) < (2 : ℚ) ^ f.emax →
        (∃ q, v = IFl.fin q) ∧ ∃ q, w = IFl.fin q) := by
  intro c A B unit err
  obtain ⟨m, n, hm, hn, e1, e2⟩ := qfAdd_eq hf fuel a b ha hb hra hrb hdim (hoff.trans hoff'.symm) hs
    (IFl.fin x) (IFl.fin y) hx hy
  have hcv := commonUnit_valid ha hb
  have hco : c.off = 0 := hoff
  have hunit : 0 < unit := by
    have h3 : (0 : ℚ) < c.scal.num := by exact_mod_cast hcv.1
    have h4 : (0 : ℚ) < c.scal.den := by exact_mod_cast hcv.2.1
    positivity
  have hA : unit * ((m : ℚ) * x) = A := by
    have := ratio_amount hoff hco hcv x
    rw [hm] at this
    unfold amount at this
    rw [hco, add_zero] at this
    exact this
  have hB : unit * ((n : ℚ) * y) = B := by
    have := ratio_amount hoff' hco hcv y
    rw [hn] at this
    unfold amount at this
    rw [hco, add_zero] at this
    exact this
  have pa := ApproxI.mul_exact (f := f) m x
  have pb := ApproxI.mul_exact (f := f) n y
  have s1 := pa.add pb
  have s2 := pa.sub pb
  have hmA : |(m : ℚ)| * |x| = |A| / unit := by
    rw [← hA, abs_mul, abs_mul, abs_of_pos hunit]; field_simp
  have hnB : |(n : ℚ)| * |y| = |B| / unit := by
    rw [← hB, abs_mul, abs_mul, abs_of_pos hunit]; field_simp
  rw [hmA, hnB] at s1 s2
  have amt : ∀ q, amount c q = unit * q := fun q => by unfold amount; rw [hco, add_zero]
  have fin_of : (1 + f.u) ^ 2 * ((|A| + |B|) / unit + 2 * f.eta) < (2 : ℚ) ^ f.emax →
      (1 + f.u) ^ (1 + 1) * (|A| / unit + f.eta + (|B| / unit + f.eta)) < (2 : ℚ) ^ f.emax := fun h => by
    have e : |A| / unit + f.eta + (|B| / unit + f.eta) = (|A| + |B|) / unit + 2 * f.eta := by rw [add_div]; ring
    rw [e]; exact h
  have err_of : unit * (((1 + f.u) ^ (1 + 1) - 1) * (|A| / unit + |B| / unit)
      + (1 + f.u) ^ (1 + 1) * (f.eta + f.eta)) = err := by
    have h1 : unit * (|A| / unit + |B| / unit) = |A| + |B| := by field_simp
    calc _ = ((1 + f.u) ^ 2 - 1) * (unit * (|A| / unit + |B| / unit)) + (1 + f.u) ^ 2 * (2 * f.eta) * unit := by
          ring
      _ = err := by rw [h1]
  refine ⟨_, _, e1, e2, fun q hq => ?_, fun q hq => ?_, fun h => ⟨s1.finite (fin_of h), s2.finite (fin_of h)⟩⟩
  · have h1 := (s1.err q hq).2
    rw [amt, ← hA, ← hB, ← mul_add, ← mul_sub, abs_mul, abs_of_pos hunit, ← err_of]
    exact mul_le_mul_of_nonneg_left h1 hunit.le
  · have h1 := (s2.err q hq).2
    rw [amt, ← hA, ← hB, ← mul_sub, ← mul_sub, abs_mul, abs_of_pos hunit, ← err_of]
    exact mul_le_mul_of_nonneg_left h1 hunit.le

/-- C101: the sum is exact when the terms in the common unit and their sum are representable; in particular sums of
whole numbers of units are exact as long as they stay below `2^(frac+1)` common units. -/
theorem C101_add_exact (hf : StdFmt f) (fuel : ℕ) (a b : QTy) (ha : a.scal.Valid) (hb : b.scal.Valid)
    (hra : a.scal.root = 1) (hrb : b.scal.root = 1) (hdim : a.dim = b.dim) (hoff : a.off = b.off)
    (hs : SmallPair f a b) (i j : ℤ) :
    let c := commonUnit a b
    let I := ratio a c * i
    let J := ratio b c * j
    |I| + |J| < 2 ^ (f.frac + 1) →
    qfAdd IFl.lt IFl.eqv fuel (⟨a, IFl.fin i⟩ : Qty (IFl f)) ⟨b, IFl.fin j⟩ = .ok ⟨c, IFl.fin (I + J)⟩ ∧
    qfSub IFl.lt IFl.eqv fuel (⟨a, IFl.fin i⟩ : Qty (IFl f)) ⟨b, IFl.fin j⟩ = .ok ⟨c, IFl.fin (I - J)⟩ := by
  intro c I J hlt
  have small : ∀ k : ℤ, |(k : ℚ)| < 2 ^ (f.frac + 1) → f.ofRat (k : ℚ) = .fin (k : ℚ) := by
    intro k hk
    have : k.natAbs < 2 ^ (f.frac + 1) := by
      have h1 : ((k.natAbs : ℕ) : ℚ) = |(k : ℚ)| := by
        rw [← Int.cast_abs, Int.abs_eq_natAbs, Int.cast_natCast]
      rw [← h1] at hk
      exact_mod_cast hk
    exact ofInt_small_int hf k this
  have hm' := ratio_common ha hb
  have hn' := ratio_common hb ha
  rw [← commonUnit_comm hdim hoff] at hn'
  obtain ⟨m, m1, -, m3, -⟩ := hm'
  obtain ⟨n, n1, -, n3, -⟩ := hn'
  have hI : I = ((m * i : ℤ) : ℚ) := by show ratio a c * i = _; rw [m3]; push_cast; rfl
  have hJ : J = ((n * j : ℤ) : ℚ) := by show ratio b c * j = _; rw [n3]; push_cast; rfl
  have mI : |(i : ℚ)| ≤ |I| := by
    have h1 : (1 : ℚ) ≤ m := by exact_mod_cast m1
    rw [hI]; push_cast; rw [abs_mul, Nat.abs_cast]
    exact le_mul_of_one_le_left (abs_nonneg _) h1
  have nJ : |(j : ℚ)| ≤ |J| := by
    have h1 : (1 : ℚ) ≤ n := by exact_mod_cast n1
    rw [hJ]; push_cast; rw [abs_mul, Nat.abs_cast]
    exact le_mul_of_one_le_left (abs_nonneg _) h1
  have pI := abs_nonneg I
  have pJ := abs_nonneg J
  obtain ⟨m', n', hm, hn, e1, e2⟩ := qfAdd_eq hf fuel a b ha hb hra hrb hdim hoff hs
    (IFl.fin i) (IFl.fin j) (small i (by linarith)) (small j (by linarith))
  have em : (m' : ℚ) = m := hm.symm.trans m3
  have en : (n' : ℚ) = n := hn.symm.trans n3
  have vI : (IFl.fin (m' : ℚ) : IFl f) * IFl.fin (i : ℚ) = IFl.fin I := by
    rw [IFl.mul_fin, em]
    have := small (m * i) (by rw [← hI]; linarith)
    rw [hI]
    have e : ((m * i : ℤ) : ℚ) = (m : ℚ) * i := by push_cast; rfl
    rw [e] at this ⊢
    exact this
  have vJ : (IFl.fin (n' : ℚ) : IFl f) * IFl.fin (j : ℚ) = IFl.fin J := by
    rw [IFl.mul_fin, en]
    have := small (n * j) (by rw [← hJ]; linarith)
    rw [hJ]
    have e : ((n * j : ℤ) : ℚ) = (n : ℚ) * j := by push_cast; rfl
    rw [e] at this ⊢
    exact this
  rw [e1, e2, vI, vJ, IFl.add_fin, IFl.sub_fin]
  have s1 : (IFl.ofQ (I + J) : IFl f) = IFl.fin (I + J) := by
    have h := abs_add_le I J
    have e : ((m * i + n * j : ℤ) : ℚ) = I + J := by rw [hI, hJ]; push_cast; ring
    have := small (m * i + n * j) (by rw [e]; linarith)
    rw [e] at this
    exact this
  have s2 : (IFl.ofQ (I - J) : IFl f) = IFl.fin (I - J) := by
    have h := abs_add_le I (-J)
    rw [abs_neg, ← sub_eq_add_neg] at h
    have e : ((m * i - n * j : ℤ) : ℚ) = I - J := by rw [hI, hJ]; push_cast; ring
    have := small (m * i - n * j) (by rw [e]; linarith)
    rw [e] at this
    exact this
  rw [s1, s2]
  exact ⟨rfl, rfl⟩

/-! ### Offsets -/

theorem IFl.mul_comm' (x y : IFl f) : x * y = y * x := by
  show f.round (Fl.mul x y) = f.round (Fl.mul y x)
  congr 1
  rcases x with _ | s | p <;> rcases y with _ | t | q <;> try rfl
  · show Fl.inf (s != t) = Fl.inf (t != s)
    cases s <;> cases t <;> rfl
  · show Fl.fin (p * q) = Fl.fin (q * p)
    rw [mul_comm]

namespace Spec

/-- Numerator and denominator of an offset are exactly representable. -/
def SmallOff (f : Fmt) (d : ℚ) : Prop := d.num.natAbs < 2 ^ (f.frac + 1) ∧ d.den < 2 ^ (f.frac + 1)

end Spec

/-- The computed offset. -/
theorem offF_approx (hf : StdFmt f) (d : ℚ) (h : SmallOff f d) :
    ApproxI f 1 d |d| 0 |d| (offF d : IFl f) := by
  unfold offF
  rw [ofInt_small_int hf _ h.1, ofInt_small hf _ h.2, IFl.div_fin (by exact_mod_cast d.den_nz), Rat.num_div_den]
  refine ⟨le_rfl, le_rfl, by simp, fun q hq => ?_, fun ho => ?_⟩
  · obtain ⟨h1, -⟩ := f.ofRat_eq_fin hq
    rw [h1]
    refine ⟨f.rnd_grid _, ?_⟩
    by_cases h0 : d = 0
    · rw [h0]; simp
    have hn : 0 < d.num.natAbs := Int.natAbs_pos.mpr (by simpa using h0)
    have habs : |d| = (d.num.natAbs : ℚ) / d.den := by
      conv_lhs => rw [← Rat.num_div_den d]
      rw [abs_div, Nat.abs_cast, ← Int.cast_abs, Int.abs_eq_natAbs, Int.cast_natCast]
    obtain ⟨g1, -, -⟩ := quot_normal hf d.num.natAbs d.den hn d.den_pos h.1 h.2
    rw [← habs] at g1
    have g2 : |f.rnd d - d| ≤ f.u * |d| := by
      rcases abs_cases d with ⟨e, -⟩ | ⟨e, -⟩
      · rw [e] at g1 ⊢; exact g1
      · rw [e] at g1
        rw [f.rnd_neg] at g1
        rw [e, ← abs_neg]
        have : -(f.rnd d - d) = -f.rnd d - -d := by ring
        rw [this]; exact g1
    refine g2.trans (le_of_eq ?_)
    ring
  · refine ⟨_, f.ofRat_fin ?_⟩
    by_cases h0 : d = 0
    · rw [h0, f.rnd_zero, abs_zero]; positivity
    have hn : 0 < d.num.natAbs := Int.natAbs_pos.mpr (by simpa using h0)
    have habs : |d| = (d.num.natAbs : ℚ) / d.den := by
      conv_lhs => rw [← Rat.num_div_den d]
      rw [abs_div, Nat.abs_cast, ← Int.cast_abs, Int.abs_eq_natAbs, Int.cast_natCast]
    obtain ⟨-, -, g3⟩ := quot_normal hf d.num.natAbs d.den hn d.den_pos h.1 h.2
    rw [← habs] at g3
    rcases abs_cases d with ⟨e, -⟩ | ⟨e, -⟩
    · rwa [e] at g3
    · rwa [e, f.rnd_neg, abs_neg] at g3

/-- The scaled and shifted number. -/
theorem affine_approx {r d x : ℚ} (hr : 0 < r) (hrr : |f.rnd r - r| ≤ f.u * r) (o : IFl f)
    (ho : ApproxI f 1 d |d| 0 |d| o) :
    ApproxI f 3 (r * x + d) (|r * x| + |d|) f.eta (r + |r * x| + |d| + f.eta)
      ((IFl.fin (f.rnd r) : IFl f) * IFl.fin x + o) := by
  have c : ApproxI f 1 r r 0 r (IFl.fin (f.rnd r) : IFl f) := by
    refine ⟨(abs_of_pos hr).le, le_rfl, by simp, fun q hq => ?_, fun _ => ⟨_, rfl⟩⟩
    rw [← IFl.fin_inj.mp hq]
    refine ⟨f.rnd_grid _, hrr.trans (le_of_eq ?_)⟩
    ring
  have m := c.mul_left (b := x) (r + |r * x| + f.eta) (by
    have := abs_nonneg (r * x); have := f.eta_pos; linarith) (by
    rw [mul_zero, zero_add, abs_mul, abs_of_pos hr, mul_comm |x|]; linarith)
  rw [IFl.mul_comm', mul_zero, zero_add, mul_comm x r] at m
  have e : |x| * r = |r * x| := by rw [abs_mul, abs_of_pos hr, mul_comm]
  rw [e] at m
  have s := m.add (ho.mono_k (Nat.le_succ 1))
  rw [add_zero] at s
  have e2 : r + |r * x| + f.eta + |d| = r + |r * x| + |d| + f.eta := by ring
  rw [e2] at s
  exact s

/-- C101: a conversion between units with different offsets computes, within three roundings, the number
`ratio·x + (offset of the source - offset of the target)`.  (`C38_cast_iff` says when this is the right number:
when the offsets agree or the target scale is one.) -/
theorem C101_cast_offset (hf : StdFmt f) (fuel : ℕ) (a b : QTy) (ha : a.scal.Valid) (hb : b.scal.Valid)
    (hra : a.scal.root = 1) (hrb : b.scal.root = 1) (hdim : a.dim = b.dim) (hs : SmallPair f a b)
    (hso : SmallOff f (a.off - b.off)) (x : ℚ) :
    let r := ratio a b
    let d := a.off - b.off
    ∃ v : IFl f, quantityCastF IFl.lt IFl.eqv fuel b (⟨a, IFl.fin x⟩ : Qty (IFl f)) = .ok ⟨b, v⟩ ∧
      (∀ w, v = IFl.fin w →
        |w - (r * x + d)| ≤ ((1 + f.u) ^ 3 - 1) * (|r * x| + |d|) + (1 + f.u) ^ 3 * f.eta) ∧
      ((1 + f.u) ^ 3 * (r + |r * x| + |d| + f.eta) < (2 : ℚ) ^ f.emax → ∃ w, v = IFl.fin w) := by
  intro r d
  obtain ⟨s, h1, h2, h3, h4, h5, h6, h7⟩ := rrDiv_ratio a b ha hb hra hrb
  have hc := affine_approx (x := x) (ratio_pos ha hb) (ratio_rnd hf ha hb hra hrb hs).1 _
    (offF_approx hf _ hso)
  refine ⟨_, ?_, fun w hw => (hc.err w hw).2, fun h => hc.finite h⟩
  unfold quantityCastF
  rw [if_neg (by simpa using hdim), h1]
  simp only [Res.bind_ok]
  rw [evalRRF_plain hf fuel s h2 h3 h4 (lt_of_le_of_lt h6 hs.1) (lt_of_le_of_lt h7 hs.2), h5]
  rfl

/-- C101: `eval()` is the amount in base units, within three roundings of its two terms. -/
theorem C101_eval (hf : StdFmt f) (fuel : ℕ) (a : QTy) (ha : a.scal.Valid) (hra : a.scal.root = 1)
    (hn : a.scal.num < 2 ^ (f.frac + 1)) (hd : a.scal.den < 2 ^ (f.frac + 1)) (hso : SmallOff f a.off) (x : ℚ) :
    ∃ v : IFl f, qfEval IFl.lt IFl.eqv fuel (⟨a, IFl.fin x⟩ : Qty (IFl f)) = .ok v ∧
      (∀ w, v = IFl.fin w →
        |w - amount a x| ≤ ((1 + f.u) ^ 3 - 1) * terms a x + (1 + f.u) ^ 3 * f.eta) ∧
      ((1 + f.u) ^ 3 * ((a.scal.num : ℚ) / a.scal.den + terms a x + f.eta) < (2 : ℚ) ^ f.emax →
        ∃ w, v = IFl.fin w) := by
  have hr : (0 : ℚ) < (a.scal.num : ℚ) / a.scal.den := by
    have h3 : (0 : ℚ) < a.scal.num := by exact_mod_cast ha.1
    have h4 : (0 : ℚ) < a.scal.den := by exact_mod_cast ha.2.1
    positivity
  obtain ⟨g1, -, -⟩ := quot_normal hf a.scal.num a.scal.den ha.1 ha.2.1 hn hd
  have hc := affine_approx (x := x) hr g1 _ (offF_approx hf _ hso)
  refine ⟨_, ?_, fun w hw => (hc.err w hw).2, fun h => hc.finite ?_⟩
  · unfold qfEval
    rw [evalRRF_plain hf fuel _ hra ha.1 ha.2.1 hn hd]
  · have e : (a.scal.num : ℚ) / a.scal.den + terms a x + f.eta =
        (a.scal.num : ℚ) / a.scal.den + |(a.scal.num : ℚ) / a.scal.den * x| + |a.off| + f.eta := by
      unfold terms; ring
    rw [← e]; exact h

/-! Non-vacuity. -/

/-- 1 yard plus 2 feet is 5 feet (the common unit), exactly. -/
example : qfAdd IFl.lt IFl.eqv 1 (⟨(lengthIn 1143 1250 0).ty, IFl.fin 1⟩ : Qty D64)
    ⟨(lengthIn 381 1250 0).ty, IFl.fin 2⟩ = .ok ⟨(lengthIn 381 1250 0).ty, IFl.fin 5⟩ := by
  have h := (C101_add_exact (f := binary64) stdFmt_64 1 (lengthIn 1143 1250 0).ty (lengthIn 381 1250 0).ty
    (by unfold RootRatio.Valid; decide) (by unfold RootRatio.Valid; decide) rfl rfl rfl rfl
    (by unfold SmallPair; decide +kernel) 1 2 (by decide +kernel)).1
  have e : (ratio (lengthIn 1143 1250 0).ty (commonUnit (lengthIn 1143 1250 0).ty (lengthIn 381 1250 0).ty) *
      ((1 : ℤ) : ℚ) + ratio (lengthIn 381 1250 0).ty
      (commonUnit (lengthIn 1143 1250 0).ty (lengthIn 381 1250 0).ty) * ((2 : ℤ) : ℚ)) = 5 := by decide +kernel
  rw [e] at h
  exact h

/-- The offsets of the temperature units are small. -/
example : SmallOff binary32 (5463 / 20) ∧ SmallOff binary64 (45967 / 180 - 5463 / 20) := by
  unfold SmallOff; decide +kernel

end SciCpp
