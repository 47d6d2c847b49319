import Verif.Props.QSum
import Verif.Props.FloatSign
import Verif.Props.Equal
/-
  C101: a quantity and its conversion are almost equal.
-/
namespace SciCpp

open Spec

attribute [local irreducible] rnd64

theorem ofInt64 (n : ℕ) (h : n < 2 ^ 53) : (CppNum.ofInt (n : ℤ) : F64) = RFl.fin n := by
  rw [RFl.ofInt_def, Int.cast_natCast, rnd64_nat n h]

theorem rnd64_one : rnd64 1 = 1 := by
  have := rnd64_nat 1 (by norm_num); simpa using this

/-- The compile-time factor in `double`. -/
theorem evalRRF64 (fuel : ℕ) (s : RootRatio) (hr : s.root = 1) (hn' : s.num < 2 ^ 53) (hd : 0 < s.den)
    (hd' : s.den < 2 ^ 53) :
    evalRRF RFl.lt RFl.eqv fuel s = some (RFl.fin (rnd64 ((s.num : ℚ) / s.den)) : F64) := by
  unfold evalRRF
  rw [ofInt64 _ hn', ofInt64 _ hd', RFl.div_fin (by exact_mod_cast hd.ne'), hr]
  unfold ctRootF
  rw [if_neg, if_pos rfl]
  rw [RFl.zero_fin, RFl.lt_fin]
  have h := rnd64_mono (show (0 : ℚ) ≤ (s.num : ℚ) / s.den by positivity)
  rw [rnd64_zero] at h
  simpa using h

theorem offF64_zero : (offF 0 : F64) = RFl.fin 0 := by
  unfold offF
  have h1 : (CppNum.ofInt (((0 : ℚ).den : ℕ) : ℤ) : F64) = RFl.fin 1 := by
    have := ofInt64 1 (by norm_num); simpa using this
  have h0 : (CppNum.ofInt (0 : ℚ).num : F64) = RFl.fin 0 := by
    exact_mod_cast ofInt64 0 (by norm_num)
  rw [h0, h1, RFl.div_fin one_ne_zero, zero_div, rnd64_zero]

theorem eval64 (fuel : ℕ) (a : QTy) (hra : a.scal.root = 1) (hn : a.scal.num < 2 ^ 53) (hd : 0 < a.scal.den)
    (hd' : a.scal.den < 2 ^ 53) (hoff : a.off = 0) (x : ℚ) :
    qfEval RFl.lt RFl.eqv fuel (⟨a, RFl.fin x⟩ : Qty F64) =
      .ok (RFl.fin (rnd64 (rnd64 ((a.scal.num : ℚ) / a.scal.den) * x))) := by
  unfold qfEval
  rw [evalRRF64 fuel _ hra hn hd hd']
  simp only [hoff, offF64_zero, RFl.mul_fin, RFl.add_fin, add_zero, rnd64_idem]

theorem cast64 (fuel : ℕ) (a b : QTy) (ha : a.scal.Valid) (hb : b.scal.Valid)
    (hra : a.scal.root = 1) (hrb : b.scal.root = 1) (hdim : a.dim = b.dim) (hoff : a.off = b.off)
    (hs : SmallPair binary64 a b) (x : ℚ) :
    quantityCastF RFl.lt RFl.eqv fuel b (⟨a, RFl.fin x⟩ : Qty F64) =
      .ok ⟨b, RFl.fin (rnd64 (rnd64 (ratio a b) * x))⟩ := by
  obtain ⟨s, h1, h2, h3, h4, h5, h6, h7⟩ := rrDiv_ratio a b ha hb hra hrb
  unfold quantityCastF
  rw [if_neg (by simpa using hdim), h1]
  simp only [Res.bind_ok]
  rw [evalRRF64 fuel s h2 (lt_of_le_of_lt h6 hs.1) h4 (lt_of_le_of_lt h7 hs.2), h5]
  simp only [Res.pure_eq]
  rw [hoff, sub_self, offF64_zero, RFl.mul_fin, RFl.add_fin, add_zero, rnd64_idem]

theorem two_roundings64 {r : ℚ} (hr : 0 < r) (x : ℚ) :
    |rnd64 (rnd64 r * x) - r * x| ≤ ((1 + 1 / 2 ^ 53) ^ 2 - 1) * |r * x| := by
  have h1 := rnd64_err (rnd64 r * x)
  have h0 := rnd64_err r
  rw [abs_of_pos hr] at h0
  have h2 : |rnd64 r * x - r * x| ≤ 1 / 2 ^ 53 * |r * x| := by
    rw [← sub_mul, abs_mul, abs_mul, abs_of_pos hr, ← mul_assoc]
    exact mul_le_mul_of_nonneg_right h0 (abs_nonneg _)
  have h3 : |rnd64 r * x| ≤ |rnd64 r * x - r * x| + |r * x| := by
    have := abs_add_le (rnd64 r * x - r * x) (r * x)
    rwa [sub_add_cancel] at this
  have h4 : |rnd64 (rnd64 r * x) - r * x| ≤ |rnd64 (rnd64 r * x) - rnd64 r * x| + |rnd64 r * x - r * x| :=
    abs_sub_le _ _ _
  generalize |r * x| = z at *
  generalize |rnd64 r * x| = y at *
  linarith

/-- Two close numbers are `almost_equal`. -/
theorem fpEqual_close {tol e1 e2 X : ℚ} (ht : 7 / 2 ^ 53 ≤ tol) (ht1 : tol < 1) (htr : rnd64 tol = tol)
    (h1 : |e1 - X| ≤ ((1 + 1 / 2 ^ 53) ^ 2 - 1) * |X|) (h2 : |e2 - X| ≤ ((1 + 1 / 2 ^ 53) ^ 4 - 1) * |X|) :
    almostEqual tol (RFl.fin e1 : F64) (RFl.fin e2) = true := by
  have hd : |e1 - e2| ≤ tol * |e1| := by
    have a1 : |e1 - e2| ≤ |e1 - X| + |e2 - X| := by
      rw [abs_sub_comm e2 X]; exact abs_sub_le _ _ _
    have a2 : |X| ≤ |e1 - X| + |e1| := by
      have := abs_add_le (X - e1) e1
      rw [sub_add_cancel, abs_sub_comm] at this
      exact this
    have a3 : 7 / 2 ^ 53 * |e1| ≤ tol * |e1| := mul_le_mul_of_nonneg_right ht (abs_nonneg _)
    have a4 := abs_nonneg X
    generalize |e1 - X| = p at *
    generalize |e2 - X| = q at *
    generalize |e1 - e2| = s at *
    generalize |X| = z at *
    generalize |e1| = y at *
    norm_num at *
    linarith
  have hdm : |e1 - e2| ≤ tol * max |e1| |e2| :=
    hd.trans (mul_le_mul_of_nonneg_left (le_max_left _ _) (le_trans (by norm_num) ht))
  have habs : ∀ q : ℚ, |rnd64 q| = rnd64 |q| := by
    intro q
    rcases abs_cases q with ⟨e, h⟩ | ⟨e, h⟩
    · have := rnd64_mono h
      rw [rnd64_zero] at this
      rw [e, abs_of_nonneg this]
    · have := rnd64_mono h.le
      rw [rnd64_zero] at this
      rw [e, rnd64_neg, abs_of_nonpos this]
  have ht0 : 0 ≤ tol := le_trans (by norm_num) ht
  unfold almostEqual fpEqual
  rw [if_neg (by simp [RFl.isNan, RFl.fin, Fl.isNan]), if_neg (by simp [RFl.isInf, RFl.fin, Fl.isInf])]
  have hmax : RFl.max (RFl.abs (RFl.fin e1 : F64)) (RFl.abs (RFl.fin e2)) = RFl.fin (max |e1| |e2|) := by
    show (if decide (|e1| < |e2|) = true then (RFl.fin |e2| : F64) else RFl.fin |e1|) = _
    split_ifs with h
    · rw [max_eq_right (by simpa using (of_decide_eq_true h).le)]
    · rw [max_eq_left (by simpa using h)]
  simp only [hmax]
  have hsub : RFl.abs (RFl.fin e1 - RFl.fin e2 : F64) = RFl.fin (rnd64 |e1 - e2|) := by
    rw [RFl.sub_fin]
    show RFl.fin |rnd64 (e1 - e2)| = _
    rw [habs]
  rw [hsub]
  split_ifs with hc
  · rw [RFl.le_fin, decide_eq_true_eq, ← htr]
    apply rnd64_mono
    have hcase : e1 = 0 ∨ e2 = 0 ∨ max |e1| |e2| < tol := by
      simp only [Bool.or_eq_true] at hc
      rcases hc with (h | h) | h
      · left
        by_contra hne
        have : RFl.isZero (RFl.fin e1 : F64) = decide (e1 = 0) := rfl
        rw [this] at h
        exact hne (of_decide_eq_true h)
      · right; left
        have : RFl.isZero (RFl.fin e2 : F64) = decide (e2 = 0) := rfl
        rw [this] at h
        exact of_decide_eq_true h
      · right; right
        rw [RFl.lt_fin] at h
        exact of_decide_eq_true h
    rcases hcase with h | h | h
    · rw [h, abs_zero, mul_zero, zero_sub] at hd
      rw [h, zero_sub]; linarith
    · rw [h, sub_zero] at hd ⊢
      have : |e1| * (1 - tol) ≤ 0 := by nlinarith
      have := abs_nonneg e1
      nlinarith
    · nlinarith [abs_nonneg (e1 - e2), le_max_left |e1| |e2|, abs_nonneg e1]
  · rw [RFl.mul_fin, RFl.le_fin, decide_eq_true_eq]
    exact rnd64_mono hdm

/-- C101: a quantity and its conversion to another unit without offset are `almost_equal<7>` (hence for every larger
relative tolerance), for every finite value, whatever the units, when nothing overflows or underflows. -/
theorem C101_almost_equal (fuel : ℕ) (a b : QTy) (ha : a.scal.Valid) (hb : b.scal.Valid)
    (hra : a.scal.root = 1) (hrb : b.scal.root = 1) (hdim : a.dim = b.dim) (hoff : a.off = 0) (hoff' : b.off = 0)
    (hs : SmallPair binary64 a b) (k : ℕ) (hk : 7 ≤ k) (hk' : k < 2 ^ 53) (x : ℚ) :
    ∃ q : Qty F64, quantityCastF RFl.lt RFl.eqv fuel b (⟨a, RFl.fin x⟩ : Qty F64) = .ok q ∧ q.ty = b ∧
      almostEqualQ (k / 2 ^ 53) fuel (⟨a, RFl.fin x⟩ : Qty F64) q = .ok true := by
  refine ⟨_, cast64 fuel a b ha hb hra hrb hdim (hoff.trans hoff'.symm) hs x, rfl, ?_⟩
  have n1 : a.scal.num < 2 ^ 53 := lt_of_le_of_lt (Nat.le_mul_of_pos_right _ hb.2.1) hs.1
  have d1 : a.scal.den < 2 ^ 53 := lt_of_le_of_lt (Nat.le_mul_of_pos_left _ hb.1) hs.2
  have n2 : b.scal.num < 2 ^ 53 := lt_of_le_of_lt (Nat.le_mul_of_pos_right _ ha.2.1) hs.2
  have d2 : b.scal.den < 2 ^ 53 := lt_of_le_of_lt (Nat.le_mul_of_pos_left _ ha.1) hs.1
  unfold almostEqualQ
  rw [if_neg (by simpa using hdim)]
  simp only [eval64 fuel a hra n1 ha.2.1 d1 hoff, eval64 fuel b hrb n2 hb.2.1 d2 hoff', Res.bind_ok, Res.pure_eq]
  congr 1
  have pos : ∀ t : QTy, t.scal.Valid → (0 : ℚ) < (t.scal.num : ℚ) / t.scal.den := by
    intro t ht
    have h3 : (0 : ℚ) < t.scal.num := by exact_mod_cast ht.1
    have h4 : (0 : ℚ) < t.scal.den := by exact_mod_cast ht.2.1
    positivity
  set S : ℚ := (a.scal.num : ℚ) / a.scal.den with hS
  set T : ℚ := (b.scal.num : ℚ) / b.scal.den with hT
  have hSp : 0 < S := pos a ha
  have hTp : 0 < T := pos b hb
  have hT0 : T ≠ 0 := hTp.ne'
  have hr : ratio a b = S / T := rfl
  set v := rnd64 (rnd64 (ratio a b) * x) with hv
  have e1 := two_roundings64 hSp x
  have e2 := two_roundings64 (ratio_pos ha hb) x
  have e3 := two_roundings64 hTp v
  refine fpEqual_close (X := S * x) ?_ ?_ ?_ e1 ?_
  · have : (7 : ℚ) ≤ k := by exact_mod_cast hk
    gcongr
  · rw [div_lt_one (by norm_num)]; exact_mod_cast hk'
  · have := rnd64_exact (k : ℤ) (-53) (by rw [abs_of_nonneg (Int.natCast_nonneg k)]; exact_mod_cast hk')
    have e : ((k : ℤ) : ℚ) * (2 : ℚ) ^ (-53 : ℤ) = (k : ℚ) / 2 ^ 53 := by
      rw [zpow_neg, div_eq_mul_inv]; norm_num
    rw [e] at this
    exact this
  · have hTr : T * (ratio a b * x) = S * x := by
      rw [hr, ← mul_assoc, mul_div_cancel₀ _ hT0]
    have j1 : |T * v - S * x| ≤ ((1 + 1 / 2 ^ 53) ^ 2 - 1) * |S * x| := by
      rw [← hTr, ← mul_sub, abs_mul, abs_mul T, abs_of_pos hTp]
      calc _ ≤ T * (((1 + 1 / 2 ^ 53) ^ 2 - 1) * |ratio a b * x|) := mul_le_mul_of_nonneg_left e2 hTp.le
        _ = _ := by ring
    have j2 : |T * v| ≤ |T * v - S * x| + |S * x| := by
      have := abs_add_le (T * v - S * x) (S * x)
      rwa [sub_add_cancel] at this
    have j3 : |rnd64 (rnd64 T * v) - S * x| ≤ |rnd64 (rnd64 T * v) - T * v| + |T * v - S * x| := abs_sub_le _ _ _
    have j4 : (0 : ℚ) ≤ |S * x| := abs_nonneg _
    generalize |T * v - S * x| = p at *
    generalize |rnd64 (rnd64 T * v) - T * v| = q at *
    generalize |T * v| = y at *
    generalize |S * x| = z at *
    norm_num at *
    linarith

/-- C101 is false of the code with the default tolerance: one inch and its conversion to centimetres are not
`almost_equal`, whereas about one attometre and a hundred times as much (`1/1024` and `100/1024` femtometre) are. -/
theorem C101_almost_equal_false :
    (let inch : QTy := (lengthIn 127 5000 0).ty
     let cm : QTy := (lengthIn 1 100 0).ty
     ∃ v, quantityCastF RFl.lt RFl.eqv 1 cm (⟨inch, RFl.fin 1⟩ : Qty F64) = .ok ⟨cm, RFl.fin v⟩ ∧
       almostEqualQ tol64 1 (⟨inch, RFl.fin 1⟩ : Qty F64) ⟨cm, RFl.fin v⟩ = .ok false) ∧
    (let fm : QTy := (lengthIn 1 (10 ^ 15) 0).ty
     almostEqualQ tol64 1 (⟨fm, RFl.fin (1 / 2 ^ 10)⟩ : Qty F64) ⟨fm, RFl.fin (100 / 2 ^ 10)⟩ = .ok true) := by
  refine ⟨⟨_, cast64 1 (lengthIn 127 5000 0).ty (lengthIn 1 100 0).ty (by unfold RootRatio.Valid; decide)
    (by unfold RootRatio.Valid; decide) rfl rfl rfl rfl (by unfold SmallPair; decide +kernel) 1, ?_⟩, ?_⟩
  · unfold almostEqualQ
    rw [if_neg (by simp [lengthIn])]
    simp only [eval64 1 (lengthIn 127 5000 0).ty rfl (by decide) (by decide) (by decide) rfl,
      eval64 1 (lengthIn 1 100 0).ty rfl (by decide) (by decide) (by decide) rfl, Res.bind_ok, Res.pure_eq]
    congr 1
    decide +kernel
  · intro fm
    subst fm
    unfold almostEqualQ
    rw [if_neg (by simp [lengthIn])]
    simp only [eval64 1 (lengthIn 1 (10 ^ 15) 0).ty rfl (by decide) (by decide) (by decide) rfl,
      Res.bind_ok, Res.pure_eq]
    congr 1
    decide +kernel

end SciCpp
