import Verif.Model.QStats
import Verif.Props.Stats
import Verif.Props.MomentsF
import Verif.Props.QSum
import Verif.Props.Overload
import Verif.Props.QExpr
import Verif.Props.Arith64
/-
  Property theorems C128: statistics of arrays of quantities.
-/
namespace SciCpp
open Spec

/-- Valid template arguments and a rational scale (every unit of the library; the dimension may be any). -/
def QTy.RatScale (t : QTy) : Prop := t.Valid ∧ t.scal.root = 1

/-! ### types -/

theorem tyAdd_self (t : QTy) (h : t.RatScale) : tyAdd t t = .ok t := by
  unfold tyAdd commonQuantity
  rw [if_neg (by simp), if_neg (by simp), rrCommon_plain t.scal t.scal h.1.2 h.1.2 h.2 h.2]
  have : (⟨Nat.gcd t.scal.num t.scal.num, Nat.lcm t.scal.den t.scal.den, 1⟩ : RootRatio) = t.scal := by
    rw [Nat.gcd_self, Nat.lcm_self, ← h.2]
  show Res.ok (QTy.mk _ _ _) = _
  rw [this]

theorem sumTy_plain (t : QTy) (h : t.RatScale) : sumTy t = .ok t := by
  unfold sumTy
  rw [tyAdd_self t h]
  show (if t = t then _ else _) = _
  rw [if_pos rfl]; rfl

theorem tyMul_plain (t u : QTy) (ht : t.RatScale) (hu : u.RatScale) (h0 : u.off = 0) :
    ∃ w, tyMul t u = .ok w ∧ w.RatScale ∧ w.off = 0 ∧ w.dim.val = t.dim.val * u.dim.val ∧ w.scal.val = t.scal.val * u.scal.val := by
  obtain ⟨d, d1, d2, d3⟩ := C34_multiply t.dim u.dim ht.1.1 hu.1.1
  obtain ⟨s, s1, s2, s3⟩ := C34_multiply t.scal u.scal ht.1.2 hu.1.2
  refine ⟨⟨d, s, 0⟩, ?_, ⟨⟨d2, s2⟩, rrMul_root _ _ _ ht.2 hu.2 s1⟩, rfl, d3, s3⟩
  unfold tyMul
  rw [if_neg (by simp [h0]), d1, s1]; rfl

theorem tyDiv_plain (t u : QTy) (ht : t.RatScale) (hu : u.RatScale) (h0 : u.off = 0) :
    ∃ w, tyDiv t u = .ok w ∧ w.RatScale ∧ w.off = 0 ∧ w.dim.val = t.dim.val / u.dim.val ∧ w.scal.val = t.scal.val / u.scal.val := by
  obtain ⟨d, d1, d2, d3⟩ := C34_divide t.dim u.dim ht.1.1 hu.1.1
  obtain ⟨s, s1, s2, s3⟩ := C34_divide t.scal u.scal ht.1.2 hu.1.2
  refine ⟨⟨d, s, 0⟩, ?_, ⟨⟨d2, s2⟩, rrDiv_root _ _ _ ht.2 hu.2 s1⟩, rfl, d3, s3⟩
  unfold tyDiv
  rw [if_neg (by simp [h0]), d1, s1]; rfl

theorem tyPow_plain (n : ℕ) (t : QTy) (ht : t.RatScale) :
    ∃ w, tyPow n t = .ok w ∧ w.RatScale ∧ w.off = 0 ∧ w.dim.val = t.dim.val ^ n ∧ w.scal.val = t.scal.val ^ n := by
  obtain ⟨d, d1, d2, d3⟩ := C34_power t.dim ht.1.1 n
  obtain ⟨s, s1, s2, s3⟩ := C34_power t.scal ht.1.2 n
  refine ⟨⟨d, s, 0⟩, ?_, ⟨⟨d2, s2⟩, rrPow_root _ ht.2 n s s1⟩, rfl, d3, s3⟩
  unfold tyPow
  rw [d1, s1]; rfl

theorem rr_val_pos (r : RootRatio) (h : r.Valid) : 0 < r.val := by
  unfold RootRatio.val
  have h1 : (0 : ℝ) < r.num := by exact_mod_cast h.1
  have h2 : (0 : ℝ) < r.den := by exact_mod_cast h.2.1
  positivity

/-- The square root of a type whose scale is the square of a plain scale `s`. -/
theorem tyRoot_two (t : QTy) (ht : t.RatScale) (a : ℝ) (ha : 0 ≤ a) (hd : t.dim.val = a ^ 2) (s : RootRatio) (hs : s.Valid) (hr : s.root = 1)
    (hv : t.scal.val = s.val ^ 2) : ∃ w, tyRoot 2 t = .ok w ∧ w.RatScale ∧ w.off = 0 ∧ w.dim.val = a ∧ w.scal = s := by
  obtain ⟨d, d1, d2, d3⟩ := C34_root t.dim 2 ht.1.1 two_pos
  obtain ⟨r, s1, s2, s3⟩ := C34_root t.scal 2 ht.1.2 two_pos
  have root2 : ∀ b : ℝ, 0 ≤ b → (b ^ 2) ^ ((1 : ℝ) / (2 : ℕ)) = b := by
    intro b hb
    rw [one_div]
    exact Real.pow_rpow_inv_natCast hb two_ne_zero
  have e : r = s := by
    rw [hv, root2 _ (rr_val_pos s hs).le, plain_val s hr] at s3
    rw [C34_root_rational t.scal r 2 s.num s.den ht.1.2 two_pos hs.1 hs.2.1 hs.2.2.2 s1 s3, ← hr]
  refine ⟨⟨d, r, 0⟩, ?_, ⟨⟨d2, s2⟩, by show r.root = 1; rw [e, hr]⟩, rfl, ?_, e⟩
  · unfold tyRoot; rw [d1, s1]; rfl
  · show d.val = a
    rw [d3, hd, root2 a ha]

theorem covTy_zero (t u : QTy) (ht : t.RatScale) (hu : u.RatScale) (h0 : t.off = 0) (h0' : u.off = 0) : covTy t u = tyMul t u := by
  obtain ⟨w, w1, w2, -⟩ := tyMul_plain t u ht hu h0'
  unfold covTy
  rw [sumTy_plain t ht, sumTy_plain u hu]
  simp only [Res.bind_ok]
  rw [tyAdd_self t ht, tyAdd_self u hu]
  simp only [Res.bind_ok]
  rw [Ovl.tyMul_comm u t h0' h0, w1]
  simp only [Res.bind_ok]
  rw [tyAdd_self w w2]
  simp only [Res.bind_ok]
  rw [tyAdd_self w w2]
  show (if w = w then _ else _) = _
  rw [if_pos rfl]; rfl

theorem covTy_off (t u : QTy) (ht : t.RatScale) (hu : u.RatScale) (h : ¬ (t.off = 0 ∧ u.off = 0)) : covTy t u = .ub := by
  unfold covTy
  rw [sumTy_plain t ht, sumTy_plain u hu]
  simp only [Res.bind_ok]
  rw [tyAdd_self t ht, tyAdd_self u hu]
  simp only [Res.bind_ok]
  by_cases h0 : u.off = 0
  · have h1 : t.off ≠ 0 := fun e => h ⟨e, h0⟩
    obtain ⟨w, w1, w2, -⟩ := tyMul_plain t u ht hu h0
    rw [w1]
    simp only [Res.bind_ok]
    rw [tyAdd_self w w2]
    simp only [Res.bind_ok]
    have : tyMul u t = .ub := by unfold tyMul; rw [if_pos h1]
    rw [this]; rfl
  · have : tyMul t u = .ub := by unfold tyMul; rw [if_pos h0]
    rw [this]; rfl

theorem varTy_zero (t : QTy) (ht : t.RatScale) (h0 : t.off = 0) :
    ∃ w, varTy t = .ok w ∧ w.RatScale ∧ w.off = 0 ∧ w.dim.val = t.dim.val ^ 2 ∧ w.scal.val = t.scal.val ^ 2 := by
  obtain ⟨w, w1, w2, w3, w4, w5⟩ := tyMul_plain t t ht ht h0
  exact ⟨w, by rw [varTy, covTy_zero t t ht ht h0 h0, w1], w2, w3, by rw [w4, sq], by rw [w5, sq]⟩

theorem momentTy_ge3 (n : ℕ) (hn : 3 ≤ n) (t : QTy) (ht : t.RatScale) :
    ∃ w, momentTy n t = .ok w ∧ w.RatScale ∧ w.off = 0 ∧ w.dim.val = t.dim.val ^ n ∧ w.scal.val = t.scal.val ^ n := by
  obtain ⟨w, w1, w2, w3, w4, w5⟩ := tyPow_plain n t ht
  refine ⟨w, ?_, w2, w3, w4, w5⟩
  unfold momentTy
  rw [if_neg (by omega), if_neg (by omega), if_neg (by omega), sumTy_plain t ht]
  simp only [Res.bind_ok]
  rw [tyAdd_self t ht]
  simp only [Res.bind_ok]
  rw [w1]
  simp only [Res.bind_ok]
  rw [sumTy_plain w w2]

/-- Dimensionless with scale 1. -/
def QTy.Unity (w : QTy) : Prop := w.dim.val = 1 ∧ w.scal = ⟨1, 1, 1⟩ ∧ w.off = 0

theorem unity_scal (w : QTy) (hw : w.RatScale) (h : w.scal.val = 1) : w.scal = ⟨1, 1, 1⟩ := by
  have hv : (⟨1, 1, 1⟩ : RootRatio).Valid := ⟨one_pos, one_pos, one_pos, by decide⟩
  refine (C34_canonical_partial w.scal ⟨1, 1, 1⟩ hw.1.2 hv hw.2).mp ?_
  rw [h, plain_val _ rfl]; norm_num

theorem kurtosisTy_zero (fisher : Bool) (t : QTy) (ht : t.RatScale) (h0 : t.off = 0) :
    ∃ w, kurtosisTy fisher t = .ok w ∧ w.Unity := by
  obtain ⟨v, v1, v2, v3, v4, v5⟩ := varTy_zero t ht h0
  obtain ⟨m, m1, m2, m3, m4, m5⟩ := momentTy_ge3 4 (by norm_num) t ht
  obtain ⟨q, q1, q2, q3, q4, q5⟩ := tyMul_plain v v v2 v2 v3
  obtain ⟨k, k1, k2, k3, k4, k5⟩ := tyDiv_plain m q m2 q2 q3
  have hd := rr_val_pos t.dim ht.1.1
  have hs := rr_val_pos t.scal ht.1.2
  refine ⟨k, ?_, ?_, unity_scal k k2 ?_, k3⟩
  · unfold kurtosisTy
    have e2 : momentTy 2 t = .ok v := by unfold momentTy; simp [v1]
    rw [e2, m1]
    simp only [Res.bind_ok]
    rw [q1]
    simp only [Res.bind_ok]
    rw [k1]
    simp only [Res.bind_ok]
    cases fisher
    · rfl
    · exact tyAdd_self k k2
  · rw [k4, m4, q4, v4, div_eq_one_iff_eq (by positivity)]; ring
  · rw [k5, m5, q5, v5, div_eq_one_iff_eq (by positivity)]; ring

theorem skewTy_zero (t : QTy) (ht : t.RatScale) (h0 : t.off = 0) : ∃ w, skewTy t = .ok w ∧ w.Unity := by
  obtain ⟨v, v1, v2, v3, v4, v5⟩ := varTy_zero t ht h0
  obtain ⟨m, m1, m2, m3, m4, m5⟩ := momentTy_ge3 3 (by norm_num) t ht
  obtain ⟨q, q1, q2, q3, q4, q5⟩ := tyMul_plain v v v2 v2 v3
  obtain ⟨c, c1, c2, c3, c4, c5⟩ := tyMul_plain q v q2 v2 v3
  have hd := rr_val_pos t.dim ht.1.1
  have hs := rr_val_pos t.scal ht.1.2
  obtain ⟨r, r1, r2, r3, r4, r5⟩ := tyRoot_two c c2 (t.dim.val ^ 3) (by positivity) (by rw [c4, q4, v4]; ring) m.scal m2.1.2 m2.2
    (by rw [c5, q5, v5, m5]; ring)
  obtain ⟨k, k1, k2, k3, k4, k5⟩ := tyDiv_plain m r m2 r2 r3
  refine ⟨k, ?_, ?_, unity_scal k k2 ?_, k3⟩
  · unfold skewTy
    have e2 : momentTy 2 t = .ok v := by unfold momentTy; simp [v1]
    rw [e2, m1]
    simp only [Res.bind_ok]
    rw [q1]
    simp only [Res.bind_ok]
    rw [c1]
    simp only [Res.bind_ok]
    rw [r1]
    exact k1
  · rw [k4, m4, r4, div_self (by positivity)]
  · rw [k5, r5, div_self (rr_val_pos _ m2.1.2).ne']

theorem stdTy_zero (t : QTy) (ht : t.RatScale) (h0 : t.off = 0) :
    ∃ w, stdTy t = .ok w ∧ w.RatScale ∧ w.off = 0 ∧ w.dim.val = t.dim.val ∧ w.scal = t.scal := by
  obtain ⟨v, v1, v2, v3, v4, v5⟩ := varTy_zero t ht h0
  obtain ⟨r, r1, r2⟩ := tyRoot_two v v2 t.dim.val (rr_val_pos _ ht.1.1).le v4 t.scal ht.1.2 ht.2 v5
  refine ⟨r, ?_, r2⟩
  unfold stdTy
  rw [v1]; exact r1

theorem innerTy_zero (t u : QTy) (ht : t.RatScale) (hu : u.RatScale) (h0 : u.off = 0) : innerTy t u = tyMul t u := by
  obtain ⟨w, w1, w2, -⟩ := tyMul_plain t u ht hu h0
  unfold innerTy
  rw [w1]
  exact sumTy_plain w w2

theorem averageTy_iff (t u : QTy) (ht : t.RatScale) (hu : u.RatScale) (hd : t.dim.root = 1) :
    averageTy t u = if t.off = 0 ∧ u.off = 0 then .ok t else .ub := by
  unfold averageTy
  by_cases h0 : u.off = 0
  · obtain ⟨w, w1, w2, w3, w4, w5⟩ := tyMul_plain t u ht hu h0
    rw [innerTy_zero t u ht hu h0, w1, sumTy_plain u hu]
    simp only [Res.bind_ok]
    obtain ⟨k, k1, k2, k3, k4, k5⟩ := tyDiv_plain w u w2 hu h0
    have hdu := rr_val_pos u.dim hu.1.1
    have hsu := rr_val_pos u.scal hu.1.2
    have kd : k.dim = t.dim := by
      have : rrDiv w.dim u.dim = .ok k.dim := by
        unfold tyDiv at k1
        rw [if_neg (by simp [h0])] at k1
        cases hx : rrDiv w.dim u.dim with
        | ub => rw [hx] at k1; cases k1
        | ok d =>
          rw [hx] at k1
          cases hy : rrDiv w.scal u.scal with
          | ub => rw [hy] at k1; cases k1
          | ok s => rw [hy] at k1; injection k1 with k1; rw [← k1]
      exact div_canonical w.dim u.dim t.dim k.dim w2.1.1 hu.1.1 ht.1.1 hd this (by rw [k4, w4]; field_simp)
    have ks : k.scal = t.scal := by
      refine (C34_canonical_partial k.scal t.scal k2.1.2 ht.1.2 (k2.2.trans ht.2.symm)).mp ?_
      rw [k5, w5]; field_simp
    rw [k1]
    simp only [Res.bind_ok]
    by_cases h1 : t.off = 0
    · rw [if_pos (show k = t from ?_), if_pos ⟨h1, h0⟩]
      · rfl
      · cases k; cases t; simp_all
    · rw [if_neg (show k ≠ t from ?_), if_neg (fun e => h1 e.1)]
      rintro rfl; exact h1 k3
  · have : tyMul t u = .ub := by unfold tyMul; rw [if_pos h0]
    unfold innerTy
    rw [this, if_neg (fun e => h0 e.2)]; rfl

/-- C128: which statistics of an array of quantities compile: sums, means, medians, `ptp` and the central moments of order 3 and more for every
unit; variance, standard deviation, standard error, kurtosis and skewness exactly for units without an offset, the covariance exactly when neither
unit has one, the covariance matrix if moreover the dimensions agree (and not if they do not), the average with quantities as weights exactly if
neither unit has an offset. -/
theorem C128_compiles (t u : QTy) (ht : t.RatScale) (hu : u.RatScale) :
    sumTy t = .ok t ∧ medianTy t = .ok t ∧ ptpTy t = .ok t ∧ (∀ n, 3 ≤ n → ∃ w, momentTy n t = .ok w) ∧
    ((∃ w, varTy t = .ok w) ↔ t.off = 0) ∧ ((∃ w, stdTy t = .ok w) ↔ t.off = 0) ∧
    (∀ fisher, (∃ w, kurtosisTy fisher t = .ok w) ↔ t.off = 0) ∧ ((∃ w, skewTy t = .ok w) ↔ t.off = 0) ∧
    ((∃ w, covTy t u = .ok w) ↔ t.off = 0 ∧ u.off = 0) ∧
    (t.off = 0 → u.off = 0 → t.dim = u.dim → ∃ w, covMatrixTy t u = .ok w) ∧ (t.dim.val ≠ u.dim.val → covMatrixTy t u = .ub) ∧
    (t.dim.root = 1 → ((∃ w, averageTy t u = .ok w) ↔ t.off = 0 ∧ u.off = 0)) := by
  have ub : ∀ h : ¬ t.off = 0, varTy t = .ub := fun h => covTy_off t t ht ht (fun e => h e.1)
  have m2 : momentTy 2 t = varTy t := by unfold momentTy; simp
  refine ⟨sumTy_plain t ht, sumTy_plain t ht, sumTy_plain t ht, fun n hn => ?_, ?_, ?_, ?_, ?_, ?_, ?_, ?_, ?_⟩
  · obtain ⟨w, h, -⟩ := momentTy_ge3 n hn t ht
    exact ⟨w, h⟩
  · refine ⟨fun ⟨w, hw⟩ => ?_, fun h => ?_⟩
    · by_contra h; rw [ub h] at hw; cases hw
    · obtain ⟨w, h, -⟩ := varTy_zero t ht h
      exact ⟨w, h⟩
  · refine ⟨fun ⟨w, hw⟩ => ?_, fun h => ?_⟩
    · by_contra h; unfold stdTy at hw; rw [ub h] at hw; cases hw
    · obtain ⟨w, h, -⟩ := stdTy_zero t ht h
      exact ⟨w, h⟩
  · refine fun fisher => ⟨fun ⟨w, hw⟩ => ?_, fun h => ?_⟩
    · by_contra h; unfold kurtosisTy at hw; rw [m2, ub h] at hw; cases hw
    · obtain ⟨w, h, -⟩ := kurtosisTy_zero fisher t ht h
      exact ⟨w, h⟩
  · refine ⟨fun ⟨w, hw⟩ => ?_, fun h => ?_⟩
    · by_contra h; unfold skewTy at hw; rw [m2, ub h] at hw; cases hw
    · obtain ⟨w, h, -⟩ := skewTy_zero t ht h
      exact ⟨w, h⟩
  · refine ⟨fun ⟨w, hw⟩ => ?_, fun h => ?_⟩
    · by_contra h; rw [covTy_off t u ht hu h] at hw; cases hw
    · obtain ⟨w, w1, -⟩ := tyMul_plain t u ht hu h.2
      exact ⟨w, by rw [covTy_zero t u ht hu h.1 h.2, w1]⟩
  · intro h0 h0' hd
    unfold covMatrixTy
    have key : ∀ a b : QTy, a.off = 0 → b.off = 0 → a.RatScale → b.RatScale → a.dim = t.dim → b.dim = t.dim →
        ∀ w, covTy a b = .ok w → rrMul t.dim t.dim = .ok w.dim := by
      intro a b a0 b0 pa pb ea eb w hw
      rw [covTy_zero a b pa pb a0 b0] at hw
      unfold tyMul at hw
      rw [if_neg (by simp [b0]), ea, eb] at hw
      cases hx : rrMul t.dim t.dim with
      | ub => rw [hx] at hw; cases hw
      | ok d =>
        rw [hx] at hw
        cases hy : rrMul a.scal b.scal with
        | ub => rw [hy] at hw; cases hw
        | ok s => rw [hy] at hw; injection hw with hw; rw [← hw]
    obtain ⟨w, w1, -⟩ := tyMul_plain t u ht hu h0'
    obtain ⟨v, v1, -⟩ := varTy_zero t ht h0
    obtain ⟨v', v1', -⟩ := varTy_zero u hu h0'
    have e := covTy_zero t u ht hu h0 h0'
    rw [w1] at e
    have k1 := key t u h0 h0' ht hu rfl hd.symm w e
    have k2 := key t t h0 h0 ht ht rfl rfl v v1
    have k3 := key u u h0' h0' hu hu hd.symm hd.symm v' v1'
    rw [k1] at k2 k3
    injection k2 with k2
    injection k3 with k3
    rw [e, v1, v1']
    simp only [Res.bind_ok]
    rw [if_neg (by simp [k2]), if_neg (by simp [k3])]
    exact ⟨w, rfl⟩
  · intro hne
    unfold covMatrixTy
    by_cases h : t.off = 0 ∧ u.off = 0
    · obtain ⟨w, w1, -, -, w4, -⟩ := tyMul_plain t u ht hu h.2
      obtain ⟨v, v1, -, -, v4, -⟩ := varTy_zero t ht h.1
      obtain ⟨v', v1', -⟩ := varTy_zero u hu h.2
      rw [covTy_zero t u ht hu h.1 h.2, w1, v1, v1']
      simp only [Res.bind_ok]
      rw [if_pos]
      intro e
      rw [e, w4, sq] at v4
      exact hne (mul_left_cancel₀ (rr_val_pos _ ht.1.1).ne' v4).symm
    · rw [covTy_off t u ht hu h]; rfl
  · intro hd
    rw [averageTy_iff t u ht hu hd]
    by_cases h : t.off = 0 ∧ u.off = 0
    · rw [if_pos h]; exact ⟨fun _ => h, fun _ => ⟨t, rfl⟩⟩
    · rw [if_neg h]; exact ⟨fun hw => (by obtain ⟨w, hw⟩ := hw; cases hw), fun h2 => absurd h2 h⟩

/-! ### values in exact arithmetic -/

section exact
variable {K : Type} [Field K] [StarRing K] [DecidableEq K]

theorem divRecip_ex (x k : Ex K) : divRecip x k = x / k := by
  unfold divRecip
  rw [Ex.ofInt_def]
  cases k with
  | inf => cases x <;> rfl
  | nan => cases x <;> rfl
  | fin k =>
    by_cases h : k = 0
    · subst h
      rw [Ex.fin_div_zero, Ex.nan_mul]
      cases x with
      | fin a => rw [Ex.fin_div_zero]
      | inf => rfl
      | nan => rfl
    · rw [Ex.fin_div h]
      cases x with
      | fin a => rw [Ex.fin_mul, Ex.fin_div h, Int.cast_one, one_div_mul_eq_div]
      | inf => rfl
      | nan => rfl

theorem meanQ_ex (l : List (Ex K)) (p : Ex K → Bool) : meanQ l p = mean l p := by
  unfold meanQ mean
  simp only [divRecip_ex]

theorem covarianceQ_ex (ddof : ℤ) (a b : List (Ex K)) (p : Ex K → Bool) : covarianceQ ddof a b p = covarianceF ddof a b p := by
  have : covBlockQ p = covBlock (α := Ex K) p := by
    funext b1 b2
    unfold covBlockQ covBlock
    simp only [meanQ_ex]
  unfold covarianceQ covarianceF
  simp only [this, divRecip_ex]

theorem varQ_ex (ddof : ℤ) (a : List (Ex K)) (p : Ex K → Bool) : varQ ddof a p = varF ddof a p := covarianceQ_ex ddof a a p

theorem semQ_ex (ddof : ℤ) (sqrt : Ex K → Ex K) (a : List (Ex K)) (p : Ex K → Bool) : semQ ddof sqrt a p = sem ddof sqrt a p := by
  unfold semQ sem
  simp only [varQ_ex, divRecip_ex]

theorem momentQ_ex (n : ℕ) (a : List (Ex K)) (p : Ex K → Bool) : momentQ n a p = moment n a p := by
  unfold momentQ moment
  simp only [varQ_ex, meanQ_ex]

theorem kurtosisQ_ex (fisher : Bool) (a : List (Ex K)) (p : Ex K → Bool) : kurtosisQ fisher a p = kurtosis fisher a p := by
  unfold kurtosisQ kurtosis
  simp only [momentQ_ex]

theorem skewQ_ex (sqrt : Ex K → Ex K) (a : List (Ex K)) (p : Ex K → Bool) : skewQ sqrt a p = skew sqrt a p := by
  unfold skewQ skew
  simp only [momentQ_ex]

end exact

/-- The values `x` of unit `t` in base units, above the zero point of the unit. -/
noncomputable def QTy.inBase (t : QTy) (x : List ℝ) : List ℝ := x.map fun v => t.scal.val * v

theorem meanL_map_affine (a b : ℝ) (x : List ℝ) (hx : x ≠ []) : meanL (x.map fun v => a * v + b) = a * meanL x + b := by
  have hpos : (x.length : ℝ) ≠ 0 := by rw [Nat.cast_ne_zero]; exact (List.length_pos_iff.mpr hx).ne'
  have : (x.map fun v => a * v + b).sum = a * x.sum + x.length * b := by
    clear hx hpos
    induction x with
    | nil => simp
    | cons c x ih => simp only [List.map_cons, List.sum_cons, ih, List.length_cons]; push_cast; ring
  unfold meanL
  rw [this, List.length_map]
  field_simp

theorem meanL_map_mul (a : ℝ) (x : List ℝ) : meanL (x.map fun v => a * v) = a * meanL x := by
  unfold meanL
  rw [List.sum_map_mul_left, List.length_map, List.map_id', mul_div_assoc]

theorem covL_scale (ddof : ℤ) (a b : ℝ) (x y : List ℝ) :
    covL ddof ((x.map fun v => a * v).zip (y.map fun v => b * v)) = a * b * covL ddof (x.zip y) := by
  have hz : (x.map fun v => a * v).zip (y.map fun v => b * v) = (x.zip y).map fun q => (a * q.1, b * q.2) := by
    rw [List.zip_map]; rfl
  unfold covL covSum
  rw [hz]
  simp only [List.map_map, List.length_map]
  have e1 : List.map (Prod.fst ∘ fun q : ℝ × ℝ => (a * q.1, b * q.2)) (x.zip y) = ((x.zip y).map Prod.fst).map fun v => a * v := by
    rw [List.map_map]; rfl
  have e2 : List.map (Prod.snd ∘ fun q : ℝ × ℝ => (a * q.1, b * q.2)) (x.zip y) = ((x.zip y).map Prod.snd).map fun v => b * v := by
    rw [List.map_map]; rfl
  rw [e1, e2, meanL_map_mul, meanL_map_mul, ← mul_div_assoc]
  congr 1
  rw [← List.sum_map_mul_left]
  congr 1
  apply List.map_congr_left
  intro q _
  simp only [Function.comp_apply, star_trivial]
  ring

theorem centralMoment_scale (n : ℕ) (a : ℝ) (x : List ℝ) : centralMoment n (x.map fun v => a * v) = a ^ n * centralMoment n x := by
  unfold centralMoment
  rw [meanL_map_mul, List.map_map, List.length_map, ← mul_div_assoc]
  congr 1
  rw [← List.sum_map_mul_left]
  congr 1
  apply List.map_congr_left
  intro q _
  simp only [Function.comp_apply]
  rw [← mul_sub, mul_pow]

/-- C128: the mean of quantities has their unit and, converted to the base unit (zero point included), is the mean of the converted values: also for
temperatures in degrees Celsius. -/
theorem C128_mean (t : QTy) (ht : t.RatScale) (x : List ℝ) (hx : x ≠ []) (hlen : x.length < 2 ^ 31) :
    ∃ m, qMean t (x.map Ex.fin) (fun _ => true) = .ok ⟨t, Ex.fin m⟩ ∧
      t.scal.val * m + t.off = meanL (x.map fun v => t.scal.val * v + t.off) := by
  refine ⟨meanL x, ?_, (meanL_map_affine _ _ x hx).symm⟩
  unfold qMean
  rw [sumTy_plain t ht, meanQ_ex, C15_mean (x.map Ex.fin) (fun _ => true) x (by simp) hx hlen]
  rfl

/-- C128: the covariance of two arrays of quantities has the product of the units, and is the covariance of the arrays in base units. -/
theorem C128_covariance (ddof : ℤ) (t u : QTy) (ht : t.RatScale) (hu : u.RatScale) (h0 : t.off = 0) (h0' : u.off = 0) (x y : List ℝ)
    (hl : x.length = y.length) (hx : x ≠ []) (hlen : x.length < 2 ^ 31) (hd : ddof < x.length) :
    ∃ w v, qCovariance ddof t u (x.map Ex.fin) (y.map Ex.fin) (fun _ => true) = .ok ⟨w, Ex.fin v⟩ ∧ w.off = 0 ∧
      w.dim.val = t.dim.val * u.dim.val ∧ w.scal.val * v = covL ddof ((t.inBase x).zip (u.inBase y)) := by
  obtain ⟨w, w1, w2, w3, w4, w5⟩ := tyMul_plain t u ht hu h0'
  refine ⟨w, covL ddof (x.zip y), ?_, w3, w4, ?_⟩
  · unfold qCovariance
    rw [covTy_zero t u ht hu h0 h0', w1, covarianceQ_ex, C18_covariance ddof x y hl hx hlen hd]
    rfl
  · rw [QTy.inBase, QTy.inBase, covL_scale, w5]

/-- C128: the variance has the square of the unit. -/
theorem C128_var (ddof : ℤ) (t : QTy) (ht : t.RatScale) (h0 : t.off = 0) (x : List ℝ)
    (hx : x ≠ []) (hlen : x.length < 2 ^ 31) (hd : ddof < x.length) :
    ∃ w v, qVar ddof t (x.map Ex.fin) (fun _ => true) = .ok ⟨w, Ex.fin v⟩ ∧ w.off = 0 ∧
      w.dim.val = t.dim.val ^ 2 ∧ w.scal.val * v = covL ddof ((t.inBase x).zip (t.inBase x)) := by
  obtain ⟨w, v, h1, h2, h3, h4⟩ := C128_covariance ddof t t ht ht h0 h0 x x rfl hx hlen hd
  exact ⟨w, v, h1, h2, by rw [h3, sq], h4⟩

/-- C128: standard deviation and standard error have the dimension and the scale of the data again, and are those of the data in base units. -/
theorem C128_std_sem (ddof : ℤ) (t : QTy) (ht : t.RatScale) (h0 : t.off = 0) (x : List ℝ)
    (hx : x ≠ []) (hlen : x.length < 2 ^ 31) (hd : ddof < x.length) :
    ∃ w s e, qStd ddof exSqrt t (x.map Ex.fin) (fun _ => true) = .ok ⟨w, Ex.fin s⟩ ∧
      qSem ddof exSqrt t (x.map Ex.fin) (fun _ => true) = .ok ⟨w, Ex.fin e⟩ ∧ w.off = 0 ∧ w.dim.val = t.dim.val ∧ w.scal = t.scal ∧
      t.scal.val * s = Real.sqrt (covL ddof ((t.inBase x).zip (t.inBase x))) ∧
      t.scal.val * e = Real.sqrt (covL ddof ((t.inBase x).zip (t.inBase x)) / x.length) := by
  obtain ⟨w, w1, -, w3, w4, w5⟩ := stdTy_zero t ht h0
  have hs := rr_val_pos t.scal ht.1.2
  refine ⟨w, Real.sqrt (covL ddof (x.zip x)), Real.sqrt (covL ddof (x.zip x) / x.length), ?_, ?_, w3, w4, w5, ?_, ?_⟩
  · unfold qStd stdQ
    rw [w1, varQ_ex, varF, C18_covariance ddof x x rfl hx hlen hd]
    rfl
  · unfold qSem
    rw [w1, semQ_ex, C20_sem ddof x hx hlen hd]
    rfl
  · rw [QTy.inBase, covL_scale, Real.sqrt_mul (by positivity), Real.sqrt_mul_self hs.le]
  · rw [QTy.inBase, covL_scale, mul_div_assoc, Real.sqrt_mul (by positivity), Real.sqrt_mul_self hs.le]

/-- C128: the central moment of order `n ≥ 3` has the `n`-th power of the unit and is that of the data in base units, also for units with an
offset; so does that of order 2 for units without one. -/
theorem C128_moment (n : ℕ) (hn : 3 ≤ n ∨ n = 2) (t : QTy) (ht : t.RatScale) (h0 : n = 2 → t.off = 0) (x : List ℝ)
    (hx : x ≠ []) (hlen : x.length < 2 ^ 31) :
    ∃ w v, qMoment n t (x.map Ex.fin) (fun _ => true) = .ok ⟨w, Ex.fin v⟩ ∧ w.off = 0 ∧
      w.dim.val = t.dim.val ^ n ∧ w.scal.val * v = centralMoment n (t.inBase x) := by
  have : ∃ w, momentTy n t = .ok w ∧ w.off = 0 ∧ w.dim.val = t.dim.val ^ n ∧ w.scal.val = t.scal.val ^ n := by
    rcases hn with hn | hn
    · obtain ⟨w, h1, -, h3, h4, h5⟩ := momentTy_ge3 n hn t ht
      exact ⟨w, h1, h3, h4, h5⟩
    · subst hn
      obtain ⟨w, h1, -, h3, h4, h5⟩ := varTy_zero t ht (h0 rfl)
      exact ⟨w, by unfold momentTy; simpa using h1, h3, h4, h5⟩
  obtain ⟨w, h1, h3, h4, h5⟩ := this
  refine ⟨w, centralMoment n x, ?_, h3, h4, ?_⟩
  · unfold qMoment
    rw [h1, momentQ_ex, C20_moment n x hx hlen]
    rfl
  · rw [h5, QTy.inBase, centralMoment_scale]

/-- C128: kurtosis and skewness are numbers (dimensionless, scale 1), the same ones in every unit: those of the data in base units. -/
theorem C128_kurtosis_skew (t : QTy) (ht : t.RatScale) (h0 : t.off = 0) (x : List ℝ)
    (hx : x ≠ []) (hlen : x.length < 2 ^ 31) (hm : centralMoment 2 x ≠ 0) :
    ∃ w1 w2 w3 : QTy, w1.Unity ∧ w2.Unity ∧ w3.Unity ∧
      qKurtosis false t (x.map Ex.fin) (fun _ => true)
        = .ok ⟨w1, Ex.fin (centralMoment 4 (t.inBase x) / centralMoment 2 (t.inBase x) ^ 2)⟩ ∧
      qKurtosis true t (x.map Ex.fin) (fun _ => true)
        = .ok ⟨w2, Ex.fin (centralMoment 4 (t.inBase x) / centralMoment 2 (t.inBase x) ^ 2 - 3)⟩ ∧
      qSkew exSqrt t (x.map Ex.fin) (fun _ => true)
        = .ok ⟨w3, Ex.fin (centralMoment 3 (t.inBase x) / centralMoment 2 (t.inBase x) ^ (3 / 2 : ℝ))⟩ := by
  obtain ⟨w1, a1, a2⟩ := kurtosisTy_zero false t ht h0
  obtain ⟨w2, b1, b2⟩ := kurtosisTy_zero true t ht h0
  obtain ⟨w3, c1, c2⟩ := skewTy_zero t ht h0
  have hs := rr_val_pos t.scal ht.1.2
  have hk := (C20_kurtosis x hx hlen).1 hm
  have hpos : 0 < centralMoment 2 x :=
    lt_of_le_of_ne (centralMoment_even_nonneg 2 (by decide) x) (Ne.symm hm)
  have e : centralMoment 4 (t.inBase x) / centralMoment 2 (t.inBase x) ^ 2 = centralMoment 4 x / centralMoment 2 x ^ 2 := by
    rw [QTy.inBase, centralMoment_scale, centralMoment_scale]
    field_simp
  have e3 : centralMoment 3 (t.inBase x) / centralMoment 2 (t.inBase x) ^ (3 / 2 : ℝ) = centralMoment 3 x / centralMoment 2 x ^ (3 / 2 : ℝ) := by
    rw [QTy.inBase, centralMoment_scale, centralMoment_scale, Real.mul_rpow (by positivity) hpos.le]
    have : (t.scal.val ^ 2) ^ (3 / 2 : ℝ) = t.scal.val ^ 3 := by
      rw [← Real.rpow_natCast, ← Real.rpow_natCast, ← Real.rpow_mul hs.le]
      norm_num
    rw [this]
    have := Real.rpow_pos_of_pos hpos (3 / 2 : ℝ)
    field_simp
  refine ⟨w1, w2, w3, a2, b2, c2, ?_, ?_, ?_⟩
  · rw [e, qKurtosis, a1, kurtosisQ_ex, hk.1]; rfl
  · rw [e, qKurtosis, b1, kurtosisQ_ex, hk.2.1]; rfl
  · rw [e3, qSkew, c1, skewQ_ex, C20_skew x hx hlen hm]; rfl

/-- C128: the weighted average has the unit of the data, whatever the unit of the weights, and is the average of the data in base units; so is the
average with numbers as weights, in which the zero point may be any. -/
theorem C128_average (t u : QTy) (ht : t.RatScale) (hu : u.RatScale) (hd : t.dim.root = 1) (h0 : t.off = 0) (h0' : u.off = 0) (f w : List ℝ)
    (hf : f ≠ []) (hl : f.length = w.length) (hw : w.sum ≠ 0) :
    ∃ v, qAverage t u (f.map Ex.fin) (w.map Ex.fin) = .ok ⟨t, Ex.fin v⟩ ∧
      t.scal.val * v = (List.zipWith (· * ·) (t.inBase f) (u.inBase w)).sum / (u.inBase w).sum := by
  refine ⟨(List.zipWith (· * ·) f w).sum / w.sum, ?_, ?_⟩
  · unfold qAverage
    rw [averageTy_iff t u ht hu hd, if_pos ⟨h0, h0'⟩, (C15_average f w).1 hf hl hw]
    rfl
  · have hs := (rr_val_pos u.scal hu.1.2).ne'
    have e : (List.zipWith (· * ·) (t.inBase f) (u.inBase w)).sum = t.scal.val * u.scal.val * (List.zipWith (· * ·) f w).sum := by
      unfold QTy.inBase
      clear hf hw hl
      induction f generalizing w with
      | nil => simp
      | cons a f ih =>
        cases w with
        | nil => simp
        | cons b w => simp only [List.map_cons, List.zipWith_cons_cons, List.sum_cons, ih]; ring
    have e2 : (u.inBase w).sum = u.scal.val * w.sum := by
      unfold QTy.inBase; rw [List.sum_map_mul_left, List.map_id']
    rw [e, e2]
    field_simp

@[inherit_doc C128_average]
theorem C128_average_numbers (t : QTy) (ht : t.RatScale) (f w : List ℝ)
    (hf : f ≠ []) (hl : f.length = w.length) (hw : w.sum ≠ 0) :
    ∃ v, qAverageN t (f.map Ex.fin) (w.map Ex.fin) = .ok ⟨t, Ex.fin v⟩ ∧
      t.scal.val * v + t.off = (List.zipWith (fun a b => (t.scal.val * a + t.off) * b) f w).sum / w.sum := by
  have hav := (C15_average f w).1 hf hl hw
  refine ⟨(List.zipWith (· * ·) f w).sum / w.sum, ?_, ?_⟩
  · unfold qAverageN
    rw [sumTy_plain t ht]
    unfold average at hav
    simp only [Res.bind_ok]
    have hb : ((f.map (Ex.fin (K := ℝ))).isEmpty || (f.map (Ex.fin (K := ℝ))).length != (w.map (Ex.fin (K := ℝ))).length) = false := by
      simp [hf, hl]
    rw [hb, if_neg (by decide)] at hav ⊢
    cases hi : inner (f.map Ex.fin) (w.map Ex.fin) with
    | ub => rw [hi] at hav; cases hav
    | ok s =>
      rw [hi] at hav
      simp only [Res.bind_ok] at hav ⊢
      rw [divRecip_ex]
      injection hav with hav
      rw [hav]; rfl
  · have e : (List.zipWith (fun a b => (t.scal.val * a + t.off) * b) f w).sum = t.scal.val * (List.zipWith (· * ·) f w).sum + t.off * w.sum := by
      clear hf hw hav
      induction f generalizing w with
      | nil =>
        cases w with
        | nil => simp
        | cons b w => simp at hl
      | cons a f ih =>
        cases w with
        | nil => simp at hl
        | cons b w => simp only [List.zipWith_cons_cons, List.sum_cons, ih w (by simpa using hl)]; ring
    rw [e]
    field_simp

/-- C128: `moment<0>` and `moment<1>` are 1 and 0 in the unit of the data (not a number, not the first power of zero). -/
theorem C128_moment_01 (t : QTy) (l : List (Ex ℝ)) (p : Ex ℝ → Bool) :
    qMoment 0 t l p = .ok ⟨t, Ex.fin 1⟩ ∧ qMoment 1 t l p = .ok ⟨t, Ex.fin 0⟩ := by
  constructor
  · unfold qMoment momentTy momentQ; simp
  · unfold qMoment momentTy momentQ; simp

/-- C128: "the zeroth moment is 1 whatever the unit" is false: of the same two lengths it is 1 m or 1 km, depending on the unit in which they are
given. -/
theorem C128_moment_zero_false : ∃ m km : QTy, m.RatScale ∧ km.RatScale ∧ m.dim = km.dim ∧ m.off = 0 ∧ km.off = 0 ∧
    m.inBase [1000, 3000] = km.inBase [1, 3] ∧ ∃ a b : ℝ,
      qMoment 0 m ([1000, 3000].map Ex.fin) (fun _ => true) = .ok ⟨m, Ex.fin a⟩ ∧
      qMoment 0 km ([1, 3].map Ex.fin) (fun _ => true) = .ok ⟨km, Ex.fin b⟩ ∧ m.scal.val * a ≠ km.scal.val * b := by
  refine ⟨⟨⟨2, 1, 1⟩, ⟨1, 1, 1⟩, 0⟩, ⟨⟨2, 1, 1⟩, ⟨1000, 1, 1⟩, 0⟩, ⟨⟨⟨by decide, by decide, by decide, by decide⟩,
    ⟨by decide, by decide, by decide, by decide⟩⟩, rfl⟩, ⟨⟨⟨by decide, by decide, by decide, by decide⟩,
    ⟨by decide, by decide, by decide, by decide⟩⟩, rfl⟩, rfl, rfl, rfl, ?_, 1, 1, (C128_moment_01 _ _ _).1, (C128_moment_01 _ _ _).1, ?_⟩
  · unfold QTy.inBase
    rw [plain_val _ rfl, plain_val _ rfl]
    norm_num
  · rw [plain_val _ rfl, plain_val _ rfl]
    norm_num

/-- C128: the third moment of temperatures in degrees Celsius compiles, their variance does not, and their mean is right. -/
theorem C128_celsius : ∃ c : QTy, c.RatScale ∧ c.off = 273.15 ∧ (∃ w, momentTy 3 c = .ok w) ∧ varTy c = .ub ∧ sumTy c = .ok c := by
  have h : (⟨⟨5, 1, 1⟩, ⟨1, 1, 1⟩, 273.15⟩ : QTy).RatScale :=
    ⟨⟨⟨by decide, by decide, by decide, by decide⟩, ⟨by decide, by decide, by decide, by decide⟩⟩, rfl⟩
  obtain ⟨w, hw, -⟩ := momentTy_ge3 3 le_rfl _ h
  refine ⟨_, h, rfl, ⟨w, hw⟩, covTy_off _ _ h h ?_, sumTy_plain _ h⟩
  rintro ⟨h1, -⟩
  norm_num at h1

/-- C128: the difference of the extrema of temperatures keeps the zero point of the unit: between 10 °C and 20 °C it is "10 °C", which is 283.15 K in
base units and not 10 K. -/
theorem C128_ptp_offset_false : ∃ c : QTy, c.RatScale ∧ c.off = 273.15 ∧
    qPtp c (fun a b : Ex ℚ => match a, b with | .fin a, .fin b => decide (a < b) | _, _ => false) [Ex.fin 10, Ex.fin 20] = .ok ⟨c, Ex.fin 10⟩ ∧
    c.scal.val * (10 : ℝ) + c.off ≠ (c.scal.val * 20 + c.off) - (c.scal.val * 10 + c.off) := by
  have h : (⟨⟨5, 1, 1⟩, ⟨1, 1, 1⟩, 273.15⟩ : QTy).RatScale :=
    ⟨⟨⟨by decide, by decide, by decide, by decide⟩, ⟨by decide, by decide, by decide, by decide⟩⟩, rfl⟩
  refine ⟨_, h, rfl, ?_, ?_⟩
  · unfold qPtp ptpTy
    rw [sumTy_plain _ h]
    have : ptp CppNum.qnan (fun a b : Ex ℚ => match a, b with | .fin a, .fin b => decide (a < b) | _, _ => false) [Ex.fin 10, Ex.fin 20]
        = Ex.fin 10 := by decide +kernel
    rw [this]; rfl
  · rw [plain_val _ rfl]
    norm_num

/-! ### rounded arithmetic -/

section rounded
variable {rnd : ℚ → ℚ} {c d u : ℚ}

theorem divRecip_scale (hc0 : c ≠ 0) (hc : ∀ q, rnd (c * q) = c * rnd q) (x k : RFl rnd) :
    divRecip (RFl.scale c x) k = RFl.scale c (divRecip x k) := scale_comm_mul hc0 hc _ _

theorem meanQ_scale (hc0 : c ≠ 0) (hc : ∀ q, rnd (c * q) = c * rnd q) (l : List (RFl rnd))
    (p p' : RFl rnd → Bool) (hp : ∀ x, p' (RFl.scale c x) = p x) :
    meanQ (l.map (RFl.scale c)) p' = RFl.scale c (meanQ l p) := by
  unfold meanQ
  rw [List.length_map]
  split_ifs
  · rfl
  · simp only [sumF_scale hc l p p' hp false, divRecip_scale hc0 hc]

theorem covQ_pairwise_scale (hc0 : c ≠ 0) (hd0 : d ≠ 0) (hc : ∀ q, rnd (c * q) = c * rnd q)
    (hd : ∀ q, rnd (d * q) = d * rnd q) (p p' : RFl rnd → Bool) (hp : ∀ x, p' (RFl.scale c x) = p x)
    (hp2 : ∀ x, p' (RFl.scale d x) = p x) (a b : List (RFl rnd)) :
    pairwiseAcc2 pwBlock (covBlockQ p') covCombine (a.map (RFl.scale c)) (b.map (RFl.scale d))
      = (pairwiseAcc2 pwBlock (covBlockQ p) covCombine a b).map (scaleAcc c d) := by
  induction hL : a.length using Nat.strong_induction_on generalizing a b with
  | _ n ih =>
    subst hL
    unfold pairwiseAcc2
    simp only [List.length_map, ne_eq]
    split_ifs with h1 h2
    · unfold covBlockQ
      have := covLoop_scale hc0 hd0 hc hd p p' hp hp2 (meanQ a p) (meanQ b p) a b 0 0
      rw [RFl.scale_zero] at this
      simp only [meanQ_scale hc0 hc a p p' hp, meanQ_scale hd0 hd b p p' hp2, this]
      cases covLoop p (meanQ a p) (meanQ b p) 0 0 a b with
      | ub => rfl
      | ok z => rfl
    · simp only [pwBlock, not_le] at h2
      simp only [← List.map_take, ← List.map_drop]
      rw [ih _ (by simp; omega) (a.take (a.length / 2)) (b.take (a.length / 2)) rfl,
        ih _ (by simp; omega) (a.drop (a.length / 2)) (b.drop (a.length / 2)) rfl]
      cases pairwiseAcc2 pwBlock (covBlockQ p) covCombine (a.take (a.length / 2)) (b.take (a.length / 2)) with
      | ub => rfl
      | ok z1 =>
        cases pairwiseAcc2 pwBlock (covBlockQ p) covCombine (a.drop (a.length / 2)) (b.drop (a.length / 2)) with
        | ub => rfl
        | ok z2 =>
          show Res.ok (covCombine (scaleAcc c d z1) (scaleAcc c d z2)) = Res.ok (scaleAcc c d (covCombine z1 z2))
          rw [covCombine_scale hc0 hd0 hc hd]
    · rfl

theorem covarianceQ_scale (hcd0 : 0 < c * d) (hc : ∀ q, rnd (c * q) = c * rnd q)
    (hd : ∀ q, rnd (d * q) = d * rnd q) (p : RFl rnd → Bool) (hp : ScaleFree p) (ddof : ℤ) (x y : List (RFl rnd)) :
    covarianceQ ddof (x.map (RFl.scale c)) (y.map (RFl.scale d)) p
      = (covarianceQ ddof x y p).map fun r => (RFl.scale (c * d) r.1, r.2) := by
  have hc0 : c ≠ 0 := left_ne_zero_of_mul hcd0.ne'
  have hd0 : d ≠ 0 := right_ne_zero_of_mul hcd0.ne'
  have hcd : ∀ q, rnd (c * d * q) = c * d * rnd q := fun q => by rw [mul_assoc, hc, hd, mul_assoc]
  unfold covarianceQ
  rw [covQ_pairwise_scale hc0 hd0 hc hd p p (hp c hc0) (hp d hd0)]
  simp only [List.length_map]
  cases hreq : (x.length == y.length) with
  | false => rfl
  | true =>
    simp only [require_true, Res.bind_ok, Res.pure_eq]
    split_ifs with hl
    · rfl
    · cases pairwiseAcc2 pwBlock (covBlockQ p) covCombine x y with
      | ub => rfl
      | ok z =>
        obtain ⟨m1, m2, cv, cnt⟩ := z
        show (if (cnt : ℤ) - ddof ≤ 0 then Res.ok (CppNum.infty, cnt)
          else Res.ok (divRecip (RFl.scale (c * d) cv) (CppNum.ofInt (toI32 cnt - ddof)), cnt)) =
          Res.map _ (if (cnt : ℤ) - ddof ≤ 0 then Res.ok (CppNum.infty, cnt)
          else Res.ok (divRecip cv (CppNum.ofInt (toI32 cnt - ddof)), cnt))
        split_ifs
        · show _ = Res.ok (RFl.scale (c * d) (RFl.inf false), cnt)
          rw [RFl.scale_inf, decide_eq_false (not_lt.mpr hcd0.le)]; rfl
        · show _ = Res.ok (RFl.scale (c * d) _, cnt)
          rw [divRecip_scale (mul_ne_zero hc0 hd0) hcd]

theorem momentQ_scale (hc0 : c ≠ 0) (hc : ∀ q, rnd (c * q) = c * rnd q) (n : ℕ) (hn : 2 ≤ n)
    (l : List (RFl rnd)) (p : RFl rnd → Bool) (hp : ScaleFree p) :
    momentQ n (l.map (RFl.scale c)) p = (momentQ n l p).map (RFl.scale (c ^ n)) := by
  unfold momentQ
  have h0 : ¬ n = 0 := by omega
  have h1 : ¬ n = 1 := by omega
  simp only [if_neg h0, if_neg h1]
  split_ifs with n2
  · subst n2
    unfold varQ
    have hcc : 0 < c * c := mul_self_pos.mpr hc0
    rw [covarianceQ_scale hcc hc hc p hp, sq]
    cases covarianceQ 0 l l p <;> rfl
  · show Res.ok _ = Res.ok (RFl.scale _ _)
    congr 1
    rw [meanQ_scale hc0 hc l p p (hp c hc0), List.map_map]
    have e : l.map ((fun x => powSq (x - RFl.scale c (meanQ l p)) (n : ℤ)) ∘ RFl.scale c)
        = (l.map fun x => powSq (x - meanQ l p) (n : ℤ)).map (RFl.scale (c ^ n)) := by
      rw [List.map_map]
      apply List.map_congr_left
      intro x _
      simp only [Function.comp_apply]
      rw [← RFl.scale_sub hc, powSq_scale hc0 hc, Int.natAbs_natCast]
    rw [e, meanQ_scale (pow_ne_zero n hc0) (comm_pow hc n) _ p p (hp _ (pow_ne_zero n hc0))]

/-- C128: in rounded arithmetic the unit does not matter when one unit is `c` times the other and the rounding commutes with `c` (a power of two:
bytes and kibibytes): converting the data first and converting the result give the same bits, for mean, covariance, variance, moments, standard
deviation and standard error, NaN, infinities, the empty array and undefined calls included. -/
theorem C128_unit_change (hc0 : 0 < c) (hd0 : 0 < d) (hc : ∀ q, rnd (c * q) = c * rnd q) (hd : ∀ q, rnd (d * q) = d * rnd q) (ddof : ℤ)
    (sqrt : RFl rnd → RFl rnd) (hs : SqrtScales c sqrt) (x y : List (RFl rnd)) (p : RFl rnd → Bool) (hp : ScaleFree p) :
    meanQ (x.map (RFl.scale c)) p = RFl.scale c (meanQ x p) ∧
    covarianceQ ddof (x.map (RFl.scale c)) (y.map (RFl.scale d)) p
      = (covarianceQ ddof x y p).map (fun r => (RFl.scale (c * d) r.1, r.2)) ∧
    (∀ n, 2 ≤ n → momentQ n (x.map (RFl.scale c)) p = (momentQ n x p).map (RFl.scale (c ^ n))) ∧
    stdQ ddof sqrt (x.map (RFl.scale c)) p = (stdQ ddof sqrt x p).map (RFl.scale c) ∧
    semQ ddof sqrt (x.map (RFl.scale c)) p = (semQ ddof sqrt x p).map (RFl.scale c) := by
  have hcc : 0 < c * c := mul_pos hc0 hc0
  have hcc' : ∀ q, rnd (c * c * q) = c * c * rnd q := fun q => by rw [mul_assoc, hc, hc, mul_assoc]
  refine ⟨meanQ_scale hc0.ne' hc x p p (hp c hc0.ne'), covarianceQ_scale (mul_pos hc0 hd0) hc hd p hp ddof x y,
    fun n hn => momentQ_scale hc0.ne' hc n hn x p hp, ?_, ?_⟩
  · unfold stdQ varQ
    rw [covarianceQ_scale hcc hc hc p hp]
    cases covarianceQ ddof x x p with
    | ub => rfl
    | ok r =>
      show Res.ok (sqrt (RFl.scale (c * c) r.1)) = Res.ok (RFl.scale c (sqrt r.1))
      rw [← sq, hs, abs_of_pos hc0]
  · unfold semQ varQ
    rw [covarianceQ_scale hcc hc hc p hp]
    cases covarianceQ ddof x x p with
    | ub => rfl
    | ok r =>
      show Res.ok (sqrt (divRecip (RFl.scale (c * c) r.1) _)) = Res.ok (RFl.scale c (sqrt (divRecip r.1 _)))
      rw [divRecip_scale hcc.ne' hcc', ← sq, hs, abs_of_pos hc0]

/-- C128: kurtosis and skewness of quantities are the same bits in both units. -/
theorem C128_unit_change_ratio (hc0 : 0 < c) (hc : ∀ q, rnd (c * q) = c * rnd q) (fisher : Bool)
    (sqrt : RFl rnd → RFl rnd) (hs : SqrtScales (c ^ 3) sqrt) (x : List (RFl rnd)) (p : RFl rnd → Bool) (hp : ScaleFree p) :
    kurtosisQ fisher (x.map (RFl.scale c)) p = kurtosisQ fisher x p ∧ skewQ sqrt (x.map (RFl.scale c)) p = skewQ sqrt x p := by
  have hn := hc0.ne'
  constructor
  · unfold kurtosisQ
    rw [momentQ_scale hn hc 2 le_rfl x p hp, momentQ_scale hn hc 4 (by norm_num) x p hp]
    cases momentQ 2 x p with
    | ub => rfl
    | ok m2 =>
      cases momentQ 4 x p with
      | ub => rfl
      | ok m4 =>
        have e : RFl.scale (c ^ 4) m4 / (RFl.scale (c ^ 2) m2 * RFl.scale (c ^ 2) m2) = m4 / (m2 * m2) := by
          rw [← RFl.scale_mul (pow_ne_zero 2 hn) (pow_ne_zero 2 hn) (comm_pow hc 2) (comm_pow hc 2), ← pow_add]
          exact scale_div_scale (by positivity) m4 (m2 * m2)
        show (if fisher then Res.ok (RFl.scale (c ^ 4) m4 / (RFl.scale (c ^ 2) m2 * RFl.scale (c ^ 2) m2) -
          CppNum.ofInt 3) else Res.ok (RFl.scale (c ^ 4) m4 / (RFl.scale (c ^ 2) m2 * RFl.scale (c ^ 2) m2))) =
          (if fisher then Res.ok (m4 / (m2 * m2) - CppNum.ofInt 3) else Res.ok (m4 / (m2 * m2)))
        rw [e]
  · unfold skewQ
    rw [momentQ_scale hn hc 2 le_rfl x p hp, momentQ_scale hn hc 3 (by norm_num) x p hp]
    cases momentQ 2 x p with
    | ub => rfl
    | ok m2 =>
      cases momentQ 3 x p with
      | ub => rfl
      | ok m3 =>
        show Res.ok (RFl.scale (c ^ 3) m3 / sqrt (RFl.scale (c ^ 2) m2 * RFl.scale (c ^ 2) m2 * RFl.scale (c ^ 2) m2)) =
          Res.ok (m3 / sqrt (m2 * m2 * m2))
        rw [← RFl.scale_mul (pow_ne_zero 2 hn) (pow_ne_zero 2 hn) (comm_pow hc 2) (comm_pow hc 2), ← pow_add,
          ← RFl.scale_mul (pow_ne_zero (2 + 2) hn) (pow_ne_zero 2 hn) (comm_pow hc (2 + 2)) (comm_pow hc 2), ← pow_add,
          show c ^ (2 + 2 + 2) = (c ^ 3) ^ 2 by ring, hs, abs_of_pos (by positivity)]
        congr 1
        exact scale_div_scale (by positivity) _ _

theorem meanQ_approx (hu : 0 ≤ u) (hr : ∀ x, |rnd x - x| ≤ u * |x|) (h1 : rnd 1 = 1) (l : List (RFl rnd))
    (p : RFl rnd → Bool) (s : List ℚ) (hs : l.filter p = s.map RFl.fin) (hne : s ≠ [])
    (hlen : s.length < 2 ^ 31) (hn : rnd s.length = s.length) :
    Approx u (66 + Nat.clog 2 l.length) (meanL s) ((s.map abs).sum / s.length) (meanQ l p) := by
  obtain ⟨k1, k2⟩ := sumF_approx hu hr l p s hs
  have hpos : (0 : ℚ) < s.length := by exact_mod_cast List.length_pos_iff.mpr hne
  have hl : l.length ≠ 0 := by
    intro h
    rw [List.length_eq_zero_iff] at h
    subst h
    cases s with
    | nil => exact hne rfl
    | cons _ _ => simp at hs
  unfold meanQ divRecip
  rw [if_neg hl]
  simp only [RFl.ofInt_def]
  rw [k2, toI32_of_lt (by omega) (by exact_mod_cast hlen), Int.cast_natCast, hn, Int.cast_one, h1]
  have h2 := Approx.div hu hr hpos (Approx.exact (rnd := rnd) hu 0 1 1 (by norm_num))
  have h3 := (Approx.mul hu hr h2 k1).mono hu (show _ ≤ 66 + Nat.clog 2 l.length by omega) le_rfl
  rw [one_div_mul_eq_div, one_div_mul_eq_div] at h3
  exact h3

/-- C128: the rounding error of the mean of the accepted finite quantities: one rounding more than that of numbers (`C88_mean`), because of the
reciprocal of their number. -/
theorem C128_mean_error (hu : 0 ≤ u) (hr : ∀ x, |rnd x - x| ≤ u * |x|) (h1 : rnd 1 = 1) (l : List (RFl rnd))
    (p : RFl rnd → Bool) (s : List ℚ) (hs : l.filter p = s.map RFl.fin) (hne : s ≠ [])
    (hlen : s.length < 2 ^ 31) (hn : rnd s.length = s.length) :
    ∃ m, meanQ l p = RFl.fin m ∧
      |m - s.sum / s.length| ≤ ((1 + u) ^ (66 + Nat.clog 2 l.length) - 1) * ((s.map abs).sum / s.length) := by
  obtain ⟨m, h1, h2, -⟩ := meanQ_approx hu hr h1 l p s hs hne hlen hn
  exact ⟨m, h1, h2⟩

end rounded

/-- Mean of a short list of quantities, without the blocked recursion. -/
theorem meanQ_short (l : List F64) (h : l.length ≤ 64) (h0 : l.length ≠ 0) :
    meanQ l (fun _ => true) = divRecip (l.foldl (· + ·) 0) (CppNum.ofInt (toI32 l.length)) := by
  unfold meanQ sumF filterReduceAssoc
  rw [if_neg h0]
  unfold pairwiseAcc
  simp only [Bool.false_eq_true, if_false, pwBlock, h, if_true, filterReduce_eq]
  simp

/-- C128: "the mean of quantities is the mean of their values" is false in `double`: the mean of 49 times 1 is 1, the mean of 49 times 1 m is less
than 1 m. -/
theorem C128_mean_constant_false :
    mean (List.replicate 49 (RFl.fin (rnd := rnd64) 1)) (fun _ => true) = RFl.fin 1 ∧
    ∃ a : ℚ, meanQ (List.replicate 49 (RFl.fin (rnd := rnd64) 1)) (fun _ => true) = RFl.fin a ∧ a < 1 := by
  have e : (List.replicate 49 (RFl.fin (rnd := rnd64) 1)).foldl (· + ·) 0 = RFl.fin 49 := by decide +kernel
  have e49 : toI32 ((List.replicate 49 (RFl.fin (rnd := rnd64) 1)).length : ℤ) = 49 := by decide
  have r49 : rnd64 ((49 : ℤ) : ℚ) = 49 := by decide +kernel
  have r1 : rnd64 ((1 : ℤ) : ℚ) = 1 := by decide +kernel
  constructor
  · rw [mean_short _ (by simp) (by simp), e, e49, RFl.ofInt_def, r49, RFl.div_fin (by norm_num)]
    congr 1
    decide +kernel
  · refine ⟨rnd64 (rnd64 (1 / 49) * 49), ?_, by decide +kernel⟩
    rw [meanQ_short _ (by simp) (by simp), e, e49, divRecip, RFl.ofInt_def, RFl.ofInt_def, r49, r1, RFl.div_fin (by norm_num), RFl.mul_fin]

/-! ### concrete cases -/

/-- `C128_unit_change` applies to binary64 with kibibytes (2¹⁰) and the correctly rounded square root; the hypotheses on types hold for metres. -/
example : (∀ q, rnd64 (1024 * q) = 1024 * rnd64 q) ∧ SqrtScales 1024 sqrt64 ∧ (⟨⟨2, 1, 1⟩, ⟨1, 1, 1⟩, 0⟩ : QTy).RatScale ∧ centralMoment 2 [(0 : ℝ), 2] ≠ 0 := by
  refine ⟨fun q => ?_, sqrt64_scales 10 (by norm_num), ⟨⟨⟨by decide, by decide, by decide, by decide⟩, ⟨by decide, by decide, by decide, by decide⟩⟩, rfl⟩, ?_⟩
  · have := rnd64_pow2 10 q
    norm_num at this
    exact this
  · norm_num [centralMoment, meanL]

end SciCpp
