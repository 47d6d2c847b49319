import Verif.Proofs.SqrtNewton
import Verif.Props.CtRoot
import Verif.Props.Limits
/-
  Property theorems C99, square roots: `ct_root<2>` returns for every positive number and is faithfully rounded.
-/
namespace SciCpp
open Spec

namespace Spec

/-- The formats of `float` and `double`: enough digits, and an exponent range wider than the digits. -/
structure WideFmt (f : Fmt) : Prop where
  digits : 2 ≤ f.frac
  low : f.emin + f.frac + 3 ≤ 0
  high : (f.frac : ℤ) + 7 ≤ f.emax

end Spec

theorem wideFmt_64 : WideFmt binary64 := ⟨by decide, by decide, by decide⟩
theorem wideFmt_32 : WideFmt binary32 := ⟨by decide, by decide, by decide⟩

variable {f : Fmt}

theorem Spec.WideFmt.std (h : WideFmt f) : StdFmt f := ⟨by have := h.low; omega, by have := h.high; omega⟩

private theorem two1 : (1 : ℚ) ≤ 2 := by norm_num
private theorem two1' : (1 : ℚ) < 2 := by norm_num

theorem expo_of_binade {q : ℚ} {e : ℤ} (h1 : (2 : ℚ) ^ e ≤ q) (h2 : q < (2 : ℚ) ^ (e + 1)) : expo q = e := by
  have hp : 0 < q := lt_of_lt_of_le (by positivity) h1
  obtain ⟨a, b⟩ := expo_spec hp.ne'
  rw [abs_of_pos hp] at a b
  have l1 : e < expo q + 1 := by
    by_contra hc
    have := zpow_le_zpow_right₀ two1 (not_lt.1 hc)
    linarith
  have l2 : expo q < e + 1 := by
    by_contra hc
    have := zpow_le_zpow_right₀ two1 (not_lt.1 hc)
    linarith
  omega

/-- Rounding in one binade, end points included. -/
theorem rnd_binade {q : ℚ} {e : ℤ} (he : f.emin ≤ e) (h1 : (2 : ℚ) ^ e ≤ q) (h2 : q ≤ (2 : ℚ) ^ (e + 1)) :
    f.rnd q = nearestEven (q / (2 : ℚ) ^ (e - (f.frac : ℤ))) * (2 : ℚ) ^ (e - (f.frac : ℤ)) := by
  have hp : 0 < q := lt_of_lt_of_le (by positivity) h1
  rcases lt_or_eq_of_le h2 with h3 | h3
  · have hE := expo_of_binade h1 h3
    unfold Fmt.rnd
    rw [if_neg hp.ne']
    simp only [hE, max_eq_left he]
    have e1 : (2 : ℚ) ^ ((f.frac : ℤ) - e) = ((2 : ℚ) ^ (e - (f.frac : ℤ)))⁻¹ := by
      rw [← zpow_neg]; congr 1; ring
    rw [e1, div_inv_eq_mul, div_eq_mul_inv]
  · have e1 : q / (2 : ℚ) ^ (e - (f.frac : ℤ)) = ((2 ^ (f.frac + 1) : ℤ) : ℚ) := by
      rw [h3, ← zpow_sub₀ two_ne_zero]
      push_cast
      rw [← zpow_natCast]
      congr 1; push_cast; ring
    rw [e1, nearestEven_int, ← e1, div_mul_cancel₀ _ (by positivity)]
    have h4 := f.rnd_exact 1 (e + 1) (by omega) (by rw [abs_one]; exact one_le_pow₀ (by norm_num))
    rw [h3]
    simpa using h4

/-- The absolute rounding error up to the end of a binade. -/
theorem rnd_err_abs {q : ℚ} {e : ℤ} (he : f.emin ≤ e) (h1 : 0 ≤ q) (h2 : q ≤ (2 : ℚ) ^ (e + 1)) :
    |f.rnd q - q| ≤ (2 : ℚ) ^ (e - (f.frac : ℤ)) / 2 := by
  rcases eq_or_lt_of_le h1 with h0 | h0
  · rw [← h0, f.rnd_zero, sub_zero, abs_zero]; positivity
  rcases lt_or_eq_of_le h2 with h3 | h3
  · have hE : expo q ≤ e := by
      obtain ⟨a, -⟩ := expo_spec h0.ne'
      rw [abs_of_pos h0] at a
      by_contra hc
      have := zpow_le_zpow_right₀ two1 (show e + 1 ≤ expo q by omega)
      linarith
    unfold Fmt.rnd
    rw [if_neg h0.ne']
    set E := max (expo q) f.emin
    have hs : (0 : ℚ) < (2 : ℚ) ^ ((f.frac : ℤ) - E) := by positivity
    have h5 := nearestEven_err (q * (2 : ℚ) ^ ((f.frac : ℤ) - E))
    have h6 : (nearestEven (q * (2 : ℚ) ^ ((f.frac : ℤ) - E)) : ℚ) / (2 : ℚ) ^ ((f.frac : ℤ) - E) - q =
        ((nearestEven (q * (2 : ℚ) ^ ((f.frac : ℤ) - E)) : ℚ) - q * (2 : ℚ) ^ ((f.frac : ℤ) - E)) /
          (2 : ℚ) ^ ((f.frac : ℤ) - E) := by
      field_simp
    simp only
    rw [h6, abs_div, abs_of_pos hs, div_le_iff₀ hs]
    refine h5.trans ?_
    have h7 : (1 : ℚ) ≤ (2 : ℚ) ^ (e - (f.frac : ℤ)) * (2 : ℚ) ^ ((f.frac : ℤ) - E) := by
      rw [← zpow_add₀ two_ne_zero]
      exact one_le_zpow₀ two1 (by omega)
    linarith
  · have h4 := f.rnd_exact 1 (e + 1) (by omega) (by rw [abs_one]; exact one_le_pow₀ (by norm_num))
    have h5 : f.rnd q = q := by rw [h3]; simpa using h4
    rw [h5, sub_self, abs_zero]; positivity

/-- Halving commutes with rounding above the subnormal numbers. -/
theorem rnd_half {t : ℚ} (h : (2 : ℚ) ^ f.emin ≤ t / 2) : f.rnd (f.rnd t / 2) = f.rnd (t / 2) := by
  have hp : 0 < t / 2 := lt_of_lt_of_le (by positivity) h
  obtain ⟨a, b⟩ := expo_spec hp.ne'
  rw [abs_of_pos hp] at a b
  set e := expo (t / 2) with he
  have hE : f.emin ≤ e := by
    by_contra hc
    have := zpow_le_zpow_right₀ two1 (show e + 1 ≤ f.emin by omega)
    linarith
  have e1 := rnd_binade (f := f) hE a b.le
  have c1 : (2 : ℚ) ^ (e + 1) ≤ t := by rw [zpow_add_one₀ two_ne_zero]; linarith
  have c2 : t ≤ (2 : ℚ) ^ (e + 1 + 1) := by rw [zpow_add_one₀ two_ne_zero]; linarith
  have e2 := rnd_binade (f := f) (e := e + 1) (by omega) c1 c2
  have e3 : f.rnd t / 2 = f.rnd (t / 2) := by
    rw [e1, e2]
    have h3 : (2 : ℚ) ^ (e + 1 - (f.frac : ℤ)) = (2 : ℚ) ^ (e - (f.frac : ℤ)) * 2 := by
      rw [← zpow_add_one₀ two_ne_zero]; congr 1; ring
    have h4 : t / (2 : ℚ) ^ (e + 1 - (f.frac : ℤ)) = t / 2 / (2 : ℚ) ^ (e - (f.frac : ℤ)) := by
      rw [h3]; field_simp
    rw [h4, h3]; ring
  rw [e3, f.rnd_idem]

/-- The rounding of a format seen in units of one binade. -/
def unitR (f : Fmt) (E : ℤ) (y : ℚ) : ℚ := f.rnd (y * (2 : ℚ) ^ (E - (f.frac : ℤ))) / (2 : ℚ) ^ (E - (f.frac : ℤ))

theorem rounder (hd : 2 ≤ f.frac) (E : ℤ) (hE : f.emin + 1 ≤ E) : Rounder (2 ^ f.frac) (unitR f E) := by
  set g : ℚ := (2 : ℚ) ^ (E - (f.frac : ℤ)) with hg
  have hg0 : 0 < g := by positivity
  have hP : (((2 : ℤ) ^ f.frac : ℤ) : ℚ) = (2 : ℚ) ^ f.frac := by push_cast; rfl
  have hPg : (2 : ℚ) ^ f.frac * g = (2 : ℚ) ^ E := by
    rw [hg, ← zpow_natCast, ← zpow_add₀ two_ne_zero]; congr 1; ring
  have hg2 : (2 : ℚ) ^ (E + 1 - (f.frac : ℤ)) = 2 * g := by
    rw [hg, mul_comm, ← zpow_add_one₀ two_ne_zero]; congr 1; ring
  have hgh : (2 : ℚ) ^ (E - 1 - (f.frac : ℤ)) = g / 2 := by
    rw [hg, eq_div_iff two_ne_zero, ← zpow_add_one₀ two_ne_zero]; congr 1; ring
  have pE1 : (2 : ℚ) ^ (E + 1) = 2 * (2 : ℚ) ^ E := by rw [zpow_add_one₀ two_ne_zero]; ring
  have pE2 : (2 : ℚ) ^ (E + 1 + 1) = 4 * (2 : ℚ) ^ E := by
    rw [zpow_add_one₀ two_ne_zero, zpow_add_one₀ two_ne_zero]; ring
  have pEm : (2 : ℚ) ^ E = 2 * (2 : ℚ) ^ (E - 1) := by
    rw [mul_comm, ← zpow_add_one₀ two_ne_zero]; congr 1; ring
  have hP4 : (4 : ℚ) ≤ (2 : ℚ) ^ f.frac := by
    have := pow_le_pow_right₀ two1 hd
    norm_num at this
    exact this
  have key : ∀ y, unitR f E y = f.rnd (y * g) / g := fun _ => rfl
  refine ⟨?_, ?_, ?_, ?_, ?_, ?_, ?_, ?_⟩
  · intro a b h
    rw [key, key]
    exact div_le_div_of_nonneg_right (f.rnd_mono (mul_le_mul_of_nonneg_right h hg0.le)) hg0.le
  · intro a
    rw [key (unitR f E a), key a, div_mul_cancel₀ _ hg0.ne', f.rnd_idem]
  · intro y h1 h2
    rw [hP] at h1 h2
    rw [key, rnd_binade (e := E) (by omega) (by rw [← hPg]; gcongr) (by rw [pE1, ← hPg]; nlinarith), ← hg,
      mul_div_cancel_right₀ _ hg0.ne', mul_div_cancel_right₀ _ hg0.ne']
  · intro y h1 h2
    rw [hP] at h1 h2
    rw [key, rnd_binade (e := E + 1) (by omega) (by rw [pE1, ← hPg]; nlinarith) (by rw [pE2, ← hPg]; nlinarith),
      hg2]
    have : y * g / (2 * g) = y / 2 := by field_simp
    rw [this]; field_simp
  · intro y h1 h2
    rw [hP] at h2
    have h3 := rnd_err_abs (f := f) (e := E) (q := y * g) (by omega) (by positivity)
      (by rw [pE1, ← hPg]; nlinarith)
    rw [key, show f.rnd (y * g) / g - y = (f.rnd (y * g) - y * g) / g by field_simp, abs_div, abs_of_pos hg0,
      div_le_iff₀ hg0]
    rw [← hg] at h3
    linarith
  · rw [hP, key, rnd_binade (e := E - 1) (by omega) (by
        have : (2 : ℚ) ^ (E - 1) = (2 : ℚ) ^ f.frac * g / 2 := by rw [hPg]; linarith
        rw [this]; nlinarith) (by
        rw [show E - 1 + 1 = E by ring, ← hPg]; nlinarith), hgh]
    have e1 : ((2 : ℚ) ^ f.frac - 1 / 4) * g / (g / 2) = ((2 * 2 ^ f.frac - 1 : ℤ) : ℚ) + 1 / 2 := by
      push_cast; field_simp; ring
    rw [e1, nearestEven_tie, if_neg (by omega)]
    push_cast
    have : (2 * (2 : ℚ) ^ f.frac - 1 + 1) * (g / 2) / g = (2 : ℚ) ^ f.frac := by field_simp; ring
    rw [this]
  · intro y h1
    rw [hP] at h1 ⊢
    have hq : (2 : ℚ) ^ E ≤ y * g := by rw [← hPg]; gcongr
    have hq0 : 0 < y * g := lt_of_lt_of_le (by positivity) hq
    obtain ⟨a, b⟩ := expo_spec hq0.ne'
    rw [abs_of_pos hq0] at a b
    have he : E ≤ expo (y * g) := by
      by_contra hc
      have := zpow_le_zpow_right₀ two1 (show expo (y * g) + 1 ≤ E by omega)
      linarith
    have h3 := rnd_err_abs (f := f) (e := expo (y * g)) (by omega) hq0.le b.le
    rw [key, show f.rnd (y * g) / g - y = (f.rnd (y * g) - y * g) / g by field_simp, abs_div, abs_of_pos hg0,
      div_le_iff₀ hg0]
    refine h3.trans ?_
    have h4 : (2 : ℚ) ^ (expo (y * g) - (f.frac : ℤ)) = (2 : ℚ) ^ expo (y * g) / (2 : ℚ) ^ f.frac := by
      rw [zpow_sub₀ two_ne_zero, zpow_natCast]
    rw [h4]
    have h5 : (2 : ℚ) ^ expo (y * g) / (2 : ℚ) ^ f.frac ≤ y * g / (2 : ℚ) ^ f.frac := by gcongr
    have h6 : y / (2 * (2 : ℚ) ^ f.frac) * g = y * g / (2 : ℚ) ^ f.frac / 2 := by field_simp
    rw [h6]; linarith
  · intro y h1
    rw [hP] at h1
    have hq : (2 : ℚ) ^ E ≤ y * g := by rw [← hPg]; gcongr
    have hq0 : 0 < y * g := lt_of_lt_of_le (by positivity) hq
    obtain ⟨a, b⟩ := expo_spec hq0.ne'
    rw [abs_of_pos hq0] at a b
    have he : E ≤ expo (y * g) := by
      by_contra hc
      have := zpow_le_zpow_right₀ two1 (show expo (y * g) + 1 ≤ E by omega)
      linarith
    generalize hx : expo (y * g) = x at a b he
    obtain ⟨k, hk⟩ := Int.eq_ofNat_of_zero_le (show 0 ≤ x - E by omega)
    rw [key, rnd_binade (f := f) (e := x) (by omega) a b.le]
    refine ⟨nearestEven (y * g / (2 : ℚ) ^ (x - (f.frac : ℤ))) * 2 ^ k, ?_⟩
    have : (2 : ℚ) ^ (x - (f.frac : ℤ)) = (2 : ℚ) ^ k * g := by
      rw [hg, ← zpow_natCast, ← zpow_add₀ two_ne_zero]; congr 1; omega
    rw [this]
    push_cast
    field_simp

/-- The rounded step of the iteration. -/
def rstep (f : Fmt) (x c : ℚ) : ℚ := f.rnd (f.rnd (c + f.rnd (x / c)) / 2)

/-- The step in the arithmetic of the format, when nothing overflows. -/
theorem step_fin (hw : WideFmt f) {x c : ℚ} (hc : Finite f c)
    (h1 : |f.rnd (x / c)| < (2 : ℚ) ^ f.emax) (h0 : c ≠ 0)
    (h2 : |f.rnd (c + f.rnd (x / c))| < (2 : ℚ) ^ f.emax) (h3 : |rstep f x c| < (2 : ℚ) ^ f.emax) :
    newtonStep 2 (IFl.fin x : IFl f) (IFl.fin c) = IFl.fin (rstep f x c) := by
  rw [step_eq 2 (Or.inl rfl)]
  have hstd := hw.std
  have o1 : (CppNum.ofInt (((2 : ℕ) : ℤ) - 1) : IFl f) = IFl.fin 1 := by
    have := ofInt_small hstd 1 (Nat.one_lt_two_pow (by omega))
    simpa using this
  have o2 : (CppNum.ofInt ((2 : ℕ) : ℤ) : IFl f) = IFl.fin 2 := by
    have h4 : 2 < 2 ^ (f.frac + 1) := by
      have := Nat.pow_le_pow_right (n := 2) (by norm_num) (show 3 ≤ f.frac + 1 by have := hw.digits; omega)
      omega
    have := ofInt_small hstd 2 h4
    simpa using this
  have hone : (1 : IFl f) = IFl.fin 1 := rfl
  have hfc : f.ofRat c = .fin c := by rw [f.ofRat_fin (by rw [hc.1]; exact hc.2), hc.1]
  have m1 : (IFl.fin 1 : IFl f) * IFl.fin c = IFl.fin c := by
    show f.ofRat (1 * c) = .fin c
    rw [one_mul, hfc]
  have m11 : (1 : IFl f) * 1 = 1 := by
    show f.ofRat (1 * 1) = .fin 1
    have : f.rnd 1 = 1 := by
      have := f.rnd_exact 1 0 (by have := hw.low; omega) (by rw [abs_one]; exact one_le_pow₀ (by norm_num))
      simpa using this
    rw [one_mul, f.ofRat_fin, this]
    rw [this, abs_one]
    exact one_lt_zpow₀ two1' (by have := hw.high; omega)
  unfold Spec.step
  simp only
  rw [o1, o2, m11, hone, m1]
  have d1 : (IFl.fin x : IFl f) / IFl.fin c = IFl.fin (f.rnd (x / c)) := by
    show f.round (Fl.div (.fin x) (.fin c)) = _
    have : Fl.div (.fin x) (.fin c) = .fin (x / c) := by simp [Fl.div, h0]
    rw [this]
    exact f.ofRat_fin h1
  rw [d1]
  have a1 : (IFl.fin c : IFl f) + IFl.fin (f.rnd (x / c)) = IFl.fin (f.rnd (c + f.rnd (x / c))) :=
    f.ofRat_fin h2
  rw [a1]
  show f.round (Fl.div (.fin _) (.fin 2)) = _
  have : Fl.div (.fin (f.rnd (c + f.rnd (x / c)))) (.fin 2) = .fin (f.rnd (c + f.rnd (x / c)) / 2) := by
    simp [Fl.div]
  rw [this]
  exact f.ofRat_fin h3

/-- A run of the recursion follows a reach of its step. -/
theorem run_reach {st : IFl f → IFl f} {F : ℚ → ℚ} {Ok : ℚ → Prop} {g : ℚ} (hg : g ≠ 0)
    (hst : ∀ c, Ok c → st (IFl.fin (c * g)) = IFl.fin (F c * g)) {c r : ℚ} (h : Reach F Ok c r) :
    ∃ N, ∀ fuel ≥ N, ∀ p : ℚ, p ≠ c * g →
      Spec.run IFl.eqv st fuel (IFl.fin (c * g)) (IFl.fin p) = some (IFl.fin (r * g)) := by
  induction h with
  | @done r hok hr =>
    refine ⟨2, fun fuel hf p hp => ?_⟩
    obtain ⟨k, rfl⟩ := Nat.exists_eq_add_of_le hf
    rw [show 2 + k = k + 1 + 1 by omega, Spec.run, if_neg, hst r hok, hr, Spec.run, if_pos]
    · show decide _ = true; simp
    · show ¬ decide _ = true; simpa using hp.symm
  | @step c r hok hne _ ih =>
    obtain ⟨N, hN⟩ := ih
    refine ⟨N + 1, fun fuel hf p hp => ?_⟩
    obtain ⟨k, rfl⟩ := Nat.exists_eq_add_of_le hf
    rw [show N + 1 + k = (N + k) + 1 by omega, Spec.run, if_neg, hst c hok]
    · refine hN _ (by omega) (c * g) fun he => hne ?_
      exact (mul_right_cancel₀ hg he).symm
    · show ¬ decide _ = true; simpa using hp.symm

/-- Just above the largest number the rounding stays finite. -/
theorem rnd_max4 (hw : WideFmt f) : f.rnd (f.maxVal + 4) < (2 : ℚ) ^ f.emax := by
  have hd := hw.digits
  have hlow := hw.low
  have hhigh := hw.high
  set w : ℚ := (2 : ℚ) ^ (f.emax - 1 - (f.frac : ℤ)) with hwd
  have hw16 : (16 : ℚ) ≤ w := by
    have := zpow_le_zpow_right₀ two1 (show (4 : ℤ) ≤ f.emax - 1 - (f.frac : ℤ) by omega)
    norm_num at this
    exact this
  have hPp : (4 : ℚ) ≤ (2 : ℚ) ^ f.frac := by
    have := pow_le_pow_right₀ two1 hd
    norm_num at this
    exact this
  have hPw : (2 : ℚ) ^ f.frac * w = (2 : ℚ) ^ (f.emax - 1) := by
    rw [hwd, ← zpow_natCast, ← zpow_add₀ two_ne_zero]; congr 1; ring
  have hPw2 : 2 * (2 : ℚ) ^ f.frac * w = (2 : ℚ) ^ f.emax := by
    rw [mul_assoc, hPw, mul_comm, ← zpow_add_one₀ two_ne_zero]; congr 1; ring
  have hmv : f.maxVal = (2 * (2 : ℚ) ^ f.frac - 1) * w := by
    unfold Fmt.maxVal; rw [pow_succ]; ring
  rw [rnd_binade (e := f.emax - 1) (by omega) (by rw [hmv, ← hPw]; nlinarith)
    (by rw [hmv, show f.emax - 1 + 1 = f.emax by ring, ← hPw2]; nlinarith), ← hwd]
  have hlt : nearestEven ((f.maxVal + 4) / w) ≤ 2 * 2 ^ f.frac - 1 := by
    refine nearestEven_lt ?_
    rw [div_lt_iff₀ (by linarith), hmv]
    push_cast
    nlinarith
  have hlt' : (nearestEven ((f.maxVal + 4) / w) : ℚ) ≤ 2 * (2 : ℚ) ^ f.frac - 1 := by exact_mod_cast hlt
  rw [← hPw2]
  nlinarith

set_option maxHeartbeats 2000000 in
/-- C99, square roots: for every positive finite number `x` of the format, `ct_root<2>(x)` returns (after
finitely many steps), and the result `r` is next to the root of `x`: every greater number of the format has a
square above `x`, every smaller one a square below `x`.  Hence the exact root is returned when it is a
number of the format. -/
theorem C99_sqrt (hw : WideFmt f) (x : ℚ) (hx : Finite f x) (hx0 : 0 < x) :
    ∃ (N : ℕ) (r : ℚ), (∀ fuel ≥ N, ctRootF IFl.lt IFl.eqv 2 fuel (IFl.fin x : IFl f) = some (IFl.fin r)) ∧
      Finite f r ∧ 0 < r ∧
      (∀ y, Finite f y → r < y → x < y ^ 2) ∧ (∀ y, Finite f y → 0 ≤ y → y < r → y ^ 2 < x) := by
  have hd := hw.digits
  have hlow := hw.low
  have hhigh := hw.high
  have hstd := hw.std
  -- the binade of the root
  obtain ⟨xa, xb⟩ := expo_spec hx0.ne'
  rw [abs_of_pos hx0] at xa xb
  have xmax : expo x < f.emax := by
    by_contra hc
    have := zpow_le_zpow_right₀ two1 (not_lt.1 hc)
    have := hx.2
    rw [abs_of_pos hx0] at this
    linarith
  obtain ⟨n, hn⟩ := hx.form hx0.ne'
  have hn0 : 0 < n := by
    by_contra hc
    have h1 : (n : ℚ) ≤ 0 := by exact_mod_cast not_lt.1 hc
    have h2 : (0 : ℚ) < (2 : ℚ) ^ (max (expo x) f.emin - (f.frac : ℤ)) := by positivity
    have := mul_nonpos_of_nonpos_of_nonneg h1 h2.le
    rw [← hn] at this; linarith
  have xmin : f.emin - (f.frac : ℤ) ≤ expo x := by
    have h1 : (1 : ℚ) ≤ n := by exact_mod_cast hn0
    have h2 : (2 : ℚ) ^ (f.emin - (f.frac : ℤ)) ≤ x := by
      rw [hn]
      have h3 : (2 : ℚ) ^ (f.emin - (f.frac : ℤ)) ≤ (2 : ℚ) ^ (max (expo x) f.emin - (f.frac : ℤ)) :=
        zpow_le_zpow_right₀ two1 (by omega)
      nlinarith
    by_contra hc
    have := zpow_le_zpow_right₀ two1 (show expo x + 1 ≤ f.emin - (f.frac : ℤ) by omega)
    linarith
  generalize hE : expo x / 2 = E
  have E1 : 2 * E ≤ expo x := by omega
  have E2 : expo x ≤ 2 * E + 1 := by omega
  have hEmin : f.emin + 1 ≤ E := by omega
  have hEmax : E + 4 ≤ f.emax := by omega
  set g : ℚ := (2 : ℚ) ^ (E - (f.frac : ℤ)) with hg
  have hg0 : 0 < g := by positivity
  have hPg : (2 : ℚ) ^ f.frac * g = (2 : ℚ) ^ E := by
    rw [hg, ← zpow_natCast, ← zpow_add₀ two_ne_zero]; congr 1; ring
  -- the number under the root in squared units
  obtain ⟨k, hk⟩ := Int.eq_ofNat_of_zero_le (show 0 ≤ max (expo x) f.emin - 2 * E by omega)
  obtain ⟨X, hX⟩ : ∃ X : ℤ, X = n * 2 ^ k * 2 ^ f.frac := ⟨_, rfl⟩
  have hXx : x = X * g ^ 2 := by
    rw [hX, hn, hg]
    push_cast
    rw [mul_assoc, mul_assoc, ← zpow_natCast (2 : ℚ) k, ← zpow_natCast (2 : ℚ) f.frac, ← zpow_natCast _ 2,
      ← zpow_mul, ← zpow_add₀ two_ne_zero, ← zpow_add₀ two_ne_zero]
    congr 2
    push_cast
    omega
  have hdvd : (2 : ℤ) ^ f.frac ∣ X := ⟨n * 2 ^ k, by rw [hX]; ring⟩
  have hR := rounder hd E hEmin
  have hP4 : (4 : ℤ) ≤ 2 ^ f.frac := by
    have := pow_le_pow_right₀ (show (1 : ℤ) ≤ 2 by norm_num) hd
    norm_num at this
    exact this
  -- the integer root
  have hX0 : 0 ≤ X := by rw [hX]; positivity
  set m : ℤ := (Nat.sqrt X.toNat : ℤ) with hm
  have sq1 : m ^ 2 ≤ X := by
    have := Nat.sqrt_le' X.toNat
    have h2 : ((Nat.sqrt X.toNat ^ 2 : ℕ) : ℤ) ≤ (X.toNat : ℤ) := by exact_mod_cast this
    rw [Int.toNat_of_nonneg hX0] at h2
    push_cast at h2
    exact h2
  have sq2 : X < (m + 1) ^ 2 := by
    have := Nat.lt_succ_sqrt' X.toNat
    have h2 : (X.toNat : ℤ) < ((Nat.succ (Nat.sqrt X.toNat) ^ 2 : ℕ) : ℤ) := by exact_mod_cast this
    rw [Int.toNat_of_nonneg hX0] at h2
    push_cast at h2
    exact h2
  have hm0 : 0 ≤ m := by rw [hm]; positivity
  have XP : ((2 : ℤ) ^ f.frac) ^ 2 ≤ X := by
    have h1 : ((2 : ℚ) ^ f.frac) ^ 2 * g ^ 2 ≤ X * g ^ 2 := by
      rw [← hXx, ← mul_pow, hPg, ← zpow_natCast, ← zpow_mul]
      refine (zpow_le_zpow_right₀ two1 ?_).trans xa
      push_cast; omega
    have h2 : ((2 : ℚ) ^ f.frac) ^ 2 ≤ X := le_of_mul_le_mul_right h1 (by positivity)
    exact_mod_cast h2
  have XP' : X < (2 * (2 : ℤ) ^ f.frac) ^ 2 := by
    have h1 : (X : ℚ) * g ^ 2 < (2 * (2 : ℚ) ^ f.frac) ^ 2 * g ^ 2 := by
      rw [← hXx, ← mul_pow, mul_assoc, hPg, mul_comm, ← zpow_add_one₀ two_ne_zero, ← zpow_natCast, ← zpow_mul]
      refine lt_of_lt_of_le xb (zpow_le_zpow_right₀ two1 ?_)
      push_cast; omega
    have h2 : (X : ℚ) < (2 * (2 : ℚ) ^ f.frac) ^ 2 := lt_of_mul_lt_mul_right h1 (by positivity)
    exact_mod_cast h2
  have hb : Bracket (2 ^ f.frac) m X := by
    refine ⟨hP4, ?_, ?_, sq1, sq2⟩
    · by_contra hc
      nlinarith
    · by_contra hc
      nlinarith
  have hmP : ((2 : ℤ) ^ f.frac : ℤ) ≤ m := hb.lo
  have hmP' : (2 : ℚ) ^ f.frac ≤ m := by exact_mod_cast hb.lo
  have hmM' : (m : ℚ) + 1 ≤ 2 * (2 : ℚ) ^ f.frac := by exact_mod_cast hb.hi
  have hsE : (2 : ℚ) ^ E ≤ m * g := by rw [← hPg]; gcongr
  have hsE' : ((m : ℚ) + 1) * g ≤ (2 : ℚ) ^ (E + 1) := by
    rw [zpow_add_one₀ two_ne_zero, ← hPg]
    nlinarith
  -- representable numbers in units
  have repU : ∀ c : ℚ, unitR f E c = c ↔ f.rnd (c * g) = c * g := by
    intro c
    unfold unitR
    rw [← hg, div_eq_iff hg0.ne']
  have intU : ∀ y : ℚ, f.rnd y = y → (m : ℚ) * g ≤ y → ∃ z : ℤ, y = z * g := by
    intro y hy hmy
    have h1 : unitR f E (y / g) = y / g := by rw [repU, div_mul_cancel₀ _ hg0.ne', hy]
    obtain ⟨z, hz⟩ := hR.int (y / g) (by
      push_cast
      rw [le_div_iff₀ hg0]
      exact (mul_le_mul_of_nonneg_right hmP' hg0.le).trans hmy)
    rw [h1] at hz
    exact ⟨z, by rw [← hz, div_mul_cancel₀ _ hg0.ne']⟩
  have small : ∀ y : ℚ, 0 ≤ y → ∀ e : ℤ, f.emin - (f.frac : ℤ) ≤ e → y ≤ (2 : ℚ) ^ e → f.rnd y ≤ (2 : ℚ) ^ e := by
    intro y hy e he hye
    have := f.rnd_mono hye
    rwa [show f.rnd ((2 : ℚ) ^ e) = (2 : ℚ) ^ e by
      have := f.rnd_exact 1 e he (by rw [abs_one]; exact one_le_pow₀ (by norm_num))
      simpa using this] at this
  -- the step on the numbers met
  set B : ℚ := max (x / g) (1 / g) with hB
  set Ok : ℚ → Prop := fun c => unitR f E c = c ∧ (m : ℚ) ≤ c ∧ (c ≤ B ∨ c = m + 1) with hOk
  have finOk : ∀ c, Ok c → Finite f (c * g) := by
    rintro c ⟨h1, h2, h3⟩
    have hc0 : 0 ≤ c * g := by
      have : (0 : ℚ) ≤ m := by exact_mod_cast hm0
      have : 0 ≤ c := this.trans h2
      positivity
    refine ⟨(repU c).1 h1, ?_⟩
    rw [abs_of_nonneg hc0]
    rcases h3 with h3 | h3
    · have h4 : c * g ≤ max x 1 := by
        have := mul_le_mul_of_nonneg_right h3 hg0.le
        rw [hB, max_mul_of_nonneg _ _ hg0.le, div_mul_cancel₀ _ hg0.ne', div_mul_cancel₀ _ hg0.ne'] at this
        exact this
      refine lt_of_le_of_lt h4 (max_lt ?_ (one_lt_zpow₀ two1' (by omega)))
      have := hx.2
      rwa [abs_of_pos hx0] at this
    · rw [h3]
      exact lt_of_le_of_lt hsE' (zpow_lt_zpow_right₀ two1' (by omega))
  have stepU : ∀ c, 0 < c → (2 : ℚ) ^ E ≤ c * g → rstep f x (c * g) = nstep (unitR f E) X c * g := by
    intro c hc hcE
    unfold rstep nstep unitR
    rw [← hg, div_mul_cancel₀ _ hg0.ne']
    have e1 : (X : ℚ) / c * g = x / (c * g) := by rw [hXx]; field_simp
    rw [e1]
    have hq : 0 ≤ f.rnd (x / (c * g)) := f.rnd_nonneg (by positivity)
    rw [rnd_half (by
      have h1 : (2 : ℚ) ^ (f.emin + 1) ≤ (2 : ℚ) ^ E := zpow_le_zpow_right₀ two1 hEmin
      rw [zpow_add_one₀ two_ne_zero] at h1
      linarith)]
    congr 1
    field_simp
  have stepFin : ∀ c, Ok c → newtonStep 2 (IFl.fin x : IFl f) (IFl.fin (c * g)) =
      IFl.fin (nstep (unitR f E) X c * g) := by
    intro c hok
    have hfin := finOk c hok
    obtain ⟨h1, h2, h3⟩ := hok
    have hc0 : 0 < c := lt_of_lt_of_le (by linarith [show (4 : ℚ) ≤ (2 : ℚ) ^ f.frac by exact_mod_cast hP4]) h2
    have hcE : (2 : ℚ) ^ E ≤ c * g := hsE.trans (mul_le_mul_of_nonneg_right h2 hg0.le)
    have hcp : 0 < c * g := by positivity
    have q0 : 0 ≤ x / (c * g) := by positivity
    have q1 : x / (c * g) ≤ (2 : ℚ) ^ (E + 2) := by
      rw [div_le_iff₀ hcp]
      have h5 : x ≤ (2 : ℚ) ^ (2 * E + 2) := xb.le.trans (zpow_le_zpow_right₀ two1 (by omega))
      have h6 : (2 : ℚ) ^ (2 * E + 2) = (2 : ℚ) ^ (E + 2) * (2 : ℚ) ^ E := by
        rw [← zpow_add₀ two_ne_zero]; congr 1; ring
      rw [h6] at h5
      exact h5.trans (mul_le_mul_of_nonneg_left hcE (by positivity))
    have q2 := small _ q0 (E + 2) (by omega) q1
    have q3 := f.rnd_nonneg q0
    set q := f.rnd (x / (c * g)) with hq
    have sumfin : f.rnd (c * g + q) < (2 : ℚ) ^ f.emax := by
      rcases le_or_gt (c * g) ((2 : ℚ) ^ (f.emax - 2)) with h5 | h5
      · have h6 : (2 : ℚ) ^ (E + 2) ≤ (2 : ℚ) ^ (f.emax - 2) := zpow_le_zpow_right₀ two1 (by omega)
        have h7 : c * g + q ≤ (2 : ℚ) ^ (f.emax - 1) := by
          have : (2 : ℚ) ^ (f.emax - 1) = 2 * (2 : ℚ) ^ (f.emax - 2) := by
            rw [mul_comm, ← zpow_add_one₀ two_ne_zero]; congr 1; ring
          linarith
        exact lt_of_le_of_lt (small _ (by positivity) _ (by omega) h7) (zpow_lt_zpow_right₀ two1' (by omega))
      · -- a huge number: the quotient is at most 4
        have hbig : (1 : ℚ) ≤ (2 : ℚ) ^ (f.emax - 2) := one_le_zpow₀ two1 (by omega)
        have hcx : c * g ≤ x := by
          rcases h3 with h3 | h3
          · have h6 := mul_le_mul_of_nonneg_right h3 hg0.le
            rw [hB, max_mul_of_nonneg _ _ hg0.le, div_mul_cancel₀ _ hg0.ne', div_mul_cancel₀ _ hg0.ne'] at h6
            rcases le_max_iff.1 h6 with h7 | h7
            · exact h7
            · linarith
          · rw [h3] at h5
            have : (2 : ℚ) ^ (E + 1) ≤ (2 : ℚ) ^ (f.emax - 2) := zpow_le_zpow_right₀ two1 (by omega)
            linarith
        have hx4 : x / (c * g) ≤ (2 : ℚ) ^ (2 : ℤ) := by
          rw [div_le_iff₀ hcp]
          have h6 : (2 : ℚ) ^ f.emax = (2 : ℚ) ^ (2 : ℤ) * (2 : ℚ) ^ (f.emax - 2) := by
            rw [← zpow_add₀ two_ne_zero]; congr 1; ring
          have h7 := hx.2
          rw [abs_of_pos hx0, h6] at h7
          nlinarith
        have hq4 := small _ q0 2 (by omega) hx4
        have hmx := le_of_abs_le (finite_le_max hstd hx)
        have h8 : c * g + q ≤ f.maxVal + 4 := by
          have : (2 : ℚ) ^ (2 : ℤ) = 4 := by norm_num
          linarith
        exact lt_of_le_of_lt (f.rnd_mono h8) (rnd_max4 hw)
    have hsum0 := f.rnd_nonneg (show 0 ≤ c * g + q by positivity)
    have half : rstep f x (c * g) ≤ (2 : ℚ) ^ (f.emax - 1) := by
      unfold rstep
      rw [← hq]
      refine small _ (by positivity) _ (by omega) ?_
      have : (2 : ℚ) ^ f.emax = 2 * (2 : ℚ) ^ (f.emax - 1) := by
        rw [mul_comm, ← zpow_add_one₀ two_ne_zero]; congr 1; ring
      linarith
    rw [← stepU c hc0 hcE]
    refine step_fin hw hfin ?_ hcp.ne' ?_ ?_
    · rw [abs_of_nonneg q3]
      exact lt_of_le_of_lt q2 (zpow_lt_zpow_right₀ two1' (by omega))
    · rw [abs_of_nonneg hsum0]; exact sumfin
    · rw [abs_of_nonneg]
      · exact lt_of_le_of_lt half (zpow_lt_zpow_right₀ two1' (by omega))
      · unfold rstep
        exact f.rnd_nonneg (by positivity)
  have mrep : f.rnd ((m : ℚ) * g) = m * g := by
    have := hR.rep hb.lo (by have := hb.hi; omega)
    exact (repU m).1 this
  have m1rep : f.rnd (((m : ℚ) + 1) * g) = (m + 1) * g := by
    have := hR.rep (n := m + 1) (by have := hb.lo; omega) hb.hi
    push_cast at this
    exact (repU _).1 this
  have hmg0 : 0 < (m : ℚ) * g := lt_of_lt_of_le (by positivity) hsE
  have sqx : ((m : ℚ) * g) ^ 2 ≤ x := by
    rw [hXx, mul_pow]
    exact mul_le_mul_of_nonneg_right (by exact_mod_cast sq1) (by positivity)
  have sqx' : x < (((m : ℚ) + 1) * g) ^ 2 := by
    rw [hXx, mul_pow]
    exact mul_lt_mul_of_pos_right (by exact_mod_cast sq2) (by positivity)
  -- what the two neighbours of the root satisfy
  have good : ∀ r : ℚ, (r = m ∨ r = m + 1) → (X = m ^ 2 → r = m) →
      Finite f (r * g) ∧ 0 < r * g ∧ (∀ y, Finite f y → r * g < y → x < y ^ 2) ∧
        (∀ y, Finite f y → 0 ≤ y → y < r * g → y ^ 2 < x) := by
    have up : ∀ y, Finite f y → (m : ℚ) * g < y → x < y ^ 2 := by
      intro y hy hmy
      obtain ⟨z, rfl⟩ := intU y hy.1 hmy.le
      have h1 : (m : ℚ) < z := lt_of_mul_lt_mul_right hmy hg0.le
      have h2 : m + 1 ≤ z := by
        have : m < z := by exact_mod_cast h1
        omega
      have h3 : (m : ℚ) + 1 ≤ z := by exact_mod_cast h2
      refine lt_of_lt_of_le sqx' ?_
      have h4 : ((m : ℚ) + 1) * g ≤ z * g := mul_le_mul_of_nonneg_right h3 hg0.le
      have h5 : (0 : ℚ) ≤ ((m : ℚ) + 1) * g := by nlinarith
      exact pow_le_pow_left₀ h5 h4 2
    rintro r (rfl | rfl) hex
    · refine ⟨⟨mrep, ?_⟩, hmg0, up, ?_⟩
      · rw [abs_of_pos hmg0]
        refine lt_of_le_of_lt ((show (m : ℚ) * g ≤ (m + 1) * g by nlinarith).trans hsE')
          (zpow_lt_zpow_right₀ two1' (by omega))
      · intro y hy y0 hyr
        exact lt_of_lt_of_le (pow_lt_pow_left₀ hyr y0 two_ne_zero) sqx
    · have hlt : ((m : ℚ) * g) ^ 2 < x := by
        refine lt_of_le_of_ne sqx fun he => ?_
        have h1 : ((m ^ 2 : ℤ) : ℚ) = X := by
          rw [hXx, mul_pow] at he
          push_cast
          exact mul_right_cancel₀ (pow_ne_zero 2 hg0.ne') he
        have h2 : m ^ 2 = X := by exact_mod_cast h1
        have := hex h2.symm
        linarith
      have hp1 : 0 < ((m : ℚ) + 1) * g := by nlinarith
      refine ⟨⟨m1rep, ?_⟩, hp1, ?_, ?_⟩
      · rw [abs_of_pos hp1]
        exact lt_of_le_of_lt hsE' (zpow_lt_zpow_right₀ two1' (by omega))
      · intro y hy hyr
        exact up y hy (lt_trans (by nlinarith) hyr)
      · intro y hy y0 hyr
        rcases le_or_gt y ((m : ℚ) * g) with h1 | h1
        · exact lt_of_le_of_lt (pow_le_pow_left₀ y0 h1 2) hlt
        · obtain ⟨z, rfl⟩ := intU y hy.1 h1.le
          have h2 : (m : ℚ) < z := lt_of_mul_lt_mul_right h1 hg0.le
          have h3 : (z : ℚ) < m + 1 := lt_of_mul_lt_mul_right hyr hg0.le
          have h4 : m < z := by exact_mod_cast h2
          have h5 : z < m + 1 := by exact_mod_cast h3
          omega
  -- the run from a number above the root
  have run : ∀ c : ℚ, f.rnd c = c → (m : ℚ) * g ≤ c → c ≤ max x 1 →
      ∃ r : ℚ, (r = m ∨ r = m + 1) ∧ (X = m ^ 2 → r = m) ∧ ∃ N, ∀ fuel ≥ N, ∀ p : ℚ, p ≠ c →
        Spec.run IFl.eqv (newtonStep 2 (IFl.fin x : IFl f)) fuel (IFl.fin c) (IFl.fin p) =
          some (IFl.fin (r * g)) := by
    intro c hc hmc hcB
    have hcg : c / g * g = c := div_mul_cancel₀ _ hg0.ne'
    obtain ⟨k, hk⟩ := exists_nat_ge (c / g - m)
    obtain ⟨r, hr, h1, h2⟩ := nstep_reach hR hb (p := f.frac) rfl hdvd B k (c / g)
      (by rw [repU, hcg, hc]) (by rw [le_div_iff₀ hg0]; exact hmc)
      (by
        rw [hB, div_le_iff₀ hg0, max_mul_of_nonneg _ _ hg0.le, div_mul_cancel₀ _ hg0.ne',
          div_mul_cancel₀ _ hg0.ne']
        exact hcB) (by linarith)
    obtain ⟨N, hN⟩ := run_reach hg0.ne' stepFin hr
    refine ⟨r, h1, h2, N, fun fuel hf p hp => ?_⟩
    have := hN fuel hf p (by rw [hcg]; exact hp)
    rwa [hcg] at this
  have unf : ∀ fuel, ctRootF IFl.lt IFl.eqv 2 fuel (IFl.fin x : IFl f) =
      Spec.run IFl.eqv (newtonStep 2 (IFl.fin x : IFl f)) fuel (IFl.fin x) (IFl.fin 0) := by
    intro fuel
    unfold ctRootF
    rw [if_neg (by show ¬ decide (x < 0) = true; simpa using hx0.le), if_neg (by norm_num),
      newton_run _ _ _ _ (fun _ => rfl)]
    rfl
  rcases le_or_gt ((m : ℚ) * g) x with hge | hlt
  · obtain ⟨r, h1, h2, N, hN⟩ := run x hx.1 hge (le_max_left _ _)
    obtain ⟨g1, g2, g3, g4⟩ := good r h1 h2
    exact ⟨N, r * g, fun fuel hf => by rw [unf]; exact hN fuel hf 0 hx0.ne, g1, g2, g3, g4⟩
  · -- below the root, so below one: the first step jumps above the root
    have hx1 : x < 1 := by
      by_contra hc
      push Not at hc
      nlinarith
    have one : f.rnd 1 = 1 := by
      have := f.rnd_exact 1 0 (by omega) (by rw [abs_one]; exact one_le_pow₀ (by norm_num))
      simpa using this
    have hxx : x / x = 1 := div_self hx0.ne'
    have hst : rstep f x x = f.rnd ((x + 1) / 2) := by
      unfold rstep
      rw [hxx, one]
      refine rnd_half ?_
      have h1 : (2 : ℚ) ^ f.emin ≤ (2 : ℚ) ^ (-1 : ℤ) := zpow_le_zpow_right₀ two1 (by omega)
      rw [zpow_neg_one] at h1
      refine h1.trans ?_
      linarith
    have lo : (m : ℚ) * g ≤ rstep f x x := by
      rw [hst, ← mrep]
      apply f.rnd_mono
      by_contra hc
      push Not at hc
      nlinarith [sq_nonneg (x - 1)]
    have hi : rstep f x x ≤ 1 := by
      rw [hst]
      calc f.rnd ((x + 1) / 2) ≤ f.rnd 1 := f.rnd_mono (by linarith)
        _ = 1 := one
    have b1 : (1 : ℚ) < (2 : ℚ) ^ f.emax := one_lt_zpow₀ two1' (by omega)
    have hs1 : newtonStep 2 (IFl.fin x : IFl f) (IFl.fin x) = IFl.fin (rstep f x x) := by
      refine step_fin hw hx ?_ hx0.ne' ?_ ?_
      · rw [hxx, one, abs_one]; exact b1
      · rw [hxx, one, abs_of_nonneg (f.rnd_nonneg (by linarith))]
        refine lt_of_le_of_lt (small (x + 1) (by linarith) 1 (by omega) ?_) (zpow_lt_zpow_right₀ two1' (by omega))
        rw [zpow_one]; linarith
      · rw [abs_of_nonneg (hmg0.le.trans lo)]
        exact lt_of_le_of_lt hi b1
    obtain ⟨r, h1, h2, N, hN⟩ := run (rstep f x x) (by rw [hst, f.rnd_idem]) lo (hi.trans (le_max_right _ _))
    obtain ⟨g1, g2, g3, g4⟩ := good r h1 h2
    refine ⟨N + 1, r * g, fun fuel hf => ?_, g1, g2, g3, g4⟩
    obtain ⟨k, rfl⟩ := Nat.exists_eq_add_of_le hf
    rw [unf, show N + 1 + k = (N + k) + 1 by omega, Spec.run, if_neg, hs1]
    · exact hN _ (by omega) x (by linarith)
    · show ¬ decide _ = true; simpa using hx0.ne'

/-- C99, square roots: an exact root that is a number of the format is returned. -/
theorem C99_sqrt_exact (hw : WideFmt f) (x s : ℚ) (hx : Finite f x) (hs : Finite f s) (hs0 : 0 < s) (h : s ^ 2 = x) :
    ∃ N : ℕ, ∀ fuel ≥ N, ctRootF IFl.lt IFl.eqv 2 fuel (IFl.fin x : IFl f) = some (IFl.fin s) := by
  obtain ⟨N, r, h1, -, -, h2, h3⟩ := C99_sqrt hw x hx (by rw [← h]; positivity)
  rcases lt_trichotomy r s with h4 | h4 | h4
  · exact absurd h (h2 s hs h4).ne'
  · exact ⟨N, by rw [← h4]; exact h1⟩
  · exact absurd h (h3 s hs hs0.le h4).ne

/-- The hypotheses are met: the square root of 2 on `double`. -/
example : WideFmt binary64 ∧ Finite binary64 2 ∧ (0 : ℚ) < 2 :=
  ⟨wideFmt_64, by
    have := finite_zpow (f := binary64) 1 (by decide) (by decide)
    simpa using this, by norm_num⟩

end SciCpp
