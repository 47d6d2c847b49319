import Verif.Model.WaveformsF
import Verif.Props.Waveforms
import Verif.Props.PolyF
import Verif.Props.FloatSign
import Verif.Props.QAlmost
import Verif.Props.WindowsF
import Mathlib.Analysis.Real.Pi.Bounds
import Mathlib.Analysis.SpecialFunctions.Integrals.Basic
import Mathlib.Analysis.SpecialFunctions.Trigonometric.Bounds
/-
  Property theorems C131: waveforms in floating point.
-/
namespace SciCpp
open Spec

variable {rnd : ℚ → ℚ} {u : ℚ}

/-- What is assumed of the rounding: relative error `u ≤ 1/16`, monotone, odd, homogeneous for doubling, 1 exact.  `π'` (the constant `pi<T>`) is positive
and representable. -/
structure Spec.SawRnd (rnd : ℚ → ℚ) (u π' : ℚ) : Prop where
  u0 : 0 ≤ u
  u1 : u ≤ 1 / 16
  err : ∀ x, |rnd x - x| ≤ u * |x|
  mono : Monotone rnd
  dbl : ∀ x, rnd (2 * x) = 2 * rnd x
  neg : ∀ x, rnd (-x) = -rnd x
  one : rnd 1 = 1
  pi0 : 0 < π'
  pi : rnd π' = π'

namespace Saw

/-- The remainder. -/
def md (π' t : ℚ) : ℚ := 2 * π' * Int.fract (t / (2 * π'))

theorem md_range {π' : ℚ} (h : 0 < π') (t : ℚ) : 0 ≤ md π' t ∧ md π' t < 2 * π' := by
  unfold md
  have h1 := Int.fract_nonneg (t / (2 * π'))
  have h2 := Int.fract_lt_one (t / (2 * π'))
  constructor
  · positivity
  · nlinarith

theorem fmod_eq {π' : ℚ} (hp : 0 < π') {t : ℚ} (ht : 0 ≤ t) :
    fmodFl (RFl.fin t : RFl rnd) (RFl.fin (2 * π')) = RFl.fin (md π' t) := by
  have h2 : (2 * π' : ℚ) ≠ 0 := by positivity
  have : truncK (t / (2 * π')) = ⌊t / (2 * π')⌋ := by unfold truncK; rw [if_pos (by positivity)]
  show (if 2 * π' = 0 then RFl.nan else RFl.fin (t - 2 * π' * (truncK (t / (2 * π')) : ℚ))) = _
  rw [if_neg h2, this, md, Int.fract, mul_sub, mul_div_cancel₀ _ h2]

theorem fin_sub (a b : ℚ) : (RFl.fin a - RFl.fin b : RFl rnd) = RFl.fin (rnd (a - b)) := by
  show RFl.fin (rnd (a + -b)) = _
  rw [← sub_eq_add_neg]

theorem fin_div {a b : ℚ} (h : b ≠ 0) : (RFl.fin a / RFl.fin b : RFl rnd) = RFl.fin (rnd (a / b)) := by
  show RFl.round rnd (if b = 0 then _ else Fl.fin (a / b)) = _
  rw [if_neg h]; rfl

/-- `sawtooth` at a finite time `t ≥ 0`. -/
theorem eval {π' : ℚ} (H : SawRnd rnd u π') {w t : ℚ} (hw : 0 ≤ w) (hw1 : w ≤ 1) (hr : rnd w = w) (ht : 0 ≤ t) :
    sawtoothAt RFl.lt fmodFl (RFl.fin 2 : RFl rnd) (RFl.fin π') (RFl.fin w) (RFl.fin t) =
      if md π' t < 2 * rnd (w * π') then .ok (RFl.fin (rnd (rnd (md π' t / rnd (w * π')) - 1)))
      else .ok (RFl.fin (rnd (rnd (rnd (w + 1) - rnd (md π' t / π')) / rnd (1 - w)))) := by
  have hp := H.pi0
  have e2 : (RFl.fin 2 * RFl.fin π' : RFl rnd) = RFl.fin (2 * π') := by
    show RFl.fin (rnd (2 * π')) = _
    rw [H.dbl, H.pi]
  have e3 : (RFl.fin w * RFl.fin 2 * RFl.fin π' : RFl rnd) = RFl.fin (2 * rnd (w * π')) := by
    show RFl.fin (rnd (rnd (w * 2) * π')) = _
    rw [mul_comm w 2, H.dbl, hr, mul_assoc, H.dbl]
  have e4 : (RFl.fin w * RFl.fin π' : RFl rnd) = RFl.fin (rnd (w * π')) := rfl
  obtain ⟨x0, x1⟩ := md_range hp t
  have lt_fin : ∀ a b : ℚ, RFl.lt (RFl.fin a : RFl rnd) (RFl.fin b) = decide (a < b) := fun _ _ => rfl
  have z0 : (0 : RFl rnd) = RFl.fin 0 := rfl
  have z1 : (1 : RFl rnd) = RFl.fin 1 := rfl
  unfold sawtoothAt
  simp only [e2, e3, e4, fmod_eq hp ht, lt_fin, z0, z1, decide_eq_true_eq]
  by_cases h : md π' t < 2 * rnd (w * π')
  · rw [if_pos h, if_pos h]
    have hd : 0 < rnd (w * π') := by linarith
    have hw0 : 0 < w := by
      rcases hw.lt_or_eq with h' | h'
      · exact h'
      · rw [← h', zero_mul] at hd
        have := H.err 0
        rw [abs_zero, mul_zero, sub_zero] at this
        have := abs_nonpos_iff.1 this
        rw [this] at hd; exact absurd hd (lt_irrefl _)
    rw [if_pos hw0, fin_div hd.ne', fin_sub]
  · rw [if_neg h, if_neg h]
    have hw2 : w < 1 := by
      rcases hw1.lt_or_eq with h' | h'
      · exact h'
      · rw [h', one_mul, H.pi] at h; exact absurd x1 h
    rw [if_pos hw2, fin_div hp.ne']
    have he : rnd (1 - w) ≠ 0 := by
      intro h0
      have := H.err (1 - w)
      rw [h0, zero_sub, abs_neg, abs_of_pos (by linarith)] at this
      have := H.u1
      nlinarith
    have ea : (RFl.fin w + RFl.fin 1 : RFl rnd) = RFl.fin (rnd (w + 1)) := rfl
    rw [ea, fin_sub, fin_sub, fin_div he]

/-- The rising branch. -/
theorem rising {π' : ℚ} (H : SawRnd rnd u π') {w x : ℚ} (hw : 0 ≤ w) (x0 : 0 ≤ x) (h : x < 2 * rnd (w * π')) :
    0 < w ∧ -1 ≤ rnd (rnd (x / rnd (w * π')) - 1) ∧ rnd (rnd (x / rnd (w * π')) - 1) ≤ 1 ∧
      |rnd (rnd (x / rnd (w * π')) - 1) - (x / (w * π') - 1)| ≤ 5 * u := by
  have hp := H.pi0
  have u0 := H.u0
  set d := rnd (w * π') with hd
  have d0 : 0 < d := by linarith
  have hz : rnd 0 = 0 := by
    have := H.err 0
    rw [abs_zero, mul_zero, sub_zero] at this
    exact abs_nonpos_iff.1 this
  have hw0 : 0 < w := by
    rcases hw.lt_or_eq with h' | h'
    · exact h'
    · rw [hd, ← h', zero_mul, hz] at d0; exact absurd d0 (lt_irrefl _)
  have hwp : 0 < w * π' := by positivity
  have q0 : 0 ≤ x / d := by positivity
  have q2 : x / d ≤ 2 := by rw [div_le_iff₀ d0]; exact h.le
  have r2' : rnd 2 = 2 := by have := H.dbl 1; rwa [mul_one, H.one, mul_one] at this
  have r0 : 0 ≤ rnd (x / d) := by rw [← hz]; exact H.mono q0
  have r2 : rnd (x / d) ≤ 2 := by rw [← r2']; exact H.mono q2
  have lo : -1 ≤ rnd (rnd (x / d) - 1) := by
    have : rnd (-1) ≤ rnd (rnd (x / d) - 1) := H.mono (by linarith)
    rwa [H.neg, H.one] at this
  have hi : rnd (rnd (x / d) - 1) ≤ 1 := by
    have : rnd (rnd (x / d) - 1) ≤ rnd 1 := H.mono (by linarith)
    rwa [H.one] at this
  refine ⟨hw0, lo, hi, ?_⟩
  have e1 := H.err (rnd (x / d) - 1)
  have e2 := H.err (x / d)
  have e3 := H.err (w * π')
  rw [← hd, abs_of_pos hwp] at e3
  have a1 : |rnd (x / d) - 1| ≤ 1 := abs_le.2 ⟨by linarith, by linarith⟩
  rw [abs_of_nonneg q0] at e2
  have e4 : |x / d - x / (w * π')| ≤ x / d * u := by
    have : x / d - x / (w * π') = x / d * ((w * π' - d) / (w * π')) := by field_simp
    rw [this, abs_mul, abs_of_nonneg q0]
    refine mul_le_mul_of_nonneg_left ?_ q0
    rw [abs_div, abs_of_pos hwp, div_le_iff₀ hwp, abs_sub_comm]
    exact e3
  have b1 : u * |rnd (x / d) - 1| ≤ u * 1 := mul_le_mul_of_nonneg_left a1 u0
  have b2 : u * (x / d) ≤ u * 2 := mul_le_mul_of_nonneg_left q2 u0
  rw [abs_le] at *
  constructor <;> nlinarith [e1.1, e1.2, e2.1, e2.2, e4.1, e4.2]

/-- The falling branch. -/
theorem falling {π' : ℚ} (H : SawRnd rnd u π') {w x : ℚ} (hw : 0 ≤ w) (hw1 : w < 1) (x1 : x < 2 * π')
    (h : 2 * rnd (w * π') ≤ x) :
    |rnd (rnd (rnd (w + 1) - rnd (x / π')) / rnd (1 - w)) - (w + 1 - x / π') / (1 - w)| ≤ 11 * u / (1 - w) := by
  have hp := H.pi0
  have u0 := H.u0
  have u1 := H.u1
  have hw2 : 0 < 1 - w := by linarith
  have e3 := H.err (w * π')
  rw [abs_of_nonneg (by positivity : 0 ≤ w * π')] at e3
  have hy1 : x / π' < 2 := by rw [div_lt_iff₀ hp]; exact x1
  have hy0 : 2 * w * (1 - u) ≤ x / π' := by
    rw [le_div_iff₀ hp]
    have := (abs_le.1 e3).1
    nlinarith
  have hy00 : 0 ≤ x / π' := le_trans (by nlinarith [mul_nonneg hw (show (0:ℚ) ≤ 1 - u by linarith)]) hy0
  set y := x / π' with hy
  set N := w + 1 - y with hN
  have N1 : |N| ≤ (1 - w) + 2 * w * u := by
    rw [abs_le]; constructor <;> nlinarith
  have ea := H.err (w + 1)
  have eb := H.err y
  set a := rnd (w + 1)
  set b := rnd y
  have ec := H.err (a - b)
  set c := rnd (a - b)
  have ee := H.err (1 - w)
  set e := rnd (1 - w)
  rw [abs_of_pos hw2] at ee
  rw [abs_of_nonneg (show (0 : ℚ) ≤ w + 1 by linarith)] at ea
  rw [abs_of_nonneg hy00] at eb
  have ed := H.err (c / e)
  have he : (1 - u) * (1 - w) ≤ e := by have := (abs_le.1 ee).1; nlinarith
  have he0 : 0 < e := lt_of_lt_of_le (mul_pos (by linarith) hw2) he
  have ab : |a - b - N| ≤ u * (w + 1) + u * y := by
    have : a - b - N = (a - (w + 1)) - (b - y) := by rw [hN]; ring
    rw [this]
    exact (abs_sub _ _).trans (add_le_add ea eb)
  have ab4 : u * (w + 1) + u * y ≤ 4 * u := by nlinarith
  have N2 : |N| ≤ 1 + 2 * u := by nlinarith [mul_nonneg hw u0]
  have abN : |a - b| ≤ 1 + 6 * u := by
    have : |a - b| ≤ |a - b - N| + |N| := by
      have := abs_add_le (a - b - N) N
      rwa [sub_add_cancel] at this
    linarith
  have cN : |c - N| ≤ 6 * u := by
    have h1 : |c - N| ≤ |c - (a - b)| + |a - b - N| := abs_sub_le _ _ _
    have h2 : u * |a - b| ≤ u * (1 + 6 * u) := mul_le_mul_of_nonneg_left abN u0
    nlinarith
  -- quotient
  have q1 : |c / e - N / (1 - w)| ≤ 8 * u / e := by
    have : c / e - N / (1 - w) = ((c - N) + N * ((1 - w - e) / (1 - w))) / e := by field_simp; ring
    rw [this, abs_div, abs_of_pos he0]
    refine div_le_div_of_nonneg_right ?_ he0.le
    refine (abs_add_le _ _).trans ?_
    have : |N * ((1 - w - e) / (1 - w))| ≤ |N| * u := by
      rw [abs_mul]
      refine mul_le_mul_of_nonneg_left ?_ (abs_nonneg _)
      rw [abs_div, abs_of_pos hw2, div_le_iff₀ hw2, abs_sub_comm]
      exact ee
    nlinarith
  have q2 : |c / e| ≤ (1 + 8 * u) / e := by
    rw [abs_div, abs_of_pos he0]
    refine div_le_div_of_nonneg_right ?_ he0.le
    have : |c| ≤ |c - N| + |N| := by
      have := abs_add_le (c - N) N
      rwa [sub_add_cancel] at this
    linarith
  have q3 : |rnd (c / e) - N / (1 - w)| ≤ (8 * u + u * (1 + 8 * u)) / e := by
    have h1 : |rnd (c / e) - N / (1 - w)| ≤ |rnd (c / e) - c / e| + |c / e - N / (1 - w)| := abs_sub_le _ _ _
    have h2 : u * |c / e| ≤ u * ((1 + 8 * u) / e) := mul_le_mul_of_nonneg_left q2 u0
    have h3 : (8 * u + u * (1 + 8 * u)) / e = 8 * u / e + u * ((1 + 8 * u) / e) := by ring
    rw [h3]; linarith
  refine q3.trans ?_
  rw [div_le_div_iff₀ he0 hw2]
  have : (8 * u + u * (1 + 8 * u)) ≤ 11 * u * (1 - u) := by nlinarith
  calc (8 * u + u * (1 + 8 * u)) * (1 - w) ≤ 11 * u * (1 - u) * (1 - w) := mul_le_mul_of_nonneg_right this hw2.le
    _ ≤ 11 * u * e := by nlinarith

/-- The triangle wave in rational arithmetic. -/
def tri (w p : ℚ) : ℚ := if p < w then 2 * (p / w) - 1 else 1 - 2 * ((p - w) / (1 - w))

theorem tri_cast (w p : ℚ) : ((tri w p : ℚ) : ℝ) = triangleWave w p := by
  unfold tri triangleWave
  have : ((p : ℝ) < w) ↔ p < w := Rat.cast_lt
  by_cases h : p < w
  · rw [if_pos h, if_pos (this.2 h)]; push_cast; ring
  · rw [if_neg h, if_neg (fun e => h (this.1 e))]; push_cast; ring

theorem phase {π' : ℚ} (hp : 0 < π') (t : ℚ) : md π' t / π' = 2 * Int.fract (t / (2 * π')) := by
  unfold md; field_simp

/-- The value of `sawtooth` near the triangle wave. -/
theorem main {π' : ℚ} (H : SawRnd rnd u π') {w t : ℚ} (hw : 0 ≤ w) (hw1 : w ≤ 1) (hr : rnd w = w) (ht : 0 ≤ t) :
    ∃ v, sawtoothAt RFl.lt fmodFl (RFl.fin 2 : RFl rnd) (RFl.fin π') (RFl.fin w) (RFl.fin t) = .ok (RFl.fin v) ∧
      (md π' t < 2 * rnd (w * π') → -1 ≤ v ∧ v ≤ 1) ∧
      (w = 1 → |v - tri w (Int.fract (t / (2 * π')))| ≤ 5 * u) ∧
      (w < 1 → |v - tri w (Int.fract (t / (2 * π')))| ≤ 13 * u / (1 - w)) := by
  have hp := H.pi0
  have u0 := H.u0
  obtain ⟨x0, x1⟩ := md_range hp t
  have ph := phase hp t
  set p := Int.fract (t / (2 * π')) with hpdef
  have p0 : 0 ≤ p := Int.fract_nonneg _
  have p1 : p < 1 := Int.fract_lt_one _
  rw [eval H hw hw1 hr ht]
  have e3 := H.err (w * π')
  rw [abs_of_nonneg (by positivity : 0 ≤ w * π')] at e3
  have xe : md π' t = 2 * π' * p := rfl
  by_cases h : md π' t < 2 * rnd (w * π')
  · obtain ⟨w0, r1, r2, r3⟩ := rising H hw x0 h
    rw [if_pos h]
    refine ⟨_, rfl, fun _ => ⟨r1, r2⟩, ?_, ?_⟩
    · intro e
      subst e
      rw [tri, if_pos p1]
      have : md π' t / (1 * π') - 1 = 2 * (p / 1) - 1 := by rw [one_mul, ph, div_one]
      rwa [this] at r3
    · intro h1
      have hw2 : 0 < 1 - w := by linarith
      have ex : md π' t / (w * π') = 2 * (p / w) := by rw [xe]; field_simp
      rw [ex] at r3
      have k5 : 5 * u ≤ 11 * u / (1 - w) := by rw [le_div_iff₀ hw2]; nlinarith
      have k0 : 0 ≤ 2 * u / (1 - w) := by positivity
      have k13 : 13 * u / (1 - w) = 11 * u / (1 - w) + 2 * u / (1 - w) := by ring
      rw [tri]
      split
      · rw [k13]; linarith
      · rename_i hpw
        rw [not_lt] at hpw
        have hpu : p - w ≤ w * u := by
          have := (abs_le.1 e3).2
          rw [xe] at h
          have : p * π' < (w + w * u) * π' := by nlinarith
          have := lt_of_mul_lt_mul_right this hp.le
          linarith
        have dif : |(2 * (p / w) - 1) - (1 - 2 * ((p - w) / (1 - w)))| ≤ 2 * u / (1 - w) := by
          have : (2 * (p / w) - 1) - (1 - 2 * ((p - w) / (1 - w))) = 2 * ((p - w) / w) / (1 - w) := by field_simp; ring
          rw [this, abs_of_nonneg (div_nonneg (mul_nonneg two_pos.le (div_nonneg (by linarith) hw)) hw2.le)]
          refine div_le_div_of_nonneg_right ?_ hw2.le
          have : (p - w) / w ≤ u := by rw [div_le_iff₀ w0]; linarith
          linarith
        rw [k13]
        refine (abs_sub_le _ (2 * (p / w) - 1) _).trans ?_
        linarith
  · rw [if_neg h]
    have h' := not_lt.1 h
    have h1 : w < 1 := by
      rcases hw1.lt_or_eq with e | e
      · exact e
      · rw [e, one_mul, H.pi] at h'; linarith
    have hw2 : 0 < 1 - w := by linarith
    have r3 := falling H hw h1 x1 h'
    refine ⟨_, rfl, fun e => absurd e h, fun e => absurd e h1.ne, fun _ => ?_⟩
    have ex : (w + 1 - md π' t / π') / (1 - w) = 1 - 2 * ((p - w) / (1 - w)) := by rw [ph]; field_simp; ring
    rw [ex] at r3
    have k0 : 0 ≤ 2 * u / (1 - w) := by positivity
    have k13 : 13 * u / (1 - w) = 11 * u / (1 - w) + 2 * u / (1 - w) := by ring
    rw [tri]
    split
    · rename_i hpw
      have w0 : 0 < w := lt_of_le_of_lt p0 hpw
      have hpu : w - p ≤ w * u := by
        have := (abs_le.1 e3).1
        rw [xe] at h'
        have : (w - w * u) * π' ≤ p * π' := by nlinarith
        have := le_of_mul_le_mul_right this hp
        linarith
      have dif : |(1 - 2 * ((p - w) / (1 - w))) - (2 * (p / w) - 1)| ≤ 2 * u / (1 - w) := by
        have : (1 - 2 * ((p - w) / (1 - w))) - (2 * (p / w) - 1) = 2 * ((w - p) / w) / (1 - w) := by field_simp; ring
        rw [this, abs_of_nonneg (div_nonneg (mul_nonneg two_pos.le (div_nonneg (by linarith) hw)) hw2.le)]
        refine div_le_div_of_nonneg_right ?_ hw2.le
        have : (w - p) / w ≤ u := by rw [div_le_iff₀ w0]; linarith
        linarith
      rw [k13]
      refine (abs_sub_le _ (1 - 2 * ((p - w) / (1 - w))) _).trans ?_
      linarith
    · rw [k13]; linarith

theorem mapM_ok {α β : Type} (g : α → Res β) (h : α → β) (l : List α) (e : ∀ x ∈ l, g x = .ok (h x)) : l.mapM g = .ok (l.map h) := by
  induction l with
  | nil => rfl
  | cons a l ih =>
    rw [List.mapM_cons, e a (by simp), ih (fun x hx => e x (List.mem_cons_of_mem _ hx))]; rfl

theorem width_ok {w : ℚ} : (RFl.le (0 : RFl rnd) (RFl.fin w) && RFl.le (RFl.fin w) (1 : RFl rnd)) = decide (0 ≤ w ∧ w ≤ 1) := by
  show (decide (0 ≤ w) && decide (w ≤ 1)) = _
  rw [Bool.decide_and]

end Saw

open Saw

/-- C131: `sawtooth` in rounded arithmetic, for every width in `[0, 1]` and all finite times `t ≥ 0`: it does not fail; every value is within
`13 u / (1 - width)` (`5 u` for width 1) of the triangle wave of period `2π'`, where `π'` is the constant `pi<T>`; with the default width 1 no value
leaves `[-1, 1]`, otherwise by at most that error. -/
theorem C131_sawtooth {π' : ℚ} (H : SawRnd rnd u π') {w : ℚ} (hw : 0 ≤ w) (hw1 : w ≤ 1) (hr : rnd w = w) (ts : List ℚ) (ht : ∀ t ∈ ts, 0 ≤ t) :
    ∃ v : ℚ → ℚ, sawtoothFl π' (RFl.fin w) (ts.map (RFl.fin (rnd := rnd))) = .ok (ts.map fun t => RFl.fin (v t)) ∧
      ∀ t ∈ ts,
        (w = 1 → |(v t : ℝ)| ≤ 1 ∧ |(v t : ℝ) - triangleWave w (Int.fract ((t : ℝ) / (2 * π')))| ≤ 5 * u) ∧
        (w < 1 → |(v t : ℝ)| ≤ 1 + 13 * u / (1 - w) ∧
          |(v t : ℝ) - triangleWave w (Int.fract ((t : ℝ) / (2 * π')))| ≤ 13 * u / (1 - w)) := by
  have key := fun t (h : 0 ≤ t) => Saw.main H hw hw1 hr h
  choose! v h1 h2 h3 h4 using key
  refine ⟨v, ?_, fun t hm => ?_⟩
  · unfold sawtoothFl
    rw [width_ok, decide_eq_true ⟨hw, hw1⟩, if_pos rfl,
      Saw.mapM_ok _ (fun x : RFl rnd => match (x : Fl) with | .fin t => RFl.fin (v t) | _ => RFl.nan)]
    · rw [List.map_map]; rfl
    · intro x hx
      obtain ⟨t, hm, rfl⟩ := List.mem_map.1 hx
      exact h1 t (ht t hm)
  · have ht0 := ht t hm
    have cast : ((tri w (Int.fract (t / (2 * π'))) : ℚ) : ℝ) = triangleWave w (Int.fract ((t : ℝ) / (2 * π'))) := by
      rw [tri_cast, Rat.cast_fract]; push_cast; rfl
    constructor
    · intro e
      refine ⟨?_, ?_⟩
      · have := h2 t ht0 (by rw [e, one_mul, H.pi]; exact (md_range H.pi0 t).2)
        rw [abs_le]
        exact ⟨by exact_mod_cast this.1, by exact_mod_cast this.2⟩
      · rw [← cast]
        have := h3 t ht0 e
        exact_mod_cast this
    · intro e
      have d := h4 t ht0 e
      have dR : |(v t : ℝ) - triangleWave w (Int.fract ((t : ℝ) / (2 * π')))| ≤ 13 * u / (1 - w) := by
        rw [← cast]; exact_mod_cast d
      refine ⟨?_, dR⟩
      have r := triangleWave_range (w := w) (Int.fract_nonneg ((t : ℝ) / (2 * π'))) (Int.fract_lt_one _)
      rw [abs_le] at dR ⊢
      constructor <;> linarith [dR.1, dR.2, r.1, r.2]

/-- C131: rounded `sawtooth` is exactly periodic with period `2π'`: times that differ by a multiple of it give the same value, bit for bit. -/
theorem C131_periodic {π' : ℚ} (H : SawRnd rnd u π') {w t : ℚ} (hw : 0 ≤ w) (hw1 : w ≤ 1) (hr : rnd w = w) (ht : 0 ≤ t) (k : ℕ) :
    sawtoothFl π' (RFl.fin w : RFl rnd) [RFl.fin (t + 2 * π' * k)] = sawtoothFl π' (RFl.fin w) [RFl.fin t] := by
  have hp := H.pi0
  have e : md π' (t + 2 * π' * k) = md π' t := by
    unfold md
    have : (t + 2 * π' * k) / (2 * π') = t / (2 * π') + (k : ℕ) := by field_simp
    rw [this, Int.fract_add_natCast]
  unfold sawtoothFl
  simp only [List.mapM_cons, List.mapM_nil]
  rw [eval H hw hw1 hr ht, eval H hw hw1 hr (by positivity), e]

/-- C131: the requirement on the width is checked: outside `[0, 1]`, infinite or NaN widths are rejected. -/
theorem C131_width (π' : ℚ) (ts : List (RFl rnd)) :
    (∀ w : ℚ, ¬ (0 ≤ w ∧ w ≤ 1) → sawtoothFl π' (RFl.fin w) ts = .ub) ∧ (∀ b, sawtoothFl π' (RFl.inf b) ts = .ub) ∧
    sawtoothFl π' RFl.nan ts = .ub := by
  refine ⟨fun w h => ?_, fun b => ?_, rfl⟩
  · unfold sawtoothFl
    rw [width_ok, decide_eq_false h]; rfl
  · cases b <;> rfl

/-- C131, negation: a time that is NaN or infinite gives NaN for widths below 1, but with the default width 1 it falls into the branch in which the
requirement `width < 1` fails. -/
theorem C131_nan {π' : ℚ} (H : SawRnd rnd u π') {w : ℚ} (hw : 0 ≤ w) (hw1 : w < 1) (t : RFl rnd)
    (ht : t = RFl.nan ∨ t = RFl.inf true ∨ t = RFl.inf false) :
    sawtoothFl π' (RFl.fin w) [t] = .ok [RFl.nan] ∧ sawtoothFl π' (RFl.fin 1) [t] = .ub := by
  have e2 : (RFl.fin 2 * RFl.fin π' : RFl rnd) = RFl.fin (2 * π') := by
    show RFl.fin (rnd (2 * π')) = _
    rw [H.dbl, H.pi]
  have hm : fmodFl t (RFl.fin (2 * π')) = RFl.nan := by
    rcases ht with rfl | rfl | rfl <;> rfl
  have hlt : ∀ x : RFl rnd, RFl.lt (RFl.nan : RFl rnd) x = false := fun _ => rfl
  have lt_fin : ∀ a b : ℚ, RFl.lt (RFl.fin a : RFl rnd) (RFl.fin b) = decide (a < b) := fun _ _ => rfl
  have z1 : (1 : RFl rnd) = RFl.fin 1 := rfl
  have nd : (RFl.nan / RFl.fin π' : RFl rnd) = RFl.nan := rfl
  have ns : ∀ a : ℚ, (RFl.fin a - RFl.nan : RFl rnd) = RFl.nan := fun _ => rfl
  have nd2 : ∀ x : RFl rnd, (RFl.nan / x : RFl rnd) = RFl.nan := fun _ => rfl
  have ea : (RFl.fin w + RFl.fin 1 : RFl rnd) = RFl.fin (rnd (w + 1)) := rfl
  constructor
  · unfold sawtoothFl sawtoothAt
    rw [width_ok, decide_eq_true ⟨hw, hw1.le⟩, if_pos rfl]
    simp only [List.mapM_cons, List.mapM_nil, e2, hm, hlt, z1, lt_fin, decide_eq_true hw1, nd2, ns, ea]
    rfl
  · unfold sawtoothFl sawtoothAt
    rw [width_ok, decide_eq_true ⟨zero_le_one, le_rfl⟩, if_pos rfl]
    simp only [List.mapM_cons, List.mapM_nil, e2, hm, hlt, z1, lt_fin]
    rfl

/-- C131, negation: before time 0 the default sawtooth is below its range: in `(-2π', 0)` all values are at most -1, and -2 at `-π'`. -/
theorem C131_negative_times {π' : ℚ} (H : SawRnd rnd u π') {t : ℚ} (h1 : -(2 * π') < t) (h0 : t < 0) :
    (∃ v, sawtoothFl π' (RFl.fin 1 : RFl rnd) [RFl.fin t] = .ok [RFl.fin v] ∧ v ≤ -1) ∧
    sawtoothFl π' (RFl.fin 1 : RFl rnd) [RFl.fin (-π')] = .ok [RFl.fin (-2)] := by
  have hp := H.pi0
  have hz : rnd 0 = 0 := by
    have := H.err 0
    rw [abs_zero, mul_zero, sub_zero] at this
    exact abs_nonpos_iff.1 this
  have key : ∀ t : ℚ, -(2 * π') < t → t < 0 →
      sawtoothFl π' (RFl.fin 1 : RFl rnd) [RFl.fin t] = .ok [RFl.fin (rnd (rnd (t / π') - 1))] := by
    intro t h1 h0
    have e2 : (RFl.fin 2 * RFl.fin π' : RFl rnd) = RFl.fin (2 * π') := by
      show RFl.fin (rnd (2 * π')) = _
      rw [H.dbl, H.pi]
    have e3 : (RFl.fin 1 * RFl.fin 2 * RFl.fin π' : RFl rnd) = RFl.fin (2 * π') := by
      show RFl.fin (rnd (rnd (1 * 2) * π')) = _
      rw [one_mul, show rnd 2 = 2 by have := H.dbl 1; rwa [mul_one, H.one, mul_one] at this, H.dbl, H.pi]
    have e4 : (RFl.fin 1 * RFl.fin π' : RFl rnd) = RFl.fin π' := by
      show RFl.fin (rnd (1 * π')) = _
      rw [one_mul, H.pi]
    have lt_fin : ∀ a b : ℚ, RFl.lt (RFl.fin a : RFl rnd) (RFl.fin b) = decide (a < b) := fun _ _ => rfl
    have z0 : (0 : RFl rnd) = RFl.fin 0 := rfl
    have z1 : (1 : RFl rnd) = RFl.fin 1 := rfl
    have hm : fmodFl (RFl.fin t : RFl rnd) (RFl.fin (2 * π')) = RFl.fin t := by
      show (if 2 * π' = 0 then RFl.nan else RFl.fin (t - 2 * π' * (truncK (t / (2 * π')) : ℚ))) = _
      have hneg : t / (2 * π') < 0 := div_neg_of_neg_of_pos h0 (by positivity)
      have hgt : -1 < t / (2 * π') := by rw [lt_div_iff₀ (by positivity)]; linarith
      have : truncK (t / (2 * π')) = 0 := by
        unfold truncK
        rw [if_neg (not_le.2 hneg), Int.ceil_eq_iff]
        constructor
        · push_cast; linarith
        · push_cast; exact hneg.le
      rw [if_neg (by positivity), this, Int.cast_zero, mul_zero, sub_zero]
    unfold sawtoothFl sawtoothAt
    rw [width_ok, decide_eq_true ⟨zero_le_one, le_rfl⟩, if_pos rfl]
    simp only [List.mapM_cons, List.mapM_nil, e2, e3, e4, hm, lt_fin, z0, z1]
    rw [if_pos (by simp; linarith), if_pos (by simp), fin_div hp.ne', fin_sub]
    rfl
  constructor
  · refine ⟨_, key t h1 h0, ?_⟩
    have q : rnd (t / π') ≤ 0 := by rw [← hz]; exact H.mono (div_nonpos_of_nonpos_of_nonneg h0.le hp.le)
    have := H.mono (show rnd (t / π') - 1 ≤ -1 by linarith)
    rwa [H.neg, H.one] at this
  · rw [key (-π') (by linarith) (by linarith), neg_div, div_self hp.ne', H.neg, H.one]
    have : rnd (-1 - 1) = -2 := by
      rw [show (-1 - 1 : ℚ) = -(2 * 1) by norm_num, H.neg, H.dbl, H.one]; norm_num
    rw [this]

theorem saw64 : SawRnd rnd64 (1 / 2 ^ 53) piD64 where
  u0 := by norm_num
  u1 := by norm_num
  err := rnd64_err
  mono := fun _ _ h => rnd64_mono h
  dbl := fun x => by have := rnd64_pow2 1 x; simpa using this
  neg := rnd64_neg
  one := rnd64_one
  pi0 := by unfold piD64; norm_num
  pi := by unfold piD64; decide +kernel

/-- C131 in binary64, with the default width. -/
theorem C131_binary64 (ts : List ℚ) (ht : ∀ t ∈ ts, 0 ≤ t) :
    ∃ v : ℚ → ℚ, sawtoothFl piD64 (RFl.fin 1) (ts.map (RFl.fin (rnd := rnd64))) = .ok (ts.map fun t => RFl.fin (v t)) ∧
      ∀ t ∈ ts, |(v t : ℝ)| ≤ 1 ∧ |(v t : ℝ) - (2 * Int.fract ((t : ℝ) / (2 * piD64)) - 1)| ≤ 5 / 2 ^ 53 := by
  obtain ⟨v, h1, h2⟩ := C131_sawtooth saw64 zero_le_one le_rfl rnd64_one ts ht
  refine ⟨v, h1, fun t hm => ?_⟩
  obtain ⟨h3, h4⟩ := (h2 t hm).1 rfl
  refine ⟨h3, ?_⟩
  unfold triangleWave at h4
  rw [if_pos (by push_cast; exact Int.fract_lt_one _)] at h4
  push_cast at h4
  rw [div_one] at h4
  refine h4.trans (le_of_eq (by norm_num))

/-- C131, negation: the period is `2π'`, not `2π`: at the (representable) time 80600000000000064 the value in binary64 is about 0.498, while the
sawtooth of period `2π` is there below -0.5 + 0.01: half a period off. -/
theorem C131_drift_false : ∃ v : ℚ, sawtoothFl piD64 (RFl.fin 1) [(RFl.fin 80600000000000064 : F64)] = .ok [RFl.fin v] ∧ 49 / 100 < v ∧
    triangleWave 1 (Int.fract ((80600000000000064 : ℝ) / (2 * Real.pi))) < -(49 / 100) := by
  obtain ⟨v, h1, h2⟩ := C131_binary64 [80600000000000064] (by norm_num)
  obtain ⟨-, h3⟩ := h2 80600000000000064 (by simp)
  refine ⟨v 80600000000000064, h1, ?_, ?_⟩
  · have hf : Int.fract (((80600000000000064 : ℚ) : ℝ) / (2 * piD64)) = (80600000000000064 : ℝ) / (2 * piD64) - 12827888413206774 := by
      rw [Int.fract_eq_iff]
      unfold piD64
      refine ⟨by push_cast; norm_num, by push_cast; norm_num, 12827888413206774, by push_cast; ring⟩
    rw [hf] at h3
    have h4 := (abs_le.1 h3).1
    have h6 : (748 / 1000 : ℝ) < (80600000000000064 : ℝ) / (2 * piD64) - 12827888413206774 := by
      unfold piD64; push_cast; norm_num
    have h5 : (49 / 100 : ℝ) < (v 80600000000000064 : ℝ) := by
      have : (5 : ℝ) / 2 ^ 53 < 1 / 1000 := by norm_num
      linarith
    have h7 : ((49 / 100 : ℚ) : ℝ) < (v 80600000000000064 : ℝ) := by push_cast; exact h5
    exact Rat.cast_lt.1 h7
  · have hp := Real.pi_pos
    have l := Real.pi_gt_d20
    have g := Real.pi_lt_d20
    have hlo : (12827888413206774 + 24 / 100 : ℝ) < 80600000000000064 / (2 * Real.pi) := by
      rw [lt_div_iff₀ (by positivity)]; norm_num at g ⊢; linarith
    have hhi : (80600000000000064 / (2 * Real.pi) : ℝ) < 12827888413206774 + 254 / 1000 := by
      rw [div_lt_iff₀ (by positivity)]; norm_num at l ⊢; linarith
    have hf : Int.fract ((80600000000000064 : ℝ) / (2 * Real.pi)) = 80600000000000064 / (2 * Real.pi) - 12827888413206774 := by
      rw [Int.fract_eq_iff]
      exact ⟨by linarith, by linarith, 12827888413206774, by push_cast; ring⟩
    unfold triangleWave
    rw [if_pos (Int.fract_lt_one _), hf]
    linarith

/-- The phase of a polynomial sweep in turns: `F(t) = ∑ Pᵢ/(i+1) t^(i+1)`, the integral from 0 of the frequency `∑ Pᵢ tⁱ`. -/
def sweepTurns (P : List ℚ) (t : ℚ) : ℚ := ∑ i ∈ Finset.range P.length, P.getD i 0 / (i + 1) * t ^ (i + 1)

/-- The same sum of the absolute values of its terms. -/
def sweepTurnsAbs (P : List ℚ) (t : ℚ) : ℚ := ∑ i ∈ Finset.range P.length, |P.getD i 0 / (i + 1)| * |t| ^ (i + 1)

theorem Saw.sweep_arg {π' : ℚ} (H : SawRnd rnd u π') (P : List ℚ) (hP : P ≠ []) (hn : ∀ n : ℕ, n ≤ P.length + 1 → rnd n = n) (phi : ℚ) :
    ∃ ip : List (RFl rnd), polyint (P.map (RFl.fin (rnd := rnd))) = .ok ip ∧ ∃ a : ℚ → ℚ,
      (∀ t, RFl.fin 2 * RFl.fin π' * polyvalWith RFl.fma (RFl.fin t) ip + RFl.fin phi = (RFl.fin (a t) : RFl rnd)) ∧
      ∀ t, |a t - (2 * π' * sweepTurns P t + phi)| ≤ ((1 + u) ^ (P.length + 4) - 1) * (2 * π' * sweepTurnsAbs P t) + u * |phi| := by
  obtain ⟨r, h1, h2, h3, h4⟩ := C122_polyint H.u0 H.err P hP 1 hn
  refine ⟨r.map RFl.fin, h1, ?_⟩
  choose z hz he using fun t => C88_polyval H.u0 H.err t r
  have h2p : rnd (2 * π') = 2 * π' := by rw [H.dbl, H.pi]
  refine ⟨fun t => rnd (rnd (2 * π' * z t) + phi), fun t => ?_, fun t => ?_⟩
  · rw [hz]
    show (RFl.fin (rnd (rnd (rnd (2 * π') * z t) + phi)) : RFl rnd) = _
    rw [h2p]
  · have hu := H.u0
    have hp := H.pi0
    set A := sweepTurnsAbs P t with hA
    have A0 : 0 ≤ A := Finset.sum_nonneg fun i _ => by positivity
    have h4' : ∀ i, |r.getD (i + 1) 0 - P.getD i 0 / (i + 1)| ≤ u * |P.getD i 0 / (i + 1)| := by
      intro i
      have := h4 i
      simp only [pow_one, add_sub_cancel_left, Nat.descFactorial_one] at this
      push_cast at this
      exact this
    have hsum : ∀ f : ℕ → ℚ, ∑ i ∈ Finset.range r.length, f i = (∑ i ∈ Finset.range P.length, f (i + 1)) + f 0 := by
      intro f; rw [h2, Finset.sum_range_succ']
    have hr0 : r.getD 0 0 = 0 := h3 0 one_pos
    have e1 : |(∑ i ∈ Finset.range r.length, r.getD i 0 * t ^ i) - sweepTurns P t| ≤ u * A := by
      rw [hsum, hr0, zero_mul, add_zero]
      unfold sweepTurns
      rw [← Finset.sum_sub_distrib, hA]
      unfold sweepTurnsAbs
      rw [Finset.mul_sum]
      refine (Finset.abs_sum_le_sum_abs _ _).trans (Finset.sum_le_sum fun i _ => ?_)
      rw [← sub_mul, abs_mul, abs_pow, ← mul_assoc]
      exact mul_le_mul_of_nonneg_right (h4' i) (by positivity)
    have e2 : ∑ i ∈ Finset.range r.length, |r.getD i 0| * |t| ^ i ≤ (1 + u) * A := by
      rw [hsum, hr0, abs_zero, zero_mul, add_zero, hA]
      unfold sweepTurnsAbs
      rw [Finset.mul_sum]
      refine Finset.sum_le_sum fun i _ => ?_
      rw [← mul_assoc]
      refine mul_le_mul_of_nonneg_right ?_ (by positivity)
      have := h4' i
      have := abs_sub_abs_le_abs_sub (r.getD (i + 1) 0) (P.getD i 0 / (i + 1))
      linarith
    have e3 := he t
    rw [h2] at e3 hsum
    set L := P.length
    have g1 : (1 : ℚ) ≤ (1 + u) ^ (L + 1) := one_le_pow₀ (by linarith)
    have e4 : |z t - sweepTurns P t| ≤ ((1 + u) ^ (L + 2) - 1) * A := by
      have := abs_sub_le (z t) (∑ i ∈ Finset.range (L + 1), r.getD i 0 * t ^ i) (sweepTurns P t)
      rw [h2] at e1 e2
      have := mul_le_mul_of_nonneg_left e2 (sub_nonneg.2 g1)
      have : (1 + u) ^ (L + 2) = (1 + u) ^ (L + 1) * (1 + u) := pow_succ _ _
      rw [this]
      nlinarith
    have hF : |sweepTurns P t| ≤ A := by
      refine (Finset.abs_sum_le_sum_abs _ _).trans (le_of_eq (Finset.sum_congr rfl fun i _ => ?_))
      rw [abs_mul, abs_pow]
    set B := 2 * π' * A with hB
    have B0 : 0 ≤ B := by positivity
    have p2 : |2 * π' * z t - 2 * π' * sweepTurns P t| ≤ ((1 + u) ^ (L + 2) - 1) * B := by
      rw [← mul_sub, abs_mul, abs_of_pos (by positivity : (0 : ℚ) < 2 * π'), hB]
      have := mul_le_mul_of_nonneg_left e4 (by positivity : (0 : ℚ) ≤ 2 * π')
      linarith
    have pF : |2 * π' * sweepTurns P t| ≤ B := by
      rw [abs_mul, abs_of_pos (by positivity : (0 : ℚ) < 2 * π'), hB]
      exact mul_le_mul_of_nonneg_left hF (by positivity)
    have step : ∀ (x X : ℚ) (k : ℕ) (c : ℚ), 0 ≤ c → |X| ≤ B + c → |x - X| ≤ ((1 + u) ^ k - 1) * B →
        |rnd x - X| ≤ ((1 + u) ^ (k + 1) - 1) * B + u * c := by
      intro x X k c hc hX hx
      have h5 := H.err x
      have h6 : |x| ≤ (1 + u) ^ k * B + c := by
        have := abs_sub_abs_le_abs_sub x X
        linarith
      have h7 := abs_sub_le (rnd x) x X
      have h8 := mul_le_mul_of_nonneg_left h6 hu
      rw [pow_succ]
      linarith
    have q1 := step (2 * π' * z t) (2 * π' * sweepTurns P t) (L + 2) 0 le_rfl (by linarith) p2
    rw [mul_zero, add_zero] at q1
    refine step (rnd (2 * π' * z t) + phi) (2 * π' * sweepTurns P t + phi) (L + 3) |phi| (abs_nonneg _) ?_ ?_
    · exact (abs_add_le _ _).trans (by linarith)
    · rw [add_sub_add_right_eq_sub]; exact q1

/-- C131, `sweep_poly`: for a non-empty list of finite coefficients `P` of the frequency, a finite initial phase and finite times, with a `std::cos`
whose values are within `ε` of the cosine, value number `i` is within
`ε + ((1+u)^(L+4) - 1)·2π'·∑|Pᵢ/(i+1)||t|^(i+1) + u|φ| + 2|π' - π||F(t)|` of `cos(2πF(t) + φ)`, `F` the integral of the frequency; and within [-1, 1] if
`std::cos` is. -/
theorem C131_sweep {π' : ℚ} (H : SawRnd rnd u π') (P : List ℚ) (hP : P ≠ []) (hn : ∀ n : ℕ, n ≤ P.length + 1 → rnd n = n) (phi : ℚ)
    (cos : RFl rnd → RFl rnd) (cosv : ℚ → ℚ) (ε : ℝ) (hc : ∀ x, cos (RFl.fin x) = RFl.fin (cosv x)) (he : ∀ x : ℚ, |(cosv x : ℝ) - Real.cos x| ≤ ε)
    (ts : List ℚ) :
    ∃ v : ℚ → ℚ, sweepPolyFl π' cos (ts.map RFl.fin) (P.map RFl.fin) (RFl.fin phi) = .ok (ts.map fun t => RFl.fin (v t)) ∧
      ∀ t, |(v t : ℝ) - Real.cos (2 * Real.pi * sweepTurns P t + phi)| ≤
          ε + ((1 + u) ^ (P.length + 4) - 1) * (2 * π' * sweepTurnsAbs P t) + u * |(phi : ℝ)| + 2 * |π' - Real.pi| * |(sweepTurns P t : ℝ)| ∧
        ((∀ x, |cosv x| ≤ 1) → |v t| ≤ 1) := by
  obtain ⟨ip, h1, a, h2, h3⟩ := Saw.sweep_arg H P hP hn phi
  refine ⟨fun t => cosv (a t), ?_, fun t => ⟨?_, fun h => h _⟩⟩
  · unfold sweepPolyFl
    rw [h1]
    show Res.ok _ = _
    rw [List.map_map]
    refine congrArg Res.ok (List.map_congr_left fun t _ => ?_)
    rw [Function.comp_apply, h2, hc]
  · have e1 := he (a t)
    have e2 := Real.abs_cos_sub_cos_le (a t : ℝ) (2 * Real.pi * sweepTurns P t + phi)
    have e3 : |(a t : ℝ) - (2 * π' * sweepTurns P t + phi)| ≤ ((1 + u) ^ (P.length + 4) - 1) * (2 * π' * sweepTurnsAbs P t) + u * |(phi : ℝ)| := by
      have := (Rat.cast_le (K := ℝ)).2 (h3 t)
      push_cast at this
      exact this
    have e4 : |(2 * π' * sweepTurns P t + phi : ℝ) - (2 * Real.pi * sweepTurns P t + phi)| = 2 * |π' - Real.pi| * |(sweepTurns P t : ℝ)| := by
      rw [show (2 * π' * sweepTurns P t + phi : ℝ) - (2 * Real.pi * sweepTurns P t + phi) = 2 * (π' - Real.pi) * sweepTurns P t by ring,
        abs_mul, abs_mul, abs_two]
    have e5 := abs_sub_le (a t : ℝ) (2 * π' * sweepTurns P t + phi) (2 * Real.pi * sweepTurns P t + phi)
    have e6 := abs_sub_le (cosv (a t) : ℝ) (Real.cos (a t)) (Real.cos (2 * Real.pi * sweepTurns P t + phi))
    linarith

/-- C131: `F` is the integral of the frequency from 0 to `t`. -/
theorem C131_turns (P : List ℚ) (t : ℚ) :
    (sweepTurns P t : ℝ) = ∫ x in (0 : ℝ)..t, ∑ i ∈ Finset.range P.length, (P.getD i 0 : ℝ) * x ^ i := by
  rw [intervalIntegral.integral_finsetSum fun i _ => (Continuous.intervalIntegrable (by fun_prop) _ _)]
  unfold sweepTurns
  push_cast
  refine Finset.sum_congr rfl fun i _ => ?_
  rw [intervalIntegral.integral_const_mul, integral_pow]
  simp only [ne_eq, Nat.add_eq_zero_iff, one_ne_zero, and_false, not_false_eq_true, zero_pow, sub_zero]
  ring

/-- C131: without coefficients the requirement of `polyint` fails, whatever the times. -/
theorem C131_sweep_empty (π' : ℚ) (cos : RFl rnd → RFl rnd) (ts : List (RFl rnd)) (phi : RFl rnd) :
    sweepPolyFl π' cos ts [] phi = .ub := rfl

/-- The hypotheses of `C131_sweep` are met in binary64: a chirp of frequency 1 + 2t, with the cosine rounded to binary64. -/
example : ∃ cosv : ℚ → ℚ, (∀ x : ℚ, |(cosv x : ℝ) - Real.cos x| ≤ 1 / 1000) ∧ [(1 : ℚ), 2] ≠ [] ∧
    ∀ n : ℕ, n ≤ [(1 : ℚ), 2].length + 1 → rnd64 n = n := by
  have : ∀ x : ℚ, ∃ q : ℚ, |(q : ℝ) - Real.cos x| ≤ 1 / 1000 := fun x => by
    obtain ⟨q, h1, h2⟩ := exists_rat_btwn (show Real.cos x < Real.cos x + 1 / 1000 by linarith)
    exact ⟨q, by rw [abs_le]; constructor <;> linarith⟩
  choose f hf using this
  refine ⟨f, hf, by simp, fun n h => rnd64_nat n (by simp at h; omega)⟩

end SciCpp
