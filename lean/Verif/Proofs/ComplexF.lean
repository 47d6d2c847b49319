import Verif.Model.ComplexF
import Verif.Proofs.Approx
import Verif.Proofs.RFl
import Mathlib.Analysis.Complex.Norm
import Mathlib.Analysis.Complex.Basic
/-
  Rounding errors of complex arithmetic.
-/
namespace SciCpp

variable {rnd : ℚ → ℚ} {u : ℚ}

/-- A complex number with finite components. -/
def finC (z : CK ℚ) : CK (RFl rnd) := ⟨RFl.fin z.re, RFl.fin z.im⟩

namespace Spec
/-- The complex number with rational components `re`, `im`. -/
noncomputable def toC (z : CK ℚ) : ℂ := ⟨(z.re : ℝ), (z.im : ℝ)⟩
/-- `|re| + |im|`, between the absolute value and `√2` times it. -/
noncomputable def abs1 (z : CK ℚ) : ℝ := |(z.re : ℝ)| + |(z.im : ℝ)|
end Spec
open Spec

/-- `x` is finite and approximates `w` after `k` roundings; `m` bounds the sum of magnitudes of both components. -/
def CApprox (u : ℚ) (k : ℕ) (w : ℂ) (m : ℝ) (x : CK (RFl rnd)) : Prop :=
  ∃ er ei mr mi : ℚ, w = ⟨(er : ℝ), (ei : ℝ)⟩ ∧ ((mr + mi : ℚ) : ℝ) ≤ m ∧ Approx u k er mr x.re ∧ Approx u k ei mi x.im

theorem Approx.neg {k : ℕ} {e A : ℚ} {x : RFl rnd} (h : Approx u k e A x) : Approx u k (-e) A (-x) := by
  obtain ⟨q, rfl, h1, h2⟩ := h
  refine ⟨-q, rfl, ?_, by rwa [abs_neg]⟩
  rw [show -q - -e = -(q - e) by ring, abs_neg]; exact h1

namespace CApprox

theorem nonneg {k : ℕ} {w : ℂ} {m : ℝ} {x : CK (RFl rnd)} (h : CApprox u k w m x) : 0 ≤ m := by
  obtain ⟨er, ei, mr, mi, -, h, h1, h2⟩ := h
  refine le_trans ?_ h
  exact_mod_cast add_nonneg h1.nonneg h2.nonneg

theorem mono (hu : 0 ≤ u) {k k' : ℕ} {w : ℂ} {m m' : ℝ} {x : CK (RFl rnd)} (h : CApprox u k w m x) (hk : k ≤ k') (hm : m ≤ m') :
    CApprox u k' w m' x := by
  obtain ⟨er, ei, mr, mi, e, h, h1, h2⟩ := h
  exact ⟨er, ei, mr, mi, e, h.trans hm, h1.mono hu hk le_rfl, h2.mono hu hk le_rfl⟩

theorem exact (hu : 0 ≤ u) (k : ℕ) (z : CK ℚ) : CApprox u k (toC z) (abs1 z) (finC z : CK (RFl rnd)) :=
  ⟨z.re, z.im, |z.re|, |z.im|, rfl, by unfold abs1; push_cast; exact le_rfl, Approx.exact hu k _ _ le_rfl, Approx.exact hu k _ _ le_rfl⟩

theorem zero (hu : 0 ≤ u) (k : ℕ) : CApprox u k 0 0 (0 : CK (RFl rnd)) :=
  ⟨0, 0, 0, 0, by simp [Complex.ext_iff], by simp, Approx.exact hu k 0 0 (by simp), Approx.exact hu k 0 0 (by simp)⟩

theorem one (hu : 0 ≤ u) (k : ℕ) : CApprox u k 1 1 (1 : CK (RFl rnd)) :=
  ⟨1, 0, 1, 0, by simp [Complex.ext_iff], by simp, Approx.exact hu k 1 1 (by simp), Approx.exact hu k 0 0 (by simp)⟩

theorem add (hu : 0 ≤ u) (hr : ∀ x, |rnd x - x| ≤ u * |x|) {k : ℕ} {w v : ℂ} {m n : ℝ} {x y : CK (RFl rnd)}
    (hx : CApprox u k w m x) (hy : CApprox u k v n y) : CApprox u (k + 1) (w + v) (m + n) (x + y) := by
  obtain ⟨er, ei, mr, mi, rfl, h, h1, h2⟩ := hx
  obtain ⟨fr, fi, nr, ni, rfl, g, g1, g2⟩ := hy
  refine ⟨er + fr, ei + fi, mr + nr, mi + ni, ?_, ?_, Approx.add hu hr h1 g1, Approx.add hu hr h2 g2⟩
  · rw [Complex.ext_iff]; simp
  · push_cast at h g ⊢; linarith

theorem sub (hu : 0 ≤ u) (hr : ∀ x, |rnd x - x| ≤ u * |x|) {k : ℕ} {w v : ℂ} {m n : ℝ} {x y : CK (RFl rnd)}
    (hx : CApprox u k w m x) (hy : CApprox u k v n y) : CApprox u (k + 1) (w - v) (m + n) (x - y) := by
  obtain ⟨er, ei, mr, mi, rfl, h, h1, h2⟩ := hx
  obtain ⟨fr, fi, nr, ni, rfl, g, g1, g2⟩ := hy
  refine ⟨er - fr, ei - fi, mr + nr, mi + ni, ?_, ?_, Approx.sub hu hr h1 g1, Approx.sub hu hr h2 g2⟩
  · rw [Complex.ext_iff]; simp
  · push_cast at h g ⊢; linarith

theorem conj {k : ℕ} {w : ℂ} {m : ℝ} {x : CK (RFl rnd)} (hx : CApprox u k w m x) :
    CApprox u k (starRingEnd ℂ w) m (CK.conj x) := by
  obtain ⟨er, ei, mr, mi, rfl, h, h1, h2⟩ := hx
  exact ⟨er, -ei, mr, mi, by rw [Complex.ext_iff]; simp, h, h1, h2.neg⟩

theorem mul (hu : 0 ≤ u) (hr : ∀ x, |rnd x - x| ≤ u * |x|) {k l : ℕ} {w v : ℂ} {m n : ℝ} {x y : CK (RFl rnd)}
    (hx : CApprox u k w m x) (hy : CApprox u l v n y) : CApprox u (k + l + 2) (w * v) (m * n) (x * y) := by
  have hn := hy.nonneg
  obtain ⟨er, ei, mr, mi, rfl, h, h1, h2⟩ := hx
  obtain ⟨fr, fi, nr, ni, rfl, g, g1, g2⟩ := hy
  refine ⟨er * fr - ei * fi, er * fi + ei * fr, mr * nr + mi * ni, mr * ni + mi * nr, ?_, ?_,
    Approx.sub hu hr (Approx.mul hu hr h1 g1) (Approx.mul hu hr h2 g2), Approx.add hu hr (Approx.mul hu hr h1 g2) (Approx.mul hu hr h2 g1)⟩
  · rw [Complex.ext_iff]; simp
  · have e : ((mr * nr + mi * ni + (mr * ni + mi * nr) : ℚ) : ℝ) = ((mr + mi : ℚ) : ℝ) * ((nr + ni : ℚ) : ℝ) := by push_cast; ring
    rw [e]
    have hm : (0 : ℝ) ≤ ((nr + ni : ℚ) : ℝ) := by exact_mod_cast add_nonneg g1.nonneg g2.nonneg
    have hm' : (0 : ℝ) ≤ ((mr + mi : ℚ) : ℝ) := by exact_mod_cast add_nonneg h1.nonneg h2.nonneg
    exact mul_le_mul h g hm (hm'.trans h)

theorem mulR (hu : 0 ≤ u) (hr : ∀ x, |rnd x - x| ≤ u * |x|) {k : ℕ} {w : ℂ} {m : ℝ} {x : CK (RFl rnd)} (r : ℚ)
    (hx : CApprox u k w m x) : CApprox u (k + 1) (w * ((r : ℝ) : ℂ)) (m * |(r : ℝ)|) (CK.mulR x (RFl.fin r)) := by
  obtain ⟨er, ei, mr, mi, rfl, h, h1, h2⟩ := hx
  have a : ∀ {e m : ℚ} {y : RFl rnd}, Approx u k e m y → Approx u (k + 1) (e * r) (m * |r|) (y * RFl.fin r) := by
    intro e m y hy
    have := Approx.mul hu hr hy (Approx.exact (rnd := rnd) hu 0 r |r| le_rfl)
    rwa [Nat.add_zero] at this
  refine ⟨er * r, ei * r, mr * |r|, mi * |r|, ?_, ?_, a h1, a h2⟩
  · rw [Complex.ext_iff]; simp
  · have := mul_le_mul_of_nonneg_right h (abs_nonneg (r : ℝ))
    push_cast at this ⊢
    linarith

/-- Division by a positive integer that is a number of the type. -/
theorem div_nat (hu : 0 ≤ u) (hr : ∀ x, |rnd x - x| ≤ u * |x|) {k : ℕ} {w : ℂ} {m : ℝ} {x : CK (RFl rnd)} {n : ℚ} (hn : 0 < n)
    (hrn : rnd n = n) (hx : CApprox u k w m x) :
    CApprox u (k + 2) (w / ((n : ℝ) : ℂ)) (m / (n : ℝ)) (x / (⟨RFl.fin n, 0⟩ : CK (RFl rnd))) := by
  have h00 : rnd 0 = 0 := by have := hr 0; simpa using this
  obtain ⟨er, ei, mr, mi, rfl, h, h1, h2⟩ := hx
  have hnr : (0 : ℝ) < (n : ℝ) := by exact_mod_cast hn
  obtain ⟨q1, e1, b1, c1⟩ := h1
  obtain ⟨q2, e2, b2, c2⟩ := h2
  have hd : x / (⟨RFl.fin n, 0⟩ : CK (RFl rnd)) = ⟨RFl.fin (rnd (rnd q1 / n)), RFl.fin (rnd (rnd q2 / n))⟩ := by
    show CK.div x _ = _
    unfold CK.div
    rw [if_neg]
    · simp only [e1, e2, RFl.zero_fin, RFl.div_fin hn.ne', zero_div, h00, RFl.mul_fin, RFl.add_fin, RFl.sub_fin, mul_zero, zero_add, hrn, sub_zero]
    · show ¬ (decide (|n| < |(0 : ℚ)|) = true)
      simp
  have key : ∀ q e m : ℚ, |q - e| ≤ ((1 + u) ^ k - 1) * m → |e| ≤ m → Approx u (k + 2) (e / n) (m / n) (RFl.fin (rnd (rnd q / n)) : RFl rnd) := by
    intro q e m h1 h2
    have := Approx.div hu hr hn (Approx.round hu hr h1 h2)
    rwa [RFl.div_fin hn.ne'] at this
  refine ⟨er / n, ei / n, mr / n, mi / n, ?_, ?_, ?_, ?_⟩
  · rw [Complex.ext_iff]
    simp
  · push_cast at h ⊢
    rw [← add_div]
    exact div_le_div_of_nonneg_right h hnr.le
  · rw [hd]; exact key _ _ _ b1 c1
  · rw [hd]; exact key _ _ _ b2 c2

/-- What an approximation says: the value is finite and the error is bounded. -/
theorem out (hu : 0 ≤ u) {k : ℕ} {w : ℂ} {m : ℝ} {x : CK (RFl rnd)} (hx : CApprox u k w m x) :
    ∃ z : CK ℚ, x = finC z ∧ ‖toC z - w‖ ≤ ((1 + (u : ℝ)) ^ k - 1) * m := by
  obtain ⟨er, ei, mr, mi, rfl, h, ⟨q1, e1, b1, -⟩, ⟨q2, e2, b2, -⟩⟩ := hx
  refine ⟨⟨q1, q2⟩, ?_, ?_⟩
  · unfold finC; rw [← e1, ← e2]
  · refine (Complex.norm_le_abs_re_add_abs_im _).trans ?_
    have c1 : |(q1 : ℝ) - er| ≤ ((1 + (u : ℝ)) ^ k - 1) * mr := by exact_mod_cast b1
    have c2 : |(q2 : ℝ) - ei| ≤ ((1 + (u : ℝ)) ^ k - 1) * mi := by exact_mod_cast b2
    have h0 : (0 : ℝ) ≤ (1 + (u : ℝ)) ^ k - 1 := by
      have := one_le_M hu k
      have : (1 : ℝ) ≤ (1 + (u : ℝ)) ^ k := by exact_mod_cast this
      linarith
    have h1 := mul_le_mul_of_nonneg_left h h0
    push_cast at h1
    simp only [toC, Complex.sub_re, Complex.sub_im]
    linarith

/-- A left fold of additions. -/
theorem foldl_add (hu : 0 ≤ u) (hr : ∀ x, |rnd x - x| ≤ u * |x|) {ι : Type*} (l : List ι)
    (v : ι → CK (RFl rnd)) (e : ι → ℂ) (A : ι → ℝ) (k : ℕ) (h : ∀ i ∈ l, CApprox u k (e i) (A i) (v i))
    (a : CK (RFl rnd)) (e0 : ℂ) (A0 : ℝ) (ha : CApprox u k e0 A0 a) :
    CApprox u (k + l.length) (e0 + (l.map e).sum) (A0 + (l.map A).sum) (l.foldl (fun acc i => acc + v i) a) := by
  induction l generalizing a e0 A0 k with
  | nil => simpa using ha
  | cons i l ih =>
    have h1 := add hu hr ha (h i (by simp))
    have h2 := ih (k + 1) (fun j hj => (h j (List.mem_cons_of_mem _ hj)).mono hu (by omega) le_rfl) _ _ _ h1
    simp only [List.foldl_cons, List.map_cons, List.sum_cons, List.length_cons]
    rw [← add_assoc e0, ← add_assoc A0, show k + (l.length + 1) = k + 1 + l.length by omega]
    exact h2

end CApprox
end SciCpp
