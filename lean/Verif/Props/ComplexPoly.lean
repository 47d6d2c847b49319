import Verif.Props.ComplexF
import Verif.Proofs.Poly
import Mathlib.Algebra.Polynomial.Eval.Degree
import Mathlib.Algebra.Polynomial.BigOperators
/-
  Property theorems C139, continued: polynomials with given complex roots.
-/
set_option linter.unusedSectionVars false
namespace SciCpp
open Spec Polynomial

section
variable {rnd : ℚ → ℚ} {u : ℚ}

theorem coeff_mul_X_add_C {R : Type} [CommRing R] (q : R[X]) (c : R) (i : ℕ) :
    (q * (X + C c)).coeff i = (if i = 0 then 0 else q.coeff (i - 1)) + q.coeff i * c := by
  rw [mul_add, coeff_add, coeff_mul_C]
  cases i with
  | zero => simp
  | succ i => simp [coeff_mul_X]

/-- Coefficients of the exact polynomial `p`, with the magnitudes `A`. -/
def CNear (u : ℚ) (k : ℕ) (P : List (CK (RFl rnd))) (p : ℂ[X]) (A : ℝ[X]) : Prop :=
  (∀ i, CApprox u k (p.coeff i) (A.coeff i) (P.getD i 0)) ∧ ∀ i, P.length ≤ i → p.coeff i = 0

theorem fromRootsStepC (P : List (CK (RFl rnd))) (hP : P ≠ []) (hl : P.length + 1 < 2 ^ 64) (r : CK (RFl rnd)) :
    fromRootsStep P r = .ok (List.zipWith (fun a b => a - b * r) (0 :: P) P ++ [P.getLast hP]) := by
  unfold fromRootsStep polySubAssign
  have n2 : polyScale P r ≠ [] := by simpa [polyScale] using hP
  have n3 : (polyScale P r).length < 2 ^ 64 := by simp [polyScale]; omega
  have n4 : (0 :: P).length < 2 ^ 64 := by simp; omega
  have m1 : polymulxMove P = 0 :: P := by rw [polymulxMove_eq]; rfl
  rw [m1, polyDegree_eq _ (by simp) n4, polyDegree_eq _ n2 n3]
  rw [if_neg (by simp [polyScale])]
  have hreq : decide ((polyScale P r).length ≤ (0 :: P).length) = true := by simp [polyScale]
  rw [hreq, require_true, Res.bind_ok, Res.pure_eq]
  congr 1
  congr 1
  · unfold polyScale
    rw [List.zipWith_map_right]
  · simp only [polyScale, List.length_map]
    rw [List.drop_length_cons hP]

theorem fromRootsStep_cnear (hu : 0 ≤ u) (hr : ∀ x, |rnd x - x| ≤ u * |x|) {k : ℕ} {P : List (CK (RFl rnd))} {p : ℂ[X]} {A : ℝ[X]} (hP : P ≠ [])
    (hl : P.length + 1 < 2 ^ 64) (hp : CNear u k P p A) (r : CK ℚ) :
    ∃ P', fromRootsStep P (finC r) = .ok P' ∧ P'.length = P.length + 1 ∧ P'.getLast? = P.getLast? ∧
      CNear u (k + 3) P' (p * (X - C (toC r))) (A * (X + C (abs1 r))) := by
  have l1 : 1 ≤ P.length := List.length_pos_iff.mpr hP
  refine ⟨_, fromRootsStepC P hP hl _, by simp, by simp [List.getLast?_eq_some_getLast hP], ?_⟩
  have hXs : (X - C (toC r) : ℂ[X]) = X + C (-toC r) := by rw [C_neg, sub_eq_add_neg]
  obtain ⟨h1, h2⟩ := hp
  constructor
  · intro i
    rw [hXs, coeff_mul_X_add_C, coeff_mul_X_add_C]
    have hz : (List.zipWith (fun a b => a - b * finC r) (0 :: P) P).length = P.length := by simp
    have b1 : CApprox u (k + 2) (if i = 0 then 0 else p.coeff (i - 1)) (if i = 0 then 0 else A.coeff (i - 1))
        (if i = 0 then 0 else P.getD (i - 1) 0) := by
      by_cases hi : i = 0
      · simp only [if_pos hi]; exact CApprox.zero hu _
      · simp only [if_neg hi]; exact (h1 _).mono hu (by omega) le_rfl
    have b2 := CApprox.mul hu hr (h1 i) (CApprox.exact (rnd := rnd) hu 0 r)
    rw [Nat.add_zero] at b2
    have hA : 0 ≤ A.coeff i * abs1 r := b2.nonneg
    by_cases hi : i < P.length
    · have hg : (List.zipWith (fun a b => a - b * finC r) (0 :: P) P ++ [P.getLast hP]).getD i 0
          = (if i = 0 then 0 else P.getD (i - 1) 0) - P.getD i 0 * finC r := by
        rw [getD_of_lt _ _ (by rw [List.length_append]; omega), List.getElem_append_left (by omega), List.getElem_zipWith, getD_of_lt _ _ hi]
        cases i with
        | zero => rfl
        | succ j =>
          rw [if_neg (by omega), Nat.add_sub_cancel, getD_of_lt P j (by omega)]
          rfl
      have := CApprox.sub hu hr b1 b2
      rw [hg, mul_neg, ← sub_eq_add_neg]
      exact this
    · rw [h2 i (by omega), zero_mul, add_zero]
      by_cases hi' : i = P.length
      · have hg : (List.zipWith (fun a b => a - b * finC r) (0 :: P) P ++ [P.getLast hP]).getD i 0 = (if i = 0 then 0 else P.getD (i - 1) 0) := by
          simp only [List.getD_eq_getElem?_getD]
          rw [List.getElem?_append_right (by omega), hz, hi', Nat.sub_self, if_neg (by omega), List.getLast_eq_getElem,
            List.getElem?_eq_getElem (show P.length - 1 < P.length by omega)]
          rfl
        rw [hg]
        exact b1.mono hu (by omega) (by linarith)
      · rw [getD_of_ge _ _ (by simp; omega), if_neg (by omega), if_neg (by omega), h2 (i - 1) (by omega)]
        have : 0 ≤ A.coeff (i - 1) := (h1 (i - 1)).nonneg
        exact (CApprox.zero hu _).mono hu le_rfl (by linarith)
  · intro i hi
    simp only [List.length_append, List.length_zipWith, List.length_cons, List.length_nil] at hi
    rw [hXs, coeff_mul_X_add_C, if_neg (by omega), h2 _ (by omega), h2 _ (by omega), zero_mul, add_zero]

theorem fromRootsLoop_cnear (hu : 0 ≤ u) (hr : ∀ x, |rnd x - x| ≤ u * |x|) : ∀ (rs : List (CK ℚ)) (k : ℕ) (P : List (CK (RFl rnd))) (p : ℂ[X]) (A : ℝ[X]),
    P ≠ [] → P.length + rs.length < 2 ^ 64 → CNear u k P p A →
    ∃ r, polyfromroots.loop (rs.map (finC (rnd := rnd))) P = .ok r ∧ r.length = P.length + rs.length ∧ r.getLast? = P.getLast? ∧
      CNear u (k + 3 * rs.length) r (p * (rs.map fun r => X - C (toC r)).prod) (A * (rs.map fun r => X + C (abs1 r)).prod) := by
  intro rs
  induction rs with
  | nil => intro k P p A _ _ h; exact ⟨P, rfl, by simp, rfl, by simpa using h⟩
  | cons a rs ih =>
    intro k P p A hP hl h
    simp only [List.length_cons] at hl
    obtain ⟨P', g1, g2, g3, g4⟩ := fromRootsStep_cnear hu hr hP (by omega) h a
    obtain ⟨r, r1, r2, r3, r4⟩ := ih (k + 3) P' _ _ (by intro h; simp [h] at g2) (by omega) g4
    refine ⟨r, ?_, by simp only [List.length_cons]; omega, r3.trans g3, ?_⟩
    · simp only [List.map_cons, polyfromroots.loop, g1, Res.bind_ok]; exact r1
    · simp only [List.map_cons, List.prod_cons, List.length_cons, ← mul_assoc]
      refine ⟨fun i => ?_, r4.2⟩
      exact (r4.1 i).mono hu (by omega) le_rfl

/-- C139, `polyfromroots` of `n` complex roots: `n + 1` finite coefficients, the last one exactly `1`, each within
`((1+u)^(3n) - 1)` times the coefficient of `∏ (X + |re r| + |im r|)` of the coefficient of `∏ (X - r)`. -/
theorem C139_polyfromroots (hu : 0 ≤ u) (hr : ∀ x, |rnd x - x| ≤ u * |x|) (rs : List (CK ℚ)) (hl : rs.length + 1 < 2 ^ 64) :
    ∃ c : List (CK ℚ), polyfromroots (rs.map (finC (rnd := rnd))) = .ok (c.map finC) ∧ c.length = rs.length + 1 ∧
      c.getLast? = some ⟨1, 0⟩ ∧
      ∀ i (hi : i < c.length), ‖toC c[i] - ((rs.map fun r => X - C (toC r)).prod : ℂ[X]).coeff i‖
        ≤ ((1 + (u : ℝ)) ^ (3 * rs.length) - 1) * ((rs.map fun r => X + C (abs1 r)).prod : ℝ[X]).coeff i := by
  obtain ⟨r, r1, r2, r3, r4, -⟩ := fromRootsLoop_cnear (rnd := rnd) hu hr rs 0 [1] 1 1 (by simp) (by simp; omega) (by
    constructor
    · intro i
      rw [coeff_one, coeff_one]
      cases i with
      | zero => exact CApprox.one hu 0
      | succ i => simpa using CApprox.zero hu 0
    · intro i hi
      rw [coeff_one, if_neg (by simp at hi; omega)])
  rw [one_mul, one_mul, Nat.zero_add] at r4
  have hr2 : r.length = rs.length + 1 := by simp at r2; omega
  choose z hz hb using fun i => (r4 i).out hu
  have e : r = ((List.range r.length).map z).map finC := by
    apply List.ext_getElem (by simp)
    intro i h1 h2
    simp only [List.getElem_map, List.getElem_range]
    rw [← hz, getD_of_lt _ _ h1]
  refine ⟨(List.range r.length).map z, ?_, by simp [hr2], ?_, ?_⟩
  · rw [← e]; exact r1
  · have hlast : r.getLast? = some 1 := by rw [r3]; rfl
    rw [e, List.getLast?_map] at hlast
    obtain ⟨q, hq, h1⟩ := Option.map_eq_some_iff.mp hlast
    have : q = ⟨1, 0⟩ := by
      have h2 : (⟨RFl.fin q.re, RFl.fin q.im⟩ : CK (RFl rnd)) = ⟨RFl.fin 1, RFl.fin 0⟩ := h1
      have h3 := congrArg CK.re h2
      have h4 := congrArg CK.im h2
      simp only at h3 h4
      have e1 := RFl.fin_inj.mp h3
      have e2 := RFl.fin_inj.mp h4
      cases q
      simp only at e1 e2
      rw [e1, e2]
    rw [hq, this]
  · intro i hi
    simp only [List.getElem_map, List.getElem_range]
    exact hb i

end

/-- The hypotheses are met: the roots `±i` of `x² + 1` in `double`, whose coefficients come out exactly. -/
example : polyfromroots ([⟨0, 1⟩, ⟨0, -1⟩].map (finC (rnd := rnd64))) = .ok ([⟨1, 0⟩, ⟨0, 0⟩, ⟨1, 0⟩].map finC) := by
  decide +kernel

example : ∃ c : List (CK ℚ), polyfromroots ([⟨1 / 2, 3⟩, ⟨-7, 5⟩].map (finC (rnd := rnd64))) = .ok (c.map finC) ∧ c.length = 3 ∧ c.getLast? = some ⟨1, 0⟩ := by
  obtain ⟨c, h1, h2, h3, -⟩ := C139_polyfromroots u64_pos rnd64_err [⟨1 / 2, 3⟩, ⟨-7, 5⟩] (by norm_num)
  exact ⟨c, h1, h2, h3⟩

end SciCpp
