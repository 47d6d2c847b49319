import Verif.Props.Roots
import Mathlib.RingTheory.Polynomial.Vieta
/-
  Property theorems C151: laws of the polynomials formed from their roots.
-/
namespace SciCpp

set_option linter.unusedSectionVars false
open Finset Spec Polynomial

variable {R : Type} [CommRing R]

/-- **C151 (order of the roots).**  The order of the roots is irrelevant. -/
theorem C151_order (a b : List R) (h : a.Perm b) (hsz : a.length + 1 < 2 ^ 64) : polyfromroots a = polyfromroots b := by
  obtain ⟨P, p1, p2, p3, -⟩ := C60_polyfromroots a hsz
  obtain ⟨Q, q1, q2, q3, -⟩ := C60_polyfromroots b (by rw [← h.length_eq]; exact hsz)
  rw [p1, q1]
  congr 1
  refine list_eq_of_polyOf (by rw [p2, q2, h.length_eq]) ?_
  rw [p3, q3]
  exact (h.map _).prod_eq

/-- **C151 (roots determine the polynomial and conversely).**  Over a domain two lists of roots give the same polynomial exactly when one is a permutation of the
other. -/
theorem C151_iff [IsDomain R] (a b : List R) (ha : a.length + 1 < 2 ^ 64) (hb : b.length + 1 < 2 ^ 64) : polyfromroots a = polyfromroots b ↔ a.Perm b := by
  refine ⟨fun h => ?_, fun h => C151_order a b h ha⟩
  obtain ⟨P, p1, -, p3, -⟩ := C60_polyfromroots a ha
  obtain ⟨Q, q1, -, q3, -⟩ := C60_polyfromroots b hb
  rw [p1, q1] at h
  injection h with h
  rw [h, q3] at p3
  have h2 := congrArg Polynomial.roots p3
  have hr : ∀ l : List R, (l.map fun r => X - C r).prod.roots = (l : Multiset R) := by
    intro l
    have := Polynomial.roots_multiset_prod_X_sub_C (l : Multiset R)
    rwa [Multiset.map_coe, Multiset.prod_coe] at this
  rw [hr, hr] at h2
  exact (Multiset.coe_eq_coe.1 h2).symm

/-- **C151 (products).**  The product of the polynomials of two lists of roots is the polynomial of the concatenated list. -/
theorem C151_append (a b : List R) (h : a.length + b.length + 1 < 2 ^ 64) :
    ∃ P Q, polyfromroots a = .ok P ∧ polyfromroots b = .ok Q ∧ polymul P Q = polyfromroots (a ++ b) := by
  obtain ⟨P, p1, p2, p3, -⟩ := C60_polyfromroots a (by omega)
  obtain ⟨Q, q1, q2, q3, -⟩ := C60_polyfromroots b (by omega)
  obtain ⟨S, s1, s2, s3, -⟩ := C60_polyfromroots (a ++ b) (by rw [List.length_append]; omega)
  refine ⟨P, Q, p1, q1, ?_⟩
  obtain ⟨T, t1, t2, t3, t4⟩ := polymul_ne P Q (by rw [← List.length_pos_iff]; omega) (by rw [← List.length_pos_iff]; omega)
  rw [t1, s1]
  congr 1
  rw [List.length_append] at s2
  have ht := List.length_pos_iff.mpr t2
  refine list_eq_of_polyOf (show T.length = S.length by omega) ?_
  rw [t4, s3, p3, q3, List.map_append, List.prod_append]

/-- **C151 (Vieta).**  The coefficient of `x^k` is the elementary symmetric function of order `n - k` of the roots, with the sign `(-1)^(n - k)`. -/
theorem C151_vieta (roots : List R) (h : roots.length + 1 < 2 ^ 64) :
    ∃ P, polyfromroots roots = .ok P ∧ P.length = roots.length + 1 ∧
      ∀ k ≤ roots.length, P.getD k 0 = (-1) ^ (roots.length - k) * (roots : Multiset R).esymm (roots.length - k) := by
  obtain ⟨P, p1, p2, p3, -⟩ := C60_polyfromroots roots h
  refine ⟨P, p1, p2, fun k hk => ?_⟩
  have := Multiset.prod_X_sub_C_coeff (roots : Multiset R) (k := k) (by simpa using hk)
  rw [Multiset.map_coe, Multiset.prod_coe, Multiset.coe_card, ← p3, coeff_polyOf] at this
  exact this

/-- **C151 (sum and product of the roots).**  The leading coefficient is 1, the next one is minus the sum of the roots, the constant term is the product of the
negated roots. -/
theorem C151_sum_product (roots : List R) (h : roots.length + 1 < 2 ^ 64) (h1 : 1 ≤ roots.length) :
    ∃ P, polyfromroots roots = .ok P ∧ P.getD roots.length 0 = 1 ∧ P.getD (roots.length - 1) 0 = -roots.sum ∧ P.getD 0 0 = (-1) ^ roots.length * roots.prod := by
  obtain ⟨P, p1, p2, p3⟩ := C151_vieta roots h
  refine ⟨P, p1, ?_, ?_, ?_⟩
  · rw [p3 _ le_rfl]; simp [Multiset.esymm]
  · rw [p3 _ (by omega), show roots.length - (roots.length - 1) = 1 by omega]; simp [Multiset.esymm, Multiset.powersetCard_one, Function.comp_def]
  · obtain ⟨Q, q1, -, -, q4⟩ := C60_polyfromroots roots h
    rw [p1] at q1; cases q1
    have e := q4 0
    rw [C55_polyval, p2, Finset.sum_range_succ'] at e
    simp only [pow_succ, mul_zero, Finset.sum_const_zero, pow_zero, mul_one, zero_add, zero_sub] at e
    rw [e]
    clear e q4 p3 p2 p1 h h1
    induction roots with
    | nil => simp
    | cons a l ih => rw [List.map_cons, List.prod_cons, ih, List.length_cons, List.prod_cons]; ring

/-- **C151 (shift of the roots).**  Adding `t` to every root moves the graph by `t`. -/
theorem C151_shift (roots : List R) (t : R) (h : roots.length + 1 < 2 ^ 64) :
    ∃ P Q, polyfromroots roots = .ok P ∧ polyfromroots (roots.map (· + t)) = .ok Q ∧ ∀ x, polyval (x + t) Q = polyval x P := by
  obtain ⟨P, p1, -, -, p4⟩ := C60_polyfromroots roots h
  obtain ⟨Q, q1, -, -, q4⟩ := C60_polyfromroots (roots.map (· + t)) (by simpa using h)
  refine ⟨P, Q, p1, q1, fun x => ?_⟩
  rw [q4, p4, List.map_map]
  congr 1
  apply List.map_congr_left
  intro r _
  simp

/-- **C151 (scaling of the roots).**  Multiplying each of `n` roots by `c` gives `Q` with `Q(c x) = c^n P(x)`. -/
theorem C151_scale (roots : List R) (c : R) (h : roots.length + 1 < 2 ^ 64) :
    ∃ P Q, polyfromroots roots = .ok P ∧ polyfromroots (roots.map (c * ·)) = .ok Q ∧ ∀ x, polyval (c * x) Q = c ^ roots.length * polyval x P := by
  obtain ⟨P, p1, -, -, p4⟩ := C60_polyfromroots roots h
  obtain ⟨Q, q1, -, -, q4⟩ := C60_polyfromroots (roots.map (c * ·)) (by simpa using h)
  refine ⟨P, Q, p1, q1, fun x => ?_⟩
  rw [q4, p4]
  clear p1 p4 q1 q4 h P Q
  induction roots with
  | nil => simp
  | cons a l ih =>
    simp only [List.map_cons, List.prod_cons, List.length_cons] at ih ⊢
    rw [ih]; ring

/-- The cubic with the roots 1, 2, 3. -/
example : ∃ P, polyfromroots [(1 : ℤ), 2, 3] = .ok P ∧ P.getD 3 0 = 1 ∧ P.getD 2 0 = -6 ∧ P.getD 0 0 = -6 := by
  obtain ⟨P, p1, p2, p3, p4⟩ := C151_sum_product [(1 : ℤ), 2, 3] (by norm_num) (by norm_num)
  exact ⟨P, p1, by simpa using p2, by simpa using p3, by simpa using p4⟩

end SciCpp
