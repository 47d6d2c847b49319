import Verif.Props.Rounding
import Verif.Proofs.Poly
/-
  Property theorems C122: polynomial algebra in floating point.
-/
set_option linter.unusedSectionVars false
namespace SciCpp
open Spec Polynomial Finset

variable {rnd : ℚ → ℚ} {u : ℚ}

/-! ### Specification -/

/-- The coefficients `c` agree with those of the polynomial `p` up to `(1 + u)^k - 1` times those of the polynomial `A`, which bound those of `p`. -/
def PolyNear (u : ℚ) (k : ℕ) (c : List ℚ) (p A : ℚ[X]) : Prop :=
  ∀ i, |c.getD i 0 - p.coeff i| ≤ ((1 + u) ^ k - 1) * A.coeff i ∧ |p.coeff i| ≤ A.coeff i

/-- The polynomial with the absolute values of the coefficients. -/
noncomputable def absPoly (c : List ℚ) : ℚ[X] := polyOf (c.map abs)

/-! ### Lemmas -/

theorem absPoly_coeff (c : List ℚ) (i : ℕ) : (absPoly c).coeff i = |c.getD i 0| := by
  unfold absPoly
  rw [coeff_polyOf]
  simp only [List.getD_eq_getElem?_getD, List.getElem?_map]
  cases c[i]? <;> simp

theorem PolyNear.exact (hu : 0 ≤ u) (k : ℕ) (c : List ℚ) : PolyNear u k c (polyOf c) (absPoly c) := by
  intro i
  rw [coeff_polyOf, absPoly_coeff, sub_self, abs_zero]
  exact ⟨mul_nonneg (by linarith [one_le_M hu k]) (abs_nonneg _), le_rfl⟩

theorem PolyNear.mono (hu : 0 ≤ u) {k l : ℕ} (hkl : k ≤ l) {c : List ℚ} {p A : ℚ[X]} (h : PolyNear u k c p A) : PolyNear u l c p A := by
  intro i
  obtain ⟨h1, h2⟩ := h i
  have hA : 0 ≤ A.coeff i := (abs_nonneg _).trans h2
  refine ⟨h1.trans ?_, h2⟩
  have : (1 + u) ^ k ≤ (1 + u) ^ l := pow_le_pow_right₀ (by linarith) hkl
  exact mul_le_mul_of_nonneg_right (by linarith) hA

/-- The bounding polynomial has no coefficients beyond the list. -/
def Short (c : List ℚ) (A : ℚ[X]) : Prop := ∀ i, c.length ≤ i → A.coeff i = 0

theorem short_abs (c : List ℚ) : Short c (absPoly c) := by
  intro i hi
  rw [absPoly_coeff, getD_of_ge _ _ hi, abs_zero]

theorem short_mul {a b r : List ℚ} {A B : ℚ[X]} (ha : Short a A) (hb : Short b B) (hl : r.length + 1 = a.length + b.length) : Short r (A * B) := by
  intro i hi
  rw [coeff_mul]
  apply Finset.sum_eq_zero
  intro p hp
  rw [mem_antidiagonal] at hp
  by_cases h : a.length ≤ p.1
  · rw [ha _ h, zero_mul]
  · rw [hb _ (by omega), mul_zero]

theorem polymul_near (hu : 0 ≤ u) (hr : ∀ x, |rnd x - x| ≤ u * |x|) {k l : ℕ} {a b : List ℚ} {p q A B : ℚ[X]} (ha : a ≠ []) (hb : b ≠ [])
    (hp : PolyNear u k a p A) (hq : PolyNear u l b q B) (sA : Short a A) (sB : Short b B) :
    ∃ r : List ℚ, polymul (a.map (RFl.fin (rnd := rnd))) (b.map RFl.fin) = .ok (r.map RFl.fin) ∧ r.length + 1 = a.length + b.length ∧
      PolyNear u (k + l + (min a.length b.length + 1)) r (p * q) (A * B) ∧ Short r (A * B) := by
  obtain ⟨r, h1, h2, h3⟩ := C88_convolve hu hr a b ha
  have la : 1 ≤ a.length := List.length_pos_iff.mpr ha
  have lb : 1 ≤ b.length := List.length_pos_iff.mpr hb
  have hl : r.length + 1 = a.length + b.length := by omega
  have hs := short_mul (r := r) sA sB hl
  refine ⟨r, h1, hl, fun i => ?_, hs⟩
  have hpq : |(p * q).coeff i| ≤ (A * B).coeff i := by
    rw [coeff_mul, coeff_mul]
    refine (Finset.abs_sum_le_sum_abs _ _).trans (Finset.sum_le_sum fun x _ => ?_)
    exact (mul_error hu (hp x.1).1 (hp x.1).2 (hq x.2).1 (hq x.2).2).2
  refine ⟨?_, hpq⟩
  have hAB : 0 ≤ (A * B).coeff i := (abs_nonneg _).trans hpq
  by_cases hi : i < r.length
  swap
  · have z := hs i (by omega)
    rw [getD_of_ge _ _ (by omega)]
    rw [z] at hpq ⊢
    have : (p * q).coeff i = 0 := abs_eq_zero.1 (le_antisymm hpq (abs_nonneg _))
    rw [this]; simp
  have e := h3 i hi
  rw [← getD_of_lt r i hi] at e
  have d1 : |∑ x ∈ antidiagonal i, a.getD x.1 0 * b.getD x.2 0 - (p * q).coeff i| ≤ ((1 + u) ^ (k + l) - 1) * (A * B).coeff i := by
    rw [coeff_mul, coeff_mul, ← Finset.sum_sub_distrib, Finset.mul_sum]
    refine (Finset.abs_sum_le_sum_abs _ _).trans (Finset.sum_le_sum fun x _ => ?_)
    exact (mul_error hu (hp x.1).1 (hp x.1).2 (hq x.2).1 (hq x.2).2).1
  have d2 : ∑ x ∈ antidiagonal i, |a.getD x.1 0| * |b.getD x.2 0| ≤ (1 + u) ^ (k + l) * (A * B).coeff i := by
    rw [coeff_mul, Finset.mul_sum]
    refine Finset.sum_le_sum fun x _ => ?_
    obtain ⟨m1, m2⟩ := mul_error hu (hp x.1).1 (hp x.1).2 (hq x.2).1 (hq x.2).2
    rw [← abs_mul]
    have : |a.getD x.1 0 * b.getD x.2 0| ≤ |a.getD x.1 0 * b.getD x.2 0 - p.coeff x.1 * q.coeff x.2| + |p.coeff x.1 * q.coeff x.2| := by
      have := abs_add_le (a.getD x.1 0 * b.getD x.2 0 - p.coeff x.1 * q.coeff x.2) (p.coeff x.1 * q.coeff x.2)
      simpa using this
    linarith
  have hM := one_le_M hu (min a.length b.length + 1)
  have d3 := mul_le_mul_of_nonneg_left d2 (by linarith : 0 ≤ (1 + u) ^ (min a.length b.length + 1) - 1)
  have t := abs_sub_le (r.getD i 0) (∑ x ∈ antidiagonal i, a.getD x.1 0 * b.getD x.2 0) ((p * q).coeff i)
  have e' := e.trans d3
  rw [pow_add (1 + u) (k + l)]
  nlinarith

/-! ### Powers -/

theorem polypowArr_near (hu : 0 ≤ u) (hr : ∀ x, |rnd x - x| ≤ u * |x|) (p A : ℚ[X]) (L n W : ℕ) (hW : n * L + 2 ≤ W) :
    ∀ (m a : ℕ) (P : List ℚ), 1 ≤ a → m * a ≤ n → P.length = a * L + 1 → PolyNear u ((a - 1) * W) P (p ^ a) (A ^ a) → Short P (A ^ a) →
    ∃ r : List ℚ, polypowArr m (P.map (RFl.fin (rnd := rnd))) = .ok (r.map RFl.fin) ∧ r.length = m * a * L + 1 ∧
      PolyNear u (m * a * W) r (p ^ (m * a)) (A ^ (m * a)) ∧ Short r (A ^ (m * a)) := by
  intro m
  induction m using Nat.strong_induction_on with
  | _ m ih =>
    intro a P ha hmn hl hP hS
    have hne : P ≠ [] := by intro h; simp [h] at hl
    unfold polypowArr
    split_ifs with h0 h1 h2
    · subst h0
      refine ⟨[1], rfl, by simp, fun i => ?_, fun i hi => ?_⟩
      · simp only [zero_mul, pow_zero, sub_self, zero_mul, coeff_one]
        cases i <;> simp
      · simp only [zero_mul, pow_zero, coeff_one]
        rw [if_neg (by simp at hi; omega)]
    · subst h1
      rw [one_mul]
      exact ⟨P, rfl, hl, hP.mono hu (Nat.mul_le_mul_right _ (by omega)), hS⟩
    · have hm2 : 2 ≤ m := by omega
      obtain ⟨s, s1, s2, s3, s4⟩ := polymul_near hu hr hne hne hP hP hS hS
      have e2 : m / 2 * (2 * a) = m * a := by
        rw [← mul_assoc]; congr 1; omega
      have h2a : 2 * a ≤ n := le_trans (Nat.mul_le_mul_right a hm2) hmn
      have hlen : s.length = 2 * a * L + 1 := by
        have : 2 * a * L = a * L + a * L := by ring
        omega
      have hk : (a - 1) * W + (a - 1) * W + (min P.length P.length + 1) ≤ (2 * a - 1) * W := by
        have e : 2 * a - 1 = (a - 1) + (a - 1) + 1 := by omega
        rw [e, add_mul, add_mul, one_mul, min_self, hl]
        have : a * L ≤ n * L := Nat.mul_le_mul_right _ (by omega)
        omega
      rw [← pow_add, ← pow_add, show a + a = 2 * a by omega] at s3
      rw [← pow_add, show a + a = 2 * a by omega] at s4
      obtain ⟨r, r1, r2, r3, r4⟩ := ih (m / 2) (by omega) (2 * a) s (by omega) (by rw [e2]; exact hmn) hlen (s3.mono hu hk) s4
      rw [e2] at r2 r3 r4
      exact ⟨r, by rw [s1, Res.bind_ok, r1], r2, r3, r4⟩
    · have hm3 : 3 ≤ m := by omega
      obtain ⟨s, s1, s2, s3, s4⟩ := polymul_near hu hr hne hne hP hP hS hS
      have e2 : (m - 1) / 2 * (2 * a) = (m - 1) * a := by
        rw [← mul_assoc]; congr 1; omega
      have h2a : 2 * a ≤ n := le_trans (Nat.mul_le_mul_right a (by omega)) hmn
      have hma : (m - 1) * a + a = m * a := by
        rw [← Nat.succ_mul]; congr 1; omega
      have hlen : s.length = 2 * a * L + 1 := by
        have : 2 * a * L = a * L + a * L := by ring
        omega
      have haL : a * L ≤ n * L := Nat.mul_le_mul_right _ (by omega)
      have hk : (a - 1) * W + (a - 1) * W + (min P.length P.length + 1) ≤ (2 * a - 1) * W := by
        have e : 2 * a - 1 = (a - 1) + (a - 1) + 1 := by omega
        rw [e, add_mul, add_mul, one_mul, min_self, hl]
        omega
      rw [← pow_add, ← pow_add, show a + a = 2 * a by omega] at s3
      rw [← pow_add, show a + a = 2 * a by omega] at s4
      obtain ⟨r, r1, r2, r3, r4⟩ := ih ((m - 1) / 2) (by omega) (2 * a) s (by omega) (by rw [e2]; omega) hlen (s3.mono hu hk) s4
      rw [e2] at r2 r3 r4
      have hrne : r ≠ [] := by intro h; simp [h] at r2
      obtain ⟨t, t1, t2, t3, t4⟩ := polymul_near hu hr hne hrne hP r3 hS r4
      refine ⟨t, by rw [s1, Res.bind_ok, r1, Res.bind_ok, t1], ?_, ?_, ?_⟩
      · rw [← hma, add_mul]; omega
      · rw [← pow_add, ← pow_add, add_comm a, hma] at t3
        refine t3.mono hu ?_
        have e : m * a = (m - 1) * a + (a - 1) + 1 := by omega
        have : min P.length r.length ≤ P.length := min_le_left _ _
        have e' : m * a * W = (m - 1) * a * W + (a - 1) * W + W := by rw [e]; ring
        omega
      · rw [← pow_add, add_comm a, hma] at t4; exact t4

theorem polypowLoop_near (hu : 0 ≤ u) (hr : ∀ x, |rnd x - x| ≤ u * |x|) (p A : ℚ[X]) (L n W : ℕ) (hW : n * L + 2 ≤ W) :
    ∀ (m a b : ℕ) (x y : List ℚ), 1 ≤ m → 1 ≤ a → m * a + b = n → x.length = a * L + 1 → y.length = b * L + 1 →
    PolyNear u ((a - 1) * W) x (p ^ a) (A ^ a) → Short x (A ^ a) → PolyNear u (b * W) y (p ^ b) (A ^ b) → Short y (A ^ b) →
    ∃ (x' y' : List ℚ) (a' b' : ℕ), polypowLoop m (x.map (RFl.fin (rnd := rnd))) (y.map RFl.fin) = .ok (x'.map RFl.fin, y'.map RFl.fin) ∧
      1 ≤ a' ∧ a' + b' = n ∧ x'.length = a' * L + 1 ∧ y'.length = b' * L + 1 ∧
      PolyNear u ((a' - 1) * W) x' (p ^ a') (A ^ a') ∧ Short x' (A ^ a') ∧ PolyNear u (b' * W) y' (p ^ b') (A ^ b') ∧ Short y' (A ^ b') := by
  intro m
  induction m using Nat.strong_induction_on with
  | _ m ih =>
    intro a b x y hm ha hn lx ly nx sx ny sy
    have xne : x ≠ [] := by intro h; simp [h] at lx
    have yne : y ≠ [] := by intro h; simp [h] at ly
    unfold polypowLoop
    by_cases h1 : 1 < m
    swap
    · rw [if_neg h1]
      have : m = 1 := by omega
      subst this
      exact ⟨x, y, a, b, rfl, ha, by omega, lx, ly, nx, sx, ny, sy⟩
    rw [if_pos h1]
    have h2a : 2 * a ≤ n := by
      have := Nat.mul_le_mul_right a h1
      simp only [Nat.succ_eq_add_one] at this
      omega
    obtain ⟨s, s1, s2, s3, s4⟩ := polymul_near (rnd := rnd) hu hr xne xne nx nx sx sx
    have hlen : s.length = 2 * a * L + 1 := by
      have : 2 * a * L = a * L + a * L := by ring
      omega
    have haL : a * L ≤ n * L := Nat.mul_le_mul_right _ (by omega)
    have hk : (a - 1) * W + (a - 1) * W + (min x.length x.length + 1) ≤ (2 * a - 1) * W := by
      have e : 2 * a - 1 = (a - 1) + (a - 1) + 1 := by omega
      rw [e, add_mul, add_mul, one_mul, min_self, lx]
      omega
    rw [← pow_add, ← pow_add, show a + a = 2 * a by omega] at s3
    rw [← pow_add, show a + a = 2 * a by omega] at s4
    by_cases h2 : m % 2 = 1
    · have hmm : m / 2 * (2 * a) + (a + b) = n := by
        have e : m / 2 * (2 * a) + a = m * a := by
          rw [← mul_assoc]
          have : m = m / 2 * 2 + 1 := by omega
          conv_rhs => rw [this]
          ring
        omega
      obtain ⟨t, t1, t2, t3, t4⟩ := polymul_near (rnd := rnd) hu hr xne yne nx ny sx sy
      rw [← pow_add, ← pow_add] at t3
      rw [← pow_add] at t4
      have hk2 : (a - 1) * W + b * W + (min x.length y.length + 1) ≤ (a + b) * W := by
        have e : a + b = (a - 1) + b + 1 := by omega
        rw [e, add_mul, add_mul, one_mul]
        have : min x.length y.length ≤ x.length := min_le_left _ _
        omega
      obtain ⟨x', y', a', b', g⟩ := ih (m / 2) (by omega) (2 * a) (a + b) s t (by omega) (by omega) hmm hlen
        (by rw [add_mul]; omega) (s3.mono hu hk) s4 (t3.mono hu hk2) t4
      refine ⟨x', y', a', b', ?_, g.2⟩
      simp only [if_pos h2, t1, Res.bind_ok, s1]; exact g.1
    · have hmm : m / 2 * (2 * a) + b = n := by
        have e : m / 2 * (2 * a) = m * a := by
          rw [← mul_assoc]
          have : m = m / 2 * 2 := by omega
          conv_rhs => rw [this]
        omega
      obtain ⟨x', y', a', b', g⟩ := ih (m / 2) (by omega) (2 * a) b s y (by omega) (by omega) hmm hlen
        ly (s3.mono hu hk) s4 ny sy
      refine ⟨x', y', a', b', ?_, g.2⟩
      simp only [if_neg h2, Res.pure_eq, Res.bind_ok, s1]; exact g.1

/-- C122, `polypow` (vectors and arrays): every computed coefficient of `P^n` is within `(1 + u)^(n (n d + 2)) - 1` (degree `d`) of the exact one,
relative to the coefficient of `|P|^n`. -/
theorem C122_polypow (hu : 0 ≤ u) (hr : ∀ x, |rnd x - x| ≤ u * |x|) (P : List ℚ) (hP : P ≠ []) (n : ℕ) :
    (∃ r : List ℚ, polypowVec (P.map (RFl.fin (rnd := rnd))) n = .ok (r.map RFl.fin) ∧ r.length = n * (P.length - 1) + 1 ∧
      PolyNear u (n * (n * (P.length - 1) + 2)) r (polyOf P ^ n) (absPoly P ^ n)) ∧
    (∃ r : List ℚ, polypowArr n (P.map (RFl.fin (rnd := rnd))) = .ok (r.map RFl.fin) ∧ r.length = n * (P.length - 1) + 1 ∧
      PolyNear u (n * (n * (P.length - 1) + 2)) r (polyOf P ^ n) (absPoly P ^ n)) := by
  have hl1 : 1 ≤ P.length := List.length_pos_iff.mpr hP
  have hl : P.length = 1 * (P.length - 1) + 1 := by omega
  have near1 : PolyNear u ((1 - 1) * (n * (P.length - 1) + 2)) P (polyOf P ^ 1) (absPoly P ^ 1) := by
    rw [pow_one, pow_one]; exact PolyNear.exact hu _ P
  have short1 : Short P (absPoly P ^ 1) := by rw [pow_one]; exact short_abs P
  have one_near : ∀ k, PolyNear u k [1] (polyOf P ^ 0) (absPoly P ^ 0) := by
    intro k i
    rw [pow_zero, pow_zero, coeff_one]
    have := one_le_M hu k
    cases i
    · simp; linarith
    · simp
  have one_short : Short [1] (absPoly P ^ 0) := by
    intro i hi
    rw [pow_zero, coeff_one, if_neg (by simp at hi; omega)]
  constructor
  · unfold polypowVec
    split_ifs with h0 h1
    · subst h0
      exact ⟨[1], rfl, by simp, one_near _⟩
    · subst h1
      exact ⟨P, rfl, by omega, near1.mono hu (by omega)⟩
    · have hreq : (!(P.map (RFl.fin (rnd := rnd))).isEmpty) = true := by
        cases P with
        | nil => exact absurd rfl hP
        | cons _ _ => rfl
      obtain ⟨x, y, a, b, e, ha, hab, lx, ly, nx, sx, ny, sy⟩ := polypowLoop_near (rnd := rnd) hu hr (polyOf P) (absPoly P) (P.length - 1) n
        (n * (P.length - 1) + 2) le_rfl n 1 0 P [1] (by omega) le_rfl (by omega) hl (by simp) near1 short1 (one_near _) one_short
      have xne : x ≠ [] := by intro h; simp [h] at lx
      have yne : y ≠ [] := by intro h; simp [h] at ly
      obtain ⟨t, t1, t2, t3, t4⟩ := polymul_near (rnd := rnd) hu hr xne yne nx ny sx sy
      refine ⟨t, ?_, ?_, ?_⟩
      · have e' : polypowLoop n (P.map (RFl.fin (rnd := rnd))) [1] = .ok (x.map RFl.fin, y.map RFl.fin) := e
        simp only [hreq, require_true, Res.bind_ok, e']; exact t1
      · rw [← hab, add_mul]; omega
      · rw [← pow_add, ← pow_add, hab] at t3
        refine t3.mono hu ?_
        have h1' : min x.length y.length ≤ x.length := min_le_left _ _
        have h2' : a * (P.length - 1) ≤ n * (P.length - 1) := Nat.mul_le_mul_right _ (by omega)
        have e2 : n * (n * (P.length - 1) + 2) = (a - 1) * (n * (P.length - 1) + 2) + b * (n * (P.length - 1) + 2) + (n * (P.length - 1) + 2) := by
          conv_lhs => rw [show n = (a - 1) + b + 1 by omega]
          rw [show (a - 1 + b + 1) * (P.length - 1) = n * (P.length - 1) by congr 1; omega]
          ring
        omega
  · obtain ⟨r, r1, r2, r3, r4⟩ := polypowArr_near (rnd := rnd) hu hr (polyOf P) (absPoly P) (P.length - 1) n (n * (P.length - 1) + 2) le_rfl n 1 P le_rfl
      (by omega) hl near1 short1
    rw [mul_one] at r2 r3
    exact ⟨r, r1, r2, r3⟩

/-! ### Polynomials from roots -/

theorem getD_map_fin (l : List ℚ) (i : ℕ) : (l.map (RFl.fin (rnd := rnd))).getD i 0 = RFl.fin (l.getD i 0) := by
  simp only [List.getD_eq_getElem?_getD, List.getElem?_map]
  cases l[i]? <;> rfl

theorem fromRootsStep_near (hu : 0 ≤ u) (hr : ∀ x, |rnd x - x| ≤ u * |x|) {k : ℕ} {P : List ℚ} {p A : ℚ[X]} (hP : P ≠ []) (hl : P.length + 1 < 2 ^ 64)
    (hp : PolyNear u k P p A) (sA : Short P A) (r : ℚ) :
    ∃ P' : List ℚ, fromRootsStep (P.map (RFl.fin (rnd := rnd))) (RFl.fin r) = .ok (P'.map RFl.fin) ∧ P'.length = P.length + 1 ∧
      PolyNear u (k + 2) P' (p * (X - C r)) (A * (X + C |r|)) ∧ Short P' (A * (X + C |r|)) := by
  have l1 : 1 ≤ P.length := List.length_pos_iff.mpr hP
  set P' : List ℚ := List.zipWith (fun a b => rnd (a - rnd (b * r))) (0 :: P) P ++ [P.getLast hP] with hP'
  have e0 : fromRootsStep (P.map (RFl.fin (rnd := rnd))) (RFl.fin r) = .ok (P'.map RFl.fin) := by
    unfold fromRootsStep polySubAssign
    have m1 : polymulxMove (P.map (RFl.fin (rnd := rnd))) = (0 :: P).map RFl.fin := by rw [polymulxMove_eq]; rfl
    have n2 : polyScale (P.map (RFl.fin (rnd := rnd))) (RFl.fin r) ≠ [] := by simpa [polyScale] using hP
    have n3 : (polyScale (P.map (RFl.fin (rnd := rnd))) (RFl.fin r)).length < 2 ^ 64 := by simp [polyScale]; omega
    have n4 : ((0 :: P).map (RFl.fin (rnd := rnd))).length < 2 ^ 64 := by simp; omega
    rw [m1, polyDegree_eq _ (by simp) n4, polyDegree_eq _ n2 n3]
    rw [if_neg (by simp [polyScale])]
    have hreq : decide ((polyScale (P.map (RFl.fin (rnd := rnd))) (RFl.fin r)).length ≤ ((0 :: P).map (RFl.fin (rnd := rnd))).length) = true := by
      simp [polyScale]
    rw [hreq, require_true, Res.bind_ok, Res.pure_eq, hP']
    congr 1
    rw [List.map_append]
    congr 1
    · unfold polyScale
      rw [List.map_map, List.zipWith_map, List.map_zipWith]
      congr 1
      funext a b
      show RFl.fin a - RFl.fin b * RFl.fin r = RFl.fin (rnd (a - rnd (b * r)))
      rw [RFl.mul_fin, RFl.sub_fin]
    · simp only [polyScale, List.length_map, ← List.map_drop]
      congr 1
      rw [List.drop_length_cons hP]
  have hlen : P'.length = P.length + 1 := by simp [hP']
  have hX : ∀ (q : ℚ[X]) (c : ℚ) (i : ℕ), (q * (X + C c)).coeff i = (if i = 0 then 0 else q.coeff (i - 1)) + q.coeff i * c := by
    intro q c i
    rw [mul_add, coeff_add, coeff_mul_C]
    cases i with
    | zero => simp
    | succ i => simp [coeff_mul_X]
  have hXs : (X - C r : ℚ[X]) = X + C (-r) := by rw [C_neg, sub_eq_add_neg]
  have hA0 : ∀ i, 0 ≤ A.coeff i := fun i => (abs_nonneg _).trans (hp i).2
  have sh : Short P' (A * (X + C |r|)) := by
    intro i hi
    rw [hX, sA i (by omega), zero_mul, add_zero, if_neg (by omega), sA _ (by omega)]
  refine ⟨P', e0, hlen, fun i => ?_, sh⟩
  rw [hXs, hX, hX]
  -- the two summands
  have b1 : |(if i = 0 then 0 else P.getD (i - 1) 0) - (if i = 0 then 0 else p.coeff (i - 1))| ≤
      ((1 + u) ^ k - 1) * (if i = 0 then 0 else A.coeff (i - 1)) ∧ |(if i = 0 then 0 else p.coeff (i - 1))| ≤ (if i = 0 then 0 else A.coeff (i - 1)) := by
    by_cases hi : i = 0
    · simp [hi]
    · simp only [if_neg hi]; exact hp _
  set E1 : ℚ := if i = 0 then 0 else p.coeff (i - 1) with hE1
  set A1 : ℚ := if i = 0 then 0 else A.coeff (i - 1) with hA1
  set Q1 : ℚ := if i = 0 then 0 else P.getD (i - 1) 0 with hQ1
  have b2 := mul_error hu (hp i).1 (hp i).2 (k := k) (l := 0) (q := P.getD i 0) (r := r) (f := r) (B := |r|) (by simp) le_rfl
  rw [Nat.add_zero] at b2
  have habs : |E1 + p.coeff i * -r| ≤ A1 + A.coeff i * |r| := by
    refine (abs_add_le _ _).trans (add_le_add b1.2 ?_)
    rw [mul_neg, abs_neg]; exact b2.2
  refine ⟨?_, habs⟩
  by_cases hi : i < P.length
  · have hg : P'.getD i 0 = rnd (Q1 - rnd (P.getD i 0 * r)) := by
      rw [hP']
      have hz : i < (List.zipWith (fun a b => rnd (a - rnd (b * r))) (0 :: P) P).length := by simp; omega
      rw [getD_of_lt _ _ (by rw [List.length_append]; omega), List.getElem_append_left hz, List.getElem_zipWith, getD_of_lt _ _ hi, hQ1]
      cases i with
      | zero => rfl
      | succ j =>
        rw [if_neg (by omega), Nat.add_sub_cancel, getD_of_lt P j (by omega)]
        rfl
    have a1 : Approx u (k + 1) E1 A1 (RFl.fin Q1 : RFl rnd) := Approx.mono (k := k) hu ⟨Q1, rfl, b1.1, b1.2⟩ (by omega) le_rfl
    have a2 : Approx u (k + 1) (p.coeff i * r) (A.coeff i * |r|) (RFl.fin (rnd (P.getD i 0 * r)) : RFl rnd) := Approx.round hu hr b2.1 b2.2
    obtain ⟨q, q1, q2, -⟩ := Approx.sub hu hr a1 a2
    rw [RFl.sub_fin, RFl.fin_inj] at q1
    rw [hg, q1, mul_neg, ← sub_eq_add_neg]
    exact q2
  · by_cases hi' : i = P.length
    · have hg : P'.getD i 0 = Q1 := by
        have hz : (List.zipWith (fun a b => rnd (a - rnd (b * r))) (0 :: P) P).length = P.length := by simp
        have h1 : P'.getD i 0 = P.getLast hP := by
          rw [hP']
          simp only [List.getD_eq_getElem?_getD]
          rw [List.getElem?_append_right (by omega), hz, hi', Nat.sub_self]
          rfl
        rw [h1, hQ1, if_neg (by omega), List.getLast_eq_getElem, hi', getD_of_lt P _ (by omega)]
      have z : A.coeff i = 0 := sA i (by omega)
      have z2 : p.coeff i = 0 := abs_eq_zero.1 (le_antisymm ((hp i).2.trans z.le) (abs_nonneg _))
      rw [hg, z, z2, zero_mul, zero_mul, add_zero, add_zero]
      refine b1.1.trans ?_
      have : (1 + u) ^ k ≤ (1 + u) ^ (k + 2) := pow_le_pow_right₀ (by linarith) (by omega)
      exact mul_le_mul_of_nonneg_right (by linarith) ((abs_nonneg _).trans b1.2)
    · have z := sh i (by omega)
      rw [hX] at z
      have z' : A1 + A.coeff i * |r| = 0 := z
      rw [getD_of_ge _ _ (by omega), z']
      rw [z'] at habs
      have : E1 + p.coeff i * -r = 0 := abs_eq_zero.1 (le_antisymm habs (abs_nonneg _))
      rw [this]; simp

theorem fromRootsLoop_near (hu : 0 ≤ u) (hr : ∀ x, |rnd x - x| ≤ u * |x|) : ∀ (rs : List ℚ) (k : ℕ) (P : List ℚ) (p A : ℚ[X]), P ≠ [] →
    P.length + rs.length < 2 ^ 64 → PolyNear u k P p A → Short P A →
    ∃ r : List ℚ, polyfromroots.loop (rs.map (RFl.fin (rnd := rnd))) (P.map RFl.fin) = .ok (r.map RFl.fin) ∧ r.length = P.length + rs.length ∧
      PolyNear u (k + 2 * rs.length) r (p * (rs.map fun r => X - C r).prod) (A * (rs.map fun r => X + C |r|).prod) ∧
      Short r (A * (rs.map fun r => X + C |r|).prod) := by
  intro rs
  induction rs with
  | nil => intro k P p A _ _ h s; exact ⟨P, rfl, by simp, by simpa using h, by simpa using s⟩
  | cons a rs ih =>
    intro k P p A hP hl h s
    simp only [List.length_cons] at hl
    obtain ⟨P', g1, g2, g3, g4⟩ := fromRootsStep_near hu hr hP (by omega) h s a
    obtain ⟨r, r1, r2, r3, r4⟩ := ih (k + 2) P' _ _ (by intro h; simp [h] at g2) (by omega) g3 g4
    refine ⟨r, ?_, by simp only [List.length_cons]; omega, ?_, ?_⟩
    · simp only [List.map_cons, polyfromroots.loop, g1, Res.bind_ok]; exact r1
    · simp only [List.map_cons, List.prod_cons, List.length_cons, ← mul_assoc]
      exact r3.mono hu (by omega)
    · simp only [List.map_cons, List.prod_cons, ← mul_assoc]; exact r4

/-- C122, `polyfromroots`: with `n` roots every computed coefficient is within `(1 + u)^(2n) - 1` of the exact one, relative to the coefficient of
`∏ (X + |r|)`. -/
theorem C122_polyfromroots (hu : 0 ≤ u) (hr : ∀ x, |rnd x - x| ≤ u * |x|) (rs : List ℚ) (hl : rs.length + 1 < 2 ^ 64) :
    ∃ c : List ℚ, polyfromroots (rs.map (RFl.fin (rnd := rnd))) = .ok (c.map RFl.fin) ∧ c.length = rs.length + 1 ∧
      PolyNear u (2 * rs.length) c (rs.map fun r => X - C r).prod (rs.map fun r => X + C |r|).prod := by
  obtain ⟨r, r1, r2, r3, r4⟩ := fromRootsLoop_near (rnd := rnd) hu hr rs 0 [1] 1 1 (by simp) (by simp; omega) (by
    intro i; rw [coeff_one]; cases i <;> simp) (by intro i hi; rw [coeff_one, if_neg (by simp at hi; omega)])
  rw [one_mul, one_mul, Nat.zero_add] at r3
  exact ⟨r, r1, by simp at r2; omega, r3⟩

/-- C122, value of a computed polynomial: when the coefficients are known to `(1 + u)^k - 1`, `polyval` adds one rounding per coefficient. -/
theorem C122_value (hu : 0 ≤ u) (hr : ∀ x, |rnd x - x| ≤ u * |x|) (k : ℕ) (c : List ℚ) (p A : ℚ[X]) (h : PolyNear u k c p A)
    (hd : A.natDegree < c.length) (x : ℚ) :
    ∃ z, polyvalWith RFl.fma (RFl.fin x : RFl rnd) (c.map RFl.fin) = RFl.fin z ∧
      |z - p.eval x| ≤ ((1 + u) ^ (k + c.length) - 1) * A.eval |x| := by
  obtain ⟨z, z1, z2⟩ := C88_polyval (rnd := rnd) hu hr x c
  refine ⟨z, z1, ?_⟩
  have pd : p.natDegree < c.length := by
    refine lt_of_le_of_lt (natDegree_le_iff_coeff_eq_zero.2 fun i hi => ?_) (Nat.sub_lt (by omega : 0 < c.length) Nat.one_pos)
    replace hi : c.length ≤ i := by omega
    have : A.coeff i = 0 := coeff_eq_zero_of_natDegree_lt (lt_of_lt_of_le hd hi)
    exact abs_eq_zero.1 (le_antisymm ((h i).2.trans this.le) (abs_nonneg _))
  have ep : p.eval x = ∑ i ∈ range c.length, p.coeff i * x ^ i := eval_eq_sum_range' pd x
  have eA : A.eval |x| = ∑ i ∈ range c.length, A.coeff i * |x| ^ i := eval_eq_sum_range' hd |x|
  have d1 : |∑ i ∈ range c.length, c.getD i 0 * x ^ i - p.eval x| ≤ ((1 + u) ^ k - 1) * A.eval |x| := by
    rw [ep, eA, ← Finset.sum_sub_distrib, Finset.mul_sum]
    refine (Finset.abs_sum_le_sum_abs _ _).trans (Finset.sum_le_sum fun i _ => ?_)
    rw [← sub_mul, abs_mul, abs_pow, ← mul_assoc]
    exact mul_le_mul_of_nonneg_right (h i).1 (by positivity)
  have d2 : ∑ i ∈ range c.length, |c.getD i 0| * |x| ^ i ≤ (1 + u) ^ k * A.eval |x| := by
    rw [eA, Finset.mul_sum]
    refine Finset.sum_le_sum fun i _ => ?_
    rw [← mul_assoc]
    refine mul_le_mul_of_nonneg_right ?_ (by positivity)
    have := abs_add_le (c.getD i 0 - p.coeff i) (p.coeff i)
    rw [sub_add_cancel] at this
    linarith [(h i).1, (h i).2]
  have hM := one_le_M hu c.length
  have d3 := mul_le_mul_of_nonneg_left d2 (by linarith : 0 ≤ (1 + u) ^ c.length - 1)
  have t := abs_sub_le z (∑ i ∈ range c.length, c.getD i 0 * x ^ i) (p.eval x)
  rw [pow_add (1 + u) k]
  nlinarith [z2.trans d3]

/-- C122: `polyval(x, polyfromroots(r))` is within `(1 + u)^(3n + 1) - 1` of the product of the `x - r`, relative to the product of the `|x| + |r|`. -/
theorem C122_fromroots_value (hu : 0 ≤ u) (hr : ∀ x, |rnd x - x| ≤ u * |x|) (rs : List ℚ) (hl : rs.length + 1 < 2 ^ 64) (x : ℚ) :
    ∃ c z, polyfromroots (rs.map (RFl.fin (rnd := rnd))) = .ok c ∧ polyvalWith RFl.fma (RFl.fin x : RFl rnd) c = RFl.fin z ∧
      |z - (rs.map fun r => x - r).prod| ≤ ((1 + u) ^ (3 * rs.length + 1) - 1) * (rs.map fun r => |x| + |r|).prod := by
  obtain ⟨c, c1, c2, c3⟩ := C122_polyfromroots (rnd := rnd) hu hr rs hl
  have hd : (rs.map fun r => (X + C |r| : ℚ[X])).prod.natDegree < c.length := by
    have : (rs.map fun r => (X + C |r| : ℚ[X])).prod.natDegree ≤ rs.length := by
      clear c1 c2 c3 hl
      induction rs with
      | nil => simp
      | cons a rs ih =>
        simp only [List.map_cons, List.prod_cons, List.length_cons]
        refine natDegree_mul_le.trans ?_
        rw [natDegree_X_add_C]; omega
    omega
  obtain ⟨z, z1, z2⟩ := C122_value (rnd := rnd) hu hr _ c _ _ c3 hd x
  refine ⟨_, z, c1, z1, ?_⟩
  rw [eval_list_prod, eval_list_prod, List.map_map, List.map_map, c2] at z2
  have e1 : (eval x ∘ fun r => (X - C r : ℚ[X])) = fun r => x - r := by funext r; simp
  have e2 : (eval |x| ∘ fun r => (X + C |r| : ℚ[X])) = fun r => |x| + |r| := by funext r; simp
  rw [e1, e2, show 2 * rs.length + (rs.length + 1) = 3 * rs.length + 1 by omega] at z2
  exact z2

/-- C122: at a root the computed value of the computed polynomial is small. -/
theorem C122_at_root (hu : 0 ≤ u) (hr : ∀ x, |rnd x - x| ≤ u * |x|) (rs : List ℚ) (hl : rs.length + 1 < 2 ^ 64) (x : ℚ) (hx : x ∈ rs) :
    ∃ c z, polyfromroots (rs.map (RFl.fin (rnd := rnd))) = .ok c ∧ polyvalWith RFl.fma (RFl.fin x : RFl rnd) c = RFl.fin z ∧
      |z| ≤ ((1 + u) ^ (3 * rs.length + 1) - 1) * (rs.map fun r => |x| + |r|).prod := by
  obtain ⟨c, z, h1, h2, h3⟩ := C122_fromroots_value hu hr rs hl x
  refine ⟨c, z, h1, h2, ?_⟩
  have : (rs.map fun r => x - r).prod = 0 := List.prod_eq_zero (List.mem_map.2 ⟨x, hx, sub_self x⟩)
  rwa [this, sub_zero] at h3

/-! ### Sums, derivatives and antiderivatives -/

/-- C122, `polyadd` and `polysub`: the coefficients are the correctly rounded sums and differences; beyond the shorter operand they are copied. -/
theorem C122_polyadd (a b : List ℚ) :
    ∃ r s : List ℚ, polyadd (a.map (RFl.fin (rnd := rnd))) (b.map RFl.fin) = r.map RFl.fin ∧
      polysub (a.map (RFl.fin (rnd := rnd))) (b.map RFl.fin) = s.map RFl.fin ∧
      r.length = max a.length b.length ∧ s.length = max a.length b.length ∧
      ∀ i, (i < min a.length b.length → r.getD i 0 = rnd (a.getD i 0 + b.getD i 0) ∧ s.getD i 0 = rnd (a.getD i 0 - b.getD i 0)) ∧
        (min a.length b.length ≤ i → r.getD i 0 = a.getD i 0 + b.getD i 0 ∧ s.getD i 0 = a.getD i 0 - b.getD i 0) := by
  have gz : ∀ (f : ℚ → ℚ → ℚ) (x y t : List ℚ) (i : ℕ), (List.zipWith f x y ++ t).getD i 0 =
      if i < min x.length y.length then f (x.getD i 0) (y.getD i 0) else t.getD (i - min x.length y.length) 0 := by
    intro f x y t i
    have hz : (List.zipWith f x y).length = min x.length y.length := List.length_zipWith
    split_ifs with h
    · rw [getD_of_lt _ _ (by rw [List.length_append]; omega), List.getElem_append_left (by omega), List.getElem_zipWith, getD_of_lt _ _ (by omega),
        getD_of_lt _ _ (by omega)]
    · simp only [List.getD_eq_getElem?_getD]
      rw [List.getElem?_append_right (by omega), hz]
  have gd : ∀ (x : List ℚ) (n i : ℕ), (x.drop n).getD i 0 = x.getD (n + i) 0 := fun x n i => by
    simp only [List.getD_eq_getElem?_getD, List.getElem?_drop]
  have gn : ∀ (x : List ℚ) (i : ℕ), (x.map fun v => -v).getD i 0 = -x.getD i 0 := fun x i => by
    simp only [List.getD_eq_getElem?_getD, List.getElem?_map]
    cases x[i]? <;> simp
  by_cases h : a.length ≤ b.length
  · refine ⟨List.zipWith (fun x y => rnd (x + y)) a b ++ b.drop a.length,
      List.zipWith (fun x y => rnd (x - y)) a b ++ (b.drop a.length).map (fun v => -v), ?_, ?_, by simp; omega, by simp; omega, fun i => ⟨fun hi => ?_, fun hi => ?_⟩⟩
    · unfold polyadd
      rw [if_pos (by simpa using h), List.map_append, List.zipWith_map, List.map_zipWith, List.length_map, ← List.map_drop]
      rfl
    · unfold polysub
      rw [if_pos (by simpa using h), List.map_append, List.zipWith_map, List.map_zipWith, List.length_map, ← List.map_drop, List.map_map, List.map_map]
      simp only [RFl.sub_fin]
      rfl
    · rw [gz, gz, if_pos hi, if_pos hi]; exact ⟨rfl, rfl⟩
    · rw [gz, gz, if_neg (by omega), if_neg (by omega), gd, gn, gd, getD_of_ge a i (by omega), show a.length + (i - min a.length b.length) = i by omega]
      exact ⟨by ring, by ring⟩
  · refine ⟨List.zipWith (fun x y => rnd (x + y)) b a ++ a.drop b.length,
      List.zipWith (fun x y => rnd (y - x)) b a ++ a.drop b.length, ?_, ?_, by simp; omega, by simp; omega, fun i => ⟨fun hi => ?_, fun hi => ?_⟩⟩
    · unfold polyadd
      rw [if_neg (by simpa using h), List.map_append, List.zipWith_map, List.map_zipWith, List.length_map, ← List.map_drop]
      rfl
    · unfold polysub
      rw [if_neg (by simpa using h), List.map_append, List.zipWith_map, List.map_zipWith, List.length_map, ← List.map_drop]
      simp only [RFl.sub_fin]
    · rw [gz, gz, if_pos (by omega), if_pos (by omega), add_comm]; exact ⟨rfl, rfl⟩
    · rw [gz, gz, if_neg (by omega), if_neg (by omega), gd, getD_of_ge b i (by omega), show b.length + (i - min b.length a.length) = i by omega]
      exact ⟨by ring, by ring⟩

theorem polyderOnce_fin (P : List ℚ) (hP : P ≠ []) :
    polyderOnce (P.map (RFl.fin (rnd := rnd))) =
      .ok ((P.dropLast.mapIdx fun i c => rnd (rnd ((P.length - 1 - i : ℕ) : ℚ) * c)).map RFl.fin) := by
  unfold polyderOnce
  have hreq : (!(P.map (RFl.fin (rnd := rnd))).isEmpty) = true := by
    cases P with
    | nil => exact absurd rfl hP
    | cons _ _ => rfl
  rw [hreq, require_true, Res.bind_ok, Res.pure_eq, ← List.map_dropLast]
  congr 1
  apply List.ext_getElem
  · simp
  · intro i h1 h2
    simp only [List.getElem_mapIdx, List.getElem_map, List.length_map]
    rfl

/-- C122, `polyder`: the `m`-th derivative (in the storage order of the code, C58) makes `m` roundings per coefficient. -/
theorem C122_polyder (hu : 0 ≤ u) (hr : ∀ x, |rnd x - x| ≤ u * |x|) (P : List ℚ) (m : ℕ) (hm : m < P.length)
    (hn : ∀ n : ℕ, n < P.length → rnd n = n) :
    ∃ r : List ℚ, polyder (P.map (RFl.fin (rnd := rnd))) m = .ok (r.map RFl.fin) ∧ r.length = P.length - m ∧
      ∀ i, i < r.length → |r.getD i 0 - ((P.length - 1 - i).descFactorial m : ℚ) * P.getD i 0| ≤
        ((1 + u) ^ m - 1) * |((P.length - 1 - i).descFactorial m : ℚ) * P.getD i 0| := by
  have key : ∀ (j s : ℕ) (c : List ℚ), s + j < P.length → c.length = P.length - s →
      (∀ i, i < c.length → |c.getD i 0 - ((P.length - 1 - i).descFactorial s : ℚ) * P.getD i 0| ≤
        ((1 + u) ^ s - 1) * |((P.length - 1 - i).descFactorial s : ℚ) * P.getD i 0|) →
      ∃ r : List ℚ, polyderLoop j (c.map (RFl.fin (rnd := rnd))) = .ok (r.map RFl.fin) ∧ r.length = P.length - (s + j) ∧
        ∀ i, i < r.length → |r.getD i 0 - ((P.length - 1 - i).descFactorial (s + j) : ℚ) * P.getD i 0| ≤
          ((1 + u) ^ (s + j) - 1) * |((P.length - 1 - i).descFactorial (s + j) : ℚ) * P.getD i 0| := by
    intro j
    induction j with
    | zero => intro s c _ hl h; exact ⟨c, rfl, hl, h⟩
    | succ j ih =>
      intro s c hs hl h
      have hne : c ≠ [] := by intro h; rw [h] at hl; simp at hl; omega
      have hl2 : (c.dropLast.mapIdx fun i x => rnd (rnd ((c.length - 1 - i : ℕ) : ℚ) * x)).length = P.length - (s + 1) := by simp; omega
      obtain ⟨r, r1, r2, r3⟩ := ih (s + 1) _ (by omega) hl2 (by
        intro i hi
        rw [hl2] at hi
        have e : (c.dropLast.mapIdx fun i x => rnd (rnd ((c.length - 1 - i : ℕ) : ℚ) * x)).getD i 0 =
            rnd (((P.length - 1 - i - s : ℕ) : ℚ) * c.getD i 0) := by
          rw [getD_of_lt _ _ (by omega), List.getElem_mapIdx, List.getElem_dropLast, getD_of_lt c i (by omega), hn _ (by omega)]
          congr 3; omega
        rw [e, Nat.descFactorial_succ]
        have b := h i (by omega)
        have b2 : |((P.length - 1 - i - s : ℕ) : ℚ) * c.getD i 0 - ((P.length - 1 - i - s : ℕ) : ℚ) * (((P.length - 1 - i).descFactorial s : ℚ) * P.getD i 0)| ≤
            ((1 + u) ^ s - 1) * |((P.length - 1 - i - s : ℕ) : ℚ) * (((P.length - 1 - i).descFactorial s : ℚ) * P.getD i 0)| := by
          rw [← mul_sub, abs_mul, abs_mul, mul_left_comm]
          exact mul_le_mul_of_nonneg_left b (abs_nonneg _)
        obtain ⟨q, q1, q2, -⟩ := Approx.round (rnd := rnd) hu hr b2 le_rfl
        rw [RFl.fin_inj] at q1
        rw [q1]
        push_cast
        rw [mul_assoc]
        exact q2)
      refine ⟨r, ?_, ?_, ?_⟩
      · rw [polyderLoop, polyderOnce_fin c hne, Res.bind_ok]; exact r1
      · rw [r2]; omega
      · rw [show s + 1 + j = s + (j + 1) by omega] at r3; exact r3
  unfold polyder
  have hreq : decide (0 ≤ (m : Int)) = true := by simp
  simp only [hreq, require_true, Res.bind_ok]
  by_cases h0 : m = 0
  · subst h0
    refine ⟨P, by simp, by simp, fun i hi => by simp⟩
  · rw [if_neg (by exact_mod_cast h0), if_neg (by simp; omega)]
    obtain ⟨r, r1, r2, r3⟩ := key m 0 P (by omega) (by simp) (by intro i hi; simp)
    rw [Nat.zero_add] at r2 r3
    exact ⟨r, by simpa using r1, r2, r3⟩

/-- C122, `polyint`: the `m`-th antiderivative makes `m` roundings per coefficient and has `m` zeros in front. -/
theorem C122_polyint (hu : 0 ≤ u) (hr : ∀ x, |rnd x - x| ≤ u * |x|) (P : List ℚ) (hP : P ≠ []) (m : ℕ)
    (hn : ∀ n : ℕ, n ≤ P.length + m → rnd n = n) :
    ∃ r : List ℚ, polyint (P.map (RFl.fin (rnd := rnd))) m = .ok (r.map RFl.fin) ∧ r.length = P.length + m ∧
      (∀ i, i < m → r.getD i 0 = 0) ∧
      ∀ i, |r.getD (i + m) 0 - P.getD i 0 / ((i + m).descFactorial m : ℚ)| ≤
        ((1 + u) ^ m - 1) * |P.getD i 0 / ((i + m).descFactorial m : ℚ)| := by
  have key : ∀ (j s : ℕ) (c : List ℚ), s + j ≤ m → c.length = P.length + s → (∀ i, i < s → c.getD i 0 = 0) →
      (∀ i, |c.getD (i + s) 0 - P.getD i 0 / ((i + s).descFactorial s : ℚ)| ≤
        ((1 + u) ^ s - 1) * |P.getD i 0 / ((i + s).descFactorial s : ℚ)|) →
      ∃ r : List ℚ, polyintLoop j (c.map (RFl.fin (rnd := rnd))) = r.map RFl.fin ∧ r.length = P.length + (s + j) ∧
        (∀ i, i < s + j → r.getD i 0 = 0) ∧
        ∀ i, |r.getD (i + (s + j)) 0 - P.getD i 0 / ((i + (s + j)).descFactorial (s + j) : ℚ)| ≤
          ((1 + u) ^ (s + j) - 1) * |P.getD i 0 / ((i + (s + j)).descFactorial (s + j) : ℚ)| := by
    intro j
    induction j with
    | zero => intro s c _ hl h0 h; exact ⟨c, rfl, hl, h0, h⟩
    | succ j ih =>
      intro s c hs hl h0 h
      set c' : List ℚ := 0 :: c.mapIdx (fun i x => rnd (x / ((i + 1 : ℕ) : ℚ))) with hc'
      have hr0 : rnd 0 = 0 := by have := hr 0; simpa using this
      have hl2 : c'.length = P.length + (s + 1) := by simp [hc']; omega
      have e1 : polyintOnce (c.map (RFl.fin (rnd := rnd))) = c'.map RFl.fin := by
        unfold polyintOnce
        rw [hc', List.map_cons]
        congr 1
        apply List.ext_getElem
        · simp
        · intro i h1 h2
          simp only [List.length_mapIdx, List.length_map] at h1
          simp only [List.getElem_mapIdx, List.getElem_map]
          have : ((i + 1 : ℕ) : RFl rnd) = RFl.fin ((i + 1 : ℕ) : ℚ) := by
            show RFl.fin (rnd ((i + 1 : ℕ) : ℚ)) = _
            rw [hn _ (by omega)]
          rw [this, RFl.div_fin (by positivity)]
      have gs : ∀ i, c'.getD (i + 1) 0 = rnd (c.getD i 0 / ((i + 1 : ℕ) : ℚ)) := by
        intro i
        rw [hc', List.getD_cons_succ]
        by_cases hi : i < c.length
        · rw [getD_of_lt _ _ (by simpa using hi), List.getElem_mapIdx, getD_of_lt _ _ hi]
        · rw [getD_of_ge _ _ (by simpa using hi), getD_of_ge _ _ (by omega), zero_div, hr0]
      obtain ⟨r, r1, r2, r3, r4⟩ := ih (s + 1) c' (by omega) hl2 (by
        intro i hi
        cases i with
        | zero => rw [hc']; rfl
        | succ i => rw [gs, h0 i (by omega), zero_div, hr0]) (by
        intro i
        rw [← add_assoc, gs, Nat.succ_descFactorial_succ]
        have b := h i
        have hp : (0 : ℚ) < ((i + s + 1 : ℕ) : ℚ) := by positivity
        have b2 : |c.getD (i + s) 0 / ((i + s + 1 : ℕ) : ℚ) - P.getD i 0 / ((i + s).descFactorial s : ℚ) / ((i + s + 1 : ℕ) : ℚ)| ≤
            ((1 + u) ^ s - 1) * |P.getD i 0 / ((i + s).descFactorial s : ℚ) / ((i + s + 1 : ℕ) : ℚ)| := by
          rw [← sub_div, abs_div, abs_div, ← mul_div_assoc]
          exact div_le_div_of_nonneg_right b (abs_nonneg _)
        obtain ⟨q, q1, q2, -⟩ := Approx.round (rnd := rnd) hu hr b2 le_rfl
        rw [RFl.fin_inj] at q1
        rw [q1, Nat.cast_mul, mul_comm ((i + s + 1 : ℕ) : ℚ), ← div_div]
        exact q2)
      refine ⟨r, ?_, ?_, ?_, ?_⟩
      · rw [polyintLoop, e1]; exact r1
      · rw [r2]; omega
      · rw [show s + 1 + j = s + (j + 1) by omega] at r3; exact r3
      · rw [show s + 1 + j = s + (j + 1) by omega] at r4; exact r4
  obtain ⟨r, r1, r2, r3, r4⟩ := key m 0 P (by omega) (by simp) (by simp) (by intro i; simp)
  rw [Nat.zero_add] at r2 r3 r4
  refine ⟨r, ?_, r2, r3, r4⟩
  unfold polyint
  have hreq : (!(P.map (RFl.fin (rnd := rnd))).isEmpty) = true := by
    cases P with
    | nil => exact absurd rfl hP
    | cons _ _ => rfl
  have hreq2 : decide (0 ≤ (m : Int)) = true := by simp
  simp only [hreq, hreq2, require_true, Res.bind_ok, Res.pure_eq, Int.toNat_natCast]
  rw [r1]

/-! ### Division -/

theorem polydivInner_fin (v tmp : List ℚ) (n k : ℕ) (d : ℚ) (hn : n < v.length) (hk : n + k < tmp.length) :
    ∃ t : List ℚ, polydivInner (v.map (RFl.fin (rnd := rnd))) n k (RFl.fin d) (tmp.map RFl.fin) = .ok (t.map RFl.fin) ∧ t.length = tmp.length ∧
      ∀ i : ℕ, t.getD i 0 = if k ≤ i ∧ i < n + k then rnd (tmp.getD i 0 - rnd (d * v.getD (i - k) 0)) else tmp.getD i 0 := by
  unfold polydivInner forDown
  have hc : ((n : Int) + (k : Int) - 1 + 1 - (k : Int)).toNat = n := by omega
  rw [hc]
  obtain ⟨s, ht, t, rfl, hl, hp⟩ := forN_inv (n := n) (s := tmp.map (RFl.fin (rnd := rnd)))
    (f := fun (q : ℕ) (t : List (RFl rnd)) => do
      let x ← rd t ((n : Int) + (k : Int) - 1 - (q : Int))
      let y ← rd (v.map RFl.fin) ((n : Int) + (k : Int) - 1 - (q : Int) - (k : Int))
      wr t ((n : Int) + (k : Int) - 1 - (q : Int)) (x - RFl.fin d * y))
    (fun q s => ∃ t : List ℚ, s = t.map RFl.fin ∧ t.length = tmp.length ∧ ∀ i : ℕ, t.getD i 0 =
      if n + k - q ≤ i ∧ i < n + k then rnd (tmp.getD i 0 - rnd (d * v.getD (i - k) 0)) else tmp.getD i 0)
    (by
      refine ⟨tmp, rfl, rfl, fun i => ?_⟩
      rw [if_neg (by omega)])
    (by
      rintro q hq s ⟨t, rfl, hl, hp⟩
      have e1 : ((n : Int) + (k : Int) - 1 - (q : Int)) = ((n + k - 1 - q : ℕ) : Int) := by omega
      have e2 : (((n + k - 1 - q : ℕ) : Int) - (k : Int)) = ((n - 1 - q : ℕ) : Int) := by omega
      have h1 : n + k - 1 - q < t.length := by omega
      have h2 : n - 1 - q < v.length := by omega
      have h1' : n + k - 1 - q < (t.map (RFl.fin (rnd := rnd))).length := by simpa using h1
      have h2' : n - 1 - q < (v.map (RFl.fin (rnd := rnd))).length := by simpa using h2
      refine ⟨(t.set (n + k - 1 - q) (rnd (t[n + k - 1 - q] - rnd (d * v[n - 1 - q])))).map RFl.fin, ?_, _, rfl, by simp [hl], ?_⟩
      · simp only [e1, e2, rd_nat _ _ h1', rd_nat _ _ h2', Res.bind_ok, wr_nat _ _ _ h1', List.getElem_map, RFl.mul_fin, RFl.sub_fin, List.map_set]
      · intro i
        by_cases hi : i = n + k - 1 - q
        · subst hi
          rw [getD_of_lt _ _ (by simpa using h1), List.getElem_set_self,
            ← getD_of_lt _ _ h1, hp, if_neg (by omega), if_pos (by omega), ← getD_of_lt _ _ h2,
            show n + k - 1 - q - k = n - 1 - q by omega]
        · have e : (t.set (n + k - 1 - q) (rnd (t[n + k - 1 - q] - rnd (d * v[n - 1 - q])))).getD i 0
              = t.getD i 0 := by
            simp only [List.getD_eq_getElem?_getD]
            rw [List.getElem?_set_ne (by omega)]
          rw [e, hp]
          by_cases hc : n + k - q ≤ i ∧ i < n + k
          · rw [if_pos hc, if_pos (by omega)]
          · rw [if_neg hc, if_neg (by omega)])
  refine ⟨t, ht, hl, fun i => ?_⟩
  rw [hp]
  by_cases hc : k ≤ i ∧ i < n + k
  · rw [if_pos (by omega), if_pos hc]
  · rw [if_neg (by omega), if_neg hc]

/-- One rounded subtraction of a product with relative error below `g ^ 3 - 1`. -/
theorem divstep {u g a S T s p ph s' : ℚ} {τ : ℕ} (hg : 1 ≤ g) (hgu : g * (1 - u) = 1) (hT : 0 ≤ T)
    (h : |a - S - s| ≤ (g ^ (τ + 3) - 1) * T + (g ^ τ - 1) * |s|)
    (hp : |ph - p| ≤ (g ^ 3 - 1) * |p|) (hs : |s' - (s - ph)| ≤ u * |s - ph|) :
    |a - (S + p) - s'| ≤ (g ^ (τ + 1 + 3) - 1) * (T + |p|) + (g ^ (τ + 1) - 1) * |s'| := by
  have gτ : 1 ≤ g ^ τ := one_le_pow₀ hg
  have g3 : 1 ≤ g ^ 3 := one_le_pow₀ hg
  have b1 : |s - ph| ≤ g * |s'| := by
    have := abs_sub_abs_le_abs_sub (s - ph) s'
    rw [abs_sub_comm (s - ph) s'] at this
    have h2 : |s - ph| * (1 - u) ≤ |s'| := by linarith
    calc |s - ph| = g * (|s - ph| * (1 - u)) := by rw [mul_comm |s - ph|, ← mul_assoc, hgu, one_mul]
      _ ≤ _ := mul_le_mul_of_nonneg_left h2 (by linarith)
  have b2 : |s' - (s - ph)| ≤ (g - 1) * |s'| := by
    have h0 : u * g = g - 1 := by linarith
    have hu' : 0 ≤ u := by
      by_contra hh
      push Not at hh
      have : u * g < 0 := mul_neg_of_neg_of_pos hh (by linarith)
      linarith
    calc _ ≤ u * |s - ph| := hs
      _ ≤ u * (g * |s'|) := mul_le_mul_of_nonneg_left b1 hu'
      _ = _ := by rw [← mul_assoc, h0]
  have b3 : |ph| ≤ g ^ 3 * |p| := by
    have := abs_sub_abs_le_abs_sub ph p
    linarith
  have b4 : |s| ≤ g ^ 3 * |p| + g * |s'| := by
    have := abs_add_le (s - ph) ph
    rw [sub_add_cancel] at this
    linarith
  have b5 : (g ^ τ - 1) * |s| ≤ (g ^ τ - 1) * (g ^ 3 * |p| + g * |s'|) := mul_le_mul_of_nonneg_left b4 (by linarith)
  have t : |a - (S + p) - s'| ≤ |a - S - s| + |s' - (s - ph)| + |ph - p| := by
    have e : a - (S + p) - s' = (a - S - s) - (s' - (s - ph)) + (ph - p) := by ring
    rw [e]
    exact (abs_add_le _ _).trans (by linarith [abs_sub (a - S - s) (s' - (s - ph))])
  have m : g ^ (τ + 3) ≤ g ^ (τ + 1 + 3) := pow_le_pow_right₀ hg (by omega)
  have m1 := mul_le_mul_of_nonneg_right m hT
  have m2 := mul_le_mul_of_nonneg_right m (abs_nonneg p)
  have e1 : g ^ (τ + 3) = g ^ τ * g ^ 3 := pow_add _ _ _
  have e2 : g ^ (τ + 1) = g ^ τ * g := pow_succ _ _
  have : |a - (S + p) - s'| ≤ (g ^ (τ + 3) - 1) * T + (g ^ τ - 1) * (g ^ 3 * |p| + g * |s'|) + (g - 1) * |s'| + (g ^ 3 - 1) * |p| := by linarith
  refine this.trans ?_
  rw [e2]
  rw [e1] at m1 m2 ⊢
  nlinarith

/-- The coefficients of `c⁻¹ q v + r` where `q` is the upper and `r` the lower part of `t`. -/
theorem divcoeff (t v : List ℚ) (n m : ℕ) (hv : v.length = n + 1) (ht : t.length = m + 1) (hnm : n ≤ m) (hc : v.getD n 0 ≠ 0) (i : ℕ) :
    (C (v.getD n 0)⁻¹ * polyOf (t.drop n) * polyOf v + polyOf (t.take n)).coeff i =
      ∑ k ∈ range (m - n + 1), (if k ≤ i ∧ i < n + k then (v.getD n 0)⁻¹ * t.getD (n + k) 0 * v.getD (i - k) 0 else 0) + t.getD i 0 := by
  have e : (C (v.getD n 0)⁻¹ * polyOf (t.drop n) * polyOf v).coeff i =
      ∑ k ∈ range (i + 1), (v.getD n 0)⁻¹ * t.getD (n + k) 0 * v.getD (i - k) 0 := by
    rw [mul_assoc, coeff_C_mul, coeff_mul, Finset.Nat.sum_antidiagonal_eq_sum_range_succ (fun a b => (polyOf (t.drop n)).coeff a * (polyOf v).coeff b), Finset.mul_sum]
    refine Finset.sum_congr rfl fun k _ => ?_
    rw [coeff_polyOf, coeff_polyOf, getD_drop', mul_assoc]
  rw [coeff_add, e, coeff_polyOf, getD_take']
  have f1 : ∑ k ∈ range (i + 1), (v.getD n 0)⁻¹ * t.getD (n + k) 0 * v.getD (i - k) 0 =
      ∑ k ∈ range (max (i + 1) (m - n + 1)), if k ≤ i then (v.getD n 0)⁻¹ * t.getD (n + k) 0 * v.getD (i - k) 0 else 0 := by
    rw [← Finset.sum_filter]
    refine Finset.sum_congr ?_ fun _ _ => rfl
    ext k; simp; omega
  have f2 : ∑ k ∈ range (m - n + 1), (if k ≤ i ∧ i < n + k then (v.getD n 0)⁻¹ * t.getD (n + k) 0 * v.getD (i - k) 0 else 0) =
      ∑ k ∈ range (max (i + 1) (m - n + 1)), if k ≤ i ∧ i < n + k then (v.getD n 0)⁻¹ * t.getD (n + k) 0 * v.getD (i - k) 0 else 0 := by
    refine Finset.sum_subset (fun k => by simp; omega) fun k _ h2 => ?_
    rw [getD_of_ge t (n + k) (by simp at h2; omega)]
    simp
  rw [f1, f2]
  have f3 : ∀ k, (if k ≤ i then (v.getD n 0)⁻¹ * t.getD (n + k) 0 * v.getD (i - k) 0 else 0) =
      (if k ≤ i ∧ i < n + k then (v.getD n 0)⁻¹ * t.getD (n + k) 0 * v.getD (i - k) 0 else 0) + (if k = i - n ∧ n ≤ i then t.getD i 0 else 0) := by
    intro k
    by_cases h1 : k ≤ i
    · by_cases h2 : i < n + k
      · rw [if_pos h1, if_pos ⟨h1, h2⟩, if_neg (by omega), add_zero]
      · by_cases h3 : k = i - n
        · have h4 : n ≤ i := by omega
          rw [if_pos h1, if_neg (by omega), if_pos ⟨h3, h4⟩, zero_add, h3, show n + (i - n) = i by omega, show i - (i - n) = n by omega]
          field_simp
        · rw [if_pos h1, if_neg (by omega), if_neg (by omega), getD_of_ge v (i - k) (by omega)]; simp
    · rw [if_neg h1, if_neg (by omega), if_neg (by omega), add_zero]
  rw [Finset.sum_congr rfl fun k _ => f3 k, Finset.sum_add_distrib, add_assoc]
  congr 1
  by_cases h : n ≤ i
  · rw [if_neg (by omega), add_zero, Finset.sum_eq_single (i - n)]
    · rw [if_pos ⟨rfl, h⟩]
    · intro b _ hb; rw [if_neg (by tauto)]
    · intro hb; exfalso; simp at hb
  · rw [if_pos (by omega), Finset.sum_eq_zero, zero_add]
    intro k _; rw [if_neg (by tauto)]

/-- C122, `polydiv`: the computed quotient and remainder are exact for a dividend perturbed, coefficient by coefficient, by at most
`1 / (1 - u) ^ (min n (m - n + 1) + 3) - 1` times the same combination of absolute values, where `m` and `n` are the degrees; the quotient
returned is (as in exact arithmetic, C57) not divided by the leading coefficient of the divisor. -/
theorem C122_polydiv (hu : 0 ≤ u) (hu1 : u < 1) (hr : ∀ x, |rnd x - x| ≤ u * |x|) (a v : List ℚ) (n m : ℕ)
    (hv : v.length = n + 1) (ha : a.length = m + 1) (hn : 1 ≤ n) (hnm : n ≤ m) (hc : v.getD n 0 ≠ 0) :
    ∃ q r : List ℚ, polydiv (a.map (RFl.fin (rnd := rnd))) (v.map RFl.fin) = .ok (q.map RFl.fin, r.map RFl.fin) ∧
      q.length = m - n + 1 ∧ r.length = n ∧
      ∀ i, |a.getD i 0 - (C (v.getD n 0)⁻¹ * polyOf q * polyOf v + polyOf r).coeff i| ≤
        (1 / (1 - u) ^ (min n (m - n + 1) + 3) - 1) * (C |v.getD n 0|⁻¹ * absPoly q * absPoly v + absPoly r).coeff i := by
  set c := v.getD n 0 with hcdef
  set g := 1 / (1 - u) with hgdef
  have h1u : 0 < 1 - u := by linarith
  have hgu : g * (1 - u) = 1 := by rw [hgdef]; field_simp
  have hg : 1 ≤ g := by rw [hgdef, le_div_iff₀ h1u]; linarith
  have hgp : 1 + u ≤ g := by
    rw [hgdef, le_div_iff₀ h1u]; nlinarith
  obtain ⟨t, ht, hl, hp⟩ : ∃ t : List ℚ, polydivImpl (a.map (RFl.fin (rnd := rnd))) (v.map RFl.fin) = .ok (t.map RFl.fin) ∧ t.length = a.length ∧
      ∀ i : ℕ, ∃ τ : ℕ, τ ≤ min n (m - n + 1) ∧
      |a.getD i 0 - ∑ k ∈ range (m - n + 1), (if k ≤ i ∧ i < n + k then c⁻¹ * t.getD (n + k) 0 * v.getD (i - k) 0 else 0) - t.getD i 0| ≤
        (g ^ (τ + 3) - 1) * ∑ k ∈ range (m - n + 1), (if k ≤ i ∧ i < n + k then |c⁻¹ * t.getD (n + k) 0 * v.getD (i - k) 0| else 0) +
        (g ^ τ - 1) * |t.getD i 0| := by
    unfold polydivImpl
    have e0 : (((v.map (RFl.fin (rnd := rnd))).length : Int) - 1) = (n : Int) := by rw [List.length_map]; omega
    have e1 : (((a.map (RFl.fin (rnd := rnd))).length : Int) - 1) = (m : Int) := by rw [List.length_map]; omega
    have hrd : rd (v.map (RFl.fin (rnd := rnd))) (n : Int) = .ok (RFl.fin c) := by
      rw [rd_nat _ n (by rw [List.length_map]; omega), List.getElem_map, hcdef, getD_of_lt]
    simp only [e0, e1, hrd, Res.bind_ok, forDown]
    have hM : ((m : Int) - (n : Int) + 1 - 0).toNat = m - n + 1 := by omega
    rw [hM]
    have h1c : (1 / RFl.fin c : RFl rnd) = RFl.fin (rnd (1 / c)) := RFl.div_fin hc
    rw [h1c]
    obtain ⟨s, ht, t, rfl, hl, hp⟩ := forN_inv (n := m - n + 1) (s := a.map (RFl.fin (rnd := rnd)))
      (f := fun (q : ℕ) (tmp : List (RFl rnd)) => do
        let x ← rd tmp ((n : Int) + ((m : Int) - (n : Int) - (q : Int)))
        polydivInner (v.map RFl.fin) (n : Int) ((m : Int) - (n : Int) - (q : Int)) (RFl.fin (rnd (1 / c)) * x) tmp)
      (fun q s => ∃ t : List ℚ, s = t.map RFl.fin ∧ t.length = a.length ∧ ∀ i : ℕ,
        |a.getD i 0 - ∑ k ∈ Ico (m - n + 1 - q) (m - n + 1), (if k ≤ i ∧ i < n + k then c⁻¹ * t.getD (n + k) 0 * v.getD (i - k) 0 else 0) - t.getD i 0| ≤
          (g ^ (((Ico (m - n + 1 - q) (m - n + 1)).filter fun k => k ≤ i ∧ i < n + k).card + 3) - 1) *
            ∑ k ∈ Ico (m - n + 1 - q) (m - n + 1), (if k ≤ i ∧ i < n + k then |c⁻¹ * t.getD (n + k) 0 * v.getD (i - k) 0| else 0) +
          (g ^ ((Ico (m - n + 1 - q) (m - n + 1)).filter fun k => k ≤ i ∧ i < n + k).card - 1) * |t.getD i 0|)
      (by
        refine ⟨a, rfl, rfl, fun i => ?_⟩
        simp)
      (by
        rintro q hq s ⟨t, rfl, hl, hp⟩
        set k := m - n - q with hk
        have f1 : ((m : Int) - (n : Int) - (q : Int)) = (k : Int) := by omega
        have f2 : ((n : Int) + (k : Int)) = ((n + k : ℕ) : Int) := by push_cast; rfl
        have hlt : n + k < t.length := by omega
        have hlt' : n + k < (t.map (RFl.fin (rnd := rnd))).length := by simpa using hlt
        obtain ⟨t', ht', hl', hp'⟩ := polydivInner_fin (rnd := rnd) v t n k (rnd (rnd (1 / c) * t[n + k])) (by omega) hlt
        refine ⟨t'.map RFl.fin, ?_, t', rfl, by omega, fun i => ?_⟩
        · simp only [f1, f2, rd_nat _ _ hlt', Res.bind_ok, List.getElem_map, RFl.mul_fin]; exact ht'
        · have htop : ∀ j, k ≤ j → t'.getD (n + j) 0 = t.getD (n + j) 0 := fun j hj => by rw [hp', if_neg (by omega)]
          have a1 : m - n + 1 - q = k + 1 := by omega
          have a2 : m - n + 1 - (q + 1) = k := by omega
          have H := hp i
          rw [a1] at H
          rw [a2, Finset.sum_eq_sum_Ico_succ_bot (by omega : k < m - n + 1), Finset.sum_eq_sum_Ico_succ_bot (by omega : k < m - n + 1)]
          have c1 : ∀ j ∈ Ico (k + 1) (m - n + 1), (if j ≤ i ∧ i < n + j then c⁻¹ * t'.getD (n + j) 0 * v.getD (i - j) 0 else 0) =
              (if j ≤ i ∧ i < n + j then c⁻¹ * t.getD (n + j) 0 * v.getD (i - j) 0 else 0) := fun j hj => by
            rw [htop j (by rw [mem_Ico] at hj; omega)]
          have c2 : ∀ j ∈ Ico (k + 1) (m - n + 1), (if j ≤ i ∧ i < n + j then |c⁻¹ * t'.getD (n + j) 0 * v.getD (i - j) 0| else 0) =
              (if j ≤ i ∧ i < n + j then |c⁻¹ * t.getD (n + j) 0 * v.getD (i - j) 0| else 0) := fun j hj => by
            rw [htop j (by rw [mem_Ico] at hj; omega)]
          rw [Finset.sum_congr rfl c1, Finset.sum_congr rfl c2, htop k le_rfl]
          have hIco : Ico k (m - n + 1) = insert k (Ico (k + 1) (m - n + 1)) := by
            ext j; simp only [mem_Ico, mem_insert]; omega
          rw [hIco, Finset.filter_insert]
          by_cases hi : k ≤ i ∧ i < n + k
          · rw [if_pos hi, if_pos hi, if_pos hi, Finset.card_insert_of_notMem (by simp), add_comm (c⁻¹ * _ * _), add_comm |c⁻¹ * _ * _|]
            refine divstep (ph := rnd (rnd (rnd (1 / c) * t[n + k]) * v.getD (i - k) 0)) hg hgu ?_ H ?_ ?_
            · refine Finset.sum_nonneg fun j _ => ?_
              split_ifs
              · exact abs_nonneg _
              · exact le_rfl
            · have r1 := hr (1 / c)
              have b1 : |rnd (1 / c) * t[n + k] - c⁻¹ * t[n + k]| ≤ ((1 + u) ^ 1 - 1) * |c⁻¹ * t[n + k]| := by
                rw [← sub_mul, abs_mul, abs_mul, ← mul_assoc, ← one_div]
                exact mul_le_mul_of_nonneg_right (by simpa using r1) (abs_nonneg _)
              obtain ⟨x, x1, x2, -⟩ := Approx.round (rnd := rnd) hu hr b1 le_rfl
              rw [RFl.fin_inj] at x1
              have b2 : |rnd (rnd (1 / c) * t[n + k]) * v.getD (i - k) 0 - c⁻¹ * t[n + k] * v.getD (i - k) 0| ≤
                  ((1 + u) ^ 2 - 1) * |c⁻¹ * t[n + k] * v.getD (i - k) 0| := by
                rw [x1, ← sub_mul, abs_mul, abs_mul (c⁻¹ * t[n + k]), ← mul_assoc]
                exact mul_le_mul_of_nonneg_right (by simpa using x2) (abs_nonneg _)
              obtain ⟨y, y1, y2, -⟩ := Approx.round (rnd := rnd) hu hr b2 le_rfl
              rw [RFl.fin_inj] at y1
              rw [y1, getD_of_lt _ _ hlt]
              refine y2.trans (mul_le_mul_of_nonneg_right ?_ (abs_nonneg _))
              have : (1 + u) ^ 3 ≤ g ^ 3 := pow_le_pow_left₀ (by linarith) hgp 3
              exact sub_le_sub_right this 1
            · rw [hp', if_pos hi]; exact hr _
          · rw [if_neg hi, if_neg hi, if_neg hi, zero_add, zero_add, hp', if_neg hi]
            exact H)
    refine ⟨t, ht, hl, fun i => ?_⟩
    have H := hp i
    rw [Nat.sub_self, ← Finset.range_eq_Ico] at H
    refine ⟨_, le_min ?_ ?_, H⟩
    · calc _ ≤ (Ico (i + 1 - n) (i + 1)).card := Finset.card_le_card fun k hk => by
            simp only [mem_filter, mem_range] at hk; rw [mem_Ico]; omega
        _ ≤ n := by rw [Nat.card_Ico]; omega
    · exact (Finset.card_filter_le _ _).trans (by rw [card_range])
  refine ⟨t.drop n, t.take n, ?_, by rw [List.length_drop]; omega, by rw [List.length_take]; omega, fun i => ?_⟩
  · unfold polydiv
    have r1 : (!(a.map (RFl.fin (rnd := rnd))).isEmpty) = true := by cases a <;> simp_all
    have r2 : (!(v.map (RFl.fin (rnd := rnd))).isEmpty) = true := by cases v <;> simp_all
    rw [r1, r2, require_true, Res.bind_ok, Res.bind_ok, if_neg (by rw [List.length_map]; omega), if_neg (by rw [List.length_map, List.length_map]; omega),
      ht, Res.bind_ok, List.length_map, hv, Nat.add_sub_cancel, ← List.map_drop, ← List.map_take]
    rfl
  · have hA : (C |c|⁻¹ * absPoly (t.drop n) * absPoly v + absPoly (t.take n)).coeff i =
        ∑ k ∈ range (m - n + 1), (if k ≤ i ∧ i < n + k then |c⁻¹ * t.getD (n + k) 0 * v.getD (i - k) 0| else 0) + |t.getD i 0| := by
      have gm : ∀ (l : List ℚ) (j : ℕ), (l.map abs).getD j 0 = |l.getD j 0| := fun l j => by
        simp only [List.getD_eq_getElem?_getD, List.getElem?_map]
        cases l[j]? <;> simp
      have := divcoeff (t.map abs) (v.map abs) n m (by simpa using hv) (by rw [List.length_map]; omega) hnm (by rw [gm]; exact abs_ne_zero.mpr hc) i
      simp only [gm, ← hcdef] at this
      unfold absPoly
      rw [List.map_drop, List.map_take, this]
      congr 1
      refine Finset.sum_congr rfl fun k _ => ?_
      split_ifs
      · rw [abs_mul, abs_mul, abs_inv]
      · rfl
    rw [hA, divcoeff t v n m hv (by omega) hnm hc i, ← sub_sub]
    obtain ⟨τ, h1, h2⟩ := hp i
    refine h2.trans ?_
    have hN : (1 : ℚ) / (1 - u) ^ (min n (m - n + 1) + 3) = g ^ (min n (m - n + 1) + 3) := by rw [hgdef, div_pow, one_pow]
    rw [hN, mul_add]
    have p1 : g ^ (τ + 3) ≤ g ^ (min n (m - n + 1) + 3) := pow_le_pow_right₀ hg (by omega)
    have p2 : g ^ τ ≤ g ^ (min n (m - n + 1) + 3) := pow_le_pow_right₀ hg (by omega)
    refine add_le_add (mul_le_mul_of_nonneg_right (by linarith) ?_) (mul_le_mul_of_nonneg_right (by linarith) (abs_nonneg _))
    refine Finset.sum_nonneg fun j _ => ?_
    split_ifs
    · exact abs_nonneg _
    · exact le_rfl

/-- C122, `polydiv`: by a constant the coefficients are the correctly rounded quotients, and the remainder is `[0]`; a dividend shorter than the divisor is returned as
the remainder, unrounded, with quotient `[0]`. -/
theorem C122_polydiv_short (a v : List ℚ) (ha : a ≠ []) :
    (∀ c : ℚ, c ≠ 0 → polydiv (a.map (RFl.fin (rnd := rnd))) [RFl.fin c] = .ok (a.map fun x => RFl.fin (rnd (x / c)), [0])) ∧
    (a.length < v.length → polydiv (a.map (RFl.fin (rnd := rnd))) (v.map RFl.fin) = .ok ([0], a.map RFl.fin)) := by
  have r1 : (!(a.map (RFl.fin (rnd := rnd))).isEmpty) = true := by cases a <;> simp_all
  refine ⟨fun c hc => ?_, fun h => ?_⟩
  · unfold polydiv
    have r2 : (!([RFl.fin c] : List (RFl rnd)).isEmpty) = true := rfl
    have r3 : rd ([RFl.fin c] : List (RFl rnd)) 0 = .ok (RFl.fin c) := rfl
    rw [r1, r2, require_true, Res.bind_ok, Res.bind_ok, if_pos List.length_singleton, r3, Res.bind_ok, List.map_map]
    simp only [Function.comp_def, RFl.div_fin hc]
    rfl
  · unfold polydiv
    have r2 : (!(v.map (RFl.fin (rnd := rnd))).isEmpty) = true := by cases v <;> simp_all
    rw [r1, r2, require_true, Res.bind_ok, Res.bind_ok, if_neg (by rw [List.length_map]; have := List.length_pos_iff.mpr ha; omega), if_pos (by rw [List.length_map, List.length_map]; exact h)]
    rfl

/-- C122: in binary64 the division of a product by one of its factors can leave a non-zero remainder: `(1 + x)(1 + 49 x) = 1 + 50 x + 49 x²` is computed exactly, and
dividing it by `1 + 49 x` leaves `2⁻⁵³`. -/
theorem C122_polydiv_remainder :
    polymul ([1, 1].map (RFl.fin (rnd := rnd64))) ([1, 49].map RFl.fin) = .ok ([1, 50, 49].map RFl.fin) ∧
    polydiv ([1, 50, 49].map (RFl.fin (rnd := rnd64))) ([1, 49].map RFl.fin) = .ok ([49, 49].map RFl.fin, [1 / 2 ^ 53].map RFl.fin) := by
  constructor <;> decide +kernel

/-- The hypotheses of the theorems above are met in binary64. -/
example : ∃ q r : List ℚ, polydiv ([1, 50, 49].map (RFl.fin (rnd := rnd64))) ([1, 49].map RFl.fin) = .ok (q.map RFl.fin, r.map RFl.fin) ∧
    q.length = 2 ∧ r.length = 1 ∧
      ∀ i, |[1, 50, 49].getD i 0 - (C (49 : ℚ)⁻¹ * polyOf q * polyOf [1, 49] + polyOf r).coeff i| ≤
        (1 / (1 - 1 / 2 ^ 53) ^ 4 - 1) * (C |(49 : ℚ)|⁻¹ * absPoly q * absPoly [1, 49] + absPoly r).coeff i :=
  C122_polydiv (rnd := rnd64) (u := 1 / 2 ^ 53) (by norm_num) (by norm_num) rnd64_err [1, 50, 49] [1, 49] 1 2 rfl rfl (by norm_num) (by norm_num) (by decide)

end SciCpp
