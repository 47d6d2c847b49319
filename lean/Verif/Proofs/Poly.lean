import Verif.Proofs.Convolve
import Mathlib.Algebra.Polynomial.Eval.Degree
import Mathlib.Algebra.Polynomial.Eval.Algebra
import Mathlib.Algebra.Polynomial.Derivative
import Mathlib.Algebra.Polynomial.BigOperators
import Mathlib.Tactic.FieldSimp
import Mathlib.Tactic.Ring
import Mathlib.Tactic.LinearCombination
import Mathlib.Tactic.Abel
/-
  Lemmas for the polynomial routines.
-/
namespace SciCpp

open Finset Spec Polynomial

variable {R : Type*}

theorem polyval_eq [CommSemiring R] (x : R) (l : List R) : polyval x l = (polyOf l).eval x := by
  unfold polyval polyvalWith
  induction l with
  | nil => simp [polyOf]
  | cons c cs ih =>
    simp only [List.reverse_cons, List.foldl_append, List.foldl_cons, List.foldl_nil, ih]
    simp [polyOf]
    ring

theorem getD_append' [Zero R] (a b : List R) (i : ℕ) :
    (a ++ b).getD i 0 = if i < a.length then a.getD i 0 else b.getD (i - a.length) 0 := by
  simp only [List.getD_eq_getElem?_getD, List.getElem?_append]
  split <;> rfl

theorem polyOf_append [Semiring R] (a b : List R) :
    polyOf (a ++ b) = polyOf a + X ^ a.length * polyOf b := by
  induction a with
  | nil => simp [polyOf]
  | cons c cs ih => simp [polyOf, ih, pow_succ', mul_add, add_assoc, mul_assoc]

theorem polyOf_degree_lt [Semiring R] (l : List R) : (polyOf l).degree < l.length := by
  rw [degree_lt_iff_coeff_zero]
  intro m hm
  rw [coeff_polyOf, getD_of_ge _ _ hm]

theorem polyOf_zipWith_add [Semiring R] (a b : List R) (h : a.length ≤ b.length) :
    polyOf (List.zipWith (· + ·) a b ++ b.drop a.length) = polyOf a + polyOf b := by
  induction a generalizing b with
  | nil => simp [polyOf]
  | cons x a ih =>
    rcases b with _ | ⟨y, b⟩
    · simp at h
    · simp only [List.zipWith_cons_cons, List.length_cons, List.drop_succ_cons, List.cons_append,
        polyOf]
      rw [ih b (by simpa using h)]
      simp only [C_add, mul_add]; abel

theorem polyOf_zipWith_sub [Ring R] (a b : List R) (h : a.length ≤ b.length) :
    polyOf (List.zipWith (· - ·) a b ++ (b.drop a.length).map (fun v => -v))
      = polyOf a - polyOf b := by
  induction a generalizing b with
  | nil =>
    simp only [List.zipWith_nil_left, List.length_nil, List.drop_zero, List.nil_append, polyOf]
    induction b with
    | nil => simp [polyOf]
    | cons y b ih => simp only [List.map_cons, polyOf, ih (by simp)]; simp; abel
  | cons x a ih =>
    rcases b with _ | ⟨y, b⟩
    · simp at h
    · simp only [List.zipWith_cons_cons, List.length_cons, List.drop_succ_cons, List.cons_append,
        polyOf]
      rw [ih b (by simpa using h)]
      simp only [C_sub, mul_sub]; abel

theorem polyOf_zipWith_sub' [Ring R] (a b : List R) (h : b.length ≤ a.length) :
    polyOf (List.zipWith (· - ·) a b ++ a.drop b.length) = polyOf a - polyOf b := by
  induction b generalizing a with
  | nil => simp [polyOf]
  | cons y b ih =>
    rcases a with _ | ⟨x, a⟩
    · simp at h
    · simp only [List.zipWith_cons_cons, List.length_cons, List.drop_succ_cons, List.cons_append,
        polyOf]
      rw [ih a (by simpa using h)]
      simp only [C_sub, mul_sub]; abel

theorem polyadd_poly [Semiring R] (a b : List R) : polyOf (polyadd a b) = polyOf a + polyOf b := by
  unfold polyadd
  split_ifs with h
  · exact polyOf_zipWith_add a b h
  · rw [polyOf_zipWith_add b a (by omega), add_comm]

theorem polyadd_length [Add R] (a b : List R) : (polyadd a b).length = max a.length b.length := by
  unfold polyadd; split_ifs <;> simp <;> omega

theorem polysub_poly [Ring R] (a b : List R) : polyOf (polysub a b) = polyOf a - polyOf b := by
  unfold polysub
  split_ifs with h
  · exact polyOf_zipWith_sub a b h
  · rw [List.zipWith_comm]
    exact polyOf_zipWith_sub' a b (by omega)

theorem polysub_length [Neg R] [Sub R] (a b : List R) :
    (polysub a b).length = max a.length b.length := by
  unfold polysub; split_ifs <;> simp <;> omega

theorem polyScale_poly [CommSemiring R] (a : List R) (c : R) :
    polyOf (polyScale a c) = C c * polyOf a := by
  unfold polyScale
  induction a with
  | nil => simp [polyOf]
  | cons x a ih =>
    simp only [List.map_cons, polyOf, ih, C_mul]; ring

theorem polymulxMove_eq [Zero R] (a : List R) : polymulxMove a = polymulx a := by
  unfold polymulxMove polymulx
  rw [List.reverse_append]
  simp

theorem polymulx_poly [Semiring R] (a : List R) : polyOf (polymulx a) = X * polyOf a := by
  simp [polymulx, polyOf]

/-! ### class Polynomial -/

theorem polyDegree_eq (l : List R) (h : l ≠ []) (hl : l.length < 2 ^ 64) :
    polyDegree l = l.length - 1 := by
  have : 1 ≤ l.length := List.length_pos_iff.mpr h
  unfold polyDegree
  have e : l.length + (2 ^ 64 - 1) = (l.length - 1) + 2 ^ 64 := by omega
  rw [e, Nat.add_mod_right, Nat.mod_eq_of_lt (by omega)]

theorem polyDegree_nil : polyDegree ([] : List R) = 2 ^ 64 - 1 := by
  simp [polyDegree]

theorem polyAddAssign_spec [Semiring R] (a b : List R) (ha : a ≠ []) (hb : b ≠ [])
    (hal : a.length < 2 ^ 64) (hbl : b.length < 2 ^ 64) :
    ∃ r, polyAddAssign a b = .ok r ∧ r.length = max a.length b.length ∧
      polyOf r = polyOf a + polyOf b := by
  have h1 : 1 ≤ a.length := List.length_pos_iff.mpr ha
  have h2 : 1 ≤ b.length := List.length_pos_iff.mpr hb
  unfold polyAddAssign
  rw [polyDegree_eq a ha hal, polyDegree_eq b hb hbl]
  split_ifs with h
  · have hr : decide (a.length ≤ b.length) = true := by simp; omega
    simp only [hr, require_true, Res.bind_ok, Res.pure_eq]
    refine ⟨_, rfl, by simp; omega, ?_⟩
    rw [List.zipWith_comm]
    simp only [add_comm]
    exact polyOf_zipWith_add a b (by omega)
  · have hr : decide (b.length ≤ a.length) = true := by simp; omega
    simp only [hr, require_true, Res.bind_ok, Res.pure_eq]
    exact ⟨_, rfl, by simp; omega, by rw [polyOf_zipWith_add b a (by omega), add_comm]⟩

theorem polySubAssign_spec [Ring R] (a b : List R) (ha : a ≠ []) (hb : b ≠ [])
    (hal : a.length < 2 ^ 64) (hbl : b.length < 2 ^ 64) :
    ∃ r, polySubAssign a b = .ok r ∧ r.length = max a.length b.length ∧
      polyOf r = polyOf a - polyOf b := by
  have h1 : 1 ≤ a.length := List.length_pos_iff.mpr ha
  have h2 : 1 ≤ b.length := List.length_pos_iff.mpr hb
  unfold polySubAssign
  rw [polyDegree_eq a ha hal, polyDegree_eq b hb hbl]
  split_ifs with h
  · have hr : decide (a.length ≤ b.length) = true := by simp; omega
    simp only [hr, require_true, Res.bind_ok, Res.pure_eq]
    exact ⟨_, rfl, by simp; omega, polyOf_zipWith_sub a b (by omega)⟩
  · have hr : decide (b.length ≤ a.length) = true := by simp; omega
    simp only [hr, require_true, Res.bind_ok, Res.pure_eq]
    exact ⟨_, rfl, by simp; omega, polyOf_zipWith_sub' a b (by omega)⟩

theorem polyfromroots_loop [CommRing R] (rs : List R) (P : List R) (hP : P ≠ [])
    (hl : P.length + rs.length < 2 ^ 64) :
    ∃ r, polyfromroots.loop rs P = .ok r ∧ r.length = P.length + rs.length ∧
      polyOf r = polyOf P * (rs.map (fun r => X - C r)).prod := by
  induction rs generalizing P with
  | nil => exact ⟨P, rfl, by simp, by simp⟩
  | cons r rs ih =>
    simp only [List.length_cons] at hl
    have hne : polymulx P ≠ [] := by simp [polymulx]
    have hne2 : polyScale P r ≠ [] := by simpa [polyScale] using hP
    obtain ⟨P', h1, h2, h3⟩ := polySubAssign_spec (polymulx P) (polyScale P r) hne hne2
      (by simp [polymulx]; omega) (by simp [polyScale]; omega)
    have hlen : P'.length = P.length + 1 := by rw [h2]; simp [polymulx, polyScale]
    obtain ⟨Q, g1, g2, g3⟩ := ih P' (by intro h; simp [h] at hlen) (by omega)
    refine ⟨Q, ?_, ?_, ?_⟩
    · simp only [polyfromroots.loop, fromRootsStep, polymulxMove_eq, h1, Res.bind_ok]; exact g1
    · simp only [List.length_cons]; omega
    · rw [g3, h3, polymulx_poly, polyScale_poly]
      simp only [List.map_cons, List.prod_cons]; ring

/-! ### polypow -/

theorem polymul_ne [CommSemiring R] (a b : List R) (ha : a ≠ []) (hb : b ≠ []) :
    ∃ r, polymul a b = .ok r ∧ r ≠ [] ∧ r.length - 1 = (a.length - 1) + (b.length - 1) ∧
      polyOf r = polyOf a * polyOf b := by
  obtain ⟨r, h1, h2, h3⟩ := convolve_poly a b (by simp [ha])
  have ha' : 1 ≤ a.length := List.length_pos_iff.mpr ha
  have hb' : 1 ≤ b.length := List.length_pos_iff.mpr hb
  refine ⟨r, h1, ?_, by omega, h3⟩
  intro h; subst h; simp at h2; omega

theorem polypowArr_spec [CommSemiring R] (pow : ℕ) (P : List R) (hP : P ≠ []) :
    ∃ r, polypowArr pow P = .ok r ∧ r ≠ [] ∧ r.length - 1 = pow * (P.length - 1) ∧
      polyOf r = polyOf P ^ pow := by
  induction pow using Nat.strong_induction_on generalizing P with
  | _ pow ih =>
    unfold polypowArr
    split_ifs with h0 h1 h2
    · subst h0; exact ⟨[1], rfl, by simp, by simp, by simp [polyOf]⟩
    · subst h1; exact ⟨P, rfl, hP, by simp, by simp⟩
    · obtain ⟨s, s1, s2, s3, s4⟩ := polymul_ne P P hP hP
      obtain ⟨r, r1, r2, r3, r4⟩ := ih (pow / 2) (by omega) s s2
      refine ⟨r, by simp [s1, r1], r2, ?_, ?_⟩
      · rw [r3, s3, ← two_mul, ← mul_assoc]; congr 1; omega
      · rw [r4, s4, ← pow_two, ← pow_mul]; congr 1; omega
    · obtain ⟨s, s1, s2, s3, s4⟩ := polymul_ne P P hP hP
      obtain ⟨r, r1, r2, r3, r4⟩ := ih ((pow - 1) / 2) (by omega) s s2
      obtain ⟨t, t1, t2, t3, t4⟩ := polymul_ne P r hP r2
      refine ⟨t, by simp [s1, r1, t1], t2, ?_, ?_⟩
      · rw [t3, r3, s3, ← two_mul, ← mul_assoc]
        have : pow = 1 + (pow - 1) / 2 * 2 := by omega
        conv_rhs => rw [this]
        ring
      · rw [t4, r4, s4, ← pow_two, ← pow_mul, ← pow_succ']; congr 1; omega

theorem polypowLoop_spec [CommSemiring R] (pow : ℕ) (hpow : 1 ≤ pow) (x y : List R) (hx : x ≠ [])
    (hy : y ≠ []) :
    ∃ x' y', polypowLoop pow x y = .ok (x', y') ∧ x' ≠ [] ∧ y' ≠ [] ∧
      (x'.length - 1) + (y'.length - 1) = pow * (x.length - 1) + (y.length - 1) ∧
      polyOf x' * polyOf y' = polyOf x ^ pow * polyOf y := by
  induction pow using Nat.strong_induction_on generalizing x y with
  | _ pow ih =>
    unfold polypowLoop
    split_ifs with h1 h2
    · obtain ⟨y', y1, y2, y3, y4⟩ := polymul_ne x y hx hy
      obtain ⟨s, s1, s2, s3, s4⟩ := polymul_ne x x hx hx
      obtain ⟨a, b, ab1, ab2, ab3, ab4, ab5⟩ := ih (pow / 2) (by omega) (by omega) s y' s2 y2
      have hp : pow = pow / 2 * 2 + 1 := by omega
      refine ⟨a, b, by simp [y1, s1, ab1], ab2, ab3, ?_, ?_⟩
      · rw [ab4, s3, y3, ← two_mul, ← mul_assoc]
        conv_rhs => rw [hp]
        ring
      · rw [ab5, s4, y4, ← pow_two, ← pow_mul]
        conv_rhs => rw [hp]
        ring
    · obtain ⟨s, s1, s2, s3, s4⟩ := polymul_ne x x hx hx
      obtain ⟨a, b, ab1, ab2, ab3, ab4, ab5⟩ := ih (pow / 2) (by omega) (by omega) s y s2 hy
      have hp : pow = pow / 2 * 2 := by omega
      refine ⟨a, b, by simp [s1, ab1], ab2, ab3, ?_, ?_⟩
      · rw [ab4, s3, ← two_mul, ← mul_assoc]
        conv_rhs => rw [hp]
      · rw [ab5, s4, ← pow_two, ← pow_mul]
        conv_rhs => rw [hp]
        ring
    · have : pow = 1 := by omega
      subst this
      exact ⟨x, y, rfl, hx, hy, by simp, by simp⟩

theorem polypowVec_spec [CommSemiring R] (P : List R) (pow : ℕ) (hP : P ≠ []) :
    ∃ r, polypowVec P pow = .ok r ∧ r ≠ [] ∧ r.length - 1 = pow * (P.length - 1) ∧
      polyOf r = polyOf P ^ pow := by
  unfold polypowVec
  split_ifs with h0 h1
  · subst h0; exact ⟨[1], rfl, by simp, by simp, by simp [polyOf]⟩
  · subst h1; exact ⟨P, rfl, hP, by simp, by simp⟩
  · obtain ⟨x, y, e, hx, hy, hl, hp⟩ := polypowLoop_spec pow (by omega) P [1] hP (by simp)
    obtain ⟨r, r1, r2, r3, r4⟩ := polymul_ne x y hx hy
    have hr : (!P.isEmpty) = true := by cases P <;> simp_all
    refine ⟨r, by simp [hr, e, r1], r2, ?_, ?_⟩
    · rw [r3, hl]; simp
    · rw [r4, hp]; simp [polyOf]

/-! ### polydiv -/

theorem polydivInner_spec [Ring R] (v tmp : List R) (n k : ℕ) (d : R) (hn : n < v.length)
    (hk : n + k < tmp.length) :
    ∃ t, polydivInner v n k d tmp = .ok t ∧ t.length = tmp.length ∧
      ∀ i, t.getD i 0 = tmp.getD i 0 - if k ≤ i ∧ i < n + k then d * v.getD (i - k) 0 else 0 := by
  unfold polydivInner forDown
  have hc : ((n : Int) + (k : Int) - 1 + 1 - (k : Int)).toNat = n := by omega
  rw [hc]
  obtain ⟨t, ht, hl, hp⟩ := forN_inv (n := n) (s := tmp)
    (f := fun (q : ℕ) (t : List R) => do
      let x ← rd t ((n : Int) + (k : Int) - 1 - (q : Int))
      let y ← rd v ((n : Int) + (k : Int) - 1 - (q : Int) - (k : Int))
      wr t ((n : Int) + (k : Int) - 1 - (q : Int)) (x - d * y))
    (fun q t => t.length = tmp.length ∧ ∀ i, t.getD i 0 = tmp.getD i 0 -
      if n + k - q ≤ i ∧ i < n + k then d * v.getD (i - k) 0 else 0)
    (by
      refine ⟨rfl, fun i => ?_⟩
      rw [if_neg (by omega), sub_zero])
    (by
      rintro q hq t ⟨hl, hp⟩
      have e1 : ((n : Int) + (k : Int) - 1 - (q : Int)) = ((n + k - 1 - q : ℕ) : Int) := by omega
      have e2 : (((n + k - 1 - q : ℕ) : Int) - (k : Int)) = ((n - 1 - q : ℕ) : Int) := by omega
      have h1 : n + k - 1 - q < t.length := by omega
      have h2 : n - 1 - q < v.length := by omega
      refine ⟨t.set (n + k - 1 - q) (t[n + k - 1 - q] - d * v[n - 1 - q]), ?_, by simp [hl], ?_⟩
      · simp only [e1, e2, rd_nat _ _ h1, rd_nat _ _ h2, Res.bind_ok, wr_nat _ _ _ h1]
      · intro i
        by_cases hi : i = n + k - 1 - q
        · subst hi
          rw [getD_of_lt _ _ (by simpa using h1), List.getElem_set_self,
            ← getD_of_lt _ _ h1, hp, if_neg (by omega), sub_zero, if_pos (by omega)]
          congr 2
          rw [← getD_of_lt _ _ h2]
          congr 1
          omega
        · have e : (t.set (n + k - 1 - q) (t[n + k - 1 - q] - d * v[n - 1 - q])).getD i 0
              = t.getD i 0 := by
            simp only [List.getD_eq_getElem?_getD]
            rw [List.getElem?_set_ne (by omega)]
          rw [e, hp]
          congr 1
          by_cases hc : n + k - q ≤ i ∧ i < n + k
          · rw [if_pos hc, if_pos (by omega)]
          · rw [if_neg hc, if_neg (by omega)])
  refine ⟨t, ht, hl, fun i => ?_⟩
  rw [hp]
  congr 1
  by_cases hc : k ≤ i ∧ i < n + k
  · rw [if_pos (by omega), if_pos hc]
  · rw [if_neg (by omega), if_neg hc]

theorem getD_take' [Zero R] (l : List R) (n i : ℕ) :
    (l.take n).getD i 0 = if i < n then l.getD i 0 else 0 := by
  simp only [List.getD_eq_getElem?_getD, List.getElem?_take]
  split <;> simp

theorem getD_drop' [Zero R] (l : List R) (n i : ℕ) :
    (l.drop n).getD i 0 = l.getD (n + i) 0 := by
  simp only [List.getD_eq_getElem?_getD, List.getElem?_drop]

/-- The loop of `polydiv_impl`: remainder in the low part, *unscaled* quotient in the high part. -/
theorem polydivImpl_spec [Field R] (u v : List R) (n m : ℕ) (hv : v.length = n + 1)
    (hu : u.length = m + 1) (hnm : n ≤ m) (hlead : v.getD n 0 ≠ 0) :
    ∃ t, polydivImpl u v = .ok t ∧ t.length = u.length ∧
      polyOf u = polyOf (t.take n) + C (v.getD n 0)⁻¹ * polyOf (t.drop n) * polyOf v := by
  unfold polydivImpl
  have e0 : ((v.length : Int) - 1) = (n : Int) := by omega
  have e1 : ((u.length : Int) - 1) = (m : Int) := by omega
  have hrd : rd v (n : Int) = .ok (v.getD n 0) := by
    rw [rd_nat v n (by omega), getD_of_lt]
  simp only [e0, e1, hrd, Res.bind_ok, forDown]
  set c := v.getD n 0 with hcdef
  have hc : ((m : Int) - (n : Int) + 1 - 0).toNat = m - n + 1 := by omega
  rw [hc]
  obtain ⟨t, ht, hl, hp⟩ := forN_inv (n := m - n + 1) (s := u)
    (f := fun (q : ℕ) (tmp : List R) => do
      let x ← rd tmp ((n : Int) + ((m : Int) - (n : Int) - (q : Int)))
      polydivInner v (n : Int) ((m : Int) - (n : Int) - (q : Int)) (1 / c * x) tmp)
    (fun q t => t.length = u.length ∧
      polyOf u = polyOf (t.take (m + 1 - q))
        + C c⁻¹ * X ^ (m + 1 - n - q) * polyOf (t.drop (m + 1 - q)) * polyOf v)
    (by
      refine ⟨rfl, ?_⟩
      rw [Nat.sub_zero, ← hu, List.take_length, List.drop_length]
      simp [polyOf])
    (by
      rintro q hq t ⟨hl, hp⟩
      set k := m - n - q with hk
      have f1 : ((m : Int) - (n : Int) - (q : Int)) = (k : Int) := by omega
      have f2 : ((n : Int) + (k : Int)) = ((n + k : ℕ) : Int) := by push_cast; rfl
      have hlt : n + k < t.length := by omega
      obtain ⟨t', ht', hl', hp'⟩ := polydivInner_spec v t n k (1 / c * t[n + k]) (by omega) hlt
      refine ⟨t', ?_, by omega, ?_⟩
      · simp only [f1, f2, rd_nat _ _ hlt, Res.bind_ok]; exact ht'
      · rw [hp]
        have a1 : m + 1 - q = n + k + 1 := by omega
        have a2 : m + 1 - n - q = k + 1 := by omega
        have a3 : m + 1 - (q + 1) = n + k := by omega
        have a4 : m + 1 - n - (q + 1) = k := by omega
        rw [a1, a2, a3, a4]
        -- decompose v
        have hvdec : polyOf v = polyOf (v.take n) + X ^ n * C c := by
          ext i
          rw [coeff_add, coeff_polyOf, coeff_polyOf, getD_take', coeff_X_pow_mul']
          by_cases h1 : i < n
          · rw [if_pos h1, if_neg (by omega), add_zero]
          · rw [if_neg h1, if_pos (by omega), coeff_C, zero_add]
            by_cases h2 : i = n
            · subst h2; simp [hcdef]
            · rw [if_neg (by omega), getD_of_ge _ _ (by omega)]
        have htdec : polyOf (t.take (n + k + 1)) =
            polyOf (t.take (n + k)) + X ^ (n + k) * C (t.getD (n + k) 0) := by
          ext i
          rw [coeff_add, coeff_polyOf, coeff_polyOf, getD_take', getD_take', coeff_X_pow_mul']
          by_cases h1 : i < n + k
          · have g1 : i < n + k + 1 := by omega
            have g2 : ¬ n + k ≤ i := by omega
            rw [if_pos h1, if_pos g1, if_neg g2, add_zero]
          · have g2 : n + k ≤ i := by omega
            rw [if_neg h1, if_pos g2, coeff_C, zero_add]
            by_cases h2 : i = n + k
            · subst h2; simp
            · have g1 : ¬ i < n + k + 1 := by omega
              have g3 : ¬ i - (n + k) = 0 := by omega
              rw [if_neg g1, if_neg g3]
        have htdec' : polyOf (t'.take (n + k)) =
            polyOf (t.take (n + k)) - C (1 / c * t[n + k]) * X ^ k * polyOf (v.take n) := by
          ext i
          rw [coeff_sub, coeff_polyOf, coeff_polyOf, getD_take', getD_take', mul_assoc, coeff_C_mul,
            coeff_X_pow_mul', coeff_polyOf, getD_take', hp']
          by_cases h1 : i < n + k
          · rw [if_pos h1, if_pos h1]
            by_cases h2 : k ≤ i
            · rw [if_pos ⟨h2, h1⟩, if_pos h2, if_pos (by omega)]
            · rw [if_neg (by omega), if_neg h2, mul_zero]
          · rw [if_neg h1, if_neg h1]
            by_cases h2 : k ≤ i
            · rw [if_pos h2, if_neg (by omega)]; simp
            · omega
        have htop : polyOf (t'.drop (n + k)) =
            C (t.getD (n + k) 0) + X * polyOf (t.drop (n + k + 1)) := by
          ext i
          rw [coeff_polyOf, getD_drop', hp', if_neg (by omega), sub_zero]
          cases i with
          | zero => simp
          | succ i =>
            rw [coeff_add, coeff_C_succ, zero_add, coeff_X_mul, coeff_polyOf, getD_drop']
            congr 1; omega
        rw [htdec, htdec', htop, hvdec, getD_of_lt _ _ hlt]
        have hcc : (C c⁻¹ : R[X]) * C c = 1 := by rw [← C_mul, inv_mul_cancel₀ hlead, C_1]
        simp only [one_div, C_mul, pow_add, pow_one]
        linear_combination (-(X ^ k * C t[n + k] * X ^ n)) * hcc)
  refine ⟨t, ht, hl, ?_⟩
  rw [hp]
  have a1 : m + 1 - (m - n + 1) = n := by omega
  have a2 : m + 1 - n - (m - n + 1) = 0 := by omega
  rw [a1, a2, pow_zero, mul_one]

end SciCpp
