import Verif.Proofs.Companion
import Mathlib.Tactic.NormNum
import Mathlib.Data.Complex.Basic
import Mathlib.Data.List.TakeWhile
import Mathlib.Algebra.Star.BigOperators
/-
  Property theorems C40, C42 (direct convolution and correlation) and C55–C61 (polynomials).
  `Spec.polyOf l` is the polynomial with coefficient list `l`, lowest degree first.
-/
namespace SciCpp

open Finset Spec Polynomial

variable {R : Type*}

/-! ## C40 — convolve -/

/-- C40: `convolve(a, v)` never reads out of bounds, has length `n + m - 1` and its `k`-th element
is `Σ_{i+j=k} a[i]·v[j]`. -/
theorem C40_convolve_full [CommSemiring R] (a v : List R) (ha : a ≠ []) :
    ∃ r, convolve a v = .ok r ∧ r.length = a.length + v.length - 1 ∧
      ∀ k, (hk : k < r.length) → r[k] = ∑ p ∈ antidiagonal k, a.getD p.1 0 * v.getD p.2 0 := by
  obtain ⟨r, h1, h2, h3⟩ := convolve_spec a v (by simp [ha])
  exact ⟨r, h1, h2, fun k hk => by rw [← h3 k (by omega), getD_of_lt _ _ hk]⟩

/-- C40: it computes the coefficients of the product polynomial. -/
theorem C40_convolve_poly [CommSemiring R] (a v : List R) (ha : a ≠ []) :
    ∃ r, convolve a v = .ok r ∧ r.length = a.length + v.length - 1 ∧
      polyOf r = polyOf a * polyOf v :=
  convolve_poly a v (by simp [ha])

theorem list_eq_of_polyOf [Semiring R] {a b : List R} (hl : a.length = b.length)
    (h : polyOf a = polyOf b) : a = b := by
  apply List.ext_getElem hl
  intro i h1 h2
  have := congrArg (fun p => p.coeff i) h
  simp only [coeff_polyOf] at this
  rwa [getD_of_lt _ _ h1, getD_of_lt _ _ h2] at this

/-- C40: commutative (for every pair of arrays, empty or not). -/
theorem C40_convolve_comm [CommSemiring R] (a v : List R) : convolve a v = convolve v a := by
  by_cases h : a = [] ∧ v = []
  · rw [h.1, h.2]
  · obtain ⟨r, h1, h2, h3⟩ := convolve_poly a v h
    obtain ⟨s, g1, g2, g3⟩ := convolve_poly v a (by tauto)
    have e : r = s := list_eq_of_polyOf (by omega) (by rw [h3, g3, mul_comm])
    rw [h1, g1, e]

/-- C40: associative. -/
theorem C40_convolve_assoc [CommSemiring R] (a b c : List R) (ha : a ≠ []) (hb : b ≠ [])
    (hc : c ≠ []) :
    (convolve a b >>= fun ab => convolve ab c) = (convolve b c >>= fun bc => convolve a bc) := by
  obtain ⟨x, x1, x2, x3, x4⟩ := polymul_ne a b ha hb
  obtain ⟨y, y1, y2, y3, y4⟩ := polymul_ne b c hb hc
  obtain ⟨s, s1, s2, s3, s4⟩ := polymul_ne x c x2 hc
  obtain ⟨t, t1, t2, t3, t4⟩ := polymul_ne a y ha y2
  unfold polymul at *
  rw [x1, y1, Res.bind_ok, Res.bind_ok, s1, t1]
  have hs := List.length_pos_iff.mpr s2
  have ht := List.length_pos_iff.mpr t2
  have e : s = t := list_eq_of_polyOf (by omega) (by rw [s4, t4, x4, y4, mul_assoc])
  rw [e]

/-- C40: linear in the first argument (and by commutativity in the second). -/
theorem C40_convolve_bilinear [CommSemiring R] (s t : R) (a b v : List R) (ha : a ≠ [])
    (hab : a.length = b.length) :
    ∃ ra rb r, convolve a v = .ok ra ∧ convolve b v = .ok rb ∧
      convolve (List.zipWith (fun x y => s * x + t * y) a b) v = .ok r ∧
      r = List.zipWith (fun x y => s * x + t * y) ra rb := by
  have hb : b ≠ [] := by intro h; subst h; exact ha (List.length_eq_zero_iff.mp (by simpa using hab))
  have hz : List.zipWith (fun x y => s * x + t * y) a b ≠ [] := by
    intro h; have := congrArg List.length h
    have h2 := List.length_pos_iff.mpr ha
    rw [List.length_zipWith, List.length_nil] at this
    omega
  have hpoly : ∀ a b : List R, a.length = b.length →
      polyOf (List.zipWith (fun x y => s * x + t * y) a b) = C s * polyOf a + C t * polyOf b := by
    intro a
    induction a with
    | nil => intro b h; have := List.length_eq_zero_iff.mp h.symm; subst this; simp [polyOf]
    | cons x a ih =>
      intro b h
      rcases b with _ | ⟨y, b⟩
      · simp at h
      · simp only [List.zipWith_cons_cons, polyOf, ih b (by simpa using h), C_add, C_mul]; ring
  obtain ⟨ra, a1, a2, a3⟩ := convolve_poly a v (by simp [ha])
  obtain ⟨rb, b1, b2, b3⟩ := convolve_poly b v (by simp [hb])
  obtain ⟨r, r1, r2, r3⟩ := convolve_poly _ v (fun h => hz h.1)
  refine ⟨ra, rb, r, a1, b1, r1, list_eq_of_polyOf ?_ ?_⟩
  · simp at r2 ⊢; omega
  · rw [r3, hpoly _ _ hab, hpoly _ _ (by omega), a3, b3]; ring

/-- C40: the unit impulse `{1}` is the identity; convolving with a shifted impulse delays. -/
theorem C40_convolve_unit [CommSemiring R] (a : List R) :
    convolve a [1] = .ok a ∧ convolve [1] a = .ok a ∧
    ∀ k, convolve a (List.replicate k 0 ++ [1]) = .ok (List.replicate k 0 ++ a) := by
  have hrep : ∀ k, polyOf (List.replicate k (0 : R)) = 0 := by
    intro k; induction k with
    | zero => rfl
    | succ k ih => simp [List.replicate_succ, polyOf, ih]
  have hk : ∀ k, convolve a (List.replicate k 0 ++ [1]) = .ok (List.replicate k 0 ++ a) := by
    intro k
    obtain ⟨r, h1, h2, h3⟩ := convolve_poly a (List.replicate k 0 ++ [1]) (by simp)
    rw [h1]
    congr 1
    apply list_eq_of_polyOf
    · simp at h2 ⊢; omega
    · rw [h3, polyOf_append, polyOf_append, hrep]
      simp [polyOf, mul_comm]
  have h0 : convolve a [1] = .ok a := by simpa using hk 0
  exact ⟨h0, by rw [C40_convolve_comm]; exact h0, hk⟩

/-- C40 (boundary): two empty arrays are rejected; one empty array gives `n - 1` zeros. -/
theorem C40_convolve_empty [CommSemiring R] (a : List R) (ha : a ≠ []) :
    convolve ([] : List R) [] = .ub ∧ convolve a [] = .ok (List.replicate (a.length - 1) 0) := by
  refine ⟨rfl, ?_⟩
  obtain ⟨r, h1, h2, h3⟩ := convolve_spec a [] (by simp [ha])
  rw [h1]
  congr 1
  apply List.ext_getElem
  · simp [h2]
  · intro i hi1 hi2
    have : r.getD i 0 = 0 := by
      rw [h3 i (by omega)]
      apply Finset.sum_eq_zero
      intro p _; simp
    rw [getD_of_lt _ _ hi1] at this
    simp [this]

example : convolve [1, 2, 3] [0, 1, (1/2 : ℚ)] = .ok [0, 1, 5/2, 4, 3/2] := by
  decide +kernel

/-! ## C42 — correlate -/

theorem antidiagonal_sum_eq [Semiring R] (f g : ℕ → R) (n m k : ℕ) (hf : ∀ i, n ≤ i → f i = 0)
    (hg : ∀ i, m ≤ i → g i = 0) :
    ∑ p ∈ antidiagonal k, f p.1 * g p.2
      = ∑ i ∈ range n, ∑ j ∈ range m, if i + j = k then f i * g j else 0 := by
  rw [← Finset.sum_product', ← Finset.sum_filter]
  symm
  apply Finset.sum_subset
  · rintro ⟨i, j⟩ h
    simp only [mem_filter, mem_product, Finset.mem_range] at h
    simpa using h.2
  · rintro ⟨i, j⟩ h hn
    simp only [mem_filter, mem_product, Finset.mem_range, mem_antidiagonal] at h hn
    by_cases h1 : i < n
    · by_cases h2 : j < m
      · exact absurd ⟨⟨h1, h2⟩, h⟩ hn
      · simp [hg j (by omega)]
    · simp [hf i (by omega)]

/-- C42: `correlate(a, v)[k]` sums `a[i]·conj(v[j])` over all pairs with `i - j = k - (m-1)`:
one entry for every lag from `-(m-1)` to `n-1`. -/
theorem C42_correlate [CommSemiring R] (conj : R → R) (a v : List R)
    (hv : v ≠ []) :
    ∃ r, correlate conj a v = .ok r ∧ r.length = a.length + v.length - 1 ∧
      ∀ k, (hk : k < r.length) → r[k] =
        ∑ i ∈ range a.length, ∑ j ∈ range v.length,
          if i + (v.length - 1) = j + k then a.getD i 0 * conj (v.getD j 0) else 0 := by
  have hm : 1 ≤ v.length := List.length_pos_iff.mpr hv
  obtain ⟨r, h1, h2, h3⟩ := convolve_spec a (v.reverse.map conj) (by simp [hv])
  simp only [List.length_map, List.length_reverse] at h2 h3
  refine ⟨r, h1, h2, fun k hk => ?_⟩
  rw [← getD_of_lt _ _ hk, h3 k (by omega),
    antidiagonal_sum_eq (fun i => a.getD i 0) (fun i => (v.reverse.map conj).getD i 0)
      a.length v.length k (fun i hi => getD_of_ge _ _ hi)
      (fun i hi => getD_of_ge _ _ (by simpa using hi))]
  apply Finset.sum_congr rfl
  intro i _
  rw [← Finset.sum_range_reflect]
  apply Finset.sum_congr rfl
  intro j hj
  rw [Finset.mem_range] at hj
  have e : (v.reverse.map conj).getD (v.length - 1 - j) 0 = conj (v.getD j 0) := by
    rw [getD_of_lt _ _ (by simp; omega), getD_of_lt _ _ hj]
    simp only [List.getElem_map, List.getElem_reverse]
    congr 2; omega
  rw [e]
  by_cases hc : i + (v.length - 1) = j + k
  · rw [if_pos (by omega), if_pos hc]
  · rw [if_neg (by omega), if_neg hc]

/-- C42: exchanging the arguments reverses and conjugates. -/
theorem C42_correlate_swap [CommSemiring R] (conj : R →+* R) (hinv : ∀ x, conj (conj x) = x)
    (a v : List R) (ha : a ≠ []) (hv : v ≠ []) :
    ∃ r, correlate conj a v = .ok r ∧ correlate conj v a = .ok (r.reverse.map conj) := by
  obtain ⟨r, h1, h2, h3⟩ := C42_correlate conj a v hv
  obtain ⟨s, g1, g2, g3⟩ := C42_correlate conj v a ha
  have hn : 1 ≤ a.length := List.length_pos_iff.mpr ha
  have hm : 1 ≤ v.length := List.length_pos_iff.mpr hv
  refine ⟨r, h1, ?_⟩
  rw [g1]
  congr 1
  apply List.ext_getElem
  · simp; omega
  · intro k hk1 hk2
    have hk3 : r.length - 1 - k < r.length := by omega
    rw [g3 k hk1, List.getElem_map, List.getElem_reverse, h3 _ hk3, map_sum, Finset.sum_comm]
    apply Finset.sum_congr rfl
    intro i hi
    rw [map_sum]
    apply Finset.sum_congr rfl
    intro j hj
    rw [Finset.mem_range] at hi hj
    by_cases hc : j + (a.length - 1) = i + k
    · rw [if_pos hc, if_pos (by omega), map_mul, hinv, mul_comm]
    · rw [if_neg hc, if_neg (by omega), map_zero]

example : correlate id [1, 2, 3] [0, 1, (1/2 : ℚ)] = .ok [1/2, 2, 7/2, 3, 0] := by decide +kernel
-- the hypotheses on `conj` are met by complex conjugation and by the identity
example : (∀ x, (starRingEnd ℂ) ((starRingEnd ℂ) x) = x) ∧ (∀ x : ℝ, (RingHom.id ℝ) x = x) := by
  simp

/-! ## C55 — polynomial ring operations -/

/-- C55: `polyval` is evaluation of the denoted polynomial. -/
theorem C55_polyval [CommSemiring R] (x : R) (c : List R) :
    polyval x c = ∑ i ∈ range c.length, c.getD i 0 * x ^ i := by
  rw [polyval_eq]
  induction c with
  | nil => simp [polyOf]
  | cons c cs ih =>
    rw [List.length_cons, Finset.sum_range_succ', polyOf, eval_add, eval_mul, eval_C, eval_X, ih,
      Finset.mul_sum, add_comm]
    congr 1
    · apply Finset.sum_congr rfl; intro i _
      rw [List.getD_cons_succ, pow_succ]; ring
    · simp

/-- C55: `polyval` on an array of points is element-wise. -/
theorem C55_polyval_array [CommSemiring R] (xs c : List R) :
    polyvalMap xs c = xs.map (fun x => ∑ i ∈ range c.length, c.getD i 0 * x ^ i) := by
  simp only [polyvalMap, C55_polyval]

/-- C55: `polyadd`. -/
theorem C55_polyadd [CommSemiring R] (a b : List R) (x : R) :
    (polyadd a b).length = max a.length b.length ∧
    (∀ i, (polyadd a b).getD i 0 = a.getD i 0 + b.getD i 0) ∧
    polyval x (polyadd a b) = polyval x a + polyval x b := by
  refine ⟨polyadd_length a b, fun i => ?_, ?_⟩
  · rw [← coeff_polyOf, polyadd_poly, coeff_add, coeff_polyOf, coeff_polyOf]
  · simp only [polyval_eq, polyadd_poly, eval_add]

/-- C55: `polysub`. -/
theorem C55_polysub [CommRing R] (a b : List R) (x : R) :
    (polysub a b).length = max a.length b.length ∧
    (∀ i, (polysub a b).getD i 0 = a.getD i 0 - b.getD i 0) ∧
    polyval x (polysub a b) = polyval x a - polyval x b := by
  refine ⟨polysub_length a b, fun i => ?_, ?_⟩
  · rw [← coeff_polyOf, polysub_poly, coeff_sub, coeff_polyOf, coeff_polyOf]
  · simp only [polyval_eq, polysub_poly, eval_sub]

/-- C55: `polymul`. -/
theorem C55_polymul [CommSemiring R] (a b : List R) (ha : a ≠ []) :
    ∃ r, polymul a b = .ok r ∧ r.length = a.length + b.length - 1 ∧
      ∀ x, polyval x r = polyval x a * polyval x b := by
  obtain ⟨r, h1, h2, h3⟩ := convolve_poly a b (by simp [ha])
  exact ⟨r, h1, h2, fun x => by simp only [polyval_eq, h3, eval_mul]⟩

/-- C55: `polymulx`, for the copying overloads and the rvalue overload. -/
theorem C55_polymulx [CommSemiring R] (a : List R) (x : R) :
    polymulxMove a = polymulx a ∧ (polymulx a).length = a.length + 1 ∧
    polyval x (polymulx a) = x * polyval x a := by
  refine ⟨polymulxMove_eq a, by simp [polymulx], ?_⟩
  simp only [polyval_eq, polymulx_poly, eval_mul, eval_X]

/-- C55: the `Polynomial` class operators `+= -= *=` on non-empty coefficient vectors of
representable size. -/
theorem C55_class_ops [CommRing R] (a b : List R) (ha : a ≠ []) (hb : b ≠ [])
    (hal : a.length < 2 ^ 64) (hbl : b.length < 2 ^ 64) (s : R) :
    ∃ p q, polyAddAssign a b = .ok p ∧ polySubAssign a b = .ok q ∧
      p = polyadd a b ∧ q = polysub a b ∧
      ∀ x, polyval x (polyScale a s) = s * polyval x a := by
  obtain ⟨p, p1, p2, p3⟩ := polyAddAssign_spec a b ha hb hal hbl
  obtain ⟨q, q1, q2, q3⟩ := polySubAssign_spec a b ha hb hal hbl
  refine ⟨p, q, p1, q1, list_eq_of_polyOf ?_ ?_, list_eq_of_polyOf ?_ ?_, fun x => ?_⟩
  · rw [p2, polyadd_length]
  · rw [p3, polyadd_poly]
  · rw [q2, polysub_length]
  · rw [q3, polysub_poly]
  · simp only [polyval_eq, polyScale_poly, eval_mul, eval_C]

/-- C55 (boundary of the class operators): a `Polynomial` built from an empty coefficient list has
`degree()` 2⁶⁴-1, and adding it to or subtracting it from a non-empty one (or the other way round)
is out of bounds. -/
theorem C55_class_empty_ub [CommRing R] (a : List R) (ha : a ≠ []) (hal : a.length < 2 ^ 64) :
    polyAddAssign a [] = .ub ∧ polySubAssign a [] = .ub ∧
    polyAddAssign [] a = .ub ∧ polySubAssign [] a = .ub := by
  have h1 : 1 ≤ a.length := List.length_pos_iff.mpr ha
  have hd := polyDegree_eq a ha hal
  have hn : ¬ a.length ≤ 0 := by omega
  have g1 : 2 ^ 64 - 1 > a.length - 1 := by omega
  have g2 : ¬ (a.length - 1 > 2 ^ 64 - 1) := by omega
  refine ⟨?_, ?_, ?_, ?_⟩ <;>
    simp only [polyAddAssign, polySubAssign, hd, polyDegree_nil, if_pos g1, if_neg g2,
      List.length_nil, decide_eq_false hn, require_false, Res.bind_ub]

example : polyadd [1, 2, 3] [4, (5 : ℚ)] = [5, 7, 3] ∧ polysub [1] [4, (5 : ℚ), 6] = [-3, -5, -6] ∧
    polymul [1, 2, 3] [4, (5 : ℚ)] = .ok [4, 13, 22, 15] ∧ polyval 2 [1, 2, (3 : ℚ)] = 17 := by
  decide +kernel

/-! ## C56 — polypow -/

/-- C56: both implementations compute the `k`-fold product, with `k·(N-1)+1` coefficients. -/
theorem C56_polypow [CommSemiring R] (P : List R) (k : ℕ) (hP : P ≠ []) :
    ∃ r, polypowVec P k = .ok r ∧ polypowArr k P = .ok r ∧
      r.length = k * (P.length - 1) + 1 ∧ polyOf r = polyOf P ^ k ∧
      ∀ x, polyval x r = polyval x P ^ k := by
  obtain ⟨r, r1, r2, r3, r4⟩ := polypowVec_spec P k hP
  obtain ⟨s, s1, s2, s3, s4⟩ := polypowArr_spec k P hP
  have hr := List.length_pos_iff.mpr r2
  have hs := List.length_pos_iff.mpr s2
  have e : s = r := list_eq_of_polyOf (by omega) (by rw [s4, r4])
  exact ⟨r, r1, by rw [s1, e], by omega, r4, fun x => by simp only [polyval_eq, r4, eval_pow]⟩

/-- C56: it is the iterated `polymul`. -/
theorem C56_polypow_succ [CommSemiring R] (P : List R) (k : ℕ) (hP : P ≠ []) :
    polypowVec P (k + 1) = (polypowVec P k >>= fun q => polymul P q) := by
  obtain ⟨r, r1, r2, r3, r4⟩ := polypowVec_spec P (k + 1) hP
  obtain ⟨s, s1, s2, s3, s4⟩ := polypowVec_spec P k hP
  obtain ⟨t, t1, t2, t3, t4⟩ := polymul_ne P s hP s2
  have hr := List.length_pos_iff.mpr r2
  have ht := List.length_pos_iff.mpr t2
  rw [r1, s1, Res.bind_ok, t1]
  rw [list_eq_of_polyOf (a := r) (b := t)]
  · rw [Nat.add_mul] at r3; omega
  · rw [r4, t4, s4, pow_succ']

example : ([1, 1] : List ℤ) ≠ [] := by simp

/-! ## C57 — polydiv -/

/-- C57 (partial): for a divisor with non-zero leading coefficient `c`, `polydiv(u, v)` returns
`(q, r)` with `deg r < deg v` and `u = (q/c)·v + r` (for constant divisors `u = q·v`): the
remainder is right, the quotient is `c` times the true quotient.  Missing for C57: the division
of the quotient by `c` (see `C57_polydiv_identity_false`). -/
theorem C57_polydiv_partial [Field R] (u v : List R) (hu : u ≠ []) (hv : v ≠ [])
    (hlead : v.getD (v.length - 1) 0 ≠ 0) :
    ∃ q r, polydiv u v = .ok (q, r) ∧
      (2 ≤ v.length → r.length < v.length ∧
        polyOf u = C (v.getD (v.length - 1) 0)⁻¹ * polyOf q * polyOf v + polyOf r) ∧
      (v.length = 1 → r = [0] ∧ polyOf u = polyOf q * polyOf v) := by
  have hu1 : 1 ≤ u.length := List.length_pos_iff.mpr hu
  have hv1 : 1 ≤ v.length := List.length_pos_iff.mpr hv
  have e1 : (!u.isEmpty) = true := by cases u <;> simp_all
  have e2 : (!v.isEmpty) = true := by cases v <;> simp_all
  unfold polydiv
  simp only [e1, e2, require_true, Res.bind_ok]
  split_ifs with h1 h2
  · -- constant divisor
    obtain ⟨c, rfl⟩ : ∃ c, v = [c] := List.length_eq_one_iff.mp h1
    have hc : c ≠ 0 := by simpa using hlead
    have hr : rd [c] 0 = .ok c := rfl
    rw [hr]
    simp only [Res.bind_ok, Res.pure_eq]
    refine ⟨_, _, rfl, fun h => by simp at h, fun _ => ⟨rfl, ?_⟩⟩
    clear e1 hu hu1
    induction u with
    | nil => simp [polyOf]
    | cons x u ih =>
      simp only [List.map_cons, polyOf, mul_zero, add_zero] at ih ⊢
      rw [ih, add_mul, ← C_mul, div_mul_cancel₀ _ hc]; ring
  · refine ⟨[0], u, rfl, fun _ => ⟨h2, by simp [polyOf]⟩, fun h => absurd h h1⟩
  · obtain ⟨n, hn⟩ : ∃ n, v.length = n + 1 := ⟨v.length - 1, by omega⟩
    obtain ⟨m, hm⟩ : ∃ m, u.length = m + 1 := ⟨u.length - 1, by omega⟩
    have en : v.length - 1 = n := by omega
    rw [en] at hlead ⊢
    obtain ⟨t, t1, t2, t3⟩ := polydivImpl_spec u v n m hn hm (by omega) hlead
    rw [t1]
    simp only [Res.bind_ok, Res.pure_eq]
    refine ⟨_, _, rfl, fun _ => ⟨by simp; omega, ?_⟩, fun h => absurd h (by omega)⟩
    rw [t3]; ring

/-- C57 (partial): for a monic divisor the Euclidean identity holds. -/
theorem C57_polydiv_monic_partial [Field R] (u v : List R) (hu : u ≠ []) (hv : 2 ≤ v.length)
    (hlead : v.getD (v.length - 1) 0 = 1) :
    ∃ q r, polydiv u v = .ok (q, r) ∧ r.length < v.length ∧
      (polyOf r).degree < (polyOf v).degree ∧
      polyOf u = polyOf q * polyOf v + polyOf r := by
  have hv' : v ≠ [] := by intro h; simp [h] at hv
  obtain ⟨q, r, h1, h2, _⟩ := C57_polydiv_partial u v hu hv' (by rw [hlead]; exact one_ne_zero)
  obtain ⟨h3, h4⟩ := h2 hv
  refine ⟨q, r, h1, h3, ?_, ?_⟩
  · have hd : ((v.length - 1 : ℕ) : WithBot ℕ) ≤ (polyOf v).degree := by
      apply le_degree_of_ne_zero; rw [coeff_polyOf, hlead]; exact one_ne_zero
    refine lt_of_lt_of_le (polyOf_degree_lt r) (le_trans ?_ hd)
    exact_mod_cast (by omega : r.length ≤ v.length - 1)
  · rw [hlead, inv_one, C_1, one_mul] at h4; exact h4

/-- C57 (negation): `u = q·v + r` is false: `(2x+2x²) / (2x)` — written `{0,2,2} / {0,2}` — yields the
quotient `{2,2}` (true quotient `1+x`) and remainder `0`. -/
theorem C57_polydiv_identity_false :
    ¬ ∀ u v : List ℚ, u ≠ [] → 2 ≤ v.length → v.getD (v.length - 1) 0 ≠ 0 →
      ∃ q r, polydiv u v = .ok (q, r) ∧ polyOf u = polyOf q * polyOf v + polyOf r := by
  intro h
  obtain ⟨q, r, h1, h2⟩ := h [0, 2, 2] [0, 2] (by simp) (by simp) (by norm_num)
  have h3 : polydiv [0, 2, (2 : ℚ)] [0, 2] = .ok ([2, 2], [0]) := by decide +kernel
  rw [h3] at h1
  injection h1 with h1
  injection h1 with hq hr
  subst hq hr
  have h4 := congrArg (eval 1) h2
  norm_num [polyOf] at h4

example : polydiv [1, 2, 3, (4 : ℚ)] [5, 6, 1] = .ok ([-21, 4], [106, 108]) := by decide +kernel

/-! ## C58 — polyder, polyint -/

theorem polyderOnce_spec [CommRing R] (P : List R) (hP : P ≠ []) :
    ∃ r, polyderOnce P = .ok r ∧ r.length = P.length - 1 ∧
      polyOf r.reverse = derivative (polyOf P.reverse) := by
  unfold polyderOnce
  have e1 : (!P.isEmpty) = true := by cases P <;> simp_all
  have hl : 1 ≤ P.length := List.length_pos_iff.mpr hP
  simp only [e1, require_true, Res.bind_ok, Res.pure_eq]
  refine ⟨_, rfl, by simp, ?_⟩
  ext j
  rw [coeff_derivative, coeff_polyOf, coeff_polyOf]
  by_cases hj : j + 1 < P.length
  · rw [getD_of_lt _ _ (by simp; omega), getD_of_lt _ _ (by simpa using hj)]
    simp only [List.getElem_reverse, List.getElem_mapIdx, List.length_mapIdx, List.length_dropLast,
      List.getElem_dropLast]
    rw [mul_comm]
    have h1 : P.length - 1 - (P.length - 1 - 1 - j) = j + 1 := by omega
    have h2 : P.length - 1 - 1 - j = P.length - 1 - (j + 1) := by omega
    rw [h1]; simp only [h2]; push_cast; ring
  · rw [getD_of_ge _ _ (by simp; omega), getD_of_ge _ _ (by simp; omega), zero_mul]

theorem polyderLoop_spec [CommRing R] (m : ℕ) (P : List R) (h : m ≤ P.length) :
    ∃ r, polyderLoop m P = .ok r ∧ r.length = P.length - m ∧
      polyOf r.reverse = derivative^[m] (polyOf P.reverse) := by
  induction m generalizing P with
  | zero => exact ⟨P, rfl, by simp, rfl⟩
  | succ m ih =>
    have hP : P ≠ [] := by intro hP; simp [hP] at h
    obtain ⟨s, s1, s2, s3⟩ := polyderOnce_spec P hP
    obtain ⟨r, r1, r2, r3⟩ := ih s (by omega)
    refine ⟨r, by simp [polyderLoop, s1, r1], by omega, ?_⟩
    rw [r3, s3, Function.iterate_succ_apply]

theorem iterate_derivative_polyOf_zero [CommRing R] (P : List R) (m : ℕ) (h : P.length ≤ m) :
    derivative^[m] (polyOf P) = 0 := by
  by_cases h0 : polyOf P = 0
  · rw [h0]; exact iterate_derivative_zero
  · apply iterate_derivative_eq_zero
    have := (natDegree_lt_iff_degree_lt h0).2 (polyOf_degree_lt P)
    omega

/-- C58 (partial): `polyder(P, m)` is the coefficient list of the `m`-th derivative **when both lists
are read highest degree first** (the opposite of every other routine).  Missing for C58: the
`polyval` convention — see `C58_polyder_convention_false`. -/
theorem C58_polyder_partial [CommRing R] (P : List R) (m : ℕ) :
    ∃ r, polyder P m = .ok r ∧ (r.length = P.length - m) ∧
      polyOf r.reverse = derivative^[m] (polyOf P.reverse) := by
  unfold polyder
  have hr : decide (0 ≤ (m : Int)) = true := by simp
  simp only [hr, require_true, Res.bind_ok]
  split_ifs with h0 h1
  · have : m = 0 := by omega
    subst this; exact ⟨P, rfl, by simp, rfl⟩
  · have hm : P.length ≤ m := by omega
    refine ⟨[], rfl, by simp; omega, ?_⟩
    rw [iterate_derivative_polyOf_zero _ m (by simpa using hm)]; rfl
  · obtain ⟨r, r1, r2, r3⟩ := polyderLoop_spec m P (by omega)
    exact ⟨r, by simpa using r1, r2, r3⟩

/-- C58 (negation): with the storage convention of `polyval`, `polyder` is not the derivative, and
it does not invert `polyint`. -/
theorem C58_polyder_convention_false :
    (¬ ∀ P : List ℚ, P ≠ [] → ∃ r, polyder P = .ok r ∧ polyOf r = derivative (polyOf P)) ∧
    (¬ ∀ P : List ℚ, P ≠ [] → (polyint P >>= fun q => polyder q) = .ok P) := by
  constructor
  · intro h
    obtain ⟨r, h1, h2⟩ := h [5, 1] (by simp)
    have h3 : polyder [5, (1 : ℚ)] = .ok [5] := by decide +kernel
    rw [h3] at h1
    injection h1 with h1
    subst h1
    have h4 := congrArg (eval 0) h2
    simp [polyOf] at h4
  · intro h
    have := h [1, 1] (by simp)
    have h3 : (polyint [1, (1 : ℚ)] >>= fun q => polyder q) = .ok [0, 1] := by decide +kernel
    rw [h3] at this
    exact absurd this (by decide +kernel)

theorem polyintOnce_deriv [Field R] [CharZero R] (P : List R) :
    derivative (polyOf (polyintOnce P)) = polyOf P := by
  ext j
  rw [coeff_derivative, coeff_polyOf, coeff_polyOf]
  simp only [polyintOnce, List.getD_cons_succ]
  by_cases hj : j < P.length
  · rw [getD_of_lt _ _ (by simpa using hj), getD_of_lt _ _ hj, List.getElem_mapIdx]
    have : ((j : R) + 1) ≠ 0 := by exact_mod_cast Nat.succ_ne_zero j
    push_cast; field_simp
  · rw [getD_of_ge _ _ (by simpa using hj), getD_of_ge _ _ (by omega), zero_mul]

theorem polyintLoop_spec [Field R] [CharZero R] (m : ℕ) (P : List R) :
    (polyintLoop m P).length = P.length + m ∧
      derivative^[m] (polyOf (polyintLoop m P)) = polyOf P := by
  induction m generalizing P with
  | zero => simp [polyintLoop]
  | succ m ih =>
    obtain ⟨h1, h2⟩ := ih (polyintOnce P)
    refine ⟨?_, ?_⟩
    · rw [polyintLoop, h1]; simp [polyintOnce]; omega
    · rw [polyintLoop, Function.iterate_succ_apply', h2, polyintOnce_deriv]

theorem polyintLoop_low [Field R] (m : ℕ) (P : List R) (i : ℕ) (hi : i < m) :
    (polyintLoop m P).getD i 0 = 0 := by
  -- the first `m` coefficients: each pass shifts by one and inserts 0
  have key : ∀ (m : ℕ) (P : List R) (z : ℕ), (∀ i, i < z → P.getD i 0 = 0) →
      ∀ i, i < z + m → (polyintLoop m P).getD i 0 = 0 := by
    intro m
    induction m with
    | zero => intro P z hz i hi; exact hz i (by omega)
    | succ m ih =>
      intro P z hz i hi
      refine ih (polyintOnce P) (z + 1) ?_ i (by omega)
      intro k hk
      cases k with
      | zero => simp [polyintOnce]
      | succ k =>
        simp only [polyintOnce, List.getD_cons_succ]
        by_cases hkl : k < P.length
        · rw [getD_of_lt _ _ (by simpa using hkl), List.getElem_mapIdx]
          have := hz k (by omega)
          rw [getD_of_lt _ _ hkl] at this
          rw [this, zero_div]
        · rw [getD_of_ge _ _ (by simpa using hkl)]
  exact key m P 0 (by simp) i (by omega)

/-- C58: `polyint(P, m)` is the `m`-fold antiderivative: its `m`-th derivative is `P`, its `m` lowest
coefficients are zero, and it has `m` more coefficients. -/
theorem C58_polyint [Field R] [CharZero R] (P : List R) (m : ℕ) (hP : P ≠ []) :
    ∃ r, polyint P m = .ok r ∧ r.length = P.length + m ∧
      derivative^[m] (polyOf r) = polyOf P ∧ ∀ i, i < m → r.getD i 0 = 0 := by
  unfold polyint
  have e1 : (!P.isEmpty) = true := by cases P <;> simp_all
  have hr : decide (0 ≤ (m : Int)) = true := by simp
  simp only [e1, hr, require_true, Res.bind_ok, Res.pure_eq, Int.toNat_natCast]
  exact ⟨_, rfl, (polyintLoop_spec m P).1, (polyintLoop_spec m P).2, polyintLoop_low m P⟩

/-- C58: negative orders are rejected by both. -/
theorem C58_negative_order_ub [Field R] (P : List R) (m : Int) (hm : m < 0) :
    polyder P m = .ub ∧ polyint P m = .ub := by
  have hr : decide (0 ≤ m) = false := by simpa using hm
  constructor
  · simp [polyder, hr]
  · unfold polyint; cases P <;> simp [hr]

/-- C58: the polynomial without coefficients is rejected by `polyint`, whatever the order. -/
theorem C58_polyint_empty_ub [Field R] (m : Int) : polyint ([] : List R) m = .ub := rfl

example : polyint [1, 2, (3 : ℚ)] 2 = .ok [0, 0, 1/2, 1/3, 1/4] := by decide +kernel
example : polyder [1, 2, 3, (4 : ℚ)] 2 = .ok [6, 4] := by decide +kernel

/-! ## C59 — polytrim -/

theorem dropWhile_spec {α : Type*} (p : α → Bool) (l : List α) :
    ∃ t, l = t ++ l.dropWhile p ∧ (∀ x ∈ t, p x = true) ∧
      ∀ x, (l.dropWhile p).head? = some x → p x = false := by
  refine ⟨l.takeWhile p, (List.takeWhile_append_dropWhile).symm, fun x hx => ?_, fun x hx => ?_⟩
  · exact List.mem_takeWhile_imp hx
  · have := List.head?_dropWhile_not p l
    rw [hx] at this
    simpa using this

/-- C59 (partial): what the code does for every input: it removes a suffix of coefficients that are
all `≤ tol` (not `|c| ≤ tol`), the last kept coefficient is `> tol`, and the result is never
empty.  Missing for C59: the absolute value — see `C59_polytrim_false`. -/
theorem C59_polytrim_partial [Zero R] [LinearOrder R] (P : List R) (tol : R) :
    ∃ kept removed, P = kept ++ removed ∧ (∀ c ∈ removed, c ≤ tol) ∧
      (∀ c, kept.getLast? = some c → tol < c) ∧
      polytrim P tol = (if kept = [] then [0] else kept) := by
  obtain ⟨t, h1, h2, h3⟩ := dropWhile_spec (fun c : R => !decide (tol < c)) P.reverse
  refine ⟨(P.reverse.dropWhile (fun c => !decide (tol < c))).reverse, t.reverse, ?_, ?_, ?_, ?_⟩
  · have := congrArg List.reverse h1
    rw [List.reverse_reverse, List.reverse_append] at this
    exact this
  · intro c hc
    have := h2 c (List.mem_reverse.mp hc)
    simpa using this
  · intro c hc
    rw [List.getLast?_reverse] at hc
    simpa using h3 c hc
  · simp [polytrim, List.isEmpty_iff]

/-- C59 (partial): for non-negative coefficients and `tol = 0` the polynomial is unchanged and the
result has no trailing zero (unless it is `{0}`). -/
theorem C59_polytrim_nonneg_partial [CommRing R] [LinearOrder R] [IsStrictOrderedRing R]
    (P : List R) (hP : ∀ c ∈ P, 0 ≤ c) :
    polyOf (polytrim P 0) = polyOf P ∧
    (polytrim P 0 = [0] ∨ ∃ c, (polytrim P 0).getLast? = some c ∧ c ≠ 0) := by
  obtain ⟨k, r, h1, h2, h3, h4⟩ := C59_polytrim_partial P (0 : R)
  have hz : ∀ c ∈ r, c = 0 := fun c hc =>
    le_antisymm (h2 c hc) (hP c (by rw [h1]; exact List.mem_append_right _ hc))
  have hr : polyOf r = 0 := by
    clear h1 h2
    induction r with
    | nil => rfl
    | cons x r ih =>
      rw [polyOf, ih (fun c hc => hz c (List.mem_cons_of_mem _ hc)), hz x (by simp)]; simp
  rw [h4]
  constructor
  · conv_rhs => rw [h1, polyOf_append, hr, mul_zero, add_zero]
    split_ifs with h
    · rw [h]; simp [polyOf]
    · rfl
  · split_ifs with h
    · exact Or.inl rfl
    · right
      refine ⟨k.getLast h, List.getLast?_eq_some_getLast h, ?_⟩
      exact ne_of_gt (h3 _ (List.getLast?_eq_some_getLast h))

/-- C59: idempotent, for every non-negative tolerance (and every polynomial). -/
theorem C59_polytrim_idem [Zero R] [LinearOrder R] (P : List R) (tol : R) (ht : 0 ≤ tol) :
    polytrim (polytrim P tol) tol = polytrim P tol := by
  obtain ⟨k, r, h1, h2, h3, h4⟩ := C59_polytrim_partial P tol
  rw [h4]
  split_ifs with h
  · simp [polytrim, not_lt.mpr ht]
  · have hl := h3 _ (List.getLast?_eq_some_getLast h)
    have hk : k = k.dropLast ++ [k.getLast h] := (List.dropLast_append_getLast h).symm
    rw [hk]
    simp [polytrim, hl]

/-- C59 (negation): `polytrim` can change the polynomial: `1 - x` becomes `1`. -/
theorem C59_polytrim_false :
    polytrim [1, (-1 : ℚ)] 0 = [1] ∧
    ¬ ∀ P : List ℚ, polyOf (polytrim P 0) = polyOf P := by
  have e : polytrim [1, (-1 : ℚ)] 0 = [1] := by decide +kernel
  refine ⟨e, fun h => ?_⟩
  have h1 := h [1, -1]
  rw [e] at h1
  have := congrArg (eval 1) h1
  simp [polyOf] at this

example : polytrim [1, 0, 2, 0, (0 : ℚ)] 0 = [1, 0, 2] := by decide +kernel

/-! ## C60 — polyfromroots -/

/-- C60: `polyfromroots(r)` has `len(r)+1` coefficients and is `∏ (x - rᵢ)`. -/
theorem C60_polyfromroots [CommRing R] (roots : List R) (h : roots.length + 1 < 2 ^ 64) :
    ∃ P, polyfromroots roots = .ok P ∧ P.length = roots.length + 1 ∧
      polyOf P = (roots.map (fun r => X - C r)).prod ∧
      ∀ x, polyval x P = (roots.map (fun r => x - r)).prod := by
  obtain ⟨P, h1, h2, h3⟩ := polyfromroots_loop roots [1] (by simp) (by simpa [add_comm] using h)
  have h3' : polyOf P = (roots.map (fun r => X - C r)).prod := by
    rw [h3]; simp [polyOf]
  refine ⟨P, h1, by simpa [add_comm] using h2, h3', fun x => ?_⟩
  rw [polyval_eq, h3', eval_list_prod, List.map_map]
  congr 1
  apply List.map_congr_left
  intro r _; simp

/-- C60: monic, and (over an integral domain) zero exactly at the given roots. -/
theorem C60_polyfromroots_roots [CommRing R] [IsDomain R] (roots : List R)
    (h : roots.length + 1 < 2 ^ 64) :
    ∃ P, polyfromroots roots = .ok P ∧ P.getD roots.length 0 = 1 ∧
      ∀ x, polyval x P = 0 ↔ x ∈ roots := by
  obtain ⟨P, h1, h2, h3, h4⟩ := C60_polyfromroots roots h
  refine ⟨P, h1, ?_, fun x => ?_⟩
  · have hm : ((roots.map (fun r => X - C r)).prod).Monic := by
      clear h1 h2 h3 h4 h
      induction roots with
      | nil => simp
      | cons r rs ih => simp only [List.map_cons, List.prod_cons]; exact (monic_X_sub_C r).mul ih
    have hd : ((roots.map (fun r => X - C r)).prod).natDegree = roots.length := by
      clear h1 h2 h3 h4 h hm
      induction roots with
      | nil => simp
      | cons r rs ih =>
        have hm : ((rs.map (fun r => X - C r)).prod).Monic := by
          clear ih
          induction rs with
          | nil => simp
          | cons r rs ih => simp only [List.map_cons, List.prod_cons]; exact (monic_X_sub_C r).mul ih
        simp only [List.map_cons, List.prod_cons, List.length_cons]
        rw [(monic_X_sub_C r).natDegree_mul hm, ih, natDegree_X_sub_C]; omega
    rw [← coeff_polyOf, h3]
    have := hm.coeff_natDegree
    rwa [hd] at this
  · rw [h4, List.prod_eq_zero_iff]
    simp only [List.mem_map, sub_eq_zero]
    constructor
    · rintro ⟨r, hr, rfl⟩; exact hr
    · intro hx; exact ⟨x, hx, rfl⟩

example : polyfromroots [1, 2, (-3 : ℚ)] = .ok [6, -7, 0, 1] := by decide +kernel

/-! ## C61 — polyvander, polycompanion -/

theorem vanderRowLoop_spec [Semiring R] (x : R) (n : ℕ) (k : ℕ) :
    vanderRowLoop x n (x ^ k) = (List.range n).map (fun j => x ^ (k + 1 + j)) := by
  induction n generalizing k with
  | zero => rfl
  | succ n ih =>
    rw [vanderRowLoop, ← pow_succ, ih (k + 1), List.range_succ_eq_map]
    simp only [List.map_cons, List.map_map, add_zero]
    congr 1
    apply List.map_congr_left
    intro j _
    simp only [Function.comp]
    congr 1; omega

/-- C61: for `deg ≥ 1`, row `i` of `polyvander(x, deg)` is `(1, xᵢ, xᵢ², …, xᵢ^deg)`. -/
theorem C61_polyvander_partial [Semiring R] (x : List R) (deg : ℕ) (hd : 1 ≤ deg) :
    polyvander x deg = .ok (x.map fun xi => (List.range (deg + 1)).map (fun j => xi ^ j)) := by
  unfold polyvander
  have hr : decide (1 ≤ (deg : Int)) = true := by simp; omega
  simp only [hr, require_true, Res.bind_ok, Res.pure_eq, Int.toNat_natCast]
  congr 1
  apply List.map_congr_left
  intro xi _
  obtain ⟨d, rfl⟩ : ∃ d, deg = d + 1 := ⟨deg - 1, by omega⟩
  have := vanderRowLoop_spec xi d 1
  rw [pow_one] at this
  rw [Nat.add_sub_cancel, this, List.range_succ_eq_map, List.range_succ_eq_map]
  simp only [List.map_cons, List.map_map, pow_zero, Function.comp_def, Nat.succ_eq_add_one,
    zero_add, pow_one]
  congr 2
  apply List.map_congr_left
  intro j _
  congr 1; omega

/-- C61 (negation): degree 0 (a legitimate request, used by a constant `polyfit`) writes column 1 of
a one-column matrix. -/
theorem C61_polyvander_deg0_ub [Semiring R] (x : List R) : polyvander x 0 = .ub := by
  simp [polyvander]

/-- C61: a Vandermonde row times a coefficient vector is `polyval`. -/
theorem C61_polyvander_polyval [CommSemiring R] (x : List R) (c : List R) (hc : 2 ≤ c.length) :
    ∃ rows, polyvander x ((c.length - 1 : ℕ) : Int) = .ok rows ∧
      rows.map (fun row => (List.zipWith (· * ·) c row).sum) = polyvalMap x c := by
  refine ⟨_, C61_polyvander_partial x (c.length - 1) (by omega), ?_⟩
  rw [polyvalMap, List.map_map]
  apply List.map_congr_left
  intro xi _
  simp only [Function.comp]
  rw [C55_polyval]
  have e : c.length - 1 + 1 = c.length := by omega
  rw [e]
  have : List.zipWith (· * ·) c ((List.range c.length).map (fun j => xi ^ j))
      = (List.range c.length).map (fun i => c.getD i 0 * xi ^ i) := by
    apply List.ext_getElem
    · simp
    · intro i h1 h2
      simp at h1 h2
      simp [h1]
  rw [this, Finset.sum_range]
  rw [← List.sum_ofFn]
  congr 1
  apply List.ext_getElem
  · simp
  · intro i h1 h2
    simp at h1
    simp [h1]

/-- C61: the characteristic polynomial of `polycompanion(P)` is `P` divided by its leading
coefficient, so its eigenvalues are the roots of `P` with multiplicity. -/
theorem C61_companion_charpoly {K : Type*} [Field K] (P : List K) (d : ℕ) (hd : P.length = d + 1)
    (h1 : 1 ≤ d) (hlead : P.getD d 0 ≠ 0) :
    ∃ rows, polycompanion P = .ok rows ∧ rows.length = d ∧ (∀ r ∈ rows, r.length = d) ∧
      (Matrix.of fun i j : Fin d => (rows.getD i []).getD j 0).charpoly
        = C (P.getD d 0)⁻¹ * polyOf P := by
  obtain ⟨rows, r1, r2, r3, r4⟩ := companion_rows P d hd h1
  exact ⟨rows, r1, r2, r3, companion_charpoly P d hd h1 hlead _ r4⟩

/-- C61: λ is an eigenvalue (root of the characteristic polynomial) iff `polyval(λ, P) = 0`. -/
theorem C61_companion_eigenvalue {K : Type*} [Field K] (P : List K) (d : ℕ)
    (hd : P.length = d + 1) (h1 : 1 ≤ d) (hlead : P.getD d 0 ≠ 0) (lam : K) :
    ∃ rows, polycompanion P = .ok rows ∧
      ((Matrix.of fun i j : Fin d => (rows.getD i []).getD j 0).charpoly.IsRoot lam
        ↔ polyval lam P = 0) := by
  obtain ⟨rows, r1, r2, r3, r4⟩ := C61_companion_charpoly P d hd h1 hlead
  refine ⟨rows, r1, ?_⟩
  rw [r4, IsRoot, eval_mul, eval_C, polyval_eq]
  simp only [mul_eq_zero, inv_eq_zero]
  constructor
  · rintro (h | h)
    · exact absurd h hlead
    · exact h
  · exact Or.inr

/-- C61 (boundary): constant polynomials have no companion matrix in this code. -/
theorem C61_companion_const_ub {K : Type*} [Field K] (P : List K) (h : P.length ≤ 1) :
    polycompanion P = .ub := by
  unfold polycompanion
  have hr : decide (1 ≤ (P.length : Int) - 1) = false := by simp; omega
  simp [hr]

example : polycompanion [6, -7, 0, (1 : ℚ)] = .ok [[0, 0, -6], [1, 0, 7], [0, 1, 0]] := by
  decide +kernel
example : polyvander [2, (3 : ℚ)] 3 = .ok [[1, 2, 4, 8], [1, 3, 9, 27]] := by decide +kernel

end SciCpp
