import Verif.Props.Range
import Verif.Props.Numeric
import Mathlib.MeasureTheory.Integral.IntervalIntegral.TrapezoidalRule
import Mathlib.Analysis.Calculus.MeanValue
import Mathlib.Analysis.SpecialFunctions.Integrals.Basic
import Mathlib.Analysis.Real.Pi.Bounds
/-
  Property theorems C146: numerical integration and differentiation of sampled functions, in exact arithmetic.

  A function is sampled with `linspace(a, b, N + 1)` and `map`, integrated with `trapz(samples, (b - a) / N)` and differentiated with `diff`.
-/
namespace SciCpp
open Finset Filter Topology

/-- The samples of `f` at `N + 1` equally spaced points of `[a, b]`. -/
theorem map_linspace {K : Type*} [Field K] [CharZero K] (f : K → K) (a b : K) (N : ℕ) (hN : 0 < N) :
    (linspace a b (N + 1)).map f = (List.range (N + 1)).map fun i : ℕ => f (a + (i : K) * ((b - a) / (N : K))) := by
  obtain ⟨h1, h2, -, -⟩ := C27_linspace a b (N + 1)
  apply List.ext_getElem?
  intro i
  rw [List.getElem?_map, List.getElem?_map]
  rcases Nat.lt_or_ge i (N + 1) with hi | hi
  · rw [h2 (by omega) i hi, List.getElem?_range hi]
    simp only [Option.map_some]
    push_cast
    rw [add_sub_cancel_right, mul_div_assoc]
  · rw [List.getElem?_eq_none (by omega), List.getElem?_eq_none (by simpa using hi)]; rfl

theorem trapezoidRule_eq {K : Type*} [Field K] (dx : K) (l : List K) :
    trapezoidRule dx l = ∑ i ∈ range (l.length - 1), dx * (l.getD i 0 + l.getD (i + 1) 0) / 2 := by
  match l with
  | [] => simp [trapezoidRule]
  | [x] => simp [trapezoidRule]
  | x :: y :: r =>
    rw [trapezoidRule, trapezoidRule_eq dx (y :: r)]
    simp only [List.length_cons, Nat.add_sub_cancel]
    rw [Finset.sum_range_succ' _ r.length]
    simp only [List.getD_cons_succ, List.getD_cons_zero]
    rw [add_comm]

theorem trapezoidRule_range {K : Type*} [Field K] (dx : K) (N : ℕ) (g : ℕ → K) :
    trapezoidRule dx ((List.range (N + 1)).map g) = ∑ i ∈ range N, dx * (g i + g (i + 1)) / 2 := by
  rw [trapezoidRule_eq]
  simp only [List.length_map, List.length_range, Nat.add_sub_cancel]
  apply Finset.sum_congr rfl
  intro i hi
  rw [Finset.mem_range] at hi
  have h : ∀ j, j < N + 1 → ((List.range (N + 1)).map g).getD j 0 = g j := by
    intro j hj
    rw [List.getD_eq_getElem?_getD, List.getElem?_map, List.getElem?_range hj]; rfl
  rw [h i (by omega), h (i + 1) (by omega)]

theorem sampled_trapezoid (f : ℝ → ℝ) (a b : ℝ) (N : ℕ) (hN : 0 < N) :
    trapz false ((linspace a b (N + 1)).map f) ((b - a) / (N : ℝ)) = .ok (trapezoidal_integral f N a b) := by
  have hN0 : (N : ℝ) ≠ 0 := by exact_mod_cast hN.ne'
  rw [C11_trapz_partial _ _ _ (by rw [List.length_map, (C27_linspace a b (N + 1)).1]; omega), map_linspace f a b N hN, trapezoidRule_range]
  congr 1
  have h := sum_trapezoidal_integral_adjacent_intervals (f := f) (a := a) (h := (b - a) / (N : ℝ)) hN
  rw [show a + (N : ℝ) * ((b - a) / (N : ℝ)) = b by field_simp; ring] at h
  rw [← h]
  apply Finset.sum_congr rfl
  intro i _
  rw [trapezoidal_integral_one]
  push_cast
  ring

/-- **C146 (integration error).**  The trapezoidal rule on `N + 1` equally spaced samples of a twice differentiable function, with `|f''| ≤ M`
on the interval, differs from the integral by at most `|b - a|³ M / (12 N²)`. -/
theorem C146_trapz_error (f f' f'' : ℝ → ℝ) (a b M : ℝ) (h1 : ∀ x, HasDerivAt f (f' x) x) (h2 : ∀ x, HasDerivAt f' (f'' x) x)
    (hM : ∀ x ∈ Set.uIcc a b, |f'' x| ≤ M) (N : ℕ) (hN : 0 < N) :
    ∃ T, trapz false ((linspace a b (N + 1)).map f) ((b - a) / (N : ℝ)) = .ok T ∧ |T - ∫ x in a..b, f x| ≤ |b - a| ^ 3 * M / (12 * (N : ℝ) ^ 2) := by
  refine ⟨_, sampled_trapezoid f a b N hN, ?_⟩
  have hM0 : 0 ≤ M := (abs_nonneg _).trans (hM a Set.left_mem_uIcc)
  rcases eq_or_ne a b with rfl | hab
  · rw [trapezoidal_integral_eq]; simp
  have hU : UniqueDiffOn ℝ (Set.uIcc a b) := uniqueDiffOn_uIcc hab
  have hd : ∀ x ∈ Set.uIcc a b, derivWithin f (Set.uIcc a b) x = f' x := fun x hx => (h1 x).hasDerivWithinAt.derivWithin (hU x hx)
  refine trapezoidal_error_le (f := f) (fun x _ => (h1 x).differentiableAt.differentiableWithinAt) ?_ (fun x => ?_) hN
  · exact DifferentiableOn.congr (fun x _ => (h2 x).differentiableAt.differentiableWithinAt) hd
  · rw [show (2 : ℕ) = 1 + 1 from rfl, iteratedDerivWithin_succ, iteratedDerivWithin_one]
    by_cases hx : x ∈ Set.uIcc a b
    · rw [show derivWithin (derivWithin f (Set.uIcc a b)) (Set.uIcc a b) x = f'' x from
        ((h2 x).hasDerivWithinAt.congr hd (hd x hx)).derivWithin (hU x hx)]
      exact hM x hx
    · rw [derivWithin_zero_of_notMem_closure (by unfold Set.uIcc at hx ⊢; rwa [isClosed_Icc.closure_eq])]
      simpa using hM0

/-- **C146 (convergence).**  With more and more samples the result tends to the integral. -/
theorem C146_trapz_converges (f f' f'' : ℝ → ℝ) (a b M : ℝ) (h1 : ∀ x, HasDerivAt f (f' x) x) (h2 : ∀ x, HasDerivAt f' (f'' x) x)
    (hM : ∀ x ∈ Set.uIcc a b, |f'' x| ≤ M) (ε : ℝ) (hε : 0 < ε) :
    ∃ N₀ : ℕ, ∀ N, N₀ ≤ N → ∃ T, trapz false ((linspace a b (N + 1)).map f) ((b - a) / (N : ℝ)) = .ok T ∧ |T - ∫ x in a..b, f x| < ε := by
  have hM0 : 0 ≤ M := (abs_nonneg _).trans (hM a Set.left_mem_uIcc)
  obtain ⟨n, hn⟩ := exists_nat_gt (|b - a| ^ 3 * M / (12 * ε))
  refine ⟨n + 1, fun N hN => ?_⟩
  obtain ⟨T, hT, he⟩ := C146_trapz_error f f' f'' a b M h1 h2 hM N (by omega)
  refine ⟨T, hT, he.trans_lt ?_⟩
  have h1 : (1 : ℝ) ≤ N := by exact_mod_cast (show 1 ≤ N by omega)
  have h2 : (n : ℝ) ≤ N := by exact_mod_cast (show n ≤ N by omega)
  rw [div_lt_iff₀ (by positivity)]
  rw [div_lt_iff₀ (by positivity)] at hn
  nlinarith [mul_le_mul_of_nonneg_right (h2.trans (le_mul_of_one_le_left (by linarith : (0 : ℝ) ≤ N) h1)) hε.le]

/-- **C146 (affine functions).**  The trapezoidal rule is exact on affine functions, with any number of samples. -/
theorem C146_trapz_affine {K : Type*} [Field K] [CharZero K] (m q a b : K) (N : ℕ) (hN : 0 < N) :
    trapz false ((linspace a b (N + 1)).map fun x => m * x + q) ((b - a) / (N : K)) = .ok (m * (b ^ 2 - a ^ 2) / 2 + q * (b - a)) := by
  have hN0 : (N : K) ≠ 0 := by exact_mod_cast hN.ne'
  rw [C11_trapz_partial _ _ _ (by rw [List.length_map, (C27_linspace a b (N + 1)).1]; omega), map_linspace _ a b N hN, trapezoidRule_range]
  congr 1
  have key : ∀ n : ℕ, ∀ h : K, ∑ i ∈ range n, h * ((m * (a + (i : K) * h) + q) + (m * (a + ((i + 1 : ℕ) : K) * h) + q)) / 2
      = m * ((a + (n : K) * h) ^ 2 - a ^ 2) / 2 + q * ((n : K) * h) := by
    intro n h
    induction n with
    | zero => simp
    | succ n ih => rw [Finset.sum_range_succ, ih]; push_cast; ring
  rw [key N, mul_div_cancel₀ _ hN0]
  congr 3
  · ring

/-- **C146 (linearity).**  Linear in the samples and in the spacing. -/
theorem C146_trapz_linear {K : Type*} [Field K] [CharZero K] (c d dx k : K) (f g : List K) (h : f.length = g.length) (h1 : f.length ≠ 1) :
    ∃ s t, trapz false f dx = .ok s ∧ trapz false g dx = .ok t ∧
      trapz false (List.zipWith (fun x y => c * x + d * y) f g) dx = .ok (c * s + d * t) ∧
      trapz false f (k * dx) = .ok (k * s) := by
  refine ⟨_, _, C11_trapz_partial _ _ _ h1, C11_trapz_partial _ _ _ (h ▸ h1), ?_, ?_⟩
  · rw [C11_trapz_partial _ _ _ (by simp [← h, h1])]
    congr 1
    rw [trapezoidRule_eq, trapezoidRule_eq, trapezoidRule_eq, List.length_zipWith, ← h, min_self, Finset.mul_sum, Finset.mul_sum, ← Finset.sum_add_distrib]
    apply Finset.sum_congr rfl
    intro i hi
    rw [Finset.mem_range] at hi
    have e : ∀ j, j < f.length → (List.zipWith (fun x y => c * x + d * y) f g).getD j 0 = c * f.getD j 0 + d * g.getD j 0 := by
      intro j hj
      have hj2 : j < g.length := h ▸ hj
      simp [List.getD_eq_getElem?_getD, hj, hj2]
    rw [e i (by omega), e (i + 1) (by omega)]
    ring
  · rw [C11_trapz_partial _ _ _ h1]
    congr 1
    rw [trapezoidRule_eq, trapezoidRule_eq, Finset.mul_sum]
    apply Finset.sum_congr rfl
    intro i _
    ring

/-- **C146 (additivity).**  The integral over two adjacent intervals sharing the sample `x` is the sum of the integrals. -/
theorem C146_trapz_additive {K : Type*} [Field K] [CharZero K] (dx x : K) (u v : List K) (hu : u ≠ []) (hv : v ≠ []) :
    ∃ s t, trapz false (u ++ [x]) dx = .ok s ∧ trapz false (x :: v) dx = .ok t ∧ trapz false (u ++ x :: v) dx = .ok (s + t) := by
  have hu1 := List.length_pos_iff.2 hu
  have hv1 := List.length_pos_iff.2 hv
  refine ⟨_, _, C11_trapz_partial _ _ _ (by simp [hu]), C11_trapz_partial _ _ _ (by simp [hv]), ?_⟩
  rw [C11_trapz_partial _ _ _ (by simp only [List.length_append, List.length_cons]; omega)]
  congr 1
  clear hu hv hu1 hv1
  induction u with
  | nil => simp [trapezoidRule]
  | cons y u ih =>
    cases u with
    | nil => simp [trapezoidRule]
    | cons z u =>
      simp only [List.cons_append] at ih ⊢
      rw [trapezoidRule, ih, trapezoidRule]
      ring

/-- **C146 (monotone).**  Larger samples, larger integral; samples in `[l, h]` have an integral in `[l, h]` times the length of the interval. -/
theorem C146_trapz_mono {K : Type*} [Field K] [LinearOrder K] [IsStrictOrderedRing K] (dx : K) (hdx : 0 ≤ dx) (f g : List K)
    (h : List.Forall₂ (· ≤ ·) f g) (h1 : f.length ≠ 1) :
    ∃ s t, trapz false f dx = .ok s ∧ trapz false g dx = .ok t ∧ s ≤ t := by
  have hl := h.length_eq
  refine ⟨_, _, C11_trapz_partial _ _ _ h1, C11_trapz_partial _ _ _ (hl ▸ h1), ?_⟩
  rw [trapezoidRule_eq, trapezoidRule_eq, ← hl]
  apply Finset.sum_le_sum
  intro i hi
  rw [Finset.mem_range] at hi
  have e : ∀ j, j < f.length → f.getD j 0 ≤ g.getD j 0 := by
    intro j hj
    have hj2 : j < g.length := hl ▸ hj
    simp only [List.getD_eq_getElem?_getD, List.getElem?_eq_getElem hj, List.getElem?_eq_getElem hj2, Option.getD_some]
    exact (List.forall₂_iff_get.1 h).2 j hj hj2
  have := add_le_add (e i (by omega)) (e (i + 1) (by omega))
  exact div_le_div_of_nonneg_right (mul_le_mul_of_nonneg_left this hdx) (by norm_num)

/-- **C146 (reversal).** -/
theorem C146_trapz_reverse {K : Type*} [Field K] [CharZero K] (dx : K) (f : List K) (h1 : f.length ≠ 1) :
    trapz false f.reverse dx = trapz false f dx := by
  rw [C11_trapz_partial _ _ _ h1, C11_trapz_partial _ _ _ (by simpa using h1)]
  congr 1
  rw [trapezoidRule_eq, trapezoidRule_eq, List.length_reverse, ← Finset.sum_range_reflect]
  apply Finset.sum_congr rfl
  intro i hi
  rw [Finset.mem_range] at hi
  have e : ∀ j, j < f.length → f.reverse.getD j 0 = f.getD (f.length - 1 - j) 0 := by
    intro j hj
    rw [List.getD_eq_getElem?_getD, List.getD_eq_getElem?_getD, List.getElem?_reverse hj]
  rw [e _ (by omega), e _ (by omega), show f.length - 1 - (f.length - 1 - 1 - i) = i + 1 by omega,
    show f.length - 1 - (f.length - 1 - 1 - i + 1) = i by omega, add_comm]

/-! ### diff -/

/-- **C146 (telescoping).**  The sum of the differences is the last sample minus the first. -/
theorem C146_sum_diff {α : Type*} [AddCommGroup α] (x : α) (xs : List α) :
    ∃ d, diffVec (x :: xs) 1 = .ok d ∧ d.sum = (x :: xs).getLast (by simp) - x := by
  refine ⟨adjDiffLoop x xs, by simp [diffVec, diffVecLoop, diffOnceVec, adjDiff], ?_⟩
  induction xs generalizing x with
  | nil => simp [adjDiffLoop]
  | cons y ys ih => rw [adjDiffLoop, List.sum_cons, ih, List.getLast_cons_cons]; abel

/-- **C146 (linearity).**  The differences of a combination of arrays are the combination of the differences. -/
theorem C146_diff_linear {K : Type*} [Field K] (c d : K) (f g : List K) (h : f.length = g.length) (n : ℕ) :
    ∃ s t, diffVec f n = .ok s ∧ diffVec g n = .ok t ∧
      diffVec (List.zipWith (fun x y => c * x + d * y) f g) n = .ok (List.zipWith (fun x y => c * x + d * y) s t) := by
  obtain ⟨s, s1, -, s3, s4⟩ := C10_diff_spec f n
  obtain ⟨t, t1, -, t3, t4⟩ := C10_diff_spec g n
  obtain ⟨r, r1, -, r3, r4⟩ := C10_diff_spec (List.zipWith (fun x y => c * x + d * y) f g) n
  refine ⟨s, t, s1, t1, ?_⟩
  rw [r1]
  congr 1
  rw [List.length_zipWith, ← h, min_self] at r3
  apply List.ext_getElem?
  intro i
  rcases Nat.lt_or_ge i r.length with hi | hi
  · have hs : i < s.length := by omega
    have ht : i < t.length := by omega
    rw [r4 i hi, List.getElem?_zipWith, s4 i hs, t4 i ht]
    simp only [Option.some.injEq]
    rw [Finset.mul_sum, Finset.mul_sum, ← Finset.sum_add_distrib]
    apply Finset.sum_congr rfl
    intro k hk
    rw [Finset.mem_range] at hk
    have e : ∀ j, j < f.length → (List.zipWith (fun x y => c * x + d * y) f g).getD j 0 = c * f.getD j 0 + d * g.getD j 0 := by
      intro j hj
      have hj2 : j < g.length := h ▸ hj
      simp [List.getD_eq_getElem?_getD, hj, hj2]
    rw [e _ (by omega)]
    simp only [zsmul_eq_mul]
    ring
  · rw [List.getElem?_eq_none hi, List.getElem?_eq_none (by rw [List.length_zipWith]; omega)]

/-- **C146 (polynomials).**  The `n`-th differences of equally spaced samples of a polynomial of degree `n` are the constant `n! aₙ hⁿ`, and the
differences of a higher order vanish. -/
theorem C146_diff_polynomial {K : Type*} [Field K] (P : Polynomial K) (a h : K) (hh : h ≠ 0) (len n : ℕ) :
    ∃ r, diffVec ((List.range len).map fun i : ℕ => P.eval (a + (i : K) * h)) n = .ok r ∧ r.length = len - n ∧
      (n = P.natDegree → r = List.replicate (len - n) ((n.factorial : K) * P.leadingCoeff * h ^ n)) ∧
      (P.natDegree < n → r = List.replicate (len - n) 0) := by
  obtain ⟨r, r1, -, r3, r4⟩ := C10_diff_spec ((List.range len).map fun i : ℕ => P.eval (a + (i : K) * h)) n
  rw [List.length_map, List.length_range] at r3
  set Q : Polynomial K := P.comp (Polynomial.C h * Polynomial.X + Polynomial.C a) with hQ
  have hdeg1 : (Polynomial.C h * Polynomial.X + Polynomial.C a).natDegree = 1 := Polynomial.natDegree_linear hh
  have hdeg : Q.natDegree = P.natDegree := by rw [hQ, Polynomial.natDegree_comp, hdeg1, mul_one]
  have hlc : Q.leadingCoeff = P.leadingCoeff * h ^ P.natDegree := by
    rw [hQ, Polynomial.leadingCoeff_comp (by rw [hdeg1]; norm_num), Polynomial.leadingCoeff_linear hh]
  have hget : ∀ i (hi : i < r.length), r[i] = (fwdDiff 1)^[n] Q.eval (i : K) := by
    intro i hi
    have h4 := r4 i hi
    rw [List.getElem?_eq_getElem hi, Option.some.injEq] at h4
    rw [h4, fwdDiff_iter_eq_sum_shift]
    apply Finset.sum_congr rfl
    intro k hk
    rw [Finset.mem_range] at hk
    congr 1
    rw [List.getD_eq_getElem?_getD, List.getElem?_map, List.getElem?_range (by omega), Option.map_some, Option.getD_some, hQ, Polynomial.eval_comp]
    simp only [Polynomial.eval_add, Polynomial.eval_mul, Polynomial.eval_C, Polynomial.eval_X]
    push_cast
    congr 1
    simp only [nsmul_eq_mul, mul_one]
    ring
  refine ⟨r, r1, r3, ?_, ?_⟩
  · intro hn
    rw [List.eq_replicate_iff]
    refine ⟨r3, fun x hx => ?_⟩
    obtain ⟨i, hi, rfl⟩ := List.getElem_of_mem hx
    rw [hget i hi]
    subst hn
    have := congrFun (Polynomial.fwdDiff_iter_degree_eq_factorial Q) (i : K)
    rw [hdeg] at this
    rw [this, hlc]
    simp only [Pi.smul_apply, smul_eq_mul, Pi.natCast_apply]
    ring
  · intro hn
    rw [List.eq_replicate_iff]
    refine ⟨r3, fun x hx => ?_⟩
    obtain ⟨i, hi, rfl⟩ := List.getElem_of_mem hx
    rw [hget i hi, Polynomial.fwdDiff_iter_eq_zero_of_degree_lt (by rw [hdeg]; exact hn)]
    rfl

/-- **C146 (mean value).**  A difference quotient of samples of a differentiable function is a value of the derivative between both samples. -/
theorem C146_diff_mean_value (f f' : ℝ → ℝ) (a h : ℝ) (hh : 0 < h) (hf : ∀ x, HasDerivAt f (f' x) x) (len : ℕ) :
    ∃ r, diffVec ((List.range len).map fun i : ℕ => f (a + (i : ℝ) * h)) 1 = .ok r ∧ r.length = len - 1 ∧
      ∀ i, (hi : i < r.length) → ∃ c, a + (i : ℝ) * h < c ∧ c < a + ((i : ℝ) + 1) * h ∧ r[i] / h = f' c := by
  obtain ⟨r, r1, -, r3, r4⟩ := C10_diff_spec ((List.range len).map fun i : ℕ => f (a + (i : ℝ) * h)) 1
  rw [List.length_map, List.length_range] at r3
  refine ⟨r, by simpa using r1, r3, fun i hi => ?_⟩
  have h4 := r4 i hi
  have e : ∀ j, j < len → ((List.range len).map fun i : ℕ => f (a + (i : ℝ) * h)).getD j 0 = f (a + (j : ℝ) * h) := by
    intro j hj
    rw [List.getD_eq_getElem?_getD, List.getElem?_map, List.getElem?_range hj]; rfl
  rw [List.getElem?_eq_getElem hi, Option.some.injEq, Finset.sum_range_succ, Finset.sum_range_one, e _ (by omega), e _ (by omega)] at h4
  obtain ⟨c, hc, hd⟩ := exists_hasDerivAt_eq_slope f f' (show a + (i : ℝ) * h < a + ((i : ℝ) + 1) * h by linarith)
    (fun x _ => (hf x).continuousAt.continuousWithinAt) (fun x _ => hf x)
  refine ⟨c, hc.1, hc.2, ?_⟩
  rw [hd, h4]
  have : a + ((i : ℝ) + 1) * h - (a + (i : ℝ) * h) = h := by ring
  rw [this]
  congr 1
  simp
  ring

/-! ### examples -/

/-- `∫₀^π sin x dx = 2` with 101 samples: an error below `3/10000`. -/
example : ∃ T, trapz false ((linspace (0 : ℝ) Real.pi (100 + 1)).map Real.sin) ((Real.pi - 0) / ((100 : ℕ) : ℝ)) = .ok T ∧ |T - 2| < 3 / 10000 := by
  obtain ⟨T, hT, h⟩ := C146_trapz_error Real.sin Real.cos (fun x => -Real.sin x) 0 Real.pi 1 Real.hasDerivAt_sin Real.hasDerivAt_cos
    (fun x _ => by rw [abs_neg]; exact Real.abs_sin_le_one x) 100 (by norm_num)
  refine ⟨T, hT, ?_⟩
  rw [integral_sin, Real.cos_zero, Real.cos_pi, show (1 : ℝ) - -1 = 2 by norm_num] at h
  refine h.trans_lt ?_
  have h1 := Real.pi_lt_d2
  have h0 := Real.pi_pos
  rw [sub_zero, abs_of_pos h0]
  have h3 : Real.pi ^ 3 < 3.15 ^ 3 := by gcongr
  rw [mul_one, div_lt_iff₀ (by norm_num)]
  norm_num at h3 ⊢
  linarith

/-- `∫₀¹ x² dx` with 11 samples is within `1/600` of the integral. -/
example : ∃ T, trapz false ((linspace (0 : ℝ) 1 (10 + 1)).map fun x => x * x) ((1 - 0) / ((10 : ℕ) : ℝ)) = .ok T ∧
    T = 67 / 200 := by
  refine ⟨_, sampled_trapezoid (fun x => x * x) 0 1 10 (by norm_num), ?_⟩
  norm_num [trapezoidal_integral, Finset.sum_range_succ]

example : diffVec ([1, 8, 27, 64, 125] : List ℤ) 3 = .ok [6, 6] := by decide

end SciCpp
