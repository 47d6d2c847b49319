import Verif.Model.Interp
import Verif.Props.Poly
import Mathlib.Algebra.Polynomial.Roots
import Mathlib.Tactic.FieldSimp
import Mathlib.Tactic.Linarith
import Mathlib.Data.List.GetD
import Mathlib.Analysis.InnerProductSpace.PiL2
import Mathlib.Analysis.InnerProductSpace.Projection.Minimal
/-
  C66 — interpolation (scicpp/core/interpolate.hpp) and C75 — polyfit.
-/
namespace SciCpp

set_option linter.unusedSectionVars false

open Spec

section Interp

variable {K : Type} [Field K] [LinearOrder K] [IsStrictOrderedRing K]

/-- Specification: `m` is the smallest and `M` the largest element of a list. -/
def IsMinMax (x : List K) (m M : K) : Prop := m ∈ x ∧ M ∈ x ∧ ∀ v ∈ x, m ≤ v ∧ v ≤ M

theorem minmax_spec (x : List K) (hx : x ≠ []) :
    ∃ m M, minCoeff x = .ok m ∧ maxCoeff x = .ok M ∧ IsMinMax x m M := by
  obtain ⟨a, as, rfl⟩ := List.exists_cons_of_ne_nil hx
  have hmin : ∀ (xs : List K) (x : K), (xs.foldl min x ∈ x :: xs) ∧ ∀ y ∈ x :: xs, xs.foldl min x ≤ y := by
    intro xs
    induction xs with
    | nil => intro x; simp
    | cons a xs ih =>
      intro x
      obtain ⟨h1, h2⟩ := ih (min x a)
      refine ⟨?_, ?_⟩
      · rw [List.foldl_cons]
        rcases List.mem_cons.1 h1 with h | h
        · rw [h]
          rcases min_choice x a with e | e <;> rw [e] <;> simp
        · simp [h]
      · intro y hy
        rw [List.foldl_cons]
        rcases List.mem_cons.1 hy with rfl | hy
        · exact (h2 (min _ a) (by simp)).trans (min_le_left _ _)
        · rcases List.mem_cons.1 hy with rfl | hy
          · exact (h2 (min x _) (by simp)).trans (min_le_right _ _)
          · exact h2 y (by simp [hy])
  have hmax : ∀ (xs : List K) (x : K), (xs.foldl max x ∈ x :: xs) ∧ ∀ y ∈ x :: xs, y ≤ xs.foldl max x := by
    intro xs
    induction xs with
    | nil => intro x; simp
    | cons a xs ih =>
      intro x
      obtain ⟨h1, h2⟩ := ih (max x a)
      refine ⟨?_, ?_⟩
      · rw [List.foldl_cons]
        rcases List.mem_cons.1 h1 with h | h
        · rw [h]
          rcases max_choice x a with e | e <;> rw [e] <;> simp
        · simp [h]
      · intro y hy
        rw [List.foldl_cons]
        rcases List.mem_cons.1 hy with rfl | hy
        · exact (le_max_left _ _).trans (h2 (max _ a) (by simp))
        · rcases List.mem_cons.1 hy with rfl | hy
          · exact (le_max_right _ _).trans (h2 (max x _) (by simp))
          · exact h2 y (by simp [hy])
  exact ⟨_, _, rfl, rfl, (hmin as a).1, (hmax as a).1, fun v hv => ⟨(hmin as a).2 v hv, (hmax as a).2 v hv⟩⟩

/-- Unfolding of `interp1d`. -/
theorem interp1d_eq (spline : ℕ → List K → List K → K → K) (kind : ℕ) {x y : List K} {m M : K}
    (h : IsMinMax x m M) (hmM : m < M) (hl : x.length = y.length) :
    interp1d spline kind x y = .ok fun q =>
      spline (min (x.length - 1) kind) y (x.map fun v => (v - m) / (M - m)) ((q - m) / (M - m)) := by
  have hx : x ≠ [] := by rintro rfl; exact absurd h.1 (by simp)
  obtain ⟨m', M', h1, h2, h3⟩ := minmax_spec x hx
  have em : m' = m := le_antisymm (h3.2.2 m h.1).1 (h.2.2 m' h3.1).1
  have eM : M' = M := le_antisymm (h.2.2 M' h3.2.1).2 (h3.2.2 M h.2.1).2
  subst em eM
  unfold interp1d
  rw [h1, h2]
  simp only [Res.bind_ok, hl, beq_self_eq_true, require_true, decide_eq_true hmM, Res.pure_eq]
  rfl

/-- C66: the abscissae handed to the spline are rescaled affinely, the smallest to 0 and the largest to 1,
all of them into [0, 1]. -/
theorem C66_rescaling (spline : ℕ → List K → List K → K → K) (kind : ℕ) {x y : List K} {m M : K}
    (h : IsMinMax x m M) (hmM : m < M) (hl : x.length = y.length) :
    ∃ (s : K → K), (∀ v, s v = (v - m) / (M - m)) ∧ s m = 0 ∧ s M = 1 ∧
      (∀ v ∈ x, 0 ≤ s v ∧ s v ≤ 1) ∧
      ∃ f, interp1d spline kind x y = .ok f ∧
        ∀ q, f q = spline (min (x.length - 1) kind) y (x.map s) (s q) := by
  have hd : 0 < M - m := by linarith
  refine ⟨fun v => (v - m) / (M - m), fun v => rfl, by simp, div_self hd.ne', fun v hv => ?_, _,
    interp1d_eq spline kind h hmM hl, fun q => rfl⟩
  obtain ⟨h1, h2⟩ := h.2.2 v hv
  refine ⟨div_nonneg (by linarith) hd.le, ?_⟩
  show (v - m) / (M - m) ≤ 1
  rw [div_le_one hd]
  linarith

/-- C66: a change of units `v ↦ a v + b` with `a > 0` of all abscissae and of the query does not change the
answer. -/
theorem C66_affine_invariance (spline : ℕ → List K → List K → K → K) (kind : ℕ) {x y : List K} {m M : K}
    (h : IsMinMax x m M) (hmM : m < M) (hl : x.length = y.length) (a b : K) (ha : 0 < a) :
    ∃ f g, interp1d spline kind x y = .ok f ∧
      interp1d spline kind (x.map fun v => a * v + b) y = .ok g ∧ ∀ q, g (a * q + b) = f q := by
  have h' : IsMinMax (x.map fun v => a * v + b) (a * m + b) (a * M + b) := by
    refine ⟨List.mem_map.2 ⟨m, h.1, rfl⟩, List.mem_map.2 ⟨M, h.2.1, rfl⟩, ?_⟩
    intro v hv
    obtain ⟨u, hu, rfl⟩ := List.mem_map.1 hv
    obtain ⟨h1, h2⟩ := h.2.2 u hu
    exact ⟨by nlinarith, by nlinarith⟩
  have hmM' : a * m + b < a * M + b := by nlinarith
  have hscale : ∀ v, (a * v + b - (a * m + b)) / (a * M + b - (a * m + b)) = (v - m) / (M - m) := by
    intro v
    have : M - m ≠ 0 := by intro e; linarith
    have e1 : a * v + b - (a * m + b) = a * (v - m) := by ring
    have e2 : a * M + b - (a * m + b) = a * (M - m) := by ring
    rw [e1, e2, mul_div_mul_left _ _ ha.ne']
  refine ⟨_, _, interp1d_eq spline kind h hmM hl, interp1d_eq spline kind h' hmM' (by simpa using hl),
    fun q => ?_⟩
  simp only [hscale, List.map_map, List.length_map]
  congr 1
  apply List.map_congr_left
  intro v _
  exact hscale v

/-- A spline fit that passes through its data when the abscissae are distinct. -/
def PassesThrough (spline : ℕ → List K → List K → K → K) : Prop :=
  ∀ (deg : ℕ) (y knots : List K), knots.length = y.length → knots.Nodup →
    ∀ (i : ℕ) (hi : i < knots.length) (hy : i < y.length), spline deg y knots knots[i] = y[i]

/-- C66: if spline fits pass through their data, so does the interpolation function (for distinct
abscissae). -/
theorem C66_through_data (spline : ℕ → List K → List K → K → K) (kind : ℕ) {x y : List K} {m M : K}
    (h : IsMinMax x m M) (hmM : m < M) (hl : x.length = y.length) (hx : x.Nodup)
    (hs : PassesThrough spline) :
    ∃ f, interp1d spline kind x y = .ok f ∧
      ∀ (i : ℕ) (hi : i < x.length) (hy : i < y.length), f x[i] = y[i] := by
  refine ⟨_, interp1d_eq spline kind h hmM hl, fun i hi hy => ?_⟩
  have hd : M - m ≠ 0 := by intro e; linarith
  have hinj : Function.Injective fun v : K => (v - m) / (M - m) := by
    intro u v huv
    have : u - m = v - m := by simpa [div_left_inj' hd] using huv
    linarith
  have := hs (min (x.length - 1) kind) y (x.map fun v => (v - m) / (M - m)) (by simpa using hl)
    (hx.map hinj) i (by simpa using hi) hy
  rw [List.getElem_map] at this
  exact this

/-- C66: with all abscissae equal, none at all, or numbers of abscissae and ordinates that differ, the
construction is undefined behaviour. -/
theorem C66_degenerate_ub (spline : ℕ → List K → List K → K → K) (kind : ℕ) {x y : List K}
    (h : (∃ c, ∀ v ∈ x, v = c) ∨ x.length ≠ y.length) : interp1d spline kind x y = .ub := by
  by_cases hx : x = []
  · subst hx; rfl
  · obtain ⟨m, M, h1, h2, h3⟩ := minmax_spec x hx
    unfold interp1d
    rw [h1, h2]
    simp only [Res.bind_ok]
    by_cases hl : x.length = y.length
    · obtain ⟨c, hc⟩ := h.resolve_right (by simpa using hl)
      have : ¬ m < M := by rw [hc m h3.1, hc M h3.2.1]; exact lt_irrefl _
      rw [hl]
      simp [this]
    · rw [require_beq_ne hl]
      rfl

end Interp

/-- Satisfiable: piecewise constant interpolation passes through its data. -/
example : PassesThrough fun (_ : ℕ) (y knots : List ℚ) q => y.getD (knots.idxOf q) 0 := by
  intro deg y knots hl hn i hi hy
  show y.getD (knots.idxOf knots[i]) 0 = y[i]
  rw [List.Nodup.idxOf_getElem hn, List.getD_eq_getElem _ _ hy]

/-- Satisfiable. -/
example : IsMinMax [(2 : ℚ), 5, 3] 2 5 := by
  refine ⟨by simp, by simp, ?_⟩
  intro v hv
  simp only [List.mem_cons, List.not_mem_nil, or_false] at hv
  rcases hv with rfl | rfl | rfl <;> norm_num

/-- C66 is false of the code for integer queries: the query is rescaled in integer arithmetic, so that with
integer abscissae from `m` to `M` every integer query `m ≤ q < M` gives the value at `m`. -/
theorem C66_integer_queries (spline : ℕ → List ℚ → List ℚ → ℚ → ℚ) (kind : ℕ) {x y : List ℚ} {m M : ℤ}
    (h : IsMinMax x (m : ℚ) (M : ℚ)) (hmM : m < M) (hl : x.length = y.length) {q : ℤ} (h1 : m ≤ q)
    (h2 : q < M) :
    ∃ f, interp1d spline kind x y = .ok f ∧ interp1dInt spline kind x y q = .ok (f m) := by
  have hmM' : (m : ℚ) < M := by exact_mod_cast hmM
  refine ⟨_, interp1d_eq spline kind h hmM' hl, ?_⟩
  have hx : x ≠ [] := by rintro rfl; exact absurd h.1 (by simp)
  obtain ⟨m', M', e1, e2, h3⟩ := minmax_spec x hx
  have em : m' = m := le_antisymm (h3.2.2 m h.1).1 (h.2.2 m' h3.1).1
  have eM : M' = M := le_antisymm (h.2.2 M' h3.2.1).2 (h3.2.2 M h.2.1).2
  subst em eM
  have ht : ∀ z : ℤ, truncZ (z : ℚ) = z := by
    intro z
    unfold truncZ
    split <;> simp
  unfold interp1dInt
  rw [e1, e2]
  simp only [Res.bind_ok, hl, beq_self_eq_true, require_true, decide_eq_true hmM']
  have hs : scaledValueInt (m : ℚ) (M : ℚ) q = .ok 0 := by
    unfold scaledValueInt
    rw [ht, ht, if_neg (by omega), Int.tdiv_eq_zero_of_lt (by omega) (by omega)]
  rw [hs]
  simp only [Res.bind_ok, Res.pure_eq]
  congr 1
  simp only [sub_self, zero_div, Int.cast_zero]
  rfl

/-! ## C75 — polyfit -/

section Polyfit

variable {K : Type} [Field K] [LinearOrder K] [IsStrictOrderedRing K]

/-- Sum of the squared residuals of a polynomial on data points. -/
def sumSqRes (x y c : List K) : K :=
  (List.zipWith (fun xi yi => (polyval xi c - yi) ^ 2) x y).sum

/-- A least squares solver: for every matrix with at least one row it returns as many unknowns as columns and no vector of that size has a smaller
sum of squared residuals. -/
def IsLstsq (lstsq : List (List K) → List K → List K) : Prop :=
  ∀ (A : List (List K)) (b : List K) (n : ℕ), A ≠ [] → (∀ r ∈ A, r.length = n) → A.length = b.length →
    (lstsq A b).length = n ∧ ∀ z : List K, z.length = n →
      (List.zipWith (fun r bi => ((List.zipWith (· * ·) (lstsq A b) r).sum - bi) ^ 2) A b).sum ≤
        (List.zipWith (fun r bi => ((List.zipWith (· * ·) z r).sum - bi) ^ 2) A b).sum

theorem vander_dot (xi : K) (c : List K) :
    (List.zipWith (· * ·) c ((List.range c.length).map fun j => xi ^ j)).sum = polyval xi c := by
  rw [C55_polyval]
  have : List.zipWith (· * ·) c ((List.range c.length).map (fun j => xi ^ j))
      = (List.range c.length).map (fun i => c.getD i 0 * xi ^ i) := by
    apply List.ext_getElem
    · simp
    · intro i h1 h2
      have hi : i < c.length := by simpa using h2
      simp [List.getElem_zipWith, List.getD_eq_getElem?_getD, List.getElem?_eq_getElem hi]
  rw [this]
  rfl

/-- C75: for every degree ≥ 1 and any solver that solves least squares problems, `polyfit(x, y, deg)` has
`deg + 1` coefficients and no polynomial with that many coefficients has a smaller sum of squared residuals
on the data. -/
theorem C75_polyfit_least_squares_partial (lstsq : List (List K) → List K → List K) (hs : IsLstsq lstsq) (x y : List K)
    (hx : x ≠ []) (hl : x.length = y.length) (deg : ℕ) (hd : 1 ≤ deg) :
    ∃ p, polyfit lstsq x y deg = .ok p ∧ p.length = deg + 1 ∧
      ∀ c : List K, c.length = deg + 1 → sumSqRes x y p ≤ sumSqRes x y c := by
  have hv := C61_polyvander_partial x deg hd
  obtain ⟨h1, h2⟩ := hs (x.map fun xi => (List.range (deg + 1)).map fun j => xi ^ j) y (deg + 1)
    (by simpa using hx)
    (by
      intro r hr
      obtain ⟨xi, _, rfl⟩ := List.mem_map.1 hr
      simp) (by simpa using hl)
  refine ⟨lstsq (x.map fun xi => (List.range (deg + 1)).map fun j => xi ^ j) y, ?_, h1, fun c hc => ?_⟩
  · unfold polyfit
    rw [hv]
    simp only [Res.bind_ok, hl, beq_self_eq_true, require_true, Res.pure_eq]
  · have key : ∀ c : List K, c.length = deg + 1 →
        (List.zipWith (fun r bi => ((List.zipWith (· * ·) c r).sum - bi) ^ 2)
          (x.map fun xi => (List.range (deg + 1)).map fun j => xi ^ j) y).sum = sumSqRes x y c := by
      intro c hc
      unfold sumSqRes
      rw [List.zipWith_map_left]
      congr 1
      congr 1
      funext xi yi
      rw [← hc, vander_dot]
    have := h2 c hc
    rw [key c hc, key _ h1] at this
    exact this

/-- C75: if the data lie on a polynomial with `deg + 1` coefficients and there are more than `deg` distinct
abscissae, `polyfit` returns exactly its coefficients. -/
theorem C75_polyfit_exact_partial (lstsq : List (List K) → List K → List K) (hs : IsLstsq lstsq) (x : List K)
    (c : List K) (deg : ℕ) (hd : 1 ≤ deg) (hc : c.length = deg + 1) (hx : deg < x.toFinset.card) :
    polyfit lstsq x (x.map fun xi => polyval xi c) deg = .ok c := by
  obtain ⟨p, h1, h2, h3⟩ := C75_polyfit_least_squares_partial lstsq hs x (x.map fun xi => polyval xi c)
    (by rintro rfl; simp at hx) (by simp) deg hd
  rw [h1]
  congr 1
  have hres : ∀ q : List K, sumSqRes x (x.map fun xi => polyval xi c) q =
      (x.map fun xi => (polyval xi q - polyval xi c) ^ 2).sum := by
    intro q
    unfold sumSqRes
    rw [List.zipWith_map_right]
    congr 1
    clear h3 h1 hx
    induction x with
    | nil => rfl
    | cons a x ih => rw [List.zipWith_cons_cons, ih, List.map_cons]
  have h0 : (x.map fun xi => (polyval xi p - polyval xi c) ^ 2).sum ≤ 0 := by
    have := h3 c hc
    rw [hres, hres] at this
    refine this.trans (le_of_eq ?_)
    apply List.sum_eq_zero
    intro v hv
    obtain ⟨xi, _, rfl⟩ := List.mem_map.1 hv
    simp
  have hz : ∀ xi ∈ x, polyval xi p = polyval xi c := by
    have gen : ∀ l : List K, (∀ v ∈ l, 0 ≤ v) → l.sum ≤ 0 → ∀ v ∈ l, v = 0 := by
      intro l
      induction l with
      | nil => simp
      | cons a l ih =>
        intro hn hsum v hv
        rw [List.sum_cons] at hsum
        have ha := hn a (by simp)
        have hl := List.sum_nonneg fun v hv => hn v (List.mem_cons_of_mem a hv)
        rcases List.mem_cons.1 hv with rfl | hv
        · linarith
        · exact ih (fun v hv => hn v (by simp [hv])) (by linarith) v hv
    intro xi hxi
    have := gen _ (by
      intro v hv
      obtain ⟨u, _, rfl⟩ := List.mem_map.1 hv
      positivity) h0 _ (List.mem_map.2 ⟨xi, hxi, rfl⟩)
    have h' := pow_eq_zero_iff (two_ne_zero) |>.1 this
    linarith
  have hpoly : polyOf p = polyOf c := by
    by_contra hne
    have hne' : polyOf p - polyOf c ≠ 0 := sub_ne_zero.2 hne
    have hdeg : (polyOf p - polyOf c).natDegree ≤ deg := by
      rw [Polynomial.natDegree_le_iff_coeff_eq_zero]
      intro i hi
      rw [Polynomial.coeff_sub, coeff_polyOf, coeff_polyOf]
      rw [List.getD_eq_default _ _ (by omega), List.getD_eq_default _ _ (by omega), sub_self]
    have hsub : x.toFinset ⊆ (polyOf p - polyOf c).roots.toFinset := by
      intro xi hxi
      rw [Multiset.mem_toFinset, Polynomial.mem_roots hne', Polynomial.IsRoot, Polynomial.eval_sub,
        ← polyval_eq, ← polyval_eq, hz xi (List.mem_toFinset.1 hxi), sub_self]
    have := Finset.card_le_card hsub
    have h4 := Multiset.toFinset_card_le (polyOf p - polyOf c).roots
    have h5 := Polynomial.card_roots' (polyOf p - polyOf c)
    omega
  apply List.ext_getElem (by omega)
  intro i hi hi'
  have := congrArg (fun P => Polynomial.coeff P i) hpoly
  simp only [coeff_polyOf] at this
  rwa [List.getD_eq_getElem _ _ hi, List.getD_eq_getElem _ _ hi'] at this

/-- C75: abscissae and ordinates of different numbers are never fitted. -/
theorem C75_polyfit_sizes (lstsq : List (List K) → List K → List K) (x y : List K)
    (hl : x.length ≠ y.length) (deg : ℕ) (hd : 1 ≤ deg) : polyfit lstsq x y deg = .ub := by
  unfold polyfit
  rw [C61_polyvander_partial x deg hd]
  simp only [Res.bind_ok]
  rw [show (x.length == y.length) = false by simpa using hl]
  rfl

/-- C75 is false of the code for degree 0: fitting a constant is undefined behaviour. -/
theorem C75_polyfit_constant_ub (lstsq : List (List K) → List K → List K) (x y : List K) :
    polyfit lstsq x y 0 = .ub := by
  unfold polyfit
  rw [C61_polyvander_deg0_ub]
  rfl

end Polyfit

/-- Satisfiable: over the reals every least squares problem has a solution. -/
theorem exists_lstsq : ∃ lstsq : List (List ℝ) → List ℝ → List ℝ, IsLstsq lstsq := by
  have main : ∀ (A : List (List ℝ)) (b : List ℝ) (n : ℕ), (∀ r ∈ A, r.length = n) → A.length = b.length →
      ∃ p : List ℝ, p.length = n ∧ ∀ z : List ℝ, z.length = n →
        (List.zipWith (fun r bi => ((List.zipWith (· * ·) p r).sum - bi) ^ 2) A b).sum ≤
          (List.zipWith (fun r bi => ((List.zipWith (· * ·) z r).sum - bi) ^ 2) A b).sum := by
    intro A b n hA hb
    let f : (Fin n → ℝ) →ₗ[ℝ] EuclideanSpace ℝ (Fin A.length) :=
      { toFun := fun z => WithLp.toLp 2 fun i => ∑ j, z j * (A[i]).getD j 0
        map_add' := by
          intro u v
          ext i
          simp [add_mul, Finset.sum_add_distrib]
        map_smul' := by
          intro c u
          ext i
          simp [Finset.mul_sum, mul_assoc] }
    let bv : EuclideanSpace ℝ (Fin A.length) := WithLp.toLp 2 fun i => b.getD i 0
    obtain ⟨v, hv, hmin⟩ := Submodule.exists_norm_eq_iInf_of_complete_subspace (LinearMap.range f)
      (Submodule.complete_of_finiteDimensional _) bv
    obtain ⟨p, rfl⟩ := hv
    have hle : ∀ z, ‖bv - f p‖ ≤ ‖bv - f z‖ := by
      intro z
      rw [hmin]
      refine ciInf_le ⟨0, ?_⟩ (⟨f z, z, rfl⟩ : LinearMap.range f)
      rintro _ ⟨w, rfl⟩
      exact norm_nonneg _
    have hdot : ∀ (z : List ℝ), z.length = n → ∀ i : Fin A.length,
        (List.zipWith (· * ·) z A[i]).sum = ∑ j : Fin n, z.getD j 0 * (A[i]).getD j 0 := by
      intro z hz i
      have hl := hA A[i] (List.getElem_mem _)
      have : List.zipWith (· * ·) z A[i] = List.ofFn fun j : Fin n => z.getD j 0 * (A[i]).getD j 0 := by
        apply List.ext_getElem
        · rw [List.length_zipWith, List.length_ofFn, hz, hl, Nat.min_self]
        · intro j h1 h2
          rw [List.length_ofFn] at h2
          rw [List.getElem_zipWith, List.getElem_ofFn, List.getD_eq_getElem _ _ (by omega),
            List.getD_eq_getElem _ _ (by omega)]
      rw [this, List.sum_ofFn]
    have hnorm : ∀ (z : List ℝ), z.length = n →
        (List.zipWith (fun r bi => ((List.zipWith (· * ·) z r).sum - bi) ^ 2) A b).sum =
          ‖bv - f fun j => z.getD j 0‖ ^ 2 := by
      intro z hz
      rw [EuclideanSpace.norm_sq_eq]
      have : List.zipWith (fun r bi => ((List.zipWith (· * ·) z r).sum - bi) ^ 2) A b =
          List.ofFn fun i : Fin A.length => ‖(bv - f fun j => z.getD j 0) i‖ ^ 2 := by
        apply List.ext_getElem
        · rw [List.length_zipWith, List.length_ofFn]; omega
        · intro i h1 h2
          rw [List.length_ofFn] at h2
          have hd := hdot z hz ⟨i, h2⟩
          rw [List.getElem_zipWith, List.getElem_ofFn]
          have e : (A[(⟨i, h2⟩ : Fin A.length)]) = A[i] := rfl
          rw [e] at hd
          rw [hd, Real.norm_eq_abs, sq_abs]
          have hbv : bv ⟨i, h2⟩ = b[i] := by
            show b.getD i 0 = _
            rw [List.getD_eq_getElem _ _ (by omega)]
          have hf : (f fun j => z.getD j 0) ⟨i, h2⟩ = ∑ j : Fin n, z.getD j 0 * (A[i]).getD j 0 := rfl
          show _ = (bv ⟨i, h2⟩ - (f fun j => z.getD j 0) ⟨i, h2⟩) ^ 2
          rw [hbv, hf]
          ring
      rw [this, List.sum_ofFn]
    refine ⟨List.ofFn p, by simp, fun z hz => ?_⟩
    rw [hnorm _ (by simp), hnorm z hz]
    have hp : (fun j : Fin n => (List.ofFn p).getD j 0) = p := by
      funext j
      rw [List.getD_eq_getElem _ _ (by simp)]
      simp
    rw [hp]
    exact pow_le_pow_left₀ (norm_nonneg _) (hle _) 2
  classical
  refine ⟨fun A b => if h : ∃ n, (∀ r ∈ A, r.length = n) ∧ A.length = b.length then
    Classical.choose (main A b (Classical.choose h) (Classical.choose_spec h).1 (Classical.choose_spec h).2)
    else [], ?_⟩
  intro A b n hne hA hb
  have h : ∃ n, (∀ r ∈ A, r.length = n) ∧ A.length = b.length := ⟨n, hA, hb⟩
  have hn : Classical.choose h = n := by
    obtain ⟨r, rs, rfl⟩ := List.exists_cons_of_ne_nil hne
    rw [← (Classical.choose_spec h).1 r (by simp), hA r (by simp)]
  have := Classical.choose_spec
    (main A b (Classical.choose h) (Classical.choose_spec h).1 (Classical.choose_spec h).2)
  beta_reduce
  rw [dif_pos h]
  refine ⟨this.1.trans hn, fun z hz => this.2 z (hz.trans hn.symm)⟩

/-- Satisfiable: three distinct abscissae determine a line. -/
example : (1 : ℕ) < ([0, 1, 3] : List ℚ).toFinset.card := by decide

end SciCpp
