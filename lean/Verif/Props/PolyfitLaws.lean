import Verif.Props.Interp
/-
  Property theorems C150: laws of the least squares polynomial fit.
-/
namespace SciCpp

set_option linter.unusedSectionVars false
open Finset

variable {K : Type} [Field K] [LinearOrder K] [IsStrictOrderedRing K]

/-- The normal equations of a fit of degree `deg`: the residuals are orthogonal to the powers of the abscissae up to `deg`. -/
def Spec.NormalEquations (x y : List K) (deg : ℕ) (p : List K) : Prop :=
  ∀ j ≤ deg, ((x.zip y).map fun d => (polyval d.1 p - d.2) * d.1 ^ j).sum = 0

theorem sumSqRes_zip (x y c : List K) : sumSqRes x y c = ((x.zip y).map fun d => (polyval d.1 c - d.2) ^ 2).sum := by
  unfold sumSqRes
  congr 1
  induction x generalizing y with
  | nil => rfl
  | cons a x ih =>
    cases y with
    | nil => rfl
    | cons b y => simp [ih]

theorem polyval_range (v : K) (c : List K) (n : ℕ) (h : c.length ≤ n) : polyval v c = ∑ i ∈ range n, c.getD i 0 * v ^ i := by
  rw [C55_polyval]
  apply Finset.sum_subset (Finset.range_subset_range.2 h)
  intro i _ hi
  rw [Finset.mem_range, not_lt] at hi
  rw [List.getD_eq_default _ _ hi, zero_mul]

theorem polyval_table (v : K) (f : ℕ → K) (n : ℕ) : polyval v ((List.range n).map f) = ∑ i ∈ range n, f i * v ^ i := by
  rw [polyval_range v _ n (by simp)]
  apply Finset.sum_congr rfl
  intro i hi
  rw [Finset.mem_range] at hi
  rw [List.getD_eq_getElem _ _ (by simpa using hi)]
  simp

theorem sum_swap (L : List (K × K)) (r : K × K → K) (n : ℕ) (c : ℕ → K) :
    (L.map fun d => r d * ∑ i ∈ range n, c i * d.1 ^ i).sum = ∑ i ∈ range n, c i * (L.map fun d => r d * d.1 ^ i).sum := by
  induction L with
  | nil => simp
  | cons a L ih =>
    simp only [List.map_cons, List.sum_cons, ih, mul_add, Finset.sum_add_distrib]
    congr 1
    rw [Finset.mul_sum]
    apply Finset.sum_congr rfl
    intro i _; ring

/-- The normal equations against any polynomial of the degree. -/
theorem normal_poly {x y : List K} {deg : ℕ} {p : List K} (hn : Spec.NormalEquations x y deg p) (q : List K) (hq : q.length ≤ deg + 1) :
    ((x.zip y).map fun d => (polyval d.1 p - d.2) * polyval d.1 q).sum = 0 := by
  simp only [polyval_range _ q (deg + 1) hq]
  rw [sum_swap (x.zip y) (fun d => polyval d.1 p - d.2) (deg + 1) fun i => q.getD i 0]
  apply Finset.sum_eq_zero
  intro i hi
  rw [Finset.mem_range] at hi
  rw [hn i (by omega), mul_zero]

theorem sum_lin (L : List (K × K)) (f g h : K × K → K) (a b : K) :
    (L.map fun d => f d + a * g d + b * h d).sum = (L.map f).sum + a * (L.map g).sum + b * (L.map h).sum := by
  induction L with
  | nil => simp
  | cons d L ih => simp only [List.map_cons, List.sum_cons, ih]; ring

variable {lstsq : List (List K) → List K → List K}

/-- **C150 (normal equations).**  The residuals of the fit are orthogonal to all powers of the abscissae up to the degree. -/
theorem C150_normal_equations (hs : IsLstsq lstsq) (x y : List K) (hx : x ≠ []) (hl : x.length = y.length) (deg : ℕ) (hd : 1 ≤ deg) :
    ∃ p, polyfit lstsq x y deg = .ok p ∧ p.length = deg + 1 ∧ Spec.NormalEquations x y deg p := by
  obtain ⟨p, h1, h2, h3⟩ := C75_polyfit_least_squares_partial lstsq hs x y hx hl deg hd
  refine ⟨p, h1, h2, fun j hj => ?_⟩
  set A := ((x.zip y).map fun d => (polyval d.1 p - d.2) * d.1 ^ j).sum with hA
  set B := ((x.zip y).map fun d => (d.1 ^ j) ^ 2).sum with hB
  have hB0 : 0 ≤ B := by
    apply List.sum_nonneg
    intro v hv
    obtain ⟨d, -, rfl⟩ := List.mem_map.1 hv
    positivity
  have key : ∀ e : K, 0 ≤ 2 * e * A + e ^ 2 * B := by
    intro e
    have h4 := h3 ((List.range (deg + 1)).map fun i => p.getD i 0 + if i = j then e else 0) (by simp)
    rw [sumSqRes_zip, sumSqRes_zip] at h4
    have h5 : ∀ v : K, polyval v ((List.range (deg + 1)).map fun i => p.getD i 0 + if i = j then e else 0) = polyval v p + e * v ^ j := by
      intro v
      rw [polyval_table, polyval_range v p (deg + 1) h2.le]
      simp only [add_mul, Finset.sum_add_distrib, ite_mul, zero_mul]
      rw [Finset.sum_ite_eq' (range (deg + 1)) j, if_pos (Finset.mem_range.2 (by omega))]
    have h6 : ((x.zip y).map fun d => (polyval d.1 ((List.range (deg + 1)).map fun i => p.getD i 0 + if i = j then e else 0) - d.2) ^ 2).sum =
        ((x.zip y).map fun d => (polyval d.1 p - d.2) ^ 2).sum + 2 * e * A + e ^ 2 * B := by
      rw [hA, hB, ← sum_lin]
      congr 1
      apply List.map_congr_left
      intro d _
      rw [h5]; ring
    rw [h6] at h4
    linarith
  by_contra hne
  have hB1 : 0 < B + 1 := by linarith
  have h7 := key (-(A / (B + 1)))
  have h8 : 2 * -(A / (B + 1)) * A + (-(A / (B + 1))) ^ 2 * B = -((A / (B + 1)) ^ 2 * (B + 2)) := by
    field_simp; ring
  rw [h8] at h7
  have : 0 < (A / (B + 1)) ^ 2 * (B + 2) := by
    have : A / (B + 1) ≠ 0 := div_ne_zero hne hB1.ne'
    positivity
  linarith

/-- **C150 (balance).**  The residuals sum to zero: the fitted values have the mean of the data. -/
theorem C150_balance {x y : List K} {deg : ℕ} {p : List K} (hl : x.length = y.length) (hn : Spec.NormalEquations x y deg p) :
    (x.map fun v => polyval v p).sum = y.sum := by
  have h := hn 0 (by omega)
  simp only [pow_zero, mul_one] at h
  have : ∀ x y : List K, x.length = y.length →
      ((x.zip y).map fun d => polyval d.1 p - d.2).sum = (x.map fun v => polyval v p).sum - y.sum := by
    intro x
    induction x with
    | nil => intro y hl; obtain rfl : y = [] := List.length_eq_zero_iff.1 (by simpa using hl.symm); simp
    | cons a x ih =>
      intro y hl
      cases y with
      | nil => simp at hl
      | cons b y => simp only [List.zip_cons_cons, List.map_cons, List.sum_cons, ih y (by simpa using hl)]; ring
  rw [this x y hl] at h
  linarith

/-- **C150 (Pythagoras).**  For every polynomial of the degree the sum of squared residuals is that of the fit plus the squared distance to the fit. -/
theorem C150_pythagoras {x y : List K} {deg : ℕ} {p : List K} (hp : p.length = deg + 1) (hn : Spec.NormalEquations x y deg p) (c : List K)
    (hc : c.length ≤ deg + 1) :
    sumSqRes x y c = sumSqRes x y p + ((x.zip y).map fun d => (polyval d.1 c - polyval d.1 p) ^ 2).sum := by
  have h1 := normal_poly hn c hc
  have h2 := normal_poly hn p hp.le
  rw [sumSqRes_zip, sumSqRes_zip]
  have h3 : ((x.zip y).map fun d => (polyval d.1 c - d.2) ^ 2).sum =
      ((x.zip y).map fun d => (polyval d.1 p - d.2) ^ 2 + (polyval d.1 c - polyval d.1 p) ^ 2 ).sum +
        2 * ((x.zip y).map fun d => (polyval d.1 p - d.2) * polyval d.1 c).sum +
        -2 * ((x.zip y).map fun d => (polyval d.1 p - d.2) * polyval d.1 p).sum := by
    rw [← sum_lin]
    congr 1
    apply List.map_congr_left
    intro d _
    ring
  rw [h3, h1, h2, mul_zero, mul_zero, add_zero, add_zero, List.sum_map_add]

/-- **C150 (decomposition).**  The energy of the data is that of the fitted values plus that of the residuals. -/
theorem C150_decomposition {x y : List K} {deg : ℕ} {p : List K} (hp : p.length = deg + 1) (hn : Spec.NormalEquations x y deg p) :
    ((x.zip y).map fun d => d.2 ^ 2).sum = ((x.zip y).map fun d => polyval d.1 p ^ 2).sum + sumSqRes x y p := by
  have h := C150_pythagoras hp hn [] (by simp)
  have h0 : ∀ v : K, polyval v ([] : List K) = 0 := fun v => by rw [C55_polyval]; simp
  rw [sumSqRes_zip] at h
  simp only [h0, zero_sub, neg_sq] at h
  rw [h, add_comm]

/-- Polynomials of the degree that agree on more abscissae than the degree are equal. -/
theorem poly_ext (hs : IsLstsq lstsq) {x p c : List K} {deg : ℕ} (hd : 1 ≤ deg) (hp : p.length = deg + 1) (hc : c.length = deg + 1)
    (hx : deg < x.toFinset.card) (h : ∀ v ∈ x, polyval v p = polyval v c) : p = c := by
  have e1 := C75_polyfit_exact_partial lstsq hs x p deg hd hp hx
  have e2 := C75_polyfit_exact_partial lstsq hs x c deg hd hc hx
  rw [List.map_congr_left h, e2] at e1
  injection e1 with e
  exact e.symm

theorem sum_sq_zero (l : List (K × K)) (f : K × K → K) (h : (l.map fun d => f d ^ 2).sum = 0) : ∀ d ∈ l, f d = 0 := by
  induction l with
  | nil => simp
  | cons a l ih =>
    rw [List.map_cons, List.sum_cons] at h
    have h0 : 0 ≤ (l.map fun d => f d ^ 2).sum := by
      apply List.sum_nonneg
      intro v hv
      obtain ⟨d, -, rfl⟩ := List.mem_map.1 hv
      positivity
    have ha : f a ^ 2 = 0 := le_antisymm (by linarith) (sq_nonneg _)
    intro d hd
    rcases List.mem_cons.1 hd with rfl | hd
    · exact pow_eq_zero_iff two_ne_zero |>.1 ha
    · exact ih (by linarith) d hd

/-- **C150 (uniqueness).**  With more distinct abscissae than the degree the fit is the only polynomial that solves the normal equations. -/
theorem C150_unique (hs : IsLstsq lstsq) (x y c : List K) (hl : x.length = y.length) (deg : ℕ) (hd : 1 ≤ deg) (hc : c.length = deg + 1)
    (hx : deg < x.toFinset.card) : polyfit lstsq x y deg = .ok c ↔ Spec.NormalEquations x y deg c := by
  obtain ⟨p, h1, h2, h3⟩ := C150_normal_equations hs x y (by rintro rfl; simp at hx) hl deg hd
  constructor
  · intro h
    rw [h1] at h
    injection h with h
    exact h ▸ h3
  · intro hn
    rw [h1]
    congr 1
    have e1 := C150_pythagoras h2 h3 c hc.le
    have e2 := C150_pythagoras hc hn p h2.le
    have e3 : ((x.zip y).map fun d => (polyval d.1 p - polyval d.1 c) ^ 2).sum = ((x.zip y).map fun d => (polyval d.1 c - polyval d.1 p) ^ 2).sum := by
      congr 1
      apply List.map_congr_left
      intro d _
      ring
    have e4 := sum_sq_zero (x.zip y) (fun d => polyval d.1 c - polyval d.1 p) (by linarith)
    refine poly_ext hs hd h2 hc hx fun v hv => ?_
    obtain ⟨i, hi, rfl⟩ := List.getElem_of_mem hv
    have := e4 (x[i], y[i]) (by
      rw [List.mem_iff_getElem]
      exact ⟨i, by rw [List.length_zip]; omega, by simp⟩)
    simp only at this
    linarith

/-- **C150 (superposition).**  With more distinct abscissae than the degree the fit is linear in the ordinates. -/
theorem C150_superposition (hs : IsLstsq lstsq) (x y z : List K) (hy : x.length = y.length) (hz : x.length = z.length) (deg : ℕ) (hd : 1 ≤ deg)
    (hx : deg < x.toFinset.card) (a b : K) :
    ∃ p q, polyfit lstsq x y deg = .ok p ∧ polyfit lstsq x z deg = .ok q ∧
      polyfit lstsq x (List.zipWith (fun u v => a * u + b * v) y z) deg = .ok (List.zipWith (fun u v => a * u + b * v) p q) := by
  have hx0 : x ≠ [] := by rintro rfl; simp at hx
  obtain ⟨p, p1, p2, p3⟩ := C150_normal_equations hs x y hx0 hy deg hd
  obtain ⟨q, q1, q2, q3⟩ := C150_normal_equations hs x z hx0 hz deg hd
  refine ⟨p, q, p1, q1, ?_⟩
  have hl : (List.zipWith (fun u v => a * u + b * v) p q).length = deg + 1 := by rw [List.length_zipWith, p2, q2, min_self]
  rw [C150_unique hs x _ _ (by rw [List.length_zipWith]; omega) deg hd hl hx]
  intro j hj
  have hv : ∀ v : K, polyval v (List.zipWith (fun u v => a * u + b * v) p q) = a * polyval v p + b * polyval v q := by
    intro v
    rw [polyval_range v _ (deg + 1) hl.le, polyval_range v p (deg + 1) p2.le, polyval_range v q (deg + 1) q2.le, Finset.mul_sum, Finset.mul_sum,
      ← Finset.sum_add_distrib]
    apply Finset.sum_congr rfl
    intro i hi
    rw [Finset.mem_range] at hi
    rw [List.getD_eq_getElem _ _ (by omega), List.getD_eq_getElem _ _ (by omega), List.getD_eq_getElem _ _ (by omega), List.getElem_zipWith]
    ring
  have main : ∀ x y z : List K, x.length = y.length → x.length = z.length →
      ((x.zip (List.zipWith (fun u v => a * u + b * v) y z)).map fun d => (polyval d.1 (List.zipWith (fun u v => a * u + b * v) p q) - d.2) * d.1 ^ j).sum =
        a * ((x.zip y).map fun d => (polyval d.1 p - d.2) * d.1 ^ j).sum + b * ((x.zip z).map fun d => (polyval d.1 q - d.2) * d.1 ^ j).sum := by
    intro x
    induction x with
    | nil => intro y z h1 h2; simp
    | cons u x ih =>
      intro y z h1 h2
      cases y with
      | nil => simp at h1
      | cons v y =>
        cases z with
        | nil => simp at h2
        | cons w z =>
          simp only [List.zipWith_cons_cons, List.zip_cons_cons, List.map_cons, List.sum_cons]
          rw [ih y z (by simpa using h1) (by simpa using h2), hv]
          ring
  rw [main x y z hy hz, p3 j hj, q3 j hj, mul_zero, mul_zero, add_zero]

/-- **C150 (degree).**  A fit of a higher degree never has a larger sum of squared residuals. -/
theorem C150_degree (hs : IsLstsq lstsq) (x y : List K) (hx : x ≠ []) (hl : x.length = y.length) (deg deg' : ℕ) (hd : 1 ≤ deg) (h : deg ≤ deg') :
    ∃ p q, polyfit lstsq x y deg = .ok p ∧ polyfit lstsq x y deg' = .ok q ∧ sumSqRes x y q ≤ sumSqRes x y p := by
  obtain ⟨p, p1, p2, -⟩ := C150_normal_equations hs x y hx hl deg hd
  obtain ⟨q, q1, q2, q3⟩ := C150_normal_equations hs x y hx hl deg' (by omega)
  refine ⟨p, q, p1, q1, ?_⟩
  rw [C150_pythagoras q2 q3 p (by omega)]
  have : 0 ≤ ((x.zip y).map fun d => (polyval d.1 p - polyval d.1 q) ^ 2).sum := by
    apply List.sum_nonneg
    intro v hv
    obtain ⟨d, -, rfl⟩ := List.mem_map.1 hv
    positivity
  linarith

/-- **C150 (projection).**  Fitting the fitted values gives the same polynomial. -/
theorem C150_projection (hs : IsLstsq lstsq) (x y : List K) (hl : x.length = y.length) (deg : ℕ) (hd : 1 ≤ deg) (hx : deg < x.toFinset.card) :
    ∃ p, polyfit lstsq x y deg = .ok p ∧ polyfit lstsq x (x.map fun v => polyval v p) deg = .ok p := by
  obtain ⟨p, p1, p2, -⟩ := C150_normal_equations hs x y (by rintro rfl; simp at hx) hl deg hd
  exact ⟨p, p1, C75_polyfit_exact_partial lstsq hs x p deg hd p2 hx⟩

/-- The fit of a line to three points that are not on a line. -/
example : ∃ lstsq : List (List ℝ) → List ℝ → List ℝ, polyfit lstsq [0, 1, 2] [0, 0, 3] 1 = .ok [-1 / 2, 3 / 2] := by
  obtain ⟨s, hs⟩ := exists_lstsq
  refine ⟨s, (C150_unique hs [0, 1, 2] [0, 0, 3] [-1 / 2, 3 / 2] rfl 1 le_rfl rfl ?_).2 ?_⟩
  · rw [List.toFinset_card_of_nodup (by norm_num)]; norm_num
  · intro j hj
    interval_cases j <;> norm_num [C55_polyval, Finset.sum_range_succ]

end SciCpp
