import Verif.Props.Interp
/-
  Property theorems C149: what `interp1d` computes when the fitted spline has degree 1 (the default kind, or two data points of any kind).
-/
namespace SciCpp

set_option linter.unusedSectionVars false

variable {K : Type} [Field K] [LinearOrder K] [IsStrictOrderedRing K]

/-- `f` is the piecewise linear function through the points `(x[i], y[i])`, between the first and the last abscissa. -/
def Spec.PiecewiseLinear (x y : List K) (f : K → K) : Prop :=
  ∀ (i : ℕ) (hx : i + 1 < x.length) (hy : i + 1 < y.length), ∀ q, x[i] ≤ q → q ≤ x[i + 1] →
    f q = y[i] + (y[i + 1] - y[i]) * ((q - x[i]) / (x[i + 1] - x[i]))

/-- What is assumed of the spline library: a spline of degree 1 fitted to increasing abscissae is the piecewise linear function through the data. -/
def Spec.LinearSpline (spline : ℕ → List K → List K → K → K) : Prop :=
  ∀ x y : List K, x.length = y.length → x.Pairwise (· < ·) → Spec.PiecewiseLinear x y (spline 1 y x)

/-- Such a spline library exists. -/
theorem exists_linearSpline : ∃ spline : ℕ → List K → List K → K → K, Spec.LinearSpline spline := by
  classical
  let seg : List K → List K → ℕ → K → K := fun x y i q =>
    y.getD i 0 + (y.getD (i + 1) 0 - y.getD i 0) * ((q - x.getD i 0) / (x.getD (i + 1) 0 - x.getD i 0))
  refine ⟨fun _ y x q => if h : ∃ i, i + 1 < x.length ∧ x.getD i 0 ≤ q ∧ q ≤ x.getD (i + 1) 0 then seg x y h.choose q else 0, ?_⟩
  intro x y hl hs i hx hy q h1 h2
  have hex : ∃ i, i + 1 < x.length ∧ x.getD i 0 ≤ q ∧ q ≤ x.getD (i + 1) 0 :=
    ⟨i, hx, by rw [List.getD_eq_getElem _ _ (by omega)]; exact h1, by rw [List.getD_eq_getElem _ _ hx]; exact h2⟩
  simp only [dif_pos hex]
  obtain ⟨c1, c2, c3⟩ := hex.choose_spec
  generalize hex.choose = j at c1 c2 c3
  rw [List.getD_eq_getElem _ _ (by omega)] at c2
  rw [List.getD_eq_getElem _ _ c1] at c3
  have hlt : ∀ (a b : ℕ) (ha : a < x.length) (hb : b < x.length), a < b → x[a] < x[b] := List.pairwise_iff_getElem.1 hs
  have hle : ∀ (a b : ℕ) (ha : a < x.length) (hb : b < x.length), a ≤ b → x[a] ≤ x[b] := by
    intro a b ha hb hab
    rcases Nat.lt_or_ge a b with h | h
    · exact (hlt a b ha hb h).le
    · obtain rfl : a = b := by omega
      exact le_rfl
  have e1 : seg x y j q = y[j] + (y[j + 1] - y[j]) * ((q - x[j]) / (x[j + 1] - x[j])) := by
    simp only [seg]
    rw [List.getD_eq_getElem _ _ (show j < y.length by omega), List.getD_eq_getElem _ _ (show j + 1 < y.length by omega),
      List.getD_eq_getElem _ _ (show j < x.length by omega), List.getD_eq_getElem _ _ (show j + 1 < x.length by omega)]
  rw [e1]
  have at0 : ∀ (a : ℕ) (ha : a + 1 < x.length) (ha' : a + 1 < y.length), q = x[a] →
      y[a] + (y[a + 1] - y[a]) * ((q - x[a]) / (x[a + 1] - x[a])) = y[a] := by
    intro a ha ha' e; rw [sub_eq_zero.2 e]; simp
  have at1 : ∀ (a : ℕ) (ha : a + 1 < x.length) (ha' : a + 1 < y.length), q = x[a + 1] →
      y[a] + (y[a + 1] - y[a]) * ((q - x[a]) / (x[a + 1] - x[a])) = y[a + 1] := by
    intro a ha ha' e
    have := hlt a (a + 1) (by omega) ha (by omega)
    rw [show q - x[a] = x[a + 1] - x[a] by rw [← e], div_self (sub_ne_zero.2 this.ne')]; ring
  rcases Nat.lt_trichotomy i j with h | rfl | h
  · have g := hle (i + 1) j (by omega) (by omega) (by omega)
    have q1 : q = x[i + 1] := le_antisymm h2 (g.trans c2)
    have q2 : q = x[j] := le_antisymm (h2.trans g) c2
    have : i + 1 = j := by
      by_contra hne
      have := hlt (i + 1) j (by omega) (by omega) (by omega)
      rw [← q1, ← q2] at this; exact lt_irrefl _ this
    subst this
    rw [at0 _ c1 (by omega) q2, at1 i hx hy q1]
  · rfl
  · have g := hle (j + 1) i (by omega) (by omega) (by omega)
    have q1 : q = x[j + 1] := le_antisymm c3 (g.trans h1)
    have q2 : q = x[i] := le_antisymm (c3.trans g) h1
    have : j + 1 = i := by
      by_contra hne
      have := hlt (j + 1) i (by omega) (by omega) (by omega)
      rw [← q1, ← q2] at this; exact lt_irrefl _ this
    subst this
    rw [at0 _ hx hy q2, at1 j c1 (by omega) q1]

section
variable {spline : ℕ → List K → List K → K → K}

theorem increasing_getElem {x : List K} (hs : x.Pairwise (· < ·)) (a b : ℕ) (ha : a < x.length) (hb : b < x.length) (h : a ≤ b) : x[a] ≤ x[b] := by
  rcases Nat.lt_or_ge a b with h' | h'
  · exact (List.pairwise_iff_getElem.1 hs a b ha hb h').le
  · obtain rfl : a = b := by omega
    exact le_rfl

/-- **C149 (linear interpolation).**  With increasing abscissae, `interp1d<SLINEAR>(x, y)`, or `interp1d<kind>` of two points for every kind, is the piecewise linear
function through the data. -/
theorem C149_piecewise_linear (hsp : Spec.LinearSpline spline) (kind : ℕ) (hk : 1 ≤ kind) (x y : List K) (h2 : 2 ≤ x.length) (hd : kind = 1 ∨ x.length = 2)
    (hl : x.length = y.length) (hs : x.Pairwise (· < ·)) :
    ∃ f, interp1d spline kind x y = .ok f ∧ Spec.PiecewiseLinear x y f := by
  have hmM : x[0] < x[x.length - 1] := List.pairwise_iff_getElem.1 hs 0 (x.length - 1) (by omega) (by omega) (by omega)
  have hmm : IsMinMax x x[0] x[x.length - 1] := by
    refine ⟨List.getElem_mem _, List.getElem_mem _, fun v hv => ?_⟩
    obtain ⟨i, hi, rfl⟩ := List.getElem_of_mem hv
    exact ⟨increasing_getElem hs 0 i _ hi (by omega), increasing_getElem hs i _ hi (by omega) (by omega)⟩
  refine ⟨_, interp1d_eq spline kind hmm hmM hl, ?_⟩
  have hm1 : min (x.length - 1) kind = 1 := by omega
  rw [hm1]
  set m := x[0] with hm
  set M := x[x.length - 1] with hM
  have hD : 0 < M - m := by linarith
  intro i hx hy q q1 q2
  have hs' : (x.map fun v => (v - m) / (M - m)).Pairwise (· < ·) := by
    rw [List.pairwise_map]
    exact hs.imp fun h => div_lt_div_of_pos_right (by linarith) hD
  have key := hsp (x.map fun v => (v - m) / (M - m)) y (by simpa using hl) hs' i (by simpa using hx) hy ((q - m) / (M - m))
    (by rw [List.getElem_map]; exact div_le_div_of_nonneg_right (by linarith) hD.le)
    (by rw [List.getElem_map]; exact div_le_div_of_nonneg_right (by linarith) hD.le)
  refine key.trans ?_
  simp only [List.getElem_map]
  have hg : x[i] < x[i + 1] := List.pairwise_iff_getElem.1 hs i (i + 1) (by omega) hx (by omega)
  congr 2
  rw [div_sub_div_same, div_sub_div_same, div_div_div_cancel_right₀ hD.ne']
  congr 1 <;> ring

/-- Every query between the first and the last abscissa lies between two neighbouring abscissae. -/
theorem locate (x : List K) (h2 : 2 ≤ x.length) (q : K) (h0 : x[0] ≤ q) (h1 : q ≤ x[x.length - 1]) :
    ∃ (i : ℕ) (h : i + 1 < x.length), x[i] ≤ q ∧ q ≤ x[i + 1] := by
  by_contra hcon
  push Not at hcon
  have : ∀ (i : ℕ) (h : i < x.length), i = 0 ∨ x[i] < q := by
    intro i
    induction i with
    | zero => intro _; exact Or.inl rfl
    | succ i ih =>
      intro h
      right
      apply hcon i h
      rcases ih (by omega) with rfl | h'
      · exact h0
      · exact h'.le
  rcases this (x.length - 1) (by omega) with h | h
  · omega
  · exact absurd h1 (not_le.2 h)

/-- In `[x[i], x[i+1]]` the interpolant is a convex combination of the two ordinates. -/
theorem convex_form {x y : List K} {f : K → K} (hs : x.Pairwise (· < ·)) (hf : Spec.PiecewiseLinear x y f) (i : ℕ) (hx : i + 1 < x.length) (hy : i + 1 < y.length)
    (q : K) (q1 : x[i] ≤ q) (q2 : q ≤ x[i + 1]) :
    ∃ t, 0 ≤ t ∧ t ≤ 1 ∧ f q = (1 - t) * y[i] + t * y[i + 1] ∧ q = (1 - t) * x[i] + t * x[i + 1] := by
  have hg : x[i] < x[i + 1] := List.pairwise_iff_getElem.1 hs i (i + 1) (by omega) hx (by omega)
  have hd : 0 < x[i + 1] - x[i] := by linarith
  refine ⟨(q - x[i]) / (x[i + 1] - x[i]), div_nonneg (by linarith) hd.le, (div_le_one hd).2 (by linarith), ?_, ?_⟩
  · rw [hf i hx hy q q1 q2]; ring
  · field_simp; ring

/-- **C149 (affine data).**  Samples of an affine function are interpolated exactly. -/
theorem C149_affine {x : List K} {f : K → K} (a b : K) (h2 : 2 ≤ x.length) (hs : x.Pairwise (· < ·))
    (hf : Spec.PiecewiseLinear x (x.map fun v => a * v + b) f) (q : K) (h0 : x[0] ≤ q) (h1 : q ≤ x[x.length - 1]) : f q = a * q + b := by
  obtain ⟨i, hi, q1, q2⟩ := locate x h2 q h0 h1
  obtain ⟨t, -, -, e1, e2⟩ := convex_form hs hf i hi (by simpa using hi) q q1 q2
  rw [e1]
  conv_rhs => rw [e2]
  simp only [List.getElem_map]; ring

/-- **C149 (range).**  The interpolated values stay between any bounds of the ordinates. -/
theorem C149_range {x y : List K} {f : K → K} (h2 : 2 ≤ x.length) (hl : x.length = y.length) (hs : x.Pairwise (· < ·)) (hf : Spec.PiecewiseLinear x y f)
    (lo hi : K) (hb : ∀ v ∈ y, lo ≤ v ∧ v ≤ hi) (q : K) (h0 : x[0] ≤ q) (h1 : q ≤ x[x.length - 1]) : lo ≤ f q ∧ f q ≤ hi := by
  obtain ⟨i, hi, q1, q2⟩ := locate x h2 q h0 h1
  obtain ⟨t, t0, t1, e1, -⟩ := convex_form hs hf i hi (by omega) q q1 q2
  have b1 := hb y[i] (List.getElem_mem _)
  have b2 := hb (y[i + 1]'(by omega)) (List.getElem_mem _)
  rw [e1]
  constructor <;> nlinarith [b1.1, b1.2, b2.1, b2.2]

/-- **C149 (monotone data).**  Non-decreasing ordinates are interpolated by a non-decreasing function. -/
theorem C149_monotone {x y : List K} {f : K → K} (h2 : 2 ≤ x.length) (hl : x.length = y.length) (hs : x.Pairwise (· < ·)) (hf : Spec.PiecewiseLinear x y f)
    (hy : y.Pairwise (· ≤ ·)) (p q : K) (h0 : x[0] ≤ p) (hpq : p ≤ q) (h1 : q ≤ x[x.length - 1]) : f p ≤ f q := by
  have hle : ∀ (a b : ℕ) (ha : a < y.length) (hb : b < y.length), a ≤ b → y[a] ≤ y[b] := by
    intro a b ha hb hab
    rcases Nat.lt_or_ge a b with h | h
    · exact List.pairwise_iff_getElem.1 hy a b ha hb h
    · obtain rfl : a = b := by omega
      exact le_rfl
  obtain ⟨i, hi, p1, p2⟩ := locate x h2 p h0 (hpq.trans h1)
  obtain ⟨j, hj, q1, q2⟩ := locate x h2 q (h0.trans hpq) h1
  rcases Nat.lt_trichotomy i j with h | rfl | h
  · obtain ⟨t, t0, t1, e1, -⟩ := convex_form hs hf i hi (by omega) p p1 p2
    obtain ⟨s, s0, s1, e2, -⟩ := convex_form hs hf j hj (by omega) q q1 q2
    have g1 := hle i (i + 1) (by omega) (by omega) (by omega)
    have g2 := hle (i + 1) j (by omega) (by omega) (by omega)
    have g3 := hle j (j + 1) (by omega) (by omega) (by omega)
    rw [e1, e2]; nlinarith
  · rw [hf i hi (by omega) p p1 p2, hf i hi (by omega) q q1 q2]
    have hg : x[i] < x[i + 1] := List.pairwise_iff_getElem.1 hs i (i + 1) (by omega) hi (by omega)
    have g1 := hle i (i + 1) (by omega) (by omega) (by omega)
    have : (p - x[i]) / (x[i + 1] - x[i]) ≤ (q - x[i]) / (x[i + 1] - x[i]) := div_le_div_of_nonneg_right (by linarith) (by linarith)
    nlinarith
  · have g := increasing_getElem hs (j + 1) i (by omega) (by omega) (by omega)
    have : p = q := le_antisymm hpq (q2.trans (g.trans p1))
    rw [this]

/-- **C149 (superposition).**  Interpolation is linear in the ordinates. -/
theorem C149_superposition {x y z : List K} {f g h : K → K} (a b : K) (h2 : 2 ≤ x.length) (hy : x.length = y.length) (hz : x.length = z.length)
    (hf : Spec.PiecewiseLinear x y f) (hg : Spec.PiecewiseLinear x z g) (hh : Spec.PiecewiseLinear x (List.zipWith (fun u v => a * u + b * v) y z) h)
    (q : K) (h0 : x[0] ≤ q) (h1 : q ≤ x[x.length - 1]) : h q = a * f q + b * g q := by
  obtain ⟨i, hi, q1, q2⟩ := locate x h2 q h0 h1
  rw [hf i hi (by omega) q q1 q2, hg i hi (by omega) q q1 q2, hh i hi (by rw [List.length_zipWith]; omega) q q1 q2]
  simp only [List.getElem_zipWith]; ring

/-- **C149 (error).**  The samples of a Lipschitz function, each with an error of at most `δ`, are interpolated with an error of at most `δ` plus half of the
Lipschitz constant times the largest gap between abscissae. -/
theorem C149_error {x y : List K} {f : K → K} (g : K → K) (L δ gap : K) (hL : 0 ≤ L) (h2 : 2 ≤ x.length) (hl : x.length = y.length) (hs : x.Pairwise (· < ·))
    (hf : Spec.PiecewiseLinear x y f) (hg : ∀ u v, |g u - g v| ≤ L * |u - v|)
    (hd : ∀ (i : ℕ) (h : i < x.length) (h' : i < y.length), |y[i] - g x[i]| ≤ δ)
    (hgap : ∀ (i : ℕ) (h : i + 1 < x.length), x[i + 1] - x[i] ≤ gap)
    (q : K) (h0 : x[0] ≤ q) (h1 : q ≤ x[x.length - 1]) : |f q - g q| ≤ δ + L * gap / 2 := by
  obtain ⟨i, hi, q1, q2⟩ := locate x h2 q h0 h1
  obtain ⟨t, t0, t1, e1, e2⟩ := convex_form hs hf i hi (by omega) q q1 q2
  have a1 := abs_le.1 (hd i (by omega) (by omega))
  have a2 := abs_le.1 (hd (i + 1) hi (by omega))
  have b1 := hg x[i] q
  have b2 := hg x[i + 1] q
  rw [abs_sub_comm x[i] q, abs_of_nonneg (by linarith : 0 ≤ q - x[i])] at b1
  rw [abs_of_nonneg (by linarith : 0 ≤ x[i + 1] - q)] at b2
  have b1 := abs_le.1 b1
  have b2 := abs_le.1 b2
  set d := x[i + 1] - x[i] with hdd
  have hd0 : 0 ≤ d := by linarith
  have hgp := hgap i hi
  have c1 : q - x[i] = t * d := by rw [hdd, e2]; ring
  have c2 : x[i + 1] - q = (1 - t) * d := by rw [hdd, e2]; ring
  rw [c1] at b1
  rw [c2] at b2
  have hq : 2 * (t * (1 - t)) * (L * d) ≤ L * gap / 2 := by
    have : t * (1 - t) ≤ 1 / 4 := by nlinarith [sq_nonneg (t - 1 / 2)]
    have h3 : L * d ≤ L * gap := mul_le_mul_of_nonneg_left hgp hL
    have h4 : 0 ≤ L * d := mul_nonneg hL hd0
    have h5 := mul_le_mul_of_nonneg_right this h4
    linarith
  have s0 : 0 ≤ 1 - t := by linarith
  have m1 := mul_le_mul_of_nonneg_left (add_le_add a1.2 b1.2) s0
  have m2 := mul_le_mul_of_nonneg_left (add_le_add a2.2 b2.2) t0
  have m3 := mul_le_mul_of_nonneg_left (add_le_add a1.1 b1.1) s0
  have m4 := mul_le_mul_of_nonneg_left (add_le_add a2.1 b2.1) t0
  rw [e1, abs_le]
  constructor <;> linarith

end

/-- The hypotheses of C149 are met: three points on a bent line. -/
example : ∃ (spline : ℕ → List ℚ → List ℚ → ℚ → ℚ) (f : ℚ → ℚ), interp1d spline 1 [0, 1, 3] [0, 2, 4] = .ok f ∧ f 2 = 3 := by
  obtain ⟨s, hs⟩ := exists_linearSpline (K := ℚ)
  obtain ⟨f, h1, h2⟩ := C149_piecewise_linear hs 1 (by norm_num) [0, 1, 3] [0, 2, 4] (by norm_num) (Or.inl rfl) rfl (by norm_num)
  refine ⟨s, f, h1, ?_⟩
  rw [h2 1 (by norm_num) (by norm_num) 2 (by norm_num) (by norm_num)]
  norm_num

end SciCpp
