import Verif.Props.FloatSign
import Verif.Props.Cov
import Mathlib.Analysis.Real.Sqrt
/-
  Property theorems C126: moments, kurtosis, skewness, standard error and weighted average in rounded floating point
  arithmetic (`RFl rnd`: NaN and infinities included, overflow and underflow not modelled).
-/
set_option linter.unusedSectionVars false
namespace SciCpp
open Spec

section
variable {rnd : ℚ → ℚ} {c d u : ℚ}

/-! ### exact scale factors -/

theorem comm_pow (hc : ∀ q, rnd (c * q) = c * rnd q) (n : ℕ) (q : ℚ) : rnd (c ^ n * q) = c ^ n * rnd q := by
  induction n generalizing q with
  | zero => simp
  | succ n ih => rw [pow_succ, mul_assoc, ih, hc, mul_assoc]

theorem powSq_zero {α : Type*} [One α] [Mul α] (x : α) : powSq x 0 = 1 := by rw [powSq, if_pos rfl]

theorem powSq_step {α : Type*} [One α] [Mul α] (x : α) {n : ℤ} (hn : n ≠ 0) :
    powSq x n = powSq x (n.tdiv 2) * powSq x (n.tdiv 2) * (if n.tmod 2 = 0 then 1 else x) := by
  rw [powSq, if_neg hn]

theorem powSq_scale (hc0 : c ≠ 0) (hc : ∀ q, rnd (c * q) = c * rnd q) (x : RFl rnd) (n : ℤ) :
    powSq (RFl.scale c x) n = RFl.scale (c ^ n.natAbs) (powSq x n) := by
  induction hn : n.natAbs using Nat.strong_induction_on generalizing n with
  | _ k ih =>
    subst hn
    by_cases h0 : n = 0
    · subst h0; rw [powSq_zero, powSq_zero]; simp [RFl.scale_one]
    rw [powSq_step _ h0, powSq_step _ h0]
    have e : (n.tdiv 2).natAbs = n.natAbs / 2 := Int.natAbs_tdiv n 2
    have e2 : (n.tmod 2).natAbs = n.natAbs % 2 := Int.natAbs_tmod n 2
    rw [ih _ (by omega) _ rfl, e]
    have hm := RFl.scale_mul (pow_ne_zero (n.natAbs / 2) hc0) (pow_ne_zero (n.natAbs / 2) hc0)
      (comm_pow hc (n.natAbs / 2)) (comm_pow hc (n.natAbs / 2)) (powSq x (n.tdiv 2)) (powSq x (n.tdiv 2))
    rw [← hm, ← pow_add]
    split_ifs with h1
    · have := RFl.scale_mul (pow_ne_zero (n.natAbs / 2 + n.natAbs / 2) hc0) one_ne_zero
        (comm_pow hc (n.natAbs / 2 + n.natAbs / 2)) (fun q => by rw [one_mul, one_mul])
        (powSq x (n.tdiv 2) * powSq x (n.tdiv 2)) (1 : RFl rnd)
      rw [RFl.scale_one, mul_one] at this
      rw [← this]
      congr 2
      omega
    · have := RFl.scale_mul (pow_ne_zero (n.natAbs / 2 + n.natAbs / 2) hc0) hc0
        (comm_pow hc (n.natAbs / 2 + n.natAbs / 2)) hc
        (powSq x (n.tdiv 2) * powSq x (n.tdiv 2)) x
      rw [← this, ← pow_succ]
      congr 2
      omega

/-- A filter that does not look at a non-zero scale factor: `true`, "is not NaN", "is finite". -/
def ScaleFree (p : RFl rnd → Bool) : Prop := ∀ a : ℚ, a ≠ 0 → ∀ x, p (RFl.scale a x) = p x

theorem scaleFree_true : ScaleFree (fun _ : RFl rnd => true) := fun _ _ _ => rfl
theorem scaleFree_notNan : ScaleFree (fun x : RFl rnd => !x.isNan) := by
  intro a _ x
  rcases RFl.cases x with rfl | ⟨s, rfl⟩ | ⟨q, rfl⟩ <;> rfl

/-- C126: a factor `c` that the rounding commutes with (a sign, a power of two) comes out of every central moment as
`c^n`, bit for bit, for every order, every array (NaN, infinities and the empty array included) and every filter that
ignores scale factors (none, "not NaN", "finite"). -/
theorem C126_moment_scale (hc0 : c ≠ 0) (hc : ∀ q, rnd (c * q) = c * rnd q) (h0 : rnd 0 = 0) (n : ℕ)
    (l : List (RFl rnd)) (p : RFl rnd → Bool) (hp : ScaleFree p) :
    moment n (l.map (RFl.scale c)) p = (moment n l p).map (RFl.scale (c ^ n)) := by
  unfold moment
  split_ifs with n0 n1 n2
  · subst n0; show Res.ok _ = Res.ok (RFl.scale _ _); rw [pow_zero, RFl.scale_one]
  · subst n1
    show Res.ok _ = Res.ok (RFl.scale _ _)
    rw [RFl.ofInt_def, Int.cast_zero, h0, RFl.scale_fin, mul_zero]
  · subst n2
    unfold varF
    have hcc : 0 < c * c := mul_self_pos.mpr hc0
    rw [C89_scale_covariance_same_sign hcc hc hc p p (hp c hc0) (hp c hc0), sq]
    cases covarianceF 0 l l p <;> rfl
  · show Res.ok _ = Res.ok (RFl.scale _ _)
    congr 1
    rw [mean_scale hc0 hc l p p (hp c hc0), List.map_map]
    have e : l.map ((fun x => powSq (x - RFl.scale c (mean l p)) (n : ℤ)) ∘ RFl.scale c)
        = (l.map fun x => powSq (x - mean l p) (n : ℤ)).map (RFl.scale (c ^ n)) := by
      rw [List.map_map]
      apply List.map_congr_left
      intro x _
      simp only [Function.comp_apply]
      rw [← RFl.scale_sub hc, powSq_scale hc0 hc, Int.natAbs_natCast]
    rw [e, mean_scale (pow_ne_zero n hc0) (comm_pow hc n) _ p p (hp _ (pow_ne_zero n hc0))]

theorem scale_div_scale {a : ℚ} (ha : 0 < a) (x y : RFl rnd) :
    RFl.scale a x / RFl.scale a y = x / y := by
  have hn : decide (a < 0) = false := decide_eq_false (not_lt.mpr ha.le)
  rcases RFl.cases x with rfl | ⟨s, rfl⟩ | ⟨q, rfl⟩
  · simp only [RFl.nan_div, RFl.scale_nan]
  · rcases RFl.cases y with rfl | ⟨t, rfl⟩ | ⟨r, rfl⟩
    · simp only [RFl.div_nan, RFl.scale_nan]
    · rfl
    · have : decide (a * r < 0) = decide (r < 0) := by
        rw [decide_eq_decide, mul_neg_iff]
        constructor
        · rintro (⟨-, h⟩ | ⟨h, -⟩)
          · exact h
          · exact absurd h (not_lt.mpr ha.le)
        · exact fun h => Or.inl ⟨ha, h⟩
      simp only [RFl.scale_inf, RFl.scale_fin, RFl.inf_div_fin', hn, this]
      cases s <;> rfl
  · rcases RFl.cases y with rfl | ⟨t, rfl⟩ | ⟨r, rfl⟩
    · simp only [RFl.div_nan, RFl.scale_nan]
    · rfl
    · simp only [RFl.scale_fin]
      by_cases h : r = 0
      · subst h
        rw [mul_zero, RFl.div_zero', RFl.div_zero']
        simp only [mul_eq_zero, ha.ne', false_or]
        split_ifs with h'
        · rfl
        · rw [RFl.neg_mul_decide ha.ne' h', hn, Bool.false_bne]
      · rw [RFl.div_fin h, RFl.div_fin (mul_ne_zero ha.ne' h), mul_div_mul_left _ _ ha.ne']

/-- C126: the kurtosis (either definition) of `c·x` is that of `x`, bit for bit, for a sign or a power of two. -/
theorem C126_kurtosis_scale (hc0 : c ≠ 0) (hc : ∀ q, rnd (c * q) = c * rnd q) (h0 : rnd 0 = 0)
    (fisher : Bool) (l : List (RFl rnd)) (p : RFl rnd → Bool) (hp : ScaleFree p) :
    kurtosis fisher (l.map (RFl.scale c)) p = kurtosis fisher l p := by
  unfold kurtosis
  rw [C126_moment_scale hc0 hc h0 2 l p hp, C126_moment_scale hc0 hc h0 4 l p hp]
  cases moment 2 l p with
  | ub => rfl
  | ok m2 =>
    cases moment 4 l p with
    | ub => rfl
    | ok m4 =>
      have e : RFl.scale (c ^ 4) m4 / (RFl.scale (c ^ 2) m2 * RFl.scale (c ^ 2) m2) = m4 / (m2 * m2) := by
        rw [← RFl.scale_mul (pow_ne_zero 2 hc0) (pow_ne_zero 2 hc0) (comm_pow hc 2) (comm_pow hc 2), ← pow_add]
        exact scale_div_scale (by positivity) m4 (m2 * m2)
      show (if fisher then Res.ok (RFl.scale (c ^ 4) m4 / (RFl.scale (c ^ 2) m2 * RFl.scale (c ^ 2) m2) -
        CppNum.ofInt 3) else Res.ok (RFl.scale (c ^ 4) m4 / (RFl.scale (c ^ 2) m2 * RFl.scale (c ^ 2) m2))) =
        (if fisher then Res.ok (m4 / (m2 * m2) - CppNum.ofInt 3) else Res.ok (m4 / (m2 * m2)))
      rw [e]

/-- The square root takes squares of scale factors out: `√(a²·x) = |a|·√x`. -/
def SqrtScales (a : ℚ) (sqrt : RFl rnd → RFl rnd) : Prop :=
  ∀ x, sqrt (RFl.scale (a ^ 2) x) = RFl.scale |a| (sqrt x)

/-- C126: the skewness of `c·x` is that of `x`, with the sign of `c`, bit for bit. -/
theorem C126_skew_scale (hc0 : c ≠ 0) (hc : ∀ q, rnd (c * q) = c * rnd q) (hneg : ∀ q, rnd (-q) = -rnd q) (h0 : rnd 0 = 0)
    (sqrt : RFl rnd → RFl rnd) (hs : SqrtScales (c ^ 3) sqrt) (l : List (RFl rnd)) (p : RFl rnd → Bool)
    (hp : ScaleFree p) :
    skew sqrt (l.map (RFl.scale c)) p = (skew sqrt l p).map fun s => if c < 0 then -s else s := by
  unfold skew
  rw [C126_moment_scale hc0 hc h0 2 l p hp, C126_moment_scale hc0 hc h0 3 l p hp]
  cases moment 2 l p with
  | ub => rfl
  | ok m2 =>
    cases moment 3 l p with
    | ub => rfl
    | ok m3 =>
      show Res.ok (RFl.scale (c ^ 3) m3 / sqrt (RFl.scale (c ^ 2) m2 * RFl.scale (c ^ 2) m2 * RFl.scale (c ^ 2) m2)) =
        Res.ok (if c < 0 then -(m3 / sqrt (m2 * m2 * m2)) else m3 / sqrt (m2 * m2 * m2))
      rw [← RFl.scale_mul (pow_ne_zero 2 hc0) (pow_ne_zero 2 hc0) (comm_pow hc 2) (comm_pow hc 2), ← pow_add,
        ← RFl.scale_mul (pow_ne_zero (2 + 2) hc0) (pow_ne_zero 2 hc0) (comm_pow hc (2 + 2)) (comm_pow hc 2), ← pow_add,
        show c ^ (2 + 2 + 2) = (c ^ 3) ^ 2 by ring, hs]
      congr 1
      split_ifs with hneg'
      · have h3 : c ^ 3 < 0 := Odd.pow_neg (by decide) hneg'
        have hpos : 0 < |c ^ 3| := abs_pos.mpr h3.ne
        rw [← scale_div_scale hpos m3, ← RFl.scale_neg_one, RFl.scale_div (by norm_num) (fun q => by simpa using hneg q)]
        congr 1
        rcases RFl.cases m3 with rfl | ⟨s, rfl⟩ | ⟨q, rfl⟩
        · rfl
        · simp only [RFl.scale_inf, decide_eq_true h3, decide_eq_false (not_lt.mpr hpos.le)]
          cases s <;> rfl
        · simp only [RFl.scale_fin, abs_of_neg h3]; congr 1; ring
      · have h3 : 0 < c ^ 3 := pow_pos (lt_of_le_of_ne (not_lt.mp hneg') hc0.symm) 3
        rw [abs_of_pos h3]
        exact scale_div_scale h3 _ _

/-- C126: the standard error of `c·x` is `|c|` times that of `x`, bit for bit, for every number of degrees of freedom. -/
theorem C126_sem_scale (hc0 : c ≠ 0) (hc : ∀ q, rnd (c * q) = c * rnd q) (ddof : ℤ)
    (sqrt : RFl rnd → RFl rnd) (hs : SqrtScales c sqrt) (l : List (RFl rnd)) (p : RFl rnd → Bool)
    (hp : ScaleFree p) :
    sem ddof sqrt (l.map (RFl.scale c)) p = (sem ddof sqrt l p).map (RFl.scale |c|) := by
  unfold sem varF
  have hcc : 0 < c * c := mul_self_pos.mpr hc0
  rw [C89_scale_covariance_same_sign hcc hc hc p p (hp c hc0) (hp c hc0)]
  cases covarianceF ddof l l p with
  | ub => rfl
  | ok r =>
    show Res.ok (sqrt (RFl.scale (c * c) r.1 / CppNum.ofInt r.2)) = Res.ok (RFl.scale |c| (sqrt (r.1 / CppNum.ofInt r.2)))
    rw [← RFl.scale_div hcc.ne' (fun q => by rw [mul_assoc, hc, hc, mul_assoc]), ← sq, hs]

/-- C126: `average(c·f, d·w) = c·average(f, w)` bit for bit when `d > 0`: the scale of the weights does not matter and
that of the data comes out. -/
theorem C126_average_scale (hc0 : c ≠ 0) (hd0 : 0 < d) (hc : ∀ q, rnd (c * q) = c * rnd q)
    (hd : ∀ q, rnd (d * q) = d * rnd q) (f w : List (RFl rnd)) :
    average (f.map (RFl.scale c)) (w.map (RFl.scale d)) = (average f w).map (RFl.scale c) := by
  unfold average
  simp only [List.isEmpty_map, List.length_map]
  split_ifs
  · rfl
  · rw [C89_scale_inner hc0 hd0.ne' hc hd]
    cases inner f w with
    | ub => rfl
    | ok z =>
      show Res.ok (RFl.scale (c * d) z / sum false (w.map (RFl.scale d))) = Res.ok (RFl.scale c (z / sum false w))
      have := (sumF_scale hd w (fun _ => true) (fun _ => true) (fun _ => rfl) false).1
      unfold sum
      rw [this]
      have e : RFl.scale (c * d) z = RFl.scale d (RFl.scale c z) := by
        rcases RFl.cases z with rfl | ⟨s, rfl⟩ | ⟨q, rfl⟩
        · rfl
        · simp only [RFl.scale_inf, RFl.neg_mul_decide hc0 hd0.ne']
          cases s <;> cases (decide (c < 0)) <;> cases (decide (d < 0)) <;> rfl
        · simp only [RFl.scale_fin]; congr 1; ring
      rw [e, scale_div_scale hd0, RFl.scale_div hc0 hc]

/-! ### signs -/

theorem powSq_even_NN (h0 : ∀ q, 0 ≤ q → 0 ≤ rnd q) (x : RFl rnd) {n : ℕ} (hn : Even n) : RFl.NN (powSq x (n : ℤ)) := by
  by_cases h : n = 0
  · subst h; rw [Nat.cast_zero, powSq_zero]; exact RFl.NN_fin zero_le_one
  · rw [powSq_step _ (by exact_mod_cast h), if_pos]
    · exact RFl.NN_mul h0 (RFl.NN_sq h0 _) (RFl.NN_fin zero_le_one)
    · obtain ⟨k, rfl⟩ := hn
      rw [Int.tmod_eq_emod_of_nonneg (by omega)]
      omega

theorem moment_even_NN (h0 : ∀ q, 0 ≤ q → 0 ≤ rnd q) (h1 : ∀ q, q ≤ 0 → rnd q ≤ 0) {n : ℕ} (hn : Even n)
    (l : List (RFl rnd)) (p : RFl rnd → Bool) (hlen : l.length < 2 ^ 31) :
    ∃ v, moment n l p = .ok v ∧ RFl.NN v := by
  unfold moment
  split_ifs with n0 n1 n2
  · exact ⟨_, rfl, by rw [RFl.ofInt_def]; exact RFl.NN_fin (h0 _ (by norm_num))⟩
  · subst n1; exact absurd hn (by decide)
  · obtain ⟨v, k, e, h⟩ := C89_var_nonneg h0 h1 0 l p hlen
    exact ⟨v, by rw [e]; rfl, h⟩
  · refine ⟨_, rfl, (C89_sum_mean_nonneg h0 _ p ?_ (by rwa [List.length_map])).2⟩
    intro y hy
    obtain ⟨x, -, rfl⟩ := List.mem_map.mp hy
    exact powSq_even_NN h0 _ hn

/-- C126: even central moments are never negative (they may be NaN or `+∞`), for every filter and all data. -/
theorem C126_even_moment_nonneg (h0 : ∀ q, 0 ≤ q → 0 ≤ rnd q) (h1 : ∀ q, q ≤ 0 → rnd q ≤ 0) {n : ℕ} (hn : Even n)
    (l : List (RFl rnd)) (p : RFl rnd → Bool) (hlen : l.length < 2 ^ 31) :
    ∃ v, moment n l p = .ok v ∧ RFl.lt v 0 = false := moment_even_NN h0 h1 hn l p hlen

/-- C126: Pearson's kurtosis is never negative and Fisher's is never below -3. -/
theorem C126_kurtosis_nonneg (h0 : ∀ q, 0 ≤ q → 0 ≤ rnd q) (h1 : ∀ q, q ≤ 0 → rnd q ≤ 0)
    (hm : ∀ a b : ℚ, a ≤ b → rnd a ≤ rnd b) (h3 : rnd 3 = 3) (h3' : rnd (-3) = -3)
    (l : List (RFl rnd)) (p : RFl rnd → Bool) (hlen : l.length < 2 ^ 31) :
    (∃ k, kurtosis false l p = .ok k ∧ RFl.lt k 0 = false) ∧
    ∃ k, kurtosis true l p = .ok k ∧ RFl.lt k (RFl.fin (-3)) = false := by
  obtain ⟨m2, e2, -⟩ := moment_even_NN h0 h1 (n := 2) (by decide) l p hlen
  obtain ⟨m4, e4, p4⟩ := moment_even_NN h0 h1 (n := 4) (by decide) l p hlen
  have hk : RFl.NN (m4 / (m2 * m2)) := RFl.NN_div h0 p4 (RFl.NN_sq h0 m2)
  unfold kurtosis
  rw [e2, e4]
  refine ⟨⟨_, rfl, hk⟩, _, rfl, ?_⟩
  show RFl.lt (m4 / (m2 * m2) - CppNum.ofInt 3) (RFl.fin (-3)) = false
  rw [RFl.ofInt_def]
  rcases (RFl.NN_iff _).mp hk with e | e | ⟨q, hq, e⟩
  · rw [e]; rfl
  · rw [e]; rfl
  · rw [e, RFl.sub_fin, RFl.lt_fin, decide_eq_false_iff_not, not_lt]
    have h3c : rnd ((3 : ℤ) : ℚ) = 3 := by exact_mod_cast h3
    rw [h3c, ← h3']
    exact hm _ _ (by linarith)

/-! ### rounding errors -/

theorem powSq_approx (hu : 0 ≤ u) (hr : ∀ x, |rnd x - x| ≤ u * |x|) {k : ℕ} {e A : ℚ} {x : RFl rnd}
    (hx : Approx u k e A x) (n : ℕ) (hn : n ≠ 0) :
    ∃ K, K + 2 ≤ n * k + 4 * n ∧ Approx u K (e ^ n) (A ^ n) (powSq x (n : ℤ)) := by
  induction n using Nat.strong_induction_on with
  | _ n ih =>
    rw [powSq_step _ (by exact_mod_cast hn)]
    have hdiv : ((n : ℤ).tdiv 2) = ((n / 2 : ℕ) : ℤ) := by
      rw [Int.tdiv_eq_ediv_of_nonneg (by omega)]; omega
    have hmod : ((n : ℤ).tmod 2) = ((n % 2 : ℕ) : ℤ) := by
      rw [Int.tmod_eq_emod_of_nonneg (by omega)]; omega
    rw [hdiv, hmod]
    have one : Approx u 0 1 1 (1 : RFl rnd) := Approx.exact hu 0 1 1 (by norm_num)
    have base : ∃ K, K ≤ (n / 2) * k + 4 * (n / 2) ∧ (n / 2 ≠ 0 → K + 2 ≤ (n / 2) * k + 4 * (n / 2)) ∧
        Approx u K (e ^ (n / 2)) (A ^ (n / 2)) (powSq x ((n / 2 : ℕ) : ℤ)) := by
      by_cases h : n / 2 = 0
      · rw [h]
        exact ⟨0, by omega, by simp, by rw [Nat.cast_zero, powSq_zero, pow_zero, pow_zero]; exact one⟩
      · obtain ⟨K, h1, h2⟩ := ih (n / 2) (by omega) h
        exact ⟨K, by omega, fun _ => h1, h2⟩
    obtain ⟨K, hK, hK2, hP⟩ := base
    have hpp := Approx.mul hu hr hP hP
    rw [← pow_add, ← pow_add] at hpp
    rcases Nat.mod_two_eq_zero_or_one n with hm | hm
    · rw [hm, Nat.cast_zero, if_pos rfl]
      have hq := Approx.mul hu hr hpp one
      rw [mul_one, mul_one] at hq
      have en : n / 2 + n / 2 = n := by omega
      rw [en] at hq
      refine ⟨_, ?_, hq⟩
      have : n * k = (n / 2) * k + (n / 2) * k := by rw [← Nat.add_mul, en]
      have := hK2 (by omega)
      omega
    · rw [hm, Nat.cast_one, if_neg one_ne_zero]
      have hq := Approx.mul hu hr hpp hx
      rw [← pow_succ, ← pow_succ] at hq
      have en : n / 2 + n / 2 + 1 = n := by omega
      rw [en] at hq
      refine ⟨_, ?_, hq⟩
      have : n * k = (n / 2) * k + (n / 2) * k + k := by
        conv_lhs => rw [← en]
        ring
      omega

theorem mean_of_approx (hu : 0 ≤ u) (hr : ∀ x, |rnd x - x| ≤ u * |x|) {ι : Type*} (l : List ι) (v : ι → RFl rnd)
    (e A : ι → ℚ) (k : ℕ) (h : ∀ i ∈ l, Approx u k (e i) (A i) (v i)) (hne : l ≠ []) (hlen : l.length < 2 ^ 31)
    (hn : rnd l.length = l.length) :
    Approx u (65 + Nat.clog 2 l.length + k) ((l.map e).sum / l.length) ((l.map A).sum / l.length)
      (mean (l.map v) (fun _ => true)) := by
  have hpos : (0 : ℚ) < l.length := by exact_mod_cast List.length_pos_iff.mpr hne
  have key : ∀ l' : List ι, (∀ i ∈ l', Approx u k (e i) (A i) (v i)) → ∃ s : List ℚ, l'.map v = s.map RFl.fin ∧ s.length = l'.length ∧
      |s.sum - (l'.map e).sum| ≤ ((1 + u) ^ k - 1) * (l'.map A).sum ∧ (s.map abs).sum ≤ (1 + u) ^ k * (l'.map A).sum ∧
      |(l'.map e).sum| ≤ (l'.map A).sum := by
    intro l' hl
    induction l' with
    | nil => exact ⟨[], by simp⟩
    | cons i l' ih =>
      obtain ⟨s, h1, h2, h3, h4, h5⟩ := ih (fun j hj => hl j (List.mem_cons_of_mem _ hj))
      obtain ⟨q, hq, hqe, he⟩ := hl i (by simp)
      refine ⟨q :: s, by simp [h1, hq], by simp [h2], ?_, ?_, ?_⟩
      · simp only [List.sum_cons, List.map_cons]
        have : q + s.sum - (e i + (l'.map e).sum) = (q - e i) + (s.sum - (l'.map e).sum) := by ring
        rw [this, mul_add]
        exact (abs_add_le _ _).trans (add_le_add hqe h3)
      · simp only [List.sum_cons, List.map_cons]
        have : |q| ≤ (1 + u) ^ k * A i := by
          have : q = (q - e i) + e i := by ring
          rw [this]; exact (abs_add_le _ _).trans (by linarith)
        rw [mul_add]
        exact add_le_add this h4
      · simp only [List.sum_cons, List.map_cons]
        exact (abs_add_le _ _).trans (add_le_add he h5)
  obtain ⟨s, h1, h2, h3, h4, h5⟩ := key l h
  have hsne : s ≠ [] := by
    intro h'; rw [h'] at h2; exact hne (List.length_eq_zero_iff.mp h2.symm)
  obtain ⟨q, hq, hqe, -⟩ := mean_approx hu hr (l.map v) (fun _ => true) s (by simpa using h1) hsne (by omega) (by rw [h2, hn])
  refine ⟨q, hq, ?_, ?_⟩
  · rw [List.length_map, h2, meanL, h2] at hqe
    set K := 65 + Nat.clog 2 l.length
    have hK := one_le_M hu K
    have e1 : q - (l.map e).sum / l.length = (q - s.sum / l.length) + (s.sum - (l.map e).sum) / l.length := by ring
    rw [e1]
    refine (abs_add_le _ _).trans ?_
    rw [abs_div, abs_of_pos hpos]
    have t1 : ((1 + u) ^ K - 1) * ((s.map abs).sum / l.length) ≤ ((1 + u) ^ K - 1) * ((1 + u) ^ k * ((l.map A).sum / l.length)) := by
      refine mul_le_mul_of_nonneg_left ?_ (by linarith)
      rw [← mul_div_assoc]
      exact div_le_div_of_nonneg_right h4 hpos.le
    have t2 : |s.sum - (l.map e).sum| / l.length ≤ ((1 + u) ^ k - 1) * ((l.map A).sum / l.length) := by
      rw [← mul_div_assoc]
      exact div_le_div_of_nonneg_right h3 hpos.le
    rw [pow_add]
    linarith
  · rw [abs_div, abs_of_pos hpos]
    exact div_le_div_of_nonneg_right h5 hpos.le

/-- C126: the computed central moment of order `n ≥ 3` of `N` finite numbers is finite and differs from the exact one,
`(Σ (x - mean)ⁿ)/N`, by at most `((1+u)^(L + n(L+5)) - 1)·(Σ (|x| + mean|x|)ⁿ)/N` with `L = 65 + ⌈log₂ N⌉`. -/
theorem C126_moment_error (hu : 0 ≤ u) (hr : ∀ x, |rnd x - x| ≤ u * |x|) (n : ℕ) (hn3 : 3 ≤ n) (x : List ℚ) (hx : x ≠ [])
    (hlen : x.length < 2 ^ 31) (hN : rnd x.length = x.length) :
    ∃ m, moment n (x.map (RFl.fin (rnd := rnd))) (fun _ => true) = .ok (RFl.fin m) ∧
      |m - (x.map fun y => (y - x.sum / x.length) ^ n).sum / x.length| ≤
        ((1 + u) ^ ((65 + Nat.clog 2 x.length) + n * ((65 + Nat.clog 2 x.length) + 5)) - 1) *
          ((x.map fun y => (|y| + (x.map abs).sum / x.length) ^ n).sum / x.length) := by
  have hmean := mean_approx hu hr (x.map RFl.fin) (fun _ => true) x (by simp) hx hlen hN
  rw [List.length_map] at hmean
  set L := 65 + Nat.clog 2 x.length with hL
  have hel : ∀ y ∈ x, Approx u (n * (L + 5)) ((y - x.sum / x.length) ^ n) ((|y| + (x.map abs).sum / x.length) ^ n)
      (powSq (RFl.fin y - mean (x.map (RFl.fin (rnd := rnd))) (fun _ => true)) (n : ℤ)) := by
    intro y _
    have h1 := Approx.sub hu hr (Approx.exact (rnd := rnd) hu L y |y| le_rfl) hmean
    obtain ⟨K, hK, h2⟩ := powSq_approx hu hr h1 n (by omega)
    refine h2.mono hu ?_ le_rfl
    have : n * (L + 5) = n * (L + 1) + 4 * n := by ring
    omega
  have hfin := mean_of_approx hu hr x _ _ _ _ hel hx hlen hN
  obtain ⟨m, h1, h2, -⟩ := hfin
  refine ⟨m, ?_, h2⟩
  unfold moment
  rw [if_neg (by omega), if_neg (by omega), if_neg (by omega), ← h1]
  simp only [List.map_map]
  rfl

end

/-! ### the correctly rounded square root of binary64 -/

/-- `std::sqrt` on `double`, correctly rounded to 53 bits (without overflow and underflow): the nearest multiple of
`2^(e-52)` to `√q`, where `2^e ≤ √q < 2^(e+1)`; NaN for negative numbers. -/
def sqrt64 (x : F64) : F64 :=
  match (x : Fl) with
  | .nan => RFl.nan
  | .inf s => if s then RFl.nan else RFl.inf false
  | .fin q =>
    if q < 0 then RFl.nan
    else if q = 0 then RFl.fin 0
    else
      let s : ℚ := 2 ^ (52 - expo q / 2)
      let m : ℕ := Nat.sqrt ⌊q * s ^ 2⌋.toNat
      RFl.fin ((if ((m : ℚ) + 1 / 2) ^ 2 < q * s ^ 2 then (m : ℚ) + 1 else m) / s)

theorem sqrt64_nan : sqrt64 RFl.nan = RFl.nan := rfl
theorem sqrt64_inf (s : Bool) : sqrt64 (RFl.inf s) = if s then RFl.nan else RFl.inf false := rfl
theorem sqrt64_fin (q : ℚ) : sqrt64 (RFl.fin q) = if q < 0 then RFl.nan
    else if q = 0 then RFl.fin 0
    else RFl.fin ((if ((Nat.sqrt ⌊q * ((2 : ℚ) ^ (52 - expo q / 2)) ^ 2⌋.toNat : ℚ) + 1 / 2) ^ 2 < q * ((2 : ℚ) ^ (52 - expo q / 2)) ^ 2
        then (Nat.sqrt ⌊q * ((2 : ℚ) ^ (52 - expo q / 2)) ^ 2⌋.toNat : ℚ) + 1
        else (Nat.sqrt ⌊q * ((2 : ℚ) ^ (52 - expo q / 2)) ^ 2⌋.toNat : ℚ)) / 2 ^ (52 - expo q / 2)) := rfl

/-- C126, the square root used below is the correctly rounded one: within half a unit in the last place. -/
theorem C126_sqrt64_correct (q : ℚ) (hq : 0 < q) : ∃ r : ℚ, ∃ e : ℤ, sqrt64 (RFl.fin q) = RFl.fin r ∧
    (2 : ℝ) ^ e ≤ Real.sqrt q ∧ Real.sqrt q < 2 ^ (e + 1) ∧ |(r : ℝ) - Real.sqrt q| ≤ 2 ^ (e - 53) := by
  have hq' : (0 : ℝ) < q := by exact_mod_cast hq
  obtain ⟨a, b⟩ := expo_spec hq.ne'
  rw [abs_of_pos hq] at a b
  have aR : (2 : ℝ) ^ expo q ≤ q := by
    have := (Rat.cast_le (K := ℝ)).mpr a
    push_cast at this; exact this
  have bR : (q : ℝ) < 2 ^ (expo q + 1) := by
    have := (Rat.cast_lt (K := ℝ)).mpr b
    push_cast at this; exact this
  set e := expo q / 2 with he
  set s : ℚ := 2 ^ (52 - e) with hs
  have hspos : 0 < s := by positivity
  set y := q * s ^ 2 with hy
  have hy0 : 0 ≤ y := by positivity
  set m := Nat.sqrt ⌊y⌋.toNat with hm
  have hfl : 0 ≤ ⌊y⌋ := Int.floor_nonneg.mpr hy0
  have m1 : (m : ℚ) ^ 2 ≤ y := by
    have := Nat.sqrt_le' ⌊y⌋.toNat
    rw [← hm] at this
    have h2 : ((m ^ 2 : ℕ) : ℤ) ≤ ⌊y⌋ := by omega
    have h3 := (Int.le_floor.mp h2)
    push_cast at h3; exact h3
  have m2 : y < ((m : ℚ) + 1) ^ 2 := by
    have := Nat.lt_succ_sqrt' ⌊y⌋.toNat
    rw [← hm] at this
    have h2 : ⌊y⌋ < (((m + 1) ^ 2 : ℕ) : ℤ) := by
      have : (⌊y⌋.toNat : ℤ) < (((m + 1) ^ 2 : ℕ) : ℤ) := by exact_mod_cast this
      omega
    have h3 := Int.floor_lt.mp h2
    push_cast at h3; exact h3
  have hsq : Real.sqrt (y : ℝ) = Real.sqrt q * s := by
    rw [hy]; push_cast
    rw [Real.sqrt_mul hq'.le, Real.sqrt_sq (by exact_mod_cast hspos.le)]
  have hbound : |((if ((m : ℚ) + 1 / 2) ^ 2 < y then (m : ℚ) + 1 else m : ℚ) : ℝ) - Real.sqrt (y : ℝ)| ≤ 1 / 2 := by
    have hyR : (0 : ℝ) ≤ y := by exact_mod_cast hy0
    have k1 : (m : ℝ) ≤ Real.sqrt y := by
      apply Real.le_sqrt_of_sq_le; exact_mod_cast m1
    have k2 : Real.sqrt y ≤ m + 1 := by
      apply Real.sqrt_le_iff.mpr
      exact ⟨by positivity, by exact_mod_cast m2.le⟩
    split_ifs with h
    · have k3 : (m : ℝ) + 1 / 2 ≤ Real.sqrt y := by
        apply Real.le_sqrt_of_sq_le
        have := (Rat.cast_le (K := ℝ)).mpr h.le
        push_cast at this; exact this
      push_cast
      rw [abs_le]; constructor <;> linarith
    · have k3 : Real.sqrt y ≤ (m : ℝ) + 1 / 2 := by
        apply Real.sqrt_le_iff.mpr
        refine ⟨by positivity, ?_⟩
        have := (Rat.cast_le (K := ℝ)).mpr (not_lt.mp h)
        push_cast at this; exact this
      push_cast
      rw [abs_le]; constructor <;> linarith
  refine ⟨_, e, by rw [sqrt64_fin, if_neg (not_lt.mpr hq.le), if_neg hq.ne'], ?_, ?_, ?_⟩
  · apply Real.le_sqrt_of_sq_le
    refine le_trans ?_ aR
    rw [← zpow_natCast, ← zpow_mul]
    exact zpow_le_zpow_right₀ (by norm_num) (by push_cast; omega)
  · rw [Real.sqrt_lt' (by positivity)]
    refine lt_of_lt_of_le bR ?_
    rw [← zpow_natCast, ← zpow_mul]
    exact zpow_le_zpow_right₀ (by norm_num) (by push_cast; omega)
  · have hsR : (0 : ℝ) < s := by exact_mod_cast hspos
    have e1 : Real.sqrt q = Real.sqrt y / s := by rw [hsq]; field_simp
    rw [e1]
    have e2 : (2 : ℝ) ^ (e - 53) = 1 / 2 / s := by
      rw [hs]; push_cast
      rw [show e - 53 = -(52 - e) - 1 by ring, zpow_sub₀ two_ne_zero, zpow_neg, zpow_one]
      ring
    rw [e2, Rat.cast_div, ← sub_div, abs_div, abs_of_pos hsR]
    exact div_le_div_of_nonneg_right hbound hsR.le

theorem expo_pow2 (k : ℤ) {q : ℚ} (h : q ≠ 0) : expo (2 ^ k * q) = k + expo q := by
  have h2k : (0 : ℚ) < 2 ^ k := by positivity
  obtain ⟨a, b⟩ := expo_spec h
  apply expo_unique
  · rw [abs_mul, abs_of_pos h2k, zpow_add₀ two_ne_zero]
    exact mul_le_mul_of_nonneg_left a h2k.le
  · rw [abs_mul, abs_of_pos h2k, add_assoc, zpow_add₀ two_ne_zero]
    exact mul_lt_mul_of_pos_left b h2k

theorem sqrt64_scales (k : ℤ) {a : ℚ} (ha : |a| = 2 ^ k) : SqrtScales a sqrt64 := by
  have hk : (0 : ℚ) < 2 ^ k := by positivity
  have ha2 : a ^ 2 = 2 ^ (2 * k) := by rw [← sq_abs, ha, ← zpow_natCast, ← zpow_mul, mul_comm]; rfl
  have hpos : (0 : ℚ) < a ^ 2 := by rw [ha2]; positivity
  intro x
  rcases RFl.cases x with rfl | ⟨s, rfl⟩ | ⟨q, rfl⟩
  · rfl
  · rw [RFl.scale_inf, decide_eq_false (not_lt.mpr hpos.le)]
    cases s
    · show RFl.inf false = RFl.scale |a| (RFl.inf false)
      rw [RFl.scale_inf, decide_eq_false (not_lt.mpr (abs_nonneg a))]; rfl
    · rfl
  · rw [RFl.scale_fin, sqrt64_fin, sqrt64_fin]
    by_cases h1 : q < 0
    · rw [if_pos h1, if_pos (mul_neg_of_pos_of_neg hpos h1)]; rfl
    rw [if_neg h1, if_neg (not_lt.mpr (mul_nonneg hpos.le (not_lt.mp h1)))]
    by_cases h2 : q = 0
    · subst h2; rw [mul_zero, if_pos rfl, RFl.scale_fin, mul_zero]
    rw [if_neg h2, if_neg (mul_ne_zero hpos.ne' h2), RFl.scale_fin, ha]
    have he : expo (a ^ 2 * q) / 2 = k + expo q / 2 := by rw [ha2, expo_pow2 _ h2]; omega
    have hs : (2 : ℚ) ^ (52 - expo (a ^ 2 * q) / 2) = 2 ^ (52 - expo q / 2) / 2 ^ k := by
      rw [he, ← zpow_sub₀ two_ne_zero]; congr 1; ring
    have hy : a ^ 2 * q * ((2 : ℚ) ^ (52 - expo q / 2) / 2 ^ k) ^ 2 = q * ((2 : ℚ) ^ (52 - expo q / 2)) ^ 2 := by
      rw [ha2, mul_comm 2 k, zpow_mul]
      field_simp
    rw [hs, hy]
    congr 1
    rw [div_div_eq_mul_div]
    ring

/-- C126 in `double`: `s = ±1`, `c = s·2^k`.  The `n`-th moment of `c·x` is `cⁿ` times that of `x`, the kurtosis is
unchanged, the skewness takes the sign `s`, and the standard error is multiplied by `2^k`: all bit for bit, for every
array, with or without the NaN filter. -/
theorem C126_double (s : Bool) (k : ℤ) (l : List F64) (p : F64 → Bool) (hp : ScaleFree p) :
    let c : ℚ := if s then -2 ^ k else 2 ^ k
    (∀ n, moment n (l.map (RFl.scale c)) p = (moment n l p).map (RFl.scale (c ^ n))) ∧
    (∀ fisher, kurtosis fisher (l.map (RFl.scale c)) p = kurtosis fisher l p) ∧
    skew sqrt64 (l.map (RFl.scale c)) p = (skew sqrt64 l p).map (fun g => if s then -g else g) ∧
    ∀ ddof, sem ddof sqrt64 (l.map (RFl.scale c)) p = (sem ddof sqrt64 l p).map (RFl.scale (2 ^ k)) := by
  intro c
  have h2k : (0 : ℚ) < 2 ^ k := by positivity
  have hc : ∀ q, rnd64 (c * q) = c * rnd64 q := by
    intro q
    cases s
    · exact C89_binary64_rounding.2.2.2.2.2.2.1 k q
    · exact C89_binary64_rounding.2.2.2.2.2.2.2 k q
  have hc0 : c ≠ 0 := by cases s <;> simp [c, h2k.ne']
  have habs : |c| = 2 ^ k := by cases s <;> simp [c, abs_of_pos h2k]
  have habs3 : |c ^ 3| = 2 ^ (k * 3) := by rw [abs_pow, habs, ← zpow_natCast, ← zpow_mul]; rfl
  have hsgn : (c < 0) ↔ s = true := by
    cases s
    · simp only [c, Bool.false_eq_true, if_false, iff_false, not_lt]; exact h2k.le
    · simp only [c, if_true, iff_true]; linarith
  refine ⟨fun n => C126_moment_scale hc0 hc rnd64_zero n l p hp,
    fun f => C126_kurtosis_scale hc0 hc rnd64_zero f l p hp, ?_, fun ddof => ?_⟩
  · rw [C126_skew_scale hc0 hc rnd64_neg rnd64_zero sqrt64 (sqrt64_scales _ habs3) l p hp]
    simp only [hsgn]
  · rw [C126_sem_scale hc0 hc ddof sqrt64 (sqrt64_scales _ habs) l p hp, habs]

/-! ### what rounding breaks -/

theorem powSq_four {α : Type*} [One α] [Mul α] (x : α) :
    powSq x 4 = ((1 * 1 * x) * (1 * 1 * x) * 1) * ((1 * 1 * x) * (1 * 1 * x) * 1) * 1 := by
  rw [powSq_step x (by decide : (4 : ℤ) ≠ 0), show (4 : ℤ).tdiv 2 = 2 from rfl, powSq_step x (by decide : (2 : ℤ) ≠ 0),
    show (2 : ℤ).tdiv 2 = 1 from rfl, powSq_step x (by decide : (1 : ℤ) ≠ 0), show (1 : ℤ).tdiv 2 = 0 from rfl, powSq_zero]
  rfl

theorem moment2_short (l : List F64) (h : l.length ≤ 64) (h0 : l.length ≠ 0) :
    moment 2 l (fun _ => true) =
      .ok (l.foldl (fun r x => r + (x - mean l (fun _ => true)) * (x - mean l (fun _ => true))) 0 /
        CppNum.ofInt (toI32 l.length)) := by
  have hl : ∀ (m r : F64) (k : ℕ) (t : List F64), covLoop (fun _ => true) m m r k t t =
      .ok (t.foldl (fun r x => r + (x - m) * (x - m)) r, k + t.length) := by
    intro m r k t
    induction t generalizing r k with
    | nil => rfl
    | cons x t ih =>
      rw [covLoop]
      simp only [Bool.and_self, if_true, RFl.conj_def]
      rw [ih]
      simp only [List.foldl_cons, List.length_cons]
      congr 2
      omega
  unfold moment
  rw [if_neg (by decide), if_neg (by decide), if_pos rfl]
  unfold varF covarianceF
  simp only [beq_self_eq_true, require_true, Res.bind_ok, Res.pure_eq]
  rw [if_neg h0]
  unfold pairwiseAcc2
  rw [if_neg (by simp), if_pos (by simpa [pwBlock] using h)]
  unfold covBlock
  simp only [hl, Res.bind_ok, Res.pure_eq, Nat.zero_add]
  rw [if_neg (by omega)]
  simp

theorem kurtosis_short (l : List F64) (h : l.length ≤ 64) (h0 : l.length ≠ 0) :
    kurtosis false l (fun _ => true) =
      .ok (let I : F64 := CppNum.ofInt (toI32 l.length)
        let m := l.foldl (· + ·) 0 / I
        let m2 := l.foldl (fun r x => r + (x - m) * (x - m)) 0 / I
        let m4 := (l.map fun y => ((1 * 1 * (y - m)) * (1 * 1 * (y - m)) * 1) * ((1 * 1 * (y - m)) * (1 * 1 * (y - m)) * 1) * 1).foldl
          (· + ·) 0 / I
        m4 / (m2 * m2)) := by
  unfold kurtosis
  rw [moment2_short l h h0, mean_short l h h0]
  have e4 : moment 4 l (fun _ => true) = .ok (mean (l.map (fun x => powSq (x - mean l (fun _ => true)) 4)) (fun _ => true)) := rfl
  rw [e4, mean_short (l.map _) (by simpa using h) (by simpa using h0), mean_short l h h0, List.length_map]
  simp only [powSq_four]
  rfl

/-- C126, negation: exactly, Pearson's kurtosis is at least 1; computed in `double` it can be smaller
(`{0, 0.1, 0, 0.1, 0, 0.1}`). -/
theorem C126_kurtosis_one_false : ∃ x : ℚ, rnd64 x = x ∧ ∃ k, kurtosis false
    ([0, x, 0, x, 0, x].map (RFl.fin (rnd := rnd64))) (fun _ => true) = .ok (RFl.fin k) ∧ k < 1 := by
  refine ⟨rnd64 (1 / 10), rnd64_idem _, 1 - 4 / 2 ^ 53, ?_, by norm_num⟩
  rw [kurtosis_short _ (by simp) (by simp)]
  congr 1
  decide +kernel

/-- C126, negation: the kurtosis is not invariant under exactly representable shifts: that of `{0, 1}` is 1 and that of
`{2^52, 2^52 + 1}` is 2. -/
theorem C126_shift_false :
    kurtosis false ([0, 1].map (RFl.fin (rnd := rnd64))) (fun _ => true) = .ok (RFl.fin 1) ∧
    (rnd64 (2 ^ 52 + 1) = 2 ^ 52 + 1) ∧
    kurtosis false ([0 + 2 ^ 52, 1 + 2 ^ 52].map (RFl.fin (rnd := rnd64))) (fun _ => true) = .ok (RFl.fin 2) := by
  refine ⟨?_, by decide +kernel, ?_⟩
  · rw [kurtosis_short _ (by simp) (by simp)]
    congr 1
    decide +kernel
  · rw [kurtosis_short _ (by simp) (by simp)]
    congr 1
    decide +kernel

/-! ### the hypotheses are met -/

/-- Data with an infinity, a NaN and both filters. -/
example : kurtosis true ([RFl.fin 1, RFl.nan, RFl.fin 3, RFl.inf true].map (RFl.scale (-8))) (fun x : F64 => !x.isNan) =
    kurtosis true [RFl.fin 1, RFl.nan, RFl.fin 3, RFl.inf true] (fun x : F64 => !x.isNan) := by
  have := (C126_double true 3 [RFl.fin 1, RFl.nan, RFl.fin 3, RFl.inf true] (fun x : F64 => !x.isNan) scaleFree_notNan).2.1 true
  have e : (if true = true then -2 ^ (3 : ℤ) else 2 ^ (3 : ℤ) : ℚ) = -8 := by norm_num
  rw [e] at this
  exact this

/-- The error bound applies to `double`. -/
example : ∃ m, moment 3 ([1, 2, 4].map (RFl.fin (rnd := rnd64))) (fun _ => true) = .ok (RFl.fin m) ∧
    |m - 20 / 27| ≤ ((1 + 1 / 2 ^ 53 : ℚ) ^ 283 - 1) * (3352 / 27) := by
  obtain ⟨m, h1, h2⟩ := C126_moment_error (rnd := rnd64) (u := 1 / 2 ^ 53) (by norm_num) rnd64_err 3 le_rfl [1, 2, 4] (by simp)
    (by norm_num) (rnd64_nat 3 (by norm_num))
  refine ⟨m, h1, ?_⟩
  have hc : Nat.clog 2 3 = 2 := by decide +kernel
  norm_num [hc, abs_of_pos] at h2
  norm_num
  exact h2

end SciCpp
