import Verif.Model.IntStats
import Verif.Props.IntVar
/-
  Property theorems C136: weighted averages, moments, skewness and standard error of integers.
-/
namespace SciCpp

/-! ### Specification -/

/-- The sum of the products. -/
def weighted (f w : List ℤ) : ℤ := (List.zipWith (· * ·) f w).sum

/-- The sum of the `n`-th powers of the deviations from `m`. -/
def powDevSum (n : ℕ) (m : ℤ) (l : List ℤ) : ℤ := (l.map fun x => (x - m) ^ n).sum

section
variable {lo hi : ℤ}

theorem ok_of_abs (hlo : lo ≤ -hi) (z : ℤ) (hz : |z| ≤ hi) : chk lo hi z = .ok z :=
  chk_ok.mpr ⟨⟨by have := (abs_le.mp hz).1; omega, (abs_le.mp hz).2⟩, rfl⟩

theorem tdiv_error' (a b : ℤ) (hb : b ≠ 0) : |(a : ℚ) / b - (a.tdiv b : ℤ)| < 1 := by
  obtain ⟨n, rfl | rfl⟩ := Int.eq_nat_or_neg b
  · exact_mod_cast tdiv_error a n (by omega)
  · have h := tdiv_error (-a) n (by omega)
    rw [Int.neg_tdiv] at h
    rw [Int.tdiv_neg]
    push_cast at h ⊢
    rw [div_neg, ← neg_div]
    exact h

/-! ### the weighted average -/

/-- C136: `average` of integers. Nothing, or arrays of different lengths, give 0 (the "NaN" of an integer type); otherwise, when it is defined, the weights do not add up to
0 and the result is the truncated quotient of the weighted sum by the sum of the weights, less than 1 away from the average. -/
theorem C136_average (hlo : lo ≤ -hi) (f w : List ℤ) :
    (f = [] ∨ f.length ≠ w.length → averageInt lo hi f w = .ok 0) ∧
    (f ≠ [] → f.length = w.length → ∀ a, averageInt lo hi f w = .ok a →
      w.sum ≠ 0 ∧ a = (weighted f w).tdiv w.sum ∧ |(weighted f w : ℚ) / w.sum - a| < 1) := by
  unfold averageInt
  refine ⟨fun h => if_pos ?_, fun hne hl a h => ?_⟩
  · rcases h with h | h
    · exact .inl (by simp [h])
    · exact .inr h
  · rw [if_neg (by
      rintro (h | h)
      · exact hne (List.length_eq_zero_iff.mp h)
      · exact h hl)] at h
    obtain ⟨i, e1, h⟩ := Res.bind_eq_ok'.mp h
    obtain ⟨⟨s, n⟩, e2, h⟩ := Res.bind_eq_ok'.mp h
    obtain ⟨-, rfl⟩ := (C95_inner lo hi hlo f w).1 i e1
    obtain ⟨-, rfl, -⟩ := (C95_sum lo hi w _ s n).mp e2
    simp only [List.filter_true] at h
    obtain ⟨h0, -, rfl⟩ := cdiv_ok.mp h
    exact ⟨h0, rfl, by exact_mod_cast tdiv_error' _ _ h0⟩

/-- C136: `average` of integers is defined when the absolute values of the products and those of the weights add up to representable numbers and the weights do not add up to
0; it is undefined when they do. -/
theorem C136_average_defined (hlo : lo ≤ -hi) (f w : List ℤ) (hne : f ≠ []) (hl : f.length = w.length) (h1 : ((List.zipWith (· * ·) f w).map abs).sum ≤ hi)
    (h2 : (w.map abs).sum ≤ hi) :
    (w.sum ≠ 0 → averageInt lo hi f w = .ok ((weighted f w).tdiv w.sum)) ∧ (w.sum = 0 → averageInt lo hi f w = .ub) := by
  have e1 := (C95_inner lo hi hlo f w).2 hl h1
  have e2 := C95_sum_abs lo hi hlo w w (fun _ => true) (List.Perm.refl _) (by simpa using h2)
  unfold averageInt
  rw [if_neg (by
      rintro (h | h)
      · exact hne (List.length_eq_zero_iff.mp h)
      · exact h hl), e1, Res.bind_ok, e2, Res.bind_ok]
  simp only [List.filter_true]
  refine ⟨fun h => cdiv_ok.mpr ⟨h, ?_, rfl⟩, fun h => by unfold cdiv; rw [if_pos h]⟩
  have := (abs_tdiv_le_self (List.zipWith (· * ·) f w).sum w.sum).trans ((abs_sum_leZ _).trans h1)
  have := abs_le.mp this
  exact ⟨by omega, this.2⟩

theorem weighted_bounds (m M : ℤ) (f w : List ℤ) (hl : f.length = w.length) (hw : ∀ x ∈ w, 0 ≤ x) (hf : ∀ x ∈ f, m ≤ x ∧ x ≤ M) :
    m * w.sum ≤ weighted f w ∧ weighted f w ≤ M * w.sum := by
  induction f generalizing w with
  | nil =>
    cases w with
    | nil => simp [weighted]
    | cons y ys => simp at hl
  | cons x xs ih =>
    cases w with
    | nil => simp at hl
    | cons y ys =>
      obtain ⟨h1, h2⟩ := ih ys (by simpa using hl) (fun x hx => hw x (by simp [hx])) (fun x hx => hf x (by simp [hx]))
      have hy := hw y (by simp)
      obtain ⟨a, b⟩ := hf x (by simp)
      simp only [weighted, List.zipWith_cons_cons, List.sum_cons] at h1 h2 ⊢
      constructor <;> nlinarith

/-- C136: with weights that are not negative the average of integers, when it is defined, lies between the least and the greatest element, truncation included. -/
theorem C136_average_between (hlo : lo ≤ -hi) (m M : ℤ) (f w : List ℤ) (hne : f ≠ []) (hl : f.length = w.length) (hw : ∀ x ∈ w, 0 ≤ x)
    (hf : ∀ x ∈ f, m ≤ x ∧ x ≤ M) (a : ℤ) (h : averageInt lo hi f w = .ok a) : m ≤ a ∧ a ≤ M := by
  obtain ⟨h0, rfl, -⟩ := (C136_average hlo f w).2 hne hl a h
  have hs : 0 < w.sum := lt_of_le_of_ne (List.sum_nonneg hw) (Ne.symm h0)
  obtain ⟨h1, h2⟩ := weighted_bounds m M f w hl hw hf
  have hmM : m ≤ M := by
    obtain ⟨x, hx⟩ := List.exists_mem_of_ne_nil _ hne
    exact (hf x hx).1.trans (hf x hx).2
  generalize weighted f w = s at *
  generalize w.sum = t at *
  rcases le_or_gt 0 s with hp | hn
  · rw [Int.tdiv_eq_ediv_of_nonneg hp]
    have h3 : m ≤ s / t := (Int.le_ediv_iff_mul_le hs).mpr h1
    have h4 : s / t ≤ M := by
      have : s / t < M + 1 := (Int.ediv_lt_iff_lt_mul hs).mpr (by nlinarith)
      omega
    exact ⟨h3, h4⟩
  · have e : s.tdiv t = -((-s) / t) := by
      rw [← Int.tdiv_eq_ediv_of_nonneg (by omega), Int.neg_tdiv, neg_neg]
    rw [e]
    have h3 : -M ≤ (-s) / t := (Int.le_ediv_iff_mul_le hs).mpr (by linarith)
    have h4 : (-s) / t < -m + 1 := (Int.ediv_lt_iff_lt_mul hs).mpr (by nlinarith)
    exact ⟨by omega, by omega⟩

theorem weighted_const (k : ℤ) (f : List ℤ) : weighted f (List.replicate f.length k) = k * f.sum := by
  induction f with
  | nil => simp [weighted]
  | cons x xs ih =>
    simp only [weighted, List.length_cons, List.replicate_succ, List.zipWith_cons_cons, List.sum_cons] at ih ⊢
    rw [ih]; ring

/-- C136: with equal weights the average is the mean, when both are defined. -/
theorem C136_average_mean (hlo : lo ≤ -hi) (h0 : Repr' lo hi 0) (k : ℤ) (f : List ℤ) (hne : f ≠ []) (hlen : f.length < 2 ^ 31) (a m : ℤ)
    (h : averageInt lo hi f (List.replicate f.length k) = .ok a) (h' : meanIntR lo hi f (fun _ => true) = .ok m) : a = m := by
  obtain ⟨h1, rfl, -⟩ := (C136_average hlo f _).2 hne (by simp) a h
  rw [mean_trunc _ f h0 hlen (by simpa using hne) m h', truncMean, weighted_const]
  simp only [List.sum_replicate, nsmul_eq_mul, List.filter_true] at h1 ⊢
  have hk : k ≠ 0 := by rintro rfl; simp at h1
  rw [mul_comm (f.length : ℤ) k]
  rcases lt_or_gt_of_ne hk with hk | hk
  · have := Int.mul_tdiv_mul_of_pos f.sum (f.length : ℤ) (show 0 < -k by omega)
    rw [neg_mul, neg_mul, Int.neg_tdiv_neg] at this
    exact this
  · exact Int.mul_tdiv_mul_of_pos _ _ hk

/-! ### powers -/

theorem powInt_value (n : ℕ) (a v : ℤ) (h : powInt lo hi n a = .ok v) : v = a ^ n ∧ (n ≠ 0 → Repr' lo hi (a ^ n)) := by
  induction n using Nat.strong_induction_on generalizing v with
  | _ n ih =>
    rw [powInt] at h
    by_cases hn : n = 0
    · rw [dif_pos hn] at h
      subst hn
      exact ⟨by simpa using (Res.ok.inj h).symm, fun h => absurd rfl h⟩
    · rw [dif_neg hn] at h
      obtain ⟨p, e1, h⟩ := Res.bind_eq_ok'.mp h
      obtain ⟨q, e2, h⟩ := Res.bind_eq_ok'.mp h
      obtain ⟨rfl, -⟩ := ih (n / 2) (by omega) p e1
      obtain ⟨-, rfl⟩ := chk_ok.mp e2
      obtain ⟨hr, rfl⟩ := chk_ok.mp h
      have e : a ^ (n / 2) * a ^ (n / 2) * (if n % 2 = 0 then 1 else a) = a ^ n := by
        rw [← pow_add]
        split
        · rw [mul_one]; congr 1; omega
        · rw [← pow_succ]; congr 1; omega
      rw [e] at hr ⊢
      exact ⟨rfl, fun _ => hr⟩

theorem abs_pow_le {a : ℤ} {k n : ℕ} (hk : k ≤ n) (h : 1 ≤ |a|) : |a ^ k| ≤ |a ^ n| := by
  rw [abs_pow, abs_pow]
  exact pow_le_pow_right₀ h hk

/-- C136: `pow<n>` of an integer is defined exactly when the power is representable (no intermediate product overflows first), and is then exact. -/
theorem C136_pow (hhi : 1 ≤ hi) (hlo : lo = -hi - 1) (n : ℕ) (a v : ℤ) : powInt lo hi n a = .ok v ↔ Repr' lo hi (a ^ n) ∧ v = a ^ n := by
  constructor
  · intro h
    obtain ⟨h1, h2⟩ := powInt_value n a v h
    refine ⟨?_, h1⟩
    by_cases hn : n = 0
    · subst hn; exact ⟨by simp; omega, by simpa using hhi⟩
    · exact h2 hn
  · rintro ⟨h, rfl⟩
    induction n using Nat.strong_induction_on with
    | _ n ih =>
      rw [powInt]
      by_cases hn : n = 0
      · rw [dif_pos hn, hn, pow_zero]
      · rw [dif_neg hn]
        have e : a ^ (n / 2) * a ^ (n / 2) * (if n % 2 = 0 then 1 else a) = a ^ n := by
          rw [← pow_add]
          split
          · rw [mul_one]; congr 1; omega
          · rw [← pow_succ]; congr 1; omega
        have hle : |a ^ n| ≤ hi + 1 := abs_le.mpr ⟨by have := h.1; omega, by have := h.2; omega⟩
        have hsm : ∀ k < n, |a ^ k| ≤ hi := by
          intro k hk
          rcases lt_trichotomy |a| 1 with ha | ha | ha
          · have : a = 0 := by rw [← abs_eq_zero]; have := abs_nonneg a; omega
            subst this
            rcases Nat.eq_zero_or_pos k with rfl | hk0
            · simpa using hhi
            · rw [zero_pow (by omega)]; simp; omega
          · rw [abs_pow, ha, one_pow]; exact hhi
          · have h1 : |a ^ (k + 1)| ≤ hi + 1 := (abs_pow_le (by omega) ha.le).trans hle
            rw [pow_succ, abs_mul] at h1
            have h2 : 1 ≤ |a ^ k| := by rw [abs_pow]; exact one_le_pow₀ ha.le
            nlinarith
        have hp : powInt lo hi (n / 2) a = .ok (a ^ (n / 2)) := by
          refine ih (n / 2) (by omega) ?_
          have := abs_le.mp (hsm (n / 2) (by omega))
          exact ⟨by omega, this.2⟩
        rw [hp, Res.bind_ok]
        have hq : chk lo hi (a ^ (n / 2) * a ^ (n / 2)) = .ok (a ^ (n / 2) * a ^ (n / 2)) := by
          refine chk_ok.mpr ⟨?_, rfl⟩
          by_cases h2 : n % 2 = 0
          · rw [if_pos h2, mul_one] at e; rw [e]; exact h
          · rw [← pow_add]
            have := abs_le.mp (hsm (n / 2 + n / 2) (by omega))
            exact ⟨by omega, this.2⟩
        rw [hq, Res.bind_ok, e]
        exact chk_ok.mpr ⟨h, rfl⟩

/-! ### moments -/

theorem devPow_value (n : ℕ) (m : ℤ) (l d : List ℤ) (h : devPowInt lo hi n m l = .ok d) : d = l.map fun x => (x - m) ^ n := by
  induction l generalizing d with
  | nil => simpa [devPowInt] using h.symm
  | cons x xs ih =>
    simp only [devPowInt] at h
    obtain ⟨a, e1, h⟩ := Res.bind_eq_ok'.mp h
    obtain ⟨y, e2, h⟩ := Res.bind_eq_ok'.mp h
    obtain ⟨ys, e3, h⟩ := Res.bind_eq_ok'.mp h
    obtain ⟨-, rfl⟩ := chk_ok.mp e1
    obtain ⟨rfl, -⟩ := powInt_value _ _ _ e2
    rw [List.map_cons, ← ih ys e3]
    exact (Res.ok.inj h).symm

theorem devPow_defined (hhi : 1 ≤ hi) (hlo : lo = -hi - 1) (n : ℕ) (hn : n ≠ 0) (m : ℤ) (l : List ℤ) (h : ∀ x ∈ l, |x - m| ^ n ≤ hi) :
    devPowInt lo hi n m l = .ok (l.map fun x => (x - m) ^ n) := by
  induction l with
  | nil => rfl
  | cons x xs ih =>
    have hx := h x (by simp)
    have h1 : |x - m| ≤ hi := by
      rcases le_or_gt 1 |x - m| with h1 | h1
      · exact (le_self_pow₀ h1 hn).trans hx
      · omega
    simp only [devPowInt]
    have hr : Repr' lo hi ((x - m) ^ n) := by
      rw [← abs_pow] at hx
      have := abs_le.mp hx
      exact ⟨by omega, this.2⟩
    rw [ok_of_abs (by omega) _ h1, Res.bind_ok, (C136_pow hhi hlo n (x - m) _).mpr ⟨hr, rfl⟩, Res.bind_ok, ih fun y hy => h y (by simp [hy])]
    rfl

/-- C136: the central moments of integers: `moment<0>` is 1, `moment<1>` is 0, `moment<2>` is the variance; from the third on, when it is defined, the moment is the
truncated mean of the powers of the deviations from the truncated mean. -/
theorem C136_moment_partial (h0 : Repr' lo hi 0) (l : List ℤ) (hne : l ≠ []) (hlen : l.length < 2 ^ 31) (n : ℕ) (v : ℤ) (h : momentInt lo hi n l (fun _ => true) = .ok v) :
    (n = 0 → v = 1) ∧ (n = 1 → v = 0) ∧ (n = 2 → varInt lo hi 0 l (fun _ => true) = .ok (v, l.length)) ∧
    (3 ≤ n → v = (powDevSum n (truncMean (fun _ => true) l) l).tdiv l.length) := by
  match n, h with
  | 0, h => exact ⟨fun _ => (Res.ok.inj h).symm, by omega, by omega, by omega⟩
  | 1, h => exact ⟨by omega, fun _ => (Res.ok.inj h).symm, by omega, by omega⟩
  | 2, h =>
    refine ⟨by omega, by omega, fun _ => ?_, by omega⟩
    simp only [momentInt] at h
    obtain ⟨⟨w, c⟩, e, h⟩ := Res.bind_eq_ok'.mp h
    have hc := (C135_nonneg 0 l hlen _ w c e).2
    rw [List.filter_true] at hc
    rw [e, ← hc, ← Res.ok.inj h]
  | n + 3, h =>
    refine ⟨by omega, by omega, by omega, fun _ => ?_⟩
    simp only [momentInt] at h
    obtain ⟨m, e1, h⟩ := Res.bind_eq_ok'.mp h
    obtain ⟨d, e2, h⟩ := Res.bind_eq_ok'.mp h
    have hm := mean_trunc _ l h0 hlen (by simpa using hne) m e1
    have hd := devPow_value _ _ _ _ e2
    have hdl : d.length = l.length := by rw [hd, List.length_map]
    have hv := mean_trunc _ d h0 (by omega) (by simp only [List.filter_true]; rw [← List.length_pos_iff, hdl]; exact List.length_pos_iff.mpr hne) v h
    rw [hv, truncMean]
    simp only [List.filter_true]
    rw [hdl, hd, ← hm]
    rfl

/-- C136: with a filter, the third and higher moments of integers select the *powers of the deviations* that the filter accepts, not the elements. -/
theorem C136_moment_filter (h0 : Repr' lo hi 0) (l : List ℤ) (p : ℤ → Bool) (hlen : l.length < 2 ^ 31) (hne : l.filter p ≠ []) (n : ℕ) (hn : 3 ≤ n)
    (hd : (l.map fun x => (x - truncMean p l) ^ n).filter p ≠ []) (v : ℤ) (h : momentInt lo hi n l p = .ok v) :
    v = truncMean p (l.map fun x => (x - truncMean p l) ^ n) := by
  obtain ⟨k, rfl⟩ : ∃ k, n = k + 3 := ⟨n - 3, by omega⟩
  simp only [momentInt] at h
  obtain ⟨m, e1, h⟩ := Res.bind_eq_ok'.mp h
  obtain ⟨d, e2, h⟩ := Res.bind_eq_ok'.mp h
  obtain rfl := mean_trunc p l h0 hlen hne m e1
  obtain rfl := devPow_value _ _ _ _ e2
  exact mean_trunc p _ h0 (by simpa using hlen) hd v h

theorem abs_pow_dev_sum (D : ℤ) (n : ℕ) (m : ℤ) (l : List ℤ) (h : ∀ x ∈ l, |x - m| ≤ D) : ∀ y ∈ l.map (fun x => (x - m) ^ n), |y| ≤ D ^ n := by
  intro y hy
  obtain ⟨x, hx, rfl⟩ := List.mem_map.mp hy
  rw [abs_pow]
  exact pow_le_pow_left₀ (abs_nonneg _) (h x hx) n

/-- C136: the moment of order `n ≥ 3` of integers of magnitude at most `M` is defined when `l · (2M)ⁿ` is representable, `l` being their number. -/
theorem C136_moment_defined (hhi : 1 ≤ hi) (hlo : lo = -hi - 1) (M : ℤ) (l : List ℤ) (hne : l ≠ []) (hlen : l.length < 2 ^ 31) (h : ∀ x ∈ l, |x| ≤ M) (n : ℕ)
    (hn : 3 ≤ n) (hM : l.length * (2 * M) ^ n ≤ hi) : ∃ v, momentInt lo hi n l (fun _ => true) = .ok v := by
  obtain ⟨k, rfl⟩ : ∃ k, n = k + 3 := ⟨n - 3, by omega⟩
  have hpos : 0 < l.length := List.length_pos_iff.mpr hne
  have hM0 : 0 ≤ M := by
    obtain ⟨x, hx⟩ := List.exists_mem_of_ne_nil _ hne
    exact (abs_nonneg x).trans (h x hx)
  have hP : 0 ≤ (2 * M) ^ (k + 3) := by positivity
  have hMP : M ≤ (2 * M) ^ (k + 3) := by
    rcases hM0.eq_or_lt with h0 | h0
    · rw [← h0]; simp
    · exact (show M ≤ 2 * M by omega).trans (le_self_pow₀ (by omega) (by omega))
  obtain ⟨m, e1, k1⟩ := mean_defined (lo := lo) (hi := hi) M (by omega) l hne hlen h (le_trans (mul_le_mul_of_nonneg_left hMP (by positivity)) hM)
  have hdev : ∀ x ∈ l, |x - m| ≤ 2 * M := fun x hx => (abs_sub x m).trans (by have := h x hx; omega)
  have hall := abs_pow_dev_sum (2 * M) (k + 3) m l hdev
  have h1le : (2 * M) ^ (k + 3) ≤ hi := by
    have : (1 : ℤ) * (2 * M) ^ (k + 3) ≤ l.length * (2 * M) ^ (k + 3) := mul_le_mul_of_nonneg_right (by exact_mod_cast hpos) hP
    omega
  have e2 := devPow_defined hhi hlo (k + 3) (by omega) m l fun x hx => (pow_le_pow_left₀ (abs_nonneg _) (hdev x hx) _).trans h1le
  obtain ⟨v, e3, -⟩ := mean_defined (lo := lo) (hi := hi) ((2 * M) ^ (k + 3)) (by omega) (l.map fun x => (x - m) ^ (k + 3)) (by simpa using hne) (by simpa using hlen) hall
    (by simpa using hM)
  refine ⟨v, ?_⟩
  simp only [momentInt]
  rw [e1, Res.bind_ok, e2, Res.bind_ok, e3]

/-! ### the standard error -/

theorem wrapInt_of (n : ℤ) (h : Repr' lo hi n) : wrapInt lo hi n = n := by
  unfold wrapInt
  rw [Int.emod_eq_of_lt (by have := h.1; omega) (by have := h.2; omega)]
  omega

theorem C136_sem_same (ddof : ℤ) (l : List ℤ) (hlen : l.length < 2 ^ 31) : semAllInt lo hi ddof l = semInt lo hi ddof l (fun _ => true) := by
  unfold semAllInt semInt
  cases hv : varInt lo hi ddof l (fun _ => true) with
  | ub => rfl
  | ok r =>
    obtain ⟨v, c⟩ := r
    have := (C135_nonneg ddof l hlen _ v c hv).2
    rw [List.filter_true] at this
    simp only [Res.bind_ok, this]

/-- C136: the standard error of integers, when it is defined: at least one element is accepted, and it is the root of the variance divided by their number *truncated*; it
is 0 exactly when the variance is less than the number of elements. -/
theorem C136_sem_partial (ddof : ℤ) (l : List ℤ) (p : ℤ → Bool) (hlo : lo ≤ 0) (hlen : l.length < 2 ^ 31) (hhi : l.length ≤ hi) (s : ℝ) (h : semInt lo hi ddof l p = .ok s) :
    ∃ v, varInt lo hi ddof l p = .ok (v, (l.filter p).length) ∧ 0 < (l.filter p).length ∧ s = Real.sqrt (v.tdiv (l.filter p).length : ℤ) ∧
      s ^ 2 ≤ v / (l.filter p).length ∧ (v : ℝ) / (l.filter p).length < s ^ 2 + 1 ∧ (s = 0 ↔ v < (l.filter p).length) := by
  unfold semInt at h
  obtain ⟨⟨v, c⟩, e, h⟩ := Res.bind_eq_ok'.mp h
  obtain ⟨hv, rfl⟩ := C135_nonneg ddof l hlen p v c e
  have hle := List.length_filter_le p l
  simp only at h
  rw [wrapInt_of _ ⟨by omega, by omega⟩] at h
  obtain ⟨q, e', h⟩ := Res.bind_eq_ok'.mp h
  obtain ⟨h0, -, rfl⟩ := cdiv_ok.mp e'
  have hs : s = Real.sqrt (v.tdiv (l.filter p).length : ℤ) := (Res.ok.inj h).symm
  have hpos : 0 < (l.filter p).length := by omega
  generalize (l.filter p).length = n at *
  have hq : 0 ≤ v.tdiv n := Int.tdiv_nonneg hv (by omega)
  have hs2 : s ^ 2 = (v.tdiv n : ℤ) := by rw [hs, Real.sq_sqrt (by exact_mod_cast hq)]
  have hn : (0 : ℝ) < n := by exact_mod_cast hpos
  have hdm := Int.mul_tdiv_add_tmod v n
  have hm0 := Int.tmod_nonneg (n : ℤ) hv
  have hm1 := Int.tmod_lt_of_pos v (show (0 : ℤ) < n by omega)
  refine ⟨v, e, hpos, hs, ?_, ?_, ?_⟩
  · rw [hs2, le_div_iff₀ hn]
    have : v.tdiv n * n ≤ v := by rw [mul_comm]; omega
    exact_mod_cast this
  · rw [hs2, div_lt_iff₀ hn]
    have : v < (v.tdiv n + 1) * n := by rw [add_mul, mul_comm]; omega
    exact_mod_cast this
  · have e0 : s = 0 ↔ v.tdiv n = 0 := by
      rw [hs, Real.sqrt_eq_zero (by exact_mod_cast hq)]
      exact_mod_cast Iff.rfl
    rw [e0]
    constructor
    · intro hz
      rw [hz, mul_zero] at hdm
      omega
    · intro hz
      exact Int.tdiv_eq_zero_of_lt hv hz

/-- C136: the standard error of integers is undefined when the filter accepts nothing, in particular of an empty array: the count 0 is a divisor. -/
theorem C136_sem_empty (ddof : ℤ) (l : List ℤ) (p : ℤ → Bool) (hlo : lo ≤ 0) (hhi : 0 ≤ hi) (hlen : l.length < 2 ^ 31) (h : l.filter p = []) :
    semInt lo hi ddof l p = .ub := by
  unfold semInt
  cases hv : varInt lo hi ddof l p with
  | ub => rfl
  | ok r =>
    obtain ⟨v, c⟩ := r
    obtain ⟨-, rfl⟩ := C135_nonneg ddof l hlen p v c hv
    rw [h]
    simp only [Res.bind_ok, List.length_nil, Nat.cast_zero]
    rw [wrapInt_of 0 ⟨hlo, hhi⟩]
    rfl

/-! ### skewness -/

/-- C136: the skewness of integers is undefined as soon as the cube of the variance is not representable. -/
theorem C136_skew_overflow (l : List ℤ) (p : ℤ → Bool) (v : ℤ) (c : ℕ) (hv : varInt lo hi 0 l p = .ok (v, c)) (h : hi < v ^ 3) : skewInt lo hi l p = .ub := by
  cases hs : skewInt lo hi l p with
  | ub => rfl
  | ok s =>
    exfalso
    unfold skewInt at hs
    simp only [momentInt] at hs
    rw [hv] at hs
    simp only [Res.bind_ok, Res.pure_eq] at hs
    obtain ⟨m3, -, hs⟩ := Res.bind_eq_ok'.mp hs
    obtain ⟨a, e1, hs⟩ := Res.bind_eq_ok'.mp hs
    obtain ⟨b, e2, hs⟩ := Res.bind_eq_ok'.mp hs
    obtain ⟨-, rfl⟩ := chk_ok.mp e1
    obtain ⟨hr, -⟩ := chk_ok.mp e2
    have := hr.2
    have e : v * v * v = v ^ 3 := by ring
    omega

/-- C136: the skewness of integers, when it is defined, is `m₃ / √(m₂³)` for the integer moments, and there is none exactly when the integer variance is 0. -/
theorem C136_skew_partial (l : List ℤ) (p : ℤ → Bool) (r : Option ℝ) (h : skewInt lo hi l p = .ok r) :
    ∃ m2 m3, momentInt lo hi 2 l p = .ok m2 ∧ momentInt lo hi 3 l p = .ok m3 ∧ Repr' lo hi (m2 ^ 3) ∧
      (m2 = 0 → r = none) ∧ (m2 ≠ 0 → r = some (m3 / Real.sqrt ((m2 : ℝ) ^ 3))) := by
  unfold skewInt at h
  obtain ⟨m2, e2, h⟩ := Res.bind_eq_ok'.mp h
  obtain ⟨m3, e3, h⟩ := Res.bind_eq_ok'.mp h
  obtain ⟨a, f1, h⟩ := Res.bind_eq_ok'.mp h
  obtain ⟨b, f2, h⟩ := Res.bind_eq_ok'.mp h
  obtain ⟨-, rfl⟩ := chk_ok.mp f1
  obtain ⟨hr, rfl⟩ := chk_ok.mp f2
  have e : m2 * m2 * m2 = m2 ^ 3 := by ring
  rw [e] at hr h
  have hr' := (Res.ok.inj h).symm
  refine ⟨m2, m3, e2, e3, hr, fun hz => ?_, fun hz => ?_⟩
  · rw [hr', hz, if_pos (by norm_num)]
  · rw [hr', if_neg (pow_ne_zero 3 hz)]
    push_cast
    rfl

end

/-! ### the English claims that fail, and concrete cases -/

theorem var_of_block (lo hi ddof : ℤ) (l : List ℤ) (h : l.length ≤ 64) : varInt lo hi ddof l (fun _ => true) =
    (if l.length = 0 then .ok (0, 0) else do
      let r ← covBlockInt lo hi (fun _ => true) l l
      if (r.2.2.2 : ℤ) - ddof ≤ 0 then pure (0, r.2.2.2) else do
        let v ← cdiv lo hi r.2.2.1 (toI32 r.2.2.2 - ddof)
        pure (v, r.2.2.2)) := by
  unfold varInt covarianceInt
  rw [covAcc_short _ l l rfl h]
  simp only [beq_self_eq_true, require, if_true, Res.bind_ok]
  rfl

/-- C136, false: the standard error of `{1, …, 10}` (variance 9, exactly 55/6; standard error √(55/60) ≈ 0.957) is 0 with `int`. -/
theorem C136_sem_false : varInt (-2147483648) 2147483647 1 [1, 2, 3, 4, 5, 6, 7, 8, 9, 10] (fun _ => true) = .ok (9, 10) ∧
    semAllInt (-2147483648) 2147483647 1 [1, 2, 3, 4, 5, 6, 7, 8, 9, 10] = .ok 0 := by
  have hv : varInt (-2147483648) 2147483647 1 [1, 2, 3, 4, 5, 6, 7, 8, 9, 10] (fun _ => true) = .ok (9, 10) := by
    rw [var_of_block _ _ _ _ (by decide)]
    decide +kernel
  refine ⟨hv, ?_⟩
  unfold semAllInt
  rw [hv, Res.bind_ok, show cdiv (-2147483648) 2147483647 (9, 10).1 (wrapInt (-2147483648) 2147483647 ([1, 2, 3, 4, 5, 6, 7, 8, 9, 10] : List ℤ).length) = .ok 0 by
    decide +kernel]
  simp

/-- C136, false: the skewness of `{0, 100}` is 0, but the cube of the variance 2500 overflows `int`; that of `{0, 1}` is 0, but the variance 1/4 is truncated to 0 and the
result is 0/0. -/
theorem C136_skew_false : skewInt (-2147483648) 2147483647 [0, 100] (fun _ => true) = .ub ∧ skewInt (-2147483648) 2147483647 [0, 1] (fun _ => true) = .ok none := by
  constructor
  · refine C136_skew_overflow [0, 100] _ 2500 2 ?_ (by norm_num)
    rw [var_of_block _ _ _ _ (by decide)]
    decide +kernel
  · have hv : varInt (-2147483648) 2147483647 0 [0, 1] (fun _ => true) = .ok (0, 2) := by
      rw [var_of_block _ _ _ _ (by decide)]
      decide +kernel
    have h3 : momentInt (-2147483648) 2147483647 3 [0, 1] (fun _ => true) = .ok 0 := by
      have d : devPowInt (-2147483648) 2147483647 3 0 [0, 1] = .ok [0, 1] := devPow_defined (by norm_num) (by norm_num) 3 (by norm_num) 0 [0, 1] (by decide)
      have m : meanIntR (-2147483648) 2147483647 [0, 1] (fun _ => true) = .ok 0 := by decide +kernel
      simp only [momentInt]
      rw [m, Res.bind_ok, d, Res.bind_ok, m]
    unfold skewInt
    rw [h3]
    simp only [momentInt]
    rw [hv]
    simp [chk]

/-- C136, false: the third moment of `{1, 2, 4}` is 20/27, the integer one 2; the third moment of the elements of `{-1, 3, 5}` that are not negative is 0, the integer one 1. -/
theorem C136_moment_false : momentInt (-2147483648) 2147483647 3 [1, 2, 4] (fun _ => true) = .ok 2 ∧
    (([1, 2, 4] : List ℚ).map fun x => (x - 7 / 3) ^ 3).sum / 3 = 20 / 27 ∧ momentInt (-2147483648) 2147483647 3 [-1, 3, 5] (fun x => decide (0 ≤ x)) = .ok 1 := by
  refine ⟨?_, by norm_num, ?_⟩
  · have d : devPowInt (-2147483648) 2147483647 3 2 [1, 2, 4] = .ok [-1, 0, 8] := devPow_defined (by norm_num) (by norm_num) 3 (by norm_num) 2 [1, 2, 4] (by decide)
    simp only [momentInt]
    rw [show meanIntR (-2147483648) 2147483647 [1, 2, 4] (fun _ => true) = .ok 2 by decide +kernel, Res.bind_ok, d, Res.bind_ok]
    decide +kernel
  · have d : devPowInt (-2147483648) 2147483647 3 4 [-1, 3, 5] = .ok [-125, -1, 1] :=
      devPow_defined (by norm_num) (by norm_num) 3 (by norm_num) 4 [-1, 3, 5] (by decide)
    simp only [momentInt]
    rw [show meanIntR (-2147483648) 2147483647 [-1, 3, 5] (fun x => decide (0 ≤ x)) = .ok 4 by decide +kernel, Res.bind_ok, d, Res.bind_ok]
    decide +kernel

/-- C136, false: the average of `{1, 2}` with equal weights is 3/2, the integer one 1; weights that cancel divide by zero. -/
theorem C136_average_false : averageInt (-2147483648) 2147483647 [1, 2] [1, 1] = .ok 1 ∧ averageInt (-2147483648) 2147483647 [1, 2] [1, -1] = .ub := by
  constructor
  · exact (C136_average_defined (by norm_num) [1, 2] [1, 1] (by simp) rfl (by decide) (by decide)).1 (by decide)
  · exact (C136_average_defined (by norm_num) [1, 2] [1, -1] (by simp) rfl (by decide) (by decide)).2 (by decide)

/-- The hypotheses are met: a weighted average, the greatest power, a fourth moment, a standard error and a skewness of `int`s. -/
example : averageInt (-2147483648) 2147483647 [10, 20, -7] [1, 2, 3] = .ok 4 :=
  (C136_average_defined (by norm_num) [10, 20, -7] [1, 2, 3] (by simp) rfl (by decide) (by decide)).1 (by decide)

example : powInt (-2147483648) 2147483647 31 (-2) = .ok (-2147483648) ∧ powInt (-2147483648) 2147483647 31 2 ≠ .ok 2147483648 := by
  refine ⟨(C136_pow (by norm_num) (by norm_num) 31 (-2) _).mpr ⟨⟨by norm_num, by norm_num⟩, by norm_num⟩, fun h => ?_⟩
  have := ((C136_pow (by norm_num) (by norm_num) 31 2 _).mp h).1.2
  norm_num at this

example : ∃ v, momentInt (-2147483648) 2147483647 4 [3, -50, 17, 9] (fun _ => true) = .ok v :=
  C136_moment_defined (by norm_num) (by norm_num) 50 [3, -50, 17, 9] (by simp) (by decide) (by decide) 4 (by norm_num) (by norm_num)

example : semInt (-2147483648) 2147483647 0 [0, 10] (fun _ => true) = .ok (Real.sqrt 12) := by
  have hv : varInt (-2147483648) 2147483647 0 [0, 10] (fun _ => true) = .ok (25, 2) := by
    rw [var_of_block _ _ _ _ (by decide)]
    decide +kernel
  unfold semInt
  rw [hv, Res.bind_ok, show cdiv (-2147483648) 2147483647 (25, 2).1 (wrapInt (-2147483648) 2147483647 ((25, 2) : ℤ × ℕ).2) = .ok 12 by decide +kernel]
  simp

end SciCpp
