import Verif.Proofs.FloatScale
import Verif.Proofs.Stats
import Verif.Props.Rounding
/-
  Property theorems C89 and C90: signs, exact scale factors, monotonicity and symmetry of the reductions in
  rounded floating point arithmetic, NaN and infinities included.

  Arithmetic: `RFl rnd`.  Hypotheses on the rounding are stated per theorem; binary64 meets all of them
  (`C89_binary64_rounding`).  Overflow and underflow are not modelled.
-/
set_option linter.unusedSectionVars false
namespace SciCpp
open Spec

section
variable {rnd : ℚ → ℚ}

/-! ### non-negative results -/

theorem forall₂_self {α : Type*} {P : α → Prop} {l : List α} (h : ∀ x ∈ l, P x) :
    List.Forall₂ (fun a b => a = b ∧ P a) l l := by
  induction l with
  | nil => exact List.Forall₂.nil
  | cons a l ih =>
    exact List.Forall₂.cons ⟨rfl, h a (by simp)⟩ (ih fun x hx => h x (List.mem_cons_of_mem _ hx))

theorem sumF_NN (h0 : ∀ q, 0 ≤ q → 0 ≤ rnd q) (l : List (RFl rnd)) (p : RFl rnd → Bool)
    (h : ∀ x ∈ l, RFl.NN x) : RFl.NN (sumF false l p).1 :=
  (sumF_rel (fun a b => a = b ∧ RFl.NN a) ⟨rfl, RFl.NN_zero⟩
    (by rintro a _ c _ ⟨rfl, h1⟩ ⟨rfl, h2⟩; exact ⟨rfl, RFl.NN_add h0 h1 h2⟩) p p
    (by rintro a _ ⟨rfl, -⟩; rfl) false l l (forall₂_self h)).1.2

/-- C89: a sum or a mean of elements none of which is negative is not negative (it may be NaN), for every
filter, whatever the rounding, infinities and NaNs included. -/
theorem C89_sum_mean_nonneg (h0 : ∀ q, 0 ≤ q → 0 ≤ rnd q) (l : List (RFl rnd)) (p : RFl rnd → Bool)
    (h : ∀ x ∈ l, RFl.lt x 0 = false) (hlen : l.length < 2 ^ 31) :
    RFl.lt (sumF false l p).1 0 = false ∧ RFl.lt (mean l p) 0 = false := by
  have hs : RFl.NN (sumF false l p).1 := sumF_NN h0 l p h
  refine ⟨hs, ?_⟩
  unfold mean
  split_ifs
  · exact RFl.NN_nan
  · simp only [RFl.ofInt_def]
    refine RFl.NN_div h0 hs (RFl.NN_fin (h0 _ ?_))
    have hcnt : (sumF false l p).2 ≤ l.length := by
      rw [sumF_count]; exact List.length_filter_le _ _
    rw [toI32_of_lt (by omega) (by generalize l.length = L at *; omega)]
    exact_mod_cast Nat.zero_le _

theorem inner_self_NN (h0 : ∀ q, 0 ≤ q → 0 ≤ rnd q) (a : List (RFl rnd)) :
    ∃ z, inner a a = .ok z ∧ RFl.NN z := by
  unfold inner innerOp
  induction hn : a.length using Nat.strong_induction_on generalizing a with
  | _ n ih =>
    subst hn
    unfold pairwiseAcc2
    rw [if_neg (by simp)]
    split
    · refine ⟨_, innerLoop_fold _ _ _ _ rfl, ?_⟩
      suffices h : ∀ r, RFl.NN r → RFl.NN ((a.zip a).foldl (fun acc xy => acc + xy.1 * xy.2) r) from
        h 0 RFl.NN_zero
      rename_i hc
      clear ih hc
      induction a with
      | nil => intro r hr; exact hr
      | cons x a ih => intro r hr; exact ih _ (RFl.NN_add h0 hr (RFl.NN_sq h0 x))
    · rename_i hgt
      simp only [pwBlock, not_le] at hgt
      obtain ⟨z1, e1, h1⟩ := ih _ (by simp; omega) (a.take (a.length / 2)) rfl
      obtain ⟨z2, e2, h2⟩ := ih _ (by simp; omega) (a.drop (a.length / 2)) rfl
      exact ⟨z1 + z2, by rw [e1, e2]; rfl, RFl.NN_add h0 h1 h2⟩

/-- C89: the inner product of an array with itself is never negative. -/
theorem C89_inner_self_nonneg (h0 : ∀ q, 0 ≤ q → 0 ≤ rnd q) (a : List (RFl rnd)) :
    ∃ z, inner a a = .ok z ∧ RFl.lt z 0 = false := inner_self_NN h0 a

theorem covLoop_self (h0 : ∀ q, 0 ≤ q → 0 ≤ rnd q) (p : RFl rnd → Bool) (m : RFl rnd) (l : List (RFl rnd))
    (r : RFl rnd) (hr : RFl.NN r) (c : ℕ) :
    ∃ r' c', covLoop p m m r c l l = .ok (r', c') ∧ RFl.NN r' ∧ c' ≤ c + l.length := by
  induction l generalizing r c with
  | nil => exact ⟨r, c, rfl, hr, by simp⟩
  | cons x l ih =>
    rw [covLoop]
    split_ifs
    · obtain ⟨r', c', h1, h2, h3⟩ := ih _ (RFl.NN_add h0 hr (RFl.NN_sq h0 (x - m))) (c + 1)
      exact ⟨r', c', h1, h2, by simp; omega⟩
    · obtain ⟨r', c', h1, h2, h3⟩ := ih r hr c
      exact ⟨r', c', h1, h2, by simp; omega⟩

theorem cov_self_pairwise (h0 : ∀ q, 0 ≤ q → 0 ≤ rnd q) (h1 : ∀ q, q ≤ 0 → rnd q ≤ 0) (p : RFl rnd → Bool)
    (l : List (RFl rnd)) (hlen : l.length < 2 ^ 31) :
    ∃ m r c, pairwiseAcc2 pwBlock (covBlock p) covCombine l l = .ok (m, m, r, c) ∧ RFl.NN r ∧ c ≤ l.length := by
  induction hn : l.length using Nat.strong_induction_on generalizing l with
  | _ n ih =>
    subst hn
    unfold pairwiseAcc2
    rw [if_neg (by simp)]
    split
    · obtain ⟨r, c, e, hr, hc⟩ := covLoop_self h0 p (mean l p) l 0 RFl.NN_zero 0
      refine ⟨mean l p, r, c, ?_, hr, by omega⟩
      unfold covBlock
      simp only [e, Res.bind_ok, Res.pure_eq]
    · rename_i hgt
      simp only [pwBlock, not_le] at hgt
      have L1 : (l.take (l.length / 2)).length = l.length / 2 := by simp; omega
      have L2 : (l.drop (l.length / 2)).length = l.length - l.length / 2 := by simp
      obtain ⟨m1, r1, c1, e1, n1, k1⟩ := ih _ (by omega) (l.take (l.length / 2)) (by omega) rfl
      obtain ⟨m2, r2, c2, e2, n2, k2⟩ := ih _ (by omega) (l.drop (l.length / 2)) (by omega) rfl
      rw [e1, e2]
      have hint : ∀ n : ℕ, n ≤ l.length → RFl.NN (CppNum.ofInt (toI32 (n : ℤ)) : RFl rnd) := by
        intro n hn
        rw [toI32_of_lt (by omega) (by omega), RFl.ofInt_def]
        exact RFl.NN_fin (h0 _ (by exact_mod_cast Nat.zero_le n))
      simp only [Res.bind_ok, Res.pure_eq]
      refine ⟨_, _, _, rfl, ?_, by omega⟩
      exact RFl.NN_add h0 (RFl.NN_add h0 n1 n2)
        (RFl.NN_mul_sq h0 h1 (RFl.NN_div h0 (RFl.NN_mul h0 (hint c1 (by omega)) (hint c2 (by omega)))
          (hint (c1 + c2) (by omega))) _)

/-- C89: the variance is never negative (it may be NaN or `+∞`), for every filter, every number of degrees of
freedom and every data, NaN and infinities included; so `std` never takes the root of a negative number. -/
theorem C89_var_nonneg (h0 : ∀ q, 0 ≤ q → 0 ≤ rnd q) (h1 : ∀ q, q ≤ 0 → rnd q ≤ 0) (ddof : ℤ)
    (l : List (RFl rnd)) (p : RFl rnd → Bool) (hlen : l.length < 2 ^ 31) :
    ∃ v n, varF ddof l p = .ok (v, n) ∧ RFl.lt v 0 = false := by
  obtain ⟨m, r, c, e, hr, hc⟩ := cov_self_pairwise h0 h1 p l hlen
  unfold varF covarianceF
  simp only [beq_self_eq_true, require_true, Res.bind_ok, Res.pure_eq]
  split_ifs with hl
  · exact ⟨_, _, rfl, RFl.NN_nan⟩
  · simp only [e, Res.bind_ok]
    split_ifs with hd
    · exact ⟨_, _, rfl, RFl.NN_inf⟩
    · refine ⟨_, _, rfl, RFl.NN_div h0 hr ?_⟩
      rw [RFl.ofInt_def, toI32_of_lt (by omega) (by omega)]
      exact RFl.NN_fin (h0 _ (by exact_mod_cast (not_le.mp hd).le))

/-- Data with an infinity and a NaN that the filter rejects meet the hypotheses: the variance of
`{1, NaN, 3}` without the NaN. -/
example : ∃ v n, varF 0 [RFl.fin 1, RFl.nan, RFl.fin 3] (fun x : F64 => !x.isNan) = .ok (v, n) ∧
    RFl.lt v 0 = false :=
  C89_var_nonneg (fun q h => by rw [← rnd64_zero]; exact rnd64_mono h)
    (fun q h => by rw [← rnd64_zero]; exact rnd64_mono h) 0 _ _ (by norm_num)

/-! ### monotonicity -/

/-- C89: with a monotone rounding the computed sum is monotone in every element. -/
theorem C89_sum_mono (hm : ∀ a b : ℚ, a ≤ b → rnd a ≤ rnd b) (a b : List ℚ)
    (hab : List.Forall₂ (· ≤ ·) a b) :
    ∃ s t, sum false (a.map (RFl.fin (rnd := rnd))) = RFl.fin s ∧
      sum false (b.map (RFl.fin (rnd := rnd))) = RFl.fin t ∧ s ≤ t := by
  obtain ⟨s, t, h1, h2, h3⟩ := (sumF_rel (fun x y : RFl rnd => ∃ s t, x = RFl.fin s ∧ y = RFl.fin t ∧ s ≤ t)
    ⟨0, 0, rfl, rfl, le_rfl⟩
    (by rintro _ _ _ _ ⟨s, t, rfl, rfl, h1⟩ ⟨s', t', rfl, rfl, h2⟩
        exact ⟨_, _, rfl, rfl, hm _ _ (add_le_add h1 h2)⟩)
    (fun _ => true) (fun _ => true) (fun _ _ _ => rfl) false (a.map RFl.fin) (b.map RFl.fin)
    (by
      rw [List.forall₂_map_left_iff, List.forall₂_map_right_iff]
      exact hab.imp fun x y h => ⟨x, y, rfl, rfl, h⟩)).1
  exact ⟨s, t, h1, h2, h3⟩

/-- C89: with a monotone rounding the computed mean is monotone in every element. -/
theorem C89_mean_mono (hm : ∀ a b : ℚ, a ≤ b → rnd a ≤ rnd b) (a b : List ℚ)
    (hab : List.Forall₂ (· ≤ ·) a b) (hne : a ≠ []) (hlen : a.length < 2 ^ 31)
    (hn : rnd a.length = a.length) :
    ∃ s t, mean (a.map (RFl.fin (rnd := rnd))) (fun _ => true) = RFl.fin s ∧
      mean (b.map (RFl.fin (rnd := rnd))) (fun _ => true) = RFl.fin t ∧ s ≤ t := by
  obtain ⟨s, t, h1, h2, h3⟩ := C89_sum_mono hm a b hab
  have hl := hab.length_eq
  have hpos : (0 : ℚ) < a.length := by exact_mod_cast List.length_pos_iff.mpr hne
  have hcnt : ∀ l : List ℚ, l.length = a.length → ∀ s, sum false (l.map (RFl.fin (rnd := rnd))) = RFl.fin s →
      mean (l.map (RFl.fin (rnd := rnd))) (fun _ => true) = RFl.fin (rnd (s / a.length)) := by
    intro l hla s hs
    unfold mean
    rw [if_neg (by rw [List.length_map, hla]; exact (List.length_pos_iff.mpr hne).ne')]
    have hc : (sumF false (l.map (RFl.fin (rnd := rnd))) fun _ => true).2 = a.length := by
      rw [sumF_count]; simp [hla]
    have hs' : (sumF false (l.map (RFl.fin (rnd := rnd))) fun _ => true).1 = RFl.fin s := hs
    simp only [hc, hs', RFl.ofInt_def]
    rw [toI32_of_lt (by omega) (by exact_mod_cast hlen), Int.cast_natCast, hn, RFl.div_fin hpos.ne']
  exact ⟨_, _, hcnt a rfl s h1, hcnt b hl.symm t h2, hm _ _ (div_le_div_of_nonneg_right h3 hpos.le)⟩

theorem partialSumLoop_mono (hm : ∀ a b : ℚ, a ≤ b → rnd a ≤ rnd b) (hi : ∀ q, rnd (rnd q) = rnd q)
    (l : List ℚ) (hpos : ∀ x ∈ l, 0 ≤ x) (acc : ℚ) (ha : rnd acc = acc) :
    ∃ r : List ℚ, partialSumLoop (· + ·) (RFl.fin acc) (l.map (RFl.fin (rnd := rnd))) = r.map RFl.fin ∧
      (acc :: r).Pairwise (· ≤ ·) := by
  induction l generalizing acc with
  | nil => exact ⟨[], rfl, by simp⟩
  | cons x l ih =>
    have hx := hpos x (by simp)
    have h1 : acc ≤ rnd (acc + x) := by
      rw [← ha]; conv_rhs => rw [ha]
      exact hm _ _ (by linarith)
    obtain ⟨r, e, hr⟩ := ih (fun y hy => hpos y (List.mem_cons_of_mem _ hy)) (rnd (acc + x)) (hi _)
    refine ⟨rnd (acc + x) :: r, ?_, ?_⟩
    · rw [List.map_cons, partialSumLoop, RFl.add_fin, e]; rfl
    · rw [List.pairwise_cons]
      refine ⟨?_, hr⟩
      intro y hy
      rcases List.mem_cons.mp hy with rfl | hy
      · exact h1
      · exact h1.trans ((List.pairwise_cons.mp hr).1 y hy)

/-- C89: with a monotone, idempotent rounding the cumulative sums of non-negative numbers never decrease. -/
theorem C89_cumsum_mono (hm : ∀ a b : ℚ, a ≤ b → rnd a ≤ rnd b) (hi : ∀ q, rnd (rnd q) = rnd q) (cat : Cat)
    (c : Cont) (x : List ℚ) (hrep : ∀ q ∈ x, rnd q = q) (hpos : ∀ q ∈ x, 0 ≤ q) :
    ∃ r : List ℚ, (cumOp cat c (· + ·) (x.map (RFl.fin (rnd := rnd)))).1 = r.map RFl.fin ∧
      r.length = x.length ∧ r.Pairwise (· ≤ ·) := by
  have e1 : (cumOp cat c (· + ·) (x.map (RFl.fin (rnd := rnd)))).1 = partialSum (· + ·) (x.map RFl.fin) := by
    cases cat <;> rfl
  rw [e1]
  rcases x with _ | ⟨x, l⟩
  · exact ⟨[], rfl, rfl, by simp⟩
  · obtain ⟨r, e, hr⟩ := partialSumLoop_mono hm hi l (fun y hy => hpos y (List.mem_cons_of_mem _ hy)) x
      (hrep x (by simp))
    refine ⟨x :: r, by rw [List.map_cons, partialSum, e]; rfl, ?_, hr⟩
    have hlen : ∀ (acc : RFl rnd) (l : List (RFl rnd)), (partialSumLoop (· + ·) acc l).length = l.length := by
      intro acc l
      induction l generalizing acc with
      | nil => rfl
      | cons y l ih => simp [partialSumLoop, ih]
    have := congrArg List.length e
    rw [hlen, List.length_map, List.length_map] at this
    simp [this]

/-- C89: the first difference has the sign of the exact one (`diff` of an increasing array is positive). -/
theorem C89_diff_sign (h0 : rnd 0 = 0) (hp : ∀ q, 0 < q → 0 < rnd q) (hn : ∀ q, q < 0 → rnd q < 0)
    (a b : ℚ) : ∃ d, (RFl.fin b - RFl.fin a : RFl rnd) = RFl.fin d ∧
      (0 < d ↔ a < b) ∧ (d = 0 ↔ a = b) ∧ (d < 0 ↔ b < a) := by
  refine ⟨rnd (b - a), RFl.sub_fin _ _, ?_⟩
  rcases lt_trichotomy a b with h | h | h
  · have := hp (b - a) (by linarith)
    exact ⟨by simp [this, h], by simp [this.ne', h.ne], by simp [not_lt.mpr this.le, not_lt.mpr h.le]⟩
  · subst h; simp [h0]
  · have := hn (b - a) (by linarith)
    exact ⟨by simp [not_lt.mpr this.le, not_lt.mpr h.le], by simp [this.ne, h.ne'], by simp [this, h]⟩

/-! ### exact scale factors -/

variable {c d : ℚ}

theorem forall₂_scale (c : ℚ) (l : List (RFl rnd)) :
    List.Forall₂ (fun a b => b = RFl.scale c a) l (l.map (RFl.scale c)) := by
  rw [List.forall₂_map_right_iff]
  induction l with
  | nil => exact List.Forall₂.nil
  | cons a l ih => exact List.Forall₂.cons rfl ih

theorem sumF_scale (hc : ∀ q, rnd (c * q) = c * rnd q) (l : List (RFl rnd)) (p p' : RFl rnd → Bool)
    (hp : ∀ x, p' (RFl.scale c x) = p x) (i : Bool) :
    (sumF i (l.map (RFl.scale c)) p').1 = RFl.scale c (sumF i l p).1 ∧
      (sumF i (l.map (RFl.scale c)) p').2 = (sumF i l p).2 := by
  have := sumF_rel (fun a b : RFl rnd => b = RFl.scale c a) (RFl.scale_zero c).symm
    (by rintro a _ e _ rfl rfl; exact (RFl.scale_add hc a e).symm) p p'
    (by rintro a _ rfl; exact (hp a).symm) i l (l.map (RFl.scale c)) (forall₂_scale c l)
  exact ⟨this.1, this.2.symm⟩

theorem mean_scale (hc0 : c ≠ 0) (hc : ∀ q, rnd (c * q) = c * rnd q) (l : List (RFl rnd))
    (p p' : RFl rnd → Bool) (hp : ∀ x, p' (RFl.scale c x) = p x) :
    mean (l.map (RFl.scale c)) p' = RFl.scale c (mean l p) := by
  unfold mean
  rw [List.length_map]
  split_ifs
  · rfl
  · simp only [sumF_scale hc l p p' hp false, RFl.scale_div hc0 hc]

/-- C89: a factor `c` that the rounding commutes with (a sign, a power of two) can be taken out of the
computed sum and mean exactly, NaN and infinities included.  `p'` accepts `c·x` exactly when `p` accepts
`x`. -/
theorem C89_scale_sum_mean (hc0 : c ≠ 0) (hc : ∀ q, rnd (c * q) = c * rnd q) (l : List (RFl rnd))
    (p p' : RFl rnd → Bool) (hp : ∀ x, p' (RFl.scale c x) = p x) :
    (sumF false (l.map (RFl.scale c)) p').1 = RFl.scale c (sumF false l p).1 ∧
    mean (l.map (RFl.scale c)) p' = RFl.scale c (mean l p) :=
  ⟨(sumF_scale hc l p p' hp false).1, mean_scale hc0 hc l p p' hp⟩

theorem innerLoop_scale (hc0 : c ≠ 0) (hd0 : d ≠ 0) (hc : ∀ q, rnd (c * q) = c * rnd q)
    (hd : ∀ q, rnd (d * q) = d * rnd q) (a b : List (RFl rnd)) (r : RFl rnd) :
    innerLoop (· * ·) (RFl.scale (c * d) r) (a.map (RFl.scale c)) (b.map (RFl.scale d))
      = (innerLoop (· * ·) r a b).map (RFl.scale (c * d)) := by
  have hcd : ∀ q, rnd (c * d * q) = c * d * rnd q := fun q => by rw [mul_assoc, hc, hd, mul_assoc]
  induction a generalizing b r with
  | nil => rfl
  | cons x a ih =>
    rcases b with _ | ⟨y, b⟩
    · rfl
    · rw [List.map_cons, List.map_cons, innerLoop, innerLoop, ← ih, RFl.scale_add hcd,
        RFl.scale_mul hc0 hd0 hc hd]

/-- C89: the inner product scales exactly in both arguments. -/
theorem C89_scale_inner (hc0 : c ≠ 0) (hd0 : d ≠ 0) (hc : ∀ q, rnd (c * q) = c * rnd q)
    (hd : ∀ q, rnd (d * q) = d * rnd q) (a b : List (RFl rnd)) :
    inner (a.map (RFl.scale c)) (b.map (RFl.scale d)) = (inner a b).map (RFl.scale (c * d)) := by
  have hcd : ∀ q, rnd (c * d * q) = c * d * rnd q := fun q => by rw [mul_assoc, hc, hd, mul_assoc]
  unfold inner innerOp
  induction hn : a.length using Nat.strong_induction_on generalizing a b with
  | _ n ih =>
    subst hn
    unfold pairwiseAcc2
    simp only [List.length_map, ne_eq]
    split_ifs with h1 h2
    · have := innerLoop_scale hc0 hd0 hc hd a b 0
      rwa [RFl.scale_zero] at this
    · simp only [pwBlock, not_le] at h2
      simp only [← List.map_take, ← List.map_drop]
      rw [ih _ (by simp; omega) (a.take (a.length / 2)) (b.take (a.length / 2)) rfl,
        ih _ (by simp; omega) (a.drop (a.length / 2)) (b.drop (a.length / 2)) rfl]
      cases pairwiseAcc2 pwBlock (innerLoop (· * ·) 0) (· + ·) (a.take (a.length / 2)) (b.take (a.length / 2)) with
      | ub => rfl
      | ok z1 =>
        cases pairwiseAcc2 pwBlock (innerLoop (· * ·) 0) (· + ·) (a.drop (a.length / 2)) (b.drop (a.length / 2)) with
        | ub => rfl
        | ok z2 =>
          show Res.ok (RFl.scale (c * d) z1 + RFl.scale (c * d) z2) = Res.ok (RFl.scale (c * d) (z1 + z2))
          rw [RFl.scale_add hcd]
    · rfl

/-- Action of the factors on the accumulator of the covariance. -/
def scaleAcc (c d : ℚ) (r : CovAcc (RFl rnd)) : CovAcc (RFl rnd) :=
  (RFl.scale c r.1, RFl.scale d r.2.1, RFl.scale (c * d) r.2.2.1, r.2.2.2)

theorem covLoop_scale (hc0 : c ≠ 0) (hd0 : d ≠ 0) (hc : ∀ q, rnd (c * q) = c * rnd q)
    (hd : ∀ q, rnd (d * q) = d * rnd q) (p p' : RFl rnd → Bool) (hp : ∀ x, p' (RFl.scale c x) = p x)
    (hp2 : ∀ x, p' (RFl.scale d x) = p x) (m1 m2 : RFl rnd) (a b : List (RFl rnd)) (r : RFl rnd) (n : ℕ) :
    covLoop p' (RFl.scale c m1) (RFl.scale d m2) (RFl.scale (c * d) r) n (a.map (RFl.scale c)) (b.map (RFl.scale d))
      = (covLoop p m1 m2 r n a b).map fun rc => (RFl.scale (c * d) rc.1, rc.2) := by
  have hcd : ∀ q, rnd (c * d * q) = c * d * rnd q := fun q => by rw [mul_assoc, hc, hd, mul_assoc]
  induction a generalizing b r n with
  | nil => rfl
  | cons x a ih =>
    rcases b with _ | ⟨y, b⟩
    · rfl
    · rw [List.map_cons, List.map_cons, covLoop, covLoop, hp, hp2]
      simp only [RFl.conj_def]
      split_ifs
      · rw [← ih, RFl.scale_add hcd, RFl.scale_mul hc0 hd0 hc hd, RFl.scale_sub hc, RFl.scale_sub hd]
      · rw [← ih]

theorem scale_comm_mul (hc0 : c ≠ 0) (hc : ∀ q, rnd (c * q) = c * rnd q) (x y : RFl rnd) :
    x * RFl.scale c y = RFl.scale c (x * y) := by
  have := RFl.scale_mul (rnd := rnd) (c := 1) (d := c) one_ne_zero hc0 (by simp) hc x y
  rw [one_mul, RFl.scale_one] at this
  exact this.symm

theorem covCombine_scale (hc0 : c ≠ 0) (hd0 : d ≠ 0) (hc : ∀ q, rnd (c * q) = c * rnd q)
    (hd : ∀ q, rnd (d * q) = d * rnd q) (r1 r2 : CovAcc (RFl rnd)) :
    covCombine (scaleAcc c d r1) (scaleAcc c d r2) = scaleAcc c d (covCombine r1 r2) := by
  have hcd : ∀ q, rnd (c * d * q) = c * d * rnd q := fun q => by rw [mul_assoc, hc, hd, mul_assoc]
  obtain ⟨m11, m12, c1, n1⟩ := r1
  obtain ⟨m21, m22, c2, n2⟩ := r2
  unfold covCombine scaleAcc
  simp only [RFl.conj_def]
  refine Prod.ext ?_ (Prod.ext ?_ (Prod.ext ?_ rfl))
  · simp only [scale_comm_mul hc0 hc, ← RFl.scale_add hc]
  · simp only [scale_comm_mul hd0 hd, ← RFl.scale_add hd]
  · simp only
    rw [← RFl.scale_sub hc, ← RFl.scale_sub hd, scale_comm_mul hd0 hd,
      ← RFl.scale_mul hd0 hc0 hd hc, mul_comm d c, RFl.scale_add hcd, RFl.scale_add hcd]

theorem cov_pairwise_scale (hc0 : c ≠ 0) (hd0 : d ≠ 0) (hc : ∀ q, rnd (c * q) = c * rnd q)
    (hd : ∀ q, rnd (d * q) = d * rnd q) (p p' : RFl rnd → Bool) (hp : ∀ x, p' (RFl.scale c x) = p x)
    (hp2 : ∀ x, p' (RFl.scale d x) = p x) (a b : List (RFl rnd)) :
    pairwiseAcc2 pwBlock (covBlock p') covCombine (a.map (RFl.scale c)) (b.map (RFl.scale d))
      = (pairwiseAcc2 pwBlock (covBlock p) covCombine a b).map (scaleAcc c d) := by
  induction hL : a.length using Nat.strong_induction_on generalizing a b with
  | _ n ih =>
    subst hL
    unfold pairwiseAcc2
    simp only [List.length_map, ne_eq]
    split_ifs with h1 h2
    · unfold covBlock
      have := covLoop_scale hc0 hd0 hc hd p p' hp hp2 (mean a p) (mean b p) a b 0 0
      rw [RFl.scale_zero] at this
      simp only [mean_scale hc0 hc a p p' hp, mean_scale hd0 hd b p p' hp2, this]
      cases covLoop p (mean a p) (mean b p) 0 0 a b with
      | ub => rfl
      | ok z => rfl
    · simp only [pwBlock, not_le] at h2
      simp only [← List.map_take, ← List.map_drop]
      rw [ih _ (by simp; omega) (a.take (a.length / 2)) (b.take (a.length / 2)) rfl,
        ih _ (by simp; omega) (a.drop (a.length / 2)) (b.drop (a.length / 2)) rfl]
      cases pairwiseAcc2 pwBlock (covBlock p) covCombine (a.take (a.length / 2)) (b.take (a.length / 2)) with
      | ub => rfl
      | ok z1 =>
        cases pairwiseAcc2 pwBlock (covBlock p) covCombine (a.drop (a.length / 2)) (b.drop (a.length / 2)) with
        | ub => rfl
        | ok z2 =>
          show Res.ok (covCombine (scaleAcc c d z1) (scaleAcc c d z2)) = Res.ok (scaleAcc c d (covCombine z1 z2))
          rw [covCombine_scale hc0 hd0 hc hd]
    · rfl

/-- C89: scaling by two factors of the same sign commutes with the covariance without any condition: also when too
few elements are accepted (both sides are then `+∞`), when the ranges are empty, and when the call is undefined. -/
theorem C89_scale_covariance_same_sign (hcd0 : 0 < c * d) (hc : ∀ q, rnd (c * q) = c * rnd q)
    (hd : ∀ q, rnd (d * q) = d * rnd q) (p p' : RFl rnd → Bool) (hp : ∀ x, p' (RFl.scale c x) = p x)
    (hp2 : ∀ x, p' (RFl.scale d x) = p x) (ddof : ℤ) (x y : List (RFl rnd)) :
    covarianceF ddof (x.map (RFl.scale c)) (y.map (RFl.scale d)) p'
      = (covarianceF ddof x y p).map fun r => (RFl.scale (c * d) r.1, r.2) := by
  have hc0 : c ≠ 0 := left_ne_zero_of_mul hcd0.ne'
  have hd0 : d ≠ 0 := right_ne_zero_of_mul hcd0.ne'
  have hcd : ∀ q, rnd (c * d * q) = c * d * rnd q := fun q => by rw [mul_assoc, hc, hd, mul_assoc]
  unfold covarianceF
  rw [cov_pairwise_scale hc0 hd0 hc hd p p' hp hp2]
  simp only [List.length_map]
  cases hreq : (x.length == y.length) with
  | false => rfl
  | true =>
    simp only [require_true, Res.bind_ok, Res.pure_eq]
    split_ifs with hl
    · rfl
    · cases pairwiseAcc2 pwBlock (covBlock p) covCombine x y with
      | ub => rfl
      | ok z =>
        obtain ⟨m1, m2, cv, cnt⟩ := z
        show (if (cnt : ℤ) - ddof ≤ 0 then Res.ok (CppNum.infty, cnt)
          else Res.ok (RFl.scale (c * d) cv / CppNum.ofInt (toI32 cnt - ddof), cnt)) =
          Res.map _ (if (cnt : ℤ) - ddof ≤ 0 then Res.ok (CppNum.infty, cnt)
          else Res.ok (cv / CppNum.ofInt (toI32 cnt - ddof), cnt))
        split_ifs
        · show _ = Res.ok (RFl.scale (c * d) (RFl.inf false), cnt)
          rw [RFl.scale_inf, decide_eq_false (not_lt.mpr hcd0.le)]; rfl
        · show _ = Res.ok (RFl.scale (c * d) _, cnt)
          rw [RFl.scale_div (mul_ne_zero hc0 hd0) hcd]

/-- C89: the covariance (and the variance, `c = d`) scales exactly: `cov(c·x, d·y) = c·d·cov(x, y)`, NaN and
infinities included. -/
theorem C89_scale_covariance (hc0 : c ≠ 0) (hd0 : d ≠ 0) (hc : ∀ q, rnd (c * q) = c * rnd q)
    (hd : ∀ q, rnd (d * q) = d * rnd q) (p p' : RFl rnd → Bool) (hp : ∀ x, p' (RFl.scale c x) = p x)
    (hp2 : ∀ x, p' (RFl.scale d x) = p x) (ddof : ℤ) (x y : List (RFl rnd)) (v : RFl rnd) (n : ℕ)
    (hn : ddof < n) (h : covarianceF ddof x y p = .ok (v, n)) :
    covarianceF ddof (x.map (RFl.scale c)) (y.map (RFl.scale d)) p' = .ok (RFl.scale (c * d) v, n) := by
  have hcd : ∀ q, rnd (c * d * q) = c * d * rnd q := fun q => by rw [mul_assoc, hc, hd, mul_assoc]
  unfold covarianceF at h ⊢
  rw [cov_pairwise_scale hc0 hd0 hc hd p p' hp hp2]
  simp only [List.length_map]
  cases hreq : (x.length == y.length) with
  | false => rw [hreq] at h; simp [require] at h
  | true =>
    simp only [hreq, require_true, Res.bind_ok, Res.pure_eq] at h ⊢
    split_ifs at h ⊢ with hl
    · simp only [Res.ok.injEq, Prod.mk.injEq] at h ⊢
      rw [← h.1, ← h.2]; exact ⟨rfl, rfl⟩
    · cases hz : pairwiseAcc2 pwBlock (covBlock p) covCombine x y with
      | ub => rw [hz] at h; simp at h
      | ok z =>
        obtain ⟨m1, m2, cv, cnt⟩ := z
        rw [hz] at h
        simp only [Res.bind_ok] at h
        show (if (cnt : ℤ) - ddof ≤ 0 then Res.ok (CppNum.infty, cnt)
          else Res.ok (RFl.scale (c * d) cv / CppNum.ofInt (toI32 cnt - ddof), cnt)) = _
        split_ifs at h ⊢ with hd'
        · simp only [Res.ok.injEq, Prod.mk.injEq] at h
          omega
        · simp only [Res.ok.injEq, Prod.mk.injEq] at h ⊢
          rw [← h.1, RFl.scale_div (mul_ne_zero hc0 hd0) hcd]
          exact ⟨rfl, h.2⟩

/-! ### binary64 -/

theorem expo_unique {q : ℚ} {e : ℤ} (h1 : (2 : ℚ) ^ e ≤ |q|) (h2 : |q| < 2 ^ (e + 1)) : expo q = e := by
  have hq : q ≠ 0 := by
    rintro rfl
    rw [abs_zero] at h1
    exact absurd h1 (not_le.mpr (by positivity))
  obtain ⟨a, b⟩ := expo_spec hq
  have i1 := (zpow_lt_zpow_iff_right₀ (by norm_num : (1 : ℚ) < 2)).mp (lt_of_le_of_lt h1 b)
  have i2 := (zpow_lt_zpow_iff_right₀ (by norm_num : (1 : ℚ) < 2)).mp (lt_of_le_of_lt a h2)
  omega

theorem rnd64_pow2 (k : ℤ) (q : ℚ) : rnd64 (2 ^ k * q) = 2 ^ k * rnd64 q := by
  by_cases h : q = 0
  · subst h; simp
  have h2k : (0 : ℚ) < 2 ^ k := by positivity
  obtain ⟨a, b⟩ := expo_spec h
  have he : expo (2 ^ k * q) = k + expo q := by
    apply expo_unique
    · rw [abs_mul, abs_of_pos h2k, zpow_add₀ two_ne_zero]
      exact mul_le_mul_of_nonneg_left a h2k.le
    · rw [abs_mul, abs_of_pos h2k, add_assoc, zpow_add₀ two_ne_zero]
      exact mul_lt_mul_of_pos_left b h2k
  unfold rnd64
  rw [if_neg h, if_neg (mul_ne_zero h2k.ne' h), he]
  simp only
  have hs : (2 : ℚ) ^ (52 - (k + expo q)) = 2 ^ (52 - expo q) / 2 ^ k := by
    rw [← zpow_sub₀ two_ne_zero]; congr 1; ring
  have hx : 2 ^ k * q * (2 ^ (52 - expo q) / 2 ^ k) = q * 2 ^ (52 - expo q) := by
    field_simp
  rw [hs, hx]
  have : (2 : ℚ) ^ (52 - expo q) ≠ 0 := by positivity
  field_simp

theorem rnd64_idem (q : ℚ) : rnd64 (rnd64 q) = rnd64 q := by
  have pos : ∀ q : ℚ, 0 < q → rnd64 (rnd64 q) = rnd64 q := by
    intro q hq
    obtain ⟨h1, h2⟩ := rnd64_bounds hq
    rcases eq_or_lt_of_le h2 with he | hlt
    · have := rnd64_exact 1 (expo q + 1) (by norm_num)
      rw [he]
      simpa using this
    · have hm : ∃ m : ℤ, rnd64 q = m * 2 ^ (expo q - 52) := by
        refine ⟨nearestEven (q * 2 ^ (52 - expo q)), ?_⟩
        unfold rnd64
        rw [if_neg hq.ne']
        simp only
        rw [div_eq_mul_inv, ← zpow_neg]
        congr 2; ring
      obtain ⟨m, hm⟩ := hm
      have hp : (0 : ℚ) < 2 ^ (expo q - 52) := by positivity
      have hmpos : 0 < m := by
        have h3 := rnd64_pos hq
        rw [hm] at h3
        have := (mul_pos_iff_of_pos_right hp).mp h3
        exact_mod_cast this
      have hmlt : m < 2 ^ 53 := by
        rw [hm] at hlt
        have e2 : (2 : ℚ) ^ (expo q + 1) = 2 ^ 53 * 2 ^ (expo q - 52) := by
          have : (2 : ℚ) ^ (53 : ℤ) = 2 ^ 53 := by norm_num
          rw [← this, ← zpow_add₀ two_ne_zero]; congr 1; ring
        rw [e2] at hlt
        have := lt_of_mul_lt_mul_right hlt hp.le
        exact_mod_cast this
      rw [hm]
      exact rnd64_exact m _ (by rw [abs_of_pos hmpos]; exact hmlt)
  rcases lt_trichotomy q 0 with h | h | h
  · have := pos (-q) (by linarith)
    rw [rnd64_neg, rnd64_neg] at this
    exact neg_injective this
  · subst h; simp
  · exact pos q h

/-- C89: the rounding of `double` meets every hypothesis used above: it preserves signs, is monotone and
idempotent, and commutes with `±2^k` for every `k`. -/
theorem C89_binary64_rounding :
    (∀ q, 0 ≤ q → 0 ≤ rnd64 q) ∧ (∀ q, q ≤ 0 → rnd64 q ≤ 0) ∧ (∀ q, 0 < q → 0 < rnd64 q) ∧
    (∀ q, q < 0 → rnd64 q < 0) ∧ (∀ a b, a ≤ b → rnd64 a ≤ rnd64 b) ∧ (∀ q, rnd64 (rnd64 q) = rnd64 q) ∧
    (∀ (k : ℤ) q, rnd64 (2 ^ k * q) = 2 ^ k * rnd64 q) ∧
    (∀ (k : ℤ) q, rnd64 (-2 ^ k * q) = -2 ^ k * rnd64 q) := by
  refine ⟨fun q h => by rw [← rnd64_zero]; exact rnd64_mono h,
    fun q h => by rw [← rnd64_zero]; exact rnd64_mono h, fun q h => rnd64_pos h, fun q h => ?_,
    fun a b h => rnd64_mono h, rnd64_idem, rnd64_pow2, fun k q => ?_⟩
  · have := rnd64_pos (q := -q) (by linarith)
    rw [rnd64_neg] at this; linarith
  · rw [neg_mul, rnd64_neg, rnd64_pow2, neg_mul]

/-- C89, instance: in `double` the sum of the negated array is the negated sum, bit for bit. -/
example (l : List F64) : sum false (l.map fun x => -x) = -sum false l := by
  have := (C89_scale_sum_mean (c := -1) (by norm_num)
    (fun q => by have := rnd64_neg q; simpa using this) l (fun _ => true) (fun _ => true) (fun _ => rfl)).1
  have e : l.map (RFl.scale (-1)) = l.map fun x => -x := List.map_congr_left fun x _ => RFl.scale_neg_one x
  rw [RFl.scale_neg_one, e] at this
  exact this

/-! ### C90: what rounding breaks -/

/-- C90: the inner product is exactly symmetric. -/
theorem C90_inner_symm (a b : List (RFl rnd)) (h : a.length = b.length) : inner a b = inner b a := by
  unfold inner innerOp
  induction hn : a.length using Nat.strong_induction_on generalizing a b with
  | _ n ih =>
    subst hn
    unfold pairwiseAcc2
    rw [if_neg (fun hh : a.length ≠ b.length => hh h), if_neg (fun hh : b.length ≠ a.length => hh h.symm), ← h]
    split
    · rw [innerLoop_fold _ _ _ _ h, innerLoop_fold _ _ _ _ h.symm]
      congr 1
      rename_i hc
      clear ih hc
      generalize (0 : RFl rnd) = r
      induction a generalizing b r with
      | nil => cases b <;> rfl
      | cons x a ih =>
        rcases b with _ | ⟨y, b⟩
        · simp at h
        · simp only [List.zip_cons_cons, List.foldl_cons]
          rw [RFl.mul_comm' x y]
          exact ih b (by simpa using h) _
    · rename_i hc
      simp only [pwBlock, not_le] at hc
      rw [ih _ (by simp; omega) (a.take (a.length / 2)) (b.take (a.length / 2)) (by simp [h]) rfl,
        ih _ (by simp; omega) (a.drop (a.length / 2)) (b.drop (a.length / 2)) (by simp [h]) rfl]

theorem covLoop_symm (p : RFl rnd → Bool) (m1 m2 : RFl rnd) (a b : List (RFl rnd)) (h : a.length = b.length)
    (r : RFl rnd) (n : ℕ) : covLoop p m1 m2 r n a b = covLoop p m2 m1 r n b a := by
  induction a generalizing b r n with
  | nil =>
    have : b = [] := List.length_eq_zero_iff.mp h.symm
    subst this; rfl
  | cons x a ih =>
    rcases b with _ | ⟨y, b⟩
    · simp at h
    · rw [covLoop, covLoop, Bool.and_comm (p y) (p x)]
      simp only [RFl.conj_def]
      rw [RFl.mul_comm' (x - m1) (y - m2), ih b (by simpa using h), ih b (by simpa using h)]

/-- C90 (partial): for arrays of at most 64 elements the covariance is exactly symmetric in rounded
arithmetic.  Missing: longer arrays, where it is false (`C90_covariance_symm_false`). -/
theorem C90_covariance_symm_partial (ddof : ℤ) (a b : List (RFl rnd)) (p : RFl rnd → Bool)
    (h : a.length = b.length) (hl : a.length ≤ 64) :
    covarianceF ddof a b p = covarianceF ddof b a p := by
  unfold covarianceF
  have e1 : (a.length == b.length) = true := by simp [h]
  have e2 : (b.length == a.length) = true := by simp [h]
  simp only [e1, e2, require_true, Res.bind_ok]
  rw [← h]
  split_ifs
  · rfl
  · unfold pairwiseAcc2
    rw [if_neg (fun hh : a.length ≠ b.length => hh h), if_neg (fun hh : b.length ≠ a.length => hh h.symm), ← h, if_pos hl, if_pos hl]
    unfold covBlock
    simp only [covLoop_symm p (mean a p) (mean b p) a b h]
    cases covLoop p (mean b p) (mean a p) 0 0 b a with
    | ub => simp only [Res.bind_ub]
    | ok z => simp only [Res.bind_ok, Res.pure_eq]

end

/-- Mean of a short list, without the blocked recursion. -/
theorem mean_short (l : List F64) (h : l.length ≤ 64) (h0 : l.length ≠ 0) :
    mean l (fun _ => true) = l.foldl (· + ·) 0 / CppNum.ofInt (toI32 l.length) := by
  unfold mean sumF filterReduceAssoc
  rw [if_neg h0]
  unfold pairwiseAcc
  simp only [Bool.false_eq_true, if_false, pwBlock, h, if_true, filterReduce_eq]
  simp

/-- C90, negation: in `double` the mean of `{0.1, 0.1, 0.1}` is greater than every element. -/
theorem C90_mean_range_false : ∃ x : ℚ, rnd64 x = x ∧ ∃ m, mean ([x, x, x].map (RFl.fin (rnd := rnd64)))
    (fun _ => true) = RFl.fin m ∧ x < m := by
  refine ⟨rnd64 (1 / 10), rnd64_idem _, rnd64 (rnd64 (rnd64 (rnd64 (1 / 10) + rnd64 (1 / 10)) + rnd64 (1 / 10)) / 3), ?_,
    by decide +kernel⟩
  rw [mean_short _ (by simp) (by simp)]
  have e3 : toI32 (([rnd64 (1 / 10), rnd64 (1 / 10), rnd64 (1 / 10)].map (RFl.fin (rnd := rnd64))).length : ℤ) = 3 := by
    decide
  rw [e3]
  simp only [List.map_cons, List.map_nil, List.foldl_cons, List.foldl_nil, RFl.zero_fin, RFl.add_fin, zero_add,
    rnd64_idem, RFl.ofInt_def]
  have e : rnd64 ((3 : ℤ) : ℚ) = 3 := by
    have := rnd64_nat 3 (by norm_num)
    simpa using this
  rw [e, RFl.div_fin (by norm_num)]

/-- C90, negation: in `double` the variance of a constant array need not be zero (`{0.1, 0.1, 0.1}`). -/
theorem C90_var_constant_false : ∃ x : ℚ, rnd64 x = x ∧ ∃ v, varF 0 ([x, x, x].map (RFl.fin (rnd := rnd64)))
    (fun _ => true) = .ok (RFl.fin v, 3) ∧ 0 < v := by
  obtain ⟨x, hx, m, hm, hlt⟩ := C90_mean_range_false
  have e3 : rnd64 ((3 : ℤ) : ℚ) = 3 := by
    have := rnd64_nat 3 (by norm_num)
    simpa using this
  set d := rnd64 (x - m) with hd
  have hdneg : d < 0 := C89_binary64_rounding.2.2.2.1 _ (by linarith)
  have hdd : 0 < rnd64 (d * d) := rnd64_pos (mul_pos_of_neg_of_neg hdneg hdneg)
  set s := rnd64 (rnd64 (rnd64 (0 + rnd64 (d * d)) + rnd64 (d * d)) + rnd64 (d * d)) with hs
  have hspos : 0 < s := by
    apply rnd64_pos
    have h1 : 0 < rnd64 (0 + rnd64 (d * d)) := rnd64_pos (by linarith)
    have h2 : 0 < rnd64 (rnd64 (0 + rnd64 (d * d)) + rnd64 (d * d)) := rnd64_pos (by linarith)
    linarith
  refine ⟨x, hx, rnd64 (s / 3), ?_, rnd64_pos (by positivity)⟩
  unfold varF covarianceF
  simp only [beq_self_eq_true, require_true, Res.bind_ok]
  rw [if_neg (by simp)]
  unfold pairwiseAcc2
  rw [if_neg (by simp), if_pos (by simp [pwBlock])]
  unfold covBlock
  simp only [hm]
  simp only [List.map_cons, List.map_nil, covLoop, Bool.and_self, if_true, RFl.conj_def, RFl.sub_fin, ← hd,
    RFl.mul_fin, RFl.zero_fin, RFl.add_fin, Res.bind_ok, Res.pure_eq, ← hs]
  have e4 : toI32 ((0 + 1 + 1 + 1 : ℕ) : ℤ) - 0 = 3 := by decide
  rw [if_neg (by norm_num), e4, RFl.ofInt_def, e3, RFl.div_fin (by norm_num)]

theorem rnd64_natCast (n : ℕ) (h : n < 2 ^ 53) : rnd64 (n : ℚ) = n := rnd64_nat n h

theorem foldl_const (a n k : ℕ) (h : (k + n) * a < 2 ^ 53) :
    (List.replicate n (RFl.fin (a : ℚ) : F64)).foldl (· + ·) (RFl.fin ((k * a : ℕ) : ℚ))
      = RFl.fin (((k + n) * a : ℕ) : ℚ) := by
  induction n generalizing k with
  | zero => rfl
  | succ n ih =>
    rw [List.replicate_succ, List.foldl_cons, RFl.add_fin]
    have e : ((k * a : ℕ) : ℚ) + (a : ℚ) = (((k + 1) * a : ℕ) : ℚ) := by push_cast; ring
    have hlt : (k + 1) * a < 2 ^ 53 :=
      lt_of_le_of_lt (Nat.mul_le_mul_right a (by omega)) h
    rw [e, rnd64_nat _ hlt, ih (k + 1) (by rwa [show k + 1 + n = k + (n + 1) by omega]),
      show k + 1 + n = k + (n + 1) by omega]

theorem mean_const (a n : ℕ) (hn : n ≠ 0) (hn64 : n ≤ 64) (h : n * a < 2 ^ 53) (ha : a < 2 ^ 53) :
    mean (List.replicate n (RFl.fin (a : ℚ) : F64)) (fun _ => true) = RFl.fin (a : ℚ) := by
  rw [mean_short _ (by simpa using hn64) (by simpa using hn), List.length_replicate]
  have hf := foldl_const a n 0 (by simpa using h)
  rw [zero_mul, Nat.cast_zero, zero_add] at hf
  rw [RFl.zero_fin, hf, toI32_of_lt (by omega) (by omega), RFl.ofInt_def, Int.cast_natCast,
    rnd64_nat n (by omega)]
  have hpos : ((n : ℕ) : ℚ) ≠ 0 := by exact_mod_cast hn
  rw [RFl.div_fin hpos]
  have e : ((n * a : ℕ) : ℚ) / (n : ℚ) = (a : ℚ) := by push_cast; field_simp
  rw [e, rnd64_nat a ha]

theorem covBlock_const (a b n : ℕ) (hn : n ≠ 0) (hn64 : n ≤ 64) (ha : a < 2 ^ 40) (hb : b < 2 ^ 40) :
    covBlock (fun _ => true) (List.replicate n (RFl.fin (a : ℚ) : F64)) (List.replicate n (RFl.fin (b : ℚ)))
      = .ok (RFl.fin (a : ℚ), RFl.fin (b : ℚ), RFl.fin 0, n) := by
  have hloop : ∀ (n c : ℕ), covLoop (fun _ => true) (RFl.fin (a : ℚ) : F64) (RFl.fin (b : ℚ)) (RFl.fin 0) c
      (List.replicate n (RFl.fin (a : ℚ))) (List.replicate n (RFl.fin (b : ℚ))) = .ok (RFl.fin 0, c + n) := by
    intro n
    induction n with
    | zero => intro c; rfl
    | succ n ih =>
      intro c
      rw [List.replicate_succ, List.replicate_succ, covLoop]
      simp only [Bool.and_self, if_true, RFl.conj_def, RFl.sub_fin, sub_self, rnd64_zero, RFl.mul_fin, mul_zero,
        RFl.add_fin, add_zero]
      rw [ih (c + 1), show c + 1 + n = c + (n + 1) by omega]
  have k : ∀ t : ℕ, t < 2 ^ 40 → n * t < 2 ^ 53 := by
    intro t ht
    calc n * t ≤ 64 * t := Nat.mul_le_mul_right t hn64
      _ < 2 ^ 53 := by omega
  unfold covBlock
  simp only [mean_const a n hn hn64 (k a ha) (by omega), mean_const b n hn hn64 (k b hb) (by omega), RFl.zero_fin,
    hloop, Res.bind_ok, Res.pure_eq, zero_add]

/-- The covariance of two step functions of length 67 in `double`. -/
theorem cov_steps (a b : ℕ) (ha : a < 2 ^ 40) (hb : b < 2 ^ 40) :
    covarianceF 0 (List.replicate 33 (RFl.fin (a : ℚ) : F64) ++ List.replicate 34 (RFl.fin ((0 : ℕ) : ℚ)))
        (List.replicate 33 (RFl.fin (b : ℚ)) ++ List.replicate 34 (RFl.fin ((0 : ℕ) : ℚ))) (fun _ => true)
      = .ok (RFl.fin (rnd64 (rnd64 (rnd64 (rnd64 (rnd64 (rnd64 (33 * 34) / 67) * rnd64 (b - 0))
          * rnd64 (a - 0))) / 67)), 67) := by
  have t33 : ∀ n : ℕ, n < 2 ^ 31 → (CppNum.ofInt (toI32 (n : ℤ)) : F64) = RFl.fin (n : ℚ) := by
    intro n hn
    rw [toI32_of_lt (by omega) (by omega), RFl.ofInt_def, Int.cast_natCast, rnd64_nat n (by omega)]
  unfold covarianceF
  simp only [List.length_append, List.length_replicate, beq_self_eq_true, require_true, Res.bind_ok]
  rw [if_neg (by norm_num)]
  unfold pairwiseAcc2
  rw [if_neg (by simp), if_neg (by simp [pwBlock])]
  simp only [List.length_append, List.length_replicate, show (33 + 34) / 2 = 33 by norm_num]
  rw [List.take_left' (by simp), List.take_left' (by simp), List.drop_left' (by simp), List.drop_left' (by simp)]
  have hblk : ∀ c e n : ℕ, n ≠ 0 → n ≤ 64 → c < 2 ^ 40 → e < 2 ^ 40 →
      pairwiseAcc2 pwBlock (covBlock fun _ => true) covCombine (List.replicate n (RFl.fin (c : ℚ) : F64))
        (List.replicate n (RFl.fin (e : ℚ))) = .ok (RFl.fin (c : ℚ), RFl.fin (e : ℚ), RFl.fin 0, n) := by
    intro c e n h0 h64 hc he
    unfold pairwiseAcc2
    rw [if_neg (by simp), if_pos (by simpa [pwBlock] using h64)]
    exact covBlock_const c e n h0 h64 hc he
  rw [hblk a b 33 (by norm_num) (by norm_num) ha hb, hblk 0 0 34 (by norm_num) (by norm_num) (by norm_num) (by norm_num)]
  simp only [Res.bind_ok, Res.pure_eq, covCombine, RFl.conj_def]
  rw [if_neg (by norm_num), t33 33 (by norm_num), t33 34 (by norm_num), t33 (33 + 34) (by norm_num), sub_zero,
    t33 (33 + 34) (by norm_num)]
  rw [RFl.mul_fin, RFl.div_fin (by norm_num), RFl.sub_fin, RFl.sub_fin, RFl.mul_fin, RFl.mul_fin, RFl.add_fin,
    RFl.add_fin, RFl.div_fin (by norm_num)]
  norm_num

/-- C90, negation: in `double` the covariance is not symmetric: two step functions of length 67 with
`covariance(x, y) ≠ covariance(y, x)`. -/
theorem C90_covariance_symm_false : ∃ x y : List F64, x.length = y.length ∧
    covarianceF 0 x y (fun _ => true) ≠ covarianceF 0 y x (fun _ => true) := by
  refine ⟨List.replicate 33 (RFl.fin ((5 : ℕ) : ℚ)) ++ List.replicate 34 (RFl.fin ((0 : ℕ) : ℚ)),
    List.replicate 33 (RFl.fin ((3 : ℕ) : ℚ)) ++ List.replicate 34 (RFl.fin ((0 : ℕ) : ℚ)), by simp, ?_⟩
  rw [cov_steps 5 3 (by norm_num) (by norm_num), cov_steps 3 5 (by norm_num) (by norm_num)]
  intro h
  simp only [Res.ok.injEq, Prod.mk.injEq, and_true, RFl.fin_inj] at h
  revert h
  decide +kernel

end SciCpp
