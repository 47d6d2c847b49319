import Verif.Proofs.ComplexF
import Verif.Props.Rounding
/-
  Property theorems C139: arrays of complex numbers in floating point.

  The components are rounded by any function of relative error at most `u` (binary64: `u = 2^-53`); a product of complex numbers is
  computed as `(ac - bd) + (ad + bc)i`.  `finC z` is the complex number with the finite components `z`, `toC z` the number of `ℂ`,
  `abs1 z = |re z| + |im z|`.
-/
set_option linter.unusedSectionVars false
namespace SciCpp
open Spec Finset

section
variable {rnd : ℚ → ℚ} {u : ℚ}

theorem resBind_ok {α β : Type} {m : Res α} {f : α → Res β} {b : β} (h : (m >>= f) = .ok b) : ∃ a, m = .ok a ∧ f a = .ok b := by
  cases m with
  | ok a => exact ⟨a, rfl, h⟩
  | ub => simp at h

/-! ### sum and mean -/

theorem sumF_capprox (hu : 0 ≤ u) (hr : ∀ x, |rnd x - x| ≤ u * |x|) (l : List (CK (RFl rnd)))
    (p : CK (RFl rnd) → Bool) (s : List (CK ℚ)) (hs : l.filter p = s.map finC) :
    CApprox u (64 + Nat.clog 2 l.length) (s.map toC).sum (s.map abs1).sum (sumF false l p).1 ∧
      (sumF false l p).2 = s.length := by
  unfold sumF filterReduceAssoc
  simp only [Bool.false_eq_true, if_false]
  induction hn : l.length using Nat.strong_induction_on generalizing l s with
  | _ n ih =>
    subst hn
    unfold pairwiseAcc
    split
    · rename_i hle
      simp only [pwBlock] at hle
      simp only [filterReduce_eq, hs, List.length_map, List.foldl_map, and_true]
      have h := CApprox.foldl_add hu hr s (fun q => (finC q : CK (RFl rnd))) toC abs1 0
        (fun i _ => CApprox.exact hu 0 i) 0 0 0 (CApprox.zero hu 0)
      simp only [zero_add] at h
      have hlen : s.length ≤ l.length := by
        have := List.length_filter_le p l
        rw [hs, List.length_map] at this; exact this
      exact h.mono hu (by omega) le_rfl
    · rename_i hgt
      simp only [pwBlock, not_le] at hgt
      obtain ⟨s1, s2, rfl, e1, e2⟩ : ∃ s1 s2, s = s1 ++ s2 ∧
          (l.take (l.length / 2)).filter p = s1.map finC ∧
          (l.drop (l.length / 2)).filter p = s2.map finC := by
        have h := hs
        rw [← List.take_append_drop (l.length / 2) l, List.filter_append] at h
        obtain ⟨a, b, h1, h2, h3⟩ := List.append_eq_map_iff.mp h
        exact ⟨a, b, h1, h2.symm, h3.symm⟩
      obtain ⟨i1, c1⟩ := ih _ (by simp; omega) (l.take (l.length / 2)) s1 e1 rfl
      obtain ⟨i2, c2⟩ := ih _ (by simp; omega) (l.drop (l.length / 2)) s2 e2 rfl
      obtain ⟨k1, k2⟩ := clog_half l.length hgt
      have L1 : (l.take (l.length / 2)).length = l.length / 2 := by simp; omega
      have L2 : (l.drop (l.length / 2)).length = l.length - l.length / 2 := by simp
      rw [L1] at i1
      rw [L2] at i2
      simp only [pwBlock] at i1 i2 c1 c2
      refine ⟨?_, by simp only [pwBlock, c1, c2, List.length_append]⟩
      have h := CApprox.add hu hr (i1.mono hu (show _ ≤ 63 + Nat.clog 2 l.length by omega) le_rfl)
        (i2.mono hu (show _ ≤ 63 + Nat.clog 2 l.length by omega) le_rfl)
      rw [List.map_append, List.sum_append, List.map_append, List.sum_append]
      exact h.mono hu (by omega) le_rfl

/-- C139, `sum`: of the accepted numbers `s` (all finite), the computed sum is finite and within
`((1+u)^(64 + ⌈log₂ N⌉) - 1)·Σ(|re| + |im|)` of the exact sum, `N` the length of the array. -/
theorem C139_sum (hu : 0 ≤ u) (hr : ∀ x, |rnd x - x| ≤ u * |x|) (l : List (CK (RFl rnd)))
    (p : CK (RFl rnd) → Bool) (s : List (CK ℚ)) (hs : l.filter p = s.map finC) :
    ∃ z : CK ℚ, sumF false l p = (finC z, s.length) ∧
      ‖toC z - (s.map toC).sum‖ ≤ ((1 + (u : ℝ)) ^ (64 + Nat.clog 2 l.length) - 1) * (s.map abs1).sum := by
  obtain ⟨h, hc⟩ := sumF_capprox hu hr l p s hs
  obtain ⟨z, e, b⟩ := h.out hu
  exact ⟨z, Prod.ext e hc, b⟩

theorem mean_capprox (hu : 0 ≤ u) (hr : ∀ x, |rnd x - x| ≤ u * |x|) (l : List (CK (RFl rnd)))
    (p : CK (RFl rnd) → Bool) (s : List (CK ℚ)) (hs : l.filter p = s.map finC) (hne : s ≠ [])
    (hlen : s.length < 2 ^ 31) (hn : rnd s.length = s.length) :
    CApprox u (66 + Nat.clog 2 l.length) ((s.map toC).sum / s.length) ((s.map abs1).sum / s.length) (mean l p) := by
  obtain ⟨h1, h2⟩ := sumF_capprox hu hr l p s hs
  have hpos : (0 : ℚ) < s.length := by exact_mod_cast List.length_pos_iff.mpr hne
  have hl : l.length ≠ 0 := by
    intro h
    rw [List.length_eq_zero_iff] at h
    subst h
    cases s with
    | nil => exact hne rfl
    | cons _ _ => simp at hs
  have h := CApprox.div_nat hu hr hpos hn h1
  rw [show 64 + Nat.clog 2 l.length + 2 = 66 + Nat.clog 2 l.length by omega] at h
  have e : mean l p = (sumF false l p).1 / (⟨RFl.fin (s.length : ℚ), 0⟩ : CK (RFl rnd)) := by
    unfold mean
    rw [if_neg hl]
    have : (CppNum.ofInt (toI32 (sumF false l p).2) : CK (RFl rnd)) = ⟨RFl.fin (s.length : ℚ), 0⟩ := by
      show (⟨RFl.fin (rnd _), 0⟩ : CK (RFl rnd)) = _
      rw [h2, toI32_of_lt (by omega) (by exact_mod_cast hlen), Int.cast_natCast, hn]
    simp only [this]
  rw [e]
  simpa using h

/-- C139, `mean`: the computed mean of the accepted numbers is finite and within
`((1+u)^(66 + ⌈log₂ N⌉) - 1)·Σ(|re| + |im|)/n` of the exact mean (the number `n` of accepted elements being a number of the type). -/
theorem C139_mean (hu : 0 ≤ u) (hr : ∀ x, |rnd x - x| ≤ u * |x|) (l : List (CK (RFl rnd)))
    (p : CK (RFl rnd) → Bool) (s : List (CK ℚ)) (hs : l.filter p = s.map finC) (hne : s ≠ [])
    (hlen : s.length < 2 ^ 31) (hn : rnd s.length = s.length) :
    ∃ z : CK ℚ, mean l p = finC z ∧
      ‖toC z - (s.map toC).sum / s.length‖ ≤ ((1 + (u : ℝ)) ^ (66 + Nat.clog 2 l.length) - 1) * ((s.map abs1).sum / s.length) :=
  (mean_capprox hu hr l p s hs hne hlen hn).out hu

/-- C139, empty arrays: `numeric_limits<std::complex<double>>::quiet_NaN()` is `0`, so the mean of an empty array and every
covariance with too few elements is `0`, not NaN or infinity. -/
theorem C139_empty (p : CK (RFl rnd) → Bool) (ddof : ℤ) (l1 l2 : List (CK (RFl rnd))) (v : CK (RFl rnd)) (c : ℕ)
    (h : covarianceF ddof l1 l2 p = .ok (v, c)) (hc : (c : ℤ) ≤ ddof ∨ l1 = []) :
    mean ([] : List (CK (RFl rnd))) p = 0 ∧ v = 0 := by
  refine ⟨rfl, ?_⟩
  unfold covarianceF at h
  obtain ⟨-, -, h⟩ := resBind_ok h
  split_ifs at h with hl
  · simp only [Res.pure_eq, Res.ok.injEq, Prod.mk.injEq] at h
    exact h.1.symm
  · obtain ⟨⟨m1, m2, cov, c'⟩, e, h⟩ := resBind_ok h
    simp only at h
    split_ifs at h with hd
    · simp only [Res.pure_eq, Res.ok.injEq, Prod.mk.injEq] at h
      exact h.1.symm
    · simp only [Res.pure_eq, Res.ok.injEq, Prod.mk.injEq] at h
      rcases hc with hc | hc
      · omega
      · subst hc; simp at hl

/-! ### inner products -/

theorem innerOp_capprox (hu : 0 ≤ u) (hr : ∀ x, |rnd x - x| ≤ u * |x|) (op : CK (RFl rnd) → CK (RFl rnd) → CK (RFl rnd))
    (e : CK ℚ → CK ℚ → ℂ) (A : CK ℚ → CK ℚ → ℝ) (k : ℕ) (hop : ∀ x y, CApprox u k (e x y) (A x y) (op (finC x) (finC y)))
    (a b : List (CK ℚ)) (hab : a.length = b.length) :
    ∃ z : CK (RFl rnd), innerOp op (a.map finC) (b.map finC) = .ok z ∧
      CApprox u (k + 64 + Nat.clog 2 a.length) (List.zipWith e a b).sum (List.zipWith A a b).sum z := by
  unfold innerOp
  induction hn : a.length using Nat.strong_induction_on generalizing a b with
  | _ n ih =>
    subst hn
    unfold pairwiseAcc2
    rw [if_neg (by simp [hab])]
    split
    · rename_i hle
      simp only [List.length_map, pwBlock] at hle
      refine ⟨_, innerLoop_fold _ _ _ _ (by simpa using hab), ?_⟩
      rw [List.zip_map, List.foldl_map]
      have h := CApprox.foldl_add hu hr (a.zip b)
        (fun xy => op (finC xy.1) (finC xy.2)) (fun xy => e xy.1 xy.2)
        (fun xy => A xy.1 xy.2) k (fun i _ => hop i.1 i.2) 0 0 0 (CApprox.zero hu k)
      simp only [zero_add] at h
      have hzz : ∀ {γ : Type} (f : CK ℚ → CK ℚ → γ), List.zipWith f a b = (a.zip b).map fun xy => f xy.1 xy.2 := by
        intro γ f; rw [List.zip, List.map_zipWith]
      rw [hzz, hzz]
      exact h.mono hu (by rw [List.length_zip, hab, min_self]; omega) le_rfl
    · rename_i hgt
      simp only [List.length_map, pwBlock, not_le] at hgt
      obtain ⟨k1, k2⟩ := clog_half a.length hgt
      simp only [List.length_map, ← List.map_take, ← List.map_drop]
      obtain ⟨z1, e1, h1⟩ := ih _ (by simp; omega) (a.take (a.length / 2)) (b.take (a.length / 2))
        (by simp [hab]) rfl
      obtain ⟨z2, e2, h2⟩ := ih _ (by simp; omega) (a.drop (a.length / 2)) (b.drop (a.length / 2))
        (by simp [hab]) rfl
      have L1 : (a.take (a.length / 2)).length = a.length / 2 := by simp; omega
      have L2 : (a.drop (a.length / 2)).length = a.length - a.length / 2 := by simp
      rw [L1] at h1
      rw [L2] at h2
      refine ⟨z1 + z2, by rw [e1, e2]; rfl, ?_⟩
      have h := CApprox.add hu hr (h1.mono hu (show _ ≤ k + 63 + Nat.clog 2 a.length by omega) le_rfl)
        (h2.mono hu (show _ ≤ k + 63 + Nat.clog 2 a.length by omega) le_rfl)
      have hz : ∀ {γ : Type} [AddMonoid γ] (f : CK ℚ → CK ℚ → γ), (List.zipWith f a b).sum
          = (List.zipWith f (a.take (a.length / 2)) (b.take (a.length / 2))).sum
            + (List.zipWith f (a.drop (a.length / 2)) (b.drop (a.length / 2))).sum := by
        intro γ _ f
        rw [← List.sum_append, ← List.zipWith_append (by simp [hab]), List.take_append_drop,
          List.take_append_drop]
      rw [hz, hz]
      exact h.mono hu (by omega) le_rfl

/-- C139, `inner` and `dot`: the computed product is finite and within `((1+u)^(66 + ⌈log₂ n⌉) - 1)·Σ abs1 aᵢ · abs1 bᵢ` of `Σ aᵢ bᵢ`
(no conjugation). -/
theorem C139_inner (hu : 0 ≤ u) (hr : ∀ x, |rnd x - x| ≤ u * |x|) (a b : List (CK ℚ)) (hab : a.length = b.length) :
    ∃ z : CK ℚ, inner (a.map (finC (rnd := rnd))) (b.map finC) = .ok (finC z) ∧
      ‖toC z - (List.zipWith (fun x y => toC x * toC y) a b).sum‖ ≤
        ((1 + (u : ℝ)) ^ (66 + Nat.clog 2 a.length) - 1) * (List.zipWith (fun x y => abs1 x * abs1 y) a b).sum := by
  obtain ⟨z, e, h⟩ := innerOp_capprox (rnd := rnd) hu hr (· * ·) (fun x y => toC x * toC y) (fun x y => abs1 x * abs1 y) 2
    (fun x y => by
      have h := CApprox.mul (rnd := rnd) hu hr (CApprox.exact hu 0 x) (CApprox.exact hu 0 y)
      exact h) a b hab
  obtain ⟨q, rfl, hb⟩ := h.out hu
  rw [show 2 + 64 + Nat.clog 2 a.length = 66 + Nat.clog 2 a.length by omega] at hb
  exact ⟨q, e, hb⟩

/-- C139, `vdot`: the computed product is finite and within the same bound of `Σ conj(aᵢ) bᵢ`: the first array is conjugated. -/
theorem C139_vdot (hu : 0 ≤ u) (hr : ∀ x, |rnd x - x| ≤ u * |x|) (a b : List (CK ℚ)) (hab : a.length = b.length) :
    ∃ z : CK ℚ, vdot CK.conj (a.map (finC (rnd := rnd))) (b.map finC) = .ok (finC z) ∧
      ‖toC z - (List.zipWith (fun x y => starRingEnd ℂ (toC x) * toC y) a b).sum‖ ≤
        ((1 + (u : ℝ)) ^ (66 + Nat.clog 2 a.length) - 1) * (List.zipWith (fun x y => abs1 x * abs1 y) a b).sum := by
  obtain ⟨z, e, h⟩ := innerOp_capprox (rnd := rnd) hu hr (fun x y => CK.conj x * y) (fun x y => starRingEnd ℂ (toC x) * toC y)
    (fun x y => abs1 x * abs1 y) 2
    (fun x y => by
      have h := CApprox.mul (rnd := rnd) hu hr (CApprox.conj (CApprox.exact hu 0 x)) (CApprox.exact hu 0 y)
      exact h) a b hab
  obtain ⟨q, rfl, hb⟩ := h.out hu
  rw [show 2 + 64 + Nat.clog 2 a.length = 66 + Nat.clog 2 a.length by omega] at hb
  exact ⟨q, e, hb⟩

/-- Two runs of the blocked accumulation over the same positions whose steps are related have related results. -/
theorem innerOp_rel {β : Type} (R : CK (RFl rnd) → CK (RFl rnd) → Prop) (op1 op2 : β → β → CK (RFl rnd)) (hz : R 0 0)
    (hadd : ∀ x y x' y', R x x' → R y y' → R (x + y) (x' + y')) (hop : ∀ x y, R (op1 x y) (op2 y x)) (a b : List β)
    (hab : a.length = b.length) :
    ∃ z z', innerOp op1 a b = .ok z ∧ innerOp op2 b a = .ok z' ∧ R z z' := by
  unfold innerOp
  induction hn : a.length using Nat.strong_induction_on generalizing a b with
  | _ n ih =>
    subst hn
    unfold pairwiseAcc2
    rw [if_neg (show ¬ (a.length ≠ b.length) by simp [hab]), if_neg (show ¬ (b.length ≠ a.length) by simp [hab])]
    by_cases hle : a.length ≤ pwBlock
    · rw [if_pos hle, if_pos (by rw [← hab]; exact hle)]
      suffices h : ∀ r r', R r r' → ∃ z z', innerLoop op1 r a b = .ok z ∧ innerLoop op2 r' b a = .ok z' ∧ R z z' from h 0 0 hz
      clear ih hle
      induction a generalizing b with
      | nil =>
        obtain rfl := List.length_eq_zero_iff.mp hab.symm
        intro r r' h; exact ⟨r, r', rfl, rfl, h⟩
      | cons x a ih =>
        rcases b with _ | ⟨y, b⟩
        · simp at hab
        · intro r r' h
          exact ih b (by simpa using hab) _ _ (hadd _ _ _ _ h (hop x y))
    · rw [if_neg hle, if_neg (by rw [← hab]; exact hle)]
      simp only [pwBlock, not_le] at hle
      rw [← hab]
      obtain ⟨z1, w1, e1, f1, h1⟩ := ih _ (by simp; omega) (a.take (a.length / 2)) (b.take (a.length / 2)) (by simp [hab]) rfl
      obtain ⟨z2, w2, e2, f2, h2⟩ := ih _ (by simp; omega) (a.drop (a.length / 2)) (b.drop (a.length / 2)) (by simp [hab]) rfl
      exact ⟨z1 + z2, w1 + w2, by rw [e1, e2]; rfl, by rw [f1, f2]; rfl, hadd _ _ _ _ h1 h2⟩

/-- C139: `vdot(b, a)` is the conjugate of `vdot(a, b)`, bit for bit. -/
theorem C139_vdot_symm (hodd : ∀ q, rnd (-q) = -rnd q) (a b : List (CK ℚ)) (hab : a.length = b.length) :
    ∃ z : CK ℚ, vdot CK.conj (a.map (finC (rnd := rnd))) (b.map finC) = .ok (finC z) ∧
      vdot CK.conj (b.map (finC (rnd := rnd))) (a.map finC) = .ok (finC ⟨z.re, -z.im⟩) := by
  obtain ⟨z, z', h1, h2, q, rfl, rfl⟩ := innerOp_rel (rnd := rnd)
    (fun x x' => ∃ q : CK ℚ, x = finC q ∧ x' = finC ⟨q.re, -q.im⟩)
    (fun x y : CK ℚ => CK.conj (finC x) * finC y) (fun x y : CK ℚ => CK.conj (finC x) * finC y)
    ⟨⟨0, 0⟩, rfl, by simp [finC]; rfl⟩
    (by
      rintro _ _ _ _ ⟨q, rfl, rfl⟩ ⟨r, rfl, rfl⟩
      refine ⟨⟨rnd (q.re + r.re), rnd (q.im + r.im)⟩, rfl, ?_⟩
      show (⟨RFl.fin (rnd (q.re + r.re)), RFl.fin (rnd (-q.im + -r.im))⟩ : CK (RFl rnd)) = _
      rw [← neg_add, hodd]; rfl)
    (by
      intro x y
      refine ⟨⟨rnd (rnd (x.re * y.re) - rnd (-x.im * y.im)), rnd (rnd (x.re * y.im) + rnd (-x.im * y.re))⟩, ?_, ?_⟩
      · show (⟨RFl.fin (x.re) * RFl.fin (y.re) - RFl.fin (-x.im) * RFl.fin (y.im), _⟩ : CK (RFl rnd)) = _
        rw [RFl.mul_fin, RFl.mul_fin, RFl.sub_fin]; rfl
      · show (⟨RFl.fin (y.re) * RFl.fin (x.re) - RFl.fin (-y.im) * RFl.fin (x.im), RFl.fin (rnd (rnd (y.re * x.im) + rnd (-y.im * x.re)))⟩ : CK (RFl rnd)) = _
        rw [RFl.mul_fin, RFl.mul_fin, RFl.sub_fin, ← hodd, neg_add, ← hodd, ← hodd]
        unfold finC
        simp only
        rw [show y.re * x.re = x.re * y.re by ring, show -y.im * x.im = -x.im * y.im by ring, show y.re * x.im = - (-x.im * y.re) by ring,
          show -y.im * x.re = -(x.re * y.im) by ring, add_comm (rnd (- (-x.im * y.re)))])
    a b hab
  have hmap : ∀ (a b : List (CK ℚ)), a.length = b.length →
      innerOp (fun x y => CK.conj x * y) (a.map (finC (rnd := rnd))) (b.map finC)
        = innerOp (fun x y : CK ℚ => CK.conj (finC x) * finC y) a b := by
    intro a b hab
    unfold innerOp
    induction hn : a.length using Nat.strong_induction_on generalizing a b with
    | _ n ih =>
      subst hn
      conv_lhs => rw [pairwiseAcc2]
      conv_rhs => rw [pairwiseAcc2]
      simp only [List.length_map, ← List.map_take, ← List.map_drop]
      rw [if_neg (show ¬ (a.length ≠ b.length) by simp [hab]), if_neg (show ¬ (a.length ≠ b.length) by simp [hab])]
      split_ifs with hc
      · rw [innerLoop_fold _ _ _ _ (by simpa using hab), innerLoop_fold _ _ _ _ hab, List.zip_map, List.foldl_map]
        rfl
      · simp only [pwBlock, not_le] at hc
        rw [ih _ (by simp; omega) _ _ (by simp [hab]) rfl, ih _ (by simp; omega) _ _ (by simp [hab]) rfl]
  exact ⟨q, by unfold vdot; rw [hmap a b hab]; exact h1, by unfold vdot; rw [hmap b a hab.symm]; exact h2⟩

/-- C139: `vdot(a, a)` has the imaginary part `0` exactly and is never negative. -/
theorem C139_vdot_self (hodd : ∀ q, rnd (-q) = -rnd q) (h0 : ∀ q, 0 ≤ q → 0 ≤ rnd q) (a : List (CK ℚ)) :
    ∃ q : ℚ, 0 ≤ q ∧ vdot CK.conj (a.map (finC (rnd := rnd))) (a.map finC) = .ok (finC ⟨q, 0⟩) := by
  have hz : rnd 0 = 0 := by have := hodd 0; simp at this; linarith
  unfold vdot innerOp
  induction hn : a.length using Nat.strong_induction_on generalizing a with
  | _ n ih =>
    subst hn
    unfold pairwiseAcc2
    rw [if_neg (by simp)]
    split
    · rw [innerLoop_fold _ _ _ _ rfl, List.zip_map, List.foldl_map]
      suffices h : ∀ r : ℚ, 0 ≤ r → ∃ q : ℚ, 0 ≤ q ∧ (a.zip a).foldl (fun acc xy => acc + CK.conj (finC (rnd := rnd) xy.1) * finC xy.2) (finC ⟨r, 0⟩)
          = finC ⟨q, 0⟩ by
        obtain ⟨q, h1, h2⟩ := h 0 le_rfl
        exact ⟨q, h1, congrArg Res.ok h2⟩
      rename_i hc
      clear ih hc
      induction a with
      | nil => intro r hr; exact ⟨r, hr, rfl⟩
      | cons x a ih =>
        intro r hr
        have step : finC ⟨r, 0⟩ + CK.conj (finC (rnd := rnd) x) * finC x
            = finC ⟨rnd (r + rnd (rnd (x.re * x.re) + rnd (x.im * x.im))), 0⟩ := by
          show (⟨RFl.fin r + (RFl.fin x.re * RFl.fin x.re - RFl.fin (-x.im) * RFl.fin x.im), RFl.fin (rnd (0 + rnd (rnd (x.re * x.im) + rnd (-x.im * x.re))))⟩
            : CK (RFl rnd)) = _
          rw [RFl.mul_fin, RFl.mul_fin, RFl.sub_fin, RFl.add_fin, show -x.im * x.im = -(x.im * x.im) by ring, hodd,
            show -x.im * x.re = -(x.re * x.im) by ring, hodd, add_neg_cancel, hz, add_zero, hz, sub_neg_eq_add]
          rfl
        have := ih (rnd (r + rnd (rnd (x.re * x.re) + rnd (x.im * x.im))))
          (h0 _ (add_nonneg hr (h0 _ (add_nonneg (h0 _ (mul_self_nonneg _)) (h0 _ (mul_self_nonneg _))))))
        rw [List.zip_cons_cons, List.foldl_cons, step]
        exact this
    · rename_i hgt
      simp only [List.length_map, pwBlock, not_le] at hgt
      simp only [List.length_map, ← List.map_take, ← List.map_drop]
      obtain ⟨q1, p1, e1⟩ := ih _ (by simp; omega) (a.take (a.length / 2)) rfl
      obtain ⟨q2, p2, e2⟩ := ih _ (by simp; omega) (a.drop (a.length / 2)) rfl
      refine ⟨rnd (q1 + q2), h0 _ (add_nonneg p1 p2), ?_⟩
      rw [e1, e2]
      show Res.ok (⟨RFl.fin (rnd (q1 + q2)), RFl.fin (rnd (0 + 0))⟩ : CK (RFl rnd)) = _
      rw [add_zero, hz]; rfl

/-! ### products and cumulative sums -/

/-- C139, `prod`: the computed product of the accepted numbers `s` is finite and within `((1+u)^(4N) - 1)·Π(|re| + |im|)` of the exact one,
`N` the length of the array. -/
theorem C139_prod (hu : 0 ≤ u) (hr : ∀ x, |rnd x - x| ≤ u * |x|) (l : List (CK (RFl rnd)))
    (p : CK (RFl rnd) → Bool) (s : List (CK ℚ)) (hs : l.filter p = s.map finC) :
    ∃ z : CK ℚ, prodF false l p = (finC z, s.length) ∧
      ‖toC z - (s.map toC).prod‖ ≤ ((1 + (u : ℝ)) ^ (4 * l.length) - 1) * (s.map abs1).prod := by
  suffices h : CApprox u (4 * l.length - 2) (s.map toC).prod (s.map abs1).prod (prodF false l p).1 ∧ (prodF false l p).2 = s.length by
    obtain ⟨h, hc⟩ := h
    obtain ⟨z, e, b⟩ := (h.mono hu (show _ ≤ 4 * l.length by omega) le_rfl).out hu
    exact ⟨z, Prod.ext e hc, b⟩
  unfold prodF filterReduceAssoc
  simp only [Bool.false_eq_true, if_false]
  induction hn : l.length using Nat.strong_induction_on generalizing l s with
  | _ n ih =>
    subst hn
    unfold pairwiseAcc
    split
    · simp only [filterReduce_eq, hs, List.length_map, List.foldl_map, and_true]
      have hlen : s.length ≤ l.length := by
        have := List.length_filter_le p l
        rw [hs, List.length_map] at this; exact this
      have h : ∀ (s : List (CK ℚ)) (k : ℕ) (a : CK (RFl rnd)) (e0 : ℂ) (A0 : ℝ), CApprox u k e0 A0 a →
          CApprox u (k + 2 * s.length) (e0 * (s.map toC).prod) (A0 * (s.map abs1).prod) (s.foldl (fun acc q => acc * finC q) a) := by
        intro s
        induction s with
        | nil => intro k a e0 A0 h; simpa using h
        | cons q s ih' =>
          intro k a e0 A0 h
          have := ih' _ _ _ _ (CApprox.mul hu hr h (CApprox.exact hu 0 q))
          simp only [List.foldl_cons, List.map_cons, List.prod_cons, List.length_cons]
          rw [← mul_assoc e0, ← mul_assoc A0]
          exact this.mono hu (by omega) le_rfl
      have := h s 0 1 1 1 (CApprox.one hu 0)
      simp only [one_mul] at this
      exact this.mono hu (by omega) le_rfl
    · rename_i hgt
      simp only [pwBlock, not_le] at hgt
      obtain ⟨s1, s2, rfl, e1, e2⟩ : ∃ s1 s2, s = s1 ++ s2 ∧
          (l.take (l.length / 2)).filter p = s1.map finC ∧
          (l.drop (l.length / 2)).filter p = s2.map finC := by
        have h := hs
        rw [← List.take_append_drop (l.length / 2) l, List.filter_append] at h
        obtain ⟨a, b, h1, h2, h3⟩ := List.append_eq_map_iff.mp h
        exact ⟨a, b, h1, h2.symm, h3.symm⟩
      obtain ⟨i1, c1⟩ := ih _ (by simp; omega) (l.take (l.length / 2)) s1 e1 rfl
      obtain ⟨i2, c2⟩ := ih _ (by simp; omega) (l.drop (l.length / 2)) s2 e2 rfl
      have L1 : (l.take (l.length / 2)).length = l.length / 2 := by simp; omega
      have L2 : (l.drop (l.length / 2)).length = l.length - l.length / 2 := by simp
      rw [L1] at i1
      rw [L2] at i2
      simp only [pwBlock] at i1 i2 c1 c2
      refine ⟨?_, by simp only [pwBlock, c1, c2, List.length_append]⟩
      have h := CApprox.mul hu hr i1 i2
      rw [List.map_append, List.prod_append, List.map_append, List.prod_append]
      exact h.mono hu (by omega) le_rfl

theorem partialSumLoop_capprox (hu : 0 ≤ u) (hr : ∀ x, |rnd x - x| ≤ u * |x|) (l : List (CK ℚ)) (k : ℕ)
    (acc : CK (RFl rnd)) (e : ℂ) (A : ℝ) (h : CApprox u k e A acc) (i : ℕ) (hi : i < l.length) :
    ∃ z, (partialSumLoop (· + ·) acc (l.map finC))[i]? = some z ∧
      CApprox u (k + i + 1) (e + ((l.take (i + 1)).map toC).sum) (A + ((l.take (i + 1)).map abs1).sum) z := by
  induction l generalizing k acc e A i with
  | nil => simp at hi
  | cons x l ih =>
    have h1 := CApprox.add hu hr h (CApprox.exact (rnd := rnd) hu k x)
    cases i with
    | zero =>
      refine ⟨_, by rw [List.map_cons, partialSumLoop, List.getElem?_cons_zero], ?_⟩
      simpa using h1
    | succ i =>
      obtain ⟨z, e1, e2⟩ := ih (k + 1) _ _ _ h1 i (by simpa using hi)
      refine ⟨z, by rw [List.map_cons, partialSumLoop, List.getElem?_cons_succ]; exact e1, ?_⟩
      rw [List.take_succ_cons, List.map_cons, List.sum_cons, List.map_cons, List.sum_cons, ← add_assoc e, ← add_assoc A]
      rw [show k + (i + 1) + 1 = k + 1 + i + 1 by omega]
      exact e2

/-- C139, `cumsum`: the `i`-th computed partial sum is finite and within `((1+u)^i - 1)·Σ_{j≤i}(|re| + |im|)` of the exact one. -/
theorem C139_cumsum (hu : 0 ≤ u) (hr : ∀ x, |rnd x - x| ≤ u * |x|) (cat : Cat) (c : Cont) (x : List (CK ℚ))
    (i : ℕ) (hi : i < x.length) :
    ∃ z : CK ℚ, (cumOp cat c (· + ·) (x.map (finC (rnd := rnd)))).1[i]? = some (finC z) ∧
      ‖toC z - ((x.take (i + 1)).map toC).sum‖ ≤ ((1 + (u : ℝ)) ^ i - 1) * ((x.take (i + 1)).map abs1).sum := by
  have e1 : (cumOp cat c (· + ·) (x.map (finC (rnd := rnd)))).1 = partialSum (· + ·) (x.map finC) := by
    cases cat <;> rfl
  rw [e1]
  rcases x with _ | ⟨x, l⟩
  · simp at hi
  · rw [List.map_cons, partialSum]
    cases i with
    | zero => exact ⟨x, by simp, by simp⟩
    | succ i =>
      obtain ⟨z, h1, h⟩ := partialSumLoop_capprox (rnd := rnd) hu hr l 0 (finC x) (toC x) (abs1 x)
        (CApprox.exact hu 0 x) i (by simpa using hi)
      rw [show 0 + i + 1 = i + 1 by omega] at h
      obtain ⟨q, rfl, h2⟩ := h.out hu
      refine ⟨q, by rw [List.getElem?_cons_succ]; exact h1, ?_⟩
      rw [List.take_succ_cons, List.map_cons, List.sum_cons, List.map_cons, List.sum_cons]
      exact h2

/-! ### convolution -/

theorem convAt_capprox (hu : 0 ≤ u) (hr : ∀ x, |rnd x - x| ≤ u * |x|) (a v : List (CK ℚ)) (i : ℕ)
    (hi : i + 1 < a.length + v.length) :
    ∃ z : CK (RFl rnd), convAt (a.map finC) (v.map finC) i = .ok z ∧
      CApprox u (min a.length v.length + 2) (∑ p ∈ antidiagonal i, (a.map toC).getD p.1 0 * (v.map toC).getD p.2 0)
        (∑ p ∈ antidiagonal i, (a.map abs1).getD p.1 0 * (v.map abs1).getD p.2 0) z := by
  rw [Finset.Nat.sum_antidiagonal_eq_sum_range_succ (fun p q => (a.map toC).getD p 0 * (v.map toC).getD q 0) i,
    Finset.Nat.sum_antidiagonal_eq_sum_range_succ (fun p q => (a.map abs1).getD p 0 * (v.map abs1).getD q 0) i]
  set n := a.length with hn
  set m := v.length with hm
  set lo : ℕ := i + 1 - m with hlo
  set hi' : ℕ := min (i + 1) n with hhi
  have hjmn : (if (i : Int) ≥ (m : Int) - 1 then (i : Int) - ((m : Int) - 1) else 0) = (lo : Int) := by
    split_ifs <;> omega
  have hjmx : (if (i : Int) < (n : Int) - 1 then (i : Int) else (n : Int) - 1) = (hi' : Int) - 1 := by
    split_ifs <;> omega
  unfold convAt
  simp only [List.length_map, ← hn, ← hm, hjmn, hjmx, forUp]
  have hcount : ((hi' : Int) - 1 + 1 - (lo : Int)).toNat = hi' - lo := by omega
  rw [hcount]
  obtain ⟨t, ht, hp⟩ := forN_inv (n := hi' - lo)
    (f := fun k acc => do
      let x ← rd (a.map (finC (rnd := rnd))) ((lo : Int) + (k : Int))
      let y ← rd (v.map (finC (rnd := rnd))) ((i : Int) - ((lo : Int) + (k : Int)))
      pure (acc + x * y)) (s := (0 : CK (RFl rnd)))
    (fun k acc => CApprox u (k + 2) (∑ j ∈ Finset.range k, (a.map toC).getD (lo + j) 0 * (v.map toC).getD (i - (lo + j)) 0)
      (∑ j ∈ Finset.range k, (a.map abs1).getD (lo + j) 0 * (v.map abs1).getD (i - (lo + j)) 0) acc)
    (by simp only [Finset.range_zero, Finset.sum_empty]; exact CApprox.zero (rnd := rnd) hu _) (by
      intro k hk t htk
      have h1 : lo + k < (a.map (finC (rnd := rnd))).length := by rw [List.length_map]; omega
      have h2 : i - (lo + k) < (v.map (finC (rnd := rnd))).length := by rw [List.length_map]; omega
      have h1' : lo + k < a.length := by omega
      have h2' : i - (lo + k) < v.length := by omega
      have e1 : ((lo : Int) + (k : Int)) = ((lo + k : ℕ) : Int) := by push_cast; rfl
      have e2 : ((i : Int) - ((lo + k : ℕ) : Int)) = ((i - (lo + k) : ℕ) : Int) := by omega
      refine ⟨t + finC (a[lo + k]) * finC (v[i - (lo + k)]), ?_, ?_⟩
      · simp only [e1, e2, rd_nat _ _ h1, rd_nat _ _ h2, Res.bind_ok, Res.pure_eq, List.getElem_map]
      · rw [Finset.sum_range_succ, Finset.sum_range_succ, getD_of_lt _ _ (by simpa using h1'), getD_of_lt _ _ (by simpa using h2'),
          getD_of_lt (a.map abs1) _ (by simpa using h1'), getD_of_lt (v.map abs1) _ (by simpa using h2')]
        simp only [List.getElem_map]
        have hm := CApprox.mul hu hr (CApprox.exact (rnd := rnd) hu 0 (a[lo + k]))
            (CApprox.exact (rnd := rnd) hu 0 (v[i - (lo + k)]))
        exact (CApprox.add hu hr htk (hm.mono hu (by omega) le_rfl)).mono hu (by omega) le_rfl)
  refine ⟨t, ht, ?_⟩
  have hsum : ∀ {γ : Type} [AddCommMonoid γ] (f : ℕ → ℕ → γ), (∀ p q, n ≤ p ∨ m ≤ q → f p q = 0) →
      ∑ j ∈ Finset.range (hi' - lo), f (lo + j) (i - (lo + j)) = ∑ j ∈ Finset.range (i + 1), f j (i - j) := by
    intro γ _ f hf
    rw [← Finset.sum_Ico_eq_sum_range (fun j => f j (i - j)) lo hi']
    apply Finset.sum_subset
    · intro j hj
      simp only [Finset.mem_Ico, Finset.mem_range] at hj ⊢
      omega
    · intro j hj hnj
      simp only [Finset.mem_Ico, Finset.mem_range, not_and, not_lt] at hj hnj
      by_cases h : j < lo
      · exact hf _ _ (Or.inr (by omega))
      · exact hf _ _ (Or.inl (by omega))
  have s1 := hsum (fun p q => (a.map toC).getD p 0 * (v.map toC).getD q 0) (by
    rintro p q (h | h)
    · rw [getD_of_ge (a.map toC) p (by simpa using h), zero_mul]
    · rw [getD_of_ge (v.map toC) q (by simpa using h), mul_zero])
  have s2 := hsum (fun p q => (a.map abs1).getD p 0 * (v.map abs1).getD q 0) (by
    rintro p q (h | h)
    · rw [getD_of_ge (a.map abs1) p (by simpa using h), zero_mul]
    · rw [getD_of_ge (v.map abs1) q (by simpa using h), mul_zero])
  rw [s1, s2] at hp
  exact hp.mono hu (by omega) le_rfl

theorem directConvolve_capprox (hu : 0 ≤ u) (hr : ∀ x, |rnd x - x| ≤ u * |x|) (a v : List (CK ℚ))
    (h : 1 ≤ a.length + v.length) :
    ∃ r : List (CK (RFl rnd)), directConvolveImpl (List.replicate (a.length + v.length - 1) 0)
        (a.map finC) (v.map finC) = .ok r ∧
      r.length = a.length + v.length - 1 ∧
      ∀ i, i < a.length + v.length - 1 →
        CApprox u (min a.length v.length + 2) (∑ p ∈ antidiagonal i, (a.map toC).getD p.1 0 * (v.map toC).getD p.2 0)
          (∑ p ∈ antidiagonal i, (a.map abs1).getD p.1 0 * (v.map abs1).getD p.2 0) (r.getD i 0) := by
  unfold directConvolveImpl
  have hreq : (((a.length + v.length - 1 : ℕ) : Int) == (a.length : Int) + (v.length : Int) - 1)
        = true := by
    rw [beq_iff_eq]; omega
  simp only [List.length_replicate, List.length_map, hreq, require_true, Res.bind_ok, forUp, List.length_map]
  have hcount : ((a.length : Int) + (v.length : Int) - 2 + 1 - 0).toNat
      = a.length + v.length - 1 := by omega
  rw [hcount]
  obtain ⟨t, ht, hl, hp⟩ := forN_inv (n := a.length + v.length - 1)
    (f := fun k r => do
      let x ← convAt (a.map (finC (rnd := rnd))) (v.map finC) (0 + (k : Int))
      wr r (0 + (k : Int)) x) (s := List.replicate (a.length + v.length - 1) (0 : CK (RFl rnd)))
    (fun k r => r.length = a.length + v.length - 1 ∧
      ∀ i, i < k → CApprox u (min a.length v.length + 2)
        (∑ p ∈ antidiagonal i, (a.map toC).getD p.1 0 * (v.map toC).getD p.2 0)
          (∑ p ∈ antidiagonal i, (a.map abs1).getD p.1 0 * (v.map abs1).getD p.2 0) (r.getD i 0))
    (by simp) (by
      rintro k hk t ⟨hl, hp⟩
      obtain ⟨z, e, hz⟩ := convAt_capprox hu hr a v k (by omega)
      refine ⟨t.set k z, ?_, ?_, ?_⟩
      · simp only [zero_add, e, Res.bind_ok]
        rw [wr_nat _ _ _ (by omega)]
      · simp [hl]
      · intro i hi
        by_cases hik : i = k
        · subst hik
          rw [getD_of_lt _ _ (by simp; omega)]
          simpa using hz
        · have h1 : i < t.length := by omega
          have := hp i (by omega)
          rw [getD_of_lt _ _ h1] at this
          rw [getD_of_lt _ _ (by simp; omega), List.getElem_set_ne (by omega)]
          exact this)
  exact ⟨t, ht, hl, hp⟩

/-- C139, `convolve` of complex arrays (direct method): every computed coefficient is finite and within
`((1+u)^(min(n,m)+2) - 1)·Σ abs1 aⱼ · abs1 v_{k-j}` of the exact one. -/
theorem C139_convolve (hu : 0 ≤ u) (hr : ∀ x, |rnd x - x| ≤ u * |x|) (a v : List (CK ℚ)) (ha : a ≠ []) :
    ∃ r : List (CK ℚ), convolve (a.map (finC (rnd := rnd))) (v.map finC) = .ok (r.map finC) ∧
      r.length = a.length + v.length - 1 ∧
      ∀ k, (hk : k < r.length) → ‖toC r[k] - ∑ p ∈ antidiagonal k, (a.map toC).getD p.1 0 * (v.map toC).getD p.2 0‖
        ≤ ((1 + (u : ℝ)) ^ (min a.length v.length + 2) - 1)
          * ∑ p ∈ antidiagonal k, (a.map abs1).getD p.1 0 * (v.map abs1).getD p.2 0 := by
  have hpos := List.length_pos_iff.mpr ha
  have key : ∃ r : List (CK (RFl rnd)), convolve (a.map (finC (rnd := rnd))) (v.map finC) = .ok r ∧
      r.length = a.length + v.length - 1 ∧
      ∀ i, i < a.length + v.length - 1 →
        CApprox u (min a.length v.length + 2) (∑ p ∈ antidiagonal i, (a.map toC).getD p.1 0 * (v.map toC).getD p.2 0)
          (∑ p ∈ antidiagonal i, (a.map abs1).getD p.1 0 * (v.map abs1).getD p.2 0) (r.getD i 0) := by
    unfold convolve
    have hreq : (!((a.map (finC (rnd := rnd))).isEmpty && (v.map (finC (rnd := rnd))).isEmpty)) = true := by
      cases a with
      | nil => exact absurd rfl ha
      | cons _ _ => rfl
    simp only [hreq, require_true, Res.bind_ok, List.length_map]
    split_ifs with hc
    · exact directConvolve_capprox hu hr a v (by omega)
    · obtain ⟨r, h1, h2, h3⟩ := directConvolve_capprox (rnd := rnd) hu hr v a (by omega)
      rw [Nat.add_comm v.length a.length] at h1 h2 h3
      refine ⟨r, h1, h2, fun i hi => ?_⟩
      have := h3 i hi
      rw [← Finset.Nat.sum_antidiagonal_swap, ← Finset.Nat.sum_antidiagonal_swap (n := i)
        (f := fun p => (v.map abs1).getD p.1 0 * (a.map abs1).getD p.2 0), Nat.min_comm] at this
      simpa only [Prod.fst_swap, Prod.snd_swap, mul_comm] using this
  obtain ⟨r, h1, h2, h3⟩ := key
  have hfin : ∃ q : List (CK ℚ), r = q.map finC := by
    have hall : ∀ x ∈ r, ∃ q : CK ℚ, x = finC q := by
      intro x hx
      obtain ⟨i, hi, rfl⟩ := List.getElem_of_mem hx
      obtain ⟨q, hq, -⟩ := (h3 i (by omega)).out hu
      rw [getD_of_lt _ _ hi] at hq
      exact ⟨q, hq⟩
    clear h1 h2 h3
    induction r with
    | nil => exact ⟨[], rfl⟩
    | cons x r ih =>
      obtain ⟨q, hq⟩ := hall x (by simp)
      obtain ⟨qs, hqs⟩ := ih (fun y hy => hall y (List.mem_cons_of_mem _ hy))
      exact ⟨q :: qs, by rw [hq, hqs]; rfl⟩
  obtain ⟨q, rfl⟩ := hfin
  rw [List.length_map] at h2
  refine ⟨q, h1, h2, fun k hk => ?_⟩
  obtain ⟨z, hz, hb⟩ := (h3 k (by omega)).out hu
  rw [getD_of_lt _ _ (by rw [List.length_map]; exact hk), List.getElem_map] at hz
  have : q[k] = z := by
    have h1 := congrArg CK.re hz
    have h2 := congrArg CK.im hz
    simp only [finC, RFl.fin_inj] at h1 h2
    cases hq : q[k]; cases z
    rw [hq] at h1 h2
    simp only at h1 h2
    rw [h1, h2]
  rw [this]; exact hb

/-- C139, `correlate` of complex arrays (direct method): every coefficient is finite and within
`((1+u)^(min(n,m)+2) - 1)·Σ abs1 aⱼ · abs1 v_{m-1-(k-j)}` of `Σ aⱼ conj(v_{m-1-(k-j)})`: the second array is reversed and conjugated. -/
theorem C139_correlate (hu : 0 ≤ u) (hr : ∀ x, |rnd x - x| ≤ u * |x|) (a v : List (CK ℚ)) (ha : a ≠ []) :
    ∃ r : List (CK ℚ), correlateC (a.map (finC (rnd := rnd))) (v.map finC) = .ok (r.map finC) ∧
      r.length = a.length + v.length - 1 ∧
      ∀ k, (hk : k < r.length) →
        ‖toC r[k] - ∑ p ∈ antidiagonal k, (a.map toC).getD p.1 0 * (v.reverse.map fun z => starRingEnd ℂ (toC z)).getD p.2 0‖
        ≤ ((1 + (u : ℝ)) ^ (min a.length v.length + 2) - 1)
          * ∑ p ∈ antidiagonal k, (a.map abs1).getD p.1 0 * (v.reverse.map abs1).getD p.2 0 := by
  have h := C139_convolve (rnd := rnd) hu hr a (v.reverse.map fun z => ⟨z.re, -z.im⟩) ha
  simp only [List.map_map, List.length_map, List.length_reverse] at h
  have e1 : (v.map (finC (rnd := rnd))).reverse.map CK.conj = v.reverse.map (finC ∘ fun z : CK ℚ => ⟨z.re, -z.im⟩) := by
    rw [← List.map_reverse, List.map_map]; rfl
  have e2 : (toC ∘ fun z : CK ℚ => (⟨z.re, -z.im⟩ : CK ℚ)) = fun z => starRingEnd ℂ (toC z) := by
    funext z
    simp only [Function.comp, toC]
    rw [Complex.ext_iff]
    simp
  have e3 : (abs1 ∘ fun z : CK ℚ => (⟨z.re, -z.im⟩ : CK ℚ)) = abs1 := by
    funext z
    simp [Function.comp, abs1]
  rw [e2, e3] at h
  unfold correlateC
  rw [e1]
  exact h

/-! ### variance -/

/-- The components are finite. -/
def FinC (z : CK (RFl rnd)) : Prop := ∃ q : CK ℚ, z = finC q

theorem FinC.add {x y : CK (RFl rnd)} (hx : FinC x) (hy : FinC y) : FinC (x + y) := by
  obtain ⟨q, rfl⟩ := hx; obtain ⟨r, rfl⟩ := hy
  exact ⟨⟨rnd (q.re + r.re), rnd (q.im + r.im)⟩, rfl⟩

theorem sub_finC (q r : CK ℚ) : (finC q - finC r : CK (RFl rnd)) = finC ⟨rnd (q.re - r.re), rnd (q.im - r.im)⟩ := by
  show (⟨RFl.fin q.re - RFl.fin r.re, RFl.fin q.im - RFl.fin r.im⟩ : CK (RFl rnd)) = _
  rw [RFl.sub_fin, RFl.sub_fin]; rfl

theorem mul_finC (q r : CK ℚ) : (finC q * finC r : CK (RFl rnd))
    = finC ⟨rnd (rnd (q.re * r.re) - rnd (q.im * r.im)), rnd (rnd (q.re * r.im) + rnd (q.im * r.re))⟩ := by
  show (⟨RFl.fin q.re * RFl.fin r.re - RFl.fin q.im * RFl.fin r.im, RFl.fin q.re * RFl.fin r.im + RFl.fin q.im * RFl.fin r.re⟩ : CK (RFl rnd)) = _
  simp only [RFl.mul_fin, RFl.sub_fin, RFl.add_fin]; rfl

theorem FinC.mul {x y : CK (RFl rnd)} (hx : FinC x) (hy : FinC y) : FinC (x * y) := by
  obtain ⟨q, rfl⟩ := hx; obtain ⟨r, rfl⟩ := hy
  exact ⟨_, mul_finC q r⟩

theorem div_finC (h00 : rnd 0 = 0) (hp : ∀ q, 0 < q → 0 < rnd q) (q : CK ℚ) (n : ℚ) (hn : 0 < n) :
    (finC q / finC ⟨n, 0⟩ : CK (RFl rnd)) = finC ⟨rnd (rnd q.re / rnd n), rnd (rnd q.im / rnd n)⟩ := by
  show CK.div _ _ = _
  unfold CK.div
  rw [if_neg]
  · have h1 := (hp n hn).ne'
    simp only [finC, RFl.div_fin hn.ne', zero_div, h00, RFl.mul_fin, RFl.add_fin, RFl.sub_fin, mul_zero, zero_add, sub_zero, RFl.div_fin h1]
  · show ¬ (decide (|n| < |(0 : ℚ)|) = true)
    simp

theorem round_signs (hu1 : u < 1) (hr : ∀ x, |rnd x - x| ≤ u * |x|) :
    rnd 0 = 0 ∧ (∀ q, 0 < q → 0 < rnd q) ∧ (∀ q, 0 ≤ q → 0 ≤ rnd q) ∧ (∀ q, q ≤ 0 → rnd q ≤ 0) := by
  have h00 : rnd 0 = 0 := by have := hr 0; simpa using this
  have hp : ∀ q, 0 < q → 0 < rnd q := by
    intro q hq
    have := abs_le.mp (hr q)
    rw [abs_of_pos hq] at this
    nlinarith [this.1]
  refine ⟨h00, hp, ?_, ?_⟩
  · intro q hq
    rcases hq.eq_or_lt with rfl | h
    · exact h00.ge
    · exact (hp q h).le
  · intro q hq
    rcases hq.eq_or_lt with rfl | h
    · exact h00.le
    · have := abs_le.mp (hr q)
      rw [abs_of_neg h] at this
      nlinarith [this.2]

theorem mean_finC (hu : 0 ≤ u) (hu1 : u < 1) (hr : ∀ x, |rnd x - x| ≤ u * |x|) (l : List (CK ℚ)) (hlen : l.length < 2 ^ 31) :
    FinC (mean (l.map (finC (rnd := rnd))) fun _ => true) := by
  obtain ⟨h00, hp, -, -⟩ := round_signs hu1 hr
  rcases Nat.eq_zero_or_pos l.length with h | h
  · rw [List.length_eq_zero_iff] at h
    subst h
    exact ⟨⟨0, 0⟩, rfl⟩
  · obtain ⟨z, e, -⟩ := C139_sum hu hr (l.map finC) (fun _ => true) l (by simp)
    unfold mean
    rw [if_neg (by simp; exact List.length_pos_iff.mp h), e]
    have h1 : (CppNum.ofInt (toI32 (l.length : ℤ)) : CK (RFl rnd)) = finC ⟨rnd l.length, 0⟩ := by
      show (⟨RFl.fin (rnd _), 0⟩ : CK (RFl rnd)) = _
      rw [toI32_of_lt (by omega) (by omega), Int.cast_natCast]; rfl
    simp only [h1]
    exact ⟨_, div_finC h00 hp z _ (hp _ (by exact_mod_cast h))⟩

theorem covLoop_selfC (h0 : ∀ q, 0 ≤ q → 0 ≤ rnd q) (h1 : ∀ q, q ≤ 0 → rnd q ≤ 0) (m : CK ℚ) (l : List (CK ℚ)) (r : CK ℚ) (hr : 0 ≤ r.re) (c : ℕ) :
    ∃ r' : CK ℚ, covLoop (fun _ => true) (finC (rnd := rnd) m) (finC m) (finC r) c (l.map finC) (l.map finC) = .ok (finC r', c + l.length) ∧ 0 ≤ r'.re := by
  induction l generalizing r c with
  | nil => exact ⟨r, rfl, hr⟩
  | cons x l ih =>
    rw [List.map_cons, covLoop, if_pos (by rfl), sub_finC]
    set d : CK ℚ := ⟨rnd (x.re - m.re), rnd (x.im - m.im)⟩ with hd
    have hc : (CppNum.conj (finC d) : CK (RFl rnd)) = finC ⟨d.re, -d.im⟩ := rfl
    rw [hc, mul_finC]
    obtain ⟨r', e, h⟩ := ih ⟨rnd (r.re + rnd (rnd (d.re * d.re) - rnd (d.im * -d.im))), rnd (r.im + rnd (rnd (d.re * -d.im) + rnd (d.im * d.re)))⟩
      (h0 _ (add_nonneg hr (h0 _ (sub_nonneg.mpr ((h1 _ (by nlinarith [mul_self_nonneg d.im])).trans (h0 _ (mul_self_nonneg _))))))) (c + 1)
    refine ⟨r', ?_, h⟩
    rw [List.length_cons, show c + (l.length + 1) = c + 1 + l.length by omega]
    exact e

theorem cov_self_pairwiseC (hu : 0 ≤ u) (hu1 : u < 1) (hr : ∀ x, |rnd x - x| ≤ u * |x|) (l : List (CK ℚ)) (hne : l ≠ []) (hlen : l.length < 2 ^ 31) :
    ∃ m r : CK ℚ, pairwiseAcc2 pwBlock (covBlock fun _ => true) covCombine (l.map (finC (rnd := rnd))) (l.map finC)
      = .ok (finC m, finC m, finC r, l.length) ∧ 0 ≤ r.re := by
  obtain ⟨h00, hp, h0, h1⟩ := round_signs hu1 hr
  induction hn : l.length using Nat.strong_induction_on generalizing l with
  | _ n ih =>
    subst hn
    unfold pairwiseAcc2
    rw [if_neg (by simp)]
    split
    · obtain ⟨m, hm⟩ := mean_finC (rnd := rnd) hu hu1 hr l hlen
      obtain ⟨r, e, hr'⟩ := covLoop_selfC (rnd := rnd) h0 h1 m l ⟨0, 0⟩ le_rfl 0
      refine ⟨m, r, ?_, hr'⟩
      unfold covBlock
      rw [Nat.zero_add] at e
      simp only [hm]
      have e' : covLoop (fun _ => true) (finC (rnd := rnd) m) (finC m) 0 0 (l.map finC) (l.map finC) = .ok (finC r, l.length) := e
      simp only [e', Res.bind_ok, Res.pure_eq]
    · rename_i hgt
      simp only [List.length_map, pwBlock, not_le] at hgt
      have L1 : (l.take (l.length / 2)).length = l.length / 2 := by simp; omega
      have L2 : (l.drop (l.length / 2)).length = l.length - l.length / 2 := by simp
      obtain ⟨m1, r1, e1, n1⟩ := ih _ (by omega) (l.take (l.length / 2)) (by intro h; rw [h] at L1; simp at L1; omega) (by omega) rfl
      obtain ⟨m2, r2, e2, n2⟩ := ih _ (by omega) (l.drop (l.length / 2)) (by intro h; rw [h] at L2; simp at L2; omega) (by omega) rfl
      simp only [List.length_map, ← List.map_take, ← List.map_drop]
      rw [e1, e2, L1, L2]
      have hint : ∀ n : ℕ, n ≤ l.length → (CppNum.ofInt (toI32 (n : ℤ)) : CK (RFl rnd)) = finC ⟨rnd n, 0⟩ := by
        intro n hn
        show (⟨RFl.fin (rnd _), 0⟩ : CK (RFl rnd)) = _
        rw [toI32_of_lt (by omega) (by omega), Int.cast_natCast]; rfl
      have hone : (CppNum.ofInt 1 : CK (RFl rnd)) = finC ⟨rnd 1, 0⟩ := by
        show (⟨RFl.fin (rnd _), 0⟩ : CK (RFl rnd)) = _
        rw [Int.cast_one]; rfl
      have hsum : l.length / 2 + (l.length - l.length / 2) = l.length := by omega
      simp only [Res.bind_ok, Res.pure_eq, covCombine, hint _ (show l.length / 2 ≤ l.length by omega),
        hint _ (show l.length - l.length / 2 ≤ l.length by omega), hsum, hint _ le_rfl, hone]
      have hNpos : (0 : ℚ) < rnd (l.length : ℚ) := hp _ (by exact_mod_cast (show 0 < l.length by omega))
      have hApos : (0 : ℚ) ≤ rnd ((l.length / 2 : ℕ) : ℚ) := h0 _ (by exact_mod_cast Nat.zero_le _)
      have hBpos : (0 : ℚ) ≤ rnd ((l.length - l.length / 2 : ℕ) : ℚ) := h0 _ (by exact_mod_cast Nat.zero_le _)
      obtain ⟨m, hm⟩ : FinC ((finC ⟨rnd 1, 0⟩ / finC ⟨rnd (l.length : ℚ), 0⟩ : CK (RFl rnd)) *
          (finC ⟨rnd ((l.length / 2 : ℕ) : ℚ), 0⟩ * finC m1 + finC ⟨rnd ((l.length - l.length / 2 : ℕ) : ℚ), 0⟩ * finC m2)) :=
        FinC.mul ⟨_, div_finC h00 hp _ _ hNpos⟩ (FinC.add ⟨_, mul_finC _ _⟩ ⟨_, mul_finC _ _⟩)
      rw [hm, sub_finC, mul_finC, div_finC h00 hp _ _ hNpos]
      set e : CK ℚ := ⟨rnd (m1.re - m2.re), rnd (m1.im - m2.im)⟩ with he
      have hc : (CppNum.conj (finC e) : CK (RFl rnd)) = finC ⟨e.re, -e.im⟩ := rfl
      rw [hc, mul_finC, mul_finC]
      simp only [mul_zero, zero_mul, h00, sub_zero, add_zero, zero_div]
      set g : ℚ := rnd (rnd (rnd (rnd (rnd ((l.length / 2 : ℕ) : ℚ) * rnd ((l.length - l.length / 2 : ℕ) : ℚ)))) / rnd (rnd (l.length : ℚ))) with hg
      have hg0 : 0 ≤ g := h0 _ (div_nonneg (h0 _ (h0 _ (h0 _ (mul_nonneg hApos hBpos)))) (h0 _ hNpos.le))
      refine ⟨m, ⟨rnd (rnd (r1.re + r2.re) + rnd (rnd (rnd (rnd (g * e.re)) * e.re) - rnd (rnd (rnd (g * -e.im)) * e.im))),
        rnd (rnd (r1.im + r2.im) + rnd (rnd (rnd (rnd (g * e.re)) * e.im) + rnd (rnd (rnd (g * -e.im)) * e.re)))⟩, rfl, ?_⟩
      have sgn : ∀ q t : ℚ, 0 ≤ q * t → 0 ≤ rnd q * t := by
        intro q t h
        rcases le_total 0 q with hq | hq
        · rcases le_total 0 t with ht | ht
          · exact mul_nonneg (h0 _ hq) ht
          · rcases hq.eq_or_lt with rfl | hq
            · rw [h00, zero_mul]
            · have : t = 0 := le_antisymm ht (by by_contra hh; push Not at hh; nlinarith)
              rw [this, mul_zero]
        · rcases le_total 0 t with ht | ht
          · rcases ht.eq_or_lt with rfl | ht
            · rw [mul_zero]
            · have : q = 0 := le_antisymm hq (by by_contra hh; push Not at hh; nlinarith)
              rw [this, h00, zero_mul]
          · exact mul_nonneg_of_nonpos_of_nonpos (h1 _ hq) ht
      have a1 : 0 ≤ rnd (rnd (g * e.re)) * e.re := sgn _ _ (sgn _ _ (by nlinarith [mul_self_nonneg e.re, mul_nonneg hg0 (mul_self_nonneg e.re)]))
      have a2 : rnd (rnd (g * -e.im)) * e.im ≤ 0 := by
        have := sgn _ (-e.im) (sgn (g * -e.im) (-e.im) (by nlinarith [mul_nonneg hg0 (mul_self_nonneg e.im)]))
        linarith
      exact h0 _ (add_nonneg (h0 _ (add_nonneg n1 n2)) (h0 _ (sub_nonneg.mpr ((h1 _ a2).trans (h0 _ a1)))))

/-- C139, `var` of a complex array is never negative, for every array of finite numbers and every number of degrees of freedom, with any
rounding of relative error below `1`. -/
theorem C139_var_nonneg (hu : 0 ≤ u) (hu1 : u < 1) (hr : ∀ x, |rnd x - x| ≤ u * |x|) (ddof : ℤ) (l : List (CK ℚ)) (hlen : l.length < 2 ^ 31) :
    ∃ v : ℚ, 0 ≤ v ∧ varC ddof (l.map (finC (rnd := rnd))) = .ok (RFl.fin v) := by
  obtain ⟨h00, hp, h0, h1⟩ := round_signs hu1 hr
  unfold varC varF covarianceF
  simp only [beq_self_eq_true, require_true, Res.bind_ok, Res.pure_eq]
  by_cases hne : l = []
  · subst hne
    exact ⟨0, le_rfl, rfl⟩
  · obtain ⟨m, r, e, hr'⟩ := cov_self_pairwiseC (rnd := rnd) hu hu1 hr l hne hlen
    rw [if_neg (by simpa using hne)]
    simp only [e, Res.bind_ok]
    split_ifs with hd
    · exact ⟨0, le_rfl, rfl⟩
    · have hpos : (0 : ℚ) < rnd (((toI32 (l.length : ℤ) - ddof : ℤ)) : ℚ) := by
        rw [toI32_of_lt (by omega) (by omega)]
        exact hp _ (by exact_mod_cast (by omega : 0 < (l.length : ℤ) - ddof))
      refine ⟨rnd (rnd r.re / rnd (rnd (((toI32 (l.length : ℤ) - ddof : ℤ)) : ℚ))), h0 _ (div_nonneg (h0 _ hr') (h0 _ hpos.le)), ?_⟩
      have : (finC r / CppNum.ofInt (toI32 (l.length : ℤ) - ddof) : CK (RFl rnd))
          = finC ⟨rnd (rnd r.re / rnd (rnd (((toI32 (l.length : ℤ) - ddof : ℤ)) : ℚ))), rnd (rnd r.im / rnd (rnd (((toI32 (l.length : ℤ) - ddof : ℤ)) : ℚ)))⟩ :=
        div_finC h00 hp r _ hpos
      show Res.ok (finC r / CppNum.ofInt (toI32 (l.length : ℤ) - ddof) : CK (RFl rnd)).re = _
      rw [this]; rfl

/-! ### covariance -/

theorem covLoop_swapC (hodd : ∀ q, rnd (-q) = -rnd q) (m1 m2 : CK ℚ) (a b : List (CK ℚ)) (hab : a.length = b.length) (r : CK ℚ) (c : ℕ) :
    ∃ r' : CK ℚ, covLoop (fun _ => true) (finC (rnd := rnd) m1) (finC m2) (finC r) c (a.map finC) (b.map finC) = .ok (finC r', c + a.length) ∧
      covLoop (fun _ => true) (finC (rnd := rnd) m2) (finC m1) (finC ⟨r.re, -r.im⟩) c (b.map finC) (a.map finC)
        = .ok (finC ⟨r'.re, -r'.im⟩, c + a.length) := by
  induction a generalizing b r c with
  | nil =>
    obtain rfl := List.length_eq_zero_iff.mp hab.symm
    exact ⟨r, rfl, rfl⟩
  | cons x a ih =>
    rcases b with _ | ⟨y, b⟩
    · simp at hab
    rw [List.map_cons, List.map_cons, covLoop, covLoop, if_pos (by rfl), if_pos (by rfl), sub_finC, sub_finC]
    set d : CK ℚ := ⟨rnd (x.re - m1.re), rnd (x.im - m1.im)⟩ with hd
    set e : CK ℚ := ⟨rnd (y.re - m2.re), rnd (y.im - m2.im)⟩ with he
    have hc : (CppNum.conj (finC e) : CK (RFl rnd)) = finC ⟨e.re, -e.im⟩ := rfl
    have hc' : (CppNum.conj (finC d) : CK (RFl rnd)) = finC ⟨d.re, -d.im⟩ := rfl
    rw [hc, hc', mul_finC, mul_finC]
    obtain ⟨r', e1, e2⟩ := ih b (by simpa using hab)
      ⟨rnd (r.re + rnd (rnd (d.re * e.re) - rnd (d.im * -e.im))), rnd (r.im + rnd (rnd (d.re * -e.im) + rnd (d.im * e.re)))⟩ (c + 1)
    refine ⟨r', ?_, ?_⟩
    · rw [List.length_cons, show c + (a.length + 1) = c + 1 + a.length by omega]
      exact e1
    · rw [List.length_cons, show c + (a.length + 1) = c + 1 + a.length by omega, ← e2]
      have : (finC ⟨r.re, -r.im⟩ + finC ⟨rnd (rnd (e.re * d.re) - rnd (e.im * -d.im)), rnd (rnd (e.re * -d.im) + rnd (e.im * d.re))⟩ : CK (RFl rnd))
          = finC ⟨rnd (r.re + rnd (rnd (d.re * e.re) - rnd (d.im * -e.im))), -rnd (r.im + rnd (rnd (d.re * -e.im) + rnd (d.im * e.re)))⟩ := by
        show finC ⟨rnd (r.re + rnd (rnd (e.re * d.re) - rnd (e.im * -d.im))), rnd (-r.im + rnd (rnd (e.re * -d.im) + rnd (e.im * d.re)))⟩ = _
        rw [← hodd (r.im + _), neg_add, ← hodd (rnd (d.re * -e.im) + _), neg_add, ← hodd (d.re * -e.im), ← hodd (d.im * e.re),
          show e.re * d.re = d.re * e.re by ring, show e.im * -d.im = d.im * -e.im by ring, show e.re * -d.im = -(d.im * e.re) by ring,
          show e.im * d.re = -(d.re * -e.im) by ring, add_comm (rnd (-(d.im * e.re)))]
      rw [this]

/-- C139, `covariance` of at most 64 pairs of complex numbers: `covariance(y, x)` is the conjugate of `covariance(x, y)`, bit for bit (with more
elements the combination of the blocks, `(n₁n₂/n)·conj(Δy)·Δx`, rounds in another order). -/
theorem C139_cov_symm (hu : 0 ≤ u) (hu1 : u < 1) (hr : ∀ x, |rnd x - x| ≤ u * |x|) (hodd : ∀ q, rnd (-q) = -rnd q) (ddof : ℤ)
    (a b : List (CK ℚ)) (hab : a.length = b.length) (hlen : a.length ≤ 64) :
    ∃ z : CK ℚ, covarianceF ddof (a.map (finC (rnd := rnd))) (b.map finC) (fun _ => true) = .ok (finC z, a.length) ∧
      covarianceF ddof (b.map (finC (rnd := rnd))) (a.map finC) (fun _ => true) = .ok (finC ⟨z.re, -z.im⟩, a.length) := by
  obtain ⟨h00, hp, -, -⟩ := round_signs hu1 hr
  obtain ⟨m1, hm1⟩ := mean_finC (rnd := rnd) hu hu1 hr a (by omega)
  obtain ⟨m2, hm2⟩ := mean_finC (rnd := rnd) hu hu1 hr b (by omega)
  obtain ⟨r, e1, e2⟩ := covLoop_swapC hodd m1 m2 a b hab ⟨0, 0⟩ 0
  have e2' : covLoop (fun _ => true) (finC (rnd := rnd) m2) (finC m1) 0 0 (b.map finC) (a.map finC) = .ok (finC ⟨r.re, -r.im⟩, a.length) := by
    rw [← Nat.zero_add a.length, ← e2]
    have : (finC ⟨(0 : ℚ), -0⟩ : CK (RFl rnd)) = 0 := by rw [neg_zero]; rfl
    simp only [this]
  have e1' : covLoop (fun _ => true) (finC (rnd := rnd) m1) (finC m2) 0 0 (a.map finC) (b.map finC) = .ok (finC r, a.length) := by
    rw [← Nat.zero_add a.length]; exact e1
  have b1 : pairwiseAcc2 pwBlock (covBlock fun _ => true) covCombine (a.map (finC (rnd := rnd))) (b.map finC) = .ok (finC m1, finC m2, finC r, a.length) := by
    unfold pairwiseAcc2
    rw [if_neg (by simp [hab]), if_pos (by simp only [List.length_map, pwBlock]; omega)]
    unfold covBlock
    simp only [hm1, hm2, e1', Res.bind_ok, Res.pure_eq]
  have b2 : pairwiseAcc2 pwBlock (covBlock fun _ => true) covCombine (b.map (finC (rnd := rnd))) (a.map finC)
      = .ok (finC m2, finC m1, finC ⟨r.re, -r.im⟩, a.length) := by
    unfold pairwiseAcc2
    rw [if_neg (by simp [hab]), if_pos (by simp only [List.length_map, pwBlock]; omega)]
    unfold covBlock
    simp only [hm1, hm2, e2', Res.bind_ok, Res.pure_eq]
  unfold covarianceF
  simp only [List.length_map, hab, beq_self_eq_true, require_true, Res.bind_ok, Res.pure_eq]
  by_cases hl : b.length = 0
  · rw [if_pos hl, hl]
    exact ⟨⟨0, 0⟩, rfl, by rw [if_pos rfl, neg_zero]; rfl⟩
  · rw [if_neg hl, if_neg hl, b1, b2]
    simp only [Res.bind_ok, hab]
    split_ifs with hd
    · exact ⟨⟨0, 0⟩, rfl, by rw [neg_zero]; rfl⟩
    · have hpos : (0 : ℚ) < rnd (((toI32 (b.length : ℤ) - ddof : ℤ)) : ℚ) := by
        rw [toI32_of_lt (by omega) (by omega)]
        exact hp _ (by exact_mod_cast (by omega : 0 < (b.length : ℤ) - ddof))
      have hdv : ∀ r : CK ℚ, (finC r / CppNum.ofInt (toI32 (b.length : ℤ) - ddof) : CK (RFl rnd))
          = finC ⟨rnd (rnd r.re / rnd (rnd (((toI32 (b.length : ℤ) - ddof : ℤ)) : ℚ))), rnd (rnd r.im / rnd (rnd (((toI32 (b.length : ℤ) - ddof : ℤ)) : ℚ)))⟩ :=
        fun r => div_finC h00 hp r _ hpos
      refine ⟨_, by rw [hdv], ?_⟩
      rw [hdv]
      simp only [hodd, neg_div]

/-! ### examples -/

theorem u64_pos : (0 : ℚ) ≤ 1 / 2 ^ 53 := by positivity

/-- `double`: the product of `{1+2i, 3i}` with itself. -/
example : ∃ q : ℚ, 0 ≤ q ∧ vdot CK.conj ([⟨1, 2⟩, ⟨0, 3⟩].map (finC (rnd := rnd64))) ([⟨1, 2⟩, ⟨0, 3⟩].map finC) = .ok (finC ⟨q, 0⟩) :=
  C139_vdot_self rnd64_neg (fun q h => by rw [← rnd64_zero]; exact rnd64_mono h) _

/-- `double`: the mean of `{1+2i, 3i, 5}`. -/
example : ∃ z : CK ℚ, mean ([⟨1, 2⟩, ⟨0, 3⟩, ⟨5, 0⟩].map (finC (rnd := rnd64))) (fun _ => true) = finC z ∧
      ‖toC z - ([⟨1, 2⟩, ⟨0, 3⟩, ⟨5, 0⟩].map toC).sum / 3‖ ≤ ((1 + ((1 / 2 ^ 53 : ℚ) : ℝ)) ^ (66 + Nat.clog 2 3) - 1) * (([⟨1, 2⟩, ⟨0, 3⟩, ⟨5, 0⟩].map abs1).sum / 3) :=
  C139_mean u64_pos rnd64_err _ _ [⟨1, 2⟩, ⟨0, 3⟩, ⟨5, 0⟩] (by rw [List.filter_true]) (by simp) (by norm_num) (rnd64_nat 3 (by norm_num))

/-- `double`: the variance of `{1+2i, 3i}`. -/
example : ∃ v : ℚ, 0 ≤ v ∧ varC 1 ([⟨1, 2⟩, ⟨0, 3⟩].map (finC (rnd := rnd64))) = .ok (RFl.fin v) :=
  C139_var_nonneg u64_pos (by norm_num) rnd64_err 1 _ (by norm_num)

/-- The values on exactly representable data: `Σ aᵢbᵢ`, `Σ conj(aᵢ)bᵢ`, the mean `1.5+2.5i` and the variance of `{1+2i, 2+3i}`, which is `1/2`. -/
theorem C139_values :
    vdot CK.conj ([⟨1, 2⟩, ⟨0, 3⟩].map (finC (rnd := id))) ([⟨1, 1⟩, ⟨2, 0⟩].map finC) = .ok (finC ⟨3, -7⟩) ∧
    inner ([⟨1, 2⟩, ⟨0, 3⟩].map (finC (rnd := id))) ([⟨1, 1⟩, ⟨2, 0⟩].map finC) = .ok (finC ⟨-1, 9⟩) ∧
    mean ([⟨1, 2⟩, ⟨2, 3⟩].map (finC (rnd := id))) (fun _ => true) = finC ⟨3 / 2, 5 / 2⟩ ∧
    varC 0 ([⟨1, 2⟩, ⟨2, 3⟩].map (finC (rnd := id))) = .ok (RFl.fin (1 / 2)) := by
  refine ⟨?_, ?_, ?_, ?_⟩
  · unfold vdot innerOp pairwiseAcc2
    decide +kernel
  · unfold inner innerOp pairwiseAcc2
    decide +kernel
  · unfold mean sumF filterReduceAssoc pairwiseAcc
    decide +kernel
  · unfold varC varF covarianceF pairwiseAcc2 covBlock mean sumF filterReduceAssoc pairwiseAcc
    decide +kernel
end
end SciCpp
