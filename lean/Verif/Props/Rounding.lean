import Verif.Proofs.Approx
import Verif.Proofs.F64
import Verif.Proofs.Convolve
import Verif.Proofs.Stats
import Verif.Props.Numeric
/-
  Property theorems C88: rounding errors of the numerical algorithms.

  Arithmetic: `RFl rnd`, any rounding with relative error at most `u` (binary64: `u = 2^-53`); overflow
  and underflow are not modelled.
-/
set_option linter.unusedSectionVars false
namespace SciCpp
open Spec Finset

section
variable {rnd : ℚ → ℚ} {u : ℚ}

/-! ### sums -/

theorem clog_half (n : ℕ) (h : 64 < n) :
    Nat.clog 2 (n / 2) + 1 ≤ Nat.clog 2 n ∧ Nat.clog 2 (n - n / 2) + 1 ≤ Nat.clog 2 n := by
  have hclog : Nat.clog 2 n = Nat.clog 2 ((n + 1) / 2) + 1 := by
    rw [Nat.clog_of_two_le (by omega) (by omega)]; rfl
  exact ⟨by rw [hclog]; exact Nat.succ_le_succ (Nat.clog_mono_right 2 (by omega)),
    by rw [hclog]; exact Nat.succ_le_succ (Nat.clog_mono_right 2 (by omega))⟩

/-- The blocked sum of the accepted elements. -/
theorem sumF_approx (hu : 0 ≤ u) (hr : ∀ x, |rnd x - x| ≤ u * |x|) (l : List (RFl rnd))
    (p : RFl rnd → Bool) (s : List ℚ) (hs : l.filter p = s.map RFl.fin) :
    Approx u (64 + Nat.clog 2 l.length) s.sum (s.map abs).sum (sumF false l p).1 ∧
      (sumF false l p).2 = s.length := by
  unfold sumF filterReduceAssoc
  simp only [Bool.false_eq_true, if_false]
  induction hn : l.length using Nat.strong_induction_on generalizing l s with
  | _ n ih =>
    subst hn
    unfold pairwiseAcc
    split
    · rename_i hle
      simp only [pwBlock] at hle
      simp only [filterReduce_eq, hs, List.length_map, List.foldl_map, and_true]
      have h := Approx.foldl_add hu hr s (fun q => (RFl.fin q : RFl rnd)) id abs 0
        (fun i _ => Approx.exact hu 0 i _ le_rfl) 0 0 0 (Approx.exact hu 0 0 0 (by simp))
      simp only [zero_add, List.map_id] at h
      have hlen : s.length ≤ l.length := by
        have := List.length_filter_le p l
        rw [hs, List.length_map] at this; exact this
      exact h.mono hu (by omega) le_rfl
    · rename_i hgt
      simp only [pwBlock, not_le] at hgt
      obtain ⟨s1, s2, rfl, e1, e2⟩ : ∃ s1 s2, s = s1 ++ s2 ∧
          (l.take (l.length / 2)).filter p = s1.map RFl.fin ∧
          (l.drop (l.length / 2)).filter p = s2.map RFl.fin := by
        have h := hs
        rw [← List.take_append_drop (l.length / 2) l, List.filter_append] at h
        obtain ⟨a, b, h1, h2, h3⟩ := List.append_eq_map_iff.mp h
        exact ⟨a, b, h1, h2.symm, h3.symm⟩
      obtain ⟨i1, c1⟩ := ih _ (by simp; omega) (l.take (l.length / 2)) s1 e1 rfl
      obtain ⟨i2, c2⟩ := ih _ (by simp; omega) (l.drop (l.length / 2)) s2 e2 rfl
      obtain ⟨k1, k2⟩ := clog_half l.length hgt
      have L1 : (l.take (l.length / 2)).length = l.length / 2 := by simp; omega
      have L2 : (l.drop (l.length / 2)).length = l.length - l.length / 2 := by simp
      rw [L1] at i1
      rw [L2] at i2
      simp only [pwBlock] at i1 i2 c1 c2
      refine ⟨?_, by simp only [pwBlock, c1, c2, List.length_append]⟩
      have h := Approx.add hu hr (i1.mono hu (show _ ≤ 63 + Nat.clog 2 l.length by omega) le_rfl)
        (i2.mono hu (show _ ≤ 63 + Nat.clog 2 l.length by omega) le_rfl)
      rw [List.sum_append, List.map_append, List.sum_append]
      exact h.mono hu (by omega) le_rfl

/-- The mean of the accepted elements. -/
theorem mean_approx (hu : 0 ≤ u) (hr : ∀ x, |rnd x - x| ≤ u * |x|) (l : List (RFl rnd))
    (p : RFl rnd → Bool) (s : List ℚ) (hs : l.filter p = s.map RFl.fin) (hne : s ≠ [])
    (hlen : s.length < 2 ^ 31) (hn : rnd s.length = s.length) :
    Approx u (65 + Nat.clog 2 l.length) (meanL s) ((s.map abs).sum / s.length) (mean l p) := by
  obtain ⟨h1, h2⟩ := sumF_approx hu hr l p s hs
  have hpos : (0 : ℚ) < s.length := by exact_mod_cast List.length_pos_iff.mpr hne
  have hl : l.length ≠ 0 := by
    intro h
    rw [List.length_eq_zero_iff] at h
    subst h
    cases s with
    | nil => exact hne rfl
    | cons _ _ => simp at hs
  unfold mean
  rw [if_neg hl]
  simp only [RFl.ofInt_def]
  rw [h2, toI32_of_lt (by omega) (by exact_mod_cast hlen), Int.cast_natCast, hn]
  have := Approx.div hu hr hpos h1
  exact this.mono hu (by omega) le_rfl

/-- C88, mean: the computed mean of `n` accepted finite elements is finite and within
`((1+u)^(65 + ⌈log₂ N⌉) - 1)·(Σ|x|)/n` of the exact mean (`N` the length of the array). -/
theorem C88_mean (hu : 0 ≤ u) (hr : ∀ x, |rnd x - x| ≤ u * |x|) (l : List (RFl rnd))
    (p : RFl rnd → Bool) (s : List ℚ) (hs : l.filter p = s.map RFl.fin) (hne : s ≠ [])
    (hlen : s.length < 2 ^ 31) (hn : rnd s.length = s.length) :
    ∃ m, mean l p = RFl.fin m ∧ |m - s.sum / s.length|
      ≤ ((1 + u) ^ (65 + Nat.clog 2 l.length) - 1) * ((s.map abs).sum / s.length) := by
  obtain ⟨m, h1, h2, -⟩ := mean_approx hu hr l p s hs hne hlen hn
  exact ⟨m, h1, h2⟩

/-! ### inner products -/

theorem innerLoop_fold {α β γ : Type*} [Add γ] (op : α → β → γ) (a : List α) (b : List β) (res : γ)
    (h : a.length = b.length) :
    innerLoop op res a b = .ok ((a.zip b).foldl (fun acc xy => acc + op xy.1 xy.2) res) := by
  induction a generalizing b res with
  | nil =>
    have : b = [] := List.length_eq_zero_iff.mp h.symm
    subst this; rfl
  | cons x a ih =>
    rcases b with _ | ⟨y, b⟩
    · simp at h
    · rw [innerLoop, ih b _ (by simpa using h)]; rfl

/-- C88, inner product (`inner`, `dot`): the computed value is finite and within
`((1+u)^(65 + ⌈log₂ n⌉) - 1)·Σ|aᵢ||bᵢ|` of the exact inner product. -/
theorem C88_inner (hu : 0 ≤ u) (hr : ∀ x, |rnd x - x| ≤ u * |x|) (a b : List ℚ)
    (hab : a.length = b.length) :
    ∃ z, inner (a.map (RFl.fin (rnd := rnd))) (b.map RFl.fin) = .ok (RFl.fin z) ∧
      |z - (List.zipWith (· * ·) a b).sum| ≤
        ((1 + u) ^ (65 + Nat.clog 2 a.length) - 1) * (List.zipWith (fun x y => |x| * |y|) a b).sum := by
  suffices h : ∃ z : RFl rnd, innerOp (· * ·) (a.map (RFl.fin (rnd := rnd))) (b.map RFl.fin) = .ok z ∧
      Approx u (65 + Nat.clog 2 a.length) (List.zipWith (· * ·) a b).sum
        (List.zipWith (fun x y => |x| * |y|) a b).sum z by
    obtain ⟨z, h1, q, rfl, h2, -⟩ := h
    exact ⟨q, h1, h2⟩
  unfold innerOp
  induction hn : a.length using Nat.strong_induction_on generalizing a b with
  | _ n ih =>
    subst hn
    unfold pairwiseAcc2
    rw [if_neg (by simp [hab])]
    split
    · rename_i hle
      simp only [List.length_map, pwBlock] at hle
      refine ⟨_, innerLoop_fold _ _ _ _ (by simpa using hab), ?_⟩
      rw [List.zip_map, List.foldl_map]
      have h := Approx.foldl_add hu hr (a.zip b)
        (fun xy => (RFl.fin xy.1 * RFl.fin xy.2 : RFl rnd)) (fun xy => xy.1 * xy.2)
        (fun xy => |xy.1| * |xy.2|) 1
        (fun i _ => by
          have := Approx.mul hu hr (Approx.exact (rnd := rnd) hu 0 i.1 _ le_rfl)
            (Approx.exact (rnd := rnd) hu 0 i.2 _ le_rfl)
          simpa using this) 0 0 0 (Approx.exact hu 1 0 0 (by simp))
      simp only [zero_add] at h
      have hzz : ∀ f : ℚ → ℚ → ℚ, List.zipWith f a b = (a.zip b).map fun xy => f xy.1 xy.2 := by
        intro f; rw [List.zip, List.map_zipWith]
      rw [hzz, hzz]
      exact h.mono hu (by rw [List.length_zip, hab, min_self]; omega) le_rfl
    · rename_i hgt
      simp only [List.length_map, pwBlock, not_le] at hgt
      obtain ⟨k1, k2⟩ := clog_half a.length hgt
      simp only [List.length_map, ← List.map_take, ← List.map_drop]
      obtain ⟨z1, e1, h1⟩ := ih _ (by simp; omega) (a.take (a.length / 2)) (b.take (a.length / 2))
        (by simp [hab]) rfl
      obtain ⟨z2, e2, h2⟩ := ih _ (by simp; omega) (a.drop (a.length / 2)) (b.drop (a.length / 2))
        (by simp [hab]) rfl
      have L1 : (a.take (a.length / 2)).length = a.length / 2 := by simp; omega
      have L2 : (a.drop (a.length / 2)).length = a.length - a.length / 2 := by simp
      rw [L1] at h1
      rw [L2] at h2
      refine ⟨z1 + z2, by rw [e1, e2]; rfl, ?_⟩
      have h := Approx.add hu hr (h1.mono hu (show _ ≤ 64 + Nat.clog 2 a.length by omega) le_rfl)
        (h2.mono hu (show _ ≤ 64 + Nat.clog 2 a.length by omega) le_rfl)
      have hz : ∀ f : ℚ → ℚ → ℚ, (List.zipWith f a b).sum
          = (List.zipWith f (a.take (a.length / 2)) (b.take (a.length / 2))).sum
            + (List.zipWith f (a.drop (a.length / 2)) (b.drop (a.length / 2))).sum := by
        intro f
        rw [← List.sum_append, ← List.zipWith_append (by simp [hab]), List.take_append_drop,
          List.take_append_drop]
      rw [hz, hz]
      exact h.mono hu (by omega) le_rfl

/-! ### Horner's rule -/

/-- C88, `polyval`: with a fused multiply-add per coefficient the computed value is finite and within
`((1+u)^n - 1)·Σ|cᵢ||x|ⁱ` of the value of the polynomial (`n` coefficients). -/
theorem C88_polyval (hu : 0 ≤ u) (hr : ∀ x, |rnd x - x| ≤ u * |x|) (x : ℚ) (c : List ℚ) :
    ∃ z, polyvalWith RFl.fma (RFl.fin x : RFl rnd) (c.map RFl.fin) = RFl.fin z ∧
      |z - ∑ i ∈ range c.length, c.getD i 0 * x ^ i|
        ≤ ((1 + u) ^ c.length - 1) * ∑ i ∈ range c.length, |c.getD i 0| * |x| ^ i := by
  suffices h : Approx u c.length (∑ i ∈ range c.length, c.getD i 0 * x ^ i)
      (∑ i ∈ range c.length, |c.getD i 0| * |x| ^ i)
      (polyvalWith RFl.fma (RFl.fin x : RFl rnd) (c.map RFl.fin)) by
    obtain ⟨q, h1, h2, -⟩ := h
    exact ⟨q, h1, h2⟩
  unfold polyvalWith
  rw [← List.map_reverse, List.foldl_map]
  induction c with
  | nil =>
    have := Approx.exact (rnd := rnd) hu 0 0 0 (by simp)
    simp only [List.length_nil, Finset.range_zero, Finset.sum_empty, List.reverse_nil, List.foldl_nil]
    exact this
  | cons a c ih =>
    rw [List.reverse_cons, List.foldl_append, List.foldl_cons, List.foldl_nil]
    have h := Approx.fma hu hr ih (Approx.exact (rnd := rnd) hu 0 x _ le_rfl)
      (Approx.exact (rnd := rnd) hu c.length a _ le_rfl)
    rw [List.length_cons]
    simp only [Finset.sum_range_succ', List.getD_cons_succ, List.getD_cons_zero, pow_zero, mul_one,
      pow_succ]
    simp only [Finset.sum_mul] at h
    simpa only [mul_assoc] using h

/-! ### convolution -/

theorem convAt_approx (hu : 0 ≤ u) (hr : ∀ x, |rnd x - x| ≤ u * |x|) (a v : List ℚ) (i : ℕ)
    (hi : i + 1 < a.length + v.length) :
    ∃ z : RFl rnd, convAt (a.map RFl.fin) (v.map RFl.fin) i = .ok z ∧
      Approx u (min a.length v.length + 1) (∑ p ∈ antidiagonal i, a.getD p.1 0 * v.getD p.2 0)
        (∑ p ∈ antidiagonal i, |a.getD p.1 0| * |v.getD p.2 0|) z := by
  rw [Finset.Nat.sum_antidiagonal_eq_sum_range_succ (fun p q => a.getD p 0 * v.getD q 0) i,
    Finset.Nat.sum_antidiagonal_eq_sum_range_succ (fun p q => |a.getD p 0| * |v.getD q 0|) i]
  set n := a.length with hn
  set m := v.length with hm
  set lo : ℕ := i + 1 - m with hlo
  set hi' : ℕ := min (i + 1) n with hhi
  have hjmn : (if (i : Int) ≥ (m : Int) - 1 then (i : Int) - ((m : Int) - 1) else 0) = (lo : Int) := by
    split_ifs <;> omega
  have hjmx : (if (i : Int) < (n : Int) - 1 then (i : Int) else (n : Int) - 1) = (hi' : Int) - 1 := by
    split_ifs <;> omega
  unfold convAt
  simp only [List.length_map, ← hn, ← hm, hjmn, hjmx, forUp]
  have hcount : ((hi' : Int) - 1 + 1 - (lo : Int)).toNat = hi' - lo := by omega
  rw [hcount]
  obtain ⟨t, ht, hp⟩ := forN_inv (n := hi' - lo)
    (f := fun k acc => do
      let x ← rd (a.map (RFl.fin (rnd := rnd))) ((lo : Int) + (k : Int))
      let y ← rd (v.map (RFl.fin (rnd := rnd))) ((i : Int) - ((lo : Int) + (k : Int)))
      pure (acc + x * y)) (s := (0 : RFl rnd))
    (fun k acc => Approx u (k + 1) (∑ j ∈ Finset.range k, a.getD (lo + j) 0 * v.getD (i - (lo + j)) 0)
      (∑ j ∈ Finset.range k, |a.getD (lo + j) 0| * |v.getD (i - (lo + j)) 0|) acc)
    (by simp only [Finset.range_zero, Finset.sum_empty]; exact Approx.exact (rnd := rnd) hu _ 0 0 (by simp)) (by
      intro k hk t htk
      have h1 : lo + k < (a.map (RFl.fin (rnd := rnd))).length := by rw [List.length_map]; omega
      have h2 : i - (lo + k) < (v.map (RFl.fin (rnd := rnd))).length := by rw [List.length_map]; omega
      have h1' : lo + k < a.length := by omega
      have h2' : i - (lo + k) < v.length := by omega
      have e1 : ((lo : Int) + (k : Int)) = ((lo + k : ℕ) : Int) := by push_cast; rfl
      have e2 : ((i : Int) - ((lo + k : ℕ) : Int)) = ((i - (lo + k) : ℕ) : Int) := by omega
      refine ⟨t + RFl.fin (a[lo + k]) * RFl.fin (v[i - (lo + k)]), ?_, ?_⟩
      · simp only [e1, e2, rd_nat _ _ h1, rd_nat _ _ h2, Res.bind_ok, Res.pure_eq, List.getElem_map]
      · rw [Finset.sum_range_succ, Finset.sum_range_succ, getD_of_lt _ _ h1', getD_of_lt _ _ h2']
        have hm := Approx.mul hu hr (Approx.exact (rnd := rnd) hu 0 (a[lo + k]) _ le_rfl)
            (Approx.exact (rnd := rnd) hu 0 (v[i - (lo + k)]) _ le_rfl)
        exact Approx.add hu hr htk (hm.mono hu (by omega) le_rfl))
  refine ⟨t, ht, ?_⟩
  have hsum : ∀ f : ℕ → ℕ → ℚ, (∀ p q, n ≤ p ∨ m ≤ q → f p q = 0) →
      ∑ j ∈ Finset.range (hi' - lo), f (lo + j) (i - (lo + j)) = ∑ j ∈ Finset.range (i + 1), f j (i - j) := by
    intro f hf
    rw [← Finset.sum_Ico_eq_sum_range (fun j => f j (i - j)) lo hi']
    apply Finset.sum_subset
    · intro j hj
      simp only [Finset.mem_Ico, Finset.mem_range] at hj ⊢
      omega
    · intro j hj hnj
      simp only [Finset.mem_Ico, Finset.mem_range, not_and, not_lt] at hj hnj
      by_cases h : j < lo
      · exact hf _ _ (Or.inr (by omega))
      · exact hf _ _ (Or.inl (by omega))
  have s1 := hsum (fun p q => a.getD p 0 * v.getD q 0) (by
    rintro p q (h | h)
    · rw [getD_of_ge a p h, zero_mul]
    · rw [getD_of_ge v q h, mul_zero])
  have s2 := hsum (fun p q => |a.getD p 0| * |v.getD q 0|) (by
    rintro p q (h | h)
    · rw [getD_of_ge a p h, abs_zero, zero_mul]
    · rw [getD_of_ge v q h, abs_zero, mul_zero])
  rw [s1, s2] at hp
  exact hp.mono hu (by omega) le_rfl

theorem directConvolve_approx (hu : 0 ≤ u) (hr : ∀ x, |rnd x - x| ≤ u * |x|) (a v : List ℚ)
    (h : 1 ≤ a.length + v.length) :
    ∃ r : List (RFl rnd), directConvolveImpl (List.replicate (a.length + v.length - 1) 0)
        (a.map RFl.fin) (v.map RFl.fin) = .ok r ∧
      r.length = a.length + v.length - 1 ∧
      ∀ i, i < a.length + v.length - 1 →
        Approx u (min a.length v.length + 1) (∑ p ∈ antidiagonal i, a.getD p.1 0 * v.getD p.2 0)
          (∑ p ∈ antidiagonal i, |a.getD p.1 0| * |v.getD p.2 0|) (r.getD i 0) := by
  unfold directConvolveImpl
  have hreq : (((a.length + v.length - 1 : ℕ) : Int) == (a.length : Int) + (v.length : Int) - 1)
        = true := by
    rw [beq_iff_eq]; omega
  simp only [List.length_replicate, List.length_map, hreq, require_true, Res.bind_ok, forUp, List.length_map]
  have hcount : ((a.length : Int) + (v.length : Int) - 2 + 1 - 0).toNat
      = a.length + v.length - 1 := by omega
  rw [hcount]
  obtain ⟨t, ht, hl, hp⟩ := forN_inv (n := a.length + v.length - 1)
    (f := fun k r => do
      let x ← convAt (a.map (RFl.fin (rnd := rnd))) (v.map RFl.fin) (0 + (k : Int))
      wr r (0 + (k : Int)) x) (s := List.replicate (a.length + v.length - 1) (0 : RFl rnd))
    (fun k r => r.length = a.length + v.length - 1 ∧
      ∀ i, i < k → Approx u (min a.length v.length + 1)
        (∑ p ∈ antidiagonal i, a.getD p.1 0 * v.getD p.2 0)
          (∑ p ∈ antidiagonal i, |a.getD p.1 0| * |v.getD p.2 0|) (r.getD i 0))
    (by simp) (by
      rintro k hk t ⟨hl, hp⟩
      obtain ⟨z, e, hz⟩ := convAt_approx hu hr a v k (by omega)
      refine ⟨t.set k z, ?_, ?_, ?_⟩
      · simp only [zero_add, e, Res.bind_ok]
        rw [wr_nat _ _ _ (by omega)]
      · simp [hl]
      · intro i hi
        by_cases hik : i = k
        · subst hik
          rw [getD_of_lt _ _ (by simp; omega)]
          simpa using hz
        · have h1 : i < t.length := by omega
          have := hp i (by omega)
          rw [getD_of_lt _ _ h1] at this
          rw [getD_of_lt _ _ (by simp; omega), List.getElem_set_ne (by omega)]
          exact this)
  exact ⟨t, ht, hl, hp⟩

/-- C88, `convolve` (direct method): every computed coefficient is finite and within
`((1+u)^(min(n,m)+1) - 1)·Σ|aⱼ||v_{k-j}|` of the exact one. -/
theorem C88_convolve (hu : 0 ≤ u) (hr : ∀ x, |rnd x - x| ≤ u * |x|) (a v : List ℚ) (ha : a ≠ []) :
    ∃ r : List ℚ, convolve (a.map (RFl.fin (rnd := rnd))) (v.map RFl.fin) = .ok (r.map RFl.fin) ∧
      r.length = a.length + v.length - 1 ∧
      ∀ k, (hk : k < r.length) → |r[k] - ∑ p ∈ antidiagonal k, a.getD p.1 0 * v.getD p.2 0|
        ≤ ((1 + u) ^ (min a.length v.length + 1) - 1)
          * ∑ p ∈ antidiagonal k, |a.getD p.1 0| * |v.getD p.2 0| := by
  have hpos := List.length_pos_iff.mpr ha
  have key : ∃ r : List (RFl rnd), convolve (a.map (RFl.fin (rnd := rnd))) (v.map RFl.fin) = .ok r ∧
      r.length = a.length + v.length - 1 ∧
      ∀ i, i < a.length + v.length - 1 →
        Approx u (min a.length v.length + 1) (∑ p ∈ antidiagonal i, a.getD p.1 0 * v.getD p.2 0)
          (∑ p ∈ antidiagonal i, |a.getD p.1 0| * |v.getD p.2 0|) (r.getD i 0) := by
    unfold convolve
    have hreq : (!((a.map (RFl.fin (rnd := rnd))).isEmpty && (v.map (RFl.fin (rnd := rnd))).isEmpty)) = true := by
      cases a with
      | nil => exact absurd rfl ha
      | cons _ _ => rfl
    simp only [hreq, require_true, Res.bind_ok, List.length_map]
    split_ifs with hc
    · exact directConvolve_approx hu hr a v (by omega)
    · obtain ⟨r, h1, h2, h3⟩ := directConvolve_approx (rnd := rnd) hu hr v a (by omega)
      rw [Nat.add_comm v.length a.length] at h1 h2 h3
      refine ⟨r, h1, h2, fun i hi => ?_⟩
      have := h3 i hi
      rw [← Finset.Nat.sum_antidiagonal_swap, ← Finset.Nat.sum_antidiagonal_swap (n := i)
        (f := fun p => |v.getD p.1 0| * |a.getD p.2 0|), Nat.min_comm] at this
      simpa only [Prod.fst_swap, Prod.snd_swap, mul_comm] using this
  obtain ⟨r, h1, h2, h3⟩ := key
  have hfin : ∃ q : List ℚ, r = q.map RFl.fin := by
    have hall : ∀ x ∈ r, ∃ q : ℚ, x = RFl.fin q := by
      intro x hx
      obtain ⟨i, hi, rfl⟩ := List.getElem_of_mem hx
      obtain ⟨q, hq, -⟩ := h3 i (by omega)
      rw [getD_of_lt _ _ hi] at hq
      exact ⟨q, hq⟩
    clear h1 h2 h3
    induction r with
    | nil => exact ⟨[], rfl⟩
    | cons x r ih =>
      obtain ⟨q, hq⟩ := hall x (by simp)
      obtain ⟨qs, hqs⟩ := ih (fun y hy => hall y (List.mem_cons_of_mem _ hy))
      exact ⟨q :: qs, by rw [hq, hqs]; rfl⟩
  obtain ⟨q, rfl⟩ := hfin
  rw [List.length_map] at h2
  refine ⟨q, h1, h2, fun k hk => ?_⟩
  obtain ⟨z, hz, hb, -⟩ := h3 k (by omega)
  rw [getD_of_lt _ _ (by rw [List.length_map]; exact hk), List.getElem_map, RFl.fin_inj] at hz
  rw [hz]; exact hb

/-! ### cumulative sums -/

theorem partialSumLoop_approx (hu : 0 ≤ u) (hr : ∀ x, |rnd x - x| ≤ u * |x|) (l : List ℚ) (k : ℕ)
    (acc : RFl rnd) (e A : ℚ) (h : Approx u k e A acc) (i : ℕ) (hi : i < l.length) :
    ∃ z, (partialSumLoop (· + ·) acc (l.map RFl.fin))[i]? = some z ∧
      Approx u (k + i + 1) (e + (l.take (i + 1)).sum) (A + ((l.take (i + 1)).map abs).sum) z := by
  induction l generalizing k acc e A i with
  | nil => simp at hi
  | cons x l ih =>
    have h1 := Approx.add hu hr h (Approx.exact (rnd := rnd) hu k x _ le_rfl)
    cases i with
    | zero =>
      refine ⟨_, by rw [List.map_cons, partialSumLoop, List.getElem?_cons_zero], ?_⟩
      simpa using h1
    | succ i =>
      obtain ⟨z, e1, e2⟩ := ih (k + 1) _ _ _ h1 i (by simpa using hi)
      refine ⟨z, by rw [List.map_cons, partialSumLoop, List.getElem?_cons_succ]; exact e1, ?_⟩
      rw [List.take_succ_cons, List.sum_cons, List.map_cons, List.sum_cons, ← add_assoc e, ← add_assoc A]
      rw [show k + (i + 1) + 1 = k + 1 + i + 1 by omega]
      exact e2

/-- C88, `cumsum`: the `i`-th computed partial sum is finite and within
`((1+u)^i - 1)·Σ_{j≤i}|xⱼ|` of the exact one; the first is exact. -/
theorem C88_cumsum (hu : 0 ≤ u) (hr : ∀ x, |rnd x - x| ≤ u * |x|) (cat : Cat) (c : Cont) (x : List ℚ)
    (i : ℕ) (hi : i < x.length) :
    ∃ z, (cumOp cat c (· + ·) (x.map (RFl.fin (rnd := rnd)))).1[i]? = some (RFl.fin z) ∧
      |z - (x.take (i + 1)).sum| ≤ ((1 + u) ^ i - 1) * ((x.take (i + 1)).map abs).sum := by
  have e1 : (cumOp cat c (· + ·) (x.map (RFl.fin (rnd := rnd)))).1 = partialSum (· + ·) (x.map RFl.fin) := by
    cases cat <;> rfl
  rw [e1]
  rcases x with _ | ⟨x, l⟩
  · simp at hi
  · rw [List.map_cons, partialSum]
    cases i with
    | zero => exact ⟨x, by simp, by simp⟩
    | succ i =>
      obtain ⟨z, h1, q, rfl, h2, -⟩ := partialSumLoop_approx hu hr l 0 (RFl.fin x) x |x|
        (Approx.exact hu 0 x _ le_rfl) i (by simpa using hi)
      refine ⟨q, by rw [List.getElem?_cons_succ]; exact h1, ?_⟩
      rw [List.take_succ_cons, List.sum_cons, List.map_cons, List.sum_cons]
      rw [Nat.zero_add] at h2
      exact h2

/-! ### trapezoidal rule -/

theorem trapezoidRule_cons2 (dx x y : ℚ) (r : List ℚ) :
    trapezoidRule dx (x :: y :: r)
      = 1 / 2 * dx * (x + 2 * ((y :: r).dropLast).sum + (y :: r).getLast (by simp)) := by
  have h := C11_trapz_partial true (x :: y :: r) dx (by simp)
  simp only [trapz, C01_sum_prod_all, Res.ok.injEq] at h
  exact h.symm

/-- C88, `trapz`: for at least two samples the computed integral is finite and within
`((1+u)^(69 + ⌈log₂ n⌉) - 1)` times the trapezoidal rule of the magnitudes of the exact trapezoidal rule. -/
theorem C88_trapz (hu : 0 ≤ u) (hr : ∀ x, |rnd x - x| ≤ u * |x|) (h2 : rnd 2 = 2)
    (hh : rnd (1 / 2) = 1 / 2) (f : List ℚ) (dx : ℚ) (hf : 2 ≤ f.length) :
    ∃ z, trapz false (f.map (RFl.fin (rnd := rnd))) (RFl.fin dx) = .ok (RFl.fin z) ∧
      |z - trapezoidRule dx f| ≤
        ((1 + u) ^ (69 + Nat.clog 2 f.length) - 1) * trapezoidRule |dx| (f.map abs) := by
  match f, hf with
  | x :: y :: r, _ =>
    have hs := (sumF_approx (rnd := rnd) hu hr (((y :: r).dropLast).map RFl.fin) (fun _ => true)
      ((y :: r).dropLast) (by simp)).1
    have hl : (((y :: r).dropLast).map (RFl.fin (rnd := rnd))).length ≤ (x :: y :: r).length := by
      simp only [List.length_map, List.length_dropLast, List.length_cons]; omega
    have hc := Nat.clog_mono_right 2 hl
    set c := Nat.clog 2 (x :: y :: r).length with hcdef
    have e1 : ((1 : RFl rnd) / 2 : RFl rnd) = RFl.fin (1 / 2) := by
      show (RFl.fin 1 / RFl.fin (rnd ((2 : ℕ) : ℚ)) : RFl rnd) = _
      rw [Nat.cast_ofNat, h2, RFl.div_fin (by norm_num), hh]
    have e2 : (2 : RFl rnd) = RFl.fin 2 := by
      show (RFl.fin (rnd ((2 : ℕ) : ℚ)) : RFl rnd) = _
      rw [Nat.cast_ofNat, h2]
    have a1 := Approx.mul hu hr (Approx.exact (rnd := rnd) hu 0 (1 / 2) (1 / 2) (by norm_num))
      (Approx.exact (rnd := rnd) hu 0 dx _ le_rfl)
    have a2 := Approx.mul hu hr (Approx.exact (rnd := rnd) hu 0 2 2 (by norm_num))
      (hs.mono hu (show _ ≤ 64 + c by omega) le_rfl)
    have a3 := Approx.add hu hr (Approx.exact (rnd := rnd) hu _ x _ le_rfl) a2
    have a4 := Approx.add hu hr a3 (Approx.exact (rnd := rnd) hu _ ((y :: r).getLast (by simp)) _ le_rfl)
    have a5 := (Approx.mul hu hr a1 a4).mono hu (show _ ≤ 69 + c by omega) le_rfl
    obtain ⟨z, hz, hb, -⟩ := a5
    refine ⟨z, ?_, ?_⟩
    · simp only [List.map_cons, trapz]
      rw [← hz, e1, e2]
      have hlast : ∀ h, (RFl.fin y :: r.map (RFl.fin (rnd := rnd))).getLast h
          = RFl.fin ((y :: r).getLast (by simp)) := by
        intro h
        have := List.getLast_map (f := RFl.fin (rnd := rnd)) (l := y :: r) (by simp)
        simpa using this
      have hdrop : (RFl.fin y :: r.map (RFl.fin (rnd := rnd))).dropLast
          = ((y :: r).dropLast).map RFl.fin := by
        rw [List.map_dropLast]; rfl
      rw [hlast, hdrop]
      rfl
    · have t2 : trapezoidRule |dx| ((x :: y :: r).map abs)
          = 1 / 2 * |dx| * (|x| + 2 * (((y :: r).dropLast).map abs).sum + |(y :: r).getLast (by simp)|) := by
        rw [List.map_cons, List.map_cons, trapezoidRule_cons2]
        have hlast : ∀ h, (|y| :: r.map abs).getLast h = |(y :: r).getLast (by simp)| := by
          intro h
          have := List.getLast_map (f := fun q : ℚ => |q|) (l := y :: r) (by simp)
          simpa using this
        have hdrop : (|y| :: r.map abs).dropLast = ((y :: r).dropLast).map abs := by
          rw [List.map_dropLast]; rfl
        rw [hlast, hdrop]
      rw [trapezoidRule_cons2, t2]
      exact hb

end
end SciCpp
