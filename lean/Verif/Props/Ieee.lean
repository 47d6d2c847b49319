import Verif.Proofs.ApproxI
import Verif.Proofs.Stats
import Verif.Props.Rounding
import Verif.Model.Range
/-
  Property theorems C93: the reductions in IEEE-754 arithmetic with its bounded exponent range (overflow to
  infinity, gradual underflow).  `f.u` is the unit roundoff `2^-(frac+1)`, `f.eta` half the smallest positive
  number; `f.Grid q` says that `q` is a multiple of the smallest positive number, which every representable
  number is.
-/
set_option linter.unusedSectionVars false
namespace SciCpp
open Spec Finset

section
variable {f : Fmt}

theorem sumF_approxI (l : List (IFl f)) (p : IFl f → Bool) (s : List ℚ) (hs : l.filter p = s.map IFl.fin)
    (hg : ∀ q ∈ s, f.Grid q) :
    ApproxI f (64 + Nat.clog 2 l.length) s.sum (s.map abs).sum 0 (s.map abs).sum (sumF false l p).1 ∧
      (sumF false l p).2 = s.length := by
  unfold sumF filterReduceAssoc
  simp only [Bool.false_eq_true, if_false]
  induction hn : l.length using Nat.strong_induction_on generalizing l s with
  | _ n ih =>
    subst hn
    unfold pairwiseAcc
    split
    · rename_i hle
      simp only [pwBlock] at hle
      simp only [filterReduce_eq, hs, List.length_map, List.foldl_map, and_true]
      have h := ApproxI.foldl_add (f := f) s (fun q => (IFl.fin q : IFl f)) id abs (fun _ => 0) abs 0
        (fun i hi => ApproxI.exact 0 (hg i hi) le_rfl) 0 0 0 0 0 (ApproxI.exact 0 f.grid_zero (by simp))
      simp only [zero_add, List.map_id, List.map_const', List.sum_replicate, smul_zero] at h
      have hlen : s.length ≤ l.length := by
        have := List.length_filter_le p l
        rw [hs, List.length_map] at this; exact this
      exact h.mono_k (by omega)
    · rename_i hgt
      simp only [pwBlock, not_le] at hgt
      obtain ⟨s1, s2, rfl, e1, e2⟩ : ∃ s1 s2, s = s1 ++ s2 ∧
          (l.take (l.length / 2)).filter p = s1.map IFl.fin ∧
          (l.drop (l.length / 2)).filter p = s2.map IFl.fin := by
        have h := hs
        rw [← List.take_append_drop (l.length / 2) l, List.filter_append] at h
        obtain ⟨a, b, h1, h2, h3⟩ := List.append_eq_map_iff.mp h
        exact ⟨a, b, h1, h2.symm, h3.symm⟩
      obtain ⟨i1, c1⟩ := ih _ (by simp; omega) (l.take (l.length / 2)) s1 e1
        (fun q hq => hg q (List.mem_append_left _ hq)) rfl
      obtain ⟨i2, c2⟩ := ih _ (by simp; omega) (l.drop (l.length / 2)) s2 e2
        (fun q hq => hg q (List.mem_append_right _ hq)) rfl
      obtain ⟨k1, k2⟩ := clog_half l.length hgt
      have L1 : (l.take (l.length / 2)).length = l.length / 2 := by simp; omega
      have L2 : (l.drop (l.length / 2)).length = l.length - l.length / 2 := by simp
      rw [L1] at i1
      rw [L2] at i2
      simp only [pwBlock] at i1 i2 c1 c2
      refine ⟨?_, by simp only [pwBlock, c1, c2, List.length_append]⟩
      have h := ApproxI.add (i1.mono_k (show _ ≤ 63 + Nat.clog 2 l.length by omega))
        (i2.mono_k (show _ ≤ 63 + Nat.clog 2 l.length by omega))
      rw [List.sum_append, List.map_append, List.sum_append]
      rw [add_zero] at h
      exact h.mono_k (by omega)

/-- C93, `sum` (any filter): for representable finite data the computed sum, if it is finite, is within
`((1+u)^(64+⌈log₂ n⌉) - 1)·Σ|x|` of the exact sum: there is no underflow error.  It is finite whenever
`(1+u)^(64+⌈log₂ n⌉)·Σ|x| < 2^emax`. -/
theorem C93_sum (l : List (IFl f)) (p : IFl f → Bool) (s : List ℚ) (hs : l.filter p = s.map IFl.fin)
    (hg : ∀ q ∈ s, f.Grid q) :
    (∀ r, (sumF false l p).1 = IFl.fin r →
      |r - s.sum| ≤ ((1 + f.u) ^ (64 + Nat.clog 2 l.length) - 1) * (s.map abs).sum) ∧
    ((1 + f.u) ^ (64 + Nat.clog 2 l.length) * (s.map abs).sum < (2 : ℚ) ^ f.emax →
      ∃ r, (sumF false l p).1 = IFl.fin r) := by
  have h := (sumF_approxI l p s hs hg).1
  refine ⟨fun r hr => ?_, h.finite⟩
  have := (h.err r hr).2
  rwa [mul_zero, add_zero] at this

theorem ofQ_count {n : ℕ} (hn : n < 2 ^ 31) (h31 : 31 ≤ f.frac + 1) (he : f.emin ≤ f.frac)
    (hm : 31 ≤ f.emax) : (IFl.ofQ (f := f) ((toI32 (n : ℤ) : ℤ) : ℚ)) = IFl.fin (n : ℚ) := by
  rw [toI32_of_lt (by omega) (by exact_mod_cast hn), Int.cast_natCast]
  have hr : f.rnd (n : ℚ) = n :=
    f.rnd_nat n (lt_of_lt_of_le hn (pow_le_pow_right₀ (by norm_num) h31)) he
  unfold IFl.ofQ
  rw [f.ofRat_fin, hr]
  · rfl
  · rw [hr, Nat.abs_cast]
    calc (n : ℚ) < 2 ^ (31 : ℕ) := by exact_mod_cast hn
      _ = (2 : ℚ) ^ (31 : ℤ) := by norm_cast
      _ ≤ _ := zpow_le_zpow_right₀ (by norm_num) hm

/-- C93, `mean` (any filter, formats with at least 31 significant bits): the computed mean, if it is finite,
is within `((1+u)^(65+⌈log₂ N⌉) - 1)·Σ|x|/n` plus one underflow error of the exact mean; it is finite
whenever the sum of the magnitudes cannot overflow. -/
theorem C93_mean (h31 : 31 ≤ f.frac + 1) (he : f.emin ≤ f.frac) (hm : 31 ≤ f.emax)
    (l : List (IFl f)) (p : IFl f → Bool) (s : List ℚ) (hs : l.filter p = s.map IFl.fin)
    (hg : ∀ q ∈ s, f.Grid q) (hne : s ≠ []) (hlen : s.length < 2 ^ 31) :
    (∀ r, mean l p = IFl.fin r →
      |r - s.sum / s.length| ≤ ((1 + f.u) ^ (65 + Nat.clog 2 l.length) - 1) * ((s.map abs).sum / s.length)
        + (1 + f.u) ^ (65 + Nat.clog 2 l.length) * f.eta) ∧
    ((1 + f.u) ^ (65 + Nat.clog 2 l.length) * ((s.map abs).sum + f.eta) < (2 : ℚ) ^ f.emax →
      ∃ r, mean l p = IFl.fin r) := by
  obtain ⟨h1, h2⟩ := sumF_approxI l p s hs hg
  have hpos : 1 ≤ (s.length : ℚ) := by exact_mod_cast List.length_pos_iff.mpr hne
  have hl : l.length ≠ 0 := by
    intro h
    rw [List.length_eq_zero_iff] at h
    subst h
    cases s with
    | nil => exact hne rfl
    | cons _ _ => simp at hs
  have h := (ApproxI.div hpos h1).mono_k (show _ ≤ 65 + Nat.clog 2 l.length by omega)
  rw [zero_div, zero_add] at h
  have e : mean l p = (sumF false l p).1 / (IFl.fin (s.length : ℚ) : IFl f) := by
    unfold mean
    rw [if_neg hl]
    simp only [IFl.ofInt_def]
    rw [h2, ofQ_count hlen h31 he hm]
  rw [e]
  exact ⟨fun r hr => (h.err r hr).2, h.finite⟩

/-- C93, inner product: the computed value, if finite, is within
`((1+u)^(65+⌈log₂ n⌉) - 1)·Σ|aᵢ||bᵢ| + (1+u)^(65+⌈log₂ n⌉)·n·η` of the exact one (each product may underflow
once); it is finite whenever the magnitudes cannot overflow. -/
theorem C93_inner (a b : List ℚ) (hab : a.length = b.length) :
    ∃ z, inner (a.map (IFl.fin (f := f))) (b.map IFl.fin) = .ok z ∧
      (∀ r, z = IFl.fin r → |r - (List.zipWith (· * ·) a b).sum| ≤
        ((1 + f.u) ^ (65 + Nat.clog 2 a.length) - 1) * (List.zipWith (fun x y => |x| * |y|) a b).sum
          + (1 + f.u) ^ (65 + Nat.clog 2 a.length) * (a.length * f.eta)) ∧
      ((1 + f.u) ^ (65 + Nat.clog 2 a.length) *
          ((List.zipWith (fun x y => |x| * |y|) a b).sum + a.length * f.eta) < (2 : ℚ) ^ f.emax →
        ∃ r, z = IFl.fin r) := by
  suffices h : ∃ z : IFl f, innerOp (· * ·) (a.map (IFl.fin (f := f))) (b.map IFl.fin) = .ok z ∧
      ApproxI f (65 + Nat.clog 2 a.length) (List.zipWith (· * ·) a b).sum
        (List.zipWith (fun x y => |x| * |y|) a b).sum (a.length * f.eta)
        ((List.zipWith (fun x y => |x| * |y|) a b).sum + a.length * f.eta) z by
    obtain ⟨z, h1, h2⟩ := h
    exact ⟨z, h1, fun r hr => (h2.err r hr).2, h2.finite⟩
  unfold innerOp
  induction hn : a.length using Nat.strong_induction_on generalizing a b with
  | _ n ih =>
    subst hn
    unfold pairwiseAcc2
    rw [if_neg (by simp [hab])]
    split
    · rename_i hle
      simp only [List.length_map, pwBlock] at hle
      refine ⟨_, innerLoop_fold _ _ _ _ (by simpa using hab), ?_⟩
      rw [List.zip_map, List.foldl_map]
      have h := ApproxI.foldl_add (f := f) (a.zip b)
        (fun xy => (IFl.fin xy.1 * IFl.fin xy.2 : IFl f)) (fun xy => xy.1 * xy.2)
        (fun xy => |xy.1| * |xy.2|) (fun _ => f.eta) (fun xy => |xy.1| * |xy.2| + f.eta) 1
        (fun i _ => ApproxI.mul_exact i.1 i.2) 0 0 0 0 0 (ApproxI.exact 1 f.grid_zero (by simp))
      have hzl : (a.zip b).length = a.length := by rw [List.length_zip, hab, min_self]
      simp only [zero_add, List.sum_map_add, List.map_const', List.sum_replicate, nsmul_eq_mul, hzl] at h
      have hzz : ∀ g : ℚ → ℚ → ℚ, List.zipWith g a b = (a.zip b).map fun xy => g xy.1 xy.2 := by
        intro g; rw [List.zip, List.map_zipWith]
      rw [hzz, hzz]
      exact h.mono_k (by omega)
    · rename_i hgt
      simp only [List.length_map, pwBlock, not_le] at hgt
      obtain ⟨k1, k2⟩ := clog_half a.length hgt
      simp only [List.length_map, ← List.map_take, ← List.map_drop]
      obtain ⟨z1, e1, h1⟩ := ih _ (by simp; omega) (a.take (a.length / 2)) (b.take (a.length / 2))
        (by simp [hab]) rfl
      obtain ⟨z2, e2, h2⟩ := ih _ (by simp; omega) (a.drop (a.length / 2)) (b.drop (a.length / 2))
        (by simp [hab]) rfl
      have L1 : (a.take (a.length / 2)).length = a.length / 2 := by simp; omega
      have L2 : (a.drop (a.length / 2)).length = a.length - a.length / 2 := by simp
      rw [L1] at h1
      rw [L2] at h2
      refine ⟨z1 + z2, by rw [e1, e2]; rfl, ?_⟩
      have h := ApproxI.add (h1.mono_k (show _ ≤ 64 + Nat.clog 2 a.length by omega))
        (h2.mono_k (show _ ≤ 64 + Nat.clog 2 a.length by omega))
      have hz : ∀ g : ℚ → ℚ → ℚ, (List.zipWith g a b).sum
          = (List.zipWith g (a.take (a.length / 2)) (b.take (a.length / 2))).sum
            + (List.zipWith g (a.drop (a.length / 2)) (b.drop (a.length / 2))).sum := by
        intro g
        rw [← List.sum_append, ← List.zipWith_append (by simp [hab]), List.take_append_drop,
          List.take_append_drop]
      have hnn : (((a.length / 2 : ℕ) : ℚ)) * f.eta + ((a.length - a.length / 2 : ℕ) : ℚ) * f.eta
          = a.length * f.eta := by
        rw [← add_mul, ← Nat.cast_add]; congr 2; omega
      rw [hz, hz, ← hnn]
      refine h.mono (by omega) le_rfl le_rfl ?_ ?_ <;> linarith

/-- C93, `polyval`: the computed value, if finite, is within `((1+u)^n - 1)·Σ|cᵢ||x|ⁱ` plus
`(1+u)^n·η·Σ|x|ⁱ` of the value of the polynomial (`n` coefficients). -/
theorem C93_polyval (x : ℚ) (c : List ℚ) (r : ℚ)
    (hr : polyvalWith IFl.fma (IFl.fin x : IFl f) (c.map IFl.fin) = IFl.fin r) :
    |r - ∑ i ∈ range c.length, c.getD i 0 * x ^ i|
      ≤ ((1 + f.u) ^ c.length - 1) * (∑ i ∈ range c.length, |c.getD i 0| * |x| ^ i)
        + (1 + f.u) ^ c.length * (f.eta * ∑ i ∈ range c.length, |x| ^ i) := by
  suffices h : ∃ B, ApproxI f c.length (∑ i ∈ range c.length, c.getD i 0 * x ^ i)
      (∑ i ∈ range c.length, |c.getD i 0| * |x| ^ i) (f.eta * ∑ i ∈ range c.length, |x| ^ i) B
      (polyvalWith IFl.fma (IFl.fin x : IFl f) (c.map IFl.fin)) by
    obtain ⟨B, h⟩ := h
    exact (h.err r hr).2
  clear hr r
  unfold polyvalWith
  rw [← List.map_reverse, List.foldl_map]
  induction c with
  | nil =>
    have := ApproxI.exact (f := f) 0 f.grid_zero (A := 0) (by simp)
    refine ⟨0, ?_⟩
    simp only [List.length_nil, Finset.range_zero, Finset.sum_empty, List.reverse_nil, List.foldl_nil,
      mul_zero]
    exact this
  | cons a c ih =>
    obtain ⟨B, ih⟩ := ih
    rw [List.reverse_cons, List.foldl_append, List.foldl_cons, List.foldl_nil]
    have h := ApproxI.fma ih (b := x) (c := a) (max 1 |x|) (le_max_left _ _) (le_max_right _ _)
    refine ⟨B * max 1 |x| + |a| + f.eta, ?_⟩
    rw [List.length_cons]
    simp only [Finset.sum_range_succ', List.getD_cons_succ, List.getD_cons_zero, pow_zero, mul_one,
      pow_succ, mul_add]
    simp only [Finset.sum_mul, Finset.mul_sum] at h
    simp only [Finset.mul_sum]
    simpa only [mul_assoc] using h

theorem partialSumLoop_approxI (l : List ℚ) (hg : ∀ q ∈ l, f.Grid q) (k : ℕ)
    (acc : IFl f) (e A : ℚ) (h : ApproxI f k e A 0 A acc) (i : ℕ) (hi : i < l.length) :
    ∃ z, (partialSumLoop (· + ·) acc (l.map IFl.fin))[i]? = some z ∧
      ApproxI f (k + i + 1) (e + (l.take (i + 1)).sum) (A + ((l.take (i + 1)).map abs).sum) 0
        (A + ((l.take (i + 1)).map abs).sum) z := by
  induction l generalizing k acc e A i with
  | nil => simp at hi
  | cons x l ih =>
    have h1 := ApproxI.add h (ApproxI.exact (f := f) k (hg x (by simp)) le_rfl)
    rw [add_zero] at h1
    cases i with
    | zero =>
      refine ⟨_, by rw [List.map_cons, partialSumLoop, List.getElem?_cons_zero], ?_⟩
      simpa using h1
    | succ i =>
      obtain ⟨z, e1, e2⟩ := ih (fun q hq => hg q (List.mem_cons_of_mem _ hq)) (k + 1) _ _ _ h1 i (by simpa using hi)
      refine ⟨z, by rw [List.map_cons, partialSumLoop, List.getElem?_cons_succ]; exact e1, ?_⟩
      rw [List.take_succ_cons, List.sum_cons, List.map_cons, List.sum_cons, ← add_assoc e, ← add_assoc A]
      rw [show k + (i + 1) + 1 = k + 1 + i + 1 by omega]
      exact e2

/-- C93, `cumsum`: the `i`-th partial sum, if finite, is within `((1+u)^i - 1)·Σ_{j≤i}|xⱼ|` of the exact one
and is finite whenever `(1+u)^i·Σ_{j≤i}|xⱼ| < 2^emax`. -/
theorem C93_cumsum (cat : Cat) (c : Cont) (x : List ℚ) (hg : ∀ q ∈ x, f.Grid q) (i : ℕ) (hi : i < x.length) :
    ∃ z, (cumOp cat c (· + ·) (x.map (IFl.fin (f := f)))).1[i]? = some z ∧
      (∀ r, z = IFl.fin r →
        |r - (x.take (i + 1)).sum| ≤ ((1 + f.u) ^ i - 1) * ((x.take (i + 1)).map abs).sum) ∧
      ((1 + f.u) ^ i * ((x.take (i + 1)).map abs).sum < (2 : ℚ) ^ f.emax → ∃ r, z = IFl.fin r) := by
  have e1 : (cumOp cat c (· + ·) (x.map (IFl.fin (f := f)))).1 = partialSum (· + ·) (x.map IFl.fin) := by
    cases cat <;> rfl
  rw [e1]
  rcases x with _ | ⟨x, l⟩
  · simp at hi
  · rw [List.map_cons, partialSum]
    cases i with
    | zero =>
      refine ⟨IFl.fin x, by simp, fun r hr => ?_, fun _ => ⟨x, rfl⟩⟩
      rw [IFl.fin_inj] at hr; subst hr; simp
    | succ i =>
      obtain ⟨z, h1, h2⟩ := partialSumLoop_approxI l (fun q hq => hg q (List.mem_cons_of_mem _ hq)) 0
        (IFl.fin x) x |x| (ApproxI.exact 0 (hg x (by simp)) le_rfl) i (by simpa using hi)
      rw [Nat.zero_add] at h2
      refine ⟨z, by rw [List.getElem?_cons_succ]; exact h1, ?_, ?_⟩
      · intro r hr
        rw [List.take_succ_cons, List.sum_cons, List.map_cons, List.sum_cons]
        have := (h2.err r hr).2
        rwa [mul_zero, add_zero] at this
      · rw [List.take_succ_cons, List.map_cons, List.sum_cons]
        exact h2.finite

/-! ### linspace -/

theorem ofQ_nat {n : ℕ} (hn : n < 2 ^ (f.frac + 1)) (he : f.emin ≤ f.frac) (hm : (f.frac : ℤ) + 1 ≤ f.emax) :
    IFl.ofQ (f := f) (n : ℚ) = IFl.fin (n : ℚ) := by
  have hr : f.rnd (n : ℚ) = n := f.rnd_nat n hn he
  unfold IFl.ofQ
  rw [f.ofRat_fin, hr]
  · rfl
  · rw [hr, Nat.abs_cast]
    calc (n : ℚ) < 2 ^ (f.frac + 1) := by exact_mod_cast hn
      _ = (2 : ℚ) ^ ((f.frac : ℤ) + 1) := by norm_cast
      _ ≤ _ := zpow_le_zpow_right₀ (by norm_num) hm

theorem iota_ifl (he : f.emin ≤ f.frac) (hm : (f.frac : ℤ) + 1 ≤ f.emax) (v n : ℕ)
    (h : v + n < 2 ^ (f.frac + 1)) :
    iota (IFl.fin (v : ℚ) : IFl f) n = (List.range n).map (fun i : ℕ => IFl.fin ((v + i : ℕ) : ℚ)) := by
  induction n generalizing v with
  | zero => rfl
  | succ n ih =>
    rw [iota, List.range_succ_eq_map, List.map_cons, List.map_map]
    congr 1
    have : (IFl.fin (v : ℚ) + 1 : IFl f) = IFl.fin ((v + 1 : ℕ) : ℚ) := by
      rw [IFl.one_fin, IFl.add_fin, ← Nat.cast_one, ← Nat.cast_add, ofQ_nat (by omega) he hm]
    rw [this, ih (v + 1) (by omega)]
    refine List.map_congr_left fun i _ => ?_
    simp only [Function.comp]
    congr 2
    omega

/-- C94, `linspace(start, stop, n)` for `n ≥ 2`: element `i` approximates the exact value within
`((1+u)^4 - 1)·(|start| + i·|stop - start|/(n-1))` and `i + 1` underflow errors when it is finite, and it is
finite when `(1+u)^4·(|start| + |stop - start| + (i+1)·η) < 2^emax` (no overflow of the difference). -/
theorem C94_linspace_partial (he : f.emin ≤ f.frac) (hm : (f.frac : ℤ) + 1 ≤ f.emax) (n : ℕ) (hn : 2 ≤ n)
    (hnf : n < 2 ^ (f.frac + 1)) (start stop : ℚ) (hs : f.Grid start) (ht : f.Grid stop) :
    ∃ z : ℕ → IFl f, linspace (IFl.fin start : IFl f) (IFl.fin stop) n = (List.range n).map z ∧
      ∀ i, i < n →
        (∀ r, z i = IFl.fin r → |r - (start + i * ((stop - start) / (n - 1)))| ≤
          ((1 + f.u) ^ 4 - 1) * (|start| + i * (|stop - start| / (n - 1)))
            + (1 + f.u) ^ 4 * ((i + 1) * f.eta)) ∧
        ((1 + f.u) ^ 4 * (|start| + (|stop - start| + (i + 1) * f.eta)) < (2 : ℚ) ^ f.emax →
          ∃ r, z i = IFl.fin r) := by
  have hc : ((n - 1 : ℕ) : ℚ) = (n : ℚ) - 1 := by rw [Nat.cast_sub (by omega)]; simp
  have hpos : (1 : ℚ) ≤ (n : ℚ) - 1 := by rw [← hc]; exact_mod_cast (by omega : 1 ≤ n - 1)
  have hpos0 : (0 : ℚ) < (n : ℚ) - 1 := by linarith
  have key : ∀ i : ℕ, i < n → ApproxI f 4 (start + i * ((stop - start) / ((n : ℚ) - 1)))
      (|start| + i * (|stop - start| / ((n : ℚ) - 1))) ((i + 1) * f.eta)
      (|start| + (|stop - start| + (i + 1) * f.eta))
      ((IFl.fin start : IFl f) + (IFl.fin (i : ℚ) : IFl f) *
        (((IFl.fin stop : IFl f) - IFl.fin start) / (IFl.fin ((n : ℚ) - 1) : IFl f))) := by
    intro i hi
    have hi' : (i : ℚ) ≤ (n : ℚ) - 1 := by rw [← hc]; exact_mod_cast (by omega : i ≤ n - 1)
    have hi0 : (0 : ℚ) ≤ i := Nat.cast_nonneg i
    have h1 : ApproxI f 1 (stop - start) |stop - start| 0 |stop - start|
        ((IFl.fin stop : IFl f) - IFl.fin start : IFl f) := by
      rw [IFl.sub_fin]
      exact ApproxI.ofQ_grid le_rfl le_rfl (by simp) (ht.sub hs) (by simp)
    have h2 := ApproxI.div hpos h1
    have hle : (i : ℚ) * (|stop - start| / ((n : ℚ) - 1)) ≤ |stop - start| := by
      rw [mul_div_assoc', div_le_iff₀ hpos0, mul_comm]
      exact mul_le_mul_of_nonneg_left hi' (abs_nonneg _)
    have heta := f.eta_pos
    have h3 := ApproxI.mul_left (b := (i : ℚ)) h2 (|stop - start| + (i + 1) * f.eta)
      (by nlinarith) (by rw [Nat.abs_cast, zero_div, zero_add]; linarith)
    have h4 := ApproxI.add (ApproxI.exact (f := f) 3 hs le_rfl) h3
    refine h4.mono le_rfl ?_ ?_ le_rfl ?_
    · rw [Nat.abs_cast]
    · rw [Nat.abs_cast, zero_div]; linarith
    · linarith
  refine ⟨_, ?_, fun i hi => ⟨fun r hr => ((key i hi).err r hr).2, (key i hi).finite⟩⟩
  unfold linspace
  rw [if_neg (by omega), if_neg (by omega)]
  have hz : (0 : IFl f) = IFl.fin ((0 : ℕ) : ℚ) := by simp; rfl
  rw [hz, iota_ifl he hm 0 n (by omega), List.map_map]
  refine List.map_congr_left fun i _ => ?_
  simp only [Function.comp, Nat.zero_add, IFl.natCast_def]
  rw [ofQ_nat (f := f) (n := n - 1) (by omega) he hm, hc]

end

/-- C93 for `double`: the constants are `u = 2^-53`, `η = 2^-1075`, overflow at `2^1024`, and every multiple
`m·2^k` with `k ≥ -1074` (so every finite `double`) is on the grid. -/
theorem C93_binary64 : binary64.u = 1 / 2 ^ 53 ∧ binary64.eta = (2 : ℚ) ^ (-1075 : ℤ) ∧
    binary64.emax = 1024 ∧ 31 ≤ binary64.frac + 1 ∧ binary64.emin ≤ binary64.frac ∧
    (binary64.frac : ℤ) + 1 ≤ binary64.emax ∧
    ∀ (m : ℤ) (k : ℤ), -1074 ≤ k → binary64.Grid (m * (2 : ℚ) ^ k) := by
  refine ⟨rfl, ?_, rfl, by decide, by decide, by decide, fun m k hk => ?_⟩
  · unfold Fmt.eta binary64; norm_num
  · obtain ⟨j, hj⟩ := Int.eq_ofNat_of_zero_le (show 0 ≤ k + 1074 by omega)
    refine ⟨m * 2 ^ j, ?_⟩
    push_cast
    rw [mul_assoc, ← zpow_natCast, ← hj, ← zpow_add₀ two_ne_zero]
    congr 2
    simp only [binary64]
    omega

/-- The largest `double`. -/
def maxDouble : ℚ := (2 ^ 53 - 1) * 2 ^ 971

/-- C94 (results of finite data that are representable are finite) is false of the code: the mean of two
copies of the largest double and `linspace` between the opposite largest doubles overflow (the
first element of the latter is even NaN).  The exact mean and the exact elements are representable. -/
theorem C94_overflow_false :
    mean [IFl.fin maxDouble, IFl.fin maxDouble] (fun _ : D64 => true) = IFl.inf false ∧
    linspace (IFl.fin (-maxDouble) : D64) (IFl.fin maxDouble) 3 = [IFl.nan, IFl.inf false, IFl.inf false] := by
  constructor <;> decide +kernel

/-- C93: underflow is visible: the inner product of `2^-600` with itself is 0. -/
theorem C93_underflow :
    inner [(IFl.fin (1 / 2 ^ 600) : D64)] [IFl.fin (1 / 2 ^ 600)] = .ok (IFl.fin 0) := by
  decide +kernel

/-- The data of the following example meet the hypotheses of `C93_sum`. -/
example : (∀ q ∈ [(1 : ℚ), 1 / 2 ^ 60], binary64.Grid q) ∧
    (1 + binary64.u) ^ (64 + Nat.clog 2 3) * (([(1 : ℚ), 1 / 2 ^ 60].map abs).sum) < (2 : ℚ) ^ binary64.emax := by
  constructor
  · intro q hq
    simp only [List.mem_cons, List.not_mem_nil, or_false] at hq
    rcases hq with rfl | rfl
    · simpa using C93_binary64.2.2.2.2.2.2 1 0 (by norm_num)
    · have := C93_binary64.2.2.2.2.2.2 1 (-60) (by norm_num)
      norm_num at this ⊢
      exact this
  · decide +kernel

example : sumF false [(IFl.fin 1 : D64), IFl.nan, IFl.fin (1 / 2 ^ 60)] (fun x => decide (x ≠ IFl.nan))
    = (IFl.fin 1, 2) := by decide +kernel

end SciCpp
