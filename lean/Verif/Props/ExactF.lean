import Verif.Proofs.Exactly
import Verif.Props.Ieee
/-
  Property theorems C115: no rounding at all on integers (multiples of one power of two) below `2^p`.
-/
set_option linter.unusedSectionVars false
namespace SciCpp
open Spec Finset

section
variable {f : Fmt} {k : ℤ}

theorem sumF_exactly (hk : f.InRange k) (l : List (IFl f)) (p : IFl f → Bool) (s : List ℚ)
    (hs : l.filter p = s.map IFl.fin) (hg : ∀ q ∈ s, Mult k q) :
    Exactly f k s.sum (s.map abs).sum (sumF false l p).1 ∧ (sumF false l p).2 = s.length := by
  unfold sumF filterReduceAssoc
  simp only [Bool.false_eq_true, if_false]
  induction hn : l.length using Nat.strong_induction_on generalizing l s with
  | _ n ih =>
    subst hn
    unfold pairwiseAcc
    split
    · rename_i hle
      simp only [filterReduce_eq, hs, List.length_map, List.foldl_map, and_true]
      have h := Exactly.foldl_add hk s (fun q => (IFl.fin q : IFl f)) id abs
        (fun i hi => Exactly.exact (hg i hi)) 0 Exactly.zero
      simp only [zero_add, List.map_id] at h
      exact h
    · rename_i hgt
      simp only [pwBlock, not_le] at hgt
      obtain ⟨s1, s2, rfl, e1, e2⟩ : ∃ s1 s2, s = s1 ++ s2 ∧
          (l.take (l.length / 2)).filter p = s1.map IFl.fin ∧
          (l.drop (l.length / 2)).filter p = s2.map IFl.fin := by
        have h := hs
        rw [← List.take_append_drop (l.length / 2) l, List.filter_append] at h
        obtain ⟨a, b, h1, h2, h3⟩ := List.append_eq_map_iff.mp h
        exact ⟨a, b, h1, h2.symm, h3.symm⟩
      obtain ⟨i1, c1⟩ := ih _ (by simp; omega) (l.take (l.length / 2)) s1 e1
        (fun q hq => hg q (List.mem_append_left _ hq)) rfl
      obtain ⟨i2, c2⟩ := ih _ (by simp; omega) (l.drop (l.length / 2)) s2 e2
        (fun q hq => hg q (List.mem_append_right _ hq)) rfl
      simp only [pwBlock] at i1 i2 c1 c2
      refine ⟨?_, by simp only [pwBlock, c1, c2, List.length_append]⟩
      have h := Exactly.add hk i1 i2
      rw [List.sum_append, List.map_append, List.sum_append]
      exact h

/-- C115, `sum` (any filter): when the accepted elements are multiples of `2^k` whose magnitudes add up to at most
`2^(frac+1+k)`, the computed sum is the exact sum. -/
theorem C115_sum (hk : f.InRange k) (l : List (IFl f)) (p : IFl f → Bool) (s : List ℚ)
    (hs : l.filter p = s.map IFl.fin) (hg : ∀ q ∈ s, Mult k q) (hM : (s.map abs).sum ≤ f.lim k) :
    sumF false l p = (IFl.fin s.sum, s.length) := by
  obtain ⟨h1, h2⟩ := sumF_exactly hk l p s hs hg
  exact Prod.ext (h1.val hM).1 h2

/-- C115, `mean`: under the same conditions the mean is the correctly rounded exact mean. -/
theorem C115_mean (hk : f.InRange k) (h31 : 31 ≤ f.frac + 1) (he : f.emin ≤ f.frac) (hm : 31 ≤ f.emax)
    (l : List (IFl f)) (p : IFl f → Bool) (s : List ℚ) (hs : l.filter p = s.map IFl.fin) (hg : ∀ q ∈ s, Mult k q)
    (hne : s ≠ []) (hlen : s.length < 2 ^ 31) (hM : (s.map abs).sum ≤ f.lim k) :
    mean l p = f.ofRat (s.sum / s.length) := by
  have h := C115_sum hk l p s hs hg hM
  have hpos : (s.length : ℚ) ≠ 0 := by
    have := List.length_pos_iff.mpr hne
    positivity
  have hl : l.length ≠ 0 := by
    intro h
    rw [List.length_eq_zero_iff] at h
    subst h
    cases s with
    | nil => exact hne rfl
    | cons _ _ => simp at hs
  unfold mean
  rw [if_neg hl]
  simp only [h, IFl.ofInt_def]
  rw [ofQ_count hlen h31 he hm, IFl.div_fin hpos]
  rfl

/-- C115, `inner` and `dot`. -/
theorem C115_inner {j : ℤ} (hk : f.InRange (j + k)) (a b : List ℚ) (hab : a.length = b.length)
    (ha : ∀ q ∈ a, Mult j q) (hb : ∀ q ∈ b, Mult k q)
    (hM : (List.zipWith (fun x y => |x| * |y|) a b).sum ≤ f.lim (j + k)) :
    inner (a.map (IFl.fin (f := f))) (b.map IFl.fin) = .ok (IFl.fin (List.zipWith (· * ·) a b).sum) := by
  suffices h : ∃ z : IFl f, innerOp (· * ·) (a.map (IFl.fin (f := f))) (b.map IFl.fin) = .ok z ∧
      Exactly f (j + k) (List.zipWith (· * ·) a b).sum (List.zipWith (fun x y => |x| * |y|) a b).sum z by
    obtain ⟨z, h1, h2⟩ := h
    rw [← (h2.val hM).1]
    exact h1
  clear hM
  unfold innerOp
  induction hn : a.length using Nat.strong_induction_on generalizing a b with
  | _ n ih =>
    subst hn
    unfold pairwiseAcc2
    rw [if_neg (by simp [hab])]
    split
    · rename_i hle
      refine ⟨_, innerLoop_fold _ _ _ _ (by simpa using hab), ?_⟩
      rw [List.zip_map, List.foldl_map]
      have h := Exactly.foldl_add hk (a.zip b) (fun xy => (IFl.fin xy.1 * IFl.fin xy.2 : IFl f))
        (fun xy => xy.1 * xy.2) (fun xy => |xy.1| * |xy.2|)
        (fun i hi => Exactly.mul_exact hk (ha _ (List.of_mem_zip hi).1) (hb _ (List.of_mem_zip hi).2)) 0 Exactly.zero
      simp only [zero_add] at h
      have hzz : ∀ g : ℚ → ℚ → ℚ, List.zipWith g a b = (a.zip b).map fun xy => g xy.1 xy.2 := by
        intro g; rw [List.zip, List.map_zipWith]
      rw [hzz, hzz]
      exact h
    · rename_i hgt
      simp only [List.length_map, pwBlock, not_le] at hgt
      simp only [List.length_map, ← List.map_take, ← List.map_drop]
      obtain ⟨z1, e1, h1⟩ := ih _ (by simp; omega) (a.take (a.length / 2)) (b.take (a.length / 2))
        (by simp [hab]) (fun q hq => ha q (List.mem_of_mem_take hq)) (fun q hq => hb q (List.mem_of_mem_take hq)) rfl
      obtain ⟨z2, e2, h2⟩ := ih _ (by simp; omega) (a.drop (a.length / 2)) (b.drop (a.length / 2))
        (by simp [hab]) (fun q hq => ha q (List.mem_of_mem_drop hq)) (fun q hq => hb q (List.mem_of_mem_drop hq)) rfl
      refine ⟨z1 + z2, by rw [e1, e2]; rfl, ?_⟩
      have hz : ∀ g : ℚ → ℚ → ℚ, (List.zipWith g a b).sum
          = (List.zipWith g (a.take (a.length / 2)) (b.take (a.length / 2))).sum
            + (List.zipWith g (a.drop (a.length / 2)) (b.drop (a.length / 2))).sum := by
        intro g
        rw [← List.sum_append, ← List.zipWith_append (by simp [hab]), List.take_append_drop,
          List.take_append_drop]
      rw [hz, hz]
      exact Exactly.add hk h1 h2

/-- C115, `polyval` at an integer `x`: exact when `Σ|cᵢ|·max(1, |x|)^i` is at most the limit. -/
theorem C115_polyval (hk : f.InRange k) (x : ℤ) (c : List ℚ) (hc : ∀ q ∈ c, Mult k q)
    (hM : ∑ i ∈ range c.length, |c.getD i 0| * (max 1 |(x : ℚ)|) ^ i ≤ f.lim k) :
    polyvalWith IFl.fma (IFl.fin x : IFl f) (c.map IFl.fin) =
      IFl.fin (∑ i ∈ range c.length, c.getD i 0 * (x : ℚ) ^ i) := by
  suffices h : Exactly f k (∑ i ∈ range c.length, c.getD i 0 * (x : ℚ) ^ i)
      (∑ i ∈ range c.length, |c.getD i 0| * (max 1 |(x : ℚ)|) ^ i)
      (polyvalWith IFl.fma (IFl.fin x : IFl f) (c.map IFl.fin)) from (h.val hM).1
  clear hM
  unfold polyvalWith
  rw [← List.map_reverse, List.foldl_map]
  induction c with
  | nil =>
    simp only [List.length_nil, Finset.range_zero, Finset.sum_empty, List.reverse_nil, List.foldl_nil]
    exact Exactly.zero
  | cons a c ih =>
    rw [List.reverse_cons, List.foldl_append, List.foldl_cons, List.foldl_nil]
    have h := Exactly.fma (b := x) (c := a) (X := max 1 |(x : ℚ)|) hk (ih fun q hq => hc q (by simp [hq]))
      (hc a (by simp)) (le_max_left _ _) (le_max_right _ _)
    rw [List.length_cons]
    simp only [Finset.sum_range_succ', List.getD_cons_succ, List.getD_cons_zero, pow_zero, mul_one, pow_succ]
    simp only [Finset.sum_mul] at h
    simpa only [mul_assoc] using h

theorem partialSumLoop_exactly (hk : f.InRange k) (l : List ℚ) (hg : ∀ q ∈ l, Mult k q)
    (acc : IFl f) (e A : ℚ) (h : Exactly f k e A acc) (i : ℕ) (hi : i < l.length) :
    ∃ z, (partialSumLoop (· + ·) acc (l.map IFl.fin))[i]? = some z ∧
      Exactly f k (e + (l.take (i + 1)).sum) (A + ((l.take (i + 1)).map abs).sum) z := by
  induction l generalizing acc e A i with
  | nil => simp at hi
  | cons x l ih =>
    have h1 := Exactly.add hk h (Exactly.exact (f := f) (hg x (by simp)))
    cases i with
    | zero =>
      refine ⟨_, by rw [List.map_cons, partialSumLoop, List.getElem?_cons_zero], ?_⟩
      simpa using h1
    | succ i =>
      obtain ⟨z, e1, e2⟩ := ih (fun q hq => hg q (List.mem_cons_of_mem _ hq)) _ _ _ h1 i (by simpa using hi)
      refine ⟨z, by rw [List.map_cons, partialSumLoop, List.getElem?_cons_succ]; exact e1, ?_⟩
      rw [List.take_succ_cons, List.sum_cons, List.map_cons, List.sum_cons, ← add_assoc e, ← add_assoc A]
      exact e2

/-- C115, `cumsum`: each partial sum is exact. -/
theorem C115_cumsum (hk : f.InRange k) (cat : Cat) (c : Cont) (x : List ℚ) (hg : ∀ q ∈ x, Mult k q)
    (i : ℕ) (hi : i < x.length) (hM : ((x.take (i + 1)).map abs).sum ≤ f.lim k) :
    (cumOp cat c (· + ·) (x.map (IFl.fin (f := f)))).1[i]? = some (IFl.fin (x.take (i + 1)).sum) := by
  have e1 : (cumOp cat c (· + ·) (x.map (IFl.fin (f := f)))).1 = partialSum (· + ·) (x.map IFl.fin) := by
    cases cat <;> rfl
  rw [e1]
  rcases x with _ | ⟨x, l⟩
  · simp at hi
  · rw [List.map_cons, partialSum]
    cases i with
    | zero => simp
    | succ i =>
      obtain ⟨z, h1, h2⟩ := partialSumLoop_exactly hk l (fun q hq => hg q (List.mem_cons_of_mem _ hq))
        (IFl.fin x) x |x| (Exactly.exact (hg x (by simp))) i (by simpa using hi)
      rw [List.take_succ_cons, List.map_cons, List.sum_cons] at hM
      rw [List.getElem?_cons_succ, h1, (h2.val hM).1, List.take_succ_cons, List.sum_cons]

theorem convAt_exactly {j : ℤ} (hk : f.InRange (j + k)) (a v : List ℚ) (ha : ∀ q ∈ a, Mult j q)
    (hv : ∀ q ∈ v, Mult k q) (i : ℕ) (hi : i + 1 < a.length + v.length) :
    ∃ z : IFl f, convAt (a.map IFl.fin) (v.map IFl.fin) i = .ok z ∧
      Exactly f (j + k) (∑ p ∈ antidiagonal i, a.getD p.1 0 * v.getD p.2 0)
        (∑ p ∈ antidiagonal i, |a.getD p.1 0| * |v.getD p.2 0|) z := by
  rw [Finset.Nat.sum_antidiagonal_eq_sum_range_succ (fun p q => a.getD p 0 * v.getD q 0) i,
    Finset.Nat.sum_antidiagonal_eq_sum_range_succ (fun p q => |a.getD p 0| * |v.getD q 0|) i]
  set n := a.length with hn
  set m := v.length with hm
  set lo : ℕ := i + 1 - m with hlo
  set hi' : ℕ := min (i + 1) n with hhi
  have hjmn : (if (i : Int) ≥ (m : Int) - 1 then (i : Int) - ((m : Int) - 1) else 0) = (lo : Int) := by
    split_ifs <;> omega
  have hjmx : (if (i : Int) < (n : Int) - 1 then (i : Int) else (n : Int) - 1) = (hi' : Int) - 1 := by
    split_ifs <;> omega
  unfold convAt
  simp only [List.length_map, ← hn, ← hm, hjmn, hjmx, forUp]
  have hcount : ((hi' : Int) - 1 + 1 - (lo : Int)).toNat = hi' - lo := by omega
  rw [hcount]
  obtain ⟨t, ht, hp⟩ := forN_inv (n := hi' - lo)
    (f := fun l acc => do
      let x ← rd (a.map (IFl.fin (f := f))) ((lo : Int) + (l : Int))
      let y ← rd (v.map (IFl.fin (f := f))) ((i : Int) - ((lo : Int) + (l : Int)))
      pure (acc + x * y)) (s := (0 : IFl f))
    (fun l acc => Exactly f (j + k) (∑ j ∈ Finset.range l, a.getD (lo + j) 0 * v.getD (i - (lo + j)) 0)
      (∑ j ∈ Finset.range l, |a.getD (lo + j) 0| * |v.getD (i - (lo + j)) 0|) acc)
    (by simp only [Finset.range_zero, Finset.sum_empty]; exact Exactly.zero) (by
      intro l hl t htk
      have h1 : lo + l < (a.map (IFl.fin (f := f))).length := by rw [List.length_map]; omega
      have h2 : i - (lo + l) < (v.map (IFl.fin (f := f))).length := by rw [List.length_map]; omega
      have h1' : lo + l < a.length := by omega
      have h2' : i - (lo + l) < v.length := by omega
      have e1 : ((lo : Int) + (l : Int)) = ((lo + l : ℕ) : Int) := by push_cast; rfl
      have e2 : ((i : Int) - ((lo + l : ℕ) : Int)) = ((i - (lo + l) : ℕ) : Int) := by omega
      refine ⟨t + IFl.fin (a[lo + l]) * IFl.fin (v[i - (lo + l)]), ?_, ?_⟩
      · simp only [e1, e2, rd_nat _ _ h1, rd_nat _ _ h2, Res.bind_ok, Res.pure_eq, List.getElem_map]
      · rw [Finset.sum_range_succ, Finset.sum_range_succ, getD_of_lt _ _ h1', getD_of_lt _ _ h2']
        exact Exactly.add hk htk (Exactly.mul_exact hk (ha _ (List.getElem_mem _)) (hv _ (List.getElem_mem _))))
  refine ⟨t, ht, ?_⟩
  have hsum : ∀ f : ℕ → ℕ → ℚ, (∀ p q, n ≤ p ∨ m ≤ q → f p q = 0) →
      ∑ j ∈ Finset.range (hi' - lo), f (lo + j) (i - (lo + j)) = ∑ j ∈ Finset.range (i + 1), f j (i - j) := by
    intro f hf
    rw [← Finset.sum_Ico_eq_sum_range (fun j => f j (i - j)) lo hi']
    apply Finset.sum_subset
    · intro j hj
      simp only [Finset.mem_Ico, Finset.mem_range] at hj ⊢
      omega
    · intro j hj hnj
      simp only [Finset.mem_Ico, Finset.mem_range, not_and, not_lt] at hj hnj
      by_cases h : j < lo
      · exact hf _ _ (Or.inr (by omega))
      · exact hf _ _ (Or.inl (by omega))
  have s1 := hsum (fun p q => a.getD p 0 * v.getD q 0) (by
    rintro p q (h | h)
    · rw [getD_of_ge a p h, zero_mul]
    · rw [getD_of_ge v q h, mul_zero])
  have s2 := hsum (fun p q => |a.getD p 0| * |v.getD q 0|) (by
    rintro p q (h | h)
    · rw [getD_of_ge a p h, abs_zero, zero_mul]
    · rw [getD_of_ge v q h, abs_zero, mul_zero])
  rw [s1, s2] at hp
  exact hp

theorem directConvolve_exactly {j : ℤ} (hk : f.InRange (j + k)) (a v : List ℚ) (ha : ∀ q ∈ a, Mult j q)
    (hv : ∀ q ∈ v, Mult k q) (h : 1 ≤ a.length + v.length) :
    ∃ r : List (IFl f), directConvolveImpl (List.replicate (a.length + v.length - 1) 0)
        (a.map IFl.fin) (v.map IFl.fin) = .ok r ∧
      r.length = a.length + v.length - 1 ∧
      ∀ i, i < a.length + v.length - 1 →
        Exactly f (j + k) (∑ p ∈ antidiagonal i, a.getD p.1 0 * v.getD p.2 0)
          (∑ p ∈ antidiagonal i, |a.getD p.1 0| * |v.getD p.2 0|) (r.getD i 0) := by
  unfold directConvolveImpl
  have hreq : (((a.length + v.length - 1 : ℕ) : Int) == (a.length : Int) + (v.length : Int) - 1)
        = true := by
    rw [beq_iff_eq]; omega
  simp only [List.length_replicate, List.length_map, hreq, require_true, Res.bind_ok, forUp, List.length_map]
  have hcount : ((a.length : Int) + (v.length : Int) - 2 + 1 - 0).toNat
      = a.length + v.length - 1 := by omega
  rw [hcount]
  obtain ⟨t, ht, hl, hp⟩ := forN_inv (n := a.length + v.length - 1)
    (f := fun l r => do
      let x ← convAt (a.map (IFl.fin (f := f))) (v.map IFl.fin) (0 + (l : Int))
      wr r (0 + (l : Int)) x) (s := List.replicate (a.length + v.length - 1) (0 : IFl f))
    (fun l r => r.length = a.length + v.length - 1 ∧
      ∀ i, i < l → Exactly f (j + k)
        (∑ p ∈ antidiagonal i, a.getD p.1 0 * v.getD p.2 0)
          (∑ p ∈ antidiagonal i, |a.getD p.1 0| * |v.getD p.2 0|) (r.getD i 0))
    (by simp) (by
      rintro l hlt t ⟨hl, hp⟩
      obtain ⟨z, e, hz⟩ := convAt_exactly hk a v ha hv l (by omega)
      refine ⟨t.set l z, ?_, ?_, ?_⟩
      · simp only [zero_add, e, Res.bind_ok]
        rw [wr_nat _ _ _ (by omega)]
      · simp [hl]
      · intro i hi
        by_cases hik : i = l
        · subst hik
          rw [getD_of_lt _ _ (by simp; omega)]
          simpa using hz
        · have h1 : i < t.length := by omega
          have := hp i (by omega)
          rw [getD_of_lt _ _ h1] at this
          rw [getD_of_lt _ _ (by simp; omega), List.getElem_set_ne (by omega)]
          exact this)
  exact ⟨t, ht, hl, hp⟩

/-- C115, `convolve` and `polymul` (direct method): every coefficient is exact as soon as the products it adds have
magnitudes that add up to at most the limit. -/
theorem C115_convolve {j : ℤ} (hk : f.InRange (j + k)) (a v : List ℚ) (ha : a ≠ []) (hma : ∀ q ∈ a, Mult j q)
    (hmv : ∀ q ∈ v, Mult k q)
    (hM : ∀ i, ∑ p ∈ antidiagonal i, |a.getD p.1 0| * |v.getD p.2 0| ≤ f.lim (j + k)) :
    convolve (a.map (IFl.fin (f := f))) (v.map IFl.fin) =
      .ok ((List.range (a.length + v.length - 1)).map fun i : ℕ =>
        IFl.fin (∑ p ∈ antidiagonal i, a.getD p.1 0 * v.getD p.2 0)) := by
  have hpos := List.length_pos_iff.mpr ha
  have key : ∃ r : List (IFl f), convolve (a.map (IFl.fin (f := f))) (v.map IFl.fin) = .ok r ∧
      r.length = a.length + v.length - 1 ∧
      ∀ i, i < a.length + v.length - 1 →
        Exactly f (j + k) (∑ p ∈ antidiagonal i, a.getD p.1 0 * v.getD p.2 0)
          (∑ p ∈ antidiagonal i, |a.getD p.1 0| * |v.getD p.2 0|) (r.getD i 0) := by
    unfold convolve
    have hreq : (!((a.map (IFl.fin (f := f))).isEmpty && (v.map (IFl.fin (f := f))).isEmpty)) = true := by
      cases a with
      | nil => exact absurd rfl ha
      | cons _ _ => rfl
    simp only [hreq, require_true, Res.bind_ok, List.length_map]
    split_ifs with hc
    · exact directConvolve_exactly hk a v hma hmv (by omega)
    · have hk' : f.InRange (k + j) := by rw [add_comm]; exact hk
      obtain ⟨r, h1, h2, h3⟩ := directConvolve_exactly (f := f) hk' v a hmv hma (by omega)
      rw [Nat.add_comm v.length a.length] at h1 h2 h3
      refine ⟨r, h1, h2, fun i hi => ?_⟩
      have := h3 i hi
      rw [← Finset.Nat.sum_antidiagonal_swap, ← Finset.Nat.sum_antidiagonal_swap (n := i)
        (f := fun p => |v.getD p.1 0| * |a.getD p.2 0|), add_comm k j] at this
      simpa only [Prod.fst_swap, Prod.snd_swap, mul_comm] using this
  obtain ⟨r, h1, h2, h3⟩ := key
  rw [h1]
  congr 1
  refine List.ext_getElem (by simp [h2]) fun i hi hi' => ?_
  have h4 := ((h3 i (by omega)).val (hM i)).1
  rw [getD_of_lt _ _ hi] at h4
  rw [List.getElem_map, List.getElem_range, h4]

/-! ### differences -/

theorem adjDiffLoop_exact (hk : f.InRange k) (B : ℚ) (x : ℚ) (l : List ℚ) (hx : Mult k x ∧ |x| ≤ B)
    (hl : ∀ q ∈ l, Mult k q ∧ |q| ≤ B) (hB : 2 * B ≤ f.lim k) :
    adjDiffLoop (IFl.fin x : IFl f) (l.map IFl.fin) = (adjDiffLoop x l).map IFl.fin ∧
      ∀ q ∈ adjDiffLoop x l, Mult k q ∧ |q| ≤ 2 * B := by
  induction l generalizing x with
  | nil => exact ⟨rfl, by simp [adjDiffLoop]⟩
  | cons y l ih =>
    obtain ⟨hy, hyB⟩ := hl y (by simp)
    obtain ⟨h1, h2⟩ := ih y ⟨hy, hyB⟩ fun q hq => hl q (by simp [hq])
    have hb : |y - x| ≤ 2 * B := (abs_sub _ _).trans (by linarith [hx.2])
    constructor
    · rw [List.map_cons, adjDiffLoop, adjDiffLoop, List.map_cons, h1, IFl.sub_fin,
        ofQ_mult hk (hy.sub hx.1) (hb.trans hB)]
    · intro q hq
      rw [adjDiffLoop, List.mem_cons] at hq
      rcases hq with rfl | hq
      · exact ⟨hy.sub hx.1, hb⟩
      · exact h2 q hq

/-- C115, `diff(a, n)`: the computed n-th differences are the exact ones when `2^n` times the largest magnitude is
at most the limit. -/
theorem C115_diff (hk : f.InRange k) (n : ℕ) (a : List ℚ) (B : ℚ) (hB0 : 0 ≤ B) (ha : ∀ q ∈ a, Mult k q ∧ |q| ≤ B)
    (hB : 2 ^ n * B ≤ f.lim k) :
    diffVec (a.map (IFl.fin (f := f))) n = (do let r ← diffVec a n; pure (r.map IFl.fin)) := by
  unfold diffVec
  have hreq : decide ((0 : ℤ) ≤ (n : ℤ)) = true := by simp
  rw [hreq]
  simp only [require_true, Res.bind_ok, Int.toNat_natCast]
  clear hreq
  induction n generalizing a B with
  | zero => rfl
  | succ n ih =>
    cases a with
    | nil => rfl
    | cons x l =>
      have h2B : 2 * B ≤ f.lim k := by
        have : (1 : ℚ) ≤ 2 ^ n := one_le_pow₀ (by norm_num)
        have h3 := mul_le_mul_of_nonneg_right this (show (0 : ℚ) ≤ 2 * B by linarith)
        rw [pow_succ] at hB
        nlinarith
      obtain ⟨h1, h2⟩ := adjDiffLoop_exact hk B x l (ha x (by simp)) (fun q hq => ha q (by simp [hq])) h2B
      have := ih (adjDiffLoop x l) (2 * B) (by linarith) h2 (by rw [pow_succ] at hB; linarith)
      rw [← h1] at this
      exact this

end

/-- C115 for `double`: integers up to `2^53` in magnitude; the sum of the magnitudes bounds every result. -/
theorem C115_binary64 : binary64.InRange 0 ∧ binary64.lim 0 = 2 ^ 53 ∧ binary32.InRange 0 ∧ binary32.lim 0 = 2 ^ 24 := by
  refine ⟨⟨by decide, by decide⟩, ?_, ⟨by decide, by decide⟩, ?_⟩ <;> simp [Fmt.lim, binary64, binary32]

/-- Satisfiable: quarters, and large integers. -/
example : sumF false ([1 / 4, 2 ^ 40, -3 / 4].map IFl.fin : List D64) (fun _ => true) =
    (IFl.fin ([1 / 4, 2 ^ 40, -3 / 4] : List ℚ).sum, 3) := by
  refine C115_sum (k := -2) ⟨by decide, by decide⟩ _ _ _ (by simp) ?_ ?_
  · intro q hq
    simp only [List.mem_cons, List.not_mem_nil, or_false] at hq
    rcases hq with rfl | rfl | rfl
    · exact ⟨1, by norm_num⟩
    · exact ⟨2 ^ 42, by norm_num⟩
    · exact ⟨-3, by norm_num⟩
  · simp only [List.map_cons, List.map_nil, List.sum_cons, List.sum_nil, Fmt.lim, binary64]
    norm_num [abs_of_pos, abs_of_neg]

/-- C115, the limit is sharp: beyond `2^53` one is lost. -/
theorem C115_sharp : sumF false ([2 ^ 53, 1].map IFl.fin : List D64) (fun _ => true) = (IFl.fin (2 ^ 53), 2) := by
  decide +kernel

end SciCpp
