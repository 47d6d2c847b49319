import Verif.Props.Stats
import Verif.Props.Cov
import Mathlib.Order.Monotone.Basic
/-
  Property theorems C144: how statistics change when the data are shifted, scaled, reflected,
  transformed by a monotone function, added or appended, and the inequalities between them.
-/
namespace SciCpp

set_option linter.unusedSectionVars false
set_option linter.unusedVariables false

open Spec

/-! ### Order statistics of transformed data -/

section order
variable {α β : Type*} [LinearOrder α] [LinearOrder β]

theorem sorted_map_mono (f : α → β) (hf : Monotone f) (l : List α) :
    sorted (l.map f) = (sorted l).map f := by
  apply List.Perm.eq_of_pairwise (le := (· ≤ ·)) _ (sorted_pairwise _)
    (List.pairwise_map.mpr ((sorted_pairwise l).imp (fun h => hf h)))
  · exact (sorted_perm _).trans ((sorted_perm l).map f).symm
  · intro a b _ _ h1 h2; exact le_antisymm h1 h2

theorem sorted_map_anti (f : α → β) (hf : Antitone f) (l : List α) :
    sorted (l.map f) = ((sorted l).map f).reverse := by
  apply List.Perm.eq_of_pairwise (le := (· ≤ ·)) _ (sorted_pairwise _)
    (List.pairwise_reverse.mpr (List.pairwise_map.mpr ((sorted_pairwise l).imp (fun h => hf h))))
  · exact ((sorted_perm _).trans ((sorted_perm l).map f).symm).trans (List.reverse_perm _).symm
  · intro a b _ _ h1 h2; exact le_antisymm h1 h2

theorem orderStat_map_mono (f : α → β) (hf : Monotone f) (l : List α) (k : ℕ) (h : k < l.length) :
    orderStat (l.map f) k (by simpa using h) = f (orderStat l k h) := by
  unfold orderStat
  simp only [sorted_map_mono f hf l, List.getElem_map]

theorem orderStat_map_anti (f : α → β) (hf : Antitone f) (l : List α) (k : ℕ) (h : k < l.length) :
    orderStat (l.map f) k (by simpa using h) = f (orderStat l (l.length - 1 - k) (by omega)) := by
  unfold orderStat
  simp only [sorted_map_anti f hf l, List.getElem_reverse, List.getElem_map, List.length_map,
    sorted_length]

end order

section field
variable {K : Type*} [Field K] [LinearOrder K] [IsStrictOrderedRing K]

theorem affine_mono (c d : K) (hc : 0 ≤ c) : Monotone (fun x : K => c * x + d) := by
  intro a b h; have := mul_le_mul_of_nonneg_left h hc; simp only; linarith

theorem affine_anti (c d : K) (hc : c ≤ 0) : Antitone (fun x : K => c * x + d) := by
  intro a b h; have := mul_le_mul_of_nonpos_left h hc; simp only; linarith

/-- C144: the median is equivariant: `median(c·x + d) = c·median(x) + d` for all real `c` (also
negative) and `d`, every length and every selection algorithm. -/
theorem C144_median (nth nth' : NthImpl K) (qnan qnan' : K) (l : List K) (hl : l ≠ []) (c d : K) :
    ∃ m, medianInplace nth qnan (fun x => x / 2) l = .ok m ∧
      medianInplace nth' qnan' (fun x => x / 2) (l.map fun x => c * x + d) = .ok (c * m + d) := by
  have h : 0 < l.length := List.length_pos_iff.mpr hl
  have h' : 0 < (l.map fun x => c * x + d).length := by simpa using h
  rw [C16_median nth qnan l h, C16_median nth' qnan' _ h']
  simp only [List.length_map]
  rcases le_total 0 c with hc | hc
  · have e : ∀ k, (hk : k < l.length) →
        orderStat (l.map fun x => c * x + d) k (by simpa using hk) = c * orderStat l k hk + d :=
      fun k hk => orderStat_map_mono _ (affine_mono c d hc) l k hk
    by_cases ho : l.length % 2 = 1
    · rw [if_pos ho, if_pos ho]
      exact ⟨_, rfl, by rw [e]⟩
    · rw [if_neg ho, if_neg ho]
      refine ⟨_, rfl, ?_⟩
      rw [e _ (by omega), e _ (by omega)]
      congr 1; ring
  · have e : ∀ k, (hk : k < l.length) →
        orderStat (l.map fun x => c * x + d) k (by simpa using hk)
          = c * orderStat l (l.length - 1 - k) (by omega) + d :=
      fun k hk => orderStat_map_anti _ (affine_anti c d hc) l k hk
    by_cases ho : l.length % 2 = 1
    · rw [if_pos ho, if_pos ho]
      refine ⟨_, rfl, ?_⟩
      rw [e _ (by omega)]
      congr 4; omega
    · rw [if_neg ho, if_neg ho]
      refine ⟨_, rfl, ?_⟩
      rw [e _ (by omega), e _ (by omega)]
      have e1 : l.length - 1 - (l.length / 2 - 1) = l.length / 2 := by omega
      have e2 : l.length - 1 - l.length / 2 = l.length / 2 - 1 := by omega
      simp only [e1, e2]
      congr 1; ring

variable [FloorRing K]

/-- The value of `quantile` in terms of the sorted data, for every tolerance. -/
theorem quantile_sorted (nth : NthImpl K) (qnan tol : K) (m : QInterp) (l : List K) (q : K)
    (hq0 : 0 ≤ q) (hq1 : q ≤ 1) (hl : 2 ≤ l.length) (ht : 0 ≤ tol) :
    ∃ (i j : ℕ) (t : K), i < l.length ∧ j < l.length ∧
      (∀ (nth' : NthImpl K) (qnan' : K) (l' : List K), l'.length = l.length →
        quantileInplace nth' qnan' tol m l' q
          = .ok ((sorted l').getD i 0 + t * ((sorted l').getD j 0 - (sorted l').getD i 0))) := by
  obtain ⟨b0, b1⟩ := quantile_h_bounds q (l.length - 1) hq0 hq1
  obtain ⟨c0, c1⟩ := qIndex_bounds m _ (l.length - 1) b0 b1
  set h0 := qInterpIndex m (q * ((l.length - 1 : ℕ) : K)) with hh
  have hfl : 0 ≤ ⌊h0⌋ := Int.floor_nonneg.mpr c0
  have hce : ⌈h0⌉ ≤ ((l.length - 1 : ℕ) : ℤ) := Int.ceil_le.mpr (by simpa using c1)
  have hfc := Int.floor_le_ceil h0
  by_cases hex : almostEqFin tol (nearbyint h0 : K) h0 = false
  · refine ⟨⌊h0⌋.toNat, ⌈h0⌉.toNat, h0 - ⌊h0⌋, by omega, by omega, ?_⟩
    intro nth' qnan' l' hl'
    exact quantile_core nth' qnan' tol m l' q hq0 hq1 (by omega) ht h0 (by rw [hl']) c0
      (by rw [hl']; exact c1) (Or.inr hex)
  · have hex' : almostEqFin tol (nearbyint h0 : K) h0 = true := by simpa using hex
    have hlt : ⌊h0⌋.toNat < l.length := by omega
    have htr : truncK h0 = ⌊h0⌋ := by rw [truncK, if_pos c0]
    refine ⟨⌊h0⌋.toNat, ⌊h0⌋.toNat, 0, hlt, hlt, ?_⟩
    intro nth' qnan' l' hl'
    have hlt' : ⌊h0⌋.toNat < l'.length := by omega
    have e : quantileInplace nth' qnan' tol m l' q = .ok (orderStat l' ⌊h0⌋.toNat hlt') := by
      unfold quantileInplace
      have hr : decide (0 ≤ q ∧ q ≤ 1) = true := by simp [hq0, hq1]
      simp only [hr, require_true, Res.bind_ok]
      rcases l' with _ | ⟨x, _ | ⟨y, l'⟩⟩
      · simp at hl'; omega
      · simp at hl'; omega
      · simp only []
        rw [hl', ← hh, hex', if_pos rfl, htr, Nat.min_eq_left (le_of_lt hlt),
          nth_eq (nth'.correct _ _) hlt']
    rw [e, zero_mul, add_zero, getD_sorted l' _ hlt']

/-- C144: quantiles are equivariant under increasing changes of unit, `quantile(c·x + d, q) =
c·quantile(x, q) + d` for `c ≥ 0`: every method, every `q`, every length, every selection
algorithm and every tolerance of the "is an integer" test (so also in the zone where the quantile
itself is the wrong one, C17). -/
theorem C144_quantile (nth nth' : NthImpl K) (qnan qnan' tol : K) (m : QInterp) (l : List K)
    (hl : l ≠ []) (q : K) (hq0 : 0 ≤ q) (hq1 : q ≤ 1) (ht : 0 ≤ tol) (c d : K) (hc : 0 ≤ c) :
    ∃ x, quantileInplace nth qnan tol m l q = .ok x ∧
      quantileInplace nth' qnan' tol m (l.map fun x => c * x + d) q = .ok (c * x + d) := by
  have h : 0 < l.length := List.length_pos_iff.mpr hl
  by_cases h2 : 2 ≤ l.length
  · obtain ⟨i, j, t, hi, hj, e⟩ := quantile_sorted nth qnan tol m l q hq0 hq1 h2 ht
    refine ⟨_, e nth qnan l rfl, ?_⟩
    rw [e nth' qnan' _ (by simp)]
    have o : ∀ k, (hk : k < l.length) →
        (sorted (l.map fun x => c * x + d)).getD k 0 = c * (sorted l).getD k 0 + d := by
      intro k hk
      rw [getD_sorted _ k (by simpa using hk), getD_sorted l k hk]
      exact orderStat_map_mono _ (affine_mono c d hc) l k hk
    rw [o i hi, o j hj]
    congr 1; ring
  · obtain ⟨x, rfl⟩ := List.length_eq_one_iff.mp (by omega : l.length = 1)
    exact ⟨x, (C17_quantile_small nth qnan tol m q x hq0 hq1).2,
      (C17_quantile_small nth' qnan' tol m q _ hq0 hq1).2⟩

/-- The method seen from the other end of the sorted data. -/
def Spec.mirror : QInterp → QInterp
  | .lower => .higher
  | .higher => .lower
  | m => m

theorem floor_sub_left (n : ℤ) (h : K) : ⌊(n : K) - h⌋ = n - ⌈h⌉ := by
  rw [Int.floor_eq_iff]
  have h1 := Int.le_ceil h
  have h2 := Int.ceil_lt_add_one h
  push_cast
  constructor <;> linarith

theorem ceil_sub_left (n : ℤ) (h : K) : ⌈(n : K) - h⌉ = n - ⌊h⌋ := by
  rw [Int.ceil_eq_iff]
  have h1 := Int.floor_le h
  have h2 := Int.lt_floor_add_one h
  push_cast
  constructor <;> linarith

/-- C144: with an exact "is an integer" test, decreasing changes of unit exchange the two ends:
`quantile(c·x + d, 1 - q) = c·quantile(x, q) + d` for `c ≤ 0`, with LOWER and HIGHER exchanged.
Not for NEAREST (`C144_nearest_reflect_false`). -/
theorem C144_quantile_reflect (nth nth' : NthImpl K) (qnan qnan' : K) (m : QInterp)
    (hm : m ≠ .nearest) (l : List K) (hl : l ≠ []) (q : K) (hq0 : 0 ≤ q) (hq1 : q ≤ 1)
    (c d : K) (hc : c ≤ 0) :
    ∃ x, quantileInplace nth qnan 0 m l q = .ok x ∧
      quantileInplace nth' qnan' 0 (Spec.mirror m) (l.map fun x => c * x + d) (1 - q)
        = .ok (c * x + d) := by
  have h : 0 < l.length := List.length_pos_iff.mpr hl
  by_cases h2 : 2 ≤ l.length
  · have hn : ((l.length - 1 : ℕ) : K) = (((l.length - 1 : ℕ) : ℤ) : K) := by simp
    refine ⟨_, C17_quantile_exact_partial nth qnan m l q hq0 hq1 h2, ?_⟩
    rw [C17_quantile_exact_partial nth' qnan' _ _ (1 - q) (by linarith) (by linarith)
      (by simpa using h2), List.length_map]
    obtain ⟨b0, b1⟩ := quantile_h_bounds q (l.length - 1) hq0 hq1
    have eh : (1 - q) * ((l.length - 1 : ℕ) : K)
        = (((l.length - 1 : ℕ) : ℤ) : K) - q * ((l.length - 1 : ℕ) : K) := by rw [← hn]; ring
    rw [eh]
    set hh := q * ((l.length - 1 : ℕ) : K) with hdef
    have hfl : 0 ≤ ⌊hh⌋ := Int.floor_nonneg.mpr b0
    have hce : ⌈hh⌉ ≤ ((l.length - 1 : ℕ) : ℤ) := Int.ceil_le.mpr (by simpa using b1)
    have hfc := Int.floor_le_ceil hh
    have o : ∀ k : ℤ, 0 ≤ k → k ≤ ((l.length - 1 : ℕ) : ℤ) →
        (sorted (l.map fun x => c * x + d)).getD (((l.length - 1 : ℕ) : ℤ) - k).toNat 0
          = c * (sorted l).getD k.toNat 0 + d := by
      intro k hk0 hk1
      have hk : (((l.length - 1 : ℕ) : ℤ) - k).toNat < l.length := by omega
      rw [getD_sorted _ _ (by simpa using hk), getD_sorted l k.toNat (by omega),
        orderStat_map_anti _ (affine_anti c d hc) l _ hk]
      have e1 : l.length - 1 - (((l.length - 1 : ℕ) : ℤ) - k).toNat = k.toNat := by omega
      simp only [e1]
    have o1 := o ⌊hh⌋ hfl (by omega)
    have o2 := o ⌈hh⌉ (by omega) hce
    congr 1
    cases m with
    | nearest => exact absurd rfl hm
    | lower => simp only [Spec.mirror, Spec.quantileAt, ceil_sub_left, o1]
    | higher => simp only [Spec.mirror, Spec.quantileAt, floor_sub_left, o2]
    | midpoint =>
      simp only [Spec.mirror, Spec.quantileAt, floor_sub_left, ceil_sub_left, o1, o2]; ring
    | linear =>
      simp only [Spec.mirror, Spec.quantileAt, floor_sub_left, ceil_sub_left, o1, o2]
      by_cases hint : ⌈hh⌉ = ⌊hh⌋
      · rw [hint]; ring
      · have hc1 : ⌈hh⌉ = ⌊hh⌋ + 1 := by
          have a1 := Int.ceil_le_floor_add_one hh
          omega
        rw [hc1]; push_cast; ring
  · obtain ⟨x, rfl⟩ := List.length_eq_one_iff.mp (by omega : l.length = 1)
    exact ⟨x, (C17_quantile_small nth qnan 0 m q x hq0 hq1).2,
      (C17_quantile_small nth' qnan' 0 _ (1 - q) _ (by linarith) (by linarith)).2⟩

/-- C144 (negation): NEAREST is not symmetric. Ties go to the even *index*, so the nearest 1/2
quantile of `{0, 1}` is 0 and that of the reflected data `{0, -1}` is -1, not -0. -/
theorem C144_nearest_reflect_false :
    quantileInplace (sortNth ℚ) 0 0 .nearest [0, 1] (1 / 2) = .ok 0 ∧
    quantileInplace (sortNth ℚ) 0 0 .nearest ([0, 1].map fun x : ℚ => (-1) * x + 0) (1 - 1 / 2)
      = .ok (-1) := by
  constructor <;> decide +kernel

/-- C144: LOWER, HIGHER and NEAREST quantiles commute with every monotone function (logarithm,
truncation, clipping, ranks, ...), for every tolerance. -/
theorem C144_quantile_monotone_map (nth nth' : NthImpl K) (qnan qnan' tol : K) (m : QInterp)
    (hm : m = .lower ∨ m = .higher ∨ m = .nearest) (l : List K) (hl : l ≠ []) (q : K)
    (hq0 : 0 ≤ q) (hq1 : q ≤ 1) (ht : 0 ≤ tol) (f : K → K) (hf : Monotone f) :
    ∃ x, quantileInplace nth qnan tol m l q = .ok x ∧
      quantileInplace nth' qnan' tol m (l.map f) q = .ok (f x) := by
  have h : 0 < l.length := List.length_pos_iff.mpr hl
  by_cases h2 : 2 ≤ l.length
  · refine ⟨_, C17_quantile_discrete_partial nth qnan tol m l q hq0 hq1 h2 ht hm, ?_⟩
    rw [C17_quantile_discrete_partial nth' qnan' tol m (l.map f) q hq0 hq1 (by simpa using h2) ht hm,
      List.length_map]
    obtain ⟨b0, b1⟩ := quantile_h_bounds q (l.length - 1) hq0 hq1
    set hh := q * ((l.length - 1 : ℕ) : K)
    have hfl : 0 ≤ ⌊hh⌋ := Int.floor_nonneg.mpr b0
    have hce : ⌈hh⌉ ≤ ((l.length - 1 : ℕ) : ℤ) := Int.ceil_le.mpr (by simpa using b1)
    have hfc := Int.floor_le_ceil hh
    have hnb := nearbyint_bounds hh
    have o : ∀ k : ℤ, k ≤ ((l.length - 1 : ℕ) : ℤ) →
        (sorted (l.map f)).getD k.toNat 0 = f ((sorted l).getD k.toNat 0) := by
      intro k hk1
      have hk : k.toNat < l.length := by omega
      rw [getD_sorted _ _ (by simpa using hk), getD_sorted l k.toNat hk,
        orderStat_map_mono f hf l _ hk]
    congr 1
    rcases hm with rfl | rfl | rfl
    · exact o _ (by omega)
    · exact o _ (by omega)
    · exact o _ (by omega)
  · obtain ⟨x, rfl⟩ := List.length_eq_one_iff.mp (by omega : l.length = 1)
    exact ⟨x, (C17_quantile_small nth qnan tol m q x hq0 hq1).2,
      (C17_quantile_small nth' qnan' tol m q _ hq0 hq1).2⟩

/-- C144: quantiles do not depend on the order of the data nor on the selection algorithm, for
every method and tolerance. -/
theorem C144_quantile_perm (nth nth' : NthImpl K) (qnan tol : K) (m : QInterp) (l l' : List K)
    (hp : l.Perm l') (q : K) (hq0 : 0 ≤ q) (hq1 : q ≤ 1) (ht : 0 ≤ tol) :
    quantileInplace nth qnan tol m l q = quantileInplace nth' qnan tol m l' q := by
  by_cases h2 : 2 ≤ l.length
  · obtain ⟨i, j, t, hi, hj, e⟩ := quantile_sorted nth qnan tol m l q hq0 hq1 h2 ht
    rw [e nth qnan l rfl, e nth' qnan l' hp.length_eq.symm, sorted_eq_of_perm hp]
  · rcases l with _ | ⟨x, _ | ⟨y, l⟩⟩
    · rw [hp.nil_eq.symm, (C17_quantile_small nth qnan tol m q 0 hq0 hq1).1,
        (C17_quantile_small nth' qnan tol m q 0 hq0 hq1).1]
    · have hx : l' = [x] := List.perm_singleton.mp hp.symm
      rw [hx, (C17_quantile_small nth qnan tol m q x hq0 hq1).2,
        (C17_quantile_small nth' qnan tol m q x hq0 hq1).2]
    · simp at h2

end field


/-! ### Mean, variance and covariance -/

section linear
variable {K : Type*} [Field K] [StarRing K] [DecidableEq K] [CharZero K]

theorem sum_affine (c d : K) (l : List K) :
    (l.map fun x => c * x + d).sum = c * l.sum + (l.length : K) * d := by
  induction l with
  | nil => simp
  | cons a l ih => simp only [List.map_cons, List.sum_cons, ih, List.length_cons]; push_cast; ring

theorem meanL_affine (c d : K) (l : List K) (hl : l ≠ []) :
    meanL (l.map fun x => c * x + d) = c * meanL l + d := by
  have h0 : (l.length : K) ≠ 0 := by
    rw [Nat.cast_ne_zero]; exact (List.length_pos_iff.mpr hl).ne'
  unfold meanL
  rw [sum_affine, List.length_map]
  field_simp

/-- C144: `mean(c·x + d) = c·mean(x) + d`, real or complex. -/
theorem C144_mean (l : List K) (hl : l ≠ []) (hlen : l.length < 2 ^ 31) (c d : K) :
    ∃ m, mean (l.map Ex.fin) (fun _ => true) = Ex.fin m ∧
      mean ((l.map fun x => c * x + d).map Ex.fin) (fun _ => true) = Ex.fin (c * m + d) := by
  refine ⟨_, C15_mean _ _ l (by simp) hl hlen, ?_⟩
  rw [C15_mean _ _ (l.map fun x => c * x + d) (by simp) (by simpa using hl) (by simpa using hlen)]
  exact congrArg Ex.fin (meanL_affine c d l hl)

/-- C144: the mean of appended data is the mean of the means weighted by the numbers of samples. -/
theorem C144_mean_append (x y : List K) (hx : x ≠ []) (hy : y ≠ [])
    (hlen : x.length + y.length < 2 ^ 31) :
    ∃ mx my, mean (x.map Ex.fin) (fun _ => true) = Ex.fin mx ∧
      mean (y.map Ex.fin) (fun _ => true) = Ex.fin my ∧
      mean ((x ++ y).map Ex.fin) (fun _ => true)
        = Ex.fin (((x.length : K) * mx + (y.length : K) * my) / ((x.length : K) + (y.length : K))) := by
  have h1 : (x.length : K) ≠ 0 := by
    rw [Nat.cast_ne_zero]; exact (List.length_pos_iff.mpr hx).ne'
  have h2 : (y.length : K) ≠ 0 := by
    rw [Nat.cast_ne_zero]; exact (List.length_pos_iff.mpr hy).ne'
  refine ⟨_, _, C15_mean _ _ x (by simp) hx (by omega), C15_mean _ _ y (by simp) hy (by omega), ?_⟩
  rw [C15_mean _ _ (x ++ y) (by simp) (by simp [hx]) (by simpa using hlen)]
  rw [mul_div_cancel₀ _ h1, mul_div_cancel₀ _ h2, List.sum_append, List.length_append, Nat.cast_add]

theorem covSum_affine (s : List (K × K)) (hs : s ≠ []) (c₁ d₁ c₂ d₂ : K) :
    covSum (s.map (Prod.map (fun x => c₁ * x + d₁) (fun y => c₂ * y + d₂)))
      = c₁ * star c₂ * covSum s := by
  unfold covSum
  have h1 : (s.map (Prod.map (fun x => c₁ * x + d₁) (fun y => c₂ * y + d₂))).map Prod.fst
      = (s.map Prod.fst).map (fun x => c₁ * x + d₁) := by
    rw [List.map_map, List.map_map]; rfl
  have h2 : (s.map (Prod.map (fun x => c₁ * x + d₁) (fun y => c₂ * y + d₂))).map Prod.snd
      = (s.map Prod.snd).map (fun y => c₂ * y + d₂) := by
    rw [List.map_map, List.map_map]; rfl
  rw [h1, h2, meanL_affine _ _ _ (by simpa using hs), meanL_affine _ _ _ (by simpa using hs),
    List.map_map, ← List.sum_map_mul_left]
  refine congrArg List.sum (List.map_congr_left ?_)
  intro xy _
  simp only [Function.comp, Prod.map, star_sub, star_add, star_mul']
  ring

/-- C144: `covariance(c₁·x + d₁, c₂·y + d₂) = c₁·conj(c₂)·covariance(x, y)`, real or complex, every
number of samples and every `ddof` below it; with `y = x` the variance is multiplied by `|c|²`. -/
theorem C144_covariance (ddof : ℤ) (x y : List K) (hl : x.length = y.length) (hx : x ≠ [])
    (hlen : x.length < 2 ^ 31) (hd : ddof < x.length) (c₁ d₁ c₂ d₂ : K) :
    ∃ v, covarianceF ddof (x.map Ex.fin) (y.map Ex.fin) (fun _ => true) = .ok (Ex.fin v, x.length) ∧
      covarianceF ddof ((x.map fun t => c₁ * t + d₁).map Ex.fin)
        ((y.map fun t => c₂ * t + d₂).map Ex.fin) (fun _ => true)
        = .ok (Ex.fin (c₁ * star c₂ * v), x.length) := by
  have hne : x.zip y ≠ [] := by
    intro h
    have : (x.zip y).length = x.length := by simp [hl]
    rw [h] at this; exact hx (List.length_eq_zero_iff.mp this.symm)
  refine ⟨_, C18_covariance ddof x y hl hx hlen hd, ?_⟩
  rw [C18_covariance ddof _ _ (by simpa using hl) (by simpa using hx) (by simpa using hlen)
    (by simpa using hd), List.zip_map, List.length_map]
  unfold covL
  rw [covSum_affine _ hne, List.length_map, mul_div_assoc]

theorem zipWith_add_sum (x y : List K) (hl : x.length = y.length) :
    (List.zipWith (· + ·) x y).sum = x.sum + y.sum := by
  induction x generalizing y with
  | nil => cases y <;> simp_all
  | cons a x ih =>
    cases y with
    | nil => simp at hl
    | cons b y =>
      simp only [List.zipWith_cons_cons, List.sum_cons, ih y (by simpa using hl)]; ring

theorem meanL_add (x y : List K) (hl : x.length = y.length) :
    meanL (List.zipWith (· + ·) x y) = meanL x + meanL y := by
  unfold meanL
  rw [zipWith_add_sum x y hl]
  simp only [List.length_zipWith, hl, min_self, add_div]

/-- C144: the mean of an element-wise sum is the sum of the means. -/
theorem C144_mean_add (x y : List K) (hl : x.length = y.length) (hx : x ≠ [])
    (hlen : x.length < 2 ^ 31) :
    ∃ mx my, mean (x.map Ex.fin) (fun _ => true) = Ex.fin mx ∧
      mean (y.map Ex.fin) (fun _ => true) = Ex.fin my ∧
      mean ((List.zipWith (· + ·) x y).map Ex.fin) (fun _ => true) = Ex.fin (mx + my) := by
  have hxl := List.length_pos_iff.mpr hx
  have hy : y ≠ [] := List.length_pos_iff.mp (by omega)
  refine ⟨_, _, C15_mean _ _ x (by simp) hx hlen, C15_mean _ _ y (by simp) hy (by omega), ?_⟩
  have hz : (List.zipWith (· + ·) x y).length = x.length := by simp [hl]
  rw [C15_mean _ _ (List.zipWith (· + ·) x y) (by simp) (List.length_pos_iff.mp (by omega))
    (by omega)]
  exact congrArg Ex.fin (meanL_add x y hl)

theorem covSum_zip (x y : List K) (hl : x.length = y.length) :
    covSum (x.zip y)
      = (List.zipWith (fun a b => (a - meanL x) * star (b - meanL y)) x y).sum := by
  unfold covSum
  rw [List.map_fst_zip (by omega), List.map_snd_zip (by omega), List.zip, List.map_zipWith]

theorem zipWith3_add (m m' m'' : K) (x y z : List K) (h1 : x.length = y.length)
    (h2 : x.length = z.length) :
    (List.zipWith (fun a b => (a - (m + m')) * star (b - m'')) (List.zipWith (· + ·) x y) z).sum
      = (List.zipWith (fun a b => (a - m) * star (b - m'')) x z).sum
        + (List.zipWith (fun a b => (a - m') * star (b - m'')) y z).sum := by
  induction x generalizing y z with
  | nil => cases y <;> cases z <;> simp_all
  | cons a x ih =>
    cases y with
    | nil => simp at h1
    | cons b y =>
      cases z with
      | nil => simp at h2
      | cons c z =>
        simp only [List.zipWith_cons_cons, List.sum_cons,
          ih y z (by simpa using h1) (by simpa using h2)]
        ring

/-- C144: `covariance(x + y, z) = covariance(x, z) + covariance(y, z)`. -/
theorem C144_covariance_add (ddof : ℤ) (x y z : List K) (h1 : x.length = y.length)
    (h2 : x.length = z.length) (hx : x ≠ []) (hlen : x.length < 2 ^ 31) (hd : ddof < x.length) :
    ∃ u v, covarianceF ddof (x.map Ex.fin) (z.map Ex.fin) (fun _ => true) = .ok (Ex.fin u, x.length) ∧
      covarianceF ddof (y.map Ex.fin) (z.map Ex.fin) (fun _ => true) = .ok (Ex.fin v, x.length) ∧
      covarianceF ddof ((List.zipWith (· + ·) x y).map Ex.fin) (z.map Ex.fin) (fun _ => true)
        = .ok (Ex.fin (u + v), x.length) := by
  have hxl := List.length_pos_iff.mpr hx
  have hy : y ≠ [] := List.length_pos_iff.mp (by omega)
  have hw : (List.zipWith (· + ·) x y).length = x.length := by simp [h1]
  refine ⟨covL ddof (x.zip z), covL ddof (y.zip z), C18_covariance ddof x z h2 hx hlen hd, ?_, ?_⟩
  · rw [C18_covariance ddof y z (by omega) hy (by omega) (by omega), h1]
  · rw [C18_covariance ddof _ z (by omega) (List.length_pos_iff.mp (by omega)) (by omega)
      (by omega), hw]
    unfold covL
    rw [covSum_zip _ z (by omega), covSum_zip x z h2, covSum_zip y z (by omega), meanL_add x y h1,
      zipWith3_add _ _ _ x y z h1 h2, add_div]
    simp only [List.length_zip, hw, h1, ← h2, min_self]
end linear

/-! ### Optimality of the mean and of the median, and the inequalities between the statistics -/

section optimal
variable {K : Type*} [Field K] [LinearOrder K] [IsStrictOrderedRing K]

theorem abs_pair_le (a b t m : K) (h : (a ≤ m ∧ m ≤ b) ∨ (b ≤ m ∧ m ≤ a)) :
    |a - m| + |b - m| ≤ |a - t| + |b - t| := by
  have h1 : |a - b| ≤ |a - t| + |b - t| := by
    have := abs_sub_le a t b
    rwa [abs_sub_comm t b] at this
  have h2 : |a - m| + |b - m| = |a - b| := by
    rcases h with ⟨h, h'⟩ | ⟨h, h'⟩
    · rw [abs_of_nonpos (by linarith), abs_of_nonneg (by linarith), abs_of_nonpos (by linarith)]; ring
    · rw [abs_of_nonneg (by linarith), abs_of_nonpos (by linarith), abs_of_nonneg (by linarith)]; ring
  rw [h2]; exact h1

theorem sum_eq_fin (l : List K) (f : K → K) : (l.map f).sum = ∑ i : Fin l.length, f l[i] := by
  rw [← List.sum_ofFn]
  congr 1
  apply List.ext_getElem <;> simp

/-- C144: **the median minimises the sum of absolute deviations**: for the returned `m` and every
`t`, `Σ|xᵢ - m| ≤ Σ|xᵢ - t|`. -/
theorem C144_median_optimal (nth : NthImpl K) (qnan : K) (l : List K) (hl : l ≠ []) :
    ∃ m, medianInplace nth qnan (fun x => x / 2) l = .ok m ∧
      ∀ t, (l.map fun x => |x - m|).sum ≤ (l.map fun x => |x - t|).sum := by
  have h : 0 < l.length := List.length_pos_iff.mpr hl
  have key : ∀ m, (∀ i, (hi : i < l.length) → 2 * i + 1 ≤ l.length →
        orderStat l i hi ≤ m ∧ m ≤ orderStat l (l.length - 1 - i) (by omega)) →
      ∀ t, (l.map fun x => |x - m|).sum ≤ (l.map fun x => |x - t|).sum := by
    intro m hm t
    have hp := sorted_perm l
    have hn := sorted_length l
    rw [← (hp.map fun x => |x - m|).sum_eq, ← (hp.map fun x => |x - t|).sum_eq,
      sum_eq_fin, sum_eq_fin]
    have rev : ∀ f : K → K, ∑ i : Fin (sorted l).length, f (sorted l)[i]
        = ∑ i : Fin (sorted l).length, f (sorted l)[Fin.rev i] := fun f =>
      (Equiv.sum_comp Fin.revPerm (fun i : Fin (sorted l).length => f (sorted l)[i])).symm
    have dbl : ∀ f : K → K, 2 * ∑ i : Fin (sorted l).length, f (sorted l)[i]
        = ∑ i : Fin (sorted l).length, (f (sorted l)[i] + f (sorted l)[Fin.rev i]) := by
      intro f
      rw [Finset.sum_add_distrib, ← rev f]; ring
    have hle : ∑ i : Fin (sorted l).length, (|(sorted l)[i] - m| + |(sorted l)[Fin.rev i] - m|)
        ≤ ∑ i : Fin (sorted l).length, (|(sorted l)[i] - t| + |(sorted l)[Fin.rev i] - t|) := by
      apply Finset.sum_le_sum
      intro i _
      apply abs_pair_le
      have hi : i.val < l.length := by omega
      have hr : (Fin.rev i).val = l.length - 1 - i.val := by rw [Fin.val_rev]; omega
      by_cases h2 : 2 * i.val + 1 ≤ l.length
      · left
        have := hm i.val hi h2
        refine ⟨this.1, ?_⟩
        have e : (sorted l)[Fin.rev i] = orderStat l (l.length - 1 - i.val) (by omega) := by
          unfold orderStat; simp only [Fin.getElem_fin, hr]
        rw [e]; exact this.2
      · right
        have hk : l.length - 1 - i.val < l.length := by omega
        have := hm (l.length - 1 - i.val) hk (by omega)
        have e : (sorted l)[Fin.rev i] = orderStat l (l.length - 1 - i.val) (by omega) := by
          unfold orderStat; simp only [Fin.getElem_fin, hr]
        have e2 : (sorted l)[i] = orderStat l (l.length - 1 - (l.length - 1 - i.val)) (by omega) := by
          have : l.length - 1 - (l.length - 1 - i.val) = i.val := by omega
          unfold orderStat; simp only [Fin.getElem_fin, this]
        rw [e, e2]; exact this
    have d1 := dbl fun x => |x - m|
    have d2 := dbl fun x => |x - t|
    linarith
  rw [C16_median nth qnan l h]
  split_ifs with ho
  · refine ⟨_, rfl, key _ ?_⟩
    intro i hi h2
    exact ⟨orderStat_mono l (by omega) (by omega), orderStat_mono l (by omega) (by omega)⟩
  · refine ⟨_, rfl, key _ ?_⟩
    intro i hi h2
    have a1 := orderStat_mono l (by omega : i ≤ l.length / 2 - 1) (by omega)
    have a2 := orderStat_mono l (by omega : l.length / 2 - 1 ≤ l.length / 2) (by omega)
    have a3 := orderStat_mono l (by omega : l.length / 2 ≤ l.length - 1 - i) (by omega)
    constructor <;> linarith

theorem sumsq_shift (l : List K) (hl : l ≠ []) (t : K) :
    (l.map fun x => (x - t) ^ 2).sum
      = (l.map fun x => (x - meanL l) ^ 2).sum + (l.length : K) * (meanL l - t) ^ 2 := by
  have h0 : (l.length : K) ≠ 0 := by
    rw [Nat.cast_ne_zero]; exact (List.length_pos_iff.mpr hl).ne'
  have gen : ∀ (s : List K) (u : K), (s.map fun x => (x - u) ^ 2).sum
      = (s.map fun x => x ^ 2).sum - 2 * u * s.sum + (s.length : K) * u ^ 2 := by
    intro s u
    induction s with
    | nil => simp
    | cons a s ih => simp only [List.map_cons, List.sum_cons, ih, List.length_cons]; push_cast; ring
  rw [gen l t, gen l (meanL l)]
  have : l.sum = l.length * meanL l := by unfold meanL; field_simp
  rw [this]; ring

end optimal

section real

theorem var_real (x : List ℝ) (hx : x ≠ []) (hlen : x.length < 2 ^ 31) (ddof : ℤ)
    (hd : ddof < x.length) :
    varF ddof (x.map Ex.fin) (fun _ => true)
      = .ok (Ex.fin ((x.map fun t => (t - meanL x) ^ 2).sum / ((x.length : ℝ) - (ddof : ℝ))),
          x.length) := by
  unfold varF
  rw [C18_covariance ddof x x rfl hx hlen hd]
  unfold covL
  rw [covSum_zip x x rfl]
  have hz : ∀ (f : ℝ → ℝ → ℝ) (s : List ℝ), List.zipWith f s s = s.map fun a => f a a := by
    intro f s
    induction s with
    | nil => rfl
    | cons a s ih => rw [List.zipWith_cons_cons, ih, List.map_cons]
  rw [hz, List.length_zip, min_self]
  simp only [star_trivial, ← pow_two]

/-- C144: **the mean minimises the sum of squared deviations**, and the value at any `t` exceeds the
minimum by `n·(mean - t)²`; `n·var<0>` is the minimum. -/
theorem C144_mean_optimal (x : List ℝ) (hx : x ≠ []) (hlen : x.length < 2 ^ 31) :
    ∃ m v, mean (x.map Ex.fin) (fun _ => true) = Ex.fin m ∧
      varF 0 (x.map Ex.fin) (fun _ => true) = .ok (Ex.fin v, x.length) ∧
      ∀ t, (x.map fun a => (a - t) ^ 2).sum = x.length * v + x.length * (m - t) ^ 2 := by
  have hn := List.length_pos_iff.mpr hx
  have h0 : (x.length : ℝ) ≠ 0 := by rw [Nat.cast_ne_zero]; exact hn.ne'
  refine ⟨_, _, C15_mean _ _ x (by simp) hx hlen, var_real x hx hlen 0 (by exact_mod_cast hn), ?_⟩
  intro t
  rw [sumsq_shift x hx t, Int.cast_zero, sub_zero, mul_div_cancel₀ _ h0]
  rfl

theorem sum_sq_le (l : List ℝ) : l.sum ^ 2 ≤ l.length * (l.map fun a => a ^ 2).sum := by
  induction l with
  | nil => simp
  | cons a l ih =>
    simp only [List.sum_cons, List.map_cons, List.length_cons]
    push_cast
    have h1 : l.sum ^ 2 ≤ (l.length : ℝ) * (l.map fun a => a ^ 2).sum := ih
    have key : 2 * a * l.sum ≤ (l.length : ℝ) * a ^ 2 + (l.map fun a => a ^ 2).sum := by
      rcases Nat.eq_zero_or_pos l.length with h | h
      · rw [List.length_eq_zero_iff.mp h]; simp
      · have hp : (0 : ℝ) < l.length := by exact_mod_cast h
        have h2 : l.sum ^ 2 / l.length ≤ (l.map fun a => a ^ 2).sum := by
          rw [div_le_iff₀ hp]; linarith
        have h3 : 2 * a * l.sum ≤ (l.length : ℝ) * a ^ 2 + l.sum ^ 2 / l.length := by
          have : (l.length : ℝ) * a ^ 2 + l.sum ^ 2 / l.length - 2 * a * l.sum
              = (l.length * a - l.sum) ^ 2 / l.length := by field_simp; ring
          have h4 : 0 ≤ (l.length * a - l.sum) ^ 2 / (l.length : ℝ) := by positivity
          linarith
        linarith
    nlinarith

/-- C144: **the mean and the median are within one standard deviation of each other**. -/
theorem C144_mean_median (nth : NthImpl ℝ) (qnan : ℝ) (x : List ℝ) (hx : x ≠ [])
    (hlen : x.length < 2 ^ 31) :
    ∃ m v med, mean (x.map Ex.fin) (fun _ => true) = Ex.fin m ∧
      varF 0 (x.map Ex.fin) (fun _ => true) = .ok (Ex.fin v, x.length) ∧
      medianInplace nth qnan (fun x => x / 2) x = .ok med ∧ |m - med| ≤ Real.sqrt v := by
  have hn := List.length_pos_iff.mpr hx
  have hp : (0 : ℝ) < x.length := by exact_mod_cast hn
  obtain ⟨m, v, hm, hv, hopt⟩ := C144_mean_optimal x hx hlen
  obtain ⟨med, hmed, hmin⟩ := C144_median_optimal nth qnan x hx
  refine ⟨m, v, med, hm, hv, hmed, Real.abs_le_sqrt ?_⟩
  have hm' : m = meanL x := by
    have := C15_mean (x.map Ex.fin) (fun _ => true) x (by simp) hx hlen
    rw [hm] at this; injection this
  -- n |m - med| = |Σ (x - med)| ≤ Σ |x - med| ≤ Σ |x - m|, squared ≤ n Σ (x - m)² = n² v
  have e1 : (x.map fun a => a - med).sum = x.length * (m - med) := by
    have : (x.map fun a => a - med) = x.map fun a => 1 * a + (-med) := by
      apply List.map_congr_left; intro a _; ring
    rw [this, sum_affine, hm']; unfold meanL; field_simp; ring
  have e2 : |(x.map fun a => a - med).sum| ≤ (x.map fun a => |a - med|).sum := by
    generalize x = s
    induction s with
    | nil => simp
    | cons a s ih =>
      simp only [List.map_cons, List.sum_cons]
      exact (abs_add_le _ _).trans (by linarith)
  have e3 := sum_sq_le (x.map fun a => |a - m|)
  rw [List.map_map, List.length_map] at e3
  have e4 : (x.map ((fun a : ℝ => a ^ 2) ∘ fun a => |a - m|)).sum = x.length * v := by
    have := hopt m
    rw [sub_self] at this
    have e5 : (x.map ((fun a : ℝ => a ^ 2) ∘ fun a => |a - m|)) = x.map fun a => (a - m) ^ 2 := by
      apply List.map_congr_left; intro a _; simp [sq_abs]
    rw [e5, this]; ring
  rw [e4] at e3
  have e6 := hmin m
  have e7 : (x.length * (m - med)) ^ 2 ≤ (x.map fun a => |a - m|).sum ^ 2 := by
    rw [← e1]
    exact sq_le_sq.mpr (by
      rw [abs_of_nonneg (List.sum_nonneg (by simp) : 0 ≤ (x.map fun a => |a - m|).sum)]
      exact e2.trans e6)
  have e8 : (x.length : ℝ) ^ 2 * (m - med) ^ 2 ≤ (x.length : ℝ) ^ 2 * v := by nlinarith
  exact le_of_mul_le_mul_left e8 (by positivity)

/-- C144: **the variance is at most a quarter of the squared range** (`var<0>(x) ≤ ptp(x)²/4`). -/
theorem C144_var_ptp (qnan : ℝ) (x : List ℝ) (hx : x ≠ []) (hlen : x.length < 2 ^ 31) :
    ∃ v, varF 0 (x.map Ex.fin) (fun _ => true) = .ok (Ex.fin v, x.length) ∧
      v ≤ ptp qnan (fun a b : ℝ => decide (a < b)) x ^ 2 / 4 := by
  have hn := List.length_pos_iff.mpr hx
  have hp : (0 : ℝ) < x.length := by exact_mod_cast hn
  obtain ⟨m, v, hm, hv, hopt⟩ := C144_mean_optimal x hx hlen
  refine ⟨v, hv, ?_⟩
  obtain ⟨a1, a2, b1, b2, e, _⟩ := C14_amax_amin_ptp qnan x hx
  set M := amax qnan (fun a b : ℝ => decide (a < b)) x
  set N := amin qnan (fun a b : ℝ => decide (a < b)) x
  rw [e]
  have h1 := hopt ((M + N) / 2)
  have h2 : (x.map fun a => (a - (M + N) / 2) ^ 2).sum ≤ x.length * ((M - N) ^ 2 / 4) := by
    have := sum_le_of_le (x.map fun a => (a - (M + N) / 2) ^ 2) ((M - N) ^ 2 / 4) (by
      intro y hy
      obtain ⟨a, ha, rfl⟩ := List.mem_map.mp hy
      have u1 := a2 a ha
      have u2 := b2 a ha
      nlinarith [mul_nonneg (sub_nonneg.mpr u1) (sub_nonneg.mpr u2)])
    simpa using this
  have h3 : x.length * v ≤ x.length * ((M - N) ^ 2 / 4) := by
    have : 0 ≤ (x.length : ℝ) * (m - (M + N) / 2) ^ 2 := by positivity
    linarith
  exact le_of_mul_le_mul_left h3 hp

/-- C144: **Chebyshev**: at most `n·var/d²` samples are at a distance of `d > 0` or more from the
mean. -/
theorem C144_chebyshev (x : List ℝ) (hx : x ≠ []) (hlen : x.length < 2 ^ 31) (d : ℝ) (hd : 0 < d) :
    ∃ m v, mean (x.map Ex.fin) (fun _ => true) = Ex.fin m ∧
      varF 0 (x.map Ex.fin) (fun _ => true) = .ok (Ex.fin v, x.length) ∧
      ((x.countP fun a => decide (d ≤ |a - m|) : ℕ) : ℝ) * d ^ 2 ≤ x.length * v := by
  obtain ⟨m, v, hm, hv, hopt⟩ := C144_mean_optimal x hx hlen
  refine ⟨m, v, hm, hv, ?_⟩
  have h := hopt m
  rw [sub_self] at h
  have : (x.length : ℝ) * v = (x.map fun a => (a - m) ^ 2).sum := by rw [h]; ring
  rw [this]
  clear h this hopt hm hv
  generalize x = s
  induction s with
  | nil => simp
  | cons a s ih =>
    rw [List.countP_cons, List.map_cons, List.sum_cons]
    push_cast
    have hsq : d ≤ |a - m| → d ^ 2 ≤ (a - m) ^ 2 := by
      intro hh
      rw [← sq_abs (a - m)]
      exact pow_le_pow_left₀ hd.le hh 2
    by_cases hh : d ≤ |a - m|
    · simp only [hh, decide_true, if_true]
      have := hsq hh
      linarith
    · simp only [hh, decide_false]
      have : 0 ≤ (a - m) ^ 2 := sq_nonneg _
      simp only [Bool.false_eq_true, if_false, add_zero]
      linarith

/-- C144: **the standard deviation is subadditive**: `std(x + y) ≤ std(x) + std(y)`. -/
theorem C144_std_triangle (ddof : ℤ) (x y : List ℝ) (hl : x.length = y.length) (hx : x ≠ [])
    (hlen : x.length < 2 ^ 31) (hd : ddof < x.length) :
    ∃ u v w, varF ddof (x.map Ex.fin) (fun _ => true) = .ok (Ex.fin u, x.length) ∧
      varF ddof (y.map Ex.fin) (fun _ => true) = .ok (Ex.fin v, x.length) ∧
      varF ddof ((List.zipWith (· + ·) x y).map Ex.fin) (fun _ => true) = .ok (Ex.fin w, x.length) ∧
      Real.sqrt w ≤ Real.sqrt u + Real.sqrt v := by
  have hxl := List.length_pos_iff.mpr hx
  have hy : y ≠ [] := List.length_pos_iff.mp (by omega)
  have hz : (List.zipWith (· + ·) x y).length = x.length := by simp [hl]
  have hz0 : List.zipWith (· + ·) x y ≠ [] := List.length_pos_iff.mp (by omega)
  have hpos : (0 : ℝ) < (x.length : ℝ) - (ddof : ℝ) := by
    have : (ddof : ℝ) < ((x.length : ℤ) : ℝ) := by exact_mod_cast hd
    simp only [Int.cast_natCast] at this
    linarith
  refine ⟨(x.map fun t => (t - meanL x) ^ 2).sum / ((x.length : ℝ) - (ddof : ℝ)),
    (y.map fun t => (t - meanL y) ^ 2).sum / ((x.length : ℝ) - (ddof : ℝ)),
    ((List.zipWith (· + ·) x y).map fun t => (t - meanL (List.zipWith (· + ·) x y)) ^ 2).sum
      / ((x.length : ℝ) - (ddof : ℝ)), var_real x hx hlen ddof hd, ?_, ?_, ?_⟩
  · rw [var_real y hy (by omega) ddof (by omega), hl]
  · rw [var_real _ hz0 (by omega) ddof (by omega), hz]
  rw [Real.sqrt_div' _ hpos.le, Real.sqrt_div' _ hpos.le, Real.sqrt_div' _ hpos.le, ← add_div]
  refine div_le_div_of_nonneg_right ?_ (Real.sqrt_nonneg _)
  rw [meanL_add x y hl]
  generalize meanL x = a
  generalize meanL y = b
  clear hd hpos hz hz0 hxl hy hx hlen
  -- Minkowski for lists
  have cs : ∀ (A B a b : ℝ), 0 ≤ A → 0 ≤ B →
      Real.sqrt ((a + b) ^ 2 + (Real.sqrt A + Real.sqrt B) ^ 2)
        ≤ Real.sqrt (a ^ 2 + A) + Real.sqrt (b ^ 2 + B) := by
    intro A B a b hA hB
    have sA := Real.sq_sqrt hA
    have sB := Real.sq_sqrt hB
    have nA := Real.sqrt_nonneg A
    have nB := Real.sqrt_nonneg B
    set p := Real.sqrt A
    set q := Real.sqrt B
    rw [← sA, ← sB]
    apply Real.sqrt_le_iff.mpr
    refine ⟨by positivity, ?_⟩
    have h1 : Real.sqrt (a ^ 2 + p ^ 2) ^ 2 = a ^ 2 + p ^ 2 := Real.sq_sqrt (by positivity)
    have h2 : Real.sqrt (b ^ 2 + q ^ 2) ^ 2 = b ^ 2 + q ^ 2 := Real.sq_sqrt (by positivity)
    have h3 : a * b + p * q ≤ Real.sqrt (a ^ 2 + p ^ 2) * Real.sqrt (b ^ 2 + q ^ 2) := by
      have e : Real.sqrt (a ^ 2 + p ^ 2) * Real.sqrt (b ^ 2 + q ^ 2)
          = Real.sqrt ((a ^ 2 + p ^ 2) * (b ^ 2 + q ^ 2)) :=
        (Real.sqrt_mul (by positivity) _).symm
      rw [e]
      apply Real.le_sqrt_of_sq_le
      nlinarith [sq_nonneg (a * q - b * p)]
    nlinarith
  induction x generalizing y with
  | nil => cases y <;> simp_all
  | cons s x ih =>
    cases y with
    | nil => simp at hl
    | cons t y =>
      have h := ih y (by simpa using hl)
      simp only [List.zipWith_cons_cons, List.map_cons, List.sum_cons]
      have nA : 0 ≤ (x.map fun t => (t - a) ^ 2).sum := List.sum_nonneg (by
        intro z hz; obtain ⟨w, _, rfl⟩ := List.mem_map.mp hz; positivity)
      have nB : 0 ≤ (y.map fun t => (t - b) ^ 2).sum := List.sum_nonneg (by
        intro z hz; obtain ⟨w, _, rfl⟩ := List.mem_map.mp hz; positivity)
      have nC : 0 ≤ ((List.zipWith (· + ·) x y).map fun t => (t - (a + b)) ^ 2).sum :=
        List.sum_nonneg (by
          intro z hz; obtain ⟨w, _, rfl⟩ := List.mem_map.mp hz; positivity)
      refine le_trans (Real.sqrt_le_sqrt ?_) (cs _ _ (s - a) (t - b) nA nB)
      have h4 : ((List.zipWith (· + ·) x y).map fun t => (t - (a + b)) ^ 2).sum
          ≤ (Real.sqrt (x.map fun t => (t - a) ^ 2).sum
              + Real.sqrt (y.map fun t => (t - b) ^ 2).sum) ^ 2 := by
        rw [← Real.sq_sqrt nC]
        exact pow_le_pow_left₀ (Real.sqrt_nonneg _) h 2
      have h5 : s + t - (a + b) = s - a + (t - b) := by ring
      rw [h5]
      linarith

end real

-- the hypotheses can be met
example : ([3, 1, 4, 1, 5] : List ℚ) ≠ [] ∧ (0 : ℚ) ≤ 3 / 10 ∧ (3 / 10 : ℚ) ≤ 1 ∧
    quantileInplace (sortNth ℚ) 0 0 .linear [3, 1, 4, 1, 5] (3 / 10) = .ok (7 / 5) ∧
    quantileInplace (sortNth ℚ) 0 0 .linear ([3, 1, 4, 1, 5].map fun x : ℚ => (-2) * x + 1)
      (1 - 3 / 10) = .ok (-2 * (7 / 5) + 1) := by
  refine ⟨by decide, by norm_num, by norm_num, ?_, ?_⟩ <;> decide +kernel
example : ([1, 2, 4] : List ℝ) ≠ [] ∧ ([1, 2, 4] : List ℝ).length < 2 ^ 31 ∧
    (1 : ℤ) < (([1, 2, 4] : List ℝ).length : ℤ) ∧ (([1, 2, 4] : List ℝ).length = ([3, 5, 4] : List ℝ).length) := by
  refine ⟨by simp, by simp, by simp, by simp⟩

end SciCpp
