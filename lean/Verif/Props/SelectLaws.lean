import Verif.Props.Numeric
/-
  Property theorems C153: laws of selecting elements with filters, masks and indices, and of reductions with a filter.
-/
namespace SciCpp

set_option linter.unusedSectionVars false

variable {α : Type}

/-- **C153 (filters).**  Filtering twice is filtering with the conjunction, in either order; filtering a concatenation concatenates; the elements accepted by a filter
and by its negation are together the array. -/
theorem C153_filter (a b : List α) (p q : α → Bool) :
    filterArr (filterArr a p) q = filterArr a (fun x => p x && q x) ∧
    filterArr (filterArr a p) q = filterArr (filterArr a q) p ∧
    filterArr (a ++ b) p = filterArr a p ++ filterArr b p ∧
    (filterArr a p ++ filterArr a fun x => !p x).Perm a ∧
    filterArr a.reverse p = (filterArr a p).reverse := by
  simp only [filterArr_eq]
  refine ⟨?_, ?_, List.filter_append .., List.filter_append_perm p a, List.filter_reverse ..⟩
  · rw [List.filter_filter]
    congr 1; funext x; exact Bool.and_comm _ _
  · rw [List.filter_filter, List.filter_filter]
    congr 1; funext x; exact Bool.and_comm _ _

/-- **C153 (masks).**  The mask of the accepted elements selects what the filter selects. -/
theorem C153_mask_filter (a : List α) (p : α → Bool) : maskConst a (a.map p) = .ok (filterArr a p) ∧ maskRvalue a (a.map p) = .ok (filterArr a p) := by
  have h := (C06_mask_spec a (a.map p)).1 (by simp)
  have e : ((a.zip (a.map p)).filter (·.2)).map (·.1) = a.filter p := by
    induction a with
    | nil => rfl
    | cons x a ih =>
      have ih' := ih ((C06_mask_spec a (a.map p)).1 (by simp))
      rw [List.map_cons, List.zip_cons_cons, List.filter_cons, List.filter_cons]
      cases hp : p x
      · simpa using ih'
      · simpa using ih'
  rw [filterArr_eq, ← e]
  exact h

theorem mask_eq (a : List α) (m : List Bool) (h : a.length = m.length) : maskConst a m = .ok (((a.zip m).filter (·.2)).map (·.1)) :=
  ((C06_mask_spec a m).1 h).1

/-- **C153 (masks of masks).**  Masking an array and a second mask with the first and then combining them is masking with the conjunction. -/
theorem C153_mask_mask (a : List α) (m k : List Bool) (h1 : a.length = m.length) (h2 : m.length = k.length) :
    ∃ a' k', maskConst a m = .ok a' ∧ maskConst k m = .ok k' ∧ maskConst a' k' = maskConst a (List.zipWith (· && ·) m k) := by
  refine ⟨_, _, mask_eq a m h1, mask_eq k m h2.symm, ?_⟩
  have key : ∀ (a : List α) (m k : List Bool), a.length = m.length → m.length = k.length →
      (((a.zip m).filter (·.2)).map (·.1)).length = (((k.zip m).filter (·.2)).map (·.1)).length ∧
      ((((((a.zip m).filter (·.2)).map (·.1)).zip (((k.zip m).filter (·.2)).map (·.1))).filter (·.2)).map (·.1)) =
        ((a.zip (List.zipWith (· && ·) m k)).filter (·.2)).map (·.1) := by
    intro a
    induction a with
    | nil => intro m k h1 h2; obtain rfl : m = [] := List.length_eq_zero_iff.1 h1.symm; obtain rfl : k = [] := List.length_eq_zero_iff.1 h2.symm; simp
    | cons x a ih =>
      intro m k h1 h2
      cases m with
      | nil => simp at h1
      | cons b m =>
        cases k with
        | nil => simp at h2
        | cons c k =>
          obtain ⟨i1, i2⟩ := ih m k (by simpa using h1) (by simpa using h2)
          simp only [List.zip_cons_cons, List.zipWith_cons_cons, List.filter_cons]
          cases b
          · simpa using ⟨by simpa using i1, i2⟩
          · refine ⟨by simpa using i1, ?_⟩
            cases c
            · simpa using i2
            · simpa using i2
  obtain ⟨k1, k2⟩ := key a m k h1 h2
  rw [mask_eq _ _ k1, mask_eq _ _ (by rw [List.length_zipWith]; omega), k2]

/-- **C153 (indices).**  As many indices are found as elements are accepted, the elements at the indices are the accepted ones, and the indices of a concatenation are
those of the first array followed by those of the second moved by the length of the first. -/
theorem C153_argwhere (a b : List α) (p : α → Bool) :
    (argwhere a p).length = (filterArr a p).length ∧ (argwhere a p).filterMap (a[·]?) = filterArr a p ∧
      argwhere (a ++ b) p = argwhere a p ++ (argwhere b p).map (· + a.length) := by
  have gen : ∀ (l : List α) (i : ℕ) (res : List ℕ), argwhereLoop p i res l = res ++ (argwhereLoop p 0 [] l).map (· + i) := by
    intro l
    induction l with
    | nil => intro i res; simp [argwhereLoop]
    | cons x l ih =>
      intro i res
      rw [argwhereLoop, argwhereLoop, ih (i + 1), ih (0 + 1)]
      cases p x
      · simp only [Bool.false_eq_true, if_false, List.nil_append, List.map_map]
        congr 1
        apply List.map_congr_left
        intro j _
        simp only [Function.comp]; omega
      · simp only [if_true, List.nil_append, List.map_append, List.map_map, List.map_cons, List.map_nil, Nat.zero_add, List.append_assoc]
        congr 2
        apply List.map_congr_left
        intro j _
        simp only [Function.comp]; omega
  have happ : ∀ (l : List α) (i : ℕ) (res : List ℕ), argwhereLoop p i res (l ++ b) = argwhereLoop p (i + l.length) (argwhereLoop p i res l) b := by
    intro l
    induction l with
    | nil => intro i res; simp [argwhereLoop]
    | cons x l ih =>
      intro i res
      rw [List.cons_append, argwhereLoop, argwhereLoop, ih]
      congr 1
      rw [List.length_cons]; omega
  have hsel := (C07_argwhere_spec a p).2.2
  refine ⟨?_, hsel, ?_⟩
  · rw [← hsel, List.length_filterMap_eq_countP]
    symm
    rw [List.countP_eq_length]
    intro i hi
    obtain ⟨h, -⟩ := ((C07_argwhere_spec a p).2.1 i).1 hi
    simp [h]
  · unfold argwhere
    rw [happ, gen b, Nat.zero_add]

/-- **C153 (reductions).**  Reducing with a filter is reducing the filtered array; over a commutative operation the sums over a filter and over its negation add up to
the sum of all elements, and so do the numbers of elements. -/
theorem C153_sum [AddCommMonoid α] (integral : Bool) (a b : List α) (p q : α → Bool) :
    sumF integral a p = sumF integral (filterArr a p) (fun _ => true) ∧
    (sumF integral a p).1 + (sumF integral a fun x => !p x).1 = (sumF integral a fun _ => true).1 ∧
    (sumF integral a p).2 + (sumF integral a fun x => !p x).2 = a.length ∧
    sumF integral (filterArr a p) q = sumF integral a (fun x => p x && q x) ∧
    sumF integral (a ++ b) p = ((sumF integral a p).1 + (sumF integral b p).1, (sumF integral a p).2 + (sumF integral b p).2) := by
  simp only [C01_sum_eq, filterArr_eq]
  have hperm := List.filter_append_perm p a
  refine ⟨by simp, ?_, ?_, ?_, ?_⟩
  · rw [← List.sum_append, hperm.sum_eq]; simp
  · rw [← List.length_append, hperm.length_eq]
  · rw [List.filter_filter]
    have : (fun x => q x && p x) = fun x => p x && q x := by funext x; exact Bool.and_comm _ _
    rw [this]
  · rw [List.filter_append, List.sum_append, List.length_append]

/-- Not trivial: an array with accepted and rejected elements. -/
example : maskConst [3, 1, 4, 1, 5] ([3, 1, 4, 1, 5].map fun n : ℕ => decide (2 < n)) = .ok [3, 4, 5] := by
  rw [(C153_mask_filter [3, 1, 4, 1, 5] fun n : ℕ => decide (2 < n)).1]; decide

end SciCpp
