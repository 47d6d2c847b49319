import Verif.Model.Stats
import Verif.Spec.OrderStat
import Mathlib.Tactic.Linarith
/-
  max/min element loops and the consequences of the `nth_element` contract.
-/
namespace SciCpp

open Spec

variable {α : Type*} [LinearOrder α]

theorem sorted_pairwise (l : List α) : (sorted l).Pairwise (· ≤ ·) :=
  List.pairwise_insertionSort (· ≤ ·) l

theorem sorted_perm (l : List α) : (sorted l).Perm l := List.perm_insertionSort (· ≤ ·) l

theorem sorted_length (l : List α) : (sorted l).length = l.length := (sorted_perm l).length_eq

theorem sorted_eq_of_perm {l l' : List α} (h : l.Perm l') : sorted l = sorted l' := by
  apply List.Perm.eq_of_pairwise (le := (· ≤ ·)) _ (sorted_pairwise l) (sorted_pairwise l')
  · exact ((sorted_perm l).trans h).trans (sorted_perm l').symm
  · intro a b _ _ h1 h2; exact le_antisymm h1 h2

theorem maxElement_spec (x : α) (xs : List α) :
    maxElement (fun a b => decide (a < b)) x xs ∈ x :: xs ∧
    ∀ y ∈ x :: xs, y ≤ maxElement (fun a b => decide (a < b)) x xs := by
  induction xs generalizing x with
  | nil => simp [maxElement]
  | cons z xs ih =>
    rw [maxElement]
    by_cases h : x < z
    · simp only [h, decide_true, if_true]
      obtain ⟨h1, h2⟩ := ih z
      refine ⟨List.mem_cons_of_mem _ h1, fun y hy => ?_⟩
      rcases List.mem_cons.mp hy with rfl | hy
      · exact le_trans (le_of_lt h) (h2 z (by simp))
      · exact h2 y hy
    · simp only [h, decide_false, Bool.false_eq_true, if_false]
      obtain ⟨h1, h2⟩ := ih x
      refine ⟨?_, fun y hy => ?_⟩
      · rcases List.mem_cons.mp h1 with h1 | h1
        · rw [h1]; simp
        · exact List.mem_cons_of_mem _ (List.mem_cons_of_mem _ h1)
      · rcases List.mem_cons.mp hy with rfl | hy
        · exact h2 _ (by simp)
        · rcases List.mem_cons.mp hy with rfl | hy
          · exact le_trans (not_lt.mp h) (h2 x (by simp))
          · exact h2 y (List.mem_cons_of_mem _ hy)

theorem minElement_spec (x : α) (xs : List α) :
    minElement (fun a b => decide (a < b)) x xs ∈ x :: xs ∧
    ∀ y ∈ x :: xs, minElement (fun a b => decide (a < b)) x xs ≤ y := by
  induction xs generalizing x with
  | nil => simp [minElement]
  | cons z xs ih =>
    rw [minElement]
    by_cases h : z < x
    · simp only [h, decide_true, if_true]
      obtain ⟨h1, h2⟩ := ih z
      refine ⟨List.mem_cons_of_mem _ h1, fun y hy => ?_⟩
      rcases List.mem_cons.mp hy with rfl | hy
      · exact le_trans (h2 z (by simp)) (le_of_lt h)
      · exact h2 y hy
    · simp only [h, decide_false, Bool.false_eq_true, if_false]
      obtain ⟨h1, h2⟩ := ih x
      refine ⟨?_, fun y hy => ?_⟩
      · rcases List.mem_cons.mp h1 with h1 | h1
        · rw [h1]; simp
        · exact List.mem_cons_of_mem _ (List.mem_cons_of_mem _ h1)
      · rcases List.mem_cons.mp hy with rfl | hy
        · exact h2 _ (by simp)
        · rcases List.mem_cons.mp hy with rfl | hy
          · exact le_trans (h2 x (by simp)) (not_lt.mp h)
          · exact h2 y (List.mem_cons_of_mem _ hy)

theorem maxElementLast_spec (x : α) (xs : List α) :
    maxElementLast (fun a b => decide (a < b)) x xs ∈ x :: xs ∧
    ∀ y ∈ x :: xs, y ≤ maxElementLast (fun a b => decide (a < b)) x xs := by
  induction xs generalizing x with
  | nil => simp [maxElementLast]
  | cons z xs ih =>
    rw [maxElementLast]
    by_cases h : z < x
    · simp only [h, decide_true, if_true]
      obtain ⟨h1, h2⟩ := ih x
      refine ⟨?_, fun y hy => ?_⟩
      · rcases List.mem_cons.mp h1 with h1 | h1
        · rw [h1]; simp
        · exact List.mem_cons_of_mem _ (List.mem_cons_of_mem _ h1)
      · rcases List.mem_cons.mp hy with rfl | hy
        · exact h2 _ (by simp)
        · rcases List.mem_cons.mp hy with rfl | hy
          · exact le_trans (le_of_lt h) (h2 x (by simp))
          · exact h2 y (List.mem_cons_of_mem _ hy)
    · simp only [h, decide_false, Bool.false_eq_true, if_false]
      obtain ⟨h1, h2⟩ := ih z
      refine ⟨List.mem_cons_of_mem _ h1, fun y hy => ?_⟩
      rcases List.mem_cons.mp hy with rfl | hy
      · exact le_trans (not_lt.mp h) (h2 z (by simp))
      · exact h2 y hy

/-- After `nth_element` the fully sorted range is the sorted left part, the pivot, the sorted right
part. -/
theorem sorted_of_nth {n : ℕ} {l v : List α} (h : NthElement n l v) (hn : n < l.length) :
    ∃ hv : n < v.length, sorted l = sorted (v.take n) ++ v[n] :: sorted (v.drop (n + 1)) := by
  have hlen : v.length = l.length := h.perm.length_eq
  have hv : n < v.length := by omega
  refine ⟨hv, ?_⟩
  apply List.Perm.eq_of_pairwise (le := (· ≤ ·)) _ (sorted_pairwise l)
  · rw [List.pairwise_append]
    refine ⟨sorted_pairwise _, ?_, ?_⟩
    · rw [List.pairwise_cons]
      refine ⟨fun b hb => ?_, sorted_pairwise _⟩
      have hb' := (sorted_perm _).mem_iff.mp hb
      obtain ⟨i, hi, rfl⟩ := List.mem_iff_getElem.mp hb'
      simp only [List.getElem_drop]
      exact h.after _ (by simp at hi; omega) (by omega)
    · intro a ha b hb
      have ha' := (sorted_perm _).mem_iff.mp ha
      obtain ⟨i, hi, rfl⟩ := List.mem_iff_getElem.mp ha'
      simp only [List.getElem_take]
      have hi' : i < n := by simp at hi; omega
      have h1 := h.before i hi' hv
      rcases List.mem_cons.mp hb with rfl | hb
      · exact h1
      · have hb' := (sorted_perm _).mem_iff.mp hb
        obtain ⟨j, hj, rfl⟩ := List.mem_iff_getElem.mp hb'
        simp only [List.getElem_drop]
        exact le_trans h1 (h.after _ (by simp at hj; omega) (by omega))
  · refine (sorted_perm l).trans (h.perm.symm.trans ?_)
    have e : v = v.take n ++ v[n] :: v.drop (n + 1) := by
      rw [← List.drop_eq_getElem_cons hv, List.take_append_drop]
    conv_lhs => rw [e]
    exact List.Perm.append (sorted_perm _).symm (List.Perm.cons _ (sorted_perm _).symm)
  · intro a b _ _ h1 h2; exact le_antisymm h1 h2

/-- Position `n` after `nth_element` holds the `n`-th order statistic. -/
theorem nth_eq {n : ℕ} {l v : List α} (h : NthElement n l v) (hn : n < l.length) :
    rd v n = .ok (orderStat l n hn) := by
  obtain ⟨hv, e⟩ := sorted_of_nth h hn
  rw [rd_nat v n hv]
  congr 1
  unfold orderStat
  have hl : (sorted (v.take n)).length = n := by rw [sorted_length]; simp; omega
  simp only [e]
  rw [List.getElem_append_right (by omega)]
  simp [hl]

/-- The maximum of the elements before position `n` is the `(n-1)`-th order statistic. -/
theorem max_before {n : ℕ} {l v : List α} (h : NthElement n l v) (hn : n < l.length) (h1 : 1 ≤ n) :
    ∃ x xs, v.take n = x :: xs ∧
      maxElement (fun a b => decide (a < b)) x xs = orderStat l (n - 1) (by omega) := by
  obtain ⟨hv, e⟩ := sorted_of_nth h hn
  have hl : (sorted (v.take n)).length = n := by rw [sorted_length]; simp; omega
  have hlt : n - 1 < (sorted (v.take n)).length := by rw [hl]; omega
  have hos : orderStat l (n - 1) (by omega) = (sorted (v.take n))[n - 1] := by
    unfold orderStat
    simp only [e]
    rw [List.getElem_append_left hlt]
  rcases ht : v.take n with _ | ⟨x, xs⟩
  · have := congrArg List.length ht; rw [List.length_take, List.length_nil] at this; omega
  · refine ⟨x, xs, rfl, ?_⟩
    rw [hos]
    obtain ⟨g1, g2⟩ := maxElement_spec x xs
    rw [← ht] at g1 g2
    apply le_antisymm
    · -- the max is a member of the sorted list, so it is ≤ the last one
      obtain ⟨i, hi, hx⟩ := List.mem_iff_getElem.mp ((sorted_perm (v.take n)).mem_iff.mpr g1)
      rw [← hx]
      by_cases hc : i = n - 1
      · subst hc; exact le_refl _
      · exact List.pairwise_iff_getElem.mp (sorted_pairwise (v.take n)) i (n - 1) hi hlt (by omega)
    · exact g2 _ ((sorted_perm (v.take n)).mem_iff.mp (List.getElem_mem hlt))

theorem orderStat_mem (l : List α) (k : ℕ) (h : k < l.length) : orderStat l k h ∈ l :=
  (sorted_perm l).mem_iff.mp (List.getElem_mem _)

theorem orderStat_mono (l : List α) {i j : ℕ} (h : i ≤ j) (hj : j < l.length) :
    orderStat l i (by omega) ≤ orderStat l j hj := by
  rcases Nat.eq_or_lt_of_le h with rfl | h
  · exact le_refl _
  · exact List.pairwise_iff_getElem.mp (sorted_pairwise l) i j _ _ h

theorem orderStat_zero_le (l : List α) (h : 0 < l.length) (x : α) (hx : x ∈ l) :
    orderStat l 0 h ≤ x := by
  obtain ⟨i, hi, rfl⟩ := List.mem_iff_getElem.mp ((sorted_perm l).mem_iff.mpr hx)
  have hi' : i < l.length := by rw [← sorted_length]; exact hi
  exact orderStat_mono l (Nat.zero_le i) hi'

theorem le_orderStat_last (l : List α) (h : 0 < l.length) (x : α) (hx : x ∈ l) :
    x ≤ orderStat l (l.length - 1) (by omega) := by
  obtain ⟨i, hi, rfl⟩ := List.mem_iff_getElem.mp ((sorted_perm l).mem_iff.mpr hx)
  have hi' : i < l.length := by rw [← sorted_length]; exact hi
  exact orderStat_mono l (by omega : i ≤ l.length - 1) (by omega)

theorem orderStat_perm {l l' : List α} (hp : l.Perm l') (k : ℕ) (h : k < l.length) :
    orderStat l k h = orderStat l' k (by rw [← hp.length_eq]; exact h) := by
  unfold orderStat
  simp only [sorted_eq_of_perm hp]

/-- The contract is satisfiable: sorting implements `nth_element`. -/
def sortNth (α : Type*) [LinearOrder α] : NthImpl α where
  run _ l := sorted l
  correct n l :=
    { perm := sorted_perm l
      before := fun i hi hn => List.pairwise_iff_getElem.mp (sorted_pairwise l) i n _ hn hi
      after := fun i hi hn => List.pairwise_iff_getElem.mp (sorted_pairwise l) n i _ hi hn }

end SciCpp
