import Verif.Model.Numeric
import Verif.Model.Fl
import Mathlib.Algebra.BigOperators.Group.List.Basic
/-
  Helper lemmas about scicpp/core/functional.hpp and numeric.hpp models.
-/
namespace SciCpp

variable {α : Type*} {β : Type*} {γ : Type*}

theorem filterReduceLoop_eq (op : β → α → β) (p : α → Bool) (acc : β) (cnt : ℕ) (l : List α) :
    filterReduceLoop op p acc cnt l
      = ((l.filter p).foldl op acc, cnt + (l.filter p).length) := by
  induction l generalizing acc cnt with
  | nil => simp [filterReduceLoop]
  | cons x xs ih =>
    by_cases h : p x
    · simp [filterReduceLoop, h, ih]; omega
    · simp [filterReduceLoop, h, ih]

theorem filterReduce_eq (l : List α) (op : β → α → β) (init : β) (p : α → Bool) :
    filterReduce l op init p = ((l.filter p).foldl op init, (l.filter p).length) := by
  simp [filterReduce, filterReduceLoop_eq]

theorem pairwiseAcc_hom (B : ℕ) [NeZero B] (accop : List α → β) (comb : β → β → β)
    (h : ∀ l₁ l₂, accop (l₁ ++ l₂) = comb (accop l₁) (accop l₂)) (l : List α) :
    pairwiseAcc B accop comb l = accop l := by
  induction hn : l.length using Nat.strong_induction_on generalizing l with
  | _ n ih =>
    unfold pairwiseAcc
    split
    · rfl
    · have hB := Nat.pos_of_ne_zero (NeZero.ne B)
      rw [ih _ _ _ rfl, ih _ _ _ rfl, ← h, List.take_append_drop] <;>
        simp <;> omega

theorem pairwiseAcc2_hom (B : ℕ) [NeZero B] (accop : List α → List β → Res γ) (comb : γ → γ → γ)
    (f : List α → List β → γ)
    (hf : ∀ l1 l2, l1.length = l2.length → accop l1 l2 = .ok (f l1 l2))
    (h : ∀ a b c d, a.length = c.length → b.length = d.length →
      f (a ++ b) (c ++ d) = comb (f a c) (f b d))
    (l1 : List α) (l2 : List β) (hl : l1.length = l2.length) :
    pairwiseAcc2 B accop comb l1 l2 = .ok (f l1 l2) := by
  induction hn : l1.length using Nat.strong_induction_on generalizing l1 l2 with
  | _ n ih =>
    unfold pairwiseAcc2
    have hB := Nat.pos_of_ne_zero (NeZero.ne B)
    split
    · contradiction
    · split
      · exact hf _ _ hl
      · rw [ih _ _ _ _ _ rfl, ih _ _ _ _ _ rfl]
        · simp only [Res.bind_ok, Res.pure_eq]
          rw [← h, List.take_append_drop, List.take_append_drop]
          · simp [hl]
          · simp [hl]
        all_goals simp
        all_goals omega

theorem foldl_assoc_id {op : α → α → α} {e : α} (hassoc : ∀ a b c, op (op a b) c = op a (op b c))
    (hid : ∀ a, op e a = a) (hid' : ∀ a, op a e = a) (l : List α) (x : α) :
    l.foldl op x = op x (l.foldl op e) := by
  induction l generalizing x with
  | nil => simp [hid']
  | cons y ys ih => simp only [List.foldl_cons]; rw [ih, ih (op e y), hid, hassoc]

theorem filterReduceAssoc_eq (integral : Bool) (l : List α) {op : α → α → α} (p : α → Bool) {e : α}
    (hassoc : ∀ a b c, op (op a b) c = op a (op b c))
    (hid : ∀ a, op e a = a) (hid' : ∀ a, op a e = a) :
    filterReduceAssoc integral l op p e = ((l.filter p).foldl op e, (l.filter p).length) := by
  unfold filterReduceAssoc
  split
  · exact filterReduce_eq ..
  · rw [pairwiseAcc_hom]
    · exact filterReduce_eq ..
    · intro a b
      simp only [filterReduce_eq, List.filter_append, List.foldl_append, List.length_append]
      rw [foldl_assoc_id hassoc hid hid']

theorem transform2_eq (op : α → β → γ) (a : List α) (b : List β) (h : a.length = b.length) :
    transform2 op a b = .ok (List.zipWith op a b) := by
  induction a generalizing b with
  | nil => simp [transform2]
  | cons x xs ih =>
    cases b with
    | nil => simp at h
    | cons y ys => simp at h; simp [transform2, ih ys h]

theorem map2_eq (op : α → β → γ) (a : List α) (b : List β) (h : a.length = b.length) :
    map2 op a b = .ok (List.zipWith op a b) := by simp [map2, h, transform2_eq]

theorem removeIfLoop_eq (p : α → Bool) (done l : List α) :
    removeIfLoop p done l = done ++ l.filter p := by
  induction l generalizing done with
  | nil => simp [removeIfLoop]
  | cons x xs ih => by_cases h : p x <;> simp [removeIfLoop, h, ih]

theorem filterArr_eq (a : List α) (p : α → Bool) : filterArr a p = a.filter p := by
  simp [filterArr, removeIfLoop_eq]

theorem innerLoop_eq [AddMonoid γ] (op : α → β → γ) (res : γ) (a : List α) (b : List β)
    (h : a.length = b.length) :
    innerLoop op res a b = .ok (res + (List.zipWith op a b).sum) := by
  induction a generalizing b res with
  | nil => cases b <;> simp_all [innerLoop]
  | cons x xs ih =>
    cases b with
    | nil => simp at h
    | cons y ys => simp at h; simp [innerLoop, ih _ ys h, add_assoc]

theorem innerOp_eq [AddMonoid γ] (op : α → β → γ) (a : List α) (b : List β)
    (h : a.length = b.length) : innerOp op a b = .ok (List.zipWith op a b).sum := by
  unfold innerOp
  refine pairwiseAcc2_hom pwBlock _ _ (fun a b => (List.zipWith op a b).sum) ?_ ?_ a b h
  · intro l1 l2 hl; simp [innerLoop_eq op 0 l1 l2 hl]
  · intro a b c d h1 _; simp [List.zipWith_append h1]

theorem innerOp_ub [Add γ] [Zero γ] (op : α → β → γ) (a : List α) (b : List β)
    (h : a.length ≠ b.length) : innerOp op a b = .ub := by
  unfold innerOp pairwiseAcc2; simp [h]

end SciCpp
