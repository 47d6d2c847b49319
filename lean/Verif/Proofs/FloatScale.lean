import Verif.Model.CppFloat
import Verif.Proofs.RFl
import Verif.Proofs.F64
import Verif.Proofs.Functional
import Mathlib.Tactic.Linarith
/-
  Signs and exact scale factors in rounded floating point arithmetic.
-/
namespace SciCpp

variable {rnd : ℚ → ℚ}

namespace RFl

/-- Multiplication by the exact factor `c` (no rounding). -/
def scale (c : ℚ) (x : RFl rnd) : RFl rnd :=
  match (x : Fl) with
  | .nan => nan
  | .inf s => inf (s != decide (c < 0))
  | .fin q => fin (c * q)

@[simp] theorem scale_nan (c : ℚ) : scale c (nan : RFl rnd) = nan := rfl
@[simp] theorem scale_inf (c : ℚ) (s : Bool) : scale c (inf s : RFl rnd) = inf (s != decide (c < 0)) := rfl
@[simp] theorem scale_fin (c q : ℚ) : scale c (fin q : RFl rnd) = fin (c * q) := rfl
theorem scale_zero (c : ℚ) : scale c (0 : RFl rnd) = 0 := by
  rw [zero_fin, scale_fin, mul_zero]
theorem scale_neg_one (x : RFl rnd) : scale (-1) x = -x := by
  rcases cases x with rfl | ⟨s, rfl⟩ | ⟨q, rfl⟩
  · rfl
  · cases s <;> rfl
  · rw [scale_fin, neg_fin, neg_one_mul]
theorem scale_one (x : RFl rnd) : scale 1 x = x := by
  rcases cases x with rfl | ⟨s, rfl⟩ | ⟨q, rfl⟩
  · rfl
  · cases s <;> rfl
  · rw [scale_fin, one_mul]

theorem nan_add (a : RFl rnd) : nan + a = nan := by
  rcases cases a with rfl | ⟨s, rfl⟩ | ⟨q, rfl⟩ <;> rfl
theorem add_nan (a : RFl rnd) : a + nan = nan := by
  rcases cases a with rfl | ⟨s, rfl⟩ | ⟨q, rfl⟩ <;> rfl
theorem nan_mul (a : RFl rnd) : nan * a = nan := by
  rcases cases a with rfl | ⟨s, rfl⟩ | ⟨q, rfl⟩ <;> rfl
theorem mul_nan (a : RFl rnd) : a * nan = nan := by
  rcases cases a with rfl | ⟨s, rfl⟩ | ⟨q, rfl⟩ <;> rfl
theorem div_nan (a : RFl rnd) : a / nan = nan := by
  rcases cases a with rfl | ⟨s, rfl⟩ | ⟨q, rfl⟩ <;> rfl
theorem inf_add_fin (s : Bool) (q : ℚ) : (inf s + fin q : RFl rnd) = inf s := rfl
theorem fin_add_inf (s : Bool) (q : ℚ) : (fin q + inf s : RFl rnd) = inf s := rfl
theorem inf_add_inf (s t : Bool) : (inf s + inf t : RFl rnd) = if s = t then inf s else nan := by
  cases s <;> cases t <;> rfl
theorem inf_sub_inf (s t : Bool) : (inf s - inf t : RFl rnd) = if s = t then nan else inf s := by
  cases s <;> cases t <;> rfl
theorem inf_mul_inf (s t : Bool) : (inf s * inf t : RFl rnd) = inf (s != t) := by
  cases s <;> cases t <;> rfl
theorem inf_mul_fin (s : Bool) (q : ℚ) :
    (inf s * fin q : RFl rnd) = if q = 0 then nan else inf (s != decide (q < 0)) := by
  show round rnd (Fl.mul (Fl.inf s) (Fl.fin q)) = _
  simp only [Fl.mul]; split_ifs <;> rfl
theorem fin_mul_inf (s : Bool) (q : ℚ) :
    (fin q * inf s : RFl rnd) = if q = 0 then nan else inf (s != decide (q < 0)) := by
  show round rnd (Fl.mul (Fl.fin q) (Fl.inf s)) = _
  simp only [Fl.mul]; split_ifs <;> rfl
theorem inf_div_inf (s t : Bool) : (inf s / inf t : RFl rnd) = nan := rfl
theorem fin_div_inf' (q : ℚ) (s : Bool) : (fin q / inf s : RFl rnd) = fin (rnd 0) := rfl
theorem inf_div_fin' (s : Bool) (q : ℚ) : (inf s / fin q : RFl rnd) = inf (s != decide (q < 0)) := rfl
theorem div_zero' (a : ℚ) : (fin a / fin 0 : RFl rnd) = if a = 0 then nan else inf (decide (a < 0)) := by
  show round rnd (Fl.div (Fl.fin a) (Fl.fin 0)) = _
  simp only [Fl.div, if_true]; split_ifs <;> rfl

section scale
variable {c d : ℚ}

theorem scale_add (hc : ∀ q, rnd (c * q) = c * rnd q) (x y : RFl rnd) :
    scale c (x + y) = scale c x + scale c y := by
  rcases cases x with rfl | ⟨s, rfl⟩ | ⟨q, rfl⟩ <;> rcases cases y with rfl | ⟨t, rfl⟩ | ⟨r, rfl⟩ <;>
    simp only [nan_add, add_nan, scale_nan, scale_inf, scale_fin, inf_add_fin, fin_add_inf, inf_add_inf, add_fin]
  · cases s <;> cases t <;> by_cases h : c < 0 <;> simp [h]
  · rw [← hc, mul_add]

theorem scale_sub (hc : ∀ q, rnd (c * q) = c * rnd q) (x y : RFl rnd) :
    scale c (x - y) = scale c x - scale c y := by
  rcases cases x with rfl | ⟨s, rfl⟩ | ⟨q, rfl⟩ <;> rcases cases y with rfl | ⟨t, rfl⟩ | ⟨r, rfl⟩ <;>
    simp only [nan_sub, sub_nan, scale_nan, scale_inf, scale_fin, inf_sub_fin, fin_sub_inf, inf_sub_inf, sub_fin]
  · cases s <;> cases t <;> by_cases h : c < 0 <;> simp [h]
  · cases t <;> cases (decide (c < 0)) <;> rfl
  · rw [← hc, mul_sub]

theorem neg_mul_decide (hd0 : d ≠ 0) {q : ℚ} (hq : q ≠ 0) :
    decide (d * q < 0) = (decide (d < 0) != decide (q < 0)) := by
  rcases lt_or_gt_of_ne hd0 with h | h <;> rcases lt_or_gt_of_ne hq with h' | h'
  · have := mul_pos_of_neg_of_neg h h'
    simp [h, h', not_lt.mpr this.le]
  · have := mul_neg_of_neg_of_pos h h'
    simp [h, not_lt.mpr h'.le, this]
  · have := mul_neg_of_pos_of_neg h h'
    simp [h', not_lt.mpr h.le, this]
  · have := mul_pos h h'
    simp [not_lt.mpr h.le, not_lt.mpr h'.le, not_lt.mpr this.le]

theorem scale_mul (hc0 : c ≠ 0) (hd0 : d ≠ 0) (hc : ∀ q, rnd (c * q) = c * rnd q)
    (hd : ∀ q, rnd (d * q) = d * rnd q) (x y : RFl rnd) :
    scale (c * d) (x * y) = scale c x * scale d y := by
  have hcd : decide (c * d < 0) = (decide (c < 0) != decide (d < 0)) := neg_mul_decide hc0 hd0
  rcases cases x with rfl | ⟨s, rfl⟩ | ⟨q, rfl⟩ <;> rcases cases y with rfl | ⟨t, rfl⟩ | ⟨r, rfl⟩ <;>
    simp only [nan_mul, mul_nan, scale_nan, scale_inf, scale_fin, inf_mul_fin, fin_mul_inf, inf_mul_inf, mul_fin,
      hcd, mul_eq_zero, hc0, hd0, false_or]
  · cases s <;> cases t <;> cases (decide (c < 0)) <;> cases (decide (d < 0)) <;> rfl
  · split_ifs with h
    · rfl
    · rw [scale_inf, neg_mul_decide hd0 h, hcd]
      cases s <;> cases (decide (c < 0)) <;> cases (decide (d < 0)) <;> cases (decide (r < 0)) <;> rfl
  · split_ifs with h
    · rfl
    · rw [scale_inf, neg_mul_decide hc0 h, hcd]
      cases t <;> cases (decide (c < 0)) <;> cases (decide (d < 0)) <;> cases (decide (q < 0)) <;> rfl
  · rw [show c * q * (d * r) = c * (d * (q * r)) by ring, hc, hd]; congr 1; ring

theorem scale_div (hc0 : c ≠ 0) (hc : ∀ q, rnd (c * q) = c * rnd q) (x y : RFl rnd) :
    scale c (x / y) = scale c x / y := by
  rcases cases x with rfl | ⟨s, rfl⟩ | ⟨q, rfl⟩
  · simp only [nan_div, scale_nan]
  · rcases cases y with rfl | ⟨t, rfl⟩ | ⟨r, rfl⟩
    · simp only [div_nan, scale_nan]
    · rfl
    · simp only [inf_div_fin', scale_inf]
      cases s <;> cases (decide (c < 0)) <;> cases (decide (r < 0)) <;> rfl
  · rcases cases y with rfl | ⟨t, rfl⟩ | ⟨r, rfl⟩
    · simp only [div_nan, scale_nan]
    · simp only [fin_div_inf', scale_fin]
      have := hc 0; rw [mul_zero] at this; rw [← this]
    · by_cases h : r = 0
      · subst h
        simp only [scale_fin, div_zero', mul_eq_zero, hc0, false_or]
        split_ifs with h'
        · rfl
        · rw [scale_inf, neg_mul_decide hc0 h']
          cases (decide (c < 0)) <;> cases (decide (q < 0)) <;> rfl
      · simp only [div_fin h, scale_fin, ← hc, mul_div_assoc]

end scale

/-! ### non-negative values -/

/-- NaN or `≥ 0`. -/
def NN (x : RFl rnd) : Prop := lt x 0 = false

theorem NN_iff (x : RFl rnd) : NN x ↔ x = nan ∨ x = inf false ∨ ∃ q, 0 ≤ q ∧ x = fin q := by
  unfold NN
  rw [zero_fin]
  rcases cases x with rfl | ⟨s, rfl⟩ | ⟨q, rfl⟩
  · simp
  · cases s
    · simp
    · simp only [inf_lt_fin, Bool.true_eq_false, inf_ne_nan, false_or, inf_ne_fin, and_false, exists_false, or_false, false_iff]
      intro h
      have : (Fl.inf true) = Fl.inf false := h
      simp at this
  · simp only [lt_fin, decide_eq_false_iff_not, not_lt, fin_ne_nan, fin_ne_inf, false_or, fin_inj]
    constructor
    · intro h; exact ⟨q, h, rfl⟩
    · rintro ⟨r, h, rfl⟩; exact h

theorem NN_nan : NN (nan : RFl rnd) := (NN_iff _).mpr (Or.inl rfl)
theorem NN_inf : NN (inf false : RFl rnd) := (NN_iff _).mpr (Or.inr (Or.inl rfl))
theorem NN_fin {q : ℚ} (h : 0 ≤ q) : NN (fin q : RFl rnd) := (NN_iff _).mpr (Or.inr (Or.inr ⟨q, h, rfl⟩))
theorem NN_zero : NN (0 : RFl rnd) := NN_fin le_rfl

theorem NN_add (h0 : ∀ q, 0 ≤ q → 0 ≤ rnd q) {x y : RFl rnd} (hx : NN x) (hy : NN y) : NN (x + y) := by
  rcases (NN_iff x).mp hx with rfl | rfl | ⟨q, hq, rfl⟩
  · rw [nan_add]; exact NN_nan
  · rcases (NN_iff y).mp hy with rfl | rfl | ⟨r, hr, rfl⟩
    · rw [add_nan]; exact NN_nan
    · rw [inf_add_inf, if_pos rfl]; exact NN_inf
    · rw [inf_add_fin]; exact NN_inf
  · rcases (NN_iff y).mp hy with rfl | rfl | ⟨r, hr, rfl⟩
    · rw [add_nan]; exact NN_nan
    · rw [fin_add_inf]; exact NN_inf
    · rw [add_fin]; exact NN_fin (h0 _ (by linarith))

theorem NN_mul (h0 : ∀ q, 0 ≤ q → 0 ≤ rnd q) {x y : RFl rnd} (hx : NN x) (hy : NN y) : NN (x * y) := by
  rcases (NN_iff x).mp hx with rfl | rfl | ⟨q, hq, rfl⟩
  · rw [nan_mul]; exact NN_nan
  · rcases (NN_iff y).mp hy with rfl | rfl | ⟨r, hr, rfl⟩
    · rw [mul_nan]; exact NN_nan
    · rw [inf_mul_inf]; exact NN_inf
    · rw [inf_mul_fin]; split_ifs
      · exact NN_nan
      · rw [decide_eq_false (not_lt.mpr hr)]; exact NN_inf
  · rcases (NN_iff y).mp hy with rfl | rfl | ⟨r, hr, rfl⟩
    · rw [mul_nan]; exact NN_nan
    · rw [fin_mul_inf]; split_ifs
      · exact NN_nan
      · rw [decide_eq_false (not_lt.mpr hq)]; exact NN_inf
    · rw [mul_fin]; exact NN_fin (h0 _ (mul_nonneg hq hr))

theorem NN_div (h0 : ∀ q, 0 ≤ q → 0 ≤ rnd q) {x y : RFl rnd} (hx : NN x) (hy : NN y) : NN (x / y) := by
  rcases (NN_iff x).mp hx with rfl | rfl | ⟨q, hq, rfl⟩
  · rw [nan_div]; exact NN_nan
  · rcases (NN_iff y).mp hy with rfl | rfl | ⟨r, hr, rfl⟩
    · rw [div_nan]; exact NN_nan
    · exact NN_nan
    · rw [inf_div_fin', decide_eq_false (not_lt.mpr hr)]; exact NN_inf
  · rcases (NN_iff y).mp hy with rfl | rfl | ⟨r, hr, rfl⟩
    · rw [div_nan]; exact NN_nan
    · exact NN_fin (h0 _ le_rfl)
    · by_cases h : r = 0
      · subst h; rw [div_zero']; split_ifs
        · exact NN_nan
        · rw [decide_eq_false (not_lt.mpr hq)]; exact NN_inf
      · rw [div_fin h]; exact NN_fin (h0 _ (div_nonneg hq hr))

/-- `w * d * d` (in this order) is NaN or non-negative when `w` is. -/
theorem NN_mul_sq (h0 : ∀ q, 0 ≤ q → 0 ≤ rnd q) (h1 : ∀ q, q ≤ 0 → rnd q ≤ 0) {w : RFl rnd} (hw : NN w)
    (d : RFl rnd) : NN (w * d * d) := by
  rcases cases d with rfl | ⟨s, rfl⟩ | ⟨r, rfl⟩
  · rw [mul_nan]; exact NN_nan
  · rcases (NN_iff w).mp hw with rfl | rfl | ⟨q, hq, rfl⟩
    · rw [nan_mul, nan_mul]; exact NN_nan
    · rw [inf_mul_inf, inf_mul_inf]; cases s <;> exact NN_inf
    · rw [fin_mul_inf]; split_ifs
      · rw [nan_mul]; exact NN_nan
      · rw [decide_eq_false (not_lt.mpr hq), inf_mul_inf]; cases s <;> exact NN_inf
  · rcases (NN_iff w).mp hw with rfl | rfl | ⟨q, hq, rfl⟩
    · rw [nan_mul, nan_mul]; exact NN_nan
    · rw [inf_mul_fin]; split_ifs with h
      · rw [nan_mul]; exact NN_nan
      · rw [inf_mul_fin, if_neg h]
        have : ((false != decide (r < 0)) != decide (r < 0)) = false := by cases (decide (r < 0)) <;> rfl
        rw [this]; exact NN_inf
    · rw [mul_fin, mul_fin]
      apply NN_fin
      apply h0
      rcases le_total 0 r with hr | hr
      · exact mul_nonneg (h0 _ (mul_nonneg hq hr)) hr
      · exact mul_nonneg_of_nonpos_of_nonpos (h1 _ (mul_nonpos_of_nonneg_of_nonpos hq hr)) hr

/-- `d * d` is NaN or non-negative. -/
theorem NN_sq (h0 : ∀ q, 0 ≤ q → 0 ≤ rnd q) (d : RFl rnd) : NN (d * d) := by
  rcases cases d with rfl | ⟨s, rfl⟩ | ⟨r, rfl⟩
  · rw [mul_nan]; exact NN_nan
  · rw [inf_mul_inf]; cases s <;> exact NN_inf
  · rw [mul_fin]; exact NN_fin (h0 _ (mul_self_nonneg r))

theorem mul_comm' (x y : RFl rnd) : x * y = y * x := by
  rcases cases x with rfl | ⟨s, rfl⟩ | ⟨q, rfl⟩ <;> rcases cases y with rfl | ⟨t, rfl⟩ | ⟨r, rfl⟩ <;>
    simp only [nan_mul, mul_nan, inf_mul_fin, fin_mul_inf, inf_mul_inf, mul_fin]
  · cases s <;> cases t <;> rfl
  · rw [mul_comm]

end RFl

/-- Apply a function to a successful result. -/
def Res.map {α β : Type*} (f : α → β) : Res α → Res β
  | .ok x => .ok (f x)
  | .ub => .ub

/-! ### relational reasoning about the blocked reductions -/

theorem pairwiseAcc_rel {α β γ δ : Type*} (B : ℕ) [NeZero B] (R : α → β → Prop) (S : γ → δ → Prop)
    (acc : List α → γ) (acc' : List β → δ) (comb : γ → γ → γ) (comb' : δ → δ → δ)
    (hacc : ∀ l m, List.Forall₂ R l m → S (acc l) (acc' m))
    (hcomb : ∀ a b c d, S a b → S c d → S (comb a c) (comb' b d))
    (l : List α) (m : List β) (h : List.Forall₂ R l m) :
    S (pairwiseAcc B acc comb l) (pairwiseAcc B acc' comb' m) := by
  induction hn : l.length using Nat.strong_induction_on generalizing l m with
  | _ n ih =>
    subst hn
    have hl := h.length_eq
    unfold pairwiseAcc
    rw [← hl]
    split
    · exact hacc l m h
    · rename_i hc
      have hB := Nat.pos_of_ne_zero (NeZero.ne B)
      have ht := List.forall₂_take (l.length / 2) h
      have hd := List.forall₂_drop (l.length / 2) h
      exact hcomb _ _ _ _ (ih _ (by simp; omega) _ _ ht rfl) (ih _ (by simp; omega) _ _ hd rfl)

theorem sumF_rel {α β : Type*} [Add α] [Zero α] [Add β] [Zero β] (R : α → β → Prop) (h0 : R 0 0)
    (hadd : ∀ a b c d, R a b → R c d → R (a + c) (b + d)) (p : α → Bool) (p' : β → Bool)
    (hp : ∀ a b, R a b → p a = p' b) (i : Bool) (l : List α) (m : List β) (h : List.Forall₂ R l m) :
    R (sumF i l p).1 (sumF i m p').1 ∧ (sumF i l p).2 = (sumF i m p').2 := by
  have hblock : ∀ l m, List.Forall₂ R l m →
      R (filterReduce l (· + ·) 0 p).1 (filterReduce m (· + ·) 0 p').1 ∧
        (filterReduce l (· + ·) 0 p).2 = (filterReduce m (· + ·) 0 p').2 := by
    intro l m h
    rw [filterReduce_eq, filterReduce_eq]
    have hf : List.Forall₂ R (l.filter p) (m.filter p') := by
      induction h with
      | nil => exact List.Forall₂.nil
      | cons hab _ ih =>
        rw [List.filter_cons, List.filter_cons, hp _ _ hab]
        split_ifs
        · exact List.Forall₂.cons hab ih
        · exact ih
    refine ⟨?_, hf.length_eq⟩
    suffices h : ∀ (a : α) (b : β), R a b → R ((l.filter p).foldl (· + ·) a) ((m.filter p').foldl (· + ·) b) from
      h 0 0 h0
    generalize l.filter p = l1 at hf
    generalize m.filter p' = m1 at hf
    induction hf with
    | nil => intro a b hab; exact hab
    | cons hxy _ ih => intro a b hab; exact ih _ _ (hadd _ _ _ _ hab hxy)
  unfold sumF filterReduceAssoc
  split_ifs
  · exact hblock l m h
  · exact pairwiseAcc_rel pwBlock R (fun (a : α × ℕ) (b : β × ℕ) => R a.1 b.1 ∧ a.2 = b.2) _ _ _ _ hblock
      (fun a b c d h1 h2 => ⟨hadd _ _ _ _ h1.1 h2.1, by simp only [h1.2, h2.2]⟩) l m h

/-- The count returned by the filtered reductions, whatever the arithmetic. -/
theorem sumF_count {α : Type*} [Add α] [Zero α] (i : Bool) (l : List α) (p : α → Bool) :
    (sumF i l p).2 = (l.filter p).length := by
  unfold sumF filterReduceAssoc
  split_ifs
  · rw [filterReduce_eq]
  · induction hn : l.length using Nat.strong_induction_on generalizing l with
    | _ n ih =>
      subst hn
      unfold pairwiseAcc
      split
      · rw [filterReduce_eq]
      · rename_i hc
        simp only [pwBlock, not_le] at hc
        simp only [ih _ (show (l.take (l.length / 2)).length < l.length by simp; omega) _ rfl,
          ih _ (show (l.drop (l.length / 2)).length < l.length by simp; omega) _ rfl]
        rw [← List.length_append, ← List.filter_append, List.take_append_drop]

end SciCpp
