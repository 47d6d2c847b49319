import Verif.Model.F64
/-
  Computation rules of `RFl rnd` on its three kinds of values.
-/
namespace SciCpp.RFl

variable {rnd : ℚ → ℚ}

/-- Case analysis. -/
theorem cases (a : RFl rnd) : a = nan ∨ (∃ s, a = inf s) ∨ ∃ q, a = fin q := by
  rcases a with _ | s | q
  · exact Or.inl rfl
  · exact Or.inr (Or.inl ⟨s, rfl⟩)
  · exact Or.inr (Or.inr ⟨q, rfl⟩)

theorem fin_inj {a b : ℚ} : (fin a : RFl rnd) = fin b ↔ a = b := Fl.fin.injEq a b ▸ Iff.rfl
@[simp] theorem fin_ne_nan (a : ℚ) : (fin a : RFl rnd) ≠ nan := fun h => Fl.noConfusion h
@[simp] theorem inf_ne_nan (s : Bool) : (inf s : RFl rnd) ≠ nan := fun h => Fl.noConfusion h
@[simp] theorem fin_ne_inf (a : ℚ) (s : Bool) : (fin a : RFl rnd) ≠ inf s := fun h => Fl.noConfusion h
@[simp] theorem inf_ne_fin (a : ℚ) (s : Bool) : (inf s : RFl rnd) ≠ fin a := fun h => Fl.noConfusion h
@[simp] theorem nan_ne_fin (a : ℚ) : (nan : RFl rnd) ≠ fin a := fun h => Fl.noConfusion h
@[simp] theorem nan_ne_inf (s : Bool) : (nan : RFl rnd) ≠ inf s := fun h => Fl.noConfusion h

@[simp] theorem add_fin (a b : ℚ) : (fin a + fin b : RFl rnd) = fin (rnd (a + b)) := rfl
@[simp] theorem sub_fin (a b : ℚ) : (fin a - fin b : RFl rnd) = fin (rnd (a - b)) := by
  show round rnd (Fl.fin (a + -b)) = _
  rw [← sub_eq_add_neg]; rfl
@[simp] theorem mul_fin (a b : ℚ) : (fin a * fin b : RFl rnd) = fin (rnd (a * b)) := rfl
theorem div_fin {a b : ℚ} (h : b ≠ 0) : (fin a / fin b : RFl rnd) = fin (rnd (a / b)) := by
  show round rnd (Fl.div (Fl.fin a) (Fl.fin b)) = _
  simp only [Fl.div, h, round, fin, if_false]
  rfl
@[simp] theorem neg_fin (a : ℚ) : (-fin a : RFl rnd) = fin (-a) := rfl
theorem natCast_fin (n : ℕ) : ((n : ℕ) : RFl rnd) = fin (rnd n) := rfl
theorem zero_fin : (0 : RFl rnd) = fin 0 := rfl
theorem one_fin : (1 : RFl rnd) = fin 1 := rfl

@[simp] theorem sub_nan (a : RFl rnd) : a - nan = nan := by
  rcases cases a with rfl | ⟨s, rfl⟩ | ⟨q, rfl⟩ <;> rfl
@[simp] theorem nan_sub (a : RFl rnd) : nan - a = nan := by
  rcases cases a with rfl | ⟨s, rfl⟩ | ⟨q, rfl⟩ <;> rfl
@[simp] theorem nan_div (a : RFl rnd) : nan / a = nan := by
  rcases cases a with rfl | ⟨s, rfl⟩ | ⟨q, rfl⟩ <;> rfl
@[simp] theorem inf_sub_fin (s : Bool) (q : ℚ) : (inf s - fin q : RFl rnd) = inf s := rfl
@[simp] theorem fin_sub_inf (s : Bool) (q : ℚ) : (fin q - inf s : RFl rnd) = inf (!s) := rfl
theorem inf_div_pos (s : Bool) {q : ℚ} (h : 0 < q) : (inf s / fin q : RFl rnd) = inf s := by
  show round rnd (Fl.div (Fl.inf s) (Fl.fin q)) = _
  simp only [Fl.div, not_lt.mpr h.le, decide_false, Bool.bne_false]
  rfl
theorem mul_inf_pos (s : Bool) {q : ℚ} (h : 0 < q) : (fin q * inf s : RFl rnd) = inf s := by
  show round rnd (Fl.mul (Fl.fin q) (Fl.inf s)) = _
  simp only [Fl.mul, h.ne', not_lt.mpr h.le, decide_false, Bool.bne_false, if_false]
  rfl

@[simp] theorem lt_fin (a b : ℚ) : lt (fin a : RFl rnd) (fin b) = decide (a < b) := rfl
@[simp] theorem le_fin (a b : ℚ) : le (fin a : RFl rnd) (fin b) = decide (a ≤ b) := rfl
@[simp] theorem eqv_fin (a b : ℚ) : eqv (fin a : RFl rnd) (fin b) = decide (a = b) := rfl
@[simp] theorem lt_nan (a : RFl rnd) : lt a nan = false := by
  rcases cases a with rfl | ⟨s, rfl⟩ | ⟨q, rfl⟩ <;> (try cases s) <;> rfl
@[simp] theorem nan_lt (a : RFl rnd) : lt nan a = false := by
  rcases cases a with rfl | ⟨s, rfl⟩ | ⟨q, rfl⟩ <;> rfl
@[simp] theorem le_nan (a : RFl rnd) : le a nan = false := by
  rcases cases a with rfl | ⟨s, rfl⟩ | ⟨q, rfl⟩ <;> (try cases s) <;> rfl
@[simp] theorem nan_le (a : RFl rnd) : le nan a = false := by
  rcases cases a with rfl | ⟨s, rfl⟩ | ⟨q, rfl⟩ <;> rfl
@[simp] theorem inf_lt_fin (s : Bool) (a : ℚ) : lt (inf s : RFl rnd) (fin a) = s := by
  cases s <;> rfl
@[simp] theorem fin_lt_inf (s : Bool) (a : ℚ) : lt (fin a : RFl rnd) (inf s) = !s := by
  cases s <;> rfl
@[simp] theorem inf_le_fin (s : Bool) (a : ℚ) : le (inf s : RFl rnd) (fin a) = s := by
  cases s <;> rfl
@[simp] theorem fin_le_inf (s : Bool) (a : ℚ) : le (fin a : RFl rnd) (inf s) = !s := by
  cases s <;> rfl
@[simp] theorem inf_lt_inf (s t : Bool) : lt (inf s : RFl rnd) (inf t) = (s && !t) := by
  cases s <;> cases t <;> rfl
@[simp] theorem inf_le_inf (s t : Bool) : le (inf s : RFl rnd) (inf t) = (s || !t) := by
  cases s <;> cases t <;> rfl
@[simp] theorem isNan_fin (a : ℚ) : isNan (fin a : RFl rnd) = false := rfl
@[simp] theorem isNan_inf (s : Bool) : isNan (inf s : RFl rnd) = false := rfl
@[simp] theorem isNan_nan : isNan (nan : RFl rnd) = true := rfl
@[simp] theorem isInf_fin (a : ℚ) : isInf (fin a : RFl rnd) = false := rfl
@[simp] theorem isInf_inf (s : Bool) : isInf (inf s : RFl rnd) = true := rfl
@[simp] theorem isInf_nan : isInf (nan : RFl rnd) = false := rfl
@[simp] theorem isZero_fin (a : ℚ) : isZero (fin a : RFl rnd) = decide (a = 0) := rfl
@[simp] theorem isZero_inf (s : Bool) : isZero (inf s : RFl rnd) = false := rfl
@[simp] theorem isZero_nan : isZero (nan : RFl rnd) = false := rfl
@[simp] theorem signbit_inf (s : Bool) : signbit (inf s : RFl rnd) = s := rfl
@[simp] theorem abs_fin (a : ℚ) : abs (fin a : RFl rnd) = fin |a| := rfl
@[simp] theorem abs_inf (s : Bool) : abs (inf s : RFl rnd) = inf false := rfl
@[simp] theorem abs_nan : abs (nan : RFl rnd) = nan := rfl
@[simp] theorem max_fin (a b : ℚ) : max (fin a : RFl rnd) (fin b) = fin (Max.max a b) := by
  simp only [max, lt_fin, decide_eq_true_eq]
  split_ifs with h
  · rw [max_eq_right h.le]
  · rw [max_eq_left (not_lt.mp h)]
theorem fma_fin (a b c : ℚ) : fma (fin a : RFl rnd) (fin b) (fin c) = fin (rnd (a * b + c)) := rfl

end SciCpp.RFl
