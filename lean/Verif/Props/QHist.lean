import Verif.Props.QAlmost
/-
  C102: histories of in-place updates of a quantity.
-/
namespace SciCpp

open Spec

namespace Spec

/-- What an update means for a physical amount `A` measured in a unit of `s` base units with zero point `o`:
the amount afterwards. `x += y` adds `y` units, `x *= k` multiplies the distance from the zero point. -/
noncomputable def amountAfter (s o A : ℝ) : QUpd ℝ → ℝ
  | .add v => A + s * v
  | .sub v => A - s * v
  | .mul k => o + k * (A - o)
  | .div k => o + (A - o) / k
  | .preInc => A + s
  | .postInc => A + s
  | .preDec => A - s
  | .postDec => A - s

/-- The amount that the expression itself has: the old one for the postfix operators, the new one otherwise. -/
noncomputable def amountOf (s o A : ℝ) : QUpd ℝ → ℝ
  | .postInc => A
  | .postDec => A
  | u => amountAfter s o A u

/-- A history of amounts. -/
noncomputable def amountHistory (s o : ℝ) : ℝ → List (QUpd ℝ) → ℝ × List ℝ
  | A, [] => (A, [])
  | A, u :: us => ((amountHistory s o (amountAfter s o A u) us).1,
      amountOf s o A u :: (amountHistory s o (amountAfter s o A u) us).2)

/-- No division by zero. -/
def Safe : QUpd ℝ → Prop
  | .div k => k ≠ 0
  | _ => True

/-- The update that undoes another one. -/
def undo {K : Type} : QUpd K → QUpd K
  | .add v => .sub v
  | .sub v => .add v
  | .mul k => .div k
  | .div k => .mul k
  | .preInc => .preDec
  | .postInc => .postDec
  | .preDec => .preInc
  | .postDec => .postInc

/-- Can be undone: no multiplication or division by zero. -/
def Undoable : QUpd ℝ → Prop
  | .mul k => k ≠ 0
  | .div k => k ≠ 0
  | _ => True

/-- The update with an exact number as operand. -/
def exact : QUpd ℝ → QUpd (Ex ℝ)
  | .add v => .add (.fin v)
  | .sub v => .sub (.fin v)
  | .mul k => .mul (.fin k)
  | .div k => .div (.fin k)
  | .preInc => .preInc
  | .postInc => .postInc
  | .preDec => .preDec
  | .postDec => .postDec

end Spec

open Classical in
/-- One exact update. -/
theorem qUpd_exact (t : QTy) (x : ℝ) (u : QUpd ℝ) (hu : Spec.Safe u) :
    ∃ y z : ℝ, qUpd (⟨t, .fin x⟩ : Qty (Ex ℝ)) (exact u) = (⟨t, .fin y⟩, ⟨t, .fin z⟩) ∧
      (⟨t, y⟩ : Qty ℝ).denote = amountAfter t.scal.val t.off (⟨t, x⟩ : Qty ℝ).denote u ∧
      (⟨t, z⟩ : Qty ℝ).denote = amountOf t.scal.val t.off (⟨t, x⟩ : Qty ℝ).denote u := by
  have d : ∀ w : ℝ, (⟨t, w⟩ : Qty ℝ).denote = t.scal.val * w + (t.off : ℝ) := fun w => rfl
  simp only [d]
  cases u with
  | add v => exact ⟨x + v, x + v, rfl, by simp only [amountAfter]; ring, by simp only [amountOf, amountAfter]; ring⟩
  | sub v => exact ⟨x - v, x - v, rfl, by simp only [amountAfter]; ring, by simp only [amountOf, amountAfter]; ring⟩
  | mul v => exact ⟨x * v, x * v, rfl, by simp only [amountAfter]; ring, by simp only [amountOf, amountAfter]; ring⟩
  | div v =>
    refine ⟨x / v, x / v, ?_, by simp only [amountAfter]; ring, by simp only [amountOf, amountAfter]; ring⟩
    simp only [qUpd, exact, Ex.fin_div hu]
  | preInc => exact ⟨x + 1, x + 1, rfl, by simp only [amountAfter]; ring, by simp only [amountOf, amountAfter]; ring⟩
  | postInc => exact ⟨x + 1, x, rfl, by simp only [amountAfter]; ring, by simp only [amountOf]⟩
  | preDec => exact ⟨x - 1, x - 1, rfl, by simp only [amountAfter]; ring, by simp only [amountOf, amountAfter]; ring⟩
  | postDec => exact ⟨x - 1, x, rfl, by simp only [amountAfter]; ring, by simp only [amountOf]⟩

open Classical in
/-- C102: after any history of in-place updates of a quantity (without division by zero, in exact arithmetic) the
quantity still has its unit and denotes the amount obtained by performing the updates on amounts, and every
expression of the history returned the amount it should: the new one, or the old one for `x++` and `x--`. -/
theorem C102_history (t : QTy) (us : List (QUpd ℝ)) (hus : ∀ u ∈ us, Spec.Safe u) (x : ℝ) :
    ∃ (y : ℝ) (zs : List ℝ),
      qHistory (⟨t, .fin x⟩ : Qty (Ex ℝ)) (us.map exact) = (⟨t, .fin y⟩, zs.map fun z => ⟨t, .fin z⟩) ∧
      amountHistory t.scal.val t.off (⟨t, x⟩ : Qty ℝ).denote us =
        ((⟨t, y⟩ : Qty ℝ).denote, zs.map fun z => (⟨t, z⟩ : Qty ℝ).denote) := by
  induction us generalizing x with
  | nil => exact ⟨x, [], rfl, rfl⟩
  | cons u us ih =>
    obtain ⟨y, z, h1, h2, h3⟩ := qUpd_exact t x u (hus u (by simp))
    obtain ⟨y', zs, h4, h5⟩ := ih (fun v hv => hus v (by simp [hv])) y
    refine ⟨y', z :: zs, ?_, ?_⟩
    · simp only [List.map_cons, qHistory, h1, h4]
    · simp only [amountHistory, ← h2, ← h3, h5, List.map_cons]

theorem qHistory_append {K : Type} [CppNum K] (q : Qty K) (us vs : List (QUpd K)) :
    (qHistory q (us ++ vs)).1 = (qHistory (qHistory q us).1 vs).1 := by
  induction us generalizing q with
  | nil => rfl
  | cons u us ih => exact ih _

theorem exact_undo (u : QUpd ℝ) : exact (undo u) = undo (exact u) := by cases u <;> rfl

open Classical in
/-- C102: a history followed by the inverse updates in reverse order restores the quantity (exact arithmetic, no
multiplication or division by zero). -/
theorem C102_undo (t : QTy) (us : List (QUpd ℝ)) (hus : ∀ u ∈ us, Undoable u) (x : ℝ) :
    (qHistory (⟨t, .fin x⟩ : Qty (Ex ℝ)) ((us ++ (us.map undo).reverse).map exact)).1 = ⟨t, .fin x⟩ := by
  induction us generalizing x with
  | nil => rfl
  | cons u us ih =>
    have e : ((u :: us) ++ ((u :: us).map undo).reverse).map exact =
        exact u :: ((us ++ (us.map undo).reverse).map exact ++ [exact (undo u)]) := by
      simp [List.map_append]
    rw [e]
    have hu := hus u (by simp)
    have key : ∀ y : ℝ, (qUpd (⟨t, .fin x⟩ : Qty (Ex ℝ)) (exact u)).1 = ⟨t, .fin y⟩ →
        (qUpd (⟨t, .fin y⟩ : Qty (Ex ℝ)) (exact (undo u))).1 = ⟨t, .fin x⟩ →
        (qHistory (⟨t, .fin x⟩ : Qty (Ex ℝ)) (exact u :: ((us ++ (us.map undo).reverse).map exact ++ [exact (undo u)]))).1
          = ⟨t, .fin x⟩ := by
      intro y h1 h2
      show (qHistory (qUpd (⟨t, .fin x⟩ : Qty (Ex ℝ)) (exact u)).1 _).1 = _
      rw [h1, qHistory_append, ih (fun v hv => hus v (by simp [hv])) y]
      exact h2
    cases u with
    | add v => exact key (x + v) rfl (by simp [qUpd, exact, undo])
    | sub v => exact key (x - v) rfl (by simp [qUpd, exact, undo])
    | mul v =>
      refine key (x * v) rfl ?_
      simp only [qUpd, exact, undo, Ex.fin_div hu]
      rw [mul_div_cancel_right₀ _ hu]
    | div v =>
      refine key (x / v) ?_ ?_
      · simp only [qUpd, exact, Ex.fin_div hu]
      · simp only [qUpd, exact, undo, Ex.fin_mul]
        rw [div_mul_cancel₀ _ hu]
    | preInc => exact key (x + 1) rfl (by simp [qUpd, exact, undo])
    | postInc => exact key (x + 1) rfl (by simp [qUpd, exact, undo])
    | preDec => exact key (x - 1) rfl (by simp [qUpd, exact, undo])
    | postDec => exact key (x - 1) rfl (by simp [qUpd, exact, undo])

/-- C102: `a += b` and `a -= b` leave the same quantity (unit and value) as `a + b` and `a - b`, for every
representation type, values that are infinite or NaN included. -/
theorem C102_add_agrees {K : Type} [CppNum K] (lt eqv : K → K → Bool) (fuel : ℕ) (t : QTy) (ht : t.scal.Valid)
    (hr : t.scal.root = 1) (x y : K) :
    qfAdd lt eqv fuel (⟨t, x⟩ : Qty K) ⟨t, y⟩ = .ok (qUpd ⟨t, x⟩ (.add y)).1 ∧
    qfSub lt eqv fuel (⟨t, x⟩ : Qty K) ⟨t, y⟩ = .ok (qUpd ⟨t, x⟩ (.sub y)).1 := by
  have e : commonUnit t t = t := by
    rcases t with ⟨d, ⟨n, m, r⟩, o⟩
    simp only at hr
    subst hr
    simp [commonUnit]
  have c : commonQuantity t t = .ok t := by rw [commonQuantity_plain t t ht ht hr hr rfl, e]
  constructor
  · simp [qfAdd, c, qfConv, Res.pure_eq, qUpd]
  · simp [qfSub, c, qfConv, Res.pure_eq, qUpd]

/-- C102: in `double`, counting with `++` from zero is exact up to `2^53` and then stays there for ever. -/
theorem C102_count (t : QTy) (n : ℕ) :
    (qHistory (⟨t, RFl.fin 0⟩ : Qty F64) (List.replicate n .preInc)).1 = ⟨t, RFl.fin (min n (2 ^ 53) : ℕ)⟩ := by
  have step : ∀ m : ℕ, rnd64 ((min m (2 ^ 53) : ℕ) + 1) = (min (m + 1) (2 ^ 53) : ℕ) := by
    intro m
    by_cases h : m + 1 < 2 ^ 53
    · rw [min_eq_left (by omega), min_eq_left (by omega)]
      have := rnd64_nat (m + 1) h
      exact_mod_cast this
    · by_cases h' : m + 1 = 2 ^ 53
      · rw [min_eq_left (by omega), min_eq_left (by omega), ← Nat.cast_one, ← Nat.cast_add, h']
        decide +kernel
      · rw [min_eq_right (by omega), min_eq_right (by omega)]
        decide +kernel
  have gen : ∀ (n m : ℕ), (qHistory (⟨t, RFl.fin (min m (2 ^ 53) : ℕ)⟩ : Qty F64) (List.replicate n .preInc)).1 =
      ⟨t, RFl.fin (min (m + n) (2 ^ 53) : ℕ)⟩ := by
    intro n
    induction n with
    | zero => intro m; rfl
    | succ n ih =>
      intro m
      rw [List.replicate_succ]
      show (qHistory (⟨t, RFl.fin (min m (2 ^ 53) : ℕ) + 1⟩ : Qty F64) _).1 = _
      have e : (RFl.fin (min m (2 ^ 53) : ℕ) + 1 : F64) = RFl.fin ((min (m + 1) (2 ^ 53) : ℕ) : ℚ) := by
        rw [RFl.one_fin, RFl.add_fin, step]
      rw [e, ih (m + 1), show m + 1 + n = m + (n + 1) from by omega]
  have := gen n 0
  simpa using this

/-- C102 (undoing) is false of `double`: after `x += 1e16; x -= 1e16;` one metre has become zero metres, and
`x /= k; x *= k` does not always restore one metre (`k = 49`). -/
theorem C102_undo_false (t : QTy) :
    (qHistory (⟨t, RFl.fin 1⟩ : Qty F64) [.add (RFl.fin (10 ^ 16)), .sub (RFl.fin (10 ^ 16))]).1 = ⟨t, RFl.fin 0⟩ ∧
    ∃ k : ℕ, k < 200 ∧
      (qHistory (⟨t, RFl.fin 1⟩ : Qty F64) [.div (RFl.fin k), .mul (RFl.fin k)]).1 ≠ ⟨t, RFl.fin 1⟩ := by
  constructor
  · show (⟨t, RFl.fin 1 + RFl.fin (10 ^ 16) - RFl.fin (10 ^ 16)⟩ : Qty F64) = _
    have : (RFl.fin 1 + RFl.fin (10 ^ 16) - RFl.fin (10 ^ 16) : F64) = RFl.fin 0 := by decide +kernel
    rw [this]
  · refine ⟨49, by norm_num, ?_⟩
    show (⟨t, RFl.fin 1 / RFl.fin (49 : ℕ) * RFl.fin (49 : ℕ)⟩ : Qty F64) ≠ _
    intro h
    have : (RFl.fin 1 / RFl.fin (49 : ℕ) * RFl.fin (49 : ℕ) : F64) ≠ RFl.fin 1 := by decide +kernel
    exact this (congrArg Qty.val h)

end SciCpp
