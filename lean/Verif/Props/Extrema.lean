import Verif.Props.Stats
/-
  C14, floating point: amin and ptp on arrays with infinities, and the exact role of NaN.
-/
namespace SciCpp

theorem minElement_fl (x : Fl) (xs : List Fl) (h : ∀ y ∈ x :: xs, y ≠ .nan) :
    minElement Fl.lt x xs ∈ x :: xs ∧ ∀ y ∈ x :: xs, Fl.le (minElement Fl.lt x xs) y = true := by
  induction xs generalizing x with
  | nil => simp only [minElement, List.mem_singleton, forall_eq, true_and]
           exact Fl.le_refl' (h x (by simp))
  | cons z xs ih =>
    rw [minElement]
    by_cases hlt : Fl.lt z x = true
    · rw [if_pos hlt]
      obtain ⟨h1, h2⟩ := ih z (fun y hy => h y (List.mem_cons_of_mem _ hy))
      refine ⟨List.mem_cons_of_mem _ h1, fun y hy => ?_⟩
      rcases List.mem_cons.mp hy with rfl | hy
      · exact Fl.le_trans' (h2 z (by simp)) (Fl.le_of_lt' hlt)
      · exact h2 y hy
    · rw [if_neg hlt]
      obtain ⟨h1, h2⟩ := ih x (fun y hy => h y (by
        rcases List.mem_cons.mp hy with rfl | hy
        · simp
        · exact List.mem_cons_of_mem _ (List.mem_cons_of_mem _ hy)))
      refine ⟨?_, fun y hy => ?_⟩
      · rcases List.mem_cons.mp h1 with h1 | h1
        · rw [h1]; simp
        · exact List.mem_cons_of_mem _ (List.mem_cons_of_mem _ h1)
      · rcases List.mem_cons.mp hy with rfl | hy
        · exact h2 _ (by simp)
        · rcases List.mem_cons.mp hy with rfl | hy
          · exact Fl.le_trans' (h2 x (by simp))
              (Fl.le_of_not_lt (h y (by simp)) (h x (by simp)) (by simpa using hlt))
          · exact h2 y (List.mem_cons_of_mem _ hy)

/-- C14: with infinities allowed: for every non-empty floating point array without NaN, `amin` is an
element and a lower bound (IEEE `<=`). -/
theorem C14_amin_float (l : List Fl) (h : l ≠ []) (hn : ∀ x ∈ l, x ≠ .nan) :
    amin .nan Fl.lt l ∈ l ∧ ∀ x ∈ l, Fl.le (amin .nan Fl.lt l) x = true := by
  rcases l with _ | ⟨x, xs⟩
  · exact absurd rfl h
  · exact minElement_fl x xs hn

theorem Fl.lt_nan_right (a : Fl) : Fl.lt a .nan = false := by
  cases a <;> simp [Fl.lt]

theorem Fl.lt_nan_left (a : Fl) : Fl.lt .nan a = false := by
  cases a <;> simp [Fl.lt]

/-- C14 (outside the stated domain), the exact role of NaN: a NaN in first position is the result of
`amax` and of `amin` whatever follows; NaNs in later positions are ignored, that is, the result is
that of the array without its NaNs. -/
theorem C14_nan_exact (x : Fl) (xs : List Fl) :
    (x = .nan → amax .nan Fl.lt (x :: xs) = .nan ∧ amin .nan Fl.lt (x :: xs) = .nan) ∧
    (x ≠ .nan →
      amax .nan Fl.lt (x :: xs) = amax .nan Fl.lt ((x :: xs).filter (· ≠ .nan)) ∧
      amin .nan Fl.lt (x :: xs) = amin .nan Fl.lt ((x :: xs).filter (· ≠ .nan))) := by
  constructor
  · rintro rfl
    constructor
    · show maxElement Fl.lt .nan xs = .nan
      induction xs with
      | nil => rfl
      | cons z zs ih => rw [maxElement, Fl.lt_nan_left]; exact ih
    · show minElement Fl.lt .nan xs = .nan
      induction xs with
      | nil => rfl
      | cons z zs ih => rw [minElement, Fl.lt_nan_right]; exact ih
  · intro hx
    rw [List.filter_cons_of_pos (by simpa using hx)]
    constructor
    · show maxElement Fl.lt x xs = maxElement Fl.lt x (xs.filter _)
      clear hx
      induction xs generalizing x with
      | nil => rfl
      | cons z zs ih =>
        by_cases hz : z = .nan
        · subst hz
          rw [maxElement, Fl.lt_nan_right, List.filter_cons_of_neg (by simp)]
          exact ih x
        · rw [List.filter_cons_of_pos (by simpa using hz), maxElement, maxElement]
          exact ih _
    · show minElement Fl.lt x xs = minElement Fl.lt x (xs.filter _)
      clear hx
      induction xs generalizing x with
      | nil => rfl
      | cons z zs ih =>
        by_cases hz : z = .nan
        · subst hz
          rw [minElement, Fl.lt_nan_left, List.filter_cons_of_neg (by simp)]
          exact ih x
        · rw [List.filter_cons_of_pos (by simpa using hz), minElement, minElement]
          exact ih _

example : amax .nan Fl.lt [.fin 1, .nan, .inf false, .fin (-2)] = .inf false ∧
    amin .nan Fl.lt [.fin 1, .nan, .inf false, .fin (-2)] = .fin (-2) := by decide +kernel

theorem maxElementLast_fl (x : Fl) (xs : List Fl) (h : ∀ y ∈ x :: xs, y ≠ .nan) :
    maxElementLast Fl.lt x xs ∈ x :: xs ∧
      ∀ y ∈ x :: xs, Fl.le y (maxElementLast Fl.lt x xs) = true := by
  induction xs generalizing x with
  | nil => simp only [maxElementLast, List.mem_singleton, forall_eq, true_and]
           exact Fl.le_refl' (h x (by simp))
  | cons z xs ih =>
    rw [maxElementLast]
    by_cases hlt : Fl.lt z x = true
    · rw [if_pos hlt]
      obtain ⟨h1, h2⟩ := ih x (fun y hy => h y (by
        rcases List.mem_cons.mp hy with rfl | hy
        · simp
        · exact List.mem_cons_of_mem _ (List.mem_cons_of_mem _ hy)))
      refine ⟨?_, fun y hy => ?_⟩
      · rcases List.mem_cons.mp h1 with h1 | h1
        · rw [h1]; simp
        · exact List.mem_cons_of_mem _ (List.mem_cons_of_mem _ h1)
      · rcases List.mem_cons.mp hy with rfl | hy
        · exact h2 _ (by simp)
        · rcases List.mem_cons.mp hy with rfl | hy
          · exact Fl.le_trans' (Fl.le_of_lt' hlt) (h2 x (by simp))
          · exact h2 y (List.mem_cons_of_mem _ hy)
    · rw [if_neg hlt]
      obtain ⟨h1, h2⟩ := ih z (fun y hy => h y (List.mem_cons_of_mem _ hy))
      refine ⟨List.mem_cons_of_mem _ h1, fun y hy => ?_⟩
      rcases List.mem_cons.mp hy with rfl | hy
      · exact Fl.le_trans' (Fl.le_of_not_lt (h z (by simp)) (h _ (by simp)) (by simpa using hlt))
          (h2 z (by simp))
      · exact h2 y hy

theorem Fl.le_antisymm' {a b : Fl} (h1 : Fl.le a b = true) (h2 : Fl.le b a = true) : a = b := by
  cases a with
  | nan => simp [Fl.le] at h1
  | inf n => cases b with
    | nan => simp [Fl.le] at h1
    | inf m => cases n <;> cases m <;> simp_all [Fl.le]
    | fin q => cases n <;> simp_all [Fl.le]
  | fin q => cases b with
    | nan => simp [Fl.le] at h1
    | inf m => cases m <;> simp_all [Fl.le]
    | fin r =>
      simp only [Fl.le, decide_eq_true_eq] at h1 h2
      rw [le_antisymm h1 h2]

/-- C14: `ptp` of a non-empty floating point array without NaN is the (rounded) difference of `amax`
and `amin`, for every subtraction. -/
theorem C14_ptp_float [Sub Fl] (l : List Fl) (hn : ∀ x ∈ l, x ≠ .nan) :
    l ≠ [] → ptp .nan Fl.lt l = amax .nan Fl.lt l - amin .nan Fl.lt l := by
  intro h
  rcases l with _ | ⟨x, xs⟩
  · exact absurd rfl h
  · obtain ⟨a1, a2⟩ := maxElement_fl x xs hn
    obtain ⟨c1, c2⟩ := maxElementLast_fl x xs hn
    have e : maxElementLast Fl.lt x xs = maxElement Fl.lt x xs := Fl.le_antisymm' (a2 _ c1) (c2 _ a1)
    simp only [ptp, amax, amin, e]

end SciCpp
