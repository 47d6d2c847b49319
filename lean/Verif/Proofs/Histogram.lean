import Verif.Model.Histogram
import Verif.Proofs.RFl
import Mathlib.Tactic.Linarith
import Mathlib.Algebra.BigOperators.Group.List.Basic
/-
  Supporting lemmas for the histogram theorems.
-/
namespace SciCpp

variable {rnd : ℚ → ℚ}

theorem RFl.le_of_not_lt {a b : RFl rnd} (ha : a ≠ RFl.nan) (hb : b ≠ RFl.nan)
    (h : RFl.lt b a = false) : RFl.le a b = true := by
  rcases RFl.cases a with rfl | ⟨s, rfl⟩ | ⟨x, rfl⟩
  · exact absurd rfl ha
  · rcases RFl.cases b with rfl | ⟨t, rfl⟩ | ⟨y, rfl⟩
    · exact absurd rfl hb
    · cases s <;> cases t <;> simp_all
    · cases s <;> simp_all
  · rcases RFl.cases b with rfl | ⟨t, rfl⟩ | ⟨y, rfl⟩
    · exact absurd rfl hb
    · cases t <;> simp_all
    · simp_all

theorem RFl.not_lt_of_le {a b : RFl rnd} (h : RFl.le a b = true) : RFl.lt b a = false := by
  rcases RFl.cases a with rfl | ⟨s, rfl⟩ | ⟨x, rfl⟩
  · simp at h
  · rcases RFl.cases b with rfl | ⟨t, rfl⟩ | ⟨y, rfl⟩
    · simp at h
    · cases s <;> cases t <;> simp_all
    · cases s <;> simp_all
  · rcases RFl.cases b with rfl | ⟨t, rfl⟩ | ⟨y, rfl⟩
    · simp at h
    · cases t <;> simp_all
    · simp_all

theorem RFl.lt_of_lt_of_le {a b c : RFl rnd} (h : RFl.lt a b = true) (h' : RFl.le b c = true) :
    RFl.lt a c = true := by
  rcases RFl.cases a with rfl | ⟨s, rfl⟩ | ⟨x, rfl⟩ <;>
    rcases RFl.cases b with rfl | ⟨t, rfl⟩ | ⟨y, rfl⟩ <;>
    rcases RFl.cases c with rfl | ⟨u, rfl⟩ | ⟨z, rfl⟩ <;>
    (try cases s) <;> (try cases t) <;> (try cases u) <;> simp at h h' ⊢
  all_goals linarith

theorem RFl.le_trans {a b c : RFl rnd} (h : RFl.le a b = true) (h' : RFl.le b c = true) :
    RFl.le a c = true := by
  rcases RFl.cases a with rfl | ⟨s, rfl⟩ | ⟨x, rfl⟩ <;>
    rcases RFl.cases b with rfl | ⟨t, rfl⟩ | ⟨y, rfl⟩ <;>
    rcases RFl.cases c with rfl | ⟨u, rfl⟩ | ⟨z, rfl⟩ <;>
    (try cases s) <;> (try cases t) <;> (try cases u) <;> simp at h h' ⊢
  all_goals linarith

theorem RFl.le_refl {a : RFl rnd} (h : a ≠ RFl.nan) : RFl.le a a = true := by
  rcases RFl.cases a with rfl | ⟨s, rfl⟩ | ⟨x, rfl⟩
  · exact absurd rfl h
  · cases s <;> simp
  · simp

/-- Sorted non-NaN bins are totally sorted. -/
theorem isSorted_get {bins : List (RFl rnd)} (hs : isSorted bins = true)
    (hn : ∀ b ∈ bins, b ≠ RFl.nan) (i j : ℕ) (hij : i ≤ j) (hj : j < bins.length) :
    RFl.le bins[i] bins[j] = true := by
  induction bins generalizing i j with
  | nil => simp at hj
  | cons a l ih =>
    have hs' : isSorted l = true := by
      cases l with
      | nil => rfl
      | cons b l => simp [isSorted] at hs; exact hs.2
    have hn' : ∀ b ∈ l, b ≠ RFl.nan := fun b hb => hn b (List.mem_cons_of_mem _ hb)
    cases j with
    | zero =>
      obtain rfl : i = 0 := by omega
      exact RFl.le_refl (hn _ (by simp))
    | succ j =>
      cases i with
      | succ i => simpa using ih hs' hn' i j (by omega) (by simpa using hj)
      | zero =>
        cases l with
        | nil => simp at hj
        | cons b l =>
          have h1 : RFl.le a b = true := by
            simp [isSorted] at hs
            exact RFl.le_of_not_lt (hn a (by simp)) (hn b (by simp)) hs.1
          have h2 := ih hs' hn' 0 j (by omega) (by simpa using hj)
          exact RFl.le_trans h1 (by simpa using h2)

/-- Correctness of the binary search. -/
theorem upperBoundLoop_spec (bins : List (RFl rnd)) (v : RFl rnd)
    (hmono : ∀ i j (_ : i ≤ j) (hj : j < bins.length), RFl.lt v bins[i] = true →
      RFl.lt v bins[j] = true) (first len : ℕ) (hle : first + len ≤ bins.length)
    (hlo : ∀ i (hi : i < bins.length), i < first → RFl.lt v bins[i] = false)
    (hhi : ∀ i (hi : i < bins.length), first + len ≤ i → RFl.lt v bins[i] = true) :
    upperBoundLoop bins v first len ≤ bins.length ∧
    ∀ i (hi : i < bins.length), RFl.lt v bins[i] = true ↔ upperBoundLoop bins v first len ≤ i := by
  induction len using Nat.strong_induction_on generalizing first with
  | _ len ih =>
    rw [upperBoundLoop]
    by_cases h0 : len = 0
    · subst h0
      simp only [if_true]
      refine ⟨by omega, fun i hi => ⟨fun h => ?_, fun h => hhi i hi (by omega)⟩⟩
      by_contra hc
      rw [hlo i hi (by omega)] at h; cases h
    · rw [if_neg h0]
      have hm : first + len / 2 < bins.length := by omega
      simp only [List.getElem?_eq_getElem hm]
      by_cases hv : RFl.lt v bins[first + len / 2] = true
      · rw [if_pos hv]
        exact ih (len / 2) (by omega) first (by omega) hlo
          (fun i hi h => hmono _ i (by omega) hi hv)
      · rw [if_neg hv]
        refine ih (len - len / 2 - 1) (by omega) (first + len / 2 + 1) (by omega) ?_ ?_
        · intro i hi h
          by_contra hc
          rw [Bool.not_eq_false] at hc
          exact hv (hmono i _ (by omega) hm hc)
        · intro i hi h
          exact hhi i hi (by omega)

theorem upperBound_spec {bins : List (RFl rnd)} (hs : isSorted bins = true)
    (hn : ∀ b ∈ bins, b ≠ RFl.nan) (v : RFl rnd) :
    upperBound bins v ≤ bins.length ∧
    ∀ i (hi : i < bins.length), RFl.lt v bins[i] = true ↔ upperBound bins v ≤ i := by
  refine upperBoundLoop_spec bins v ?_ 0 bins.length (by omega) (fun i _ h => by omega)
    (fun i hi h => by omega)
  intro i j hij hj h
  exact RFl.lt_of_lt_of_le h (isSorted_get hs hn i j hij hj)

/-- `++hist[i]` in bounds. -/
theorem incr_ok (hist : List ℕ) (i : ℕ) (h : i < hist.length) :
    incr hist i = .ok (hist.set i (hist[i] + 1)) := by
  simp [incr, rd_nat hist i h, wr_nat hist i _ h]

/-- A counting loop whose body increments the cell `idx x`, if any. -/
theorem histLoop_count {β : Type} (n : ℕ) (step : List ℕ → β → Res (List ℕ)) (idx : β → Option ℕ)
    (hidx : ∀ x i, idx x = some i → i < n)
    (hstep : ∀ hist x, hist.length = n → step hist x =
      match idx x with
      | none => .ok hist
      | some i => incr hist i) (xs : List β) (hist : List ℕ) (hl : hist.length = n) :
    ∃ h, histLoop step hist xs = .ok h ∧ h.length = n ∧
      (∀ i c, hist[i]? = some c → h[i]? = some (c + xs.countP fun x => idx x == some i)) ∧
      h.sum = hist.sum + xs.countP fun x => (idx x).isSome := by
  induction xs generalizing hist with
  | nil => exact ⟨hist, rfl, hl, fun i c h => by simpa using h, by simp⟩
  | cons x xs ih =>
    rw [histLoop, hstep hist x hl]
    cases hx : idx x with
    | none =>
      obtain ⟨h, e, l, p, q⟩ := ih hist hl
      refine ⟨h, by simpa using e, l, fun i c hc => ?_, by simp [q, hx]⟩
      rw [p i c hc, List.countP_cons]
      simp [hx]
    | some k =>
      have hk : k < hist.length := by rw [hl]; exact hidx x k hx
      obtain ⟨h, e, l, p, q⟩ := ih (hist.set k (hist[k] + 1)) (by simpa using hl)
      have hsum : (hist.set k (hist[k] + 1)).sum = hist.sum + 1 := by
        have h1 := List.sum_set hist k (hist[k] + 1)
        rw [if_pos hk] at h1
        have h2 := List.sum_take_add_sum_drop hist k
        rw [List.drop_eq_getElem_cons hk, List.sum_cons] at h2
        omega
      refine ⟨h, by simpa [incr_ok hist k hk] using e, l, fun i c hc => ?_, by
        rw [q, hsum, List.countP_cons]; simp [hx]; omega⟩
      rw [List.countP_cons]
      by_cases hik : k = i
      · subst hik
        have hc' : hist[k] = c := by
          rw [List.getElem?_eq_getElem hk] at hc
          simpa using hc
        rw [p k (c + 1) (by simp [hk, hc'])]
        simp [hx]; omega
      · rw [p i c (by rw [List.getElem?_set_ne hik]; exact hc)]
        simp [hx, hik]

end SciCpp
