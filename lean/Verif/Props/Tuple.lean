import Verif.Model.Tuple
import Verif.Proofs.Stats
/-
  C81 fields of arrays of tuples, C82 conversions between containers and Eigen vectors.
-/
namespace SciCpp

theorem transformInto_eq {α β : Type} (f : α → β) (as : List α) (pre : List β) (res : List β)
    (h : res.length = as.length) :
    transformInto f as pre.length (pre ++ res) = .ok (pre ++ as.map f) := by
  induction as generalizing pre res with
  | nil =>
    have : res = [] := List.length_eq_zero_iff.mp (by simpa using h)
    subst this; rfl
  | cons a as ih =>
    match res, h with
    | r :: rs, h =>
      have e : wr (pre ++ r :: rs) (pre.length : ℤ) (f a) = .ok ((pre ++ [f a]) ++ rs) := by
        unfold wr
        rw [if_pos ⟨by omega, by simp⟩, Int.toNat_natCast]
        simp
      unfold transformInto
      rw [e, Res.bind_ok]
      have := ih (pre ++ [f a]) rs (by simpa using h)
      rw [List.length_append, List.length_singleton] at this
      rw [this]
      simp

/-- C81: `get_field<I>` and each component of `unpack` have one entry per tuple, in order: entry `j`
is component `I` of tuple `j`. -/
theorem C81_fields {k : ℕ} {τ : Fin k → Type} [∀ i, Inhabited (τ i)] (a : List (Tup τ)) (i : Fin k) :
    ∃ r, getField i a = .ok r ∧ unpack a i = .ok r ∧ r.length = a.length ∧
      ∀ j (h1 : j < a.length) (h2 : j < r.length), r[j] = a[j] i := by
  have h : getField i a = .ok (a.map fun t => t i) := by
    have := transformInto_eq (fun t : Tup τ => t i) a [] (List.replicate a.length default) (by simp)
    simpa [getField] using this
  exact ⟨_, h, h, by simp, fun j h1 h2 => by simp⟩

/-- C81: unpacking loses nothing: arrays with the same fields are equal (at least one component). -/
theorem C81_lossless {k : ℕ} {τ : Fin k → Type} [∀ i, Inhabited (τ i)] (hk : 0 < k)
    (a b : List (Tup τ)) (h : ∀ i, unpack a i = unpack b i) : a = b := by
  have hl : a.length = b.length := by
    obtain ⟨r, -, e1, l1, -⟩ := C81_fields a ⟨0, hk⟩
    obtain ⟨s, -, e2, l2, -⟩ := C81_fields b ⟨0, hk⟩
    have := h ⟨0, hk⟩
    rw [e1, e2] at this
    cases this
    omega
  apply List.ext_getElem hl
  intro j h1 h2
  funext i
  obtain ⟨r, -, e1, l1, g1⟩ := C81_fields a i
  obtain ⟨s, -, e2, l2, g2⟩ := C81_fields b i
  have := h i
  rw [e1, e2] at this
  cases this
  rw [← g1 j h1 (by omega), ← g2 j h2 (by omega)]

/-- C81: `get_field<Type>` selects a component exactly when one and only one has that type. -/
theorem C81_by_type {k : ℕ} {Tag : Type} [DecidableEq Tag] (tags : Fin k → Tag) (t : Tag) (i : Fin k) :
    typeIndex tags t = some i ↔ tags i = t ∧ ∀ j, tags j = t → j = i := by
  have hnd := (List.nodup_finRange k).filter (fun i => decide (tags i = t))
  have hmem : ∀ j, j ∈ (List.finRange k).filter (fun i => decide (tags i = t)) ↔ tags j = t := by
    intro j; simp
  unfold typeIndex
  revert hnd hmem
  generalize (List.finRange k).filter (fun i => decide (tags i = t)) = l
  intro hnd hmem
  match l with
  | [] =>
    simp only [reduceCtorEq, false_iff, not_and]
    intro hi
    have := (hmem i).mpr hi
    simp at this
  | [x] =>
    simp only [Option.some.injEq]
    constructor
    · rintro rfl
      exact ⟨(hmem x).mp (by simp), fun j hj => by simpa using (hmem j).mpr hj⟩
    · rintro ⟨h1, h2⟩
      exact h2 x ((hmem x).mp (by simp))
  | x :: y :: zs =>
    simp only [reduceCtorEq, false_iff, not_and]
    intro hi hall
    have hx := hall x ((hmem x).mp (by simp))
    have hy := hall y ((hmem y).mp (by simp))
    rw [hx, hy] at hnd
    simp at hnd

-- non-vacuity: fields of two pairs of integers
example : getField (k := 2) (τ := fun _ => ℤ) 1 [fun i => i + 1, fun i => i + 10] = .ok [2, 11] := by
  decide

/-- C82: a vector of at most 2³¹ - 1 elements round-trips through Eigen. -/
theorem C82_round_trip {α : Type} (v : List α) (h : v.length < 2 ^ 31) :
    toEigen v (-1) = .ok v ∧ toStd (EMat.ofVec v) = v ∧
    ∀ i, (EMat.ofVec v).get? i 0 = v[i]? := by
  refine ⟨?_, rfl, ?_⟩
  · unfold toEigen
    have e : toI32 (v.length : ℤ) = v.length := toI32_of_lt (by omega) (by exact_mod_cast h)
    simp only [if_true, e]
    rw [if_pos ⟨by omega, le_rfl⟩, Int.toNat_natCast, List.take_length]
  · intro i
    unfold EMat.get? EMat.ofVec
    by_cases hi : i < v.length
    · rw [if_pos ⟨hi, Nat.one_pos⟩]; simp
    · rw [if_neg (by simp [hi])]
      exact (List.getElem?_eq_none (by omega)).symm

/-- C82: an explicit size gives the first elements; sizes beyond the vector and negative sizes
other than -1 are undefined behaviour. -/
theorem C82_size {α : Type} (v : List α) (n : ℕ) :
    (n ≤ v.length → toEigen v n = .ok (v.take n)) ∧ (v.length < n → toEigen v n = .ub) ∧
    toEigen v (-(n : ℤ) - 2) = .ub := by
  have e : (n : ℤ) ≠ -1 := by omega
  have e2 : (-(n : ℤ) - 2) ≠ -1 := by omega
  refine ⟨fun h => ?_, fun h => ?_, ?_⟩ <;> unfold toEigen
  · simp only [if_neg e]
    rw [if_pos ⟨by omega, by omega⟩, Int.toNat_natCast]
  · simp only [if_neg e]
    rw [if_neg (by omega)]
  · simp only [if_neg e2]
    rw [if_neg (by omega)]

/-- C82: `to_std_container` of a matrix lists its columns one after the other: element `(i, j)` is
at position `i + j * rows`, and every position is an element. -/
theorem C82_matrix {α : Type} (m : EMat α) (i j : ℕ) (hi : i < m.rows) (hj : j < m.cols) :
    (toStd m)[i + j * m.rows]? = m.get? i j ∧ m.get? i j ≠ none ∧
    (toStd m).length = m.rows * m.cols := by
  have hlt : i + j * m.rows < m.data.length := by
    rw [m.size]
    calc i + j * m.rows < m.rows + j * m.rows := by omega
      _ = (j + 1) * m.rows := by ring
      _ ≤ m.cols * m.rows := Nat.mul_le_mul_right _ hj
      _ = m.rows * m.cols := Nat.mul_comm _ _
  unfold EMat.get?
  rw [if_pos ⟨hi, hj⟩]
  exact ⟨rfl, by rw [List.getElem?_eq_getElem hlt]; simp, m.size⟩

/-- C82 (negation of "a matrix is flattened row by row", as arrays of arrays and `savetxt` do). -/
theorem C82_row_order_false : ∃ m : EMat ℕ, m.rows = 2 ∧ m.cols = 2 ∧
    m.get? 0 1 = some 2 ∧ (toStd m)[1]? = some 3 :=
  ⟨⟨2, 2, [1, 3, 2, 4], rfl⟩, rfl, rfl, rfl, rfl⟩

/-- C82 (negation for huge vectors): the size is converted to `int`. -/
theorem C82_huge_false {α : Type} (v : List α) (h : v.length = 2 ^ 31) : toEigen v (-1) = .ub := by
  unfold toEigen
  simp only [if_true]
  have e : toI32 (v.length : ℤ) < 0 := by
    rw [h]; unfold toI32; decide
  rw [if_neg (fun hc => absurd hc.1 (not_le.mpr e))]

end SciCpp
