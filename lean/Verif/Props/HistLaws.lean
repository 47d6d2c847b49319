import Verif.Props.Histogram
/-
  Property theorems C148: laws of the histogram (the searching one, for any rounding of the floating point numbers).
-/
namespace SciCpp

set_option linter.unusedSectionVars false
variable {rnd : ℚ → ℚ}

/-- **C148 (order of the samples).**  The order of the samples is irrelevant. -/
theorem C148_permutation (ae : RFl rnd → RFl rnd → Bool) (bins xs ys : List (RFl rnd))
    (hs : bins.Pairwise fun a b => RFl.le a b = true) (hp : xs.Perm ys) :
    histogram false ae bins xs = histogram false ae bins ys := by
  rcases Nat.lt_or_ge bins.length 2 with hl | hl
  · rw [(C22_requirements false ae bins xs).1 (by omega), (C22_requirements false ae bins ys).1 (by omega)]
  obtain ⟨h, h1, h2, h3, -⟩ := histogram_searched ae bins xs hl hs
  obtain ⟨g, g1, g2, g3, -⟩ := histogram_searched ae bins ys hl hs
  rw [h1, g1]
  congr 1
  apply List.ext_getElem?
  intro i
  rcases Nat.lt_or_ge i (bins.length - 1) with hi | hi
  · rw [h3 i hi, g3 i hi, hp.countP_eq]
  · rw [List.getElem?_eq_none (by omega), List.getElem?_eq_none (by omega)]

/-- **C148 (merging data).**  The histogram of concatenated data is the sum of the histograms. -/
theorem C148_concatenate (ae : RFl rnd → RFl rnd → Bool) (bins xs ys : List (RFl rnd)) (hl : 2 ≤ bins.length)
    (hs : bins.Pairwise fun a b => RFl.le a b = true) :
    ∃ h g, histogram false ae bins xs = .ok h ∧ histogram false ae bins ys = .ok g ∧
      histogram false ae bins (xs ++ ys) = .ok (List.zipWith (· + ·) h g) := by
  obtain ⟨h, h1, h2, h3, -⟩ := histogram_searched ae bins xs hl hs
  obtain ⟨g, g1, g2, g3, -⟩ := histogram_searched ae bins ys hl hs
  obtain ⟨r, r1, r2, r3, -⟩ := histogram_searched ae bins (xs ++ ys) hl hs
  refine ⟨h, g, h1, g1, ?_⟩
  rw [r1]
  congr 1
  apply List.ext_getElem?
  intro i
  rcases Nat.lt_or_ge i (bins.length - 1) with hi | hi
  · rw [r3 i hi, List.getElem?_zipWith, h3 i hi, g3 i hi, List.countP_append]
  · rw [List.getElem?_eq_none (by omega), List.getElem?_eq_none (by rw [List.length_zipWith]; omega)]

theorem upperBoundLoop_map (φ : RFl rnd → RFl rnd) (bins : List (RFl rnd)) (v : RFl rnd)
    (h : ∀ m ∈ bins, RFl.lt (φ v) (φ m) = RFl.lt v m) (first len : ℕ) :
    upperBoundLoop (bins.map φ) (φ v) first len = upperBoundLoop bins v first len := by
  induction len using Nat.strong_induction_on generalizing first with
  | _ len ih =>
    rw [upperBoundLoop, upperBoundLoop]
    split
    · rfl
    · simp only [List.getElem?_map]
      cases hm : bins[first + len / 2]? with
      | none => rfl
      | some m =>
        simp only [Option.map_some]
        rw [h m (List.mem_of_getElem? hm), ih _ (by omega), ih _ (by omega)]

/-- **C148 (change of scale).**  A strictly increasing map applied to the edges and to the samples does not change the histogram, if it does not change which of the
samples that are not below the last edge are close to it. -/
theorem C148_monotone_map (φ : RFl rnd → RFl rnd) (ae ae' : RFl rnd → RFl rnd → Bool) (bins xs : List (RFl rnd)) (back : RFl rnd)
    (hb : bins.getLast? = some back) (hl : 2 ≤ bins.length) (hs : bins.Pairwise fun a b => RFl.le a b = true)
    (hle : ∀ a ∈ bins, ∀ b ∈ bins, RFl.le a b = true → RFl.le (φ a) (φ b) = true)
    (hlt : ∀ x ∈ xs, ∀ m ∈ bins, RFl.lt (φ x) (φ m) = RFl.lt x m)
    (hae : ∀ x ∈ xs, RFl.lt x back = false → ae' (φ x) (φ back) = ae x back) :
    histogram false ae' (bins.map φ) (xs.map φ) = histogram false ae bins xs := by
  have hlast : bins[bins.length - 1] = back := by
    rw [List.getLast?_eq_getElem?, List.getElem?_eq_getElem (by omega)] at hb
    simpa using hb
  have hs' : (bins.map φ).Pairwise fun a b => RFl.le a b = true := by
    rw [List.pairwise_map]
    exact hs.imp_of_mem (fun ha hb h => hle _ ha _ hb h)
  obtain ⟨h, h1, h2, h3, -⟩ := histogram_searched ae bins xs hl hs
  obtain ⟨g, g1, g2, g3, -⟩ := histogram_searched ae' (bins.map φ) (xs.map φ) (by simpa using hl) hs'
  rw [h1, g1]
  congr 1
  apply List.ext_getElem?
  intro i
  rw [List.length_map] at g2
  rcases Nat.lt_or_ge i (bins.length - 1) with hi | hi
  · rw [h3 i hi, g3 i (by simpa using hi), List.countP_map]
    congr 1
    refine List.countP_congr fun x hx => ?_
    have hu : upperBound (bins.map φ) (φ x) = upperBound bins x := by
      unfold upperBound
      rw [List.length_map]
      exact upperBoundLoop_map φ bins x (hlt x hx) _ _
    simp only [Function.comp, List.length_map, List.getElem_map, hlast]
    have : idxS ae' (bins.map φ) (φ back) (φ x) = idxS ae bins back x := by
      unfold idxS
      rw [hu, List.length_map]
      by_cases hc : upperBound bins x = bins.length
      · rw [if_pos hc, if_pos hc]
        obtain ⟨-, u2⟩ := upperBound_spec (pairwise_isSorted hs) (pairwise_ne_nan hl hs) x
        have hx' : RFl.lt x back = false := by
          rw [Bool.eq_false_iff, ← hlast]
          intro hc'
          have := (u2 (bins.length - 1) (by omega)).1 hc'
          omega
        rw [hae x hx hx']
      · rw [if_neg hc, if_neg hc]
    rw [this]
  · rw [List.getElem?_eq_none (by omega), List.getElem?_eq_none (by omega)]

/-- **C148 (change of unit).**  In exact arithmetic, multiplying edges and samples by a positive number and adding a number to them does not change the histogram,
when no sample above the last edge is close to it, before and after. -/
theorem C148_affine (c t tol : ℚ) (hc : 0 < c) (htol : 0 ≤ tol) (bins xs : List ℚ) (back : ℚ) (hb : bins.getLast? = some back) (hl : 2 ≤ bins.length)
    (hs : bins.Pairwise (· ≤ ·))
    (hno : ∀ x ∈ xs, back < x → almostEqual tol (RFl.fin x : RFl id) (RFl.fin back) = false ∧
      almostEqual tol (RFl.fin (c * x + t) : RFl id) (RFl.fin (c * back + t)) = false) :
    histogram false (almostEqual tol) (bins.map fun q => (RFl.fin (c * q + t) : RFl id)) (xs.map fun q => RFl.fin (c * q + t)) =
      histogram false (almostEqual tol) (bins.map (RFl.fin (rnd := id))) (xs.map RFl.fin) := by
  let φ : RFl id → RFl id := fun x => match (x : Fl) with
    | .fin q => RFl.fin (c * q + t)
    | _ => x
  have hφ : ∀ q : ℚ, φ (RFl.fin q) = RFl.fin (c * q + t) := fun _ => rfl
  have e : ∀ l : List ℚ, (l.map fun q => (RFl.fin (c * q + t) : RFl id)) = (l.map (RFl.fin (rnd := id))).map φ := by
    intro l; rw [List.map_map]; rfl
  rw [e, e]
  apply C148_monotone_map φ (almostEqual tol) (almostEqual tol) _ _ (RFl.fin back)
  · rw [List.getLast?_map, hb]; rfl
  · simpa using hl
  · rw [List.pairwise_map]
    exact hs.imp fun h => by simpa using h
  · intro a ha b hb' h
    obtain ⟨p, -, rfl⟩ := List.mem_map.1 ha
    obtain ⟨q, -, rfl⟩ := List.mem_map.1 hb'
    rw [hφ, hφ]
    simp only [RFl.le_fin, decide_eq_true_eq] at h ⊢
    nlinarith
  · intro x hx m hm
    obtain ⟨p, -, rfl⟩ := List.mem_map.1 hx
    obtain ⟨q, -, rfl⟩ := List.mem_map.1 hm
    rw [hφ, hφ]
    simp only [RFl.lt_fin, decide_eq_decide]
    constructor <;> intro h <;> nlinarith
  · intro x hx h
    obtain ⟨p, hp, rfl⟩ := List.mem_map.1 hx
    rw [hφ, hφ]
    simp only [RFl.lt_fin, decide_eq_false_iff_not, not_lt] at h
    rcases h.eq_or_lt with rfl | h
    · rw [C26_refl rfl (fun _ h => h) tol htol, C26_refl rfl (fun _ h => h) tol htol]
    · obtain ⟨h1, h2⟩ := hno p hp h
      rw [h1, h2]

theorem countP_split {α : Type*} (p q r : α → Bool) (l : List α) (h : ∀ x ∈ l, (r x = true ↔ (p x = true ∨ q x = true)) ∧ ¬ (p x = true ∧ q x = true)) :
    l.countP r = l.countP p + l.countP q := by
  induction l with
  | nil => rfl
  | cons a l ih =>
    have h1 := h a (by simp)
    rw [List.countP_cons, List.countP_cons, List.countP_cons, ih fun x hx => h x (by simp [hx])]
    cases hp : p a <;> cases hq : q a <;> cases hr : r a <;> simp [hp, hq, hr] at h1 ⊢ <;> omega

/-- **C148 (cumulative counts).**  The first `k` counts sum to the number of samples `x` with `bins[0] ≤ x < bins[k]`: the cumulative histogram is the empirical
distribution function. -/
theorem C148_cumulative (h0 : rnd 0 = 0) (hpos : ∀ x, 0 ≤ x → 0 ≤ rnd x) (tol : ℚ) (ht : 0 ≤ tol) (bins xs : List (RFl rnd)) (front back : RFl rnd)
    (hf : bins.head? = some front) (hb : bins.getLast? = some back) (hl : 2 ≤ bins.length) (hs : bins.Pairwise fun a b => RFl.le a b = true)
    (hno : ∀ x ∈ xs, RFl.lt back x = true → almostEqual tol x back = false) :
    ∃ h, histogram false (almostEqual tol) bins xs = .ok h ∧
      ∀ k edge, k + 1 < bins.length → bins[k]? = some edge → (h.take k).sum = xs.countP fun x => RFl.le front x && RFl.lt x edge := by
  obtain ⟨h, h1, h2, h3, -⟩ := C22_counts_partial h0 hpos tol ht bins xs front back hf hb hl hs hno
  refine ⟨h, h1, fun k => ?_⟩
  induction k with
  | zero =>
    intro edge _ he
    rw [← List.head?_eq_getElem?, hf, Option.some.injEq] at he
    subst he
    rw [List.take_zero, List.sum_nil, eq_comm, List.countP_eq_zero]
    intro x _
    rw [Bool.and_eq_true]
    rintro ⟨h, h'⟩
    rw [RFl.not_lt_of_le h] at h'
    simp at h'
  | succ k ih =>
    intro edge hk he
    have hk' : k < bins.length := by omega
    have hk1 : k + 1 < bins.length := by omega
    have hi := ih bins[k] (by omega) (List.getElem?_eq_getElem hk')
    have hc := h3 k bins[k] edge (List.getElem?_eq_getElem hk') he
    rw [List.take_add_one, hc, List.sum_append, hi]
    simp only [Option.toList_some, List.sum_cons, List.sum_nil, add_zero]
    have hne : ¬ (k + 2 = bins.length) := by omega
    simp only [hne, decide_false, Bool.false_and, Bool.or_false]
    rw [List.getElem?_eq_getElem hk1, Option.some.injEq] at he
    have hnan := pairwise_ne_nan hl hs
    have hsort := List.pairwise_iff_getElem.1 hs
    have h0k : RFl.le front bins[k] = true := by
      rw [List.head?_eq_getElem?, List.getElem?_eq_getElem (by omega), Option.some.injEq] at hf
      rw [← hf]
      rcases Nat.eq_zero_or_pos k with rfl | hp
      · exact RFl.le_refl (hnan _ (List.getElem_mem _))
      · exact hsort 0 k (by omega) hk' hp
    have hkk : RFl.le bins[k] edge = true := by rw [← he]; exact hsort k (k + 1) hk' hk1 (by omega)
    rw [eq_comm]
    apply countP_split (fun x => RFl.le front x && RFl.lt x bins[k]) (fun x => RFl.le bins[k] x && RFl.lt x edge)
    intro x _
    simp only [Bool.and_eq_true]
    refine ⟨⟨fun ⟨a, b⟩ => ?_, ?_⟩, ?_⟩
    · by_cases hx : RFl.lt x bins[k] = true
      · exact Or.inl ⟨a, hx⟩
      · exact Or.inr ⟨RFl.le_of_not_lt (hnan _ (List.getElem_mem hk')) (RFl.ne_nan_of_le_right a) (by simpa using hx), b⟩
    · rintro (⟨a, b⟩ | ⟨a, b⟩)
      · exact ⟨a, RFl.lt_of_lt_of_le b hkk⟩
      · exact ⟨RFl.le_trans h0k a, b⟩
    · rintro ⟨⟨-, b⟩, ⟨c, -⟩⟩
      rw [RFl.not_lt_of_le c] at b
      simp at b

/-! ### examples -/

example : histogram false (almostEqual (rnd := rnd64) tol64) ([0, 1, 2].map RFl.fin) ([1 / 2, 3 / 2, 2, 7, 1].map RFl.fin) = .ok [1, 3] := by decide +kernel

/-- Celsius to Fahrenheit. -/
example : histogram false (almostEqual (1 / 2 ^ 50)) ([0, 10, 20].map fun q => (RFl.fin (9 / 5 * q + 32) : RFl id)) ([5, 20, 25].map fun q => RFl.fin (9 / 5 * q + 32)) =
    histogram false (almostEqual (1 / 2 ^ 50)) ([0, 10, 20].map (RFl.fin (rnd := id))) ([5, 20, 25].map RFl.fin) :=
  C148_affine (9 / 5) 32 _ (by norm_num) (by norm_num) [0, 10, 20] [5, 20, 25] 20 rfl (by norm_num) (by simp; norm_num) (by
    intro x hx h
    simp only [List.mem_cons, List.not_mem_nil, or_false] at hx
    rcases hx with rfl | rfl | rfl
    · norm_num at h
    · norm_num at h
    · exact ⟨by decide +kernel, by decide +kernel⟩)

end SciCpp
