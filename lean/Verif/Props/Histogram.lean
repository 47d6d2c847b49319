import Verif.Proofs.Histogram
import Verif.Proofs.Numeric
import Verif.Proofs.OrderStat
import Verif.Proofs.Functional
import Verif.Proofs.Stats
import Mathlib.Algebra.BigOperators.Fin
import Mathlib.Algebra.BigOperators.Field
import Verif.Props.Equal
/-
  Property theorems C22–C25: histogram counts, the two counting algorithms, density, bin edges.
-/
namespace SciCpp

set_option linter.unusedSectionVars false

variable {rnd : ℚ → ℚ}

/-! ## C22 — counts -/

/-- The bin the searching loop selects for `x`. -/
def idxS (ae : RFl rnd → RFl rnd → Bool) (bins : List (RFl rnd)) (back x : RFl rnd) : Option ℕ :=
  if upperBound bins x = bins.length then
    if ae x back then some (bins.length - 2) else none
  else if 0 < upperBound bins x then some (upperBound bins x - 1) else none

theorem pairwise_isSorted {bins : List (RFl rnd)}
    (h : bins.Pairwise fun a b => RFl.le a b = true) : isSorted bins = true := by
  induction bins with
  | nil => rfl
  | cons a l ih =>
    rw [List.pairwise_cons] at h
    cases l with
    | nil => rfl
    | cons b l =>
      simp only [isSorted, Bool.and_eq_true, Bool.not_eq_true']
      exact ⟨RFl.not_lt_of_le (h.1 b (by simp)), ih h.2⟩

theorem RFl.ne_nan_of_le_left {a b : RFl rnd} (h : RFl.le a b = true) : a ≠ RFl.nan := by
  rintro rfl; simp at h

theorem RFl.ne_nan_of_le_right {a b : RFl rnd} (h : RFl.le a b = true) : b ≠ RFl.nan := by
  rintro rfl; simp at h

theorem pairwise_ne_nan {bins : List (RFl rnd)} (hl : 2 ≤ bins.length)
    (h : bins.Pairwise fun a b => RFl.le a b = true) : ∀ b ∈ bins, b ≠ RFl.nan := by
  match bins, hl with
  | a :: b :: l, _ =>
    rw [List.pairwise_cons] at h
    intro x hx
    rcases List.mem_cons.mp hx with rfl | hx
    · exact RFl.ne_nan_of_le_left (h.1 b (by simp))
    · exact RFl.ne_nan_of_le_right (h.1 x hx)

/-- What the searching histogram does, for any "close to the last edge" test. -/
theorem histogram_searched (ae : RFl rnd → RFl rnd → Bool) (bins xs : List (RFl rnd))
    (hl : 2 ≤ bins.length) (hs : bins.Pairwise fun a b => RFl.le a b = true) :
    ∃ h, histogram false ae bins xs = .ok h ∧ h.length = bins.length - 1 ∧
      (∀ i, i < bins.length - 1 →
        h[i]? = some (xs.countP fun x => idxS ae bins bins[bins.length - 1] x == some i)) ∧
      h.sum = xs.countP fun x => (idxS ae bins bins[bins.length - 1] x).isSome := by
  have hsort := pairwise_isSorted hs
  have hnan := pairwise_ne_nan hl hs
  have hstep : ∀ (hist : List ℕ) (x : RFl rnd), hist.length = bins.length - 1 →
      histStepS ae bins bins[bins.length - 1] hist x
        = match idxS ae bins bins[bins.length - 1] x with
          | none => .ok hist
          | some i => incr hist i := by
    intro hist x hh
    unfold histStepS idxS
    by_cases h1 : upperBound bins x = bins.length
    · simp only [h1, if_true]
      split_ifs
      · rw [hh]; rfl
      · rfl
    · simp only [h1, if_false]
      by_cases h2 : 0 < upperBound bins x
      · rw [if_pos h2, if_pos (by omega)]
      · rw [if_neg h2, if_neg (by omega)]
  have hidx : ∀ x i, idxS ae bins bins[bins.length - 1] x = some i → i < bins.length - 1 := by
    intro x i h
    have := (upperBound_spec hsort hnan x).1
    unfold idxS at h
    split_ifs at h <;> simp only [Option.some.injEq] at h <;> omega
  obtain ⟨h, e, l, p, q⟩ := histLoop_count (bins.length - 1)
    (histStepS ae bins bins[bins.length - 1]) _ hidx hstep xs
    (List.replicate (bins.length - 1) 0) (by simp)
  refine ⟨h, ?_, l, fun i hi => ?_, by simpa using q⟩
  · unfold histogram
    rw [if_neg (by omega), hsort]
    have e0 : rd bins 0 = .ok bins[0] := rd_nat bins 0 (by omega)
    have e1 : rd bins 1 = .ok bins[1] := rd_nat bins 1 (by omega)
    have e2 : rd bins ((bins.length : ℤ) - 1) = .ok bins[bins.length - 1] := by
      have := rd_nat bins (bins.length - 1) (by omega)
      rwa [show ((bins.length - 1 : ℕ) : ℤ) = (bins.length : ℤ) - 1 by omega] at this
    simp only [require_true, Res.bind_ok, e0, e1, e2, Bool.false_eq_true, if_false]
    exact e
  · have := p i 0 (by simp [hi])
    simpa using this

/-- A sample that is not NaN and not beyond the last edge is put in the bin that contains it. -/
theorem idxS_eq (ae : RFl rnd → RFl rnd → Bool) {bins : List (RFl rnd)} (hl : 2 ≤ bins.length)
    (hs : bins.Pairwise fun a b => RFl.le a b = true) (x : RFl rnd) (i : ℕ)
    (hi : i + 1 < bins.length) (hx : RFl.lt x bins[bins.length - 1] = true) :
    idxS ae bins bins[bins.length - 1] x = some i ↔
      RFl.le bins[i] x = true ∧ RFl.lt x bins[i + 1] = true := by
  have hsort := pairwise_isSorted hs
  have hnan := pairwise_ne_nan hl hs
  obtain ⟨u1, u2⟩ := upperBound_spec hsort hnan x
  have hxn : x ≠ RFl.nan := by rintro rfl; simp at hx
  have hlast := (u2 (bins.length - 1) (by omega)).mp hx
  have a1 := u2 i (by omega)
  have a2 := u2 (i + 1) hi
  unfold idxS
  rw [if_neg (by omega)]
  constructor
  · intro h
    split_ifs at h with h0
    simp only [Option.some.injEq] at h
    refine ⟨RFl.le_of_not_lt (hnan _ (List.getElem_mem _)) hxn ?_, a2.mpr (by omega)⟩
    rw [Bool.eq_false_iff, Ne, a1]; omega
  · rintro ⟨h1, h2⟩
    have := a2.mp h2
    have h3 := RFl.not_lt_of_le h1
    have : ¬ upperBound bins x ≤ i := by rw [← a1, h3]; simp
    rw [if_pos (by omega)]
    simp only [Option.some.injEq]; omega

theorem idxS_beyond (ae : RFl rnd → RFl rnd → Bool) {bins : List (RFl rnd)} (hl : 2 ≤ bins.length)
    (hs : bins.Pairwise fun a b => RFl.le a b = true) (x : RFl rnd)
    (hx : RFl.lt x bins[bins.length - 1] = false) :
    idxS ae bins bins[bins.length - 1] x
      = if ae x bins[bins.length - 1] then some (bins.length - 2) else none := by
  obtain ⟨u1, u2⟩ := upperBound_spec (pairwise_isSorted hs) (pairwise_ne_nan hl hs) x
  have : ¬ upperBound bins x ≤ bins.length - 1 := by
    rw [← u2 (bins.length - 1) (by omega), hx]; simp
  unfold idxS
  rw [if_pos (by omega)]

theorem almostEqual_nan_left (tol : ℚ) {b : RFl rnd} (hb : b ≠ RFl.nan) :
    almostEqual tol RFl.nan b = false := by
  rw [Bool.eq_false_iff, Ne, (C26_special tol b true true).2.1]; exact hb

theorem RFl.lt_le_eq {a b : RFl rnd} (h1 : RFl.lt a b = false) (h2 : RFl.le a b = true) : a = b := by
  rcases RFl.cases a with rfl | ⟨s, rfl⟩ | ⟨x, rfl⟩ <;>
    rcases RFl.cases b with rfl | ⟨t, rfl⟩ | ⟨y, rfl⟩ <;>
    (try cases s) <;> (try cases t) <;> simp_all
  exact congrArg RFl.fin (le_antisymm h2 h1)

/-- C22 (partial): with sorted edges, `histogram` returns one count per bin; `hist[i]` is the number
of samples with `bins[i] ≤ x < bins[i+1]`, the last bin including its right edge; the total is the
number of samples in `[bins.front(), bins.back()]`; NaN, `-∞` and everything outside is ignored.
Edges and samples range over all floating point values (any rounding), including infinities and
NaN.  Missing: samples *above* the last edge that `almost_equal` accepts, see
`C22_infinity_false` and `C22_above_false`. -/
theorem C22_counts_partial (h0 : rnd 0 = 0) (hpos : ∀ x, 0 ≤ x → 0 ≤ rnd x) (tol : ℚ)
    (ht : 0 ≤ tol) (bins xs : List (RFl rnd)) (front back : RFl rnd)
    (hf : bins.head? = some front) (hb : bins.getLast? = some back) (hl : 2 ≤ bins.length)
    (hs : bins.Pairwise fun a b => RFl.le a b = true)
    (hno : ∀ x ∈ xs, RFl.lt back x = true → almostEqual tol x back = false) :
    ∃ h, histogram false (almostEqual tol) bins xs = .ok h ∧ h.length + 1 = bins.length ∧
      (∀ i lo hi, bins[i]? = some lo → bins[i + 1]? = some hi → h[i]? = some (xs.countP fun x =>
        RFl.le lo x && (RFl.lt x hi || (decide (i + 2 = bins.length) && RFl.le x hi)))) ∧
      h.sum = xs.countP fun x => RFl.le front x && RFl.le x back := by
  have hlast : bins[bins.length - 1] = back := by
    rw [List.getLast?_eq_getElem?, List.getElem?_eq_getElem (by omega)] at hb
    simpa using hb
  have hfirst : bins[0] = front := by
    rw [List.head?_eq_getElem?, List.getElem?_eq_getElem (by omega)] at hf
    simpa using hf
  have hnan := pairwise_ne_nan hl hs
  have hbn : back ≠ RFl.nan := by rw [← hlast]; exact hnan _ (List.getElem_mem _)
  -- what happens to a sample that is not below the last edge
  have hbey : ∀ x ∈ xs, RFl.lt x back = false →
      idxS (almostEqual tol) bins back x = if RFl.le x back then some (bins.length - 2) else none := by
    intro x hx hlt
    have e := idxS_beyond (almostEqual tol) hl hs x (by rw [hlast]; exact hlt)
    rw [hlast] at e
    rw [e]
    by_cases hxn : x = RFl.nan
    · subst hxn; simp [almostEqual_nan_left tol hbn]
    · by_cases hle : RFl.le x back = true
      · obtain rfl := RFl.lt_le_eq hlt hle
        rw [if_pos (C26_refl h0 hpos tol ht x), if_pos hle]
      · have : RFl.lt back x = true := by
          by_contra hc
          rw [Bool.not_eq_true] at hc
          exact hle (RFl.le_of_not_lt hxn hbn hc)
        rw [hno x hx this]; simp [hle]
  have hsorted : ∀ i (hi : i < bins.length), RFl.le bins[i] back = true := by
    intro i hi
    have := isSorted_get (pairwise_isSorted hs) hnan i (bins.length - 1) (by omega) (by omega)
    rwa [hlast] at this
  have hge : ∀ x, x ≠ RFl.nan → RFl.lt x back = false → RFl.le back x = true := by
    intro x hxn hlt
    exact RFl.le_of_not_lt hbn hxn hlt
  obtain ⟨h, e, l, p, q⟩ := histogram_searched (almostEqual tol) bins xs hl hs
  simp only [hlast] at p q
  refine ⟨h, e, by omega, fun i lo hi hlo hhi => ?_, ?_⟩
  · have hi' : i + 1 < bins.length := by
      by_contra hc
      rw [List.getElem?_eq_none (by omega)] at hhi; cases hhi
    rw [List.getElem?_eq_getElem (by omega), Option.some.injEq] at hlo hhi
    rw [p i (by omega)]
    congr 1
    refine List.countP_congr fun x hx => ?_
    rw [beq_iff_eq, Bool.and_eq_true, Bool.or_eq_true, Bool.and_eq_true, decide_eq_true_eq]
    by_cases hlt : RFl.lt x back = true
    · have e := idxS_eq (almostEqual tol) hl hs x i hi' (by rw [hlast]; exact hlt)
      rw [hlast, hlo, hhi] at e
      rw [e]
      constructor
      · rintro ⟨a, b⟩; exact ⟨a, Or.inl b⟩
      · rintro ⟨a, b | ⟨b, c⟩⟩
        · exact ⟨a, b⟩
        · have : hi = back := by
            rw [← hhi, ← hlast]; congr 1; omega
          rw [this]; exact ⟨a, hlt⟩
    · rw [Bool.not_eq_true] at hlt
      rw [hbey x hx hlt]
      by_cases hxn : x = RFl.nan
      · subst hxn; simp
      · have hg := hge x hxn hlt
        have hlx : RFl.le lo x = true := by
          rw [← hlo]; exact RFl.le_trans (hsorted i (by omega)) hg
        have hnl : RFl.lt x hi = false := by
          rw [← hhi]
          exact RFl.not_lt_of_le (RFl.le_trans (hsorted (i + 1) (by omega)) hg)
        rw [hlx, hnl]
        by_cases hlast' : i + 2 = bins.length
        · have : hi = back := by rw [← hhi, ← hlast]; congr 1; omega
          rw [this]
          by_cases hle : RFl.le x back = true
          · simp [hle, hlast']; omega
          · simp [hle]
        · by_cases hle : RFl.le x back = true
          · simp [hle, hlast']; omega
          · simp [hle, hlast']
  · rw [q]
    refine List.countP_congr fun x hx => ?_
    rw [Bool.and_eq_true]
    by_cases hlt : RFl.lt x back = true
    · have hxn : x ≠ RFl.nan := by rintro rfl; simp at hlt
      have hle : RFl.le x back = true := by
        rcases RFl.cases x with rfl | ⟨s, rfl⟩ | ⟨u, rfl⟩ <;>
          rcases RFl.cases back with rfl | ⟨t, rfl⟩ | ⟨v, rfl⟩ <;>
          (try cases s) <;> (try cases t) <;> simp_all
        exact hlt.le
      obtain ⟨u1, u2⟩ := upperBound_spec (pairwise_isSorted hs) hnan x
      have hub : upperBound bins x ≤ bins.length - 1 := (u2 _ (by omega)).mp (by rw [hlast]; exact hlt)
      have h00 := u2 0 (by omega)
      rw [hfirst] at h00
      unfold idxS
      rw [if_neg (by omega)]
      by_cases hp : 0 < upperBound bins x
      · have : RFl.lt x front = false := by
          rw [Bool.eq_false_iff, Ne, h00]; omega
        have hfx := RFl.le_of_not_lt (a := front) (by rw [← hfirst]; exact hnan _ (List.getElem_mem _))
          hxn this
        simp [hp, hfx, hle]
      · have : RFl.lt x front = true := h00.mpr (by omega)
        have hc : RFl.le front x ≠ true := fun hc => by
          rw [RFl.not_lt_of_le hc] at this; cases this
        simp [hp, hc]
    · rw [Bool.not_eq_true] at hlt
      rw [hbey x hx hlt]
      by_cases hle : RFl.le x back = true
      · have hxn := RFl.ne_nan_of_le_left hle
        have hfx : RFl.le front x = true := by
          rw [← hfirst]; exact RFl.le_trans (hsorted 0 (by omega)) (hge x hxn hlt)
        simp [hle, hfx]
      · simp [hle]

/-- C22: fewer than two edges give an empty histogram, and unsorted edges are a violated
requirement. -/
theorem C22_requirements (u : Bool) (ae : RFl rnd → RFl rnd → Bool) (bins xs : List (RFl rnd)) :
    (bins.length ≤ 1 → histogram u ae bins xs = .ok []) ∧
    (2 ≤ bins.length → (∃ i a b, bins[i]? = some a ∧ bins[i + 1]? = some b ∧ RFl.lt b a = true) →
      histogram u ae bins xs = .ub) := by
  refine ⟨fun h => by rw [histogram, if_pos h], fun hl hx => ?_⟩
  have : isSorted bins = false := by
    obtain ⟨i, a, b, ha, hb, hlt⟩ := hx
    clear hl
    induction bins generalizing i with
    | nil => simp at ha
    | cons c l ih =>
      cases l with
      | nil => simp at hb
      | cons d l =>
        cases i with
        | zero =>
          simp only [List.getElem?_cons_zero, List.getElem?_cons_succ, Option.some.injEq] at ha hb
          subst ha hb
          simp [isSorted, hlt]
        | succ i =>
          rw [isSorted, ih i (by simpa using ha) (by simpa using hb), Bool.and_false]
  rw [histogram, if_neg (by omega), this]
  rfl

theorem histogram_one_beyond (ae : RFl rnd → RFl rnd → Bool) (a b : ℚ) (hab : a ≤ b)
    (x : RFl rnd) (hx : RFl.lt x (RFl.fin b) = false) (hae : ae x (RFl.fin b) = true) :
    histogram false ae [RFl.fin a, RFl.fin b] [x] = .ok [1] := by
  have hs : [(RFl.fin a : RFl rnd), RFl.fin b].Pairwise fun a b => RFl.le a b = true := by
    simpa using hab
  obtain ⟨h, e, l, p, _⟩ := histogram_searched ae _ [x] (by simp) hs
  have hx' := idxS_beyond ae (by simp) hs x (by simpa using hx)
  simp only [List.length_cons, List.length_nil] at l
  match h, l with
  | [c], _ =>
    have := p 0 (by simp)
    simp only [List.countP_cons, List.countP_nil, List.getElem?_cons_zero, Option.some.injEq,
      hx'] at this
    simp [hae] at this
    rw [e, this]

/-- C22 is false of the code for infinite samples: when the last edge is finite and non-zero, `+∞`
is counted in the last bin, because it is `almost_equal` to that edge. -/
theorem C22_infinity_false (tol : ℚ) (ht : 0 < tol) (a b : ℚ) (hab : a ≤ b) (hb : b ≠ 0) :
    histogram false (almostEqual tol) [(RFl.fin a : RFl rnd), RFl.fin b] [RFl.inf false]
      = .ok [1] :=
  histogram_one_beyond _ a b hab _ (by simp) (C26_infinity_false tol ht false b hb)

/-- C22 is false of the code just above the last edge: in binary64 the sample 2 is counted in the
bin `[0, 2 - 2^-52]` (default tolerance), by both algorithms. -/
theorem C22_above_false :
    histogram false (almostEqual tol64) [(RFl.fin 0 : F64), RFl.fin (2 - 1 / 2 ^ 52)] [RFl.fin 2]
      = .ok [1] ∧
    histogram true (almostEqual tol64) [(RFl.fin 0 : F64), RFl.fin (2 - 1 / 2 ^ 52)] [RFl.fin 2]
      = .ok [1] :=
  ⟨histogram_one_beyond _ 0 _ (by norm_num) _ (by decide +kernel) (by decide +kernel),
    by decide +kernel⟩

/-- C22: the hypotheses of `C22_counts_partial` are met by binary64, edges `0, 1, 1, 4` and the
samples `0, 1, 4, NaN, -∞, 5`. -/
example : rnd64 0 = 0 ∧ (∀ x, 0 ≤ x → 0 ≤ rnd64 x) ∧
    ([0, 1, 1, 4].map (RFl.fin (rnd := rnd64))).Pairwise (fun a b => RFl.le a b = true) ∧
    ∀ x ∈ [RFl.fin 0, RFl.fin 1, RFl.fin 4, RFl.nan, RFl.inf true, (RFl.fin 5 : F64)],
      RFl.lt (RFl.fin 4) x = true → almostEqual tol64 x (RFl.fin 4) = false :=
  ⟨rnd64_zero, fun x h => by have := rnd64_mono h; rwa [rnd64_zero] at this,
    by decide +kernel, by decide +kernel⟩

/-! ## C23 — the two algorithms agree -/

/-- The bin the index-computing loop selects for `x`, exact arithmetic. -/
def idxU (ae : RFl id → RFl id → Bool) (b0 step : ℚ) (n : ℕ) (back x : RFl id) : Option ℕ :=
  let pos : RFl id := (x - RFl.fin b0) / RFl.fin step
  if RFl.le (RFl.fin n) pos then (if ae x back then some (n - 1) else none)
  else match (pos : Fl) with
    | .fin q => if 0 ≤ q then some ⌊q⌋₊ else none
    | _ => none

/-- Equally spaced edges. -/
def uniformBins (b0 step : ℚ) (n : ℕ) : List (RFl id) :=
  (List.range (n + 1)).map fun i : ℕ => RFl.fin (b0 + (i : ℚ) * step)

theorem uniformBins_length (b0 step : ℚ) (n : ℕ) : (uniformBins b0 step n).length = n + 1 := by
  simp [uniformBins]

theorem uniformBins_get (b0 step : ℚ) (n i : ℕ) (h : i < (uniformBins b0 step n).length) :
    (uniformBins b0 step n)[i] = RFl.fin (b0 + (i : ℚ) * step) := by
  simp [uniformBins]

theorem uniformBins_sorted (b0 step : ℚ) (n : ℕ) (hs : 0 < step) :
    (uniformBins b0 step n).Pairwise fun a b => RFl.le a b = true := by
  unfold uniformBins
  rw [List.pairwise_map]
  refine List.Pairwise.imp ?_ List.pairwise_lt_range
  intro i j hij
  simp only [RFl.le_fin, decide_eq_true_eq]
  have : (i : ℚ) * step ≤ j * step := by
    apply mul_le_mul_of_nonneg_right _ hs.le
    exact_mod_cast hij.le
  linarith

theorem histogram_uniform (ae : RFl id → RFl id → Bool) (b0 step : ℚ) (n : ℕ) (hn : 1 ≤ n)
    (hs : 0 < step) (xs : List (RFl id)) :
    ∃ h, histogram true ae (uniformBins b0 step n) xs = .ok h ∧ h.length = n ∧
      (∀ i, i < n → h[i]? = some (xs.countP fun x =>
        idxU ae b0 step n (RFl.fin (b0 + (n : ℚ) * step)) x == some i)) ∧
      h.sum = xs.countP fun x => (idxU ae b0 step n (RFl.fin (b0 + (n : ℚ) * step)) x).isSome := by
  set back : RFl id := RFl.fin (b0 + (n : ℚ) * step) with hback
  have hstep : ∀ (hist : List ℕ) (x : RFl id), hist.length = n →
      histStepU ae (RFl.fin b0) back (RFl.fin step) hist x
        = match idxU ae b0 step n back x with
          | none => .ok hist
          | some i => incr hist i := by
    intro hist x hh
    unfold histStepU idxU
    simp only [hh, show ((n : ℕ) : RFl id) = RFl.fin (n : ℚ) from rfl]
    generalize (x - RFl.fin b0) / RFl.fin step = pos
    by_cases h1 : RFl.le (RFl.fin (n : ℚ)) pos = true
    · simp only [h1, if_true]
      split_ifs
      · rfl
      · rfl
    · simp only [h1, Bool.false_eq_true, if_false]
      rcases RFl.cases pos with rfl | ⟨s, rfl⟩ | ⟨q, rfl⟩
      · rfl
      · cases s
        · exact absurd rfl h1
        · rfl
      · simp only [RFl.le_fin, decide_eq_true_eq]
        show _ = match (if 0 ≤ q then some ⌊q⌋₊ else none) with
          | none => Res.ok hist
          | some i => incr hist i
        by_cases hq : 0 ≤ q
        · rw [if_pos hq, if_pos hq]
          have : RFl.toSize (RFl.fin q : RFl id) = .ok ⌊q⌋₊ := by
            show (if q ≤ -1 then Res.ub else _) = _
            rw [if_neg (by linarith)]
          rw [this]; rfl
        · rw [if_neg hq, if_neg hq]
  have hidx : ∀ x i, idxU ae b0 step n back x = some i → i < n := by
    intro x i h
    unfold idxU at h
    generalize (x - RFl.fin b0) / RFl.fin step = pos at h
    simp only at h
    split_ifs at h with h1 h2
    · simp only [Option.some.injEq] at h; omega
    · rcases RFl.cases pos with rfl | ⟨s, rfl⟩ | ⟨q, rfl⟩
      · cases h
      · cases h
      · have h' : (if 0 ≤ q then some ⌊q⌋₊ else none) = some i := h
        split_ifs at h' with hq
        simp only [Option.some.injEq] at h'
        subst h'
        rw [Nat.floor_lt hq]
        simpa using h1
  obtain ⟨h, e, l, p, q⟩ := histLoop_count n _ _ hidx hstep xs (List.replicate n 0) (by simp)
  refine ⟨h, ?_, l, fun i hi => ?_, by simpa using q⟩
  · unfold histogram
    rw [if_neg (by rw [uniformBins_length]; omega),
      pairwise_isSorted (uniformBins_sorted b0 step n hs)]
    have hl := uniformBins_length b0 step n
    have e0 : rd (uniformBins b0 step n) 0 = .ok (RFl.fin b0) := by
      have := rd_nat (uniformBins b0 step n) 0 (by omega)
      rw [uniformBins_get] at this
      simpa using this
    have e1 : rd (uniformBins b0 step n) 1 = .ok (RFl.fin (b0 + step)) := by
      have := rd_nat (uniformBins b0 step n) 1 (by omega)
      rw [uniformBins_get] at this
      simpa using this
    have e2 : rd (uniformBins b0 step n) (((uniformBins b0 step n).length : ℤ) - 1) = .ok back := by
      have := rd_nat (uniformBins b0 step n) n (by omega)
      rw [uniformBins_get] at this
      rw [hl, show ((n + 1 : ℕ) : ℤ) - 1 = (n : ℤ) by push_cast; ring, this]
    rw [hl] at e2
    have e3 : (RFl.fin (b0 + step) - RFl.fin b0 : RFl id) = RFl.fin step := by
      rw [RFl.sub_fin]; simp
    simp only [require_true, Res.bind_ok, e0, e1, e2, e3, if_true, RFl.lt_fin, hs, decide_true, hl,
      Nat.add_sub_cancel]
    exact e
  · simpa using p i 0 (by simp [hi])

theorem idxU_eq_idxS (tol : ℚ) (b0 step : ℚ) (n : ℕ) (hn : 1 ≤ n) (hs : 0 < step) (x : RFl id) :
    idxU (almostEqual tol) b0 step n (RFl.fin (b0 + (n : ℚ) * step)) x
      = idxS (almostEqual tol) (uniformBins b0 step n) (RFl.fin (b0 + (n : ℚ) * step)) x := by
  have hl := uniformBins_length b0 step n
  have hsort := uniformBins_sorted b0 step n hs
  have hlast : (uniformBins b0 step n)[(uniformBins b0 step n).length - 1]'(by omega)
      = RFl.fin (b0 + (n : ℚ) * step) := by
    rw [uniformBins_get, hl]; simp
  have hbey := idxS_beyond (almostEqual tol) (by omega) hsort x
  have heq := idxS_eq (almostEqual tol) (by omega) hsort x
  simp only [hlast] at hbey heq
  rcases RFl.cases x with rfl | ⟨s, rfl⟩ | ⟨q, rfl⟩
  · rw [hbey (by simp)]
    have : almostEqual tol (RFl.nan : RFl id) (RFl.fin (b0 + (n : ℚ) * step)) = false :=
      almostEqual_nan_left tol (by simp)
    simp only [idxU, this, RFl.nan_sub, RFl.nan_div, RFl.le_nan, Bool.false_eq_true, if_false]
    rfl
  · unfold idxU
    rw [RFl.inf_sub_fin, RFl.inf_div_pos s hs]
    cases s
    · rw [hbey (by simp), hl]; simp
    · simp only [RFl.fin_le_inf, Bool.not_true, Bool.false_eq_true, if_false]
      have hub : upperBound (uniformBins b0 step n) (RFl.inf true) = 0 := by
        have := (upperBound_spec (pairwise_isSorted hsort)
          (pairwise_ne_nan (by omega) hsort) (RFl.inf true)).2 0 (by omega)
        rw [uniformBins_get] at this
        have := this.mp (by simp)
        omega
      unfold idxS
      rw [hub, if_neg (by omega)]; rfl
  · unfold idxU
    rw [RFl.sub_fin, RFl.div_fin hs.ne']
    simp only [id, RFl.le_fin, decide_eq_true_eq]
    by_cases hb : (n : ℚ) ≤ (q - b0) / step
    · rw [if_pos hb, hbey (by
        rw [le_div_iff₀ hs] at hb
        simp only [RFl.lt_fin, decide_eq_false_iff_not, not_lt]; linarith), hl]
      simp
    · rw [if_neg hb]
      show (if 0 ≤ (q - b0) / step then some ⌊(q - b0) / step⌋₊ else none) = _
      have hb' := hb
      rw [not_le, div_lt_iff₀ hs] at hb'
      have hlt : RFl.lt (RFl.fin q : RFl id) (RFl.fin (b0 + (n : ℚ) * step)) = true := by
        simp only [RFl.lt_fin, decide_eq_true_eq]; linarith
      by_cases h0 : 0 ≤ (q - b0) / step
      · rw [if_pos h0]
        have hfl : ⌊(q - b0) / step⌋₊ < n := by rw [Nat.floor_lt h0]; exact not_le.mp hb
        have := heq ⌊(q - b0) / step⌋₊ (by omega) hlt
        rw [uniformBins_get, uniformBins_get] at this
        symm
        rw [this]
        have f1 := Nat.floor_le h0
        have f2 := Nat.lt_floor_add_one ((q - b0) / step)
        rw [le_div_iff₀ hs] at f1
        rw [div_lt_iff₀ hs] at f2
        simp only [RFl.le_fin, RFl.lt_fin, decide_eq_true_eq]
        push_cast
        constructor <;> linarith
      · rw [if_neg h0]
        symm
        have hub : upperBound (uniformBins b0 step n) (RFl.fin q) = 0 := by
          have := (upperBound_spec (pairwise_isSorted hsort)
            (pairwise_ne_nan (by omega) hsort) (RFl.fin q)).2 0 (by omega)
          rw [uniformBins_get] at this
          have := this.mp (by
            rw [not_le, div_lt_iff₀ hs] at h0
            simp only [RFl.lt_fin, decide_eq_true_eq]; push_cast; linarith)
          omega
        unfold idxS
        rw [hub, if_neg (by omega)]; rfl

/-- C23: on equally spaced edges (any start, any positive spacing, any number of bins) the
index-computing histogram and the binary-search histogram return the same counts, for every list of
samples including NaN and infinities (exact arithmetic). -/
theorem C23_uniform_eq_searched (tol b0 step : ℚ) (n : ℕ) (hn : 1 ≤ n) (hs : 0 < step)
    (xs : List (RFl id)) :
    let bins : List (RFl id) := (List.range (n + 1)).map fun i : ℕ => RFl.fin (b0 + (i : ℚ) * step)
    ∃ h, histogram true (almostEqual tol) bins xs = .ok h ∧
      histogram false (almostEqual tol) bins xs = .ok h := by
  intro bins
  have hl := uniformBins_length b0 step n
  obtain ⟨h, e, l, p, _⟩ := histogram_uniform (almostEqual tol) b0 step n hn hs xs
  obtain ⟨h', e', l', p', _⟩ := histogram_searched (almostEqual tol) (uniformBins b0 step n) xs
    (by omega) (uniformBins_sorted b0 step n hs)
  have : h = h' := by
    apply List.ext_getElem? fun i => ?_
    by_cases hi : i < n
    · rw [p i hi, p' i (by omega)]
      congr 1
      refine List.countP_congr fun x _ => ?_
      rw [idxU_eq_idxS tol b0 step n hn hs x, uniformBins_get]
      simp [hl]
    · rw [List.getElem?_eq_none (by omega), List.getElem?_eq_none (by omega)]
  exact ⟨h, e, by rw [this]; exact e'⟩

/-- C23 does not survive rounding: with the binary64 edges `linspace(-5., 0., 4)` the edge
`bins[2]`, used as a sample, is counted in bin 1 by the index computation
(`(bins[2] - bins[0]) / (bins[1] - bins[0])` rounds to `2 - 2^-52`) and in bin 2 by the search. -/
theorem C23_binary64_false :
    let bins : List F64 := linspace (RFl.fin (-5)) (RFl.fin 0) 4
    ∃ x, bins[2]? = some x ∧
      histogram true (almostEqual tol64) bins [x] = .ok [0, 1, 0] ∧
      histogram false (almostEqual tol64) bins [x] = .ok [0, 0, 1] := by
  have hbins : (linspace (RFl.fin (-5)) (RFl.fin 0) 4 : List F64)
      = [RFl.fin (-5), RFl.fin (-3752999689475413 / 2 ^ 50), RFl.fin (-3752999689475413 / 2 ^ 51),
         RFl.fin 0] := by decide +kernel
  refine ⟨RFl.fin (-3752999689475413 / 2 ^ 51), by rw [hbins]; rfl, by decide +kernel, ?_⟩
  rw [hbins]
  have hs : ([RFl.fin (-5), RFl.fin (-3752999689475413 / 2 ^ 50),
      RFl.fin (-3752999689475413 / 2 ^ 51), RFl.fin 0] : List F64).Pairwise
        fun a b => RFl.le a b = true := by decide +kernel
  obtain ⟨h, e, l, p, _⟩ := histogram_searched (almostEqual tol64) _
    [RFl.fin (-3752999689475413 / 2 ^ 51)] (by simp) hs
  have hx := (idxS_eq (almostEqual tol64) (by simp) hs (RFl.fin (-3752999689475413 / 2 ^ 51)) 2
    (by simp) (by decide +kernel)).mpr (by decide +kernel)
  rw [e]
  simp only [List.countP_cons, List.countP_nil, hx] at p
  simp only [List.length_cons, List.length_nil] at l
  match h, l with
  | [c0, c1, c2], _ =>
    have p0 := p 0 (by simp)
    have p1 := p 1 (by simp)
    have p2 := p 2 (by simp)
    simp at p0 p1 p2
    rw [p0, p1, p2]

/-! ## C24 — density -/

theorem sum_range_getD (l : List ℕ) : ∑ i ∈ Finset.range l.length, l.getD i 0 = l.sum := by
  induction l with
  | nil => rfl
  | cons a l ih =>
    rw [List.length_cons, Finset.sum_range_succ', List.sum_cons, Nat.add_comm]
    simp only [List.getD_cons_succ, List.getD_cons_zero, ih]

/-- C24: for every non-empty count (below 2^31, the `int` it is cast to) and every list of pairwise
distinct consecutive edges, the density is `hist[i] / (total · width_i)`, so the densities times the
widths sum to 1 (exact arithmetic). -/
theorem C24_density {K : Type} [Field K] [CharZero K] (hist : List ℕ) (bins : List K)
    (hl : hist.length + 1 = bins.length) (hpos : 0 < hist.sum) (hlt : hist.sum < 2 ^ 31)
    (hne : ∀ i a b, bins[i]? = some a → bins[i + 1]? = some b → a ≠ b) :
    ∃ d, densityOf hist bins = .ok d ∧ d.length = hist.length ∧
      (∀ i, i < hist.length → d.getD i 0 * (bins.getD (i + 1) 0 - bins.getD i 0)
        = (hist.getD i 0 : K) / (hist.sum : K)) ∧
      ∑ i ∈ Finset.range hist.length, d.getD i 0 * (bins.getD (i + 1) 0 - bins.getD i 0) = 1 := by
  have hi32 : toI32 ((hist.sum : ℕ) : ℤ) = hist.sum := toI32_of_lt (by omega) (by exact_mod_cast hlt)
  have hw : diffVec bins 1 = .ok (adjDiff bins).tail := by
    have := diffVecLoop_eq 1 bins
    simp only [diffArr, diffOnceArr_eq] at this
    simpa [diffVec] using this
  have hwl : (adjDiff bins).tail.length = hist.length := by rw [diffOnce_length]; omega
  have hS : ((hist.sum : ℕ) : K) ≠ 0 := by exact_mod_cast hpos.ne'
  refine ⟨List.zipWith (fun (h : ℕ) (d : K) => (h : K) / d) hist
      ((adjDiff bins).tail.map fun d => ((hist.sum : ℕ) : K) * d), ?_,
      by rw [List.length_zipWith, List.length_map, hwl, Nat.min_self], ?_⟩
  · unfold densityOf
    rw [hw, hi32]
    simp only [Res.bind_ok]
    rw [map2_eq _ _ _ (by rw [List.length_map, hwl])]
    simp only [Int.cast_natCast]
  · have key : ∀ i, i < hist.length →
        (List.zipWith (fun (h : ℕ) (d : K) => (h : K) / d) hist
          ((adjDiff bins).tail.map fun d => ((hist.sum : ℕ) : K) * d)).getD i 0
          * (bins.getD (i + 1) 0 - bins.getD i 0) = (hist.getD i 0 : K) / (hist.sum : K) := by
      intro i hi
      have hb1 : i + 1 < bins.length := by omega
      have hd := hne i bins[i] bins[i + 1] (List.getElem?_eq_getElem (by omega))
        (List.getElem?_eq_getElem hb1)
      have hd' : bins[i + 1] - bins[i] ≠ 0 := sub_ne_zero.mpr (Ne.symm hd)
      have hg := diffOnce_get bins i hb1
      have hi' : i < (adjDiff bins).tail.length := by omega
      rw [List.getD_eq_getElem?_getD, List.getElem?_eq_getElem
        (by rw [List.length_zipWith, List.length_map, hwl, Nat.min_self]; exact hi)]
      simp only [List.getElem_zipWith, List.getElem_map, hg, Option.getD_some,
        List.getD_eq_getElem?_getD, List.getElem?_eq_getElem hb1,
        List.getElem?_eq_getElem (show i < bins.length by omega), List.getElem?_eq_getElem hi]
      field_simp
    refine ⟨key, ?_⟩
    rw [Finset.sum_congr rfl (fun i hi => key i (Finset.mem_range.mp hi)), ← Finset.sum_div,
      div_eq_one_iff_eq hS]
    rw [← Nat.cast_sum, sum_range_getD]

/-- C24 is false of the code when the total reaches 2^31: the total is cast to `int`, e.g.
`3·2^30` samples in one bin of width 1 get the density `-3`. -/
theorem C24_overflow_false : densityOf [3 * 2 ^ 30] [(0 : ℚ), 1] = .ok [-3] := by
  have h : toI32 (3221225472 : ℤ) = -1073741824 := by decide
  simp [densityOf, diffVec, diffVecLoop, diffOnceVec, adjDiff, adjDiffLoop, map2, transform2, h]
  norm_num

example : densityOf [1, 3] [(0 : ℚ), 1, 3] = .ok [1 / 4, 3 / 8] := by
  have h : toI32 (4 : ℤ) = 4 := by decide
  simp [densityOf, diffVec, diffVecLoop, diffOnceVec, adjDiff, adjDiffLoop, map2, transform2, h]
  norm_num

/-! ## C25 — automatic edges -/

theorem minElement_fin (x : ℚ) (xs : List ℚ) :
    minElement RFl.lt (RFl.fin x : RFl rnd) (xs.map RFl.fin)
      = RFl.fin (minElement (fun a b => decide (a < b)) x xs) := by
  induction xs generalizing x with
  | nil => rfl
  | cons y ys ih =>
    simp only [List.map_cons, minElement, RFl.lt_fin]
    by_cases h : y < x
    · simp only [h, decide_true, if_true]; exact ih _
    · simp only [h, decide_false, Bool.false_eq_true, if_false]; exact ih _

theorem maxElement_fin (x : ℚ) (xs : List ℚ) :
    maxElement RFl.lt (RFl.fin x : RFl rnd) (xs.map RFl.fin)
      = RFl.fin (maxElement (fun a b => decide (a < b)) x xs) := by
  induction xs generalizing x with
  | nil => rfl
  | cons y ys ih =>
    simp only [List.map_cons, maxElement, RFl.lt_fin]
    by_cases h : x < y
    · simp only [h, decide_true, if_true]; exact ih _
    · simp only [h, decide_false, Bool.false_eq_true, if_false]; exact ih _

theorem linspace_uniformBins (a b : ℚ) (n : ℕ) (hn : 1 ≤ n) :
    linspace (RFl.fin a : RFl id) (RFl.fin b) (n + 1) = uniformBins a ((b - a) / n) n := by
  unfold linspace uniformBins
  rw [if_neg (by omega), if_neg (by omega), iota_id, List.map_map]
  refine List.map_congr_left fun i _ => ?_
  simp only [Function.comp, Nat.add_sub_cancel, RFl.natCast_fin, RFl.sub_fin, id]
  rw [RFl.div_fin (by rw [Nat.cast_ne_zero]; omega)]
  simp

/-- Exact coverage of `[a, b]` by `n` equal bins: every finite sample in `[a, b]` is counted. -/
theorem histogram_covers (tol : ℚ) (ht : 0 ≤ tol) (a b : ℚ) (hab : a < b) (n : ℕ) (hn : 1 ≤ n)
    (xs : List ℚ) (hx : ∀ x ∈ xs, a ≤ x ∧ x ≤ b) :
    ∃ h, histogram true (almostEqual tol) (linspace (RFl.fin a : RFl id) (RFl.fin b) (n + 1))
        (xs.map RFl.fin) = .ok h ∧ h.length = n ∧ h.sum = xs.length := by
  have hn0 : (0 : ℚ) < n := by exact_mod_cast hn
  have hs : 0 < (b - a) / n := div_pos (by linarith) hn0
  have hback : a + (n : ℚ) * ((b - a) / n) = b := by field_simp; ring
  obtain ⟨h, e, l, _, q⟩ := histogram_uniform (almostEqual tol) a ((b - a) / n) n hn hs
    (xs.map RFl.fin)
  rw [linspace_uniformBins a b n hn]
  refine ⟨h, e, l, ?_⟩
  rw [q, hback, List.countP_map]
  have : xs.length = xs.countP fun _ => true := by simp
  rw [this]
  refine List.countP_congr fun x hxm => ?_
  obtain ⟨h1, h2⟩ := hx x hxm
  simp only [Function.comp, iff_true]
  unfold idxU
  rw [RFl.sub_fin, RFl.div_fin hs.ne']
  simp only [id, RFl.le_fin, decide_eq_true_eq]
  by_cases hb : (n : ℚ) ≤ (x - a) / ((b - a) / n)
  · rw [if_pos hb]
    rw [le_div_iff₀ hs] at hb
    have : x = b := by linarith
    rw [this, if_pos (C26_refl (rnd := id) rfl (fun _ h => h) tol ht _)]
    rfl
  · rw [if_neg hb]
    show (if 0 ≤ (x - a) / ((b - a) / n) then some ⌊(x - a) / ((b - a) / n)⌋₊ else none).isSome = true
    rw [if_pos (div_nonneg (by linarith) hs.le)]
    rfl

/-- C25 (partial: exact arithmetic): for every non-empty list of finite samples and every number of
bins `n ≥ 1`, `histogram(x, n)` returns `n` counts and `n + 1` equally spaced edges, from the minimum
to the maximum (both widened by 1/2 when they are almost equal), and every sample is counted.
Missing: rounding, see `C25_binary64_false`. -/
theorem C25_coverage_partial (tol : ℚ) (ht : 0 ≤ tol) (xs : List ℚ) (lo hi : ℚ)
    (hlo : lo ∈ xs) (hhi : hi ∈ xs) (hb : ∀ x ∈ xs, lo ≤ x ∧ x ≤ hi) (n : ℕ) (hn : 1 ≤ n) :
    let w : ℚ := if almostEqual tol (RFl.fin lo : RFl id) (RFl.fin hi) then 1 / 2 else 0
    ∃ h, histogramAuto (almostEqual tol) (xs.map (RFl.fin (rnd := id))) n
        = .ok (h, (List.range (n + 1)).map fun i : ℕ =>
            RFl.fin ((lo - w) + (i : ℚ) * ((hi + w - (lo - w)) / n))) ∧
      h.length = n ∧ h.sum = xs.length := by
  intro w
  match xs, hlo with
  | x :: ys, hlo =>
  have hmin : amin RFl.nan RFl.lt ((x :: ys).map (RFl.fin (rnd := id))) = RFl.fin lo := by
    rw [List.map_cons, amin, minElement_fin]
    obtain ⟨m1, m2⟩ := minElement_spec x ys
    exact congrArg RFl.fin (le_antisymm (m2 lo hlo) (hb _ m1).1)
  have hmax : amax RFl.nan RFl.lt ((x :: ys).map (RFl.fin (rnd := id))) = RFl.fin hi := by
    rw [List.map_cons, amax, maxElement_fin]
    obtain ⟨m1, m2⟩ := maxElement_spec x ys
    exact congrArg RFl.fin (le_antisymm (hb _ m1).2 (m2 hi hhi))
  have hedges : histogramBinEdges (almostEqual tol) ((x :: ys).map (RFl.fin (rnd := id))) n
      = linspace (RFl.fin (lo - w) : RFl id) (RFl.fin (hi + w)) (n + 1) := by
    unfold histogramBinEdges outerEdges
    rw [hmin, hmax]
    simp only [List.map_cons, List.isEmpty_cons, Bool.false_eq_true, if_false, w]
    split_ifs
    · rw [RFl.sub_fin, RFl.add_fin]; rfl
    · simp
  have hlohi : lo ≤ hi := (hb lo hlo).2
  have hlt : lo - w < hi + w := by
    simp only [w]
    split_ifs with h
    · linarith
    · have : lo ≠ hi := by
        rintro rfl
        exact h (C26_refl (rnd := id) rfl (fun _ h => h) tol ht _)
      have := lt_of_le_of_ne hlohi this
      linarith
  have hw : 0 ≤ w := by simp only [w]; split_ifs <;> norm_num
  obtain ⟨h, e, l, q⟩ := histogram_covers tol ht (lo - w) (hi + w) hlt n hn (x :: ys)
    (fun y hy => ⟨by linarith [(hb y hy).1], by linarith [(hb y hy).2]⟩)
  refine ⟨h, ?_, l, q⟩
  unfold histogramAuto
  simp only [hedges, e, Res.bind_ok, Res.pure_eq]
  rw [linspace_uniformBins _ _ n hn]
  rfl

/-- C25 is false of the code in binary64: `histogram({-29., 0.}, 7)` loses the maximum: the last
edge computed by linspace is `2^-48`, to which 0 is not almost equal, and the index computed for 0
is `7`. -/
theorem C25_binary64_false :
    ∃ bins, histogramAuto (almostEqual tol64) [(RFl.fin (-29) : F64), RFl.fin 0] 7
      = .ok ([1, 0, 0, 0, 0, 0, 0], bins) ∧ bins.getLast? = some (RFl.fin (1 / 2 ^ 48)) := by
  refine ⟨linspace (RFl.fin (-29)) (RFl.fin 0) 8, by decide +kernel, by decide +kernel⟩

/-- C25 is false of the code when the first sample is NaN: the edges are all NaN and the requirement
`step > 0` is violated. -/
theorem C25_nan_false (tol : ℚ) (xs : List (RFl rnd)) (n : ℕ) (hn : 1 ≤ n) :
    histogramAuto (almostEqual tol) (RFl.nan :: xs) n = .ub := by
  have hmin : ∀ l : List (RFl rnd), minElement RFl.lt RFl.nan l = RFl.nan := by
    intro l
    induction l with
    | nil => rfl
    | cons y l ih => simp [minElement, ih]
  have hmax : ∀ l : List (RFl rnd), maxElement RFl.lt RFl.nan l = RFl.nan := by
    intro l
    induction l with
    | nil => rfl
    | cons y l ih => simp [maxElement, ih]
  have hadd : ∀ a : RFl rnd, RFl.nan + a = RFl.nan := by
    intro a
    rcases RFl.cases a with rfl | ⟨s, rfl⟩ | ⟨q, rfl⟩ <;> rfl
  have hedges : histogramBinEdges (almostEqual tol) (RFl.nan :: xs) n
      = List.replicate (n + 1) (RFl.nan : RFl rnd) := by
    unfold histogramBinEdges outerEdges
    simp only [List.isEmpty_cons, Bool.false_eq_true, if_false, amin, amax, hmin, hmax, hadd,
      RFl.nan_sub, ite_self]
    unfold linspace
    rw [if_neg (by omega), if_neg (by omega)]
    simp only [hadd]
    rw [List.map_const', iota_length]
  unfold histogramAuto
  simp only [hedges]
  have : histogram true (almostEqual tol) (List.replicate (n + 1) RFl.nan) (RFl.nan :: xs)
      = .ub := by
    unfold histogram
    rw [if_neg (by simp; omega)]
    have e0 : rd (List.replicate (n + 1) (RFl.nan : RFl rnd)) 0 = .ok RFl.nan := by
      have := rd_nat (List.replicate (n + 1) (RFl.nan : RFl rnd)) 0 (by simp)
      simpa using this
    have e1 : rd (List.replicate (n + 1) (RFl.nan : RFl rnd)) 1 = .ok RFl.nan := by
      have := rd_nat (List.replicate (n + 1) (RFl.nan : RFl rnd)) 1 (by simp; omega)
      simpa using this
    have e2 : rd (List.replicate (n + 1) (RFl.nan : RFl rnd)) ((n + 1 : ℕ) - 1) = .ok RFl.nan := by
      have := rd_nat (List.replicate (n + 1) (RFl.nan : RFl rnd)) n (by simp)
      rw [show ((n + 1 : ℕ) : ℤ) - 1 = (n : ℤ) by push_cast; ring]
      simpa using this
    cases isSorted (List.replicate (n + 1) (RFl.nan : RFl rnd))
    · rfl
    · simp only [require_true, Res.bind_ok, e0, e1, List.length_replicate, e2, if_true,
        RFl.nan_sub, RFl.lt_nan, require_false, Res.bind_ub]
  rw [this]
  rfl

/-- C25: the hypotheses of `C25_coverage_partial` are met by the samples `3, -1, 2, 2`. -/
example : (-1 : ℚ) ∈ [3, -1, 2, (2 : ℚ)] ∧ (3 : ℚ) ∈ [3, -1, 2, (2 : ℚ)] ∧
    ∀ x ∈ [3, -1, 2, (2 : ℚ)], -1 ≤ x ∧ x ≤ 3 := by
  refine ⟨by simp, by simp, ?_⟩
  intro x hx
  simp at hx
  rcases hx with rfl | rfl | rfl <;> norm_num

/-- C25: with `nbins = 0` a single edge is returned and nothing is counted. -/
theorem C25_zero_bins (ae : RFl rnd → RFl rnd → Bool) (xs : List (RFl rnd)) :
    ∃ e, histogramAuto ae xs 0 = .ok ([], [e]) := by
  refine ⟨(outerEdges ae xs).1, ?_⟩
  simp [histogramAuto, histogramBinEdges, linspace, histogram]

/-- C25 (no samples): an empty array gives `n` empty bins of equal width over `[0, 1]`. -/
theorem C25_empty (tol : ℚ) (ht : 0 ≤ tol) (n : ℕ) (hn : 1 ≤ n) :
    histogramAuto (almostEqual tol) ([] : List (RFl id)) n = .ok (List.replicate n 0,
      (List.range (n + 1)).map fun i : ℕ => RFl.fin ((i : ℚ) / n)) := by
  have he : histogramBinEdges (almostEqual tol) ([] : List (RFl id)) n
      = linspace (RFl.fin 0 : RFl id) (RFl.fin 1) (n + 1) := rfl
  obtain ⟨h, e, l, q⟩ := histogram_covers tol ht 0 1 (by norm_num) n hn [] (by simp)
  have hz : h = List.replicate n 0 := by
    rw [List.eq_replicate_iff]
    refine ⟨l, fun b hb => ?_⟩
    have := List.le_sum_of_mem hb
    simp at q
    omega
  unfold histogramAuto
  simp only [he, List.map_nil] at e ⊢
  simp only [e, Res.bind_ok, Res.pure_eq]
  rw [linspace_uniformBins _ _ n hn, hz]
  unfold uniformBins
  congr 2
  refine List.map_congr_left fun i _ => ?_
  congr 1; ring

end SciCpp
