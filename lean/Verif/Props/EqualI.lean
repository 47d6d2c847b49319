import Verif.Props.HistF
import Verif.Props.Equal
import Verif.Proofs.IeeeIdem
/-
  Property theorems C26 (`almost_equal`) and C111 (outer edges of a histogram) in the arithmetic of a format, with overflow and
  underflow.
-/
namespace SciCpp
open Spec

variable {f : Fmt}

theorem absI_fin (q : ℚ) : IFl.abs (IFl.fin q : IFl f) = IFl.fin |q| := rfl

theorem maxI_fin (a b : ℚ) : IFl.max (IFl.fin a : IFl f) (IFl.fin b) = IFl.fin (max a b) := by
  have h : IFl.lt (IFl.fin a : IFl f) (IFl.fin b) = decide (a < b) := rfl
  unfold IFl.max
  rw [h]
  by_cases hab : a < b
  · rw [if_pos (by simpa using hab), max_eq_right hab.le]
  · rw [if_neg (by simpa using hab), max_eq_left (not_lt.1 hab)]

/-- Comparison of a rounded difference with a finite number. -/
theorem le_abs_ofQ (x t : ℚ) (ht : t < (2 : ℚ) ^ f.emax) :
    IFl.le (IFl.abs (IFl.ofQ x : IFl f)) (IFl.fin t) = decide (|f.rnd x| ≤ t) := by
  unfold IFl.ofQ Fmt.ofRat
  split_ifs with h
  · have : ¬ |f.rnd x| ≤ t := fun h' => absurd (h.trans h') (not_le.2 ht)
    rw [decide_eq_false this]; rfl
  · rfl

/-- C26 in IEEE arithmetic: the complete condition for two finite numbers; overflow of the difference and underflow included. -/
theorem C26_ieee_finite (tol a b : ℚ) (ht : 0 ≤ tol) (ht1 : tol ≤ 1) (he : 1 < (2 : ℚ) ^ f.emax) (ha : f.rnd a = a)
    (hb : f.rnd b = b) (ha' : |a| < (2 : ℚ) ^ f.emax) (hb' : |b| < (2 : ℚ) ^ f.emax) :
    fpEqualI tol (IFl.fin a : IFl f) (IFl.fin b) = true ↔
      ((a = 0 ∨ b = 0 ∨ max |a| |b| < tol) ∧ |f.rnd (a - b)| ≤ tol) ∨
      (a ≠ 0 ∧ b ≠ 0 ∧ tol ≤ max |a| |b| ∧ |f.rnd (a - b)| ≤ f.rnd (tol * max |a| |b|)) := by
  have hM : f.rnd (max |a| |b|) = max |a| |b| := by
    have habs : ∀ x : ℚ, f.rnd x = x → f.rnd |x| = |x| := by
      intro x hx
      rcases abs_cases x with ⟨e, _⟩ | ⟨e, _⟩ <;> rw [e]
      · exact hx
      · rw [f.rnd_neg, hx]
    rcases max_choice |a| |b| with e | e <;> rw [e]
    · exact habs a ha
    · exact habs b hb
  have hM0 : 0 ≤ max |a| |b| := (abs_nonneg a).trans (le_max_left _ _)
  have hMe : max |a| |b| < (2 : ℚ) ^ f.emax := max_lt ha' hb'
  have hp : f.rnd (tol * max |a| |b|) ≤ max |a| |b| := by
    conv_rhs => rw [← hM]
    exact f.rnd_mono (by nlinarith)
  have hp0 : 0 ≤ f.rnd (tol * max |a| |b|) := f.rnd_nonneg (mul_nonneg ht hM0)
  have hprod : (IFl.fin tol * IFl.fin (max |a| |b|) : IFl f) = IFl.fin (f.rnd (tol * max |a| |b|)) := by
    show f.ofRat _ = _
    rw [f.ofRat_fin (by rw [abs_of_nonneg hp0]; linarith)]; rfl
  have hz : ∀ q : ℚ, IFl.isZero (IFl.fin q : IFl f) = decide (q = 0) := fun _ => rfl
  have hlt : IFl.lt (IFl.fin (max |a| |b|) : IFl f) (IFl.fin tol) = decide (max |a| |b| < tol) := rfl
  have h1 : ∀ q : ℚ, IFl.isNan (IFl.fin q : IFl f) = false := fun _ => rfl
  have h2 : ∀ q : ℚ, IFl.isInf (IFl.fin q : IFl f) = false := fun _ => rfl
  unfold fpEqualI
  simp only [h1, h2, Bool.and_self, Bool.false_eq_true, if_false, absI_fin, maxI_fin, IFl.sub_fin, hz, hlt, hprod]
  rw [le_abs_ofQ _ _ (by linarith), le_abs_ofQ _ _ (by linarith)]
  by_cases h : a = 0 ∨ b = 0 ∨ max |a| |b| < tol
  · have h' : (decide (a = 0) || decide (b = 0) || decide (max |a| |b| < tol)) = true := by simpa [or_assoc] using h
    rw [if_pos h', decide_eq_true_eq]
    refine ⟨fun e => .inl ⟨h, e⟩, ?_⟩
    rintro (⟨_, e⟩ | ⟨x, y, z, _⟩)
    · exact e
    · rcases h with h | h | h
      · exact absurd h x
      · exact absurd h y
      · exact absurd h (not_lt.2 z)
  · have h' : ¬ (decide (a = 0) || decide (b = 0) || decide (max |a| |b| < tol)) = true := by simpa [or_assoc] using h
    rw [if_neg h', decide_eq_true_eq]
    push Not at h
    refine ⟨fun e => .inr ⟨h.1, h.2.1, h.2.2, e⟩, ?_⟩
    rintro (⟨x, _⟩ | ⟨_, _, _, e⟩)
    · rcases x with x | x | x
      · exact absurd x h.1
      · exact absurd x h.2.1
      · exact absurd x (not_lt.2 h.2.2)
    · exact e

/-- C26 in IEEE arithmetic: reflexive on every value, NaN and infinities included. -/
theorem C26_ieee_refl (tol : ℚ) (ht : 0 ≤ tol) (a : IFl f) : fpEqualI tol a a = true := by
  rcases IFl.cases a with rfl | ⟨s, rfl⟩ | ⟨q, rfl⟩
  · rfl
  · unfold fpEqualI
    have h1 : IFl.isNan (IFl.inf s : IFl f) = false := rfl
    have h2 : IFl.isInf (IFl.inf s : IFl f) = true := rfl
    simp [h1, h2]
  · exact fpEqualI_refl tol ht q

theorem abs_ofQ_neg (x : ℚ) : IFl.abs (IFl.ofQ (-x) : IFl f) = IFl.abs (IFl.ofQ x) := by
  unfold IFl.ofQ Fmt.ofRat
  rw [f.rnd_neg, abs_neg]
  split_ifs with h
  · rfl
  · show IFl.fin |(-f.rnd x)| = IFl.fin |f.rnd x|
    rw [abs_neg]

/-- C26 in IEEE arithmetic: symmetric on all values. -/
theorem C26_ieee_symm (tol : ℚ) (a b : IFl f) : fpEqualI tol a b = fpEqualI tol b a := by
  rcases IFl.cases a with rfl | ⟨s, rfl⟩ | ⟨x, rfl⟩ <;> rcases IFl.cases b with rfl | ⟨t, rfl⟩ | ⟨y, rfl⟩
  · rfl
  · rfl
  · unfold fpEqualI
    have e : ∀ c : IFl f, IFl.le (IFl.abs (IFl.nan - IFl.fin y : IFl f)) c = false := fun _ => rfl
    have e' : ∀ c : IFl f, IFl.le (IFl.abs (IFl.fin y - IFl.nan : IFl f)) c = false := fun _ => rfl
    have i1 : IFl.isNan (IFl.fin y : IFl f) = false := rfl
    have i2 : IFl.isInf (IFl.fin y : IFl f) = false := rfl
    simp only [e, e', ite_self, i1, i2, Bool.and_false, Bool.false_and, Bool.false_eq_true, if_false]
  · rfl
  · unfold fpEqualI
    have h1 : ∀ s, IFl.isNan (IFl.inf s : IFl f) = false := fun _ => rfl
    have h2 : ∀ s, IFl.isInf (IFl.inf s : IFl f) = true := fun _ => rfl
    simp only [h1, h2, Bool.and_self, Bool.false_eq_true, if_false, if_true, Bool.beq_comm]
  · unfold fpEqualI
    have i0 : IFl.isNan (IFl.inf s : IFl f) = false := rfl
    have i1 : IFl.isNan (IFl.fin y : IFl f) = false := rfl
    have i2 : IFl.isInf (IFl.fin y : IFl f) = false := rfl
    have m1 : IFl.max (IFl.abs (IFl.inf s : IFl f)) (IFl.abs (IFl.fin y)) = IFl.inf false := rfl
    have m2 : IFl.max (IFl.abs (IFl.fin y)) (IFl.abs (IFl.inf s : IFl f)) = IFl.inf false := rfl
    have d1 : IFl.abs (IFl.inf s - IFl.fin y : IFl f) = IFl.inf false := rfl
    have d2 : IFl.abs (IFl.fin y - IFl.inf s : IFl f) = IFl.inf false := rfl
    simp only [i0, i1, i2, m1, m2, d1, d2, Bool.and_false, Bool.false_and, Bool.false_eq_true, if_false,
      Bool.or_comm (IFl.isZero (IFl.inf s : IFl f))]
  · unfold fpEqualI
    have e : ∀ c : IFl f, IFl.le (IFl.abs (IFl.nan - IFl.fin x : IFl f)) c = false := fun _ => rfl
    have e' : ∀ c : IFl f, IFl.le (IFl.abs (IFl.fin x - IFl.nan : IFl f)) c = false := fun _ => rfl
    have i1 : IFl.isNan (IFl.fin x : IFl f) = false := rfl
    have i2 : IFl.isInf (IFl.fin x : IFl f) = false := rfl
    simp only [e, e', ite_self, i1, i2, Bool.and_false, Bool.false_and, Bool.false_eq_true, if_false]
  · unfold fpEqualI
    have i0 : IFl.isNan (IFl.inf t : IFl f) = false := rfl
    have i1 : IFl.isNan (IFl.fin x : IFl f) = false := rfl
    have i2 : IFl.isInf (IFl.fin x : IFl f) = false := rfl
    have m1 : IFl.max (IFl.abs (IFl.inf t : IFl f)) (IFl.abs (IFl.fin x)) = IFl.inf false := rfl
    have m2 : IFl.max (IFl.abs (IFl.fin x)) (IFl.abs (IFl.inf t : IFl f)) = IFl.inf false := rfl
    have d1 : IFl.abs (IFl.inf t - IFl.fin x : IFl f) = IFl.inf false := rfl
    have d2 : IFl.abs (IFl.fin x - IFl.inf t : IFl f) = IFl.inf false := rfl
    simp only [i0, i1, i2, m1, m2, d1, d2, Bool.and_false, Bool.false_and, Bool.false_eq_true, if_false,
      Bool.or_comm (IFl.isZero (IFl.inf t : IFl f))]
  · unfold fpEqualI
    have i1 : ∀ x : ℚ, IFl.isNan (IFl.fin x : IFl f) = false := fun _ => rfl
    have i2 : ∀ x : ℚ, IFl.isInf (IFl.fin x : IFl f) = false := fun _ => rfl
    have d : IFl.abs (IFl.fin x - IFl.fin y : IFl f) = IFl.abs (IFl.fin y - IFl.fin x) := by
      rw [IFl.sub_fin, IFl.sub_fin, ← abs_ofQ_neg (y - x), neg_sub]
    simp only [i1, i2, Bool.and_self, Bool.false_eq_true, if_false, absI_fin, maxI_fin, d, max_comm |x| |y|,
      Bool.or_comm (IFl.isZero (IFl.fin x : IFl f))]

/-- C26 in IEEE arithmetic: NaN is almost equal to NaN only, an infinity to an infinity of the same sign, never to zero; but to every
other finite number (tolerance not zero). -/
theorem C26_ieee_special (tol : ℚ) (a : IFl f) (s s' : Bool) (q : ℚ) (hq : q ≠ 0) (ht : 0 < tol) :
    (fpEqualI tol a IFl.nan = true ↔ a = IFl.nan) ∧ (fpEqualI tol IFl.nan a = true ↔ a = IFl.nan) ∧
    (fpEqualI tol (IFl.inf s : IFl f) (IFl.inf s') = true ↔ s = s') ∧
    fpEqualI tol (IFl.inf s : IFl f) (IFl.fin 0) = false ∧
    fpEqualI tol (IFl.inf s : IFl f) (IFl.fin q) = true := by
  have h1 : fpEqualI tol a IFl.nan = true ↔ a = IFl.nan := by
    constructor
    · intro h
      rcases IFl.cases a with rfl | ⟨s, rfl⟩ | ⟨x, rfl⟩
      · rfl
      · cases h
      · unfold fpEqualI at h
        have e' : ∀ c : IFl f, IFl.le (IFl.abs (IFl.fin x - IFl.nan : IFl f)) c = false := fun _ => rfl
        have i1 : IFl.isNan (IFl.fin x : IFl f) = false := rfl
        have i2 : IFl.isInf (IFl.fin x : IFl f) = false := rfl
        simp only [e', ite_self, i1, i2, Bool.false_and, Bool.false_eq_true, if_false] at h
    · rintro rfl; rfl
  refine ⟨h1, ?_, ?_, ?_, ?_⟩
  · rw [C26_ieee_symm]; exact h1
  · unfold fpEqualI
    have h1 : ∀ s, IFl.isNan (IFl.inf s : IFl f) = false := fun _ => rfl
    have h2 : ∀ s, IFl.isInf (IFl.inf s : IFl f) = true := fun _ => rfl
    have h3 : ∀ s, IFl.signbit (IFl.inf s : IFl f) = s := fun _ => rfl
    simp only [h1, h2, h3, Bool.and_self, Bool.false_eq_true, if_false, if_true, beq_iff_eq]
  · unfold fpEqualI
    have i0 : IFl.isNan (IFl.inf s : IFl f) = false := rfl
    have i2 : IFl.isInf (IFl.fin 0 : IFl f) = false := rfl
    have z : IFl.isZero (IFl.fin 0 : IFl f) = true := by show decide ((0 : ℚ) = 0) = true; simp
    have d1 : IFl.le (IFl.abs (IFl.inf s - IFl.fin 0 : IFl f)) (IFl.fin tol) = false := rfl
    simp only [i0, i2, z, d1, Bool.false_and, Bool.and_false, Bool.false_eq_true, if_false, Bool.or_true, Bool.true_or, if_true]
  · unfold fpEqualI
    have i0 : IFl.isNan (IFl.inf s : IFl f) = false := rfl
    have i2 : IFl.isInf (IFl.fin q : IFl f) = false := rfl
    have z : IFl.isZero (IFl.fin q : IFl f) = false := by show decide (q = 0) = false; simpa using hq
    have z' : IFl.isZero (IFl.inf s : IFl f) = false := rfl
    have m1 : IFl.max (IFl.abs (IFl.inf s : IFl f)) (IFl.abs (IFl.fin q)) = IFl.inf false := rfl
    have d1 : IFl.abs (IFl.inf s - IFl.fin q : IFl f) = IFl.inf false := rfl
    have l1 : IFl.lt (IFl.inf false : IFl f) (IFl.fin tol) = false := rfl
    have p1 : (IFl.fin tol * IFl.inf false : IFl f) = IFl.inf false := by
      show f.round (if tol = 0 then Fl.nan else .inf (false != decide (tol < 0))) = .inf false
      rw [if_neg ht.ne', decide_eq_false (not_lt.2 ht.le)]; rfl
    simp only [i0, i2, z, z', m1, d1, l1, p1, Bool.false_and, Bool.and_false, Bool.false_eq_true, if_false, Bool.or_self]
    rfl

/-! ## C111 — outer edges -/

theorem minElementI_fin (l : List ℚ) : ∀ b : ℚ, ∃ m, minElement IFl.lt (IFl.fin b : IFl f) (l.map IFl.fin) = IFl.fin m ∧
    (m = b ∨ m ∈ l) ∧ m ≤ b ∧ ∀ x ∈ l, m ≤ x := by
  induction l with
  | nil => intro b; exact ⟨b, rfl, .inl rfl, le_rfl, by simp⟩
  | cons y l ih =>
    intro b
    have h : IFl.lt (IFl.fin y : IFl f) (IFl.fin b) = decide (y < b) := rfl
    rw [List.map_cons, minElement, h]
    by_cases hy : y < b
    · rw [if_pos (by simpa using hy)]
      obtain ⟨m, h1, h2, h3, h4⟩ := ih y
      refine ⟨m, h1, .inr ?_, h3.trans hy.le, ?_⟩
      · rcases h2 with rfl | h2
        · exact List.mem_cons_self ..
        · exact List.mem_cons_of_mem _ h2
      · intro x hx
        rcases List.mem_cons.1 hx with rfl | hx
        · exact h3
        · exact h4 x hx
    · rw [if_neg (by simpa using hy)]
      obtain ⟨m, h1, h2, h3, h4⟩ := ih b
      refine ⟨m, h1, ?_, h3, ?_⟩
      · rcases h2 with rfl | h2
        · exact .inl rfl
        · exact .inr (List.mem_cons_of_mem _ h2)
      · intro x hx
        rcases List.mem_cons.1 hx with rfl | hx
        · exact h3.trans (not_lt.1 hy)
        · exact h4 x hx

theorem maxElementI_fin (l : List ℚ) : ∀ b : ℚ, ∃ m, maxElement IFl.lt (IFl.fin b : IFl f) (l.map IFl.fin) = IFl.fin m ∧
    (m = b ∨ m ∈ l) ∧ b ≤ m ∧ ∀ x ∈ l, x ≤ m := by
  induction l with
  | nil => intro b; exact ⟨b, rfl, .inl rfl, le_rfl, by simp⟩
  | cons y l ih =>
    intro b
    have h : IFl.lt (IFl.fin b : IFl f) (IFl.fin y) = decide (b < y) := rfl
    rw [List.map_cons, maxElement, h]
    by_cases hy : b < y
    · rw [if_pos (by simpa using hy)]
      obtain ⟨m, h1, h2, h3, h4⟩ := ih y
      refine ⟨m, h1, .inr ?_, hy.le.trans h3, ?_⟩
      · rcases h2 with rfl | h2
        · exact List.mem_cons_self ..
        · exact List.mem_cons_of_mem _ h2
      · intro x hx
        rcases List.mem_cons.1 hx with rfl | hx
        · exact h3
        · exact h4 x hx
    · rw [if_neg (by simpa using hy)]
      obtain ⟨m, h1, h2, h3, h4⟩ := ih b
      refine ⟨m, h1, ?_, h3, ?_⟩
      · rcases h2 with rfl | h2
        · exact .inl rfl
        · exact .inr (List.mem_cons_of_mem _ h2)
      · intro x hx
        rcases List.mem_cons.1 hx with rfl | hx
        · exact (not_lt.1 hy).trans h3
        · exact h4 x hx

/-- C111: the outer edges of finite samples: the least and the greatest sample, or, when these are almost equal, the (rounded) numbers
one half below and above; no samples: 0 and 1. -/
theorem C111_outer_edges (tol : ℚ) (xs : List ℚ) :
    (xs = [] → outerEdgesI tol (xs.map (IFl.fin (f := f))) = (0, 1)) ∧
    (xs ≠ [] → ∃ lo ∈ xs, ∃ hi ∈ xs, (∀ x ∈ xs, lo ≤ x ∧ x ≤ hi) ∧
      outerEdgesI tol (xs.map (IFl.fin (f := f))) =
        if fpEqualI tol (IFl.fin lo : IFl f) (IFl.fin hi) then (IFl.fin lo - IFl.fin (1 / 2), IFl.fin hi + IFl.fin (1 / 2))
        else (IFl.fin lo, IFl.fin hi)) := by
  refine ⟨by rintro rfl; rfl, fun hne => ?_⟩
  obtain ⟨y, l, rfl⟩ := List.exists_cons_of_ne_nil hne
  obtain ⟨lo, a1, a2, a3, a4⟩ := minElementI_fin (f := f) l y
  obtain ⟨hi, b1, b2, b3, b4⟩ := maxElementI_fin (f := f) l y
  refine ⟨lo, ?_, hi, ?_, ?_, ?_⟩
  · rcases a2 with rfl | h
    · exact List.mem_cons_self ..
    · exact List.mem_cons_of_mem _ h
  · rcases b2 with rfl | h
    · exact List.mem_cons_self ..
    · exact List.mem_cons_of_mem _ h
  · intro x hx
    rcases List.mem_cons.1 hx with rfl | hx
    · exact ⟨a3, b3⟩
    · exact ⟨a4 x hx, b4 x hx⟩
  · unfold outerEdgesI amin amax
    simp only [List.map_cons, List.isEmpty_cons, Bool.false_eq_true, if_false, a1, b1]

/-- C111: equal samples of small magnitude are spread over bins of total width 1 around them. -/
theorem C111_constant (tol : ℚ) (ht : 0 ≤ tol) (v : ℚ) (n : ℕ) (hn : 0 < n) :
    outerEdgesI tol (List.replicate n (IFl.fin v : IFl f)) = (IFl.fin v - IFl.fin (1 / 2), IFl.fin v + IFl.fin (1 / 2)) := by
  obtain ⟨-, h⟩ := C111_outer_edges (f := f) tol (List.replicate n v)
  obtain ⟨lo, h1, hi, h2, -, h3⟩ := h (by intro h; rw [List.replicate_eq_nil_iff] at h; omega)
  rw [List.eq_of_mem_replicate h1, List.eq_of_mem_replicate h2, fpEqualI_refl tol ht, if_pos rfl, List.map_replicate] at h3
  exact h3

/-- C111 ("every sample is counted") is false for equal samples of large magnitude: `histogram({2^53}, 10)` violates the
requirement on the bins, which all have width 0. -/
theorem C111_constant_large_false :
    histogramAutoI (f := binary64) tol64 [IFl.fin (2 ^ 53)] 10 = .ub ∧
    histogramAutoI (f := binary64) tol64 [IFl.fin 3] 2 =
      .ok ([0, 1], [IFl.fin (5 / 2), IFl.fin 3, IFl.fin (7 / 2)]) := by
  constructor <;> decide +kernel

/-- The hypotheses of `C26_ieee_finite` hold for doubles. -/
example : fpEqualI (f := binary64) (1 / 2 ^ 53) (IFl.fin 1) (IFl.fin (1 + 1 / 2 ^ 52)) = false ∧
    binary64.rnd (1 + 1 / 2 ^ 52) = 1 + 1 / 2 ^ 52 ∧ (1 : ℚ) < (2 : ℚ) ^ binary64.emax := by
  decide +kernel

end SciCpp
