import Verif.Model.Gmean
import Verif.Props.Cov
import Verif.Props.Numeric
import Verif.Props.Range
import Mathlib.Analysis.MeanInequalities
import Mathlib.Analysis.SpecialFunctions.Log.Basic
/-
  Property theorems C77 (geometric mean) and C78 (automatic numbers of bins).
-/
namespace SciCpp

open Spec

/-! ## C77 — geometric mean -/

namespace XR

@[simp] theorem add_nan' (a : XR) : add a nan = nan := by cases a <;> rfl

noncomputable instance : AddMonoid XR where
  add_assoc a b c := by
    show add (add a b) c = add a (add b c)
    rcases a with _ | a | a <;> rcases b with _ | b | b <;> rcases c with _ | c | c <;>
      first
        | rfl
        | (show fin _ = fin _; rw [add_assoc])
        | (cases a <;> cases b <;> cases c <;> rfl)
        | (cases a <;> cases b <;> rfl)
  zero_add a := by
    show add (fin 0) a = a
    cases a <;> first | rfl | (show fin _ = fin _; rw [zero_add])
  add_zero a := by
    show add a (fin 0) = a
    cases a <;> first | rfl | (show fin _ = fin _; rw [add_zero])
  nsmul := nsmulRec

theorem sum_fin (s : List ℝ) : (s.map fin).sum = fin s.sum := by
  induction s with
  | nil => rfl
  | cons x s ih => rw [List.map_cons, List.sum_cons, List.sum_cons, ih]; rfl

theorem sum_nan (s : List XR) (h : nan ∈ s) : s.sum = nan := by
  induction s with
  | nil => cases h
  | cons x s ih =>
    rw [List.sum_cons]
    rcases List.mem_cons.mp h with rfl | h
    · rfl
    · rw [ih h]; exact add_nan' x

theorem sum_ninf (s : List XR) (h : inf true ∈ s) (hall : ∀ x ∈ s, x = inf true ∨ ∃ r, x = fin r) :
    s.sum = inf true := by
  have key : ∀ s : List XR, (∀ x ∈ s, x = inf true ∨ ∃ r, x = fin r) →
      (s.sum = inf true ∨ ∃ r, s.sum = fin r) := by
    intro s
    induction s with
    | nil => intro _; exact Or.inr ⟨0, rfl⟩
    | cons x s ih =>
      intro hs
      rw [List.sum_cons]
      rcases ih (fun y hy => hs y (List.mem_cons_of_mem _ hy)) with e | ⟨r, e⟩ <;>
        rcases hs x List.mem_cons_self with rfl | ⟨q, rfl⟩ <;> rw [e]
      · exact Or.inl rfl
      · exact Or.inl rfl
      · exact Or.inl rfl
      · exact Or.inr ⟨q + r, rfl⟩
  induction s with
  | nil => cases h
  | cons x s ih =>
    rw [List.sum_cons]
    have hs' : ∀ y ∈ s, y = inf true ∨ ∃ r, y = fin r :=
      fun y hy => hall y (List.mem_cons_of_mem _ hy)
    rcases List.mem_cons.mp h with e | h'
    · subst e
      rcases key s hs' with e | ⟨r, e⟩ <;> rw [e] <;> rfl
    · rw [ih h' hs']
      rcases hall x List.mem_cons_self with rfl | ⟨q, rfl⟩ <;> rfl

/-- An infinity among the summands makes the sum that infinity or NaN. -/
theorem sum_of_inf (b : Bool) (s : List XR) (h : inf b ∈ s) : s.sum = inf b ∨ s.sum = nan := by
  induction s with
  | nil => cases h
  | cons x s ih =>
    rw [List.sum_cons]
    rcases List.mem_cons.mp h with rfl | h
    · rcases hs : s.sum with _ | c | r
      · exact Or.inr rfl
      · cases b <;> cases c <;> first | exact Or.inl rfl | exact Or.inr rfl
      · exact Or.inl rfl
    · rcases ih h with e | e <;> rw [e]
      · rcases x with _ | c | r
        · exact Or.inr rfl
        · cases b <;> cases c <;> first | exact Or.inl rfl | exact Or.inr rfl
        · exact Or.inl rfl
      · exact Or.inr (add_nan' x)

theorem sum_both (s : List XR) (h : inf false ∈ s) (h' : inf true ∈ s) : s.sum = nan := by
  rcases sum_of_inf false s h with e | e
  · rcases sum_of_inf true s h' with e' | e'
    · rw [e] at e'; cases e'
    · exact e'
  · exact e

theorem sum_pinf (s : List XR) (h : inf false ∈ s)
    (hall : ∀ x ∈ s, x = inf false ∨ ∃ r, x = fin r) : s.sum = inf false := by
  rcases sum_of_inf false s h with e | e
  · exact e
  · exfalso
    have key : ∀ s : List XR, (∀ x ∈ s, x = inf false ∨ ∃ r, x = fin r) → s.sum ≠ nan := by
      intro s
      induction s with
      | nil => intro _ h; cases h
      | cons x s ih =>
        intro hs
        rw [List.sum_cons]
        have := ih fun y hy => hs y (List.mem_cons_of_mem _ hy)
        rcases e : s.sum with _ | c | r
        · exact absurd e this
        · have hc : s.sum = inf false ∨ ∃ r, s.sum = fin r := by
            clear this e ih
            induction s with
            | nil => exact Or.inr ⟨0, rfl⟩
            | cons y s ih =>
              rw [List.sum_cons]
              rcases ih (fun z hz => hs z (by
                rcases List.mem_cons.mp hz with rfl | hz
                · exact List.mem_cons_self
                · exact List.mem_cons_of_mem _ (List.mem_cons_of_mem _ hz))) with e | ⟨r, e⟩ <;>
                rcases hs y (by simp) with rfl | ⟨q, rfl⟩ <;> rw [e]
              · exact Or.inl rfl
              · exact Or.inl rfl
              · exact Or.inl rfl
              · exact Or.inr ⟨q + r, rfl⟩
          rw [e] at hc
          rcases hc with hc | ⟨r, hc⟩
          · injection hc with hc; subst hc
            rcases hs x List.mem_cons_self with rfl | ⟨q, rfl⟩ <;> intro h <;> cases h
          · cases hc
        · rcases hs x List.mem_cons_self with rfl | ⟨q, rfl⟩ <;> intro h <;> cases h
    exact key s hall e

end XR

theorem toI32_nat (n : ℕ) (h : n < 2 ^ 31) : toI32 (n : ℤ) = n := by
  unfold toI32
  rw [Int.bmod_eq_of_le] <;> norm_num at *; all_goals omega

theorem mean_xr (l : List XR) (hne : l ≠ []) (hlen : l.length < 2 ^ 31) :
    mean l (fun _ => true) = XR.div l.sum (XR.fin (l.length : ℝ)) := by
  unfold mean
  rw [if_neg (by simpa using hne)]
  have h : sumF false l (fun _ => true) = (l.sum, l.length) := by
    have := filterReduceAssoc_eq (α := XR) false l (fun _ => true) (op := (· + ·)) (e := 0)
      add_assoc zero_add add_zero
    unfold sumF
    rw [List.sum_eq_foldl]
    refine this.trans ?_
    rw [List.filter_true]
  rw [h]
  show XR.div l.sum (XR.fin ((toI32 (l.length : ℤ) : ℤ) : ℝ)) = _
  rw [toI32_nat _ hlen, Int.cast_natCast]

theorem gmean_fst (cat : Cat) (c : Cont) (f : List XR) (hne : f ≠ []) (hlen : f.length < 2 ^ 31) :
    (gmean cat c f).1 = XR.exp (XR.div (f.map XR.log).sum (XR.fin (f.length : ℝ))) := by
  unfold gmean
  rw [if_neg (by simpa using hne)]
  simp only [(C03_map_unary cat c XR.log XR.log f).1]
  rw [mean_xr _ (by simpa using hne) (by simpa using hlen), List.length_map]

/-- C77: on positive data the result is the `n`-th root of the product, for every length (below
2³¹), value category and container. -/
theorem C77_gmean (cat : Cat) (c : Cont) (xs : List ℝ) (hne : xs ≠ []) (hlen : xs.length < 2 ^ 31)
    (hpos : ∀ x ∈ xs, 0 < x) :
    (gmean cat c (xs.map XR.fin)).1 = XR.fin (xs.prod ^ (1 / xs.length : ℝ)) := by
  rw [gmean_fst cat c _ (by simpa using hne) (by simpa using hlen), List.map_map, List.length_map]
  have h1 : xs.map (XR.log ∘ XR.fin) = (xs.map Real.log).map XR.fin := by
    rw [List.map_map]
    refine List.map_congr_left fun x hx => ?_
    have := hpos x hx
    simp only [Function.comp, XR.log]
    rw [if_neg (by linarith), if_neg (by linarith)]
  have h2 : (xs.map Real.log).sum = Real.log xs.prod := by
    clear hne hlen h1
    induction xs with
    | nil => simp
    | cons x xs ih =>
      have hp : 0 < xs.prod := List.prod_pos fun y hy => hpos y (List.mem_cons_of_mem _ hy)
      rw [List.map_cons, List.sum_cons, List.prod_cons,
        ih (fun y hy => hpos y (List.mem_cons_of_mem _ hy)),
        Real.log_mul (hpos x List.mem_cons_self).ne' hp.ne']
  have hp : 0 < xs.prod := List.prod_pos hpos
  have hn : (xs.length : ℝ) ≠ 0 := by
    rw [Nat.cast_ne_zero]; exact (List.length_pos_iff.mpr hne).ne'
  rw [h1, XR.sum_fin, h2]
  simp only [XR.div, if_neg hn, XR.exp]
  rw [Real.rpow_def_of_pos hp]
  congr 2
  ring

/-- C77: its `n`-th power is the product. -/
theorem C77_gmean_pow (cat : Cat) (c : Cont) (xs : List ℝ) (hne : xs ≠ [])
    (hlen : xs.length < 2 ^ 31) (hpos : ∀ x ∈ xs, 0 < x) :
    ∃ g : ℝ, (gmean cat c (xs.map XR.fin)).1 = XR.fin g ∧ 0 < g ∧ g ^ xs.length = xs.prod := by
  have hp : 0 < xs.prod := List.prod_pos hpos
  have hn : (xs.length : ℝ) ≠ 0 := by
    rw [Nat.cast_ne_zero]; exact (List.length_pos_iff.mpr hne).ne'
  refine ⟨_, C77_gmean cat c xs hne hlen hpos, Real.rpow_pos_of_pos hp _, ?_⟩
  rw [← Real.rpow_natCast, ← Real.rpow_mul hp.le, one_div_mul_cancel hn, Real.rpow_one]

theorem prod_le_pow (xs : List ℝ) (b : ℝ) (h : ∀ x ∈ xs, 0 < x ∧ x ≤ b) :
    xs.prod ≤ b ^ xs.length := by
  induction xs with
  | nil => simp
  | cons x xs ih =>
    rw [List.prod_cons, List.length_cons, pow_succ, mul_comm]
    have h0 := h x List.mem_cons_self
    have hp : 0 < xs.prod := List.prod_pos fun y hy => (h y (List.mem_cons_of_mem _ hy)).1
    exact mul_le_mul (ih fun y hy => h y (List.mem_cons_of_mem _ hy)) h0.2 h0.1.le
      (le_trans hp.le (ih fun y hy => h y (List.mem_cons_of_mem _ hy)))

theorem pow_le_prod (xs : List ℝ) (a : ℝ) (ha : 0 < a) (h : ∀ x ∈ xs, a ≤ x) :
    a ^ xs.length ≤ xs.prod := by
  induction xs with
  | nil => simp
  | cons x xs ih =>
    rw [List.prod_cons, List.length_cons, pow_succ, mul_comm x]
    exact mul_le_mul (ih fun y hy => h y (List.mem_cons_of_mem _ hy)) (h x List.mem_cons_self) ha.le
      (le_trans (pow_pos ha _).le (ih fun y hy => h y (List.mem_cons_of_mem _ hy)))

/-- C77: it lies between any bounds of the data. -/
theorem C77_bounds (cat : Cat) (c : Cont) (xs : List ℝ) (hne : xs ≠ []) (hlen : xs.length < 2 ^ 31)
    (a b : ℝ) (ha : 0 < a) (h : ∀ x ∈ xs, a ≤ x ∧ x ≤ b) :
    ∃ g : ℝ, (gmean cat c (xs.map XR.fin)).1 = XR.fin g ∧ a ≤ g ∧ g ≤ b := by
  obtain ⟨g, e, hg, hp⟩ := C77_gmean_pow cat c xs hne hlen (fun x hx => lt_of_lt_of_le ha (h x hx).1)
  have hn : xs.length ≠ 0 := (List.length_pos_iff.mpr hne).ne'
  refine ⟨g, e, ?_, ?_⟩
  · have := pow_le_prod xs a ha fun x hx => (h x hx).1
    rw [← hp] at this
    exact le_of_pow_le_pow_left₀ hn hg.le this
  · have := prod_le_pow xs b fun x hx => ⟨lt_of_lt_of_le ha (h x hx).1, (h x hx).2⟩
    rw [← hp] at this
    obtain ⟨x, hx⟩ := List.exists_mem_of_ne_nil xs hne
    exact le_of_pow_le_pow_left₀ hn (le_trans (le_trans ha.le (h x hx).1) (h x hx).2) this

/-- C77: it never exceeds the arithmetic mean. -/
theorem C77_am_gm (cat : Cat) (c : Cont) (xs : List ℝ) (hne : xs ≠ []) (hlen : xs.length < 2 ^ 31)
    (hpos : ∀ x ∈ xs, 0 < x) :
    ∃ g : ℝ, (gmean cat c (xs.map XR.fin)).1 = XR.fin g ∧ g ≤ xs.sum / xs.length := by
  refine ⟨_, C77_gmean cat c xs hne hlen hpos, ?_⟩
  have hn : (0 : ℝ) < xs.length := by exact_mod_cast List.length_pos_iff.mpr hne
  have key := Real.geom_mean_le_arith_mean (s := (Finset.univ : Finset (Fin xs.length)))
    (w := fun _ => 1) (z := fun i => xs[i]) (fun _ _ => zero_le_one)
    (by simpa using hn) (fun i _ => (hpos _ (List.getElem_mem _)).le)
  simpa using key

/-- C77: multiplying positive data by `k > 0` multiplies the result by `k` (so the unit of a
quantity factors out). -/
theorem C77_scale (cat : Cat) (c : Cont) (xs : List ℝ) (hne : xs ≠ []) (hlen : xs.length < 2 ^ 31)
    (hpos : ∀ x ∈ xs, 0 < x) (k : ℝ) (hk : 0 < k) :
    ∃ g : ℝ, (gmean cat c (xs.map XR.fin)).1 = XR.fin g ∧
      (gmean cat c ((xs.map fun x => k * x).map XR.fin)).1 = XR.fin (k * g) := by
  refine ⟨_, C77_gmean cat c xs hne hlen hpos, ?_⟩
  rw [C77_gmean cat c _ (by simpa using hne) (by simpa using hlen) (by
    intro y hy
    obtain ⟨x, hx, rfl⟩ := List.mem_map.mp hy
    exact mul_pos hk (hpos x hx)), List.length_map]
  have hp : 0 < xs.prod := List.prod_pos hpos
  have hn : (xs.length : ℝ) ≠ 0 := by
    rw [Nat.cast_ne_zero]; exact (List.length_pos_iff.mpr hne).ne'
  have : (xs.map fun x => k * x).prod = k ^ xs.length * xs.prod := by
    rw [List.prod_map_mul]; simp
  rw [this, Real.mul_rpow (by positivity) hp.le, ← Real.rpow_natCast, ← Real.rpow_mul hk.le,
    mul_one_div_cancel hn, Real.rpow_one]

/-- C77: non-negative finite data containing a zero have geometric mean 0. -/
theorem C77_zero (cat : Cat) (c : Cont) (xs : List ℝ) (hlen : xs.length < 2 ^ 31)
    (hpos : ∀ x ∈ xs, 0 ≤ x) (h0 : (0 : ℝ) ∈ xs) :
    (gmean cat c (xs.map XR.fin)).1 = XR.fin 0 := by
  have hne : xs ≠ [] := by rintro rfl; cases h0
  rw [gmean_fst cat c _ (by simpa using hne) (by simpa using hlen), XR.sum_ninf]
  · have : ¬ (((xs.map XR.fin).length : ℝ) < 0) := by
      have : (0 : ℝ) ≤ ((xs.map XR.fin).length : ℝ) := Nat.cast_nonneg _
      linarith
    simp only [XR.div, this, decide_false, Bool.bne_false, XR.exp]
  · rw [List.map_map]
    refine List.mem_map.mpr ⟨0, h0, ?_⟩
    simp [XR.log]
  · intro y hy
    rw [List.map_map] at hy
    obtain ⟨x, hx, rfl⟩ := List.mem_map.mp hy
    have := hpos x hx
    simp only [Function.comp, XR.log]
    rw [if_neg (by linarith)]
    split_ifs
    · exact Or.inl rfl
    · exact Or.inr ⟨_, rfl⟩

/-- C77: a NaN, a negative sample or `-∞` gives NaN, and so does an empty array. -/
theorem C77_nan (cat : Cat) (c : Cont) (f : List XR) (hlen : f.length < 2 ^ 31) :
    (f = [] → (gmean cat c f).1 = XR.nan) ∧
    (XR.nan ∈ f ∨ XR.inf true ∈ f ∨ (∃ x : ℝ, x < 0 ∧ XR.fin x ∈ f) →
      (gmean cat c f).1 = XR.nan) := by
  have key : (∃ x ∈ f, XR.log x = XR.nan) → (gmean cat c f).1 = XR.nan := by
    rintro ⟨x, hx, e⟩
    have hne : f ≠ [] := by rintro rfl; cases hx
    rw [gmean_fst cat c _ hne hlen, XR.sum_nan _ (List.mem_map.mpr ⟨x, hx, e⟩)]
    rfl
  refine ⟨?_, ?_⟩
  · rintro rfl; rfl
  · rintro (h | h | ⟨x, hx, h⟩)
    · exact key ⟨_, h, rfl⟩
    · exact key ⟨_, h, rfl⟩
    · exact key ⟨_, h, by simp [XR.log, hx]⟩

/-- C77: infinite samples.  Positive data with at least one `+∞` have geometric mean `+∞`; a zero
together with a `+∞` gives NaN. -/
theorem C77_infinite (cat : Cat) (c : Cont) (f : List XR) (hlen : f.length < 2 ^ 31)
    (hinf : XR.inf false ∈ f)
    (hall : ∀ x ∈ f, x = XR.inf false ∨ ∃ r : ℝ, x = XR.fin r ∧ 0 ≤ r) :
    (XR.fin 0 ∉ f → (gmean cat c f).1 = XR.inf false) ∧
    (XR.fin 0 ∈ f → (gmean cat c f).1 = XR.nan) := by
  have hne : f ≠ [] := by rintro rfl; cases hinf
  rw [gmean_fst cat c _ hne hlen]
  have hlog : ∀ r : ℝ, 0 < r → XR.log (XR.fin r) = XR.fin (Real.log r) := by
    intro r hr
    simp only [XR.log]
    rw [if_neg (by linarith), if_neg hr.ne']
  have hz : XR.log (XR.fin 0) = XR.inf true := by simp [XR.log]
  have hn : ¬ ((f.length : ℝ) < 0) := by
    have : (0 : ℝ) ≤ (f.length : ℝ) := Nat.cast_nonneg _
    linarith
  constructor
  · intro h0
    have : (f.map XR.log).sum = XR.inf false := by
      rw [XR.sum_pinf]
      · exact List.mem_map.mpr ⟨_, hinf, rfl⟩
      · intro y hy
        obtain ⟨x, hx, rfl⟩ := List.mem_map.mp hy
        rcases hall x hx with rfl | ⟨r, rfl, hr⟩
        · exact Or.inl rfl
        · refine Or.inr ⟨_, hlog r (lt_of_le_of_ne hr ?_)⟩
          rintro rfl; exact h0 hx
    rw [this]
    simp only [XR.div, hn, decide_false, Bool.bne_false, XR.exp]
  · intro h0
    have : (f.map XR.log).sum = XR.nan := by
      apply XR.sum_both
      · exact List.mem_map.mpr ⟨_, hinf, rfl⟩
      · exact List.mem_map.mpr ⟨_, h0, hz⟩
    rw [this]; rfl

/-- C77: the filtered version is the geometric mean of the accepted samples; in particular
`nangmean` is the geometric mean of the samples that are not NaN. -/
theorem C77_filtered (cat : Cat) (c : Cont) (f : List XR) (p : XR → Bool)
    (hlen : f.length < 2 ^ 31) :
    gmeanF f p = (gmean cat c (f.filter p)).1 := by
  unfold gmeanF
  rw [filterArr_eq]
  have hl := lt_of_le_of_lt (List.length_filter_le p f) hlen
  revert hl
  generalize f.filter p = g
  intro hl
  match g, hl with
  | [], hl => exact ((C77_nan .rvalue .vec [] hl).1 rfl).trans ((C77_nan cat c [] hl).1 rfl).symm
  | x :: xs, hl => rw [gmean_fst _ _ _ (List.cons_ne_nil x xs) hl,
      gmean_fst _ _ _ (List.cons_ne_nil x xs) hl]

open Classical in
/-- C77: `nangmean` is the geometric mean of the samples that are not NaN. -/
theorem C77_nangmean (cat : Cat) (c : Cont) (f : List XR) (hlen : f.length < 2 ^ 31) :
    nangmean f = (gmean cat c (f.filter fun x => decide (x ≠ XR.nan))).1 := by
  unfold nangmean
  rw [C77_filtered cat c f _ hlen]
  congr 3
  funext x
  cases x <;> simp [XR.isNan]

/-- C77 (negation of "the argument is only read"): `gmean` of a named non-const vector empties it,
so that a second call on the same vector returns NaN; a const vector is unchanged. -/
theorem C77_named_vector_false (f : List XR) (hne : f ≠ []) :
    (gmean .lvalue .vec f).2 = [] ∧
    (gmean .lvalue .vec (gmean .lvalue .vec f).2).1 = XR.nan ∧
    (gmean .constLvalue .vec f).2 = f := by
  have h1 : (gmean .lvalue .vec f).2 = [] := by
    unfold gmean
    rw [if_neg (by simpa using hne)]
    rfl
  refine ⟨h1, by rw [h1]; rfl, ?_⟩
  unfold gmean
  rw [if_neg (by simpa using hne)]
  rfl

/-- C77: "the argument is only read" holds for const arrays.  Missing: named non-const arrays (a
vector is emptied, an `std::array` is overwritten with the logarithms). -/
theorem C77_argument_unchanged_partial (c : Cont) (f : List XR) :
    (gmean .constLvalue c f).2 = f ∧
    (f ≠ [] → (gmean .lvalue .arr f).2 = f.map XR.log) := by
  constructor
  · unfold gmean; split <;> rfl
  · intro hne
    unfold gmean
    rw [if_neg (by simpa using hne)]
    rfl

-- non-vacuity
example : (∀ x ∈ ([2, 8, 1 / 4] : List ℝ), 0 < x) ∧ ([2, 8, 1 / 4] : List ℝ) ≠ [] ∧
    ([2, 8, 1 / 4] : List ℝ).length < 2 ^ 31 := by
  refine ⟨?_, by simp, by norm_num⟩
  intro x hx
  simp only [List.mem_cons, List.not_mem_nil, or_false] at hx
  rcases hx with rfl | rfl | rfl <;> norm_num

end SciCpp
