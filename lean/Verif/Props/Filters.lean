import Verif.Model.Filters
import Verif.Props.Limits
import Verif.Props.HistF
/-
  Property theorems C114: filters and classification of floating point numbers.
-/
namespace SciCpp
open Spec

variable {f : Fmt}

namespace Spec

/-- A value the type can hold. -/
def Holds (f : Fmt) (x : IFl f) : Prop := ∀ q, x = IFl.fin q → Finite f q

end Spec

/-- C114, classes: for every value of the type, the functions say what the values of `numeric_limits` say: NaN is
what differs from itself; infinite is beyond `max()` or below `lowest()`; finite is between; normal is finite and at
least `min()` in magnitude; and zero and subnormal are the others. -/
theorem C114_classes (hf : StdFmt f) (x : IFl f) (hx : Holds f x) :
    (isnanF x = true ↔ IFl.eqv x x = false) ∧
    (isinfF x = true ↔ IFl.lt (IFl.fin f.maxVal) x = true ∨ IFl.lt x (IFl.fin (-f.maxVal)) = true) ∧
    (isfiniteF x = true ↔ IFl.le (IFl.fin (-f.maxVal)) x = true ∧ IFl.le x (IFl.fin f.maxVal) = true) ∧
    (isnormalF x = true ↔ isfiniteF x = true ∧
      (IFl.le (IFl.fin f.minVal) x = true ∨ IFl.le x (IFl.fin (-f.minVal)) = true)) ∧
    (fpclassify x = .zero ↔ IFl.eqv x (IFl.fin 0) = true) ∧
    (fpclassify x = .subnormal ↔ IFl.eqv x (IFl.fin 0) = false ∧ IFl.lt (IFl.fin (-f.minVal)) x = true ∧
      IFl.lt x (IFl.fin f.minVal) = true) := by
  have hm : (0 : ℚ) < f.minVal := by unfold Fmt.minVal; positivity
  rcases x with _ | s | q
  · refine ⟨⟨fun _ => rfl, fun _ => rfl⟩, ?_, ?_, ?_, ?_, ?_⟩ <;>
      simp [isinfF, isfiniteF, isnormalF, fpclassify, IFl.lt, IFl.le, IFl.eqv, IFl.fin, Fl.lt, Fl.le, Fl.eqv]
  · cases s <;> refine ⟨⟨fun h => Bool.noConfusion h, fun h => Bool.noConfusion h⟩, ?_, ?_, ?_, ?_, ?_⟩ <;>
      simp [isinfF, isfiniteF, isnormalF, fpclassify, IFl.lt, IFl.le, IFl.eqv, IFl.fin, Fl.lt, Fl.le, Fl.eqv]
  · have h := finite_le_max hf (hx q rfl)
    obtain ⟨h1, h2⟩ := abs_le.1 h
    have hc : fpclassify (f := f) (Fl.fin q) = if q = 0 then .zero else if |q| < f.minVal then .subnormal else .normal :=
      rfl
    by_cases h0 : q = 0
    · subst h0
      rw [if_pos rfl] at hc
      refine ⟨?_, ?_, ?_, ?_, ?_, ?_⟩ <;>
        simp [isnanF, isinfF, isfiniteF, isnormalF, hc, IFl.lt, IFl.le, IFl.eqv, IFl.fin, Fl.lt, Fl.le, Fl.eqv] <;>
        linarith
    · rw [if_neg h0] at hc
      by_cases h3 : |q| < f.minVal
      · rw [if_pos h3] at hc
        obtain ⟨h4, h5⟩ := abs_lt.1 h3
        refine ⟨?_, ?_, ?_, ?_, ?_, ?_⟩ <;>
          simp [isnanF, isinfF, isfiniteF, isnormalF, hc, IFl.lt, IFl.le, IFl.eqv, IFl.fin, Fl.lt, Fl.le, Fl.eqv, h0] <;>
          (constructor <;> linarith)
      · rw [if_neg h3] at hc
        rw [not_lt, le_abs] at h3
        refine ⟨?_, ?_, ?_, ?_, ?_, ?_⟩ <;>
          simp [isnanF, isinfF, isfiniteF, isnormalF, hc, IFl.lt, IFl.le, IFl.eqv, IFl.fin, Fl.lt, Fl.le, Fl.eqv, h0]
        · constructor <;> linarith
        · constructor <;> linarith
        · rcases h3 with h | h
          · exact Or.inl h
          · exact Or.inr (by linarith)
        · intro h4
          rcases h3 with h | h <;> linarith

/-- Satisfiable, with a value of each class. -/
example : Holds binary64 (IFl.fin (1 / 2)) ∧ fpclassify (IFl.fin (1 / 2) : D64) = .normal ∧
    fpclassify (IFl.fin ((2 : ℚ) ^ (-1074 : ℤ)) : D64) = .subnormal ∧ fpclassify (IFl.fin 0 : D64) = .zero ∧
    fpclassify (IFl.inf true : D64) = .infinite ∧ fpclassify (IFl.nan : D64) = .nan := by
  refine ⟨?_, by decide +kernel, by decide +kernel, by decide +kernel, by decide +kernel, by decide +kernel⟩
  rintro q hq
  injection hq with hq
  subst hq
  exact ⟨by decide +kernel, by decide +kernel⟩

/-- C114, filters: what each accepts, in terms of the comparisons with zero. -/
theorem C114_filters (x : IFl f) :
    (Filters.all x = true ∧ Filters.none x = false) ∧
    (Filters.notNan x = true ↔ x ≠ IFl.nan) ∧
    (Filters.notZero x = true ↔ x ≠ IFl.fin 0) ∧
    (Filters.strictlyPositive x = true ↔ x = IFl.inf false ∨ ∃ q, x = IFl.fin q ∧ 0 < q) ∧
    (Filters.positive x = true ↔ x = IFl.inf false ∨ ∃ q, x = IFl.fin q ∧ 0 ≤ q) ∧
    (Filters.strictlyNegative x = true ↔ x = IFl.inf true ∨ ∃ q, x = IFl.fin q ∧ q < 0) ∧
    (Filters.negative x = true ↔ x = IFl.inf true ∨ ∃ q, x = IFl.fin q ∧ q ≤ 0) := by
  have hfin : ∀ q : ℚ, (fpclassify (f := f) (Fl.fin q) = .zero ↔ q = 0) ∧ fpclassify (f := f) (Fl.fin q) ≠ .nan := by
    intro q
    have hc : fpclassify (f := f) (Fl.fin q) = if q = 0 then .zero else if |q| < f.minVal then .subnormal else .normal :=
      rfl
    rw [hc]
    split_ifs <;> simp_all
  have e0 : ∀ p q : ℚ, (@Eq (IFl f) (Fl.fin p) (IFl.fin (f := f) q) ↔ p = q) := fun p q =>
    ⟨fun h => by injection h, fun h => by rw [h]; rfl⟩
  rcases x with _ | s | q
  · refine ⟨⟨rfl, rfl⟩, ?_, ?_, ?_, ?_, ?_, ?_⟩
    · simp only [Filters.notNan, isnanF, fpclassify]
      exact ⟨fun h => by simp at h, fun h => absurd rfl h⟩
    · exact ⟨fun _ h => by injection h, fun _ => rfl⟩
    all_goals
      constructor
      · intro h; exact Bool.noConfusion h
      · rintro (h | ⟨q, h, _⟩) <;> injection h
  · refine ⟨⟨rfl, rfl⟩, ?_, ?_, ?_, ?_, ?_, ?_⟩
    · exact ⟨fun _ h => by injection h, fun _ => rfl⟩
    · exact ⟨fun _ h => by injection h, fun _ => rfl⟩
    all_goals
      cases s
      all_goals
        first
        | exact ⟨fun _ => Or.inl rfl, fun _ => rfl⟩
        | (constructor
           · intro h; exact Bool.noConfusion h
           · rintro (h | ⟨q, h, _⟩)
             · cases h
             · injection h)
  · refine ⟨⟨rfl, rfl⟩, ?_, ?_, ?_, ?_, ?_, ?_⟩
    · refine ⟨fun _ h => by injection h, fun _ => ?_⟩
      simp only [Filters.notNan, isnanF]
      simp [(hfin q).2]
    · simp only [Filters.notZero, bne_iff_ne, ne_eq, (hfin q).1]
      exact not_congr (e0 q 0).symm
    all_goals
      simp only [Filters.strictlyPositive, Filters.positive, Filters.strictlyNegative, Filters.negative, IFl.lt,
        IFl.le, IFl.fin, Fl.lt, Fl.le, decide_eq_true_eq]
      constructor
      · intro h; exact Or.inr ⟨q, rfl, h⟩
      · rintro (h | ⟨p, h, hp⟩)
        · injection h
        · injection h with h; subst h; exact hp

theorem filters_exclusive (x : IFl f) :
    Filters.strictlyNegative x = (!isnanF x && !Filters.positive x) ∧
    Filters.negative x = (!isnanF x && !Filters.strictlyPositive x) := by
  have hfin : ∀ q : ℚ, isnanF (f := f) (Fl.fin q) = false := by
    intro q
    show ((if q = 0 then FpClass.zero else if |q| < f.minVal then .subnormal else .normal) == .nan) = false
    split_ifs <;> rfl
  rcases x with _ | s | q
  · exact ⟨rfl, rfl⟩
  · cases s <;> exact ⟨rfl, rfl⟩
  · rw [hfin]
    simp only [Filters.strictlyPositive, Filters.positive, Filters.strictlyNegative, Filters.negative, IFl.lt,
      IFl.le, IFl.fin, Fl.lt, Fl.le, Bool.not_false, Bool.true_and, ← decide_not, not_le, not_lt]
    exact ⟨trivial, trivial⟩

theorem positive_not_nan (x : IFl f) : (Filters.positive x = true → isnanF x = false) ∧
    (Filters.strictlyPositive x = true → isnanF x = false) := by
  rcases x with _ | s | q
  · exact ⟨fun h => Bool.noConfusion h, fun h => Bool.noConfusion h⟩
  · exact ⟨fun _ => rfl, fun _ => rfl⟩
  · have : isnanF (f := f) (Fl.fin q) = false := by
      show ((if q = 0 then FpClass.zero else if |q| < f.minVal then .subnormal else .normal) == .nan) = false
      split_ifs <;> rfl
    exact ⟨fun _ => this, fun _ => this⟩

theorem perm_three {α : Type*} (l : List α) (p q n : α → Bool) (h : ∀ x, q x = (!n x && !p x))
    (hp : ∀ x, p x = true → n x = false) :
    (l.filter p ++ l.filter q ++ l.filter n).Perm l := by
  have h1 : l.filter n = (l.filter fun x => !p x).filter n := by
    rw [List.filter_filter]
    refine List.filter_congr fun x _ => ?_
    cases hn : n x <;> cases hpx : p x <;> simp_all
  have h2 : l.filter q = (l.filter fun x => !p x).filter fun x => !n x := by
    rw [List.filter_filter]
    refine List.filter_congr fun x _ => ?_
    rw [h x]
  rw [h1, h2, List.append_assoc]
  have h3 := (List.perm_append_comm.trans
    (List.filter_append_perm n (l.filter fun x => !p x)))
  exact (h3.append_left _).trans (List.filter_append_perm p l)

/-- C114, partition: `filter` with `positive`, with `strictly_negative` and with "is NaN" splits every array: no
element is lost and none appears twice, each part keeps the order; likewise with `strictly_positive` and `negative`;
and the counts of the corresponding reductions add up to the size. -/
theorem C114_partition (l : List (IFl f)) :
    (filterArr l Filters.positive ++ filterArr l Filters.strictlyNegative ++ filterArr l isnanF).Perm l ∧
    (filterArr l Filters.strictlyPositive ++ filterArr l Filters.negative ++ filterArr l isnanF).Perm l ∧
    ((filterArr l Filters.positive).Sublist l ∧ (filterArr l Filters.strictlyNegative).Sublist l ∧
      (filterArr l Filters.strictlyPositive).Sublist l ∧ (filterArr l Filters.negative).Sublist l) ∧
    ∀ {β : Type} (op : β → IFl f → β) (init : β),
      (filterReduce l op init Filters.positive).2 + (filterReduce l op init Filters.strictlyNegative).2 +
          (filterReduce l op init isnanF).2 = l.length ∧
      (filterReduce l op init Filters.strictlyPositive).2 + (filterReduce l op init Filters.negative).2 +
          (filterReduce l op init isnanF).2 = l.length := by
  simp only [filterArr_eq, filterReduce_eq]
  have h1 := perm_three l Filters.positive Filters.strictlyNegative isnanF (fun x => (filters_exclusive x).1)
    fun x => (positive_not_nan x).1
  have h2 := perm_three l Filters.strictlyPositive Filters.negative isnanF (fun x => (filters_exclusive x).2)
    fun x => (positive_not_nan x).2
  refine ⟨h1, h2, ⟨List.filter_sublist, List.filter_sublist, List.filter_sublist, List.filter_sublist⟩,
    fun op init => ⟨?_, ?_⟩⟩
  · have := h1.length_eq; simpa [List.length_append, add_assoc] using this
  · have := h2.length_eq; simpa [List.length_append, add_assoc] using this

/-- Satisfiable: a list with a NaN, infinities and a zero. -/
example : filterArr [IFl.fin 2, IFl.nan, IFl.inf true, IFl.fin 0, (IFl.fin (-3) : D64)] Filters.positive =
      [IFl.fin 2, IFl.fin 0] ∧
    filterArr [IFl.fin 2, IFl.nan, IFl.inf true, IFl.fin 0, (IFl.fin (-3) : D64)] Filters.strictlyNegative =
      [IFl.inf true, IFl.fin (-3)] := by decide +kernel

/-- C114, `Trim`: it accepts the values between the limits, the limits themselves only if asked; never NaN; and
nothing at all when a limit is NaN. -/
theorem C114_trim (lo hi x : IFl f) (il ih : Bool) :
    (x = IFl.nan ∨ lo = IFl.nan ∨ hi = IFl.nan → Filters.trim lo hi il ih x = false) ∧
    (x ≠ IFl.nan → lo ≠ IFl.nan → hi ≠ IFl.nan →
      (Filters.trim lo hi il ih x = true ↔
        (IFl.lt lo x = true ∨ (il = true ∧ IFl.eqv lo x = true)) ∧
        (IFl.lt x hi = true ∨ (ih = true ∧ IFl.eqv x hi = true)))) := by
  have hn1 : ∀ y : IFl f, IFl.le IFl.nan y = false ∧ IFl.lt IFl.nan y = false := fun y => ⟨rfl, rfl⟩
  have hn2 : ∀ y : IFl f, IFl.le y IFl.nan = false ∧ IFl.lt y IFl.nan = false := by
    intro y
    rcases y with _ | s | q
    · exact ⟨rfl, rfl⟩
    · cases s <;> exact ⟨rfl, rfl⟩
    · exact ⟨rfl, rfl⟩
  have hle : ∀ y z : IFl f, y ≠ IFl.nan → z ≠ IFl.nan →
      (IFl.le y z = true ↔ IFl.lt y z = true ∨ IFl.eqv y z = true) := by
    intro y z hy hz
    rcases y with _ | s | p
    · exact absurd rfl hy
    · rcases z with _ | t | q
      · exact absurd rfl hz
      · cases s <;> cases t <;> simp [IFl.le, IFl.lt, IFl.eqv, Fl.le, Fl.lt, Fl.eqv]
      · cases s
        · exact ⟨fun h => absurd h (by simp [IFl.le, Fl.le]), fun h => by
            rcases h with h | h <;> simp [IFl.lt, IFl.eqv, Fl.lt, Fl.eqv] at h⟩
        · exact ⟨fun _ => Or.inl rfl, fun _ => rfl⟩
    · rcases z with _ | t | q
      · exact absurd rfl hz
      · cases t
        · exact ⟨fun _ => Or.inl rfl, fun _ => rfl⟩
        · exact ⟨fun h => absurd h (by simp [IFl.le, Fl.le]), fun h => by
            rcases h with h | h <;> simp [IFl.lt, IFl.eqv, Fl.lt, Fl.eqv] at h⟩
      · simp only [IFl.le, IFl.lt, IFl.eqv, Fl.le, Fl.lt, Fl.eqv, decide_eq_true_eq]
        exact le_iff_lt_or_eq
  constructor
  · unfold Filters.trim
    rintro (rfl | rfl | rfl)
    · rw [(hn2 lo).1, (hn2 lo).2]; cases il <;> rfl
    · rw [(hn1 x).1, (hn1 x).2]; cases il <;> rfl
    · rw [(hn2 x).1, (hn2 x).2]; cases ih <;> simp
  · intro h1 h2 h3
    unfold Filters.trim
    rw [Bool.and_eq_true]
    refine and_congr ?_ ?_
    · cases il <;> simp [hle _ _ h2 h1]
    · cases ih <;> simp [hle _ _ h1 h3]

/-- C114, complex numbers: `isnan` holds exactly when one of the parts is NaN. -/
theorem C114_complex (z : IFl f × IFl f) : isnanC z = true ↔ z.1 = IFl.nan ∨ z.2 = IFl.nan := by
  unfold isnanC
  have h : ∀ x : IFl f, isnanF x = true ↔ x = IFl.nan := by
    intro x
    have := (C114_filters x).2.1
    unfold Filters.notNan at this
    rw [Bool.not_eq_true', Bool.eq_false_iff, not_iff_not] at this
    exact this
  rw [Bool.or_eq_true, h, h]

/-- C114, quantities: NaN and infinities keep their class under every change of the stored value by a factor and an
offset of the unit, but zero and normal are properties of the stored number, not of the amount: 0 °C is "zero" and
273.15 K is not; 10^-310 km is subnormal and 10^-307 m is normal. -/
theorem C114_quantity_false :
    (onValue Filters.notZero (⟨⟨⟨7, 1, 1⟩, ⟨1, 1, 1⟩, 27315 / 100⟩, IFl.fin 0⟩ : Qty D64) = false ∧
      onValue Filters.notZero (⟨⟨⟨7, 1, 1⟩, ⟨1, 1, 1⟩, 0⟩, IFl.fin (rnd64 (27315 / 100))⟩ : Qty D64) = true ∧
      qfEval IFl.lt IFl.eqv 0 (⟨⟨⟨7, 1, 1⟩, ⟨1, 1, 1⟩, 27315 / 100⟩, IFl.fin 0⟩ : Qty D64) =
        .ok (IFl.fin (rnd64 (27315 / 100)))) ∧
    (onValue isnormalF (⟨⟨⟨2, 1, 1⟩, ⟨1024, 1, 1⟩, 0⟩, IFl.fin ((2 : ℚ) ^ (-1030 : ℤ))⟩ : Qty D64) = false ∧
      onValue isnormalF (⟨⟨⟨2, 1, 1⟩, ⟨1, 1, 1⟩, 0⟩, IFl.fin ((2 : ℚ) ^ (-1020 : ℤ))⟩ : Qty D64) = true ∧
      qfEq IFl.eqv (⟨⟨⟨2, 1, 1⟩, ⟨1024, 1, 1⟩, 0⟩, IFl.fin ((2 : ℚ) ^ (-1030 : ℤ))⟩ : Qty D64)
        ⟨⟨⟨2, 1, 1⟩, ⟨1, 1, 1⟩, 0⟩, IFl.fin ((2 : ℚ) ^ (-1020 : ℤ))⟩ = true) := by
  refine ⟨⟨by decide +kernel, by decide +kernel, ?_⟩, ⟨by decide +kernel, by decide +kernel, by decide +kernel⟩⟩
  decide +kernel

end SciCpp
