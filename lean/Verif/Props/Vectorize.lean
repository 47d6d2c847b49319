import Verif.Model.Vectorize
import Verif.Props.Numeric
import Verif.Props.Arith
/-
  Property theorems C86: vectorised functions, `pow`, `fabs`.
-/
set_option linter.unusedSectionVars false
namespace SciCpp

universe u
variable {α : Type u}

/-- The contents of an argument or a result, as a list (a scalar is one value). -/
def VArg.values : VArg α → List α
  | .scalar x => [x]
  | .array _ _ l => l

/-- Whether it is an array. -/
def VArg.isArray : VArg α → Bool
  | .scalar _ => false
  | .array _ _ _ => true

/-- C86: a vectorised function whose functor is alive at the call applies the functor (in its state at
the time of the call) to the scalar or to every element, in order; scalars give a scalar and arrays an
array of the same length. -/
theorem C86_call_alive (s : Store (α → α)) (a : ℕ) (f : α → α) (h : s a = some f) (x : VArg α) :
    ∃ r x', (vectorizeLvalue a).call1 s x = .ok (r, x') ∧ r.isArray = x.isArray ∧
      r.values = x.values.map f := by
  cases x with
  | scalar x => exact ⟨.scalar (f x), .scalar x, by simp [VecClosure.call1, vectorizeLvalue, h], rfl, rfl⟩
  | array cat c l =>
    refine ⟨.array .rvalue c (mapUnarySame cat c f l).1, .array cat c (mapUnarySame cat c f l).2,
      by simp [VecClosure.call1, vectorizeLvalue, h], rfl, ?_⟩
    cases cat <;> rfl

/-- C86: binary vectorised functions (`hypot`, `arctan2`, `gcd`, …): two scalars give the function value;
two arrays of the same length the element-wise values; arrays of different lengths are a violated
requirement. -/
theorem C86_call2_alive (s : Store (α → α → α)) (a : ℕ) (f : α → α → α) (h : s a = some f) :
    (∀ x y, (vectorizeLvalue a).call2 s (.scalar x) (.scalar y) = .ok (.scalar (f x y))) ∧
    (∀ (k k' : Cat) (c c' : Cont) (l l' : List α), l.length = l'.length →
      (vectorizeLvalue a).call2 s (.array k c l) (.array k' c' l') =
        .ok (.array .rvalue c (List.zipWith f l l'))) ∧
    (∀ (k k' : Cat) (c c' : Cont) (l l' : List α), l.length ≠ l'.length →
      (vectorizeLvalue a).call2 s (.array k c l) (.array k' c' l') = .ub) := by
  refine ⟨fun x y => by simp [VecClosure.call2, vectorizeLvalue, h], ?_, ?_⟩
  · intro k k' c c' l l' hl
    have h1 : map2 f l l' = .ok (List.zipWith f l l') := by
      unfold map2; rw [if_pos hl]; exact transform2_eq f l l' hl
    simp only [VecClosure.call2, vectorizeLvalue, h, h1, Res.bind_ok, Res.pure_eq]
  · intro k k' c c' l l' hl
    have h1 : map2 f l l' = .ub := by unfold map2; rw [if_neg hl]
    simp only [VecClosure.call2, vectorizeLvalue, h, h1]; rfl

/-- C86 is false for `vectorize` of a temporary functor, which is how the library defines `sin`, `cos`,
… and how a user would write `auto g = vectorize([k](double x) { return k * x; });`: the closure holds a
reference to an object destroyed at the end of the declaration, so *every* later call on a scalar or a
non-empty array is undefined behaviour (harmless in practice only when the functor has no state). -/
theorem C86_temporary_false (s : Store (α → α)) (a : ℕ) (hfree : s a = none) (f : α → α) (x : VArg α)
    (hx : x.values ≠ []) :
    (vectorizeTemp s a f).1.call1 (vectorizeTemp s a f).2 x = .ub := by
  cases x with
  | scalar x => simp [VecClosure.call1, vectorizeTemp, hfree]
  | array cat c l =>
    have hx : l ≠ [] := hx
    simp [VecClosure.call1, vectorizeTemp, hfree, hx]

/-- The hypotheses of `C86_temporary_false` are met: an empty store and a scaling functor. -/
example : (vectorizeTemp (fun _ => none : Store (ℤ → ℤ)) 0 (fun x => 2 * x)).1.call1
    (vectorizeTemp (fun _ => none : Store (ℤ → ℤ)) 0 (fun x => 2 * x)).2 (.array .constLvalue .vec [1, 2]) = .ub := by
  simp [VecClosure.call1, vectorizeTemp]

/-- C86 (the argument of a vectorised function): an array argument has its contents afterwards exactly
when it is const, or it is empty, or it is a `std::array` whose elements the function fixes.  (A named
non-const `std::vector` is emptied, a `std::array` is overwritten.) -/
theorem C86_argument_exact (s : Store (α → α)) (a : ℕ) (f : α → α) (h : s a = some f) (cat : Cat)
    (c : Cont) (l : List α) : ∃ r x', (vectorizeLvalue a).call1 s (.array cat c l) = .ok (r, x') ∧
      (x'.values = l ↔ cat = .constLvalue ∨ l = [] ∨ (c = .arr ∧ ∀ y ∈ l, f y = y)) := by
  refine ⟨_, .array cat c (mapUnarySame cat c f l).2, by simp [VecClosure.call1, vectorizeLvalue, h]; rfl, ?_⟩
  show (mapUnarySame cat c f l).2 = l ↔ _
  have hm : l.map f = l ↔ ∀ y ∈ l, f y = y := by
    constructor
    · intro hh y hy
      obtain ⟨i, hi, rfl⟩ := List.getElem_of_mem hy
      have := congrArg (fun z => z[i]?) hh
      simpa [hi] using this
    · intro hh
      conv_rhs => rw [← List.map_id l]
      exact List.map_congr_left hh
  have hs : ∀ k : Cat, k ≠ .constLvalue → ((mapUnarySame k c f l).2 = l ↔
      l = [] ∨ (c = .arr ∧ ∀ y ∈ l, f y = y)) := by
    intro k hk
    have e : (mapUnarySame k c f l).2 = movedFrom c (l.map f) := by cases k <;> first | rfl | exact absurd rfl hk
    rw [e]
    cases c with
    | vec =>
      constructor
      · intro h'; exact Or.inl h'.symm
      · rintro (h' | ⟨h', -⟩)
        · exact h'.symm
        · exact absurd h' (by simp)
    | arr =>
      show l.map f = l ↔ _
      rw [hm]
      constructor
      · intro h'; exact Or.inr ⟨rfl, h'⟩
      · rintro (h' | ⟨-, h'⟩)
        · subst h'; simp
        · exact h'
  cases cat with
  | constLvalue => exact ⟨fun _ => Or.inl rfl, fun _ => rfl⟩
  | lvalue => rw [hs .lvalue (by simp)]; simp
  | rvalue => rw [hs .rvalue (by simp)]; simp

/-- C86: `pow(x, y)` is element-wise over whichever arguments are arrays: `x[i]^y[i]`, `x[i]^y`, `x^y[i]`,
`x^y`; two arrays of different lengths are a violated requirement. -/
theorem C86_pow (p : α → α → α) :
    (∀ x y, ∃ a b, powV p (.scalar x) (.scalar y) = .ok (.scalar (p x y), a, b)) ∧
    (∀ cat c l y, ∃ a b, powV p (.array cat c l) (.scalar y) =
      .ok (.array .rvalue c (l.map fun v => p v y), a, b)) ∧
    (∀ cat c l x, ∃ a b, powV p (.scalar x) (.array cat c l) =
      .ok (.array .rvalue c (l.map fun v => p x v), a, b)) ∧
    (∀ cat c l cat' c' l', l.length = l'.length → ∃ a b,
      powV p (.array cat c l) (.array cat' c' l') = .ok (.array .rvalue c (List.zipWith p l l'), a, b)) ∧
    (∀ cat c l cat' c' l', l.length ≠ l'.length →
      powV p (.array cat c l) (.array cat' c' l') = .ub) := by
  refine ⟨fun x y => ⟨_, _, rfl⟩, ?_, ?_, ?_, ?_⟩
  · intro cat c l y; cases cat <;> exact ⟨_, _, rfl⟩
  · intro cat c l x; cases cat <;> exact ⟨_, _, rfl⟩
  · intro cat c l cat' c' l' h
    obtain ⟨b1, b2, e, -⟩ := (C03_map_binary cat cat' c c' p true true l l').1 h
    exact ⟨.array cat c b1, .array cat' c' b2, by simp only [powV, e, Res.bind_ok, Res.pure_eq]⟩
  · intro cat c l cat' c' l' h
    have e := (C03_map_binary cat cat' c c' p true true l l').2 h
    simp only [powV, e]; rfl

/-- C86: `pow<n>(array)` is the element-wise power with an exact result for every `n ≥ 0`. -/
theorem C86_pow_n [Monoid α] (n : ℕ) (cat : Cat) (c : Cont) (l : List α) :
    (powN (n : ℤ) cat c l).1 = l.map fun x => x ^ n := by
  have h : (fun x : α => powSq x (n : ℤ)) = fun x => x ^ n := funext fun x => C69_power_nonneg_partial x n
  unfold powN
  rw [h]
  cases cat <;> rfl

/-- C86: `fabs` of a scalar and of an array is the absolute value, element-wise. -/
theorem C86_fabs [AddCommGroup α] [LinearOrder α] [IsOrderedAddMonoid α] (x : α) (cat : Cat) (c : Cont)
    (l : List α) : fabsScalar x = |x| ∧ (fabsArr cat c l).1 = l.map fun y => |y| := by
  have h : ∀ y : α, fabsScalar y = |y| := fun y => by
    unfold fabsScalar
    split_ifs with h1 h2
    · rw [h1, abs_zero]
    · rw [abs_of_neg h2]
    · rw [abs_of_nonneg (not_lt.mp h2)]
  refine ⟨h x, ?_⟩
  unfold fabsArr
  rw [show (fabsScalar : α → α) = fun y => |y| from funext h]
  cases cat <;> rfl

/-- Cases. -/
example : ∃ a b, powV (fun x y : ℤ => x * y) (.array .constLvalue .vec [1, 2]) (.scalar 3) =
    .ok (.array .rvalue .vec [3, 6], a, b) := ⟨_, _, rfl⟩
example : (fabsArr .constLvalue .vec [-3, 0, (2 : ℤ)]).1 = [3, 0, 2] := by decide

end SciCpp
