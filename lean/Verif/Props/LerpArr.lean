import Verif.Model.LerpArr
import Verif.Props.Numeric
import Verif.Props.Equal
import Verif.Props.Range
/-
  Property theorems C65, continued: `lerp` of arrays.
-/
namespace SciCpp

/-- **C65 (arrays).**  `lerp` of two arrays of one length is `a[i] + t (b[i] - a[i])` in every element; `t = 0` gives the first array and `t = 1` the second;
elements lie between those of both arrays for `t` in `[0, 1]`; named arguments keep their contents; arrays of different lengths violate the precondition. -/
theorem C65_lerp_arrays {K : Type} [Field K] [LinearOrder K] [IsStrictOrderedRing K] (cat : Cat) (c : Cont) (a b : List K) (t : K) :
    (a.length = b.length → ∃ r a' b', lerpArr lerp cat c a b t = .ok (r, a', b') ∧ r.length = a.length ∧
      (∀ i (hr : i < r.length) (ha : i < a.length) (hb : i < b.length), r[i] = a[i] + t * (b[i] - a[i]) ∧
        (0 ≤ t → t ≤ 1 → min a[i] b[i] ≤ r[i] ∧ r[i] ≤ max a[i] b[i])) ∧
      (t = 0 → r = a) ∧ (t = 1 → r = b) ∧ (cat ≠ .rvalue → a' = a ∧ b' = b)) ∧
    (a.length ≠ b.length → lerpArr lerp cat c a b t = .ub) := by
  obtain ⟨h1, h2⟩ := C03_map_binary cat cat c c (fun x y : K => lerp x y t) true true a b
  refine ⟨fun h => ?_, h2⟩
  obtain ⟨a', b', e, hl⟩ := h1 h
  refine ⟨_, a', b', e, hl, fun i hr ha hb => ?_, fun ht => ?_, fun ht => ?_, fun hc => ?_⟩
  · rw [List.getElem_zipWith]
    exact ⟨(C65_lerp _ _).1 t, (C65_lerp _ _).2.2.2.2.2 t⟩
  · subst ht
    apply List.ext_getElem hl
    intro i _ _
    rw [List.getElem_zipWith, (C65_lerp _ _).2.1]
  · subst ht
    apply List.ext_getElem (hl.trans h)
    intro i _ _
    rw [List.getElem_zipWith, (C65_lerp _ _).2.2.1]
  · have := (C04_argument_preserved_partial c (id : K → K) (id : K → K) (fun x y : K => lerp x y t) a cat).2.2.2 cat cat c c true true b _ a' b' e
    exact ⟨this.1 hc, this.2 hc⟩

/-- **C65 (arrays in floating point).**  Every element is what the scalar function gives, so that `C65_rounded` holds element by element. -/
theorem C65_lerp_arrays_rounded {rnd : ℚ → ℚ} (cat : Cat) (c : Cont) (a b : List (RFl rnd)) (t : RFl rnd) (h : a.length = b.length) :
    ∃ a' b', lerpArr lerpF cat c a b t = .ok (List.zipWith (fun x y => lerpF x y t) a b, a', b') := by
  obtain ⟨a', b', e, -⟩ := (C03_map_binary cat cat c c (fun x y : RFl rnd => lerpF x y t) true true a b).1 h
  exact ⟨a', b', e⟩

/-- **C65 (overloads).**  A named and a temporary array, or a constant and a modifiable one, cannot be mixed. -/
theorem C65_lerp_arrays_categories (cat1 cat2 : Cat) : lerpArrCompiles cat1 cat2 = true ↔ cat1 = cat2 := by
  simp [lerpArrCompiles]

example : ∃ r a' b', lerpArr lerp .lvalue .vec [1, -2, (3 : ℚ)] [5, 2, 1] (1 / 2) = .ok (r, a', b') ∧ r = [3, 0, 2] :=
  ⟨_, _, _, rfl, by decide +kernel⟩

end SciCpp
