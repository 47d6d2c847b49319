import Verif.Proofs.ArrExpr
/-
  Expressions of arrays (C125).
-/
namespace SciCpp.AEv
open Spec

variable {α : Type*}

/-! ### C125 -/

/-- C125: an expression in which no operator has an operand that overwrites an array the other operand reads has, in every order of evaluation, the value
computed element by element from the contents the arrays had before; the arrays it does not overwrite keep their contents; the vectors it overwrites are empty
afterwards. -/
theorem C125_safe (E : AEnv) (c : Cont) (e : AEx α) (N : ℕ) (σ : AStore α) (hs : aSafe E e) (hl : ∀ i ∈ aVars e, (σ i).length = N)
    (ord : List Bool → Bool) :
    ∃ v σ', e.eval E c ord σ = .ok (v, σ') ∧ v.get σ' = aDenot σ e ∧ (∀ i, i ∉ aConsumed E e → σ' i = σ i) ∧
      (c = .vec → ∀ i ∈ aConsumed E e, σ' i = []) := by
  obtain ⟨r, h1, h2, h3⟩ := safe_eval (E := E) (c := c) e ord σ hs hl
  refine ⟨r.1, r.2, h1, h2, h3, ?_⟩
  rintro rfl i hi
  exact consumed_empty e h1 hi

/-- C125, the condition is necessary for vectors that are not empty: an expression that violates it is undefined behaviour in some order of evaluation. -/
theorem C125_undefined (E : AEnv) (e : AEx α) (N : ℕ) (hN : N ≠ 0) (σ : AStore α) (hl : ∀ i ∈ aVars e, (σ i).length = N) (hs : ¬aSafe E e) :
    ∃ ord, e.eval E .vec ord σ = .ub :=
  unsafe_eval hN σ e hl hs

/-- C125, the condition is exact for vectors that are not empty.  (That every expression has its element by element value is false: `C125_twice`.) -/
theorem C125_exact (E : AEnv) (e : AEx α) (N : ℕ) (hN : N ≠ 0) (σ : AStore α) (hl : ∀ i ∈ aVars e, (σ i).length = N) :
    (∀ ord, ∃ v σ', e.eval E .vec ord σ = .ok (v, σ') ∧ v.get σ' = aDenot σ e) ↔ aSafe E e := by
  constructor
  · intro h
    by_contra hs
    obtain ⟨ord, ho⟩ := C125_undefined E e N hN σ hl hs
    obtain ⟨v, σ', h1, -⟩ := h ord
    rw [ho] at h1
    cases h1
  · intro hs ord
    obtain ⟨v, σ', h1, h2, -⟩ := C125_safe E .vec e N σ hs hl ord
    exact ⟨v, σ', h1, h2⟩

/-- C125, an expression that overwrites no array (for example: all the named arrays are const, or names are operands of operators between arrays only, without
`std::move`) has its value, and changes nothing. -/
theorem C125_pure (E : AEnv) (c : Cont) (e : AEx α) (N : ℕ) (σ : AStore α) (h : aConsumed E e = []) (hl : ∀ i ∈ aVars e, (σ i).length = N)
    (ord : List Bool → Bool) : ∃ v, e.eval E c ord σ = .ok (v, σ) ∧ v.get σ = aDenot σ e := by
  obtain ⟨v, σ', h1, h2, h3, -⟩ := C125_safe E c e N σ (safe_of_pure e h) hl ord
  obtain rfl : σ' = σ := funext fun i => h3 i (by rw [h]; simp)
  exact ⟨v, h1, h2⟩

/-- Expressions with no `std::move`. -/
def noMove : AEx α → Prop
  | .var _ => True
  | .mv _ => False
  | .un _ _ a => noMove a
  | .bin _ _ a b => noMove a ∧ noMove b

/-- C125, const arrays: nothing is overwritten when every named array is const and nothing is moved. -/
theorem C125_const (E : AEnv) (c : Cont) (e : AEx α) (N : ℕ) (σ : AStore α) (hc : ∀ i ∈ aVars e, E.isConst i = true) (hm : noMove e)
    (hl : ∀ i ∈ aVars e, (σ i).length = N) (ord : List Bool → Bool) :
    ∃ v, e.eval E c ord σ = .ok (v, σ) ∧ v.get σ = aDenot σ e := by
  have key : ∀ e : AEx α, (∀ i ∈ aVars e, E.isConst i = true) → noMove e → aConsumed E e = [] := by
    intro e
    induction e with
    | var i => intros; rfl
    | mv i => intros; rfl
    | un t op a ih =>
      intro hc hm
      cases a with
      | var i =>
        have := hc i (by simp [aVars])
        simp [aConsumed, this]
      | mv i => exact hm.elim
      | un t' op' a => exact ih hc hm
      | bin t' op' a b => exact ih hc hm
    | bin t op a b iha ihb =>
      intro hc hm
      have hg : ∀ x : AEx α, noMove x → aGiven x = [] := by
        intro x hx
        cases x with
        | mv i => exact hx.elim
        | _ => rfl
      simp only [aConsumed, iha (fun i hi => hc i (List.mem_append_left _ hi)) hm.1, ihb (fun i hi => hc i (List.mem_append_right _ hi)) hm.2,
        hg a hm.1, hg b hm.2]
      simp
  exact C125_pure E c e N σ (key e hc hm) hl ord

/-- C125, the order of evaluation is not observable in a safe expression: the value and the contents of the vectors afterwards are the same in all orders. -/
theorem C125_order (E : AEnv) (e : AEx α) (N : ℕ) (σ : AStore α) (hs : aSafe E e) (hl : ∀ i ∈ aVars e, (σ i).length = N) (o₁ o₂ : List Bool → Bool) :
    ∃ v₁ v₂ σ', e.eval E .vec o₁ σ = .ok (v₁, σ') ∧ e.eval E .vec o₂ σ = .ok (v₂, σ') ∧ v₁.get σ' = v₂.get σ' := by
  obtain ⟨v, σ', h1, h2, h3, h4⟩ := C125_safe E .vec e N σ hs hl o₁
  obtain ⟨w, τ', k1, k2, k3, k4⟩ := C125_safe E .vec e N σ hs hl o₂
  obtain rfl : σ' = τ' := by
    funext i
    by_cases hi : i ∈ aConsumed E e
    · rw [h4 rfl i hi, k4 rfl i hi]
    · rw [h3 i hi, k3 i hi]
  exact ⟨v, w, σ', h1, k1, by rw [h2, k2]⟩

/-- The environment of the examples: all arrays of doubles, not const. -/
def exEnv : AEnv := ⟨fun _ => false, fun _ => 0⟩

/-- C125, `-a + a` for non-const vectors: the size check fails in every order of evaluation, for every vector that is not empty. -/
theorem C125_twice (σ : AStore ℤ) (h : σ 0 ≠ []) (ord : List Bool → Bool) :
    (AEx.bin 0 (· + ·) (.un 0 (- ·) (.var 0)) (.var 0)).eval exEnv .vec ord σ = .ub := by
  have hl : ¬((σ 0).map fun x : ℤ => -x).length = ([] : List ℤ).length := by
    rw [List.length_map]
    simpa using h
  have hm : map2 (fun x y : ℤ => x + y) ((σ 0).map fun x : ℤ => -x) [] = .ub := if_neg hl
  cases ho : ord [] with
  | true =>
    rw [eval_bin_right _ _ _ _ _ _ ho]
    show (map2 (fun x y : ℤ => x + y) ((σ 0).map fun x : ℤ => -x) (Function.update σ 0 [] 0)).bind _ = .ub
    rw [Function.update_self, hm]
    rfl
  | false =>
    rw [eval_bin_left _ _ _ _ _ _ ho]
    show (map2 (fun x y : ℤ => x + y) ((σ 0).map fun x : ℤ => -x) (Function.update σ 0 [] 0)).bind _ = .ub
    rw [Function.update_self, hm]
    rfl

/-- C125, `-a + a` for a non-const `std::array`: `-2a` in every order of evaluation, because `a` itself has been negated when the second
operand is read. -/
theorem C125_array (σ : AStore ℤ) (ord : List Bool → Bool) :
    ∃ v σ', (AEx.bin 0 (· + ·) (.un 0 (- ·) (.var 0)) (.var 0)).eval exEnv .arr ord σ = .ok (v, σ') ∧
      v.get σ' = (σ 0).map (fun x => -2 * x) ∧ σ' 0 = (σ 0).map (fun x => -x) := by
  have hm : map2 (fun x y : ℤ => x + y) ((σ 0).map fun x : ℤ => -x) ((σ 0).map fun x : ℤ => -x) = .ok ((σ 0).map fun x => -2 * x) := by
    rw [map2_eq _ _ _ rfl, List.zipWith_map, List.zipWith_self]
    congr 1
    apply List.map_congr_left
    intro x _
    omega
  cases ho : ord [] with
  | true =>
    rw [eval_bin_right _ _ _ _ _ _ ho]
    refine ⟨.tmp ((σ 0).map fun x => -2 * x), Function.update σ 0 ((σ 0).map fun x => -x), ?_, rfl, Function.update_self _ _ _⟩
    show (map2 (fun x y : ℤ => x + y) ((σ 0).map fun x : ℤ => -x)
      (Function.update σ 0 ((σ 0).map fun x : ℤ => -x) 0)).bind _ = _
    rw [Function.update_self, hm]
    rfl
  | false =>
    rw [eval_bin_left _ _ _ _ _ _ ho]
    refine ⟨.tmp ((σ 0).map fun x => -2 * x), Function.update σ 0 ((σ 0).map fun x => -x), ?_, rfl, Function.update_self _ _ _⟩
    show (map2 (fun x y : ℤ => x + y) ((σ 0).map fun x : ℤ => -x)
      (Function.update σ 0 ((σ 0).map fun x : ℤ => -x) 0)).bind _ = _
    rw [Function.update_self, hm]
    rfl

/-- C125, `-a + (a + b)` depends on the order in which the compiler evaluates the operands: right with the right operand first, undefined with the left one
first. -/
theorem C125_orderDependent :
    let e : AEx ℤ := .bin 0 (· + ·) (.un 0 (- ·) (.var 0)) (.bin 0 (· + ·) (.var 0) (.var 1))
    let σ : AStore ℤ := fun i => if i = 0 then [1, 2] else [10, 20]
    (∃ v σ', e.eval exEnv .vec (fun _ => true) σ = .ok (v, σ') ∧ v.get σ' = [10, 20]) ∧ e.eval exEnv .vec (fun _ => false) σ = .ub :=
  ⟨⟨.tmp [10, 20], _, rfl, rfl⟩, rfl⟩

/-! Examples: `2*b + sqrt(std::move(a))`-shaped and `std::move(a) + a` meet the condition; the values. -/

example : aSafe exEnv (AEx.bin (α := ℤ) 0 (· + ·) (.un 0 (2 * ·) (.var 1)) (.un 0 (- ·) (.mv 0))) := by
  simp [aSafe, aConsumed, aVars, exEnv]

example : aSafe exEnv (AEx.bin (α := ℤ) 0 (· + ·) (.mv 0) (.var 0)) ∧
    aConsumed exEnv (AEx.bin (α := ℤ) 0 (· + ·) (.mv 0) (.var 0)) = [0] := by
  simp [aSafe, aConsumed, aVars, aIsRvalue, aGiven, AEx.elt, exEnv]

example : ¬aSafe exEnv (AEx.bin (α := ℤ) 0 (· + ·) (.un 0 (- ·) (.var 0)) (.var 0)) := by
  simp [aSafe, aConsumed, aVars, exEnv]

example : ∃ v σ', (AEx.bin (α := ℤ) 0 (· + ·) (.mv 0) (.var 0)).eval exEnv .vec (fun _ => false) (fun _ => [1, 2]) = .ok (v, σ') ∧
    v.get σ' = [2, 4] ∧ σ' 0 = [] ∧ σ' 1 = [1, 2] := ⟨.tmp [2, 4], _, rfl, rfl, rfl, rfl⟩

end SciCpp.AEv
