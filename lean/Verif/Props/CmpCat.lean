import Verif.Model.CmpCat
import Verif.Props.Numeric
/-
  C103: array comparisons and the value categories of their arguments.
-/
namespace SciCpp

namespace Spec

/-- The comparison of two `bool`s (`false < true`). -/
def boolCmp : CmpFn → Bool → Bool → Prop
  | .equal, u, v => u = v
  | .notEqual, u, v => u ≠ v
  | .less, u, v => u < v
  | .lessEqual, u, v => u ≤ v
  | .greater, u, v => v < u
  | .greaterEqual, u, v => v ≤ u

end Spec

open Spec

instance (fn : CmpFn) (u v : Bool) : Decidable (boolCmp fn u v) := by
  cases fn <;> unfold boolCmp <;> infer_instance

theorem mapBinary_ok {α : Type*} (cat1 cat2 : Cat) (c1 c2 : Cont) (op : α → α → α) (s1 s2 : Bool) (a b : List α)
    (h : a.length = b.length) :
    mapBinary cat1 cat2 c1 c2 op s1 s2 a b = .ok (List.zipWith op a b,
      (if mapBinaryDest cat1 cat2 s1 s2 = .first then movedFrom c1 (List.zipWith op a b) else a),
      (if mapBinaryDest cat1 cat2 s1 s2 = .second then movedFrom c2 (List.zipWith op a b) else b)) := by
  unfold mapBinary
  rw [transform2_eq op a b h]
  simp only [h, beq_self_eq_true, require_true, Res.bind_ok]
  cases mapBinaryDest cat1 cat2 s1 s2 <;> rfl

theorem mapBinary_ub {α : Type*} (cat1 cat2 : Cat) (c1 c2 : Cont) (op : α → α → α) (s1 s2 : Bool) (a b : List α)
    (h : a.length ≠ b.length) : mapBinary cat1 cat2 c1 c2 op s1 s2 a b = .ub := by
  unfold mapBinary
  simp [require_beq_ne h]

theorem zipWith_swap {α β γ : Type*} (f : α → β → γ) (a : List α) (b : List β) :
    List.zipWith f a b = List.zipWith (fun y x => f x y) b a := by
  induction a generalizing b with
  | nil => cases b <;> rfl
  | cons x a ih => cases b with
    | nil => rfl
    | cons y b => simp [ih b]

/-- C103: which calls compile: `equal`, `not_equal`, `less` and `greater_equal` always, `less_equal` and `greater`
exactly when both arguments have the same container type and either both or none are `const`. -/
theorem C103_compiles (fn : CmpFn) (cat1 cat2 : Cat) (c1 c2 : Cont) (a b : List Bool) :
    (cmpBool fn cat1 cat2 c1 c2 a b).isSome = true ↔
      (fn = .lessEqual ∨ fn = .greater → c1 = c2 ∧ (cat1 = .constLvalue ↔ cat2 = .constLvalue)) := by
  cases fn <;> simp [cmpBool, fwdOk]
  all_goals cases c1 <;> cases c2 <;> cases cat1 <;> cases cat2 <;> decide

/-- C103: a call that compiles gives, for arrays of equal length, the array of the comparisons of the elements, for
every value category; arrays of different lengths violate a requirement. -/
theorem C103_result (fn : CmpFn) (cat1 cat2 : Cat) (c1 c2 : Cont) (a b : List Bool)
    (r : Res (List Bool × List Bool × List Bool)) (h : cmpBool fn cat1 cat2 c1 c2 a b = some r) :
    (a.length = b.length → ∃ a' b', r = .ok (List.zipWith (fun u v => decide (boolCmp fn u v)) a b, a', b')) ∧
    (a.length ≠ b.length → r = .ub) := by
  have cong : ∀ (f g : Bool → Bool → Bool), (∀ u v, f u v = g u v) → List.zipWith f a b = List.zipWith g a b :=
    fun f g hfg => by rw [show f = g from funext fun u => funext fun v => hfg u v]
  have swap : ∀ (neg : Bool), (cmpBool (if neg then .lessEqual else .greater) cat1 cat2 c1 c2 a b = some r) →
      (if neg then CmpFn.lessEqual else .greater) = fn →
      (a.length = b.length → ∃ a' b', r = .ok (List.zipWith (fun u v => decide (boolCmp fn u v)) a b, a', b')) ∧
      (a.length ≠ b.length → r = .ub) := by
    intro neg hn hfn
    subst hfn
    by_cases hw : c1 = c2 ∧ fwdOk cat1 cat2 = true ∧ fwdOk cat2 cat1 = true
    · cases neg
      · simp only [cmpBool, Bool.false_eq_true, if_false, if_pos hw, Option.some.injEq] at hn
        subst hn
        refine ⟨fun hl => ?_, fun hl => ?_⟩
        · rw [mapBinary_ok _ _ _ _ _ _ _ _ _ hl.symm]
          refine ⟨_, _, congrArg Res.ok (Prod.ext ?_ rfl)⟩
          show List.zipWith ltBool b a = _
          rw [zipWith_swap]
          exact cong _ _ fun u v => by cases u <;> cases v <;> decide
        · rw [mapBinary_ub _ _ _ _ _ _ _ _ _ (Ne.symm hl)]; rfl
      · simp only [cmpBool, if_true, if_pos hw, Option.map_some, Option.some.injEq] at hn
        subst hn
        refine ⟨fun hl => ?_, fun hl => ?_⟩
        · rw [mapBinary_ok _ _ _ _ _ _ _ _ _ hl.symm]
          refine ⟨_, _, congrArg Res.ok (Prod.ext ?_ rfl)⟩
          show (List.zipWith ltBool b a).map (!·) = _
          rw [zipWith_swap, List.map_zipWith]
          exact cong _ _ fun u v => by cases u <;> cases v <;> decide
        · rw [mapBinary_ub _ _ _ _ _ _ _ _ _ (Ne.symm hl)]; rfl
    · cases neg <;> simp [cmpBool, hw] at hn
  cases fn with
  | lessEqual => exact swap true h rfl
  | greater => exact swap false h rfl
  | equal =>
    simp only [cmpBool, Option.some.injEq] at h
    subst h
    refine ⟨fun hl => ?_, fun hl => mapBinary_ub _ _ _ _ _ _ _ _ _ hl⟩
    rw [mapBinary_ok _ _ _ _ _ _ _ _ _ hl]
    exact ⟨_, _, congrArg Res.ok (Prod.ext (cong _ _ fun u v => by cases u <;> cases v <;> decide) rfl)⟩
  | less =>
    simp only [cmpBool, Option.some.injEq] at h
    subst h
    refine ⟨fun hl => ?_, fun hl => mapBinary_ub _ _ _ _ _ _ _ _ _ hl⟩
    rw [mapBinary_ok _ _ _ _ _ _ _ _ _ hl]
    exact ⟨_, _, congrArg Res.ok (Prod.ext (cong _ _ fun u v => by cases u <;> cases v <;> decide) rfl)⟩
  | notEqual =>
    simp only [cmpBool, Option.some.injEq] at h
    subst h
    refine ⟨fun hl => ?_, fun hl => by rw [mapBinary_ub _ _ _ _ _ _ _ _ _ hl]; rfl⟩
    rw [mapBinary_ok _ _ _ _ _ _ _ _ _ hl]
    refine ⟨_, _, congrArg Res.ok (Prod.ext ?_ rfl)⟩
    show (List.zipWith _ a b).map (!·) = _
    rw [List.map_zipWith]
    exact cong _ _ fun u v => by cases u <;> cases v <;> decide
  | greaterEqual =>
    simp only [cmpBool, Option.some.injEq] at h
    subst h
    refine ⟨fun hl => ?_, fun hl => by rw [mapBinary_ub _ _ _ _ _ _ _ _ _ hl]; rfl⟩
    rw [mapBinary_ok _ _ _ _ _ _ _ _ _ hl]
    refine ⟨_, _, congrArg Res.ok (Prod.ext ?_ rfl)⟩
    show (List.zipWith _ a b).map (!·) = _
    rw [List.map_zipWith]
    exact cong _ _ fun u v => by cases u <;> cases v <;> decide

/-- C103: what happens to a named first argument: `equal`, `not_equal`, `less`, `greater_equal` leave it unchanged,
and so do `less_equal` and `greater` unless the second argument is a temporary: then it is overwritten, and emptied
if it is a vector.  (The named second argument, with a temporary first argument, likewise.)  Partial: the claim that
named arguments are unchanged is false in the excepted case (`C103_named_false`). -/
theorem C103_arguments_partial (fn : CmpFn) (cat1 cat2 : Cat) (c1 c2 : Cont) (a b r a' b' : List Bool)
    (h : cmpBool fn cat1 cat2 c1 c2 a b = some (.ok (r, a', b'))) :
    (cat1 ≠ .rvalue →
      ((fn = .lessEqual ∨ fn = .greater) ∧ cat2 = .rvalue → a' = movedFrom c1 (List.zipWith ltBool b a)) ∧
      (¬ ((fn = .lessEqual ∨ fn = .greater) ∧ cat2 = .rvalue) → a' = a)) ∧
    (cat2 ≠ .rvalue →
      ((fn = .lessEqual ∨ fn = .greater) ∧ cat1 = .rvalue → b' = movedFrom c2 (List.zipWith ltBool b a)) ∧
      (¬ ((fn = .lessEqual ∨ fn = .greater) ∧ cat1 = .rvalue) → b' = b)) := by
  by_cases hl : a.length = b.length
  · have hl' := hl.symm
    have key : ∀ t : List Bool × List Bool × List Bool,
        cmpBool fn cat1 cat2 c1 c2 a b = some (.ok t) → t.2 = (a', b') := by
      intro t ht
      rw [ht] at h
      simp only [Option.some.injEq, Res.ok.injEq] at h
      rw [h]
    cases fn
    case lessEqual =>
      by_cases hw : c1 = c2 ∧ fwdOk cat1 cat2 = true ∧ fwdOk cat2 cat1 = true
      · have e := key _ (by
          simp only [cmpBool, if_pos hw, Option.map_some]
          rw [mapBinary_ok _ _ _ _ _ _ _ _ _ hl']
          rfl)
        simp only [Prod.mk.injEq] at e
        obtain ⟨e1, e2⟩ := e
        obtain ⟨rfl, -, -⟩ := hw
        rw [← e1, ← e2]
        cases cat1 <;> cases cat2 <;> simp [mapBinaryDest]
      · simp [cmpBool, hw] at h
    case greater =>
      by_cases hw : c1 = c2 ∧ fwdOk cat1 cat2 = true ∧ fwdOk cat2 cat1 = true
      · have e := key _ (by
          simp only [cmpBool, if_pos hw]
          rw [mapBinary_ok _ _ _ _ _ _ _ _ _ hl']
          rfl)
        simp only [Prod.mk.injEq] at e
        obtain ⟨e1, e2⟩ := e
        obtain ⟨rfl, -, -⟩ := hw
        rw [← e1, ← e2]
        cases cat1 <;> cases cat2 <;> simp [mapBinaryDest]
      · simp [cmpBool, hw] at h
    all_goals
      have e := key _ (by
        simp only [cmpBool]
        rw [mapBinary_ok _ _ _ _ _ _ _ _ _ hl]
        try rfl)
      simp only [Prod.mk.injEq] at e
      obtain ⟨e1, e2⟩ := e
      rw [← e1, ← e2]
      cases cat1 <;> cases cat2 <;> simp [mapBinaryDest]
  · exfalso
    obtain ⟨_, h2⟩ := C103_result fn cat1 cat2 c1 c2 a b _ h
    simpa using h2 hl

/-- C103 is false of the code: `greater(x, temporary)` empties a named vector `x` of `bool`. -/
theorem C103_named_false :
    cmpBool .greater .lvalue .rvalue .vec .vec [true, false] [false, false] =
      some (.ok ([true, false], [], [false, false])) ∧
    cmpBool .greater .constLvalue .lvalue .vec .vec [true, false] [false, false] = none ∧
    cmpBool .less .constLvalue .lvalue .vec .vec [true, false] [false, false] =
      some (.ok ([false, false], [true, false], [false, false])) := by decide

/-- For every other element type no argument changes, whatever the categories: a comparison of arrays of
non-`bool` elements never writes into an argument. -/
theorem cmp_other_types (cat1 cat2 : Cat) : mapBinaryDest cat1 cat2 false false = .fresh := by
  cases cat1 <;> cases cat2 <;> rfl

end SciCpp
