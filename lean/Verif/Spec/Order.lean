import Mathlib.Data.List.Basic
/-
  Small independent specifications used by the property theorems on selection.
-/
namespace SciCpp.Spec

/-- `cmp` is a strict weak ordering on the elements satisfying `p` (what a C++ comparator has to
be on the values it is used on). -/
structure StrictWeakOn {α : Type*} (p : α → Bool) (cmp : α → α → Bool) : Prop where
  irrefl : ∀ x, p x → cmp x x = false
  trans : ∀ x y z, p x → p y → p z → cmp x y → cmp y z → cmp x z
  negTrans : ∀ x y z, p x → p y → p z → cmp x z → cmp x y ∨ cmp y z

/-- `i` is the *first* index holding a best element (w.r.t. `cmp`, "better than") among the
elements of `l` accepted by `p`. -/
structure IsFirstBest {α : Type*} (p : α → Bool) (cmp : α → α → Bool) (l : List α) (i : ℕ) :
    Prop where
  lt : i < l.length
  acc : p l[i]
  best : ∀ (j : ℕ) (hj : j < l.length), p l[j] → cmp l[j] l[i] = false
  first : ∀ (j : ℕ) (hj : j < i), p (l[j]'(by omega)) → cmp l[i] (l[j]'(by omega))

end SciCpp.Spec
