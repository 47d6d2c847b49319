import Mathlib.Order.Defs.LinearOrder
import Mathlib.Data.List.Sort
/-
  Order statistics: the `k`-th smallest element (counting from 0, with repetition) is the `k`-th
  entry of the sorted list.
-/
namespace SciCpp.Spec

/-- The elements in non-decreasing order. -/
def sorted {α : Type*} [LinearOrder α] (l : List α) : List α := l.insertionSort (· ≤ ·)

/-- The `k`-th order statistic. -/
def orderStat {α : Type*} [LinearOrder α] (l : List α) (k : ℕ) (h : k < l.length) : α :=
  (sorted l)[k]'(by simpa [sorted, List.length_insertionSort] using h)

end SciCpp.Spec
