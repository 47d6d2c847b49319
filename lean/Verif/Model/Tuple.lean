import Verif.Model.Loop
import Verif.Model.Stats
/-
  Model of scicpp/core/tuple.hpp (arrays of tuples) and scicpp/linalg/utils.hpp (conversions between
  standard containers and Eigen vectors).
-/
namespace SciCpp

/-- A tuple type with `k` components of types `τ 0, …, τ (k-1)` (`std::tuple`, `std::pair`). -/
abbrev Tup {k : ℕ} (τ : Fin k → Type) := (i : Fin k) → τ i

/-- `std::transform(a.cbegin(), a.cend(), res.begin(), f)`: writes through the output iterator,
starting at position `i` of `res` (writing past its end is undefined behaviour). -/
def transformInto {α β : Type} (f : α → β) : List α → ℕ → List β → Res (List β)
  | [], _, res => .ok res
  | a :: as, i, res => do
    let res' ← wr res (i : ℤ) (f a)
    transformInto f as (i + 1) res'

/-- `get_field<I>(a)` for vectors and arrays (scicpp/core/tuple.hpp:27-50).  The result starts as
`a.size()` default values. -/
def getField {k : ℕ} {τ : Fin k → Type} [∀ i, Inhabited (τ i)] (i : Fin k) (a : List (Tup τ)) :
    Res (List (τ i)) :=
  transformInto (fun t => t i) a 0 (List.replicate a.length default)

/-- `std::get<EltType>(t)` finds the component of type `EltType`; it does not compile unless exactly
one component has that type (`tags` are the component types). -/
def typeIndex {k : ℕ} {Tag : Type} [DecidableEq Tag] (tags : Fin k → Tag) (t : Tag) : Option (Fin k) :=
  match (List.finRange k).filter (fun i => tags i = t) with
  | [i] => some i
  | _ => none

/-- `unpack(a)` (scicpp/core/tuple.hpp:83-100): the tuple of all fields. -/
def unpack {k : ℕ} {τ : Fin k → Type} [∀ i, Inhabited (τ i)] (a : List (Tup τ)) :
    (i : Fin k) → Res (List (τ i)) :=
  fun i => getField i a

/-! ### Eigen conversions -/

/-- `to_eigen_matrix(const std::vector<T> &v, int size)` and `to_eigen_array`
(scicpp/linalg/utils.hpp:20-46): a view of `size` elements starting at `v.data()`; `-1` stands for
`int(v.size())`.  Negative sizes fail an Eigen assertion, reading past the end is undefined
behaviour. -/
def toEigen {α : Type} (v : List α) (size : ℤ) : Res (List α) :=
  let sz := if size = -1 then toI32 v.length else size
  if 0 ≤ sz ∧ sz ≤ v.length then .ok (v.take sz.toNat) else .ub

/-- A dense Eigen matrix in its default storage order: columns one after the other. -/
structure EMat (α : Type) where
  rows : ℕ
  cols : ℕ
  data : List α
  size : data.length = rows * cols

/-- Element `(i, j)` of a column-major matrix. -/
def EMat.get? {α : Type} (m : EMat α) (i j : ℕ) : Option α :=
  if i < m.rows ∧ j < m.cols then m.data[i + j * m.rows]? else none

/-- `to_std_container(m)` (scicpp/linalg/utils.hpp:68-80): the storage in order. -/
def toStd {α : Type} (m : EMat α) : List α := m.data

/-- The column vector with given entries. -/
def EMat.ofVec {α : Type} (v : List α) : EMat α := ⟨v.length, 1, v, by simp⟩

end SciCpp
