import Verif.Model.Tuple
/-
  `to_eigen_matrix(const std::vector<T> &)` and `to_eigen_array(const std::vector<T> &)` return an `Eigen::Map`: a pointer and a length, not a
  copy (scicpp/linalg/utils.hpp:20-44).  The vectors, their buffers and the operations that change or release them are modelled here
  (`std::vector` is the standard library's: its operations are what the C++ standard says of pointers into a vector).
-/
namespace SciCpp
namespace EigenView

/-- Storage of vectors: `heap b` is a live buffer with its elements and its capacity; `vecs v` the buffer of the vector named `v`. -/
structure World (α : Type) where
  heap : ℕ → Option (List α × ℕ)
  vecs : ℕ → Option ℕ
  next : ℕ

variable {α : Type}

/-- The elements and the capacity of a vector. -/
def World.vec (w : World α) (v : ℕ) : Option (List α × ℕ) := (w.vecs v).bind w.heap

/-- The elements of a vector. -/
def World.elems (w : World α) (v : ℕ) : Option (List α) := (w.vec v).map Prod.fst

/-- The capacity of a vector. -/
def World.cap (w : World α) (v : ℕ) : Option ℕ := (w.vec v).map Prod.snd

/-- Operations of a program on its vectors. -/
inductive Op (α : Type) where
  /-- `v[i] = x` -/
  | set (v i : ℕ) (x : α)
  /-- `v.push_back(x)`; if the storage is full, the new capacity is `newcap` (chosen by the library). -/
  | push (v : ℕ) (x : α) (newcap : ℕ)
  /-- `v.pop_back()` -/
  | pop (v : ℕ)
  /-- `v.reserve(n)` -/
  | reserve (v n : ℕ)
  /-- a new vector named `v` with the elements `l` -/
  | create (v : ℕ) (l : List α)
  /-- `auto v2 = std::move(v)` -/
  | move (v v2 : ℕ)
  /-- end of the lifetime of `v` -/
  | destroy (v : ℕ)

/-- The elements of the buffer `b` of a vector are replaced by `l`, in place when they fit in the capacity, else in a new buffer of capacity
`nc` while the old one is released. -/
def store (w : World α) (v b : ℕ) (l : List α) (cap nc : ℕ) : World α :=
  if l.length ≤ cap then { w with heap := Function.update w.heap b (some (l, cap)) }
  else { heap := Function.update (Function.update w.heap b none) w.next (some (l, max nc l.length)),
         vecs := Function.update w.vecs v (some w.next), next := w.next + 1 }

/-- One operation; undefined behaviour on a name that is not a vector, an index out of range and `pop_back` of an empty vector. -/
def step (w : World α) : Op α → Res (World α)
  | .set v i x => match w.vecs v with
    | none => .ub
    | some b => match w.heap b with
      | none => .ub
      | some (l, c) => if i < l.length then .ok (store w v b (l.set i x) c c) else .ub
  | .push v x nc => match w.vecs v with
    | none => .ub
    | some b => match w.heap b with
      | none => .ub
      | some (l, c) => .ok (store w v b (l ++ [x]) c nc)
  | .pop v => match w.vecs v with
    | none => .ub
    | some b => match w.heap b with
      | none => .ub
      | some (l, c) => if l = [] then .ub else .ok (store w v b l.dropLast c c)
  | .reserve v n => match w.vecs v with
    | none => .ub
    | some b => match w.heap b with
      | none => .ub
      | some (l, c) => if n ≤ c then .ok w
        else .ok { heap := Function.update (Function.update w.heap b none) w.next (some (l, n)),
                   vecs := Function.update w.vecs v (some w.next), next := w.next + 1 }
  | .create v l => match w.vecs v with
    | some _ => .ub
    | none => .ok { heap := Function.update w.heap w.next (some (l, l.length)), vecs := Function.update w.vecs v (some w.next), next := w.next + 1 }
  | .move v v2 => match w.vecs v, w.vecs v2 with
    | some b, none => .ok { heap := Function.update w.heap w.next (some ([], 0)),
                            vecs := Function.update (Function.update w.vecs v (some w.next)) v2 (some b), next := w.next + 1 }
    | _, _ => .ub
  | .destroy v => match w.vecs v with
    | none => .ub
    | some b => .ok { w with heap := Function.update w.heap b none, vecs := Function.update w.vecs v none }

/-- A history of operations. -/
def run (w : World α) : List (Op α) → Res (World α)
  | [] => .ok w
  | o :: os => do
    let w' ← step w o
    run w' os

/-- The empty program state. -/
def empty : World α := ⟨fun _ => none, fun _ => none, 0⟩

/-- `Eigen::Map`: pointer and length. -/
structure View where
  buf : ℕ
  len : ℕ
deriving DecidableEq

/-- `to_eigen_matrix(v, size)`, `to_eigen_array(v, size)` (scicpp/linalg/utils.hpp:20-44): the pointer `v.data()` and the length; `-1` stands for
`int(v.size())`; a negative length fails an Eigen assertion (treated as undefined behaviour, as in `toEigen`). -/
def toEigenView (w : World α) (v : ℕ) (size : ℤ) : Res View :=
  match w.vecs v with
  | none => .ub
  | some b => match w.heap b with
    | none => .ub
    | some (l, _) =>
      let sz := if size = -1 then toI32 l.length else size
      if 0 ≤ sz then .ok ⟨b, sz.toNat⟩ else .ub

/-- Reading all elements of the view (what evaluating an Eigen expression does): undefined behaviour when the buffer has been released or has
fewer elements. -/
def read (w : World α) (m : View) : Res (List α) :=
  match w.heap m.buf with
  | none => .ub
  | some (l, _) => if m.len ≤ l.length then .ok (l.take m.len) else .ub

/-- `to_eigen_matrix<size>(const std::array<T, N> &)`, `to_eigen_array<size>` (scicpp/linalg/utils.hpp:46-59): an `Eigen::Matrix<T, M, 1>` constructed from
a pointer to `M` elements: a copy.  `M` is `N` by default; nothing compares `M` and `N`. -/
def toEigenFixed (a : List α) (size : ℤ) : Res (List α) :=
  let m := if size = -1 then toI32 a.length else size
  if 0 ≤ m ∧ m ≤ a.length then .ok (a.take m.toNat) else .ub

end EigenView
end SciCpp
