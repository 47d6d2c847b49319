import Verif.Model.Functional
import Verif.Model.Loop
/-
  Model of scicpp/core/manips.hpp, scicpp/core/utils.hpp (subvector) and of the shifts and padding
  of scicpp/signal/fft.hpp.
-/
namespace SciCpp

universe u v w
variable {α : Type u} {β : Type v} {γ : Type w}

/-- `std::copy(src.begin(), src.end(), dst.begin() + off)`: element-wise writes, UB when they run
past the end of `dst`. -/
def copyAt (dst : List α) (off : ℤ) : List α → Res (List α)
  | [] => .ok dst
  | x :: xs => do
    let d ← wr dst off x
    copyAt d (off + 1) xs

/-- The range `[begin() + lo, begin() + hi)`: forming it is UB outside `[0, size]` or when
`hi < lo`. -/
def subrange (l : List α) (lo hi : ℤ) : Res (List α) :=
  if 0 ≤ lo ∧ lo ≤ hi ∧ hi ≤ l.length then .ok ((l.drop lo.toNat).take (hi - lo).toNat) else .ub

/-! ### concatenate -/

/-- `concatenate(const Array1&, const Array2&)` (scicpp/core/manips.hpp:48-73) and the `std::array`
version (27-46); `c1`, `c2` are the conversions to `std::common_type_t<T1, T2>` (for quantities:
identity and `quantity_cast<T1>`).  `dflt` is the value-initialised element. -/
def concatConst (c1 : α → γ) (c2 : β → γ) (dflt : γ) (a1 : List α) (a2 : List β) : Res (List γ) :=
  let res := a1.map c1
  let res := res ++ List.replicate a2.length dflt                 -- resize
  copyAt res a1.length (a2.map c2)

/-- Element conversion available to the moving overloads (scicpp/core/manips.hpp:89-96, 114-121). -/
inductive Conv (α : Type u) (β : Type v) where
  /-- same type, or a quantity: converted with `f` (identity, `quantity_cast`) -/
  | same (f : β → α)
  /-- `std::is_convertible_v<T, Tarray>`: `static_cast<T>` -/
  | cast (f : β → α)
  /-- `T` is not convertible to `Tarray`: neither branch is compiled -/
  | none

/-- `concatenate(std::vector<T> &&a1, const Array &a2)` (scicpp/core/manips.hpp:75-99). -/
def concatFirst (conv : Conv α β) (dflt : α) (a1 : List α) (a2 : List β) : Res (List α) :=
  let n1 := a1.length
  let a1 := a1 ++ List.replicate a2.length dflt                   -- 80: resize
  match conv with
  | .same f => copyAt a1 n1 (a2.map f)                            -- 85-90
  | .cast f => copyAt a1 n1 (a2.map f)                            -- 92-95
  | .none => .ok a1

/-- `concatenate(const Array &a1, std::vector<T> &&a2)` (scicpp/core/manips.hpp:101-124):
`std::inserter(a2, a2.begin())` inserts before a position that advances with every insertion. -/
def concatSecond (conv : Conv α β) (a1 : List β) (a2 : List α) : List α :=
  match conv with
  | .same f => insertAll 0 a2 (a1.map f)
  | .cast f => insertAll 0 a2 (a1.map f)
  | .none => a2
where
  /-- Insertions at positions `k, k+1, …`. -/
  insertAll (k : ℕ) (dst : List α) : List α → List α
    | [] => dst
    | x :: xs => insertAll (k + 1) (dst.take k ++ x :: dst.drop k) xs

/-- The variadic `concatenate(a1, ..., an)` (scicpp/core/manips.hpp:140-145) on lvalue vectors of one
type: the right fold `a1 | (a2 | (... | an))`; the innermost `|` is the const overload, every other
one has an rvalue vector on its right. -/
def concatAll (dflt : α) : List (List α) → Res (List α)
  | [] => .ok []                                                  -- not callable with no argument
  | [a] => .ok a
  | [a, b] => concatConst id id dflt a b
  | a :: rest => do
    let r ← concatAll dflt rest
    pure (concatSecond (.same id) a r)

/-! ### flip -/

/-- `flip` (scicpp/core/manips.hpp:156-167).  A const lvalue selects the copying overload; a
non-const lvalue and an rvalue select `Array &&`, which reverses the argument in place and returns
`std::forward<Array>(a)` (a copy for an lvalue, a move for an rvalue). Returns the result and the
contents of the argument after the call. -/
def flip (cat : Cat) (c : Cont) (a : List α) : List α × List α :=
  match cat with
  | .constLvalue => (a.reverse, a)
  | .lvalue => (a.reverse, a.reverse)
  | .rvalue => (a.reverse, movedFrom c a.reverse)

/-! ### subvector -/

/-- `utils::subvector(v, len, offset)` (scicpp/core/utils.hpp:41-55). -/
def subvector (v : List α) (len offset : ℤ) : Res (List α) :=
  let length := min len v.length
  subrange v offset (offset + length)

/-! ### fftshift, ifftshift, zero_padding -/

/-- `std::rotate(begin, begin + k, end)`. -/
def rotateAt (l : List α) (k : ℕ) : List α := l.drop k ++ l.take k

/-- `fftshift(Array&&)` (scicpp/signal/fft.hpp:26-32), result only. -/
def fftshiftMove (a : List α) : List α := rotateAt a ((a.length + 1) / 2)

/-- `fftshift(const Array&)` (scicpp/signal/fft.hpp:34-44).  `a.size() - 1` is unsigned, so for an
empty array the offset is `(-1) / 2 + 1 = 1` and the first range is invalid. -/
def fftshiftConst (dflt : α) (a : List α) : Res (List α) := do
  let res := List.replicate a.length dflt
  let offset : ℤ := Int.tdiv ((a.length : ℤ) - 1) 2 + 1
  let p1 ← subrange a offset a.length
  let res ← copyAt res 0 p1
  let p2 ← subrange a 0 offset
  copyAt res ((a.length / 2 : ℕ) : ℤ) p2

/-- `ifftshift(Array&&)` (scicpp/signal/fft.hpp:46-51), result only. -/
def ifftshiftMove (a : List α) : List α := rotateAt a (a.length / 2)

/-- `ifftshift(const Array&)` (scicpp/signal/fft.hpp:53-63). -/
def ifftshiftConst (dflt : α) (a : List α) : Res (List α) := do
  let res := List.replicate a.length dflt
  let offset : ℤ := ((a.length / 2 : ℕ) : ℤ)
  let p1 ← subrange a offset a.length
  let res ← copyAt res 0 p1
  let p2 ← subrange a 0 offset
  copyAt res (((a.length + 1) / 2 : ℕ) : ℤ) p2

/-- `fftshift` with the argument's fate: the forwarding overload always moves out
(scicpp/signal/fft.hpp:31). -/
def fftshift (cat : Cat) (c : Cont) (dflt : α) (a : List α) : Res (List α × List α) :=
  match cat with
  | .constLvalue => fftshiftConst dflt a >>= fun r => .ok (r, a)
  | _ => .ok (fftshiftMove a, movedFrom c (fftshiftMove a))

/-- `ifftshift` with the argument's fate (scicpp/signal/fft.hpp:46-63). -/
def ifftshift (cat : Cat) (c : Cont) (dflt : α) (a : List α) : Res (List α × List α) :=
  match cat with
  | .constLvalue => ifftshiftConst dflt a >>= fun r => .ok (r, a)
  | _ => .ok (ifftshiftMove a, movedFrom c (ifftshiftMove a))

/-- `zero_padding(const Array&, new_size)` (scicpp/signal/fft.hpp:168-178). -/
def zeroPadConst [Zero α] (v : List α) (n : ℕ) : Res (List α) := do
  let p ← subrange v 0 ((min n v.length : ℕ) : ℤ)
  copyAt (List.replicate n 0) 0 p

/-- `zero_padding(std::vector<T>&&, new_size)` (scicpp/signal/fft.hpp:180-184): `resize`. -/
def zeroPadMove [Zero α] (v : List α) (n : ℕ) : List α :=
  if n ≤ v.length then v.take n else v ++ List.replicate (n - v.length) 0

end SciCpp
