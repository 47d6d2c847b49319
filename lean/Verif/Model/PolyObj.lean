import Verif.Model.Poly
/-
  Programs on objects of the class `Polynomial` (scicpp/polynomials/polynomial.hpp:562-698): a store of objects, each a coefficient vector, and
  the operations of the class, with operands that may be the same object.
-/
namespace SciCpp
namespace PolyObj

variable {R : Type}

/-- The state: coefficients of each object (`none`: no such object). -/
abbrev Store (R : Type) := ℕ → Option (List R)

/-- Statements. -/
inductive Op (R : Type) where
  /-- `Polynomial<T> Pi(coef)` from a vector, an array, a range or an initializer list (polynomial.hpp:570-581) -/
  | new (i : ℕ) (l : List R)
  /-- `Polynomial<T> Pi(deg)` (polynomial.hpp:568) -/
  | zero (i deg : ℕ)
  /-- `Pi = Pj` -/
  | copy (i j : ℕ)
  /-- `Pi = std::move(Pj)` -/
  | move (i j : ℕ)
  /-- `Pi += Pj` -/
  | addA (i j : ℕ)
  /-- `Pi -= Pj` -/
  | subA (i j : ℕ)
  /-- `Pi *= Pj` -/
  | mulA (i j : ℕ)
  /-- `Pi *= Pj.data()[k]` -/
  | scaleA (i j k : ℕ)
  /-- `Pi = Pj + Pk` -/
  | add (i j k : ℕ)
  /-- `Pi = Pj - Pk` -/
  | sub (i j k : ℕ)
  /-- `Pi = Pj * Pk` -/
  | mul (i j k : ℕ)
  /-- `Pi = c * Pj` or `Pi = Pj * c` -/
  | scale (i : ℕ) (c : R) (j : ℕ)
  /-- `Pi.mulx()` -/
  | mulx (i : ℕ)

variable [Zero R] [Add R] [Sub R] [Neg R] [Mul R]

/-- The loop `for k: m[k] = f(m[k], m[k])` that the compound assignments become when both operands are the same object: every iteration reads
the vector as the previous iterations left it. -/
def selfLoop (f : R → R → R) (n : ℕ) (m : List R) : Res (List R) :=
  forN n (fun k m => do
    let a ← rd m (k : ℤ)
    let b ← rd m (k : ℤ)
    wr m (k : ℤ) (f a b)) m

/-- `P += P` (polynomial.hpp:595-616): the degrees are equal, so the second branch runs (609-613), in place. -/
def addSelf (m : List R) : Res (List R) := selfLoop (fun a b => a + b) m.length m

/-- `P -= P` (polynomial.hpp:618-637): the second branch (631-633), with `rhs.degree() + 1` iterations in wrapping arithmetic. -/
def subSelf (m : List R) : Res (List R) := selfLoop (fun a b => a - b) ((polyDegree m + 1) % 2 ^ 64) m

/-- `operator+=` of the same or of different objects (polynomial.hpp:595-616). -/
def addObj (same : Prop) [Decidable same] (a b : List R) : Res (List R) := if same then addSelf a else polyAddAssign a b

/-- `operator-=` of the same or of different objects (polynomial.hpp:618-637). -/
def subObj (same : Prop) [Decidable same] (a b : List R) : Res (List R) := if same then subSelf a else polySubAssign a b

/-- `m_coef(deg + 1, T{0})` (polynomial.hpp:568); `deg + 1` wraps. -/
def zeros (deg : ℕ) : List R := List.replicate ((deg + 1) % 2 ^ 64) 0

/-- The object `i`; using a name that is no object does not compile (treated as undefined behaviour). -/
def get (s : Store R) (i : ℕ) : Res (List R) := match s i with | some c => .ok c | none => .ub

/-- A vector of `2^64` elements or more cannot exist (`std::length_error`). -/
def put (s : Store R) (i : ℕ) (c : List R) : Res (Store R) := if c.length < 2 ^ 64 then .ok (Function.update s i (some c)) else .ub

/-- One statement. -/
def step (s : Store R) : Op R → Res (Store R)
  | .new i l => put s i l
  | .zero i deg => put s i (zeros deg)
  | .copy i j => do
    let c ← get s j
    put s i c
  | .move i j => do
    -- a vector that has been moved from is empty; moving an object to itself leaves unspecified coefficients and is not modelled
    let c ← get s j
    if i = j then .ub else put (Function.update s j (some [])) i c
  | .addA i j => do
    let a ← get s i
    let b ← get s j
    let r ← addObj (i = j) a b
    put s i r
  | .subA i j => do
    let a ← get s i
    let b ← get s j
    let r ← subObj (i = j) a b
    put s i r
  | .mulA i j => do
    -- the product is a new vector (polynomial.hpp:647-650), so that the operands may be the same
    let a ← get s i
    let b ← get s j
    let r ← polymul a b
    put s i r
  | .scaleA i j k => do
    -- the factor is passed by value (polynomial.hpp:639-645)
    let a ← get s i
    let b ← get s j
    let c ← rd b (k : ℤ)
    put s i (polyScale a c)
  | .add i j k => do
    -- `auto tmp(*this); tmp += rhs; return tmp;` (polynomial.hpp:652-656)
    let a ← get s j
    let b ← get s k
    let r ← polyAddAssign a b
    put s i r
  | .sub i j k => do
    let a ← get s j
    let b ← get s k
    let r ← polySubAssign a b
    put s i r
  | .mul i j k => do
    let a ← get s j
    let b ← get s k
    let r ← polymul a b
    put s i r
  | .scale i c j => do
    let a ← get s j
    put s i (polyScale a c)
  | .mulx i => do
    let a ← get s i
    put s i (polymulxMove a)

/-- A program. -/
def run (s : Store R) : List (Op R) → Res (Store R)
  | [] => .ok s
  | o :: os => do
    let s' ← step s o
    run s' os

/-- No objects. -/
def empty : Store R := fun _ => none

end PolyObj
end SciCpp
