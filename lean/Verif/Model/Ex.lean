import Mathlib.Algebra.Field.Defs
import Mathlib.Algebra.Star.Basic
import Mathlib.Tactic.Ring
/-
  `Ex K`: the values of an (exact) field `K` together with the two non-finite outcomes a
  floating point computation over `K` can have.  It is used where a property depends on which
  computations produce NaN.
  Simplifications: no rounding; one unsigned infinity; `x / 0` is NaN for every `x`; any other
  operation involving an infinity gives NaN except `finite ± infinity`.
-/
namespace SciCpp

universe u

/-- Exact numbers extended with an infinity and NaN. -/
inductive Ex (K : Type u) where
  | fin (k : K)
  | inf
  | nan
deriving DecidableEq

/-- The operations the statistics code uses on its element type.
`ofInt` is the conversion `raw_t(int)`, `qnan`/`infty` are `std::numeric_limits<T>::quiet_NaN()`
and `infinity()`, `conj` is `scicpp::conj` (scicpp/core/maths.hpp:104-110). -/
class CppNum (α : Type u) extends Zero α, One α, Add α, Sub α, Mul α, Div α where
  ofInt : ℤ → α
  qnan : α
  infty : α
  conj : α → α

namespace Ex

variable {K : Type u}

/-- Addition. -/
def add [Add K] : Ex K → Ex K → Ex K
  | fin a, fin b => fin (a + b)
  | fin _, inf => inf
  | inf, fin _ => inf
  | _, _ => nan

/-- Subtraction. -/
def sub [Sub K] : Ex K → Ex K → Ex K
  | fin a, fin b => fin (a - b)
  | fin _, inf => inf
  | inf, fin _ => inf
  | _, _ => nan

/-- Multiplication. -/
def mul [Mul K] : Ex K → Ex K → Ex K
  | fin a, fin b => fin (a * b)
  | _, _ => nan

/-- Division. -/
def div [Div K] [Zero K] [DecidableEq K] : Ex K → Ex K → Ex K
  | fin a, fin b => if b = 0 then nan else fin (a / b)
  | _, _ => nan

/-- Is the value a NaN (`std::isnan`, scicpp/core/functional.hpp:170-177)? -/
def isNan : Ex K → Bool
  | nan => true
  | _ => false

/-- Apply a total function to the finite values. -/
def map {L : Type u} (f : K → L) : Ex K → Ex L
  | fin a => fin (f a)
  | inf => inf
  | nan => nan

instance [Field K] [StarRing K] [DecidableEq K] : CppNum (Ex K) where
  zero := fin 0
  one := fin 1
  add := add
  sub := sub
  mul := mul
  div := div
  ofInt n := fin (n : K)
  qnan := nan
  infty := inf
  conj := map star

variable [Field K] [StarRing K] [DecidableEq K]

@[simp] theorem zero_def : (0 : Ex K) = fin 0 := rfl
@[simp] theorem one_def : (1 : Ex K) = fin 1 := rfl
@[simp] theorem fin_add (a b : K) : (fin a + fin b : Ex K) = fin (a + b) := rfl
@[simp] theorem fin_sub (a b : K) : (fin a - fin b : Ex K) = fin (a - b) := rfl
@[simp] theorem fin_mul (a b : K) : (fin a * fin b : Ex K) = fin (a * b) := rfl
theorem fin_div {a b : K} (h : b ≠ 0) : (fin a / fin b : Ex K) = fin (a / b) := by
  show div (fin a) (fin b) = _; simp [div, h]
theorem fin_div_zero (a : K) : (fin a / fin 0 : Ex K) = nan := by
  show div (fin a) (fin 0) = _; simp [div]
@[simp] theorem nan_mul (a : Ex K) : (nan * a : Ex K) = nan := by cases a <;> rfl
@[simp] theorem mul_nan (a : Ex K) : (a * nan : Ex K) = nan := by cases a <;> rfl
@[simp] theorem nan_add (a : Ex K) : (nan + a : Ex K) = nan := by cases a <;> rfl
@[simp] theorem add_nan (a : Ex K) : (a + nan : Ex K) = nan := by cases a <;> rfl
@[simp] theorem nan_sub (a : Ex K) : (nan - a : Ex K) = nan := by cases a <;> rfl
@[simp] theorem sub_nan (a : Ex K) : (a - nan : Ex K) = nan := by cases a <;> rfl
@[simp] theorem nan_div (a : Ex K) : (nan / a : Ex K) = nan := by cases a <;> rfl
@[simp] theorem ofInt_def (n : ℤ) : (CppNum.ofInt n : Ex K) = fin (n : K) := rfl
@[simp] theorem conj_fin (a : K) : (CppNum.conj (fin a) : Ex K) = fin (star a) := rfl
@[simp] theorem conj_nan : (CppNum.conj nan : Ex K) = nan := rfl
@[simp] theorem qnan_def : (CppNum.qnan : Ex K) = nan := rfl
@[simp] theorem infty_def : (CppNum.infty : Ex K) = inf := rfl

/-- Addition is a monoid on `Ex K`. -/
instance : AddMonoid (Ex K) where
  add_assoc a b c := by
    cases a <;> cases b <;> cases c <;> first | rfl | (simp only [fin_add, add_assoc])
  zero_add a := by cases a <;> first | rfl | simp
  add_zero a := by cases a <;> first | rfl | simp
  nsmul := nsmulRec

end Ex
end SciCpp
