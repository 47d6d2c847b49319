import Verif.Model.Base
import Mathlib.Tactic.Ring
/-
  Bounds-checked subscripts and counted loops.
-/
namespace SciCpp

universe u

/-- Checked read `l[i]` of a container at a signed index (the library casts signed indices with
`std::size_t(i)` before subscripting, e.g. scicpp/signal/convolve.hpp:45-49; a negative or too
large index is UB). -/
def rd {α : Type u} (l : List α) (i : Int) : Res α :=
  if 0 ≤ i then (match l[i.toNat]? with | some x => .ok x | none => .ub) else .ub

/-- Checked write `l[i] = x` (same conventions as `rd`). -/
def wr {α : Type u} (l : List α) (i : Int) (x : α) : Res (List α) :=
  if 0 ≤ i ∧ i.toNat < l.length then .ok (l.set i.toNat x) else .ub

/-- `n` iterations of a loop body that receives the iteration number `0,1,…,n-1`. -/
def forN {σ : Type u} (n : Nat) (f : Nat → σ → Res σ) (s : σ) : Res σ :=
  match n with
  | 0 => .ok s
  | n + 1 => (forN n f s).bind (f n)

/-- `for (auto j = lo; j <= hi; ++j)`. -/
def forUp {σ : Type u} (lo hi : Int) (f : Int → σ → Res σ) (s : σ) : Res σ :=
  forN (hi + 1 - lo).toNat (fun k => f (lo + k)) s

/-- `for (auto j = hi; j >= lo; --j)`. -/
def forDown {σ : Type u} (hi lo : Int) (f : Int → σ → Res σ) (s : σ) : Res σ :=
  forN (hi + 1 - lo).toNat (fun k => f (hi - k)) s

theorem rd_nat {α : Type u} (l : List α) (i : Nat) (h : i < l.length) :
    rd l (i : Int) = .ok l[i] := by
  simp [rd, h]

theorem wr_nat {α : Type u} (l : List α) (i : Nat) (x : α) (h : i < l.length) :
    wr l (i : Int) x = .ok (l.set i x) := by
  simp [wr, h]

/-- Loop invariant rule for `forN`. -/
theorem forN_inv {σ : Type u} {n : Nat} {f : Nat → σ → Res σ} {s : σ} (P : Nat → σ → Prop)
    (h0 : P 0 s) (hstep : ∀ k, k < n → ∀ t, P k t → ∃ t', f k t = .ok t' ∧ P (k + 1) t') :
    ∃ t, forN n f s = .ok t ∧ P n t := by
  induction n with
  | zero => exact ⟨s, rfl, h0⟩
  | succ n ih =>
    obtain ⟨t, ht, hp⟩ := ih (fun k hk => hstep k (by omega))
    obtain ⟨t', ht', hp'⟩ := hstep n (by omega) t hp
    exact ⟨t', by simp [forN, ht, Res.bind, ht'], hp'⟩

end SciCpp
