import Mathlib.Data.List.Basic
import Mathlib.Tactic.Linarith
/-
  The blocks a pairwise summation divides a range into.
-/
namespace SciCpp.Spec

variable {α : Type*}

/-- The blocks of the pairwise recursion: a range of at most `B` elements is one block, a longer range
has the blocks of its first `⌊n/2⌋` elements followed by the blocks of the others. -/
def blocks (B : ℕ) [NeZero B] (l : List α) : List (List α) :=
  if l.length ≤ B then [l]
  else blocks B (l.take (l.length / 2)) ++ blocks B (l.drop (l.length / 2))
termination_by l.length
decreasing_by
  all_goals
    have := Nat.pos_of_ne_zero (NeZero.ne B)
    simp only [List.length_take, List.length_drop]
    omega

/-- The blocks cut the range into consecutive pieces. -/
theorem blocks_flatten (B : ℕ) [NeZero B] (l : List α) : (blocks B l).flatten = l := by
  induction hn : l.length using Nat.strong_induction_on generalizing l with
  | _ n ih =>
    unfold blocks
    have := Nat.pos_of_ne_zero (NeZero.ne B)
    split_ifs with h
    · simp
    · rw [List.flatten_append, ih _ (by simp; omega) _ rfl, ih _ (by simp; omega) _ rfl,
        List.take_append_drop]

/-- Each block has at most `B` elements. -/
theorem blocks_le (B : ℕ) [NeZero B] (l : List α) : ∀ b ∈ blocks B l, b.length ≤ B := by
  induction hn : l.length using Nat.strong_induction_on generalizing l with
  | _ n ih =>
    unfold blocks
    have := Nat.pos_of_ne_zero (NeZero.ne B)
    split_ifs with h
    · simpa using h
    · intro b hb
      rcases List.mem_append.mp hb with hb | hb
      · exact ih _ (by simp; omega) _ rfl b hb
      · exact ih _ (by simp; omega) _ rfl b hb

/-- Unless the range is short, each block has at least `B / 2` elements. -/
theorem blocks_ge (B : ℕ) [NeZero B] (l : List α) (hl : B / 2 ≤ l.length) :
    ∀ b ∈ blocks B l, B / 2 ≤ b.length := by
  induction hn : l.length using Nat.strong_induction_on generalizing l with
  | _ n ih =>
    unfold blocks
    have := Nat.pos_of_ne_zero (NeZero.ne B)
    split_ifs with h
    · simpa using hl
    · intro b hb
      rcases List.mem_append.mp hb with hb | hb
      · exact ih _ (by simp; omega) _ (by simp; omega) rfl b hb
      · exact ih _ (by simp; omega) _ (by simp; omega) rfl b hb

end SciCpp.Spec
