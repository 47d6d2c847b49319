import Verif.Model.Random
import Mathlib.Data.List.Range
/-
  C64 — random numbers (scicpp/core/random.hpp).
-/
namespace SciCpp

variable {G D T : Type}

/-- The state of distribution and engine after `n` draws, and the value drawn next. -/
def drawState (L : RandomLib G D T) (d : D) (g : G) : ℕ → D × G
  | 0 => (d, g)
  | n + 1 => let s := drawState L d g n; (L.draw s.1 s.2).2

theorem fillLoop_eq (L : RandomLib G D T) (n : ℕ) (d : D) (g : G) :
    fillLoop L n d g = (List.range n).map fun i : ℕ =>
      (L.draw (drawState L d g i).1 (drawState L d g i).2).1 := by
  have hs : ∀ (i : ℕ) (d : D) (g : G), drawState L d g (i + 1) =
      drawState L (L.draw d g).2.1 (L.draw d g).2.2 i := by
    intro i
    induction i with
    | zero => intro d g; rfl
    | succ i ih =>
      intro d g
      show (L.draw (drawState L d g (i + 1)).1 (drawState L d g (i + 1)).2).2 = _
      rw [ih]
      rfl
  induction n generalizing d g with
  | zero => rfl
  | succ n ih =>
    rw [List.range_succ_eq_map, List.map_cons, List.map_map]
    show (L.draw d g).1 :: fillLoop L n _ _ = _
    rw [ih]
    congr 1
    apply List.map_congr_left
    intro i _
    simp only [Function.comp, Nat.succ_eq_add_one, hs]

/-- C64: for every seed there is one infinite sequence of numbers such that every request of every size,
as an array or as a vector and at any point of any history of calls, returns a prefix of it: the numbers
depend only on the seed and a longer request extends a shorter one.  Missing: different calls do not give
fresh data (`C64_repeated_calls_identical`). -/
theorem C64_stream_partial (L : RandomLib G D T) :
    ∃ stream : ℕ → ℕ → T, ∀ (before after : List RandCall) (seed n : ℕ),
      (randHistory L (before ++ [.array n seed] ++ after))[before.length]? =
        some ((List.range n).map (stream seed)) ∧
      (randHistory L (before ++ [.vector n seed] ++ after))[before.length]? =
        some ((List.range n).map (stream seed)) := by
  refine ⟨fun seed i => (L.draw (drawState L L.dist0 (L.seed seed) i).1
    (drawState L L.dist0 (L.seed seed) i).2).1, fun before after seed n => ?_⟩
  have h : randomFiller L seed n = (List.range n).map fun i : ℕ =>
      (L.draw (drawState L L.dist0 (L.seed seed) i).1 (drawState L L.dist0 (L.seed seed) i).2).1 :=
    fillLoop_eq L n _ _
  constructor <;>
  · simp only [randHistory, List.append_assoc, List.map_append, List.map_cons]
    rw [List.getElem?_append_right (by simp)]
    simp [randCall, h]

/-- C64, corollary: prefix property. -/
theorem C64_prefix (L : RandomLib G D T) (seed m n : ℕ) (h : m ≤ n) :
    randCall L (.vector m seed) = (randCall L (.vector n seed)).take m ∧
    (randCall L (.vector n seed)).length = n := by
  simp only [randCall, randomFiller, fillLoop_eq]
  refine ⟨?_, by simp⟩
  rw [← List.map_take, List.take_range, Nat.min_eq_left h]

/-- C64 is false of the code: repeating a call returns the same data, whatever was drawn in between, and
`rand<T>()` always returns the same number. -/
theorem C64_repeated_calls_identical (L : RandomLib G D T) (call : RandCall) (between : List RandCall) :
    ∃ v, (randHistory L ([call] ++ between ++ [call])).head? = some v ∧
      (randHistory L ([call] ++ between ++ [call])).getLast? = some v := by
  refine ⟨randCall L call, ?_, ?_⟩
  · simp [randHistory]
  · simp only [randHistory, List.map_append, List.map_cons, List.map_nil, List.append_assoc]
    rw [List.getLast?_append]
    simp

/-- C64, consequence: two "independent" noise arrays are fully correlated: the same seed (the default) and
two sizes give prefixes of one another, and the scalar generator repeats their first element. -/
theorem C64_scalar_is_first (L : RandomLib G D T) (n : ℕ) (hn : 0 < n) :
    randCall L .scalar = (randCall L (.vector n defaultSeed)).take 1 := by
  have := (C64_prefix L defaultSeed 1 n hn).1
  simp only [randCall] at this ⊢
  rw [this, List.take_take, Nat.min_self]

/-- C64: `normal(mu, sigma, N)` is `mu + sigma z` for the `randn` numbers `z` of the default seed. -/
theorem C64_normal [Add T] [Mul T] (L : RandomLib G D T) (mu sigma : T) (n : ℕ) :
    normalArr L mu sigma n = (randCall L (.vector n defaultSeed)).map fun z => mu + sigma * z := by
  unfold normalArr randCall
  rw [List.map_map]
  rfl

/-- Satisfiable: a linear congruential engine and a distribution that alternates signs (so both the engine
and the distribution state matter). -/
def lcg : RandomLib ℕ Bool ℤ where
  seed := fun s => s
  dist0 := true
  draw := fun d g => (if d then (g : ℤ) else -(g : ℤ), !d, (5 * g + 3) % 16)

example : randHistory lcg [.vector 3 1, .scalar, .array 4 1] =
    [[1, -8, 11], [5489], [1, -8, 11, -10]] := by decide

end SciCpp
