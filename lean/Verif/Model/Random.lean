import Verif.Model.Functional
import Mathlib.Algebra.Ring.Defs
/-
  Model of scicpp/core/random.hpp.  The random number engine and the distributions of the C++ standard
  library are parameters: an engine state `G` obtained from a seed, and distributions with an internal
  state `D` (`std::normal_distribution` keeps a spare value) that draw a value.
-/
namespace SciCpp

/-- The part of `<random>` that is used. -/
structure RandomLib (G D T : Type) where
  /-- `rng.seed(s)` (scicpp/core/random.hpp:27) -/
  seed : ℕ → G
  /-- `detail::uniform_dist<T>`, `detail::normal_dist<T>` (33-36): the initial state of the (constant)
  distribution object -/
  dist0 : D
  /-- `distribution(rng)` -/
  draw : D → G → T × D × G

variable {G D T : Type}

/-- The calls of the lambda at scicpp/core/random.hpp:28, `n` of them. -/
def fillLoop (L : RandomLib G D T) : ℕ → D → G → List T
  | 0, _, _ => []
  | n + 1, d, g =>
    let r := L.draw d g
    r.1 :: fillLoop L n r.2.1 r.2.2

/-- `detail::random_number_filler<seed>(a, distribution)` (scicpp/core/random.hpp:21-30) for an array of
`n` elements: `distribution` is a copy of the global object, `rng` is a fresh, seeded engine. -/
def randomFiller (L : RandomLib G D T) (seed n : ℕ) : List T := fillLoop L n L.dist0 (L.seed seed)

/-- `std::mt19937::default_seed`. -/
def defaultSeed : ℕ := 5489

/-- The calls a program can make: `rand<T, N, seed>()`, `rand<T, seed>(N)` (and `randn`), as
`array n seed` and `vector n seed`; `scalar` is `rand<T>()` (scicpp/core/random.hpp:44-84). -/
inductive RandCall where
  | array (n seed : ℕ)
  | vector (n seed : ℕ)
  | scalar

/-- One call.  The state of the program is not touched: every call makes its own engine. -/
def randCall (L : RandomLib G D T) : RandCall → List T
  | .array n seed => randomFiller L seed n
  | .vector n seed => randomFiller L seed n
  | .scalar => (randomFiller L defaultSeed 1).take 1

/-- The data returned by a history of calls. -/
def randHistory (L : RandomLib G D T) (calls : List RandCall) : List (List T) := calls.map (randCall L)

/-- `normal(mu, sigma, N)` and `normal<N>(mu, sigma)` (scicpp/core/random.hpp:92-106). -/
def normalArr [Add T] [Mul T] (L : RandomLib G D T) (mu sigma : T) (n : ℕ) : List T :=
  ((randomFiller L defaultSeed n).map fun z => sigma * z).map fun v => mu + v

end SciCpp
