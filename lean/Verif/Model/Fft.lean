import Verif.Model.Manips
import Verif.Model.Range
/-
  Model of the helpers of scicpp/signal/fft.hpp: frequencies and next_fast_len.
-/
namespace SciCpp

/-- `fftfreq(n, d)` (scicpp/signal/fft.hpp:70-75, 86-96), exact arithmetic in `K`; the array version
only differs in the container. -/
def fftfreq {K : Type} [Field K] [LinearOrder K] (n : ℕ) (d : K) : Res (List K) := do
  require (decide (0 < n))                                       -- 94
  require (decide (0 < d))                                       -- 71
  let res := iota (-((n / 2 : ℕ) : K)) n                         -- 73
  pure (ifftshiftMove (res.map fun v => v / (d * (n : K))))      -- 74

/-- `rfftfreq(n, d)` (scicpp/signal/fft.hpp:77-82, 98-108). -/
def rfftfreq {K : Type} [Field K] [LinearOrder K] (n : ℕ) (d : K) : Res (List K) := do
  require (decide (0 < n))                                       -- 106
  require (decide (0 < d))                                       -- 79
  let res := iota (0 : K) (n / 2 + 1)
  pure (res.map fun v => v / (d * (n : K)))

/-! ### next_fast_len -/

/-- The state of `Hamming<Integral, n_primes>` (scicpp/signal/fft.hpp:116-129). -/
structure Hamming where
  /-- `m_x`: the numbers generated so far -/
  x : List ℕ
  /-- `m_hp` and `m_hv`, with their prime `m_H[i]`: `(prime, position, value)` -/
  h : List (ℕ × ℕ × ℕ)
deriving DecidableEq

/-- Constructor (scicpp/signal/fft.hpp:128-129) for the primes `pfs`. -/
def Hamming.init (pfs : List ℕ) : Hamming := ⟨[1], pfs.map fun p => (p, 0, p)⟩

/-- `operator*` (scicpp/signal/fft.hpp:126): `m_x.back()`. -/
def Hamming.deref (s : Hamming) : Res ℕ := rd s.x ((s.x.length : ℤ) - 1)

/-- The inner loop `for (; m_hv[i] <= m_x.back(); m_hv[i] = m_x[++m_hp[i]] * m_H[i])`
(scicpp/signal/fft.hpp:133); reading past the end of `m_x` is UB, and so is a product above the
largest value `lim` of `Integral` (for an unsigned `Integral` it would wrap; the theorems exclude
both).  `fuel` bounds the number of iterations by the length of `m_x` (every iteration advances
`m_hp[i]` inside it). -/
def Hamming.advance (lim : ℕ) (x : List ℕ) (back : ℕ) : ℕ → ℕ × ℕ × ℕ → Res (ℕ × ℕ × ℕ)
  | 0, _ => .ub
  | fuel + 1, (p, hp, hv) =>
    if hv ≤ back then do
      let y ← rd x ((hp + 1 : ℕ) : ℤ)
      require (decide (y * p ≤ lim))
      Hamming.advance lim x back fuel (p, hp + 1, y * p)
    else .ok (p, hp, hv)

/-- The loop over the primes (scicpp/signal/fft.hpp:132-135). -/
def Hamming.advanceAll (lim : ℕ) (x : List ℕ) (back : ℕ) :
    List (ℕ × ℕ × ℕ) → Res (List (ℕ × ℕ × ℕ))
  | [] => .ok []
  | t :: ts => do
    let t' ← Hamming.advance lim x back (x.length + 1) t
    let ts' ← Hamming.advanceAll lim x back ts
    pure (t' :: ts')

/-- `operator++` (scicpp/signal/fft.hpp:131-146). -/
def Hamming.next (lim : ℕ) (s : Hamming) : Res Hamming := do
  let back ← s.deref
  let h ← Hamming.advanceAll lim s.x back s.h
  match h with
  | [] => .ub                                                    -- m_hv[0] of an empty array
  | t :: _ =>
    -- 137-143: push m_hv[0], then lower it to the minimum
    let m := h.foldl (fun m t => if t.2.2 < m then t.2.2 else m) t.2.2
    pure ⟨s.x ++ [m], h⟩

/-- The loop of `next_ugly_number` (scicpp/signal/fft.hpp:149-159); the range-for never ends by
itself (`operator!=` is constantly true, line 123), `fuel` bounds its iterations (`none` = still
running). -/
def nextUglyLoop (lim : ℕ) : ℕ → Hamming → ℤ → Res (Option ℕ)
  | 0, _, _ => .ok none
  | fuel + 1, s, num => do
    let h ← s.deref
    if num ≤ (h : ℤ) then pure (some h)
    else do
      let s' ← s.next lim
      nextUglyLoop lim fuel s' num

/-- `next_fast_len(n)` (scicpp/signal/fft.hpp:163-166); `lim` is the largest value of `Integral`. -/
def nextFastLen (lim fuel : ℕ) (n : ℤ) : Res (Option ℕ) :=
  nextUglyLoop lim fuel (Hamming.init [2, 3, 5]) n

end SciCpp
