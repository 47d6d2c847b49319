import Verif.Model.Base
/-
  Model of `compute_segments_multithread` and of the worker lambda of `compute_spectrum`
  (scicpp/signal/spectral.hpp:327-348, 362-371) as a transition system: one main thread and up to
  `n` worker threads, interleaved arbitrarily.

  A worker's atomic actions are: compute its segment (reads only shared constants), acquire the mutex,
  read `res`, write `res = res + seg` and release the mutex (371).  Splitting the read from the write
  makes lost updates possible in the model if the mutex were missing.  Data races inside one action
  are not modelled (the memory model is sequentially consistent).
-/
namespace SciCpp

/-- Program counter of a worker running `func(idx)`. -/
inductive WPhase (V : Type) where
  /-- before `get_segment_psd(i)` (365) -/
  | start
  /-- before the lock (368) -/
  | computed (v : V)
  /-- lock held, before reading `res` (369) -/
  | locked (v : V)
  /-- lock held, `res` read, before the write (369) -/
  | loaded (v r : V)
  /-- the function has returned; the thread is still joinable -/
  | finished
deriving DecidableEq

/-- Program counter of the main thread. -/
inductive MainPc where
  /-- first `for`, at slot `j` (333-340) -/
  | spawn (j : Nat)
  /-- second `for`, at slot `j` (342-346); `j = n` is the test of the `while` (332) -/
  | join (j : Nat)
  /-- returned -/
  | done
  /-- `std::terminate`: assignment to, or destruction of, a joinable `std::thread` -/
  | crashed
deriving DecidableEq

/-- Global state. -/
structure MT (V : Type) where
  pc : MainPc
  /-- the loop variable `i` (330) -/
  i : Nat
  /-- `threads_pool` (329): joinable threads with their argument -/
  pool : List (Option (Nat × WPhase V))
  /-- owner of `mtx` (363): the slot of the thread holding it -/
  lock : Option Nat
  /-- `res` (356) -/
  res : V
deriving DecidableEq

variable {V : Type}

/-- State at the first evaluation of the `while` condition (332), with the test already done. -/
def MT.init (n nseg : Nat) (zero : V) : MT V :=
  { pc := if 0 < nseg then .spawn 0 else .done, i := 0, pool := List.replicate n none, lock := none,
    res := zero }

/-- An action of the main thread (scicpp/signal/spectral.hpp:332-347); `none` = blocked or
finished. -/
def MT.stepMain (nseg : Nat) (s : MT V) : Option (MT V) :=
  match s.pc with
  | .spawn j =>
    match s.pool[j]? with
    | none => some { s with pc := .join 0 }              -- the range-for is exhausted
    | some (some _) => some { s with pc := .crashed }    -- assignment to a joinable thread
    | some none =>
      let s' := { s with pool := s.pool.set j (some (s.i, .start)), i := s.i + 1 }   -- 334-335
      if s'.i ≥ nseg then some { s' with pc := .join 0 }                             -- 337-338
      else some { s' with pc := .spawn (j + 1) }
  | .join j =>
    match s.pool[j]? with
    | none =>                                            -- end of the for, test of the while (332)
      if s.i < nseg then some { s with pc := .spawn 0 }
      else if s.pool.all (·.isNone) then some { s with pc := .done }
      else some { s with pc := .crashed }                -- ~thread of a joinable thread
    | some none => some { s with pc := .join (j + 1) }   -- 343: not joinable
    | some (some (_, .finished)) =>
      some { s with pool := s.pool.set j none, pc := .join (j + 1) }                 -- 344
    | some (some _) => none                              -- join blocks
  | .done => none
  | .crashed => none

/-- An action of the worker in slot `j` (scicpp/signal/spectral.hpp:364-371). -/
def MT.stepWorker [Add V] (seg : Nat → V) (j : Nat) (s : MT V) : Option (MT V) :=
  match s.pool[j]? with
  | some (some (k, .start)) => some { s with pool := s.pool.set j (some (k, .computed (seg k))) }
  | some (some (k, .computed v)) =>
    if s.lock = none then
      some { s with pool := s.pool.set j (some (k, .locked v)), lock := some j }
    else none
  | some (some (k, .locked v)) => some { s with pool := s.pool.set j (some (k, .loaded v s.res)) }
  | some (some (k, .loaded v r)) =>
    some { s with pool := s.pool.set j (some (k, .finished)), lock := none, res := r + v }
  | _ => none

/-- One step of some thread. -/
inductive MT.Step [Add V] (nseg : Nat) (seg : Nat → V) : MT V → MT V → Prop where
  | main {s s' : MT V} : s.stepMain nseg = some s' → MT.Step nseg seg s s'
  | worker {s s' : MT V} (j : Nat) : s.stepWorker seg j = some s' → MT.Step nseg seg s s'

/-- `MT.Reach nseg seg s t k`: `t` is reached from `s` by a schedule of `k` steps. -/
inductive MT.Reach [Add V] (nseg : Nat) (seg : Nat → V) (s : MT V) : MT V → Nat → Prop where
  | refl : MT.Reach nseg seg s s 0
  | step {t u : MT V} {k : Nat} : MT.Reach nseg seg s t k → MT.Step nseg seg t u →
      MT.Reach nseg seg s u (k + 1)

/-- The sequential loop (scicpp/signal/spectral.hpp:359-361). -/
def seqSum [Add V] (nseg : Nat) (seg : Nat → V) (zero : V) : V :=
  (List.range nseg).foldl (fun acc i => acc + seg i) zero

end SciCpp
