import Verif.Model.Range
import Verif.Model.Stats
import Verif.Model.Loop
/-
  Model of scicpp/core/histogram.hpp for floating point samples.
-/
namespace SciCpp

variable {rnd : ℚ → ℚ}

/-- `std::is_sorted`: no element is smaller than its predecessor. -/
def isSorted : List (RFl rnd) → Bool
  | a :: b :: l => !RFl.lt b a && isSorted (b :: l)
  | _ => true

/-- The loop of `std::upper_bound` (binary search for the first element greater than `v`). -/
def upperBoundLoop (bins : List (RFl rnd)) (v : RFl rnd) (first len : ℕ) : ℕ :=
  if len = 0 then first
  else
    let half := len / 2
    let mid := first + half
    match bins[mid]? with
    | none => first
    | some m =>
      if RFl.lt v m then upperBoundLoop bins v first half
      else upperBoundLoop bins v (mid + 1) (len - half - 1)
termination_by len
decreasing_by all_goals omega

/-- `std::upper_bound(bins.cbegin(), bins.cend(), v) - bins.cbegin()`. -/
def upperBound (bins : List (RFl rnd)) (v : RFl rnd) : ℕ := upperBoundLoop bins v 0 bins.length

/-- `++hist[i]`. -/
def incr (hist : List ℕ) (i : ℕ) : Res (List ℕ) := do
  let c ← rd hist i
  wr hist i (c + 1)

/-- Body of the uniform-bin loop (scicpp/core/histogram.hpp:172-187); `ae` is `almost_equal`. -/
def histStepU (ae : RFl rnd → RFl rnd → Bool) (front back step : RFl rnd) (hist : List ℕ)
    (x : RFl rnd) : Res (List ℕ) :=
  let pos : RFl rnd := (x - front) / step
  if RFl.le ((hist.length : ℕ) : RFl rnd) pos then
    if ae x back then incr hist (hist.length - 1) else .ok hist
  else if RFl.le (RFl.fin 0) pos then do
    let i ← RFl.toSize pos
    incr hist i
  else .ok hist

/-- Body of the searching loop (scicpp/core/histogram.hpp:191-209). -/
def histStepS (ae : RFl rnd → RFl rnd → Bool) (bins : List (RFl rnd)) (back : RFl rnd)
    (hist : List ℕ) (x : RFl rnd) : Res (List ℕ) :=
  let it := upperBound bins x
  if it = bins.length then
    if ae x back then incr hist (hist.length - 1) else .ok hist
  else if 0 ≤ (it : ℤ) - 1 then incr hist (it - 1)
  else .ok hist

/-- A loop over the samples. -/
def histLoop {β : Type} (step : List ℕ → β → Res (List ℕ)) (hist : List ℕ) : List β → Res (List ℕ)
  | [] => .ok hist
  | x :: xs => do
    let h ← step hist x
    histLoop step h xs

/-- `histogram<Count, use_uniform_bins>(first, last, bins)` (scicpp/core/histogram.hpp:145-219). -/
def histogram (uniform : Bool) (ae : RFl rnd → RFl rnd → Bool) (bins xs : List (RFl rnd)) :
    Res (List ℕ) :=
  if bins.length ≤ 1 then .ok []
  else do
    require (isSorted bins)
    let b0 ← rd bins 0
    let b1 ← rd bins 1
    let back ← rd bins (bins.length - 1)
    let hist := List.replicate (bins.length - 1) 0
    if uniform then do
      let step := b1 - b0
      require (RFl.lt (RFl.fin 0) step)
      histLoop (histStepU ae b0 back step) hist xs
    else histLoop (histStepS ae bins back) hist xs

/-- The density post-processing (scicpp/core/histogram.hpp:215-216):
`hist / (static_cast<int>(sum(hist)) * diff(bins))`, exact in a field `K`. -/
def densityOf {K : Type} [Field K] (hist : List ℕ) (bins : List K) : Res (List K) := do
  let w ← diffVec bins 1
  map2 (fun (h : ℕ) (d : K) => (h : K) / d) hist
    (w.map fun d => ((toI32 (hist.sum : ℤ) : ℤ) : K) * d)

/-- `outer_edges` (scicpp/core/histogram.hpp:80-98). -/
def outerEdges (ae : RFl rnd → RFl rnd → Bool) (xs : List (RFl rnd)) : RFl rnd × RFl rnd :=
  if xs.isEmpty then (0, 1)
  else
    let first : RFl rnd := amin RFl.nan RFl.lt xs
    let last : RFl rnd := amax RFl.nan RFl.lt xs
    if ae first last then (first - RFl.fin (1 / 2), last + RFl.fin (1 / 2)) else (first, last)

/-- `histogram_bin_edges(x, nbins)` (scicpp/core/histogram.hpp:123-127). -/
def histogramBinEdges (ae : RFl rnd → RFl rnd → Bool) (xs : List (RFl rnd)) (nbins : ℕ) :
    List (RFl rnd) :=
  let e := outerEdges ae xs
  linspace e.1 e.2 (nbins + 1)

/-- `histogram_bin_edges<method>(x)` (scicpp/core/histogram.hpp:102-121); `width` is the result of
`bin_width<method>`, modelled in exact reals in Model/Gmean.lean. -/
def histogramBinEdgesM (ae : RFl rnd → RFl rnd → Bool) (width : List (RFl rnd) → RFl rnd)
    (xs : List (RFl rnd)) : Res (List (RFl rnd)) :=
  if xs.isEmpty then .ok (linspace 0 1 2)
  else
    let e := outerEdges ae xs
    let w := width xs
    if RFl.isZero w then .ok (linspace e.1 e.2 2)
    else do
      let n ← RFl.toSize (ceilFl ((e.2 - e.1) / w : RFl rnd))
      pure (linspace e.1 e.2 (n + 1))
where
  /-- `std::ceil`. -/
  ceilFl (a : RFl rnd) : RFl rnd :=
    match (a : Fl) with
    | .fin q => RFl.fin ⌈q⌉
    | x => x

/-- `histogram(x, nbins)` (scicpp/core/histogram.hpp:238-242). -/
def histogramAuto (ae : RFl rnd → RFl rnd → Bool) (xs : List (RFl rnd)) (nbins : ℕ) :
    Res (List ℕ × List (RFl rnd)) := do
  let bins := histogramBinEdges ae xs nbins
  let h ← histogram true ae bins xs
  pure (h, bins)

end SciCpp
