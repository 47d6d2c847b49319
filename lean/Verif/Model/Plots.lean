import Verif.Model.Stats
import Verif.Model.Loop
import Verif.Model.Ex
/-
  Model of the plotting front ends (scicpp/plots/boxplot.hpp, plot.hpp, spectrum.hpp, hist.hpp,
  utils.hpp).  The sciplot library (the base class `sciplot::Plot2D`) is represented by the list of
  drawing requests it has received since the last `clear()`, and by the tick options it keeps.
-/
namespace SciCpp

universe u

/-- `marker(char c)` (scicpp/plots/utils.hpp:15-36). -/
def marker (c : Char) : ℕ :=
  if c = '.' then 0 else if c = '+' then 1 else if c = 'x' then 2 else if c = 's' then 5
  else if c = 'o' then 7 else if c = '^' then 9 else if c = 'v' then 11 else if c = 'D' then 13
  else 0

/-- A drawing request to sciplot: `drawCurve(x, y).lineColor(c)`, `drawCurvesFilled(x, y1, y2)
.fillColor(c)`, `drawPoints(x, y).pointType(m).lineColor(c)`. -/
inductive Draw (K : Type u) where
  | curve (x y : List K) (color : String)
  | filled (x y1 y2 : List K) (color : String)
  | points (x : List K) (y : List (Ex K)) (mark : ℕ) (color : String)

/-! ### boxplot -/

section Boxplot
variable {K : Type u} [Field K] [LinearOrder K] [FloorRing K] [StarRing K]

/-- The tuple computed for one data set (scicpp/plots/boxplot.hpp:38). -/
structure BoxStats (K : Type u) where
  median : K
  mean : Ex K
  q1 : K
  q3 : K
  iqr : K
  fliers : List K

/-- The filter of the fliers (scicpp/plots/boxplot.hpp:34-36). -/
def isFlier (median iqr whis x : K) : Bool :=
  decide (x < median - whis * iqr) || decide (x > median + whis * iqr)

/-- The lambda of `data_stats` (scicpp/plots/boxplot.hpp:26-39).  The parameter `f` is a named copy,
so that `percentile`, `median` and `filter` leave it unchanged (stats.hpp:131-139, 224-236,
functional.hpp:208-221).  `qnan` is what an empty data set gives. -/
def boxStats1 (nth : NthImpl K) (qnan tol whis : K) (f : List K) : Res (BoxStats K) := do
  let q1 ← percentile nth qnan tol .linear f 25                              -- 29
  let q3 ← percentile nth qnan tol .linear f 75                              -- 30
  let iqr := q3 - q1                                                         -- 31
  let med ← (median nth qnan (fun x => x / 2) .lvalue f).1                   -- 32
  let mn := SciCpp.mean (f.map Ex.fin) fun _ => true                         -- 33
  pure ⟨med, mn, q1, q3, iqr, f.filter (isFlier med iqr whis)⟩               -- 35-39

/-- `data_stats(data, whis)` (scicpp/plots/boxplot.hpp:24-42): a `map` over the data sets. -/
def dataStats (nth : NthImpl K) (qnan tol : K) (data : List (List K)) (whis : K) :
    Res (List (BoxStats K)) :=
  data.mapM (boxStats1 nth qnan tol whis)

/-- The data members of `detail::boxplot` (scicpp/plots/boxplot.hpp:143-164) and the drawing
requests held by the base class.  Markers and the other colours are constants. -/
structure Box (K : Type u) where
  data : List (List K)
  stats : List (BoxStats K)
  widths : List K
  capwidths : List K
  whis : K
  showcaps : Bool
  showbox : Bool
  showfliers : Bool
  showmeans : Bool
  boxcolor : String
  drawn : List (Draw K)

/-- The caps of the whiskers of data set `i` (scicpp/plots/boxplot.hpp:179-191). -/
def drawCaps (b : Box K) (i : ℕ) (lo hi : K) : Res (List (Draw K)) :=
  if b.showcaps then do
    let c ← rd b.capwidths i                                                  -- 181-182
    let xc := [(i : K) + 1 - c, (i : K) + 1 + c]
    pure [Draw.curve xc [lo, lo] "black", Draw.curve xc [hi, hi] "black"]     -- 183-190
  else pure []

/-- The body of the loop of `redraw` (scicpp/plots/boxplot.hpp:169-226) for data set `i`. -/
def drawBox (b : Box K) (i : ℕ) (s : BoxStats K) : Res (List (Draw K)) := do
  let pos : K := (i : K) + 1
  let w ← rd b.widths i                                                       -- 171
  let lo := s.median - b.whis * s.iqr
  let hi := s.median + b.whis * s.iqr
  let xLine := [pos - w, pos + w]                                             -- 171-172
  let whiskers := [Draw.curve [pos, pos] [lo, hi] "black"]                    -- 175-177
  let caps ← drawCaps b i lo hi                                               -- 179-191
  let box := if b.showbox then
      [Draw.filled xLine [s.q1, s.q1] [s.q3, s.q3] b.boxcolor,                -- 195-198
       Draw.curve xLine [s.q1, s.q1] b.boxcolor,                              -- 201
       Draw.curve xLine [s.q3, s.q3] b.boxcolor,                              -- 202
       Draw.curve [pos - w, pos - w] [s.q1, s.q3] b.boxcolor,                 -- 203-204
       Draw.curve [pos + w, pos + w] [s.q1, s.q3] b.boxcolor]                 -- 205-206
    else []
  let fliers := if b.showfliers then
      [Draw.points (s.fliers.map fun _ => pos) (s.fliers.map Ex.fin) (marker 'o') "blue"]  -- 209-213
    else []
  let med := [Draw.curve xLine [s.median, s.median] "orange"]                 -- 216-217
  let means := if b.showmeans then
      [Draw.points [pos] [s.mean] (marker 'D') "red"]                         -- 219-224
    else []
  pure (whiskers ++ caps ++ box ++ fliers ++ med ++ means)

/-- The loop of `redraw` from data set `i` on (scicpp/plots/boxplot.hpp:169). -/
def drawBoxes (b : Box K) (i : ℕ) : List (BoxStats K) → Res (List (Draw K))
  | [] => pure []
  | s :: ss => do
    let d ← drawBox b i s
    let r ← drawBoxes b (i + 1) ss
    pure (d ++ r)

/-- `redraw()` (scicpp/plots/boxplot.hpp:166-230): the previous drawing is cleared first. -/
def redrawBox (b : Box K) : Res (Box K) := do
  let d ← drawBoxes b 0 b.stats
  pure { b with drawn := d }

/-- The member initialisers (scicpp/plots/boxplot.hpp:54-55, 143-164): `n` is the length of the width
lists. -/
def boxInit (n : ℕ) (data : List (List K)) (st : List (BoxStats K)) : Box K :=
  { data := data, stats := st, widths := List.replicate n (1 / 10),
    capwidths := List.replicate n (1 / 10), whis := 3 / 2, showcaps := true,
    showbox := true, showfliers := true, showmeans := false, boxcolor := "blue", drawn := [] }

/-- The constructor (scicpp/plots/boxplot.hpp:53-58).  The width lists are sized by
`m_stats.size()` *before* `m_stats` is computed: a default-constructed `std::vector` is empty, a
default-constructed `std::array` has its `N` elements.  `c` says which of the two the data are. -/
def boxplotNew (nth : NthImpl K) (qnan tol : K) (c : Cont) (data : List (List K)) : Res (Box K) := do
  let n := match c with | .vec => 0 | .arr => data.length                     -- 54-55
  let st ← dataStats nth qnan tol data (3 / 2)                                -- 56, 159
  redrawBox (boxInit n data st)

/-- The public member functions (scicpp/plots/boxplot.hpp:60-128). -/
inductive BoxCall (K : Type u) where
  | showcaps (b : Bool)
  | showfliers (b : Bool)
  | showmeans (b : Bool)
  | capwidth (w : K)
  | capwidths (w : List K)
  | width (w : K)
  | widths (w : List K)
  | showbox (b : Bool)
  | boxcolor (c : String)
  | whis (w : K)

/-- Effect of one call (scicpp/plots/boxplot.hpp:60-128); every function ends with `redraw()`. -/
def boxCall (nth : NthImpl K) (qnan tol : K) (b : Box K) : BoxCall K → Res (Box K)
  | .showcaps v => redrawBox { b with showcaps := v }                         -- 60-64
  | .showfliers v => redrawBox { b with showfliers := v }                     -- 66-70
  | .showmeans v => redrawBox { b with showmeans := v }                       -- 72-76
  | .capwidth w => redrawBox { b with widths := b.widths.map fun _ => w }     -- 78-82 (fills m_widths)
  | .capwidths w => redrawBox { b with capwidths := w }                       -- 84-94
  | .width w => redrawBox { b with widths := b.widths.map fun _ => w }        -- 96-100
  | .widths w => redrawBox { b with widths := w }                             -- 102-112
  | .showbox v => redrawBox { b with showbox := v }                           -- 114-118
  | .boxcolor c => redrawBox { b with boxcolor := c }                         -- 120-124
  | .whis w => do                                                             -- 126-131
    let st ← dataStats nth qnan tol b.data w
    redrawBox { b with whis := w, stats := st }

/-- A history of calls. -/
def boxRun (nth : NthImpl K) (qnan tol : K) (b : Box K) : List (BoxCall K) → Res (Box K)
  | [] => pure b
  | c :: cs => do
    let b' ← boxCall nth qnan tol b c
    boxRun nth qnan tol b' cs

end Boxplot

/-! ### plot -/

/-- One drawn curve: abscissae, ordinates, colour, label (`none` for `labelNone()`). -/
structure PlotCurve (V : Type) where
  x : V
  y : V
  color : String
  label : Option String
deriving DecidableEq

/-- `detail::plot` (scicpp/plots/plot.hpp:20-118): `V` is the type of the vectors handed to sciplot,
`labels` has one entry per curve by its type. -/
structure Plot (V : Type) where
  x : V
  y : List V
  color : List String
  colorIdx : ℕ
  labels : List String
  labelIdx : ℕ
  grid : Bool
  drawn : List (PlotCurve V)
  gridShown : Bool

section Plot
variable {V : Type}

/-- The default colours (scicpp/plots/plot.hpp:74-75). -/
def palette : List String := ["blue", "green", "red", "cyan", "magenta", "yellow", "black", "white"]

/-- `draw_curve(y)` (scicpp/plots/plot.hpp:85-104). -/
def drawCurve (p : Plot V) (y : V) : Res (Plot V) := do
  let c ← rd p.color ((p.colorIdx % p.color.length : ℕ) : ℤ)                  -- 93
  let l ← rd p.labels (p.labelIdx : ℤ)                                        -- 96
  let lab := if l = "" then none else some l                                  -- 99-103
  pure { p with drawn := p.drawn ++ [⟨p.x, y, c, lab⟩], colorIdx := p.colorIdx + 1,
                labelIdx := p.labelIdx + 1 }

/-- The fold over the tuple of ordinates (scicpp/plots/plot.hpp:110). -/
def drawCurves (p : Plot V) : List V → Res (Plot V)
  | [] => pure p
  | y :: ys => do
    let p' ← drawCurve p y
    drawCurves p' ys

/-- `redraw()` (scicpp/plots/plot.hpp:106-119). -/
def redrawPlot (p : Plot V) : Res (Plot V) := do
  let p' ← drawCurves { p with drawn := [], colorIdx := 0, labelIdx := 0 } p.y
  pure { p' with gridShown := p'.grid }

/-- The member initialisers (scicpp/plots/plot.hpp:28-30, 73-82). -/
def plotInit (x : V) (ys : List V) : Plot V :=
  { x := x, y := ys, color := palette, colorIdx := 0, labels := List.replicate ys.length "",
    labelIdx := 0, grid := true, drawn := [], gridShown := false }

/-- The constructor (scicpp/plots/plot.hpp:27-34): only the first ordinates are compared with the
abscissae. -/
def plotNew (size : V → ℕ) (x : V) (y0 : V) (ys : List V) : Res (Plot V) := do
  require (size x == size y0)                                                 -- 31
  redrawPlot (plotInit x (y0 :: ys))

/-- The public member functions (scicpp/plots/plot.hpp:36-66). -/
inductive PlotCall where
  | color (c : String)
  | displayGrid (b : Bool)
  | labels (l : List String)
  | label (l : String)

/-- Effect of one call.  The parameter of `labels` is an `std::array` of the right length. -/
def plotCall (p : Plot V) : PlotCall → Res (Plot V)
  | .color c => redrawPlot { p with color := p.color.map fun _ => c }         -- 36-40
  | .displayGrid b => redrawPlot { p with grid := b }                         -- 42-46
  | .labels l => redrawPlot { p with labels := l }                            -- 54-64
  | .label l => redrawPlot { p with labels := p.labels.map fun _ => l }       -- 66-70

/-- A history of calls. -/
def plotRun (p : Plot V) : List PlotCall → Res (Plot V)
  | [] => pure p
  | c :: cs => do
    let p' ← plotCall p c
    plotRun p' cs

end Plot

/-! ### hist: the vertical scale -/

/-- The vertical scale of `detail::histplot` (scicpp/plots/hist.hpp:24-125): the option member and
the tick option of the base class (`ytics().logscale(10)` switches it on; nothing in the code
switches it off, and `clear()` only removes the drawings). -/
structure HistScale where
  logscale : Bool
  tics : Bool
deriving DecidableEq

/-- `redraw()` as far as the scale is concerned (scicpp/plots/hist.hpp:120-122). -/
def histRedraw (h : HistScale) : HistScale := if h.logscale then { h with tics := true } else h

/-- `log(bool logscale)` (scicpp/plots/hist.hpp:42-50). -/
def histLog (h : HistScale) (b : Bool) : HistScale :=
  if b then { logscale := true, tics := true } else { h with logscale := false }

/-! ### spectrum plots -/

/-- Ordinate drawn by `plots::psd` for the power `p` (scicpp/plots/spectrum.hpp:97-117), exact reals;
`log10` is the common logarithm. -/
def psdOrdinate {R : Type u} [Mul R] [OfNat R 10] (log10 : R → R) (decibel : Bool) (p : R) : R :=
  if decibel then 10 * log10 p else p

/-- Ordinate drawn by `plots::csd` for the cross power of real and imaginary parts `re`, `im`
(scicpp/plots/spectrum.hpp:77-95): `norm` is `re² + im²`. -/
def csdOrdinate {R : Type u} [Mul R] [Add R] [OfNat R 10] (log10 : R → R) (decibel : Bool) (re im : R) : R :=
  let n := re * re + im * im
  if decibel then 10 * log10 n else n

end SciCpp
