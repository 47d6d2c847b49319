import Verif.Model.Plots
/-
  Model of the drawing part of `detail::histplot` (scicpp/plots/hist.hpp:22-125) and of
  `detail::csdplot` (scicpp/plots/spectrum.hpp:19-75).

  sciplot (third party) is modelled by the list of pending drawing requests, which `clear()` empties,
  and by the options of the plot, which `clear()` leaves alone.  The units of quantities are dropped
  by the reinterpreting casts (hist.hpp:88, spectrum.hpp:29): the numbers are drawn.
-/
namespace SciCpp

/-- `enum HistType` (scicpp/plots/hist.hpp:18). -/
inductive HistType where
  | bar | barStacked | step | stepFilled
deriving DecidableEq, Repr

/-- A drawing request of `histplot`: boxes or filled steps at `x` with heights `y`. -/
structure HistDraw (V : Type) where
  filledSteps : Bool
  x : V
  y : V
  color : String
deriving DecidableEq

/-- `detail::histplot` (scicpp/plots/hist.hpp:72-77) with the state of its base class. -/
structure HistPlot (V : Type) where
  fillColor : String
  hist : V
  bins : V
  logscale : Bool
  histType : HistType
  rwidth : ℚ
  drawn : List (HistDraw V)
  boxWidth : Option ℚ
  tics : Bool
  xr : Option (ℚ × ℚ)

section
variable {V : Type}

/-- `redraw()` (scicpp/plots/hist.hpp:79-124). -/
def histRedrawP (h : HistPlot V) : HistPlot V :=
  let h1 := { h with drawn := [] }                                           -- 80
  let h2 := match h.histType with
    | .bar => { h1 with drawn := [⟨false, h.bins, h.hist, h.fillColor⟩],     -- 85-97
                        boxWidth := some h.rwidth }                          -- 98
    | .stepFilled => { h1 with drawn := [⟨true, h.bins, h.hist, h.fillColor⟩] } -- 99-112
    | _ => h1                                                                -- 113-115
  if h.logscale then { h2 with tics := true } else h2                        -- 119-121

/-- The member initialisers and the horizontal range (scicpp/plots/hist.hpp:28-32, 72-77); `get`
reads an element of a vector. -/
def histInit (size : V → ℕ) (get : V → ℕ → ℚ) (hist bins : V) : HistPlot V :=
  { fillColor := "blue", hist := hist, bins := bins, logscale := false, histType := .bar,
    rwidth := 1, drawn := [], boxWidth := none, tics := false,
    xr := some (get bins 0, get bins (size bins - 1)) }

/-- The constructor (scicpp/plots/hist.hpp:27-34); `m_bins[0]` of an empty vector is undefined. -/
def histNew (size : V → ℕ) (get : V → ℕ → ℚ) (hist bins : V) : Res (HistPlot V) :=
  if 0 < size bins then .ok (histRedrawP (histInit size get hist bins)) else .ub

/-- The public member functions (scicpp/plots/hist.hpp:36-62). -/
inductive HistCall where
  | color (c : String)
  | log (b : Bool)
  | histtype (t : HistType)
  | rwidth (r : ℚ)

/-- Effect of one call. -/
def histCall (h : HistPlot V) : HistCall → HistPlot V
  | .color c => histRedrawP { h with fillColor := c }                        -- 36-40
  | .log b => if b then { h with logscale := true, tics := true }            -- 42-50
              else { h with logscale := false }
  | .histtype t => histRedrawP { h with histType := t }                      -- 52-56
  | .rwidth r => histRedrawP { h with rwidth := r }                          -- 58-62

/-- `detail::csdplot` (scicpp/plots/spectrum.hpp:56-60) with the state of its base class; a curve is
(abscissae, ordinates, colour). -/
structure CsdPlot (V : Type) where
  color : String
  grid : Bool
  freqs : V
  power : V
  drawn : List (V × V × String)
  gridShown : Bool

/-- `redraw()` (scicpp/plots/spectrum.hpp:62-72). -/
def csdRedraw (p : CsdPlot V) : CsdPlot V :=
  { p with drawn := [(p.freqs, p.power, p.color)], gridShown := p.grid }

/-- The constructor (scicpp/plots/spectrum.hpp:26-33). -/
def csdNew (freqs power : V) : CsdPlot V :=
  csdRedraw { color := "blue", grid := true, freqs := freqs, power := power, drawn := [], gridShown := false }

/-- The public member functions (scicpp/plots/spectrum.hpp:35-45). -/
inductive CsdCall where
  | color (c : String)
  | displayGrid (b : Bool)

/-- Effect of one call. -/
def csdCall (p : CsdPlot V) : CsdCall → CsdPlot V
  | .color c => csdRedraw { p with color := c }
  | .displayGrid b => csdRedraw { p with grid := b }

end
end SciCpp
