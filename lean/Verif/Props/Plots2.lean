import Verif.Model.Plots2
import Verif.Props.Plots
/-
  C80, histogram and spectrum plots: what is drawn after every history of calls.
-/
namespace SciCpp

variable {V : Type}

/-- C80: a spectrum plot shows, after every history of calls, exactly one curve: the given data with
the colour of the last `color` call (blue before the first), and the grid according to the last
`display_grid` call (shown before the first). -/
theorem C80_spectrum_history (freqs power : V) (cs : List CsdCall) :
    let p := cs.foldl csdCall (csdNew freqs power)
    p.drawn = [(freqs, power, Spec.lastOf (fun | .color c => some c | _ => none) "blue" cs)] ∧
    p.gridShown = Spec.lastOf (fun | .displayGrid b => some b | _ => none) true cs := by
  have key : ∀ (cs : List CsdCall) (p : CsdPlot V), p.freqs = freqs → p.power = power →
      p.drawn = [(freqs, power, p.color)] → p.gridShown = p.grid →
      (cs.foldl csdCall p).drawn
        = [(freqs, power, Spec.lastOf (fun | .color c => some c | _ => none) p.color cs)] ∧
      (cs.foldl csdCall p).gridShown
        = Spec.lastOf (fun | .displayGrid b => some b | _ => none) p.grid cs := by
    intro cs
    induction cs with
    | nil => intro p _ _ h3 h4; exact ⟨h3, h4⟩
    | cons c cs ih =>
      intro p h1 h2 h3 h4
      simp only [List.foldl_cons, lastOf_cons]
      cases c with
      | color c => exact ih (csdCall p (.color c)) h1 h2 (by simp [csdCall, csdRedraw, h1, h2]) rfl
      | displayGrid b => exact ih (csdCall p (.displayGrid b)) h1 h2 (by simp [csdCall, csdRedraw, h1, h2]) rfl
  exact key cs _ rfl rfl rfl rfl

example : ((([.color "red", .displayGrid false] : List CsdCall).foldl csdCall
    (csdNew [1, 2] [3, 4])).drawn = [([1, 2], [3, 4], "red")]) ∧
    (([.color "red", .displayGrid false] : List CsdCall).foldl csdCall
    (csdNew [1, 2] [3, 4])).gridShown = false := ⟨rfl, rfl⟩

/-! ### Histograms -/

namespace Spec

/-- The histogram style in force after a history of calls (bars before the first). -/
def histStyle (cs : List HistCall) : HistType :=
  lastOf (fun | .histtype t => some t | _ => none) .bar cs

/-- The colour in force. -/
def histColor (cs : List HistCall) : String :=
  lastOf (fun | .color c => some c | _ => none) "blue" cs

/-- The relative bar width in force. -/
def histWidth (cs : List HistCall) : ℚ :=
  lastOf (fun | .rwidth r => some r | _ => none) 1 cs

end Spec

/-- C80: what a histogram plot shows after every history of calls: with the style BAR, boxes of the
current relative width, with STEPFILLED, filled steps, in both cases of the given heights at the given
bin edges in the current colour; with the styles BARSTACKED and STEP **nothing**.  The horizontal range
always is that of the bin edges. -/
theorem C80_hist_history_partial (size : V → ℕ) (get : V → ℕ → ℚ) (hist bins : V)
    (hs : 0 < size bins) (cs : List HistCall) :
    ∃ h0, histNew size get hist bins = .ok h0 ∧
      let h := cs.foldl histCall h0
      (Spec.histStyle cs = .bar →
        h.drawn = [⟨false, bins, hist, Spec.histColor cs⟩] ∧ h.boxWidth = some (Spec.histWidth cs)) ∧
      (Spec.histStyle cs = .stepFilled → h.drawn = [⟨true, bins, hist, Spec.histColor cs⟩]) ∧
      (Spec.histStyle cs = .barStacked ∨ Spec.histStyle cs = .step → h.drawn = []) ∧
      h.xr = some (get bins 0, get bins (size bins - 1)) := by
  -- invariant: the drawing is that of the current options
  let Inv : HistPlot V → Prop := fun h =>
    (h.histType = .bar → h.drawn = [⟨false, bins, hist, h.fillColor⟩] ∧ h.boxWidth = some h.rwidth) ∧
    (h.histType = .stepFilled → h.drawn = [⟨true, bins, hist, h.fillColor⟩]) ∧
    (h.histType = .barStacked ∨ h.histType = .step → h.drawn = []) ∧
    h.xr = some (get bins 0, get bins (size bins - 1)) ∧ h.hist = hist ∧ h.bins = bins
  have hre : ∀ h : HistPlot V, h.hist = hist → h.bins = bins →
      h.xr = some (get bins 0, get bins (size bins - 1)) → Inv (histRedrawP h) ∧
      (histRedrawP h).histType = h.histType ∧ (histRedrawP h).fillColor = h.fillColor ∧
      (histRedrawP h).rwidth = h.rwidth := by
    rintro ⟨fc, hi, b, lg, ht, rw', dr, bw, tc, rg⟩ h1 h2 h3
    simp only at h1 h2 h3
    subst h1 h2 h3
    cases ht <;> cases lg <;> simp [Inv, histRedrawP]
  have step : ∀ (h : HistPlot V) (c : HistCall), Inv h → Inv (histCall h c) ∧
      (histCall h c).histType = (match c with | .histtype t => t | _ => h.histType) ∧
      (histCall h c).fillColor = (match c with | .color t => t | _ => h.fillColor) ∧
      (histCall h c).rwidth = (match c with | .rwidth t => t | _ => h.rwidth) := by
    intro h c hi
    obtain ⟨i1, i2, i3, i4, i5, i6⟩ := hi
    cases c with
    | color c => exact hre { h with fillColor := c } i5 i6 i4
    | histtype t => exact hre { h with histType := t } i5 i6 i4
    | rwidth r => exact hre { h with rwidth := r } i5 i6 i4
    | log b => cases b <;> exact ⟨⟨i1, i2, i3, i4, i5, i6⟩, rfl, rfl, rfl⟩
  have key : ∀ (cs : List HistCall) (h : HistPlot V), Inv h → Inv (cs.foldl histCall h) ∧
      (cs.foldl histCall h).histType = Spec.lastOf (fun | .histtype t => some t | _ => none) h.histType cs ∧
      (cs.foldl histCall h).fillColor = Spec.lastOf (fun | .color c => some c | _ => none) h.fillColor cs ∧
      (cs.foldl histCall h).rwidth = Spec.lastOf (fun | .rwidth r => some r | _ => none) h.rwidth cs := by
    intro cs
    induction cs with
    | nil => intro h hi; exact ⟨hi, rfl, rfl, rfl⟩
    | cons c cs ih =>
      intro h hi
      obtain ⟨s1, s2, s3, s4⟩ := step h c hi
      obtain ⟨k1, k2, k3, k4⟩ := ih _ s1
      refine ⟨k1, ?_, ?_, ?_⟩
      · rw [List.foldl_cons, lastOf_cons, k2, s2]; cases c <;> rfl
      · rw [List.foldl_cons, lastOf_cons, k3, s3]; cases c <;> rfl
      · rw [List.foldl_cons, lastOf_cons, k4, s4]; cases c <;> rfl
  refine ⟨_, if_pos hs, ?_⟩
  obtain ⟨⟨i1, i2, i3, i4, -, -⟩, k2, k3, k4⟩ := key cs _
    (hre (histInit size get hist bins) rfl rfl rfl).1
  have e2 : (cs.foldl histCall (histRedrawP (histInit size get hist bins))).histType
      = Spec.histStyle cs := k2
  rw [e2] at i1 i2 i3
  rw [k3] at i1 i2
  rw [k4] at i1
  exact ⟨i1, i2, i3, i4⟩

/-- C80 (negation of "every histogram style shows the data"): after `histtype(STEP)` nothing is drawn,
and an empty list of bins is undefined behaviour. -/
theorem C80_hist_step_false :
    (∃ h0, histNew List.length (fun l i => l.getD i 0) ([1, 2] : List ℚ) [0, 1, 2] = .ok h0 ∧
      h0.drawn ≠ [] ∧ (histCall h0 (.histtype .step)).drawn = []) ∧
    (∀ hist : List ℚ, histNew List.length (fun l i => l.getD i 0) hist [] matches .ub) := by
  refine ⟨⟨_, rfl, by simp [histRedrawP, histInit], rfl⟩, fun hist => rfl⟩

end SciCpp
