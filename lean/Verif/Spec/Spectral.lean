import Mathlib.Analysis.SpecialFunctions.Complex.Circle
/-
  Textbook definitions for Welch's method, independent of the model.
-/
namespace SciCpp.Spec

open Finset

noncomputable section

/-- Bin `k` of the discrete Fourier transform of the `i`-th segment (`np` samples from `i * step` on)
after removal of its mean and multiplication with the window. -/
def segBin (x : ℕ → ℂ) (w : ℕ → ℝ) (np step i k : ℕ) : ℂ :=
  ∑ j ∈ range np,
    ((x (i * step + j) - (∑ m ∈ range np, x (i * step + m)) / np) * (w j : ℂ))
      * Complex.exp (-(2 * Real.pi * Complex.I / np)) ^ (j * k)

/-- Welch's power spectrum: mean of `|X_i(k)|²` over the segments. -/
def power (x : ℕ → ℂ) (w : ℕ → ℝ) (np step nseg k : ℕ) : ℝ :=
  (∑ i ∈ range nseg, Complex.normSq (segBin x w np step i k)) / nseg

/-- Welch's cross spectrum: mean of `conj X_i(k) · Y_i(k)` over the segments. -/
def cross (x y : ℕ → ℂ) (w : ℕ → ℝ) (np step nseg k : ℕ) : ℂ :=
  (∑ i ∈ range nseg, (starRingEnd ℂ) (segBin x w np step i k) * segBin y w np step i k) / nseg

/-- Factor of bin `k` of a one-sided spectrum: two except at frequency 0 and at the Nyquist
frequency. -/
def sideFactor (np k : ℕ) : ℝ := if k = 0 ∨ 2 * k = np then 1 else 2

/-- Number of segments of `np` samples at distance `step` in a signal of `N` samples. -/
def numSegs (N np step : ℕ) : ℕ := (N - np) / step + 1

end

end SciCpp.Spec
