import Verif.Props.ComplexF
import Verif.Props.SpectralF
/-
  Property theorems C139, continued: the segments of a complex signal (class `Spectrum`) with the mean computed by the library.
-/
namespace SciCpp
open Spec

variable {rnd : ℚ → ℚ} {u : ℚ}

/-- C139, the segments of a complex signal: the numbers that are transformed are finite and within
`((1+u)^(68 + ⌈log₂ n⌉) - 1)·(abs1 xₖ + Σ abs1 xⱼ / n)·|wₖ|` of `(xₖ - mean)·wₖ`, `n` the length of the segment, for a library whose `meanC` is the
`mean` of the code. -/
theorem C139_segment (hu : 0 ≤ u) (hr : ∀ x, |rnd x - x| ≤ u * |x|) (lib : SpecLib (RFl rnd)) (hlib : lib.meanC = fun l => mean l fun _ => true)
    (c : SpecCfgK (RFl rnd)) {np step : ℕ} (hc : CfgOk c np step) (x : List (CK ℚ)) (w : List ℚ) (hw : c.window = w.map RFl.fin)
    (i : ℕ) (hi : i * step + np ≤ x.length) (oneSided : Bool) (hlen : np < 2 ^ 31) (hn : rnd np = np) :
    ∃ s : List (CK ℚ), segK lib c oneSided (.cplx (x.map finC)) i = .ok (lib.fft (s.map finC)) ∧ s.length = np ∧
      ∀ k, (hk : k < s.length) → (hx : i * step + k < x.length) → (hwk : k < w.length) →
        ‖toC s[k] - (toC x[i * step + k] - (((x.drop (i * step)).take np).map toC).sum / np) * ((w[k] : ℝ) : ℂ)‖ ≤
          ((1 + (u : ℝ)) ^ (68 + Nat.clog 2 np) - 1) * ((abs1 x[i * step + k] + (((x.drop (i * step)).take np).map abs1).sum / np) * |(w[k] : ℝ)|) := by
  obtain ⟨s, e, hl, hs⟩ := C118_segment_complex lib c hc (x.map finC) i (by simpa using hi) oneSided
  have hwl : w.length = np := by have := hc.win; rw [hw, List.length_map] at this; exact_mod_cast this
  set seg := (x.drop (i * step)).take np with hseg
  have hsl : seg.length = np := by rw [hseg, List.length_take, List.length_drop]; omega
  have hpos : 0 < np := hc.pos
  have hm := mean_capprox (rnd := rnd) hu hr (seg.map finC) (fun _ => true) seg (by simp) (by intro h; rw [h] at hsl; simp at hsl; omega)
    (by omega) (by rw [hsl]; exact hn)
  rw [List.length_map, hsl] at hm
  have key : ∀ k (hk : k < np) (hx : i * step + k < x.length) (hwk : k < w.length), ∃ z, s[k]? = some z ∧
      CApprox u (68 + Nat.clog 2 np) ((toC x[i * step + k] - (seg.map toC).sum / np) * ((w[k] : ℝ) : ℂ))
        ((abs1 x[i * step + k] + (seg.map abs1).sum / np) * |(w[k] : ℝ)|) z := by
    intro k hk hx hwk
    have h1 := hs k hk (finC x[i * step + k]) (RFl.fin w[k]) (by simp [hx]) (by rw [hw]; simp [hwk])
    have h2 := CApprox.mulR hu hr w[k] (CApprox.sub hu hr (CApprox.exact hu (66 + Nat.clog 2 np) x[i * step + k]) hm)
    refine ⟨_, h1, ?_⟩
    rw [show 68 + Nat.clog 2 np = 66 + Nat.clog 2 np + 1 + 1 by omega]
    have e2 : ((x.map (finC (rnd := rnd))).drop (i * step)).take np = seg.map finC := by
      rw [hseg, List.map_take, List.map_drop]
    rw [e2, hlib]
    exact h2
  have hfin : ∃ q : List (CK ℚ), s = q.map finC := by
    have hall : ∀ z ∈ s, ∃ q : CK ℚ, z = finC q := by
      intro z hz
      obtain ⟨k, hk, rfl⟩ := List.getElem_of_mem hz
      obtain ⟨z, h1, h2⟩ := key k (by omega) (by omega) (by omega)
      obtain ⟨q, hq, -⟩ := h2.out hu
      rw [List.getElem?_eq_getElem hk] at h1
      exact ⟨q, by injection h1 with h1; rw [h1, hq]⟩
    clear key e hl hs
    induction s with
    | nil => exact ⟨[], rfl⟩
    | cons z s ih =>
      obtain ⟨q, hq⟩ := hall z (by simp)
      obtain ⟨qs, hqs⟩ := ih (fun y hy => hall y (List.mem_cons_of_mem _ hy))
      exact ⟨q :: qs, by rw [hq, hqs]; rfl⟩
  obtain ⟨q, rfl⟩ := hfin
  rw [List.length_map] at hl
  refine ⟨q, e, hl, fun k hk hx hwk => ?_⟩
  obtain ⟨z, h1, h2⟩ := key k (by omega) hx hwk
  obtain ⟨r, hr', hb⟩ := h2.out hu
  rw [List.getElem?_map, List.getElem?_eq_getElem hk] at h1
  have h3 : finC q[k] = finC (rnd := rnd) r := by rw [← hr']; injection h1
  have : q[k] = r := by
    have h1 := congrArg CK.re h3
    have h2 := congrArg CK.im h3
    simp only [finC, RFl.fin_inj] at h1 h2
    cases hq : q[k]; cases r
    rw [hq] at h1 h2
    simp only at h1 h2
    rw [h1, h2]
  rw [this]; exact hb

/-- The hypotheses hold in binary64 for the second segment of the signal `{1+i, 2, 3i}`, two samples per segment, one overlapping. -/
example : ∃ s : List (CK ℚ), segK { dft2 with meanC := fun l => mean l fun _ => true } cfg2 false (.cplx ([⟨1, 1⟩, ⟨2, 0⟩, ⟨0, 3⟩].map finC)) 1
      = .ok (s.map finC) ∧ s.length = 2 := by
  obtain ⟨s, h1, h2, -⟩ := C139_segment (rnd := rnd64) (u := 1 / 2 ^ 53) (by norm_num) rnd64_err { dft2 with meanC := fun l => mean l fun _ => true } rfl cfg2
    (np := 2) (step := 1) ⟨rfl, rfl, by norm_num, by rfl, by norm_num⟩ [⟨1, 1⟩, ⟨2, 0⟩, ⟨0, 3⟩] [1, 1] rfl 1 (by simp) false (by norm_num)
    (rnd64_nat 2 (by norm_num))
  exact ⟨s, h1, h2⟩

end SciCpp
