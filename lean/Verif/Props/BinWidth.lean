import Verif.Props.Gmean
import Verif.Props.Histogram
/-
  Property theorems C78: automatic numbers of histogram bins.
-/
namespace SciCpp

open Spec

/-- `e` are the `k + 1` edges of `k ≥ 1` equal bins from `a` to `b`. -/
def EqualBins (e : List ℝ) (a b : ℝ) (k : ℕ) : Prop :=
  1 ≤ k ∧ e.length = k + 1 ∧ ∀ i : ℕ, i ≤ k → e[i]? = some (a + (i : ℝ) * (b - a) / (k : ℝ))

theorem linspace_equalBins (a b : ℝ) (k : ℕ) (hk : 1 ≤ k) :
    EqualBins (linspace a b (k + 1)) a b k := by
  obtain ⟨h1, h2, _⟩ := C27_linspace a b (k + 1)
  refine ⟨hk, h1, fun i hi => ?_⟩
  rw [h2 (by omega) i (by omega)]
  push_cast
  rw [add_sub_cancel_right]

section
variable (xs : List ℝ) (lo hi : ℝ) (hlo : lo ∈ xs) (hhi : hi ∈ xs)
  (hb : ∀ x ∈ xs, lo ≤ x ∧ x ≤ hi)
include hlo hhi hb

theorem extrema_eq : amin 0 (fun a b : ℝ => decide (a < b)) xs = lo ∧
    amax 0 (fun a b : ℝ => decide (a < b)) xs = hi ∧ ptpR xs = hi - lo := by
  have hne : xs ≠ [] := by rintro rfl; cases hlo
  obtain ⟨m1, m2, m3, m4, m5, _⟩ := C14_amax_amin_ptp (0 : ℝ) xs hne
  have e1 := le_antisymm (m4 lo hlo) (hb _ m3).1
  have e2 := le_antisymm (hb _ m1).2 (m2 hi hhi)
  refine ⟨e1, e2, ?_⟩
  unfold ptpR
  rw [m5, e1, e2]

theorem edges_of_width (nth : NthImpl ℝ) (tol tolq : ℝ) (m : BinMethod) (w : ℝ) (hw : 0 ≤ w)
    (hbw : binWidth nth tolq m xs = .ok (Ex.fin w)) :
    let d : ℝ := if almostEqFin tol lo hi then 1 / 2 else 0
    lo - d < hi + d →
    ∃ e, histogramBinEdgesR nth tol tolq m xs = .ok e ∧
      EqualBins e (lo - d) (hi + d) (if w = 0 then 1 else ⌈(hi + d - (lo - d)) / w⌉₊) := by
  intro d hd
  have hne : xs ≠ [] := by rintro rfl; cases hlo
  obtain ⟨e1, e2, _⟩ := extrema_eq xs lo hi hlo hhi hb
  have ho : outerEdgesR tol xs = (lo - d, hi + d) := by
    unfold outerEdgesR
    rw [if_neg (by simpa using hne), e1, e2]
    simp only [d]
    split_ifs <;> simp
  unfold histogramBinEdgesR
  rw [if_neg (by simpa using hne)]
  simp only [hbw, ho, Res.bind_ok]
  by_cases h0 : w = 0
  · rw [if_pos h0, if_pos h0]
    exact ⟨_, rfl, linspace_equalBins _ _ 1 le_rfl⟩
  · have hw' : 0 < w := lt_of_le_of_ne hw (Ne.symm h0)
    have hpos : 0 < (hi + d - (lo - d)) / w := div_pos (by linarith) hw'
    have hc : 0 < ⌈(hi + d - (lo - d)) / w⌉ := Int.ceil_pos.mpr hpos
    rw [if_neg h0, if_neg h0, if_neg (by omega)]
    refine ⟨_, rfl, ?_⟩
    rw [← Int.ceil_toNat]
    exact linspace_equalBins _ _ _ (by omega)

theorem lt_of_not_almostEq (tol : ℝ) (ht : 0 ≤ tol) (hne : almostEqFin tol lo hi = false) :
    lo < hi := by
  refine lt_of_le_of_ne (hb lo hlo).2 ?_
  rintro rfl
  have : almostEqFin tol lo lo = true := by
    unfold almostEqFin
    rw [sub_self, abs_zero]
    split_ifs
    · simpa using ht
    · simpa using mul_nonneg ht (abs_nonneg lo)
  rw [this] at hne; cases hne

theorem edges_of_width' (nth : NthImpl ℝ) (tol tolq : ℝ) (ht : 0 ≤ tol)
    (hne : almostEqFin tol lo hi = false) (m : BinMethod) (w k : ℝ) (hw : 0 < w)
    (hbw : binWidth nth tolq m xs = .ok (Ex.fin w)) (hk : (hi - lo) / w = k) :
    ∃ e, histogramBinEdgesR nth tol tolq m xs = .ok e ∧ EqualBins e lo hi ⌈k⌉₊ := by
  have := edges_of_width xs lo hi hlo hhi hb nth tol tolq m w hw.le hbw
  simp only [hne, Bool.false_eq_true, if_false, sub_zero, add_zero] at this
  rw [if_neg hw.ne', hk] at this
  exact this (lt_of_not_almostEq xs lo hi hlo hhi hb tol ht hne)

theorem edges_of_width_zero (nth : NthImpl ℝ) (tol tolq : ℝ) (ht : 0 ≤ tol)
    (hne : almostEqFin tol lo hi = false) (m : BinMethod)
    (hbw : binWidth nth tolq m xs = .ok (Ex.fin 0)) :
    ∃ e, histogramBinEdgesR nth tol tolq m xs = .ok e ∧ EqualBins e lo hi 1 := by
  have := edges_of_width xs lo hi hlo hhi hb nth tol tolq m 0 le_rfl hbw
  simp only [hne, Bool.false_eq_true, if_false, sub_zero, add_zero, if_true] at this
  exact this (lt_of_not_almostEq xs lo hi hlo hhi hb tol ht hne)

/-- C78 (partial: exact arithmetic, and the smallest and the largest sample are not almost equal):
the square-root, Rice and Sturges rules.  For every data set of `n` samples the edges are those of
`⌈√n⌉`, `⌈2·∛n⌉` and `⌈log₂ n + 1⌉` equal bins from the smallest to the largest sample.  Missing:
almost constant data, see `C78_almost_constant_false`. -/
theorem C78_counts_range_partial (nth : NthImpl ℝ) (tol tolq : ℝ) (ht : 0 ≤ tol)
    (hne : almostEqFin tol lo hi = false) :
    (∃ e, histogramBinEdgesR nth tol tolq .sqrt xs = .ok e ∧
      EqualBins e lo hi ⌈Real.sqrt xs.length⌉₊) ∧
    (∃ e, histogramBinEdgesR nth tol tolq .rice xs = .ok e ∧
      EqualBins e lo hi ⌈2 * (xs.length : ℝ) ^ (1 / 3 : ℝ)⌉₊) ∧
    (∃ e, histogramBinEdgesR nth tol tolq .sturges xs = .ok e ∧
      EqualBins e lo hi ⌈Real.logb 2 xs.length + 1⌉₊) := by
  have hx : xs ≠ [] := by rintro rfl; cases hlo
  have hn : (1 : ℝ) ≤ xs.length := by exact_mod_cast List.length_pos_iff.mpr hx
  obtain ⟨e1, e2, e3⟩ := extrema_eq xs lo hi hlo hhi hb
  have hlt := lt_of_not_almostEq xs lo hi hlo hhi hb tol ht hne
  have key := edges_of_width' xs lo hi hlo hhi hb nth tol tolq ht hne
  have hp : 0 < hi - lo := by linarith
  have hs : 0 < Real.sqrt xs.length := Real.sqrt_pos.mpr (by linarith)
  have hc : 0 < cbrtR xs.length := Real.rpow_pos_of_pos (by linarith) _
  have hl : 0 ≤ Real.logb 2 xs.length := Real.logb_nonneg (by norm_num) hn
  have hreq : (!xs.isEmpty) = true := by simpa using hx
  refine ⟨key .sqrt ((hi - lo) / Real.sqrt xs.length) _ (by positivity) ?_ ?_,
    key .rice ((1 / 2) * (hi - lo) / cbrtR xs.length) _ (by positivity) ?_ ?_,
    key .sturges ((hi - lo) / (Real.logb 2 xs.length + 1)) _ (by positivity) ?_ ?_⟩
  · unfold binWidth binWidthRange; rw [hreq, e3]; rfl
  · field_simp
  · unfold binWidth binWidthRange; rw [hreq, e3]; rfl
  · unfold cbrtR at hc ⊢
    field_simp
  · unfold binWidth binWidthRange; rw [hreq, e3]; rfl
  · field_simp

theorem centralMoment_two_pos (hlt : lo < hi) : 0 < centralMoment 2 xs := by
  have hx : xs ≠ [] := by rintro rfl; cases hlo
  refine lt_of_le_of_ne (centralMoment_even_nonneg 2 (by decide) xs) fun h => ?_
  have hn : (xs.length : ℝ) ≠ 0 := by
    rw [Nat.cast_ne_zero]; exact (List.length_pos_iff.mpr hx).ne'
  unfold centralMoment at h
  have h0 : (xs.map fun x => (x - meanL xs) ^ 2).sum = 0 := by
    rcases div_eq_zero_iff.mp h.symm with h | h
    · exact h
    · exact absurd h hn
  have hz : ∀ y ∈ xs.map (fun x => (x - meanL xs) ^ 2), y = 0 := fun y hy => List.all_zero_of_le_zero_le_of_sum_eq_zero (l := xs.map fun x => (x - meanL xs) ^ 2)
    (by intro y hy; obtain ⟨x, _, rfl⟩ := List.mem_map.mp hy; positivity) h0 hy
  have h1 := hz _ (List.mem_map.mpr ⟨lo, hlo, rfl⟩)
  have h2 := hz _ (List.mem_map.mpr ⟨hi, hhi, rfl⟩)
  have h1' : lo - meanL xs = 0 := by simpa using h1
  have h2' : hi - meanL xs = 0 := by simpa using h2
  linarith

/-- C78 (partial, as above): Scott's rule, with the population standard deviation `σ`:
`⌈(max - min) / (∛(24√π/n)·σ)⌉` bins. -/
theorem C78_counts_scott_partial (nth : NthImpl ℝ) (tol tolq : ℝ) (ht : 0 ≤ tol)
    (hne : almostEqFin tol lo hi = false) (hlen : xs.length < 2 ^ 31) :
    ∃ e, histogramBinEdgesR nth tol tolq .scott xs = .ok e ∧
      EqualBins e lo hi ⌈(hi - lo) / ((24 * Real.sqrt Real.pi / xs.length) ^ (1 / 3 : ℝ) *
        Real.sqrt (centralMoment 2 xs))⌉₊ := by
  have hx : xs ≠ [] := by rintro rfl; cases hlo
  have hn : (0 : ℝ) < xs.length := by exact_mod_cast List.length_pos_iff.mpr hx
  have hlt := lt_of_not_almostEq xs lo hi hlo hhi hb tol ht hne
  have hm := centralMoment_two_pos xs lo hi hlo hhi hb hlt
  have hm2 := C20_moment (K := ℝ) 2 xs hx hlen
  have hreq : (!xs.isEmpty) = true := by simpa using hx
  refine edges_of_width' xs lo hi hlo hhi hb nth tol tolq ht hne .scott _ _ ?_ ?_ rfl
  · have : 0 < Real.sqrt Real.pi := Real.sqrt_pos.mpr Real.pi_pos
    have h2 : 0 < (24 * Real.sqrt Real.pi / xs.length) ^ (1 / 3 : ℝ) :=
      Real.rpow_pos_of_pos (by positivity) _
    exact mul_pos h2 (Real.sqrt_pos.mpr hm)
  · unfold binWidth stdR
    have hv : ∃ c, varF 0 (xs.map Ex.fin) (fun _ => true) = .ok (Ex.fin (centralMoment 2 xs), c) := by
      unfold moment at hm2
      simp only [OfNat.ofNat_ne_zero, OfNat.ofNat_ne_one, if_false, if_true] at hm2
      cases hv : varF 0 (xs.map (Ex.fin (K := ℝ))) (fun _ => true) with
      | ub => rw [hv] at hm2; cases hm2
      | ok r =>
        rw [hv, Res.bind_ok] at hm2
        have h' : r.1 = Ex.fin (centralMoment 2 xs) := by injection hm2
        exact ⟨r.2, by rw [← h']⟩
    obtain ⟨c, hv⟩ := hv
    rw [hreq, hv]
    rfl

/-- C78 (partial, as above): Doane's rule: a single bin for at most two samples, otherwise
`⌈1 + log₂ n + log₂(1 + |g₁|/σ_{g₁})⌉` bins, where `g₁` is the skewness `m₃/m₂^{3/2}`. -/
theorem C78_counts_doane_partial (nth : NthImpl ℝ) (tol tolq : ℝ) (ht : 0 ≤ tol)
    (hne : almostEqFin tol lo hi = false) (hlen : xs.length < 2 ^ 31) :
    ∃ e, histogramBinEdgesR nth tol tolq .doane xs = .ok e ∧
      EqualBins e lo hi (if xs.length ≤ 2 then 1 else
        ⌈1 + Real.logb 2 xs.length + Real.logb 2 (1 +
          |centralMoment 3 xs / centralMoment 2 xs ^ (3 / 2 : ℝ)| /
          Real.sqrt (6 * ((xs.length : ℝ) - 2) / (((xs.length : ℝ) + 1) * ((xs.length : ℝ) + 3))))⌉₊) := by
  have hx : xs ≠ [] := by rintro rfl; cases hlo
  have hn : (1 : ℝ) ≤ xs.length := by exact_mod_cast List.length_pos_iff.mpr hx
  have hlt := lt_of_not_almostEq xs lo hi hlo hhi hb tol ht hne
  have hm := centralMoment_two_pos xs lo hi hlo hhi hb hlt
  have hreq : (!xs.isEmpty) = true := by simpa using hx
  obtain ⟨e1, e2, e3⟩ := extrema_eq xs lo hi hlo hhi hb
  by_cases h2 : xs.length ≤ 2
  · rw [if_pos h2]
    refine edges_of_width_zero xs lo hi hlo hhi hb nth tol tolq ht hne .doane ?_
    unfold binWidth binWidthDoane
    rw [hreq, if_pos h2]; rfl
  · rw [if_neg h2]
    set g := centralMoment 3 xs / centralMoment 2 xs ^ (3 / 2 : ℝ) with hg
    set sg := Real.sqrt (6 * ((xs.length : ℝ) - 2) / (((xs.length : ℝ) + 1) * ((xs.length : ℝ) + 3)))
      with hsg
    have hl : 0 ≤ Real.logb 2 xs.length := Real.logb_nonneg (by norm_num) hn
    have hl2 : 0 ≤ Real.logb 2 (1 + |g| / sg) :=
      Real.logb_nonneg (by norm_num) (by
        have : 0 ≤ |g| / sg := div_nonneg (abs_nonneg _) (Real.sqrt_nonneg _)
        linarith)
    have hp : 0 < hi - lo := by linarith
    refine edges_of_width' xs lo hi hlo hhi hb nth tol tolq ht hne .doane
      ((hi - lo) / (1 + Real.logb 2 xs.length + Real.logb 2 (1 + |g| / sg))) _ (by positivity) ?_ ?_
    · unfold binWidth binWidthDoane
      have hs := C20_skew xs hx hlen hm.ne'
      have hs' : skew (Ex.map Real.sqrt) (xs.map Ex.fin) (fun _ => true) = .ok (Ex.fin g) := hs
      rw [hreq, if_neg h2, hs', e3]; rfl
    · field_simp

/-- C78 (partial, as above): the Freedman–Diaconis rule and AUTO.  With interquartile range `d ≥ 0`
as computed by `iqr`: FD gives one bin when `d = 0`, else `⌈(max - min)·∛n / (2d)⌉`; AUTO gives the
Sturges number when `d = 0`, else the larger of the two. -/
theorem C78_counts_fd_auto_partial (nth : NthImpl ℝ) (tol tolq : ℝ) (ht : 0 ≤ tol)
    (hne : almostEqFin tol lo hi = false) (d : ℝ) (hd : 0 ≤ d)
    (hiqr : iqr nth 0 tolq .linear xs xs 25 75 = .ok d) :
    let fd : ℝ := (hi - lo) * (xs.length : ℝ) ^ (1 / 3 : ℝ) / (2 * d)
    let st : ℝ := Real.logb 2 xs.length + 1
    (∃ e, histogramBinEdgesR nth tol tolq .fd xs = .ok e ∧
      EqualBins e lo hi (if d = 0 then 1 else ⌈fd⌉₊)) ∧
    (∃ e, histogramBinEdgesR nth tol tolq .auto xs = .ok e ∧
      EqualBins e lo hi (if d = 0 then ⌈st⌉₊ else max ⌈fd⌉₊ ⌈st⌉₊)) := by
  intro fd st
  have hx : xs ≠ [] := by rintro rfl; cases hlo
  have hn : (1 : ℝ) ≤ xs.length := by exact_mod_cast List.length_pos_iff.mpr hx
  have hlt := lt_of_not_almostEq xs lo hi hlo hhi hb tol ht hne
  have hreq : (!xs.isEmpty) = true := by simpa using hx
  obtain ⟨e1, e2, e3⟩ := extrema_eq xs lo hi hlo hhi hb
  have hc : 0 < (xs.length : ℝ) ^ (1 / 3 : ℝ) := Real.rpow_pos_of_pos (by linarith) _
  have hl : 0 ≤ Real.logb 2 xs.length := Real.logb_nonneg (by norm_num) hn
  have hp : 0 < hi - lo := by linarith
  have hfd : binWidthFD nth tolq xs = .ok (2 * d / (xs.length : ℝ) ^ (1 / 3 : ℝ)) := by
    unfold binWidthFD
    rw [hiqr]; rfl
  have hst : binWidthRange .sturges xs = (hi - lo) / st := by
    unfold binWidthRange; rw [e3]
  by_cases h0 : d = 0
  · rw [if_pos h0, if_pos h0]
    have hw0 : 2 * d / (xs.length : ℝ) ^ (1 / 3 : ℝ) = 0 := by rw [h0]; simp
    rw [hw0] at hfd
    refine ⟨edges_of_width_zero xs lo hi hlo hhi hb nth tol tolq ht hne .fd ?_,
      edges_of_width' xs lo hi hlo hhi hb nth tol tolq ht hne .auto ((hi - lo) / st) _
        (by positivity) ?_ (by simp only [st]; field_simp)⟩
    · unfold binWidth; rw [hreq, hfd]; rfl
    · unfold binWidth
      rw [hreq, hfd, hst]
      show (if (0 : ℝ) = 0 then _ else _) = _
      rw [if_pos rfl]; rfl
  · have hd' : 0 < d := lt_of_le_of_ne hd (Ne.symm h0)
    rw [if_neg h0, if_neg h0]
    have hw : 0 < 2 * d / (xs.length : ℝ) ^ (1 / 3 : ℝ) := by positivity
    have hk : (hi - lo) / (2 * d / (xs.length : ℝ) ^ (1 / 3 : ℝ)) = fd := by
      simp only [fd]; field_simp
    have hstp : 0 < st := by simp only [st]; linarith
    refine ⟨edges_of_width' xs lo hi hlo hhi hb nth tol tolq ht hne .fd _ _ hw ?_ hk, ?_⟩
    · unfold binWidth; rw [hreq, hfd]; rfl
    · have hmax : max ⌈fd⌉₊ ⌈st⌉₊ = ⌈max fd st⌉₊ := (Nat.ceil_mono.map_max (a := fd) (b := st)).symm
      rw [hmax]
      refine edges_of_width' xs lo hi hlo hhi hb nth tol tolq ht hne .auto
        (min (2 * d / (xs.length : ℝ) ^ (1 / 3 : ℝ)) ((hi - lo) / st)) _
        (lt_min hw (div_pos hp hstp)) ?_ ?_
      · unfold binWidth
        rw [hreq, hfd, hst]
        show (if (2 * d / (xs.length : ℝ) ^ (1 / 3 : ℝ)) = 0 then _ else _) = _
        rw [if_neg hw.ne']; rfl
      · have hk2 : (hi - lo) / ((hi - lo) / st) = st := by field_simp
        rcases le_total (2 * d / (xs.length : ℝ) ^ (1 / 3 : ℝ)) ((hi - lo) / st) with h | h
        · rw [min_eq_left h, hk, max_eq_left]
          rw [← hk, ← hk2]
          exact div_le_div_of_nonneg_left hp.le hw h
        · rw [min_eq_right h, hk2, max_eq_right]
          rw [← hk]
          conv_rhs => rw [← hk2]
          exact div_le_div_of_nonneg_left hp.le (div_pos hp hstp) h

end

/-- C78: the interquartile range hypothesis of `C78_counts_fd_auto_partial` is met by every data set
with at least two samples (exact quantile positions). -/
theorem C78_iqr_exists (nth : NthImpl ℝ) (xs : List ℝ) (hl : 2 ≤ xs.length) :
    ∃ d, 0 ≤ d ∧ iqr nth 0 0 .linear xs xs 25 75 = .ok d := by
  obtain ⟨x, y, h1, h2, h3⟩ := C17_quantile_monotone_partial nth nth (0 : ℝ) .linear xs (25 / 100)
    (75 / 100) (by norm_num) (by norm_num) (by norm_num) hl
  refine ⟨y - x, by linarith, ?_⟩
  unfold iqr percentile
  rw [h1, h2]; rfl

/-- C78 (negation of "the number of bins depends only on the number of samples"): two samples that
are `almost_equal` but different give arbitrarily many bins — the range is widened to at least 1,
the width is not. -/
theorem C78_almost_constant_false (nth : NthImpl ℝ) (tol tolq : ℝ) (ht : 0 < tol) (N : ℕ) :
    ∃ a b : ℝ, a < b ∧ ∃ e, histogramBinEdgesR nth tol tolq .sqrt [a, b] = .ok e ∧ N < e.length := by
  set δ : ℝ := min tol (1 / ((N : ℝ) + 1)) with hδ
  have hN : (0 : ℝ) < (N : ℝ) + 1 := by positivity
  have hδ0 : 0 < δ := lt_min ht (by positivity)
  have hδ1 : δ ≤ tol := min_le_left _ _
  have hδ2 : δ ≤ 1 / ((N : ℝ) + 1) := min_le_right _ _
  refine ⟨1, 1 + δ, by linarith, ?_⟩
  have hlo : (1 : ℝ) ∈ [1, 1 + δ] := by simp
  have hhi : (1 + δ : ℝ) ∈ [1, 1 + δ] := by simp
  have hb : ∀ x ∈ [(1 : ℝ), 1 + δ], 1 ≤ x ∧ x ≤ 1 + δ := by
    intro x hx
    simp only [List.mem_cons, List.not_mem_nil, or_false] at hx
    rcases hx with rfl | rfl <;> constructor <;> linarith
  have hae : almostEqFin tol 1 (1 + δ) = true := by
    unfold almostEqFin
    have hab : |(1 : ℝ) - (1 + δ)| = δ := by
      rw [show (1 : ℝ) - (1 + δ) = -δ by ring, abs_neg, abs_of_pos hδ0]
    rw [hab]
    split_ifs
    · simpa using hδ1
    · have : 1 ≤ max |(1 : ℝ)| |1 + δ| := by rw [abs_one]; exact le_max_left _ _
      simp only [decide_eq_true_eq]
      nlinarith
  obtain ⟨_, _, e3⟩ := extrema_eq [1, 1 + δ] 1 (1 + δ) hlo hhi hb
  have hs : 0 < Real.sqrt (([1, 1 + δ] : List ℝ).length : ℝ) := Real.sqrt_pos.mpr (by simp)
  have hs1 : 1 ≤ Real.sqrt (([1, 1 + δ] : List ℝ).length : ℝ) := by
    rw [Real.one_le_sqrt]; simp
  have hw : 0 < (1 + δ - 1) / Real.sqrt (([1, 1 + δ] : List ℝ).length : ℝ) :=
    div_pos (by linarith) hs
  have := edges_of_width [1, 1 + δ] 1 (1 + δ) hlo hhi hb nth tol tolq .sqrt
    ((1 + δ - 1) / Real.sqrt (([1, 1 + δ] : List ℝ).length : ℝ)) hw.le
    (by unfold binWidth binWidthRange; rw [e3]; rfl)
  simp only [hae, if_true] at this
  obtain ⟨e, he, hk, hl, _⟩ := this (by linarith)
  refine ⟨e, he, ?_⟩
  rw [hl, if_neg hw.ne']
  have h1 : (N : ℝ) ≤ (1 + δ + 1 / 2 - (1 - 1 / 2)) /
      ((1 + δ - 1) / Real.sqrt (([1, 1 + δ] : List ℝ).length : ℝ)) := by
    rw [le_div_iff₀ hw, ← mul_div_assoc, div_le_iff₀ hs]
    rw [le_div_iff₀ hN] at hδ2
    nlinarith
  have h2 : N ≤ ⌈(1 + δ + 1 / 2 - (1 - 1 / 2)) /
      ((1 + δ - 1) / Real.sqrt (([1, 1 + δ] : List ℝ).length : ℝ))⌉₊ := by
    have := le_trans h1 (Nat.le_ceil _)
    exact_mod_cast this
  omega

/-- C78 (partial: exact arithmetic): whatever positive width a method proposes, `histogram<method>`
has `⌈(last - first)/width⌉ ≥ 1` bins and counts every sample, as `histogram(x, n)` would. -/
theorem C78_every_sample_counted_partial (tol : ℚ) (ht : 0 ≤ tol) (xs : List ℚ) (lo hi : ℚ)
    (hlo : lo ∈ xs) (hhi : hi ∈ xs) (hb : ∀ x ∈ xs, lo ≤ x ∧ x ≤ hi)
    (width : List (RFl id) → RFl id) (w : ℚ) (hw : 0 < w)
    (hwidth : width (xs.map RFl.fin) = RFl.fin w) :
    let d : ℚ := if almostEqual tol (RFl.fin lo : RFl id) (RFl.fin hi) then 1 / 2 else 0
    let n := ⌈(hi + d - (lo - d)) / w⌉₊
    1 ≤ n ∧ ∃ bins h, histogramBinEdgesM (almostEqual tol) width (xs.map (RFl.fin (rnd := id)))
        = .ok bins ∧
      histogram true (almostEqual tol) bins (xs.map (RFl.fin (rnd := id))) = .ok h ∧
      h.length = n ∧ h.sum = xs.length := by
  intro d n
  have hlohi : lo ≤ hi := (hb lo hlo).2
  have hlt : lo - d < hi + d := by
    simp only [d]
    split_ifs with h
    · linarith
    · have : lo ≠ hi := by
        rintro rfl
        exact h (C26_refl (rnd := id) rfl (fun _ h => h) tol ht _)
      have := lt_of_le_of_ne hlohi this
      linarith
  have hq : 0 < (hi + d - (lo - d)) / w := div_pos (by linarith) hw
  have hn : 1 ≤ n := Nat.ceil_pos.mpr hq
  have hne : xs ≠ [] := by rintro rfl; cases hlo
  obtain ⟨h, e, l, q⟩ := C25_coverage_partial tol ht xs lo hi hlo hhi hb n hn
  have hout : outerEdges (almostEqual tol) (xs.map (RFl.fin (rnd := id)))
      = (RFl.fin (lo - d), RFl.fin (hi + d)) := by
    match xs, hlo with
    | x :: ys, hlo =>
    have hmin : amin RFl.nan RFl.lt ((x :: ys).map (RFl.fin (rnd := id))) = RFl.fin lo := by
      rw [List.map_cons, amin, minElement_fin]
      obtain ⟨m1, m2⟩ := minElement_spec x ys
      exact congrArg RFl.fin (le_antisymm (m2 lo hlo) (hb _ m1).1)
    have hmax : amax RFl.nan RFl.lt ((x :: ys).map (RFl.fin (rnd := id))) = RFl.fin hi := by
      rw [List.map_cons, amax, maxElement_fin]
      obtain ⟨m1, m2⟩ := maxElement_spec x ys
      exact congrArg RFl.fin (le_antisymm (hb _ m1).2 (m2 hi hhi))
    unfold outerEdges
    rw [hmin, hmax]
    simp only [List.map_cons, List.isEmpty_cons, Bool.false_eq_true, if_false, d]
    split_ifs
    · rw [RFl.sub_fin, RFl.add_fin]; rfl
    · simp
  have hedges : histogramBinEdgesM (almostEqual tol) width (xs.map (RFl.fin (rnd := id)))
      = .ok (histogramBinEdges (almostEqual tol) (xs.map (RFl.fin (rnd := id))) n) := by
    unfold histogramBinEdgesM histogramBinEdges
    rw [if_neg (by simpa using hne), hout, hwidth]
    simp only [RFl.isZero_fin, decide_eq_true_eq, if_neg hw.ne', RFl.sub_fin, RFl.div_fin hw.ne', id]
    have : RFl.toSize (histogramBinEdgesM.ceilFl (RFl.fin ((hi + d - (lo - d)) / w) : RFl id))
        = .ok n := by
      have hc : 0 < ⌈(hi + d - (lo - d)) / w⌉ := Int.ceil_pos.mpr hq
      have hc' : (0 : ℚ) < (⌈(hi + d - (lo - d)) / w⌉ : ℚ) := by exact_mod_cast hc
      show (if ((⌈(hi + d - (lo - d)) / w⌉ : ℤ) : ℚ) ≤ -1 then Res.ub else _) = _
      rw [if_neg (by linarith)]
      have : ⌊((⌈(hi + d - (lo - d)) / w⌉ : ℤ) : ℚ)⌋₊ = n := by
        rw [← Int.floor_toNat, Int.floor_intCast, Int.ceil_toNat]
      exact congrArg Res.ok this
    rw [this]; rfl
  refine ⟨hn, _, h, hedges, ?_, l, q⟩
  unfold histogramAuto at e
  cases hh : histogram true (almostEqual tol)
      (histogramBinEdges (almostEqual tol) (xs.map (RFl.fin (rnd := id))) n)
      (xs.map (RFl.fin (rnd := id))) with
  | ub => simp only [hh] at e; cases e
  | ok h' =>
    simp only [hh, Res.bind_ok, Res.pure_eq] at e
    injection e with e
    injection e with e1 e2
    rw [e1]

/-- C78: constant data, by every method: a single bin of width 1 centred on the value (any number of
samples, any tolerance of the comparisons, exact arithmetic). -/
theorem C78_constant (nth : NthImpl ℝ) (tol tolq : ℝ) (ht : 0 ≤ tol) (htq : 0 ≤ tolq)
    (m : BinMethod) (n : ℕ) (c : ℝ) (hn : 1 ≤ n) (hlen : n < 2 ^ 31) :
    ∃ e, histogramBinEdgesR nth tol tolq m (List.replicate n c) = .ok e ∧
      EqualBins e (c - 1 / 2) (c + 1 / 2) 1 := by
  set xs := List.replicate n c with hxs
  have hl : xs.length = n := List.length_replicate
  have hall : ∀ x ∈ xs, x = c := fun x hx => List.eq_of_mem_replicate hx
  have hc : c ∈ xs := List.mem_replicate.mpr ⟨by omega, rfl⟩
  have hx : xs ≠ [] := by rintro h; rw [h] at hc; cases hc
  have hreq : (!xs.isEmpty) = true := by simpa using hx
  have hb : ∀ x ∈ xs, c ≤ x ∧ x ≤ c := fun x hx => by rw [hall x hx]; exact ⟨le_rfl, le_rfl⟩
  obtain ⟨_, _, e3⟩ := extrema_eq xs c c hc hc hb
  rw [sub_self] at e3
  have hae : almostEqFin tol c c = true := by
    unfold almostEqFin
    rw [sub_self, abs_zero]
    split_ifs
    · simpa using ht
    · simpa using mul_nonneg ht (abs_nonneg c)
  have hnR : (n : ℝ) ≠ 0 := by exact_mod_cast (by omega : n ≠ 0)
  have hmean : meanL xs = c := by
    unfold meanL
    rw [hl, hxs, List.sum_replicate, nsmul_eq_mul]
    field_simp
  have hcm : ∀ k, k ≠ 0 → centralMoment k xs = 0 := by
    intro k hk
    unfold centralMoment
    have : (xs.map fun x => (x - meanL xs) ^ k) = List.replicate n 0 := by
      rw [hmean, hxs, List.map_replicate, sub_self, zero_pow hk]
    rw [this, List.sum_replicate]
    simp
  have hm := fun k (hk : k ≠ 0) => (C20_moment (K := ℝ) k xs hx (by omega)).trans (by rw [hcm k hk])
  have hq : ∀ q : ℝ, 0 ≤ q → q ≤ 1 → quantileInplace nth 0 tolq .linear xs q = .ok c := by
    intro q h0 h1
    by_cases h2 : 2 ≤ n
    · obtain ⟨x, e, b1, b2⟩ := C17_quantile_bounds nth (0 : ℝ) tolq .linear xs q h0 h1 (by omega) htq
      rw [hall _ (orderStat_mem _ _ _)] at b1 b2
      rw [e, le_antisymm b2 b1]
    · have : n = 1 := by omega
      rw [hxs, this]
      exact (C17_quantile_small nth 0 tolq .linear q c h0 h1).2
  have hiqr : iqr nth 0 tolq .linear xs xs 25 75 = .ok 0 := by
    unfold iqr percentile
    rw [hq _ (by norm_num) (by norm_num), hq _ (by norm_num) (by norm_num)]
    show Res.ok (c - c) = _
    rw [sub_self]
  have hfd : binWidthFD nth tolq xs = .ok 0 := by
    unfold binWidthFD
    rw [hiqr]
    show Res.ok _ = _
    simp
  have hwr : ∀ m, binWidthRange m xs = 0 := by
    intro m
    cases m <;> simp [binWidthRange, e3]
  have hw : binWidth nth tolq m xs = .ok (Ex.fin 0) := by
    cases m with
    | sqrt => unfold binWidth; rw [hreq]; simp only [hwr]; rfl
    | rice => unfold binWidth; rw [hreq]; simp only [hwr]; rfl
    | sturges => unfold binWidth; rw [hreq]; simp only [hwr]; rfl
    | fd => unfold binWidth; rw [hreq, hfd]; rfl
    | auto =>
      unfold binWidth
      rw [hreq, hfd]
      show (if (0 : ℝ) = 0 then _ else _) = _
      rw [if_pos rfl, hwr]; rfl
    | scott =>
      have hv : ∃ k, varF 0 (xs.map Ex.fin) (fun _ => true) = .ok (Ex.fin (0 : ℝ), k) := by
        have hm2 := hm 2 (by norm_num)
        unfold moment at hm2
        simp only [OfNat.ofNat_ne_zero, OfNat.ofNat_ne_one, if_false, if_true] at hm2
        cases hv : varF 0 (xs.map (Ex.fin (K := ℝ))) (fun _ => true) with
        | ub => rw [hv] at hm2; cases hm2
        | ok r =>
          rw [hv, Res.bind_ok] at hm2
          have h' : r.1 = Ex.fin 0 := by injection hm2
          exact ⟨r.2, by rw [← h']⟩
      obtain ⟨k, hv⟩ := hv
      unfold binWidth stdR
      rw [hreq, hv]
      show Res.ok (Ex.fin (_ * Real.sqrt 0)) = _
      rw [Real.sqrt_zero, mul_zero]
    | doane =>
      unfold binWidth binWidthDoane
      rw [hreq]
      by_cases h2 : xs.length ≤ 2
      · rw [if_pos h2]; rfl
      · have hs : skew (Ex.map Real.sqrt) (xs.map Ex.fin) (fun _ => true) = .ok Ex.nan := by
          unfold skew
          rw [hm 2 (by norm_num), hm 3 (by norm_num)]
          simp only [Res.bind_ok, Ex.fin_mul, Ex.map, mul_zero, Real.sqrt_zero]
          show Res.ok (Ex.div (Ex.fin 0) (Ex.fin 0)) = _
          simp [Ex.div]
        rw [if_neg h2, hs]; rfl
  have := edges_of_width xs c c hc hc hb nth tol tolq m 0 le_rfl hw
  simp only [hae, if_true] at this
  exact this (by linarith)

/-- C78: empty data give one bin `[0, 1]`, by every method. -/
theorem C78_empty (nth : NthImpl ℝ) (tol tolq : ℝ) (m : BinMethod) :
    ∃ e, histogramBinEdgesR nth tol tolq m [] = .ok e ∧ EqualBins e 0 1 1 :=
  ⟨_, rfl, linspace_equalBins 0 1 1 le_rfl⟩

-- non-vacuity of the `almostEqFin` hypothesis: data from 0 to 3 with a small tolerance
example : almostEqFin (1 / 2 ^ 53 : ℝ) 0 3 = false := by
  unfold almostEqFin
  rw [if_pos (Or.inl rfl)]
  simp only [decide_eq_false_iff_not, not_le]
  norm_num

end SciCpp
