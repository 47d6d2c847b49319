import Verif.Props.Spectral
/-
  Property theorems C145: how spectra change with the gain, offset and sum of the signals, the
  sampling frequency and the gain of the window, and what a tone gives.
-/
namespace SciCpp

set_option linter.unusedSectionVars false

open Spec Finset

variable {c : SpecCfg}

/-- The signal `a·x + b`; for a real signal the real parts of `a` and `b` are used. -/
noncomputable def Sig.aff (a b : ℂ) : Sig → Sig
  | .real x => .real (x.map fun v : ℝ => a.re * v + b.re)
  | .cplx x => .cplx (x.map fun v : ℂ => a * v + b)

/-- Real signals are multiplied and shifted by real numbers. -/
def Sig.Fits (x : Sig) (a b : ℂ) : Prop := x.isC = true ∨ (a.im = 0 ∧ b.im = 0)

theorem aff_isC (x : Sig) (a b : ℂ) : (x.aff a b).isC = x.isC := by cases x <;> rfl
theorem aff_size (x : Sig) (a b : ℂ) : (x.aff a b).size = x.size := by
  cases x <;> simp [Sig.aff, Sig.size]
theorem aff_bins (x : Sig) (a b : ℂ) (np : ℕ) : (x.aff a b).bins np = x.bins np := by
  unfold Sig.bins; rw [aff_isC]
theorem aff_factor (x : Sig) (a b : ℂ) (np k : ℕ) : (x.aff a b).factor np k = x.factor np k := by
  unfold Sig.factor; rw [aff_isC]

theorem aff_at (x : Sig) (a b : ℂ) (hf : x.Fits a b) (i : ℕ) (hi : i < x.size) :
    (x.aff a b).at i = a * x.at i + b := by
  cases x with
  | real x =>
    simp only [Sig.size] at hi
    have hab : a.im = 0 ∧ b.im = 0 := hf.resolve_left (by simp [Sig.isC])
    have ea : a = ((a.re : ℝ) : ℂ) := by apply Complex.ext <;> simp [hab.1]
    have eb : b = ((b.re : ℝ) : ℂ) := by apply Complex.ext <;> simp [hab.2]
    simp only [Sig.at, Sig.aff, Sig.toC, List.getD_eq_getElem?_getD, List.getElem?_map,
      List.getElem?_eq_getElem hi, Option.map_some, Option.getD_some]
    conv_rhs => rw [ea, eb]
    push_cast; rfl
  | cplx x =>
    simp only [Sig.size] at hi
    simp only [Sig.at, Sig.aff, Sig.toC, List.getD_eq_getElem?_getD, List.getElem?_map,
      List.getElem?_eq_getElem hi, Option.map_some, Option.getD_some]

/-- A segment only depends on its own samples. -/
theorem segBin_congr (x y : ℕ → ℂ) (w : ℕ → ℝ) (np step i k : ℕ)
    (h : ∀ j, j < np → x (i * step + j) = y (i * step + j)) :
    Spec.segBin x w np step i k = Spec.segBin y w np step i k := by
  unfold Spec.segBin
  have e : (∑ m ∈ range np, x (i * step + m)) = ∑ m ∈ range np, y (i * step + m) :=
    sum_congr rfl fun m hm => h m (mem_range.mp hm)
  rw [e]
  exact sum_congr rfl fun j hj => by rw [h j (mem_range.mp hj)]

theorem segBin_affine (x : ℕ → ℂ) (a b : ℂ) (w : ℕ → ℝ) (np step i k : ℕ) (hn : np ≠ 0) :
    Spec.segBin (fun m => a * x m + b) w np step i k = a * Spec.segBin x w np step i k := by
  have hnc : (np : ℂ) ≠ 0 := by exact_mod_cast hn
  unfold Spec.segBin
  have e : (∑ m ∈ range np, (a * x (i * step + m) + b)) / (np : ℂ)
      = a * ((∑ m ∈ range np, x (i * step + m)) / (np : ℂ)) + b := by
    rw [sum_add_distrib, ← mul_sum, sum_const, card_range, nsmul_eq_mul]
    field_simp
  rw [mul_sum]
  refine sum_congr rfl fun j _ => ?_
  simp only [e]
  ring

theorem segBin_aff (hv : c.Valid) (x : Sig) (h : c.len ≤ x.size) (a b : ℂ) (hf : x.Fits a b) (i k : ℕ)
    (hi : i < Spec.numSegs x.size c.len c.step) :
    Spec.segBin (x.aff a b).at c.win c.len c.step i k = a * Spec.segBin x.at c.win c.len c.step i k := by
  have hpos := hv.pos
  have hstep : 1 ≤ c.step := by have := hv.step_eq; have := hv.step; omega
  have hfit := (C49_segments_fit x.size c.len c.step hstep h).2.1 i hi
  rw [← segBin_affine x.at a b c.win c.len c.step i k (Nat.one_le_iff_ne_zero.mp hpos)]
  exact segBin_congr _ _ _ _ _ _ _ fun j hj => aff_at x a b hf _ (by
    simp only [SpecCfg.len] at hfit hj; omega)

theorem power_aff (hv : c.Valid) (x : Sig) (h : c.len ≤ x.size) (a b : ℂ) (hf : x.Fits a b) (k : ℕ) :
    Spec.power (x.aff a b).at c.win c.len c.step (Spec.numSegs x.size c.len c.step) k
      = Complex.normSq a * Spec.power x.at c.win c.len c.step (Spec.numSegs x.size c.len c.step) k := by
  unfold Spec.power
  rw [← mul_div_assoc, mul_sum]
  congr 1
  refine sum_congr rfl fun i hi => ?_
  rw [segBin_aff hv x h a b hf i k (mem_range.mp hi), Complex.normSq_mul]

theorem cross_aff (hv : c.Valid) (x y : Sig) (h : c.len ≤ x.size) (hl : x.size = y.size)
    (a b a' b' : ℂ) (hf : x.Fits a b) (hf' : y.Fits a' b') (k : ℕ) :
    Spec.cross (x.aff a b).at (y.aff a' b').at c.win c.len c.step (Spec.numSegs x.size c.len c.step) k
      = (starRingEnd ℂ) a * a'
        * Spec.cross x.at y.at c.win c.len c.step (Spec.numSegs x.size c.len c.step) k := by
  unfold Spec.cross
  rw [← mul_div_assoc, mul_sum]
  congr 1
  refine sum_congr rfl fun i hi => ?_
  rw [segBin_aff hv x h a b hf i k (mem_range.mp hi),
    segBin_aff hv y (by omega) a' b' hf' i k (by rw [← hl]; exact mem_range.mp hi), map_mul]
  ring

/-- C145: **gain and offset of a power spectrum**: `welch(a·x + b)` is `|a|²·welch(x)` in every bin
(bin 0 included: the mean of each segment is removed), with the same frequencies, for every window,
overlap, scaling and signal at least one window long. -/
theorem C145_welch_gain (hv : c.Valid) (hfs : 0 < c.fs) (s : Scaling) (hs : c.scale s ≠ 0) (x : Sig)
    (h : c.len ≤ x.size) (a b : ℂ) (hf : x.Fits a b) :
    ∃ (f p : List ℝ), welch c s x = .ok (f, p.map Ex.fin) ∧
      welch c s (x.aff a b) = .ok (f, (p.map fun v : ℝ => Complex.normSq a * v).map Ex.fin) := by
  have hpos := hv.pos
  obtain ⟨f, h1, _, _⟩ := getFreqs_ok hv hfs x.isC
  refine ⟨f, (List.range (x.bins c.len)).map fun k : ℕ => x.factor c.len k * Spec.power x.at c.win c.len
    c.step (Spec.numSegs x.size c.len c.step) k / c.scale s, ?_, ?_⟩
  · unfold welch
    rw [if_neg (by simp only [SpecCfg.len] at h; omega), welchPsd_ok hv s hs x h, h1, List.map_map]
    rfl
  · unfold welch
    rw [if_neg (by rw [aff_size]; simp only [SpecCfg.len] at h; omega),
      welchPsd_ok hv s hs (x.aff a b) (by rw [aff_size]; exact h), aff_isC, h1, aff_bins, aff_size,
      List.map_map, List.map_map]
    simp only [Res.bind_ok, Res.pure_eq]
    congr 2
    apply List.map_congr_left
    intro k _
    simp only [Function.comp, aff_factor, power_aff hv x h a b hf]
    congr 1; ring

/-- C145: the spectrum of a constant signal is zero. -/
theorem C145_constant (hv : c.Valid) (hfs : 0 < c.fs) (s : Scaling) (hs : c.scale s ≠ 0) (N : ℕ)
    (h : c.len ≤ N) (b : ℝ) :
    ∃ f, welch c s (.real (List.replicate N b))
      = .ok (f, List.replicate (c.len / 2 + 1) (Ex.fin 0)) := by
  obtain ⟨f, p, h1, h2⟩ := C145_welch_gain hv hfs s hs (.real (List.replicate N 0))
    (by simpa [Sig.size] using h) 0 (b : ℂ) (.inr ⟨rfl, by simp⟩)
  have e : Sig.aff 0 (b : ℂ) (.real (List.replicate N 0)) = .real (List.replicate N b) := by
    simp [Sig.aff]
  have hp : p.length = c.len / 2 + 1 := by
    have hpos := hv.pos
    have := h1
    unfold welch at this
    rw [if_neg (by simp only [SpecCfg.len, Sig.size, List.length_replicate] at h ⊢; omega),
      welchPsd_ok hv s hs _ (by simpa [Sig.size] using h)] at this
    obtain ⟨f', h1', _, _⟩ := getFreqs_ok hv hfs (Sig.real (List.replicate N (0 : ℝ))).isC
    rw [h1'] at this
    simp only [Res.bind_ok, Res.pure_eq, Res.ok.injEq, Prod.mk.injEq] at this
    have hl := congrArg List.length this.2
    simpa [Sig.bins, Sig.isC] using hl.symm
  rw [e] at h2
  refine ⟨f, ?_⟩
  rw [h2]
  congr 2
  apply List.ext_getElem
  · simp [hp]
  · intro i _ _
    simp

/-- C145: **gain and offset of a cross spectrum**: `csd(a·x + b, a'·y + b') = conj(a)·a'·csd(x, y)`
for two signals of one length. -/
theorem C145_csd_gain (hv : c.Valid) (hfs : 0 < c.fs) (s : Scaling) (hs : c.scale s ≠ 0) (x y : Sig)
    (h : c.len ≤ x.size) (hl : x.size = y.size) (a b a' b' : ℂ) (hf : x.Fits a b) (hf' : y.Fits a' b') :
    ∃ (f : List ℝ) (p : List ℂ), csd c s x y = .ok (f, p.map Ex.fin) ∧
      csd c s (x.aff a b) (y.aff a' b')
        = .ok (f, (p.map fun v : ℂ => (starRingEnd ℂ) a * a' * v).map Ex.fin) := by
  have hpos := hv.pos
  have hx : x.size ≠ 0 := by simp only [SpecCfg.len] at h; omega
  obtain ⟨f, a1, a2, _, _⟩ := C52_csd hv hfs s hs x y hx (by omega) (by omega)
  obtain ⟨f', b1, b2, _, _⟩ := C52_csd hv hfs s hs (x.aff a b) (y.aff a' b') (by rw [aff_size]; exact hx)
    (by rw [aff_size]; omega) (by rw [aff_size, aff_size]; omega)
  rw [aff_isC, aff_isC, a1] at b1
  have hff : f = f' := by injection b1
  subst hff
  have e1 : bins2 (x.aff a b) (y.aff a' b') c.len = bins2 x y c.len := by
    unfold bins2; rw [aff_isC, aff_isC]
  have e2 : ∀ k, factor2 (x.aff a b) (y.aff a' b') c.len k = factor2 x y c.len k := by
    intro k; unfold factor2; rw [aff_isC, aff_isC]
  have hm : max x.size y.size = x.size := by omega
  refine ⟨f, (List.range (bins2 x y c.len)).map fun k : ℕ =>
        ((factor2 x y c.len k : ℝ) : ℂ) * Spec.cross x.at y.at c.win c.len c.step
          (Spec.numSegs (max x.size y.size) c.len c.step) k / ((c.scale s : ℝ) : ℂ), ?_, ?_⟩
  · rw [a2, List.map_map]; rfl
  · rw [b2, List.map_map, List.map_map, e1]
    congr 2
    apply List.map_congr_left
    intro k _
    simp only [Function.comp, e2, aff_size, hm, cross_aff hv x y h hl a b a' b' hf hf']
    congr 1; ring

/-- C145: **coherence does not depend on gains and offsets** of either signal (non-zero gains): the
whole result, NaN bins included, is the same. -/
theorem C145_coherence (hv : c.Valid) (hfs : 0 < c.fs) (x y : Sig) (h : c.len ≤ x.size)
    (hl : x.size = y.size) (ht : x.isC = y.isC) (a b a' b' : ℂ) (hf : x.Fits a b) (hf' : y.Fits a' b')
    (ha : a ≠ 0) (ha' : a' ≠ 0) (f f' : List ℝ) (v v' : List (Ex ℝ))
    (h1 : coherence c x y = .ok (f, v)) (h2 : coherence c (x.aff a b) (y.aff a' b') = .ok (f', v')) :
    v = v' := by
  obtain ⟨g, u, a1, a2, a3⟩ := C51_coherence_partial hv hfs x y h hl ht
  obtain ⟨g', u', b1, b2, b3⟩ := C51_coherence_partial hv hfs (x.aff a b) (y.aff a' b')
    (by rw [aff_size]; exact h) (by rw [aff_size, aff_size]; exact hl) (by rw [aff_isC, aff_isC]; exact ht)
  rw [h1] at a1; rw [h2] at b1
  have e1 : v = u := by injection a1 with a1; exact (Prod.mk.inj a1).2
  have e2 : v' = u' := by injection b1 with b1; exact (Prod.mk.inj b1).2
  subst e1; subst e2
  rw [aff_bins] at b2 b3
  have hna : Complex.normSq a ≠ 0 := by rwa [Ne, Complex.normSq_eq_zero]
  have hna' : Complex.normSq a' ≠ 0 := by rwa [Ne, Complex.normSq_eq_zero]
  apply List.ext_getElem?
  intro k
  rcases Nat.lt_or_ge k (x.bins c.len) with hk | hk
  · obtain ⟨p1, p2⟩ := a3 k hk
    obtain ⟨q1, q2⟩ := b3 k hk
    have ex := power_aff hv x h a b hf k
    have ey := power_aff hv y (by omega) a' b' hf' k
    have exy := cross_aff hv x y h hl a b a' b' hf hf' k
    rw [← hl] at ey
    rw [aff_size, ex, ey] at q1 q2
    rw [exy] at q2
    by_cases hx0 : Spec.power x.at c.win c.len c.step (Spec.numSegs x.size c.len c.step) k = 0
    · rw [p1 (.inl hx0), q1 (.inl (by rw [hx0, mul_zero]))]
    · by_cases hy0 : Spec.power y.at c.win c.len c.step (Spec.numSegs x.size c.len c.step) k = 0
      · rw [p1 (.inr hy0), q1 (.inr (by rw [hy0, mul_zero]))]
      · obtain ⟨r, r1, r2, _⟩ := p2 hx0 hy0
        obtain ⟨r', s1, s2, _⟩ := q2 (mul_ne_zero hna hx0) (mul_ne_zero hna' hy0)
        rw [r1, s1, r2, s2]
        congr 2
        rw [Complex.normSq_mul, Complex.normSq_mul, Complex.normSq_conj]
        field_simp
  · rw [List.getElem?_eq_none (by omega), List.getElem?_eq_none (by omega)]

/-- C145: what `tfestimate` returns follows the gains: `conj(a')/conj(a)` times the estimate of the
unscaled signals (the conjugates are those of C52; for real gains it is `a'/a`). -/
theorem C145_tfestimate (hv : c.Valid) (hfs : 0 < c.fs) (x y : Sig) (h : c.len ≤ x.size)
    (hl : x.size = y.size) (ht : x.isC = true ∨ y.isC = false) (a b a' b' : ℂ) (hf : x.Fits a b)
    (hf' : y.Fits a' b') (ha : a ≠ 0) :
    ∃ (f f' : List ℝ) (v v' : List (Ex ℂ)), tfestimate c x y = .ok (f, v) ∧
      tfestimate c (x.aff a b) (y.aff a' b') = .ok (f', v') ∧ v.length = x.bins c.len ∧
      v'.length = x.bins c.len ∧
      ∀ k : ℕ, k < x.bins c.len →
        (v[k]? = some Ex.nan ∧ v'[k]? = some Ex.nan) ∨
        ∃ H : ℂ, v[k]? = some (Ex.fin H) ∧
          v'[k]? = some (Ex.fin ((starRingEnd ℂ) (a' / a) * H)) := by
  obtain ⟨f, v, a1, a2, a3⟩ := C52_tfestimate_value hv hfs x y h hl ht
  obtain ⟨f', v', b1, b2, b3⟩ := C52_tfestimate_value hv hfs (x.aff a b) (y.aff a' b')
    (by rw [aff_size]; exact h) (by rw [aff_size, aff_size]; exact hl) (by rw [aff_isC, aff_isC]; exact ht)
  rw [aff_bins] at b2 b3
  refine ⟨f, f', v, v', a1, b1, a2, b2, fun k hk => ?_⟩
  have hna : Complex.normSq a ≠ 0 := by rwa [Ne, Complex.normSq_eq_zero]
  have ex := power_aff hv x h a b hf k
  have exy := cross_aff hv y x (by omega) hl.symm a' b' a b hf' hf k
  rw [← hl] at exy
  rw [a3 k hk, b3 k hk, aff_size, ex, exy]
  by_cases hx0 : Spec.power x.at c.win c.len c.step (Spec.numSegs x.size c.len c.step) k = 0
  · left; rw [if_pos hx0, if_pos (by rw [hx0, mul_zero])]; exact ⟨rfl, rfl⟩
  · right
    rw [if_neg hx0, if_neg (mul_ne_zero hna hx0)]
    refine ⟨_, rfl, ?_⟩
    congr 2
    have hp : ((Spec.power x.at c.win c.len c.step (Spec.numSegs x.size c.len c.step) k : ℝ) : ℂ) ≠ 0 := by
      exact_mod_cast hx0
    have hca : (starRingEnd ℂ) a ≠ 0 := by rwa [Ne, map_eq_zero]
    rw [Complex.ofReal_mul, Complex.normSq_eq_conj_mul_self, map_div₀]
    field_simp

/-! ### Sums of signals -/

/-- The element-wise sum of two signals of one kind. -/
def Sig.plus : Sig → Sig → Sig
  | .real x, .real y => .real (List.zipWith (· + ·) x y)
  | x, y => .cplx (List.zipWith (· + ·) x.toC y.toC)

theorem plus_isC (x y : Sig) (ht : x.isC = y.isC) : (x.plus y).isC = x.isC := by
  cases x <;> cases y <;> simp_all [Sig.plus, Sig.isC]

theorem plus_size (x y : Sig) (ht : x.isC = y.isC) (hl : x.size = y.size) :
    (x.plus y).size = x.size := by
  cases x <;> cases y <;> simp_all [Sig.plus, Sig.isC, Sig.size, Sig.toC]

theorem plus_at (x y : Sig) (ht : x.isC = y.isC) (hl : x.size = y.size) (i : ℕ) (hi : i < x.size) :
    (x.plus y).at i = x.at i + y.at i := by
  have hi' : i < y.size := by omega
  cases x with
  | real x =>
    cases y with
    | real y =>
      simp only [Sig.size] at hi hi'
      simp [Sig.at, Sig.plus, Sig.toC, List.getD_eq_getElem?_getD, hi, hi']
    | cplx y => simp [Sig.isC] at ht
  | cplx x =>
    cases y with
    | real y => simp [Sig.isC] at ht
    | cplx y =>
      simp only [Sig.size] at hi hi'
      simp [Sig.at, Sig.plus, Sig.toC, List.getD_eq_getElem?_getD, hi, hi']

theorem segBin_add (x y : ℕ → ℂ) (w : ℕ → ℝ) (np step i k : ℕ) :
    Spec.segBin (fun m => x m + y m) w np step i k
      = Spec.segBin x w np step i k + Spec.segBin y w np step i k := by
  unfold Spec.segBin
  rw [← sum_add_distrib]
  refine sum_congr rfl fun j _ => ?_
  rw [sum_add_distrib, add_div]
  ring

theorem segBin_plus (hv : c.Valid) (x y : Sig) (ht : x.isC = y.isC) (hl : x.size = y.size)
    (h : c.len ≤ x.size) (i k : ℕ) (hi : i < Spec.numSegs x.size c.len c.step) :
    Spec.segBin (x.plus y).at c.win c.len c.step i k
      = Spec.segBin x.at c.win c.len c.step i k + Spec.segBin y.at c.win c.len c.step i k := by
  have hstep : 1 ≤ c.step := by have := hv.step_eq; have := hv.step; omega
  have hfit := (C49_segments_fit x.size c.len c.step hstep h).2.1 i hi
  rw [← segBin_add]
  exact segBin_congr _ _ _ _ _ _ _ fun j hj => plus_at x y ht hl _ (by
    simp only [SpecCfg.len] at hfit hj; omega)

/-- C145: **superposition**: `csd(x + x', y) = csd(x, y) + csd(x', y)` in every bin, `x` and `x'` of
one kind and all three of one length (for the second argument by `C52_csd_hermitian`). -/
theorem C145_csd_add (hv : c.Valid) (hfs : 0 < c.fs) (s : Scaling) (hs : c.scale s ≠ 0)
    (x x' y : Sig) (h : c.len ≤ x.size) (hl : x.size = y.size) (hl' : x'.size = y.size)
    (ht : x.isC = x'.isC) :
    ∃ (f : List ℝ) (p q : List ℂ), csd c s x y = .ok (f, p.map Ex.fin) ∧
      csd c s x' y = .ok (f, q.map Ex.fin) ∧
      csd c s (x.plus x') y = .ok (f, (List.zipWith (· + ·) p q).map Ex.fin) := by
  have hpos := hv.pos
  have hx : x.size ≠ 0 := by simp only [SpecCfg.len] at h; omega
  have hxl : x.size = x'.size := by omega
  have hps := plus_size x x' ht hxl
  obtain ⟨f, a1, a2, _, _⟩ := C52_csd hv hfs s hs x y hx (by omega) (by omega)
  obtain ⟨f', b1, b2, _, _⟩ := C52_csd hv hfs s hs x' y (by omega) (by omega) (by omega)
  obtain ⟨f'', d1, d2, _, _⟩ := C52_csd hv hfs s hs (x.plus x') y (by omega) (by omega) (by omega)
  rw [← ht, a1] at b1
  rw [plus_isC x x' ht, a1] at d1
  have e1 : f = f' := by injection b1
  have e2 : f = f'' := by injection d1
  subst e1; subst e2
  have m1 : max x.size y.size = x.size := by omega
  have m2 : max x'.size y.size = x.size := by omega
  have m3 : max (x.plus x').size y.size = x.size := by omega
  have g1 : bins2 x' y c.len = bins2 x y c.len := by unfold bins2; rw [ht]
  have g2 : bins2 (x.plus x') y c.len = bins2 x y c.len := by unfold bins2; rw [plus_isC x x' ht]
  have g3 : ∀ k, factor2 x' y c.len k = factor2 x y c.len k := by intro k; unfold factor2; rw [ht]
  have g4 : ∀ k, factor2 (x.plus x') y c.len k = factor2 x y c.len k := by
    intro k; unfold factor2; rw [plus_isC x x' ht]
  refine ⟨f, (List.range (bins2 x y c.len)).map fun k : ℕ =>
      ((factor2 x y c.len k : ℝ) : ℂ) * Spec.cross x.at y.at c.win c.len c.step
        (Spec.numSegs x.size c.len c.step) k / ((c.scale s : ℝ) : ℂ),
    (List.range (bins2 x y c.len)).map fun k : ℕ =>
      ((factor2 x y c.len k : ℝ) : ℂ) * Spec.cross x'.at y.at c.win c.len c.step
        (Spec.numSegs x.size c.len c.step) k / ((c.scale s : ℝ) : ℂ), ?_, ?_, ?_⟩
  · rw [a2, m1, List.map_map]; rfl
  · rw [b2, m2, g1, List.map_map]; simp only [g3]; rfl
  · rw [d2, m3, g2, zip_map_range, List.map_map]
    simp only [g4]
    congr 2
    apply List.map_congr_left
    intro k _
    simp only [Function.comp]
    congr 1
    have hc : Spec.cross (x.plus x').at y.at c.win c.len c.step (Spec.numSegs x.size c.len c.step) k
        = Spec.cross x.at y.at c.win c.len c.step (Spec.numSegs x.size c.len c.step) k
          + Spec.cross x'.at y.at c.win c.len c.step (Spec.numSegs x.size c.len c.step) k := by
      unfold Spec.cross
      rw [← add_div, ← sum_add_distrib]
      congr 1
      refine sum_congr rfl fun i hi => ?_
      rw [segBin_plus hv x x' ht hxl h i k (mem_range.mp hi), map_add]
      ring
    rw [hc]; ring

/-! ### Sampling frequency and gain of the window -/

theorem setFs_valid (hv : c.Valid) (g : ℝ) : (c.setFs g).Valid := ⟨hv.np, hv.pos, hv.step⟩

/-- C145: **sampling frequency**: with `fs` replaced by `r·fs` (`r > 0`) every frequency is multiplied
by `r`, densities are divided by `r`, and the SPECTRUM and unscaled results are unchanged. -/
theorem C145_fs (hv : c.Valid) (hfs : 0 < c.fs) (s : Scaling) (hs : c.scale s ≠ 0) (x : Sig)
    (h : c.len ≤ x.size) (r : ℝ) (hr : 0 < r) :
    ∃ (f p : List ℝ), welch c s x = .ok (f, p.map Ex.fin) ∧
      welch (c.setFs (r * c.fs)) s x = .ok (f.map (fun v : ℝ => r * v),
        (p.map fun v : ℝ => if s = .density then v / r else v).map Ex.fin) := by
  have hpos := hv.pos
  have hx : x.size ≠ 0 := by simp only [SpecCfg.len] at h; omega
  have hfs' : 0 < (c.setFs (r * c.fs)).fs := mul_pos hr hfs
  have hsc : (c.setFs (r * c.fs)).scale s = (if s = .density then r else 1) * c.scale s := by
    cases s with
    | density => simp only [SpecCfg.scale, SpecCfg.setFs, if_true]; ring
    | spectrum => simp [SpecCfg.scale, SpecCfg.setFs]
    | none => simp [SpecCfg.scale]
  have hs' : (c.setFs (r * c.fs)).scale s ≠ 0 := by
    rw [hsc]; apply mul_ne_zero _ hs; split_ifs
    · exact hr.ne'
    · exact one_ne_zero
  obtain ⟨f, h1, h2, h3⟩ := getFreqs_ok hv hfs x.isC
  obtain ⟨f', g1, g2, g3⟩ := getFreqs_ok (setFs_valid hv (r * c.fs)) hfs' x.isC
  have hlen : (c.setFs (r * c.fs)).len = c.len := rfl
  have hff : f' = f.map fun v : ℝ => r * v := by
    rw [hlen, ← h2] at g2
    apply List.ext_getElem?
    intro k
    rcases Nat.lt_or_ge k f.length with hk | hk
    · rw [g3 k (by omega), List.getElem?_map, h3 k hk, Option.map_some]
      congr 1
      change binFreq x.isC c.len (r * c.fs) k = _
      unfold binFreq
      split_ifs <;> ring
    · rw [List.getElem?_eq_none (by omega), List.getElem?_eq_none (by simpa using hk)]
  refine ⟨f, (List.range (x.bins c.len)).map fun k : ℕ => x.factor c.len k * Spec.power x.at c.win c.len
    c.step (Spec.numSegs x.size c.len c.step) k / c.scale s, ?_, ?_⟩
  · unfold welch
    rw [if_neg hx, welchPsd_ok hv s hs x h, h1, List.map_map]
    rfl
  · unfold welch
    rw [if_neg hx, welchPsd_ok (setFs_valid hv (r * c.fs)) s hs' x h, g1, hff, List.map_map, List.map_map]
    simp only [Res.bind_ok, Res.pure_eq]
    congr 2
    apply List.map_congr_left
    intro k _
    simp only [Function.comp, hsc]
    congr 1
    have e1 : (c.setFs (r * c.fs)).win = c.win := rfl
    have e2 : (c.setFs (r * c.fs)).step = c.step := rfl
    rw [e1, e2]
    split_ifs
    · have := hr.ne'; field_simp; rfl
    · rw [one_mul]; rfl

theorem segBin_window (x : ℕ → ℂ) (w w' : ℕ → ℝ) (g : ℝ) (hw : ∀ j, w' j = g * w j) (np step i k : ℕ) :
    Spec.segBin x w' np step i k = (g : ℂ) * Spec.segBin x w np step i k := by
  unfold Spec.segBin
  rw [mul_sum]
  refine sum_congr rfl fun j _ => ?_
  rw [hw]; push_cast; ring

/-- C145: **the gain of the window does not matter**: `window(w)` and `window(g·w)`, `g ≠ 0`, give the
same densities and spectra (the results are divided by the gain of the window), whatever the state of
the object before. -/
theorem C145_window_gain (c c₁ c₂ : SpecCfg) (w : List ℝ) (hw : w ≠ []) (g : ℝ) (hg : g ≠ 0)
    (h1 : c.setWindow w = .ok c₁) (h2 : c.setWindow (w.map fun v : ℝ => g * v) = .ok c₂)
    (hno : c₁.noverlap < c₁.nperseg) (s : Scaling) (hsn : s ≠ .none)
    (hs : c₁.scale s ≠ 0) (x : Sig) (h : w.length ≤ x.size) :
    welch c₁ s x = welch c₂ s x := by
  obtain ⟨k1, w1, f1, d1, n1⟩ := setWindow_consistent _ _ _ h1
  obtain ⟨k2, w2, f2, d2, n2⟩ := setWindow_consistent _ _ _ h2
  have hl : c₂.window.length = c₁.window.length := by rw [w1, w2, List.length_map]
  have hnp : c₂.nperseg = c₁.nperseg := by rw [k1.np, k2.np, hl]
  have hnov : c₂.noverlap = c₁.noverlap := by
    by_cases hd : c.useDflt = true
    · rw [k1.dflt (by rw [d1, hd]), k2.dflt (by rw [d2, hd]), hl]
    · have hd' : c.useDflt = false := by simpa using hd
      rw [n1 hd', n2 hd']
  have hp1 : 1 ≤ c₁.window.length := by rw [w1]; exact List.length_pos_iff.mpr hw
  have v1 : c₁.Valid := ⟨k1.np, hp1, hno⟩
  have v2 : c₂.Valid := ⟨k2.np, by rw [hl]; exact hp1, by rw [hnov, hnp]; exact hno⟩
  have hg2 : g ^ 2 ≠ 0 := pow_ne_zero 2 hg
  have hsc : c₂.scale s = g ^ 2 * c₁.scale s := by
    cases s with
    | none => exact absurd rfl hsn
    | density =>
      simp only [SpecCfg.scale, f1, f2, k1.s2, k2.s2, w1, w2, List.map_map]
      have : (w.map ((fun v : ℝ => v ^ 2) ∘ fun v : ℝ => g * v)).sum
          = g ^ 2 * (w.map fun v : ℝ => v ^ 2).sum := by
        rw [← List.sum_map_mul_left]
        congr 1
        apply List.map_congr_left
        intro v _
        simp only [Function.comp]; ring
      rw [this]; ring
    | spectrum =>
      simp only [SpecCfg.scale, k1.s1, k2.s1, w1, w2]
      rw [List.sum_map_mul_left, List.map_id']; ring
  have hs2 : c₂.scale s ≠ 0 := by rw [hsc]; exact mul_ne_zero hg2 hs
  have hx : x.size ≠ 0 := by rw [w1] at hp1; omega
  have hlen : c₂.len = c₁.len := hl
  have hst : c₂.step = c₁.step := by unfold SpecCfg.step; rw [hnp, hnov]
  have hwin : ∀ j, c₂.win j = g * c₁.win j := by
    intro j
    simp only [SpecCfg.win, w1, w2, List.getD_eq_getElem?_getD, List.getElem?_map]
    cases w[j]? <;> simp
  have hfr : getFreqs c₂ x.isC = getFreqs c₁ x.isC := by
    unfold getFreqs; rw [hnp, f1, f2]
  unfold welch
  rw [if_neg hx, if_neg hx, welchPsd_ok v1 s hs x (by simp only [SpecCfg.len, w1]; exact h),
    welchPsd_ok v2 s hs2 x (by simp only [SpecCfg.len, w2, List.length_map]; exact h), hfr, hlen, hst]
  congr 2
  apply List.map_congr_left
  intro k _
  congr 1
  have hp : Spec.power x.at c₂.win c₁.len c₁.step (Spec.numSegs x.size c₁.len c₁.step) k
      = g ^ 2 * Spec.power x.at c₁.win c₁.len c₁.step (Spec.numSegs x.size c₁.len c₁.step) k := by
    unfold Spec.power
    rw [← mul_div_assoc, mul_sum]
    congr 1
    refine sum_congr rfl fun i _ => ?_
    rw [segBin_window x.at c₁.win c₂.win g hwin, Complex.normSq_mul, Complex.normSq_ofReal]; ring
  rw [hp, hsc]
  field_simp

/-! ### Tones -/

theorem exp_pow_one (np : ℕ) (hn : np ≠ 0) (k : ℕ) :
    (Complex.exp (2 * Real.pi * Complex.I / np) ^ k) ^ np = 1 := by
  rw [← pow_mul, mul_comm k np, pow_mul, ((Complex.isPrimitiveRoot_exp np hn).pow_eq_one), one_pow]

theorem sum_tone (np : ℕ) (hn : np ≠ 0) (k : ℕ) (h0 : 0 < k) (h1 : k < np) :
    ∑ j ∈ range np, (Complex.exp (2 * Real.pi * Complex.I / np) ^ k) ^ j = 0 := by
  set z := Complex.exp (2 * Real.pi * Complex.I / np) ^ k with hz
  have hz1 : z ≠ 1 := fun h => (Complex.isPrimitiveRoot_exp np hn).pow_ne_one_of_pos_of_lt h0.ne' h1 h
  have := geom_sum_mul z np
  rw [hz, exp_pow_one np hn k, sub_self, ← hz] at this
  exact (mul_eq_zero.mp this).resolve_right (sub_ne_zero.mpr hz1)

/-- The tone `exp(2πi k m/np)`. -/
noncomputable def Spec.tone (np k : ℕ) (m : ℕ) : ℂ := (Complex.exp (2 * Real.pi * Complex.I / np) ^ k) ^ m

theorem tone_normSq (np k m : ℕ) : Complex.normSq (Spec.tone np k m) = 1 := by
  unfold Spec.tone
  rw [map_pow, map_pow]
  have : Complex.normSq (Complex.exp (2 * Real.pi * Complex.I / np)) = 1 := by
    rw [Complex.normSq_eq_norm_sq]
    have e : (2 * Real.pi * Complex.I / np : ℂ) = ((2 * Real.pi / np : ℝ) : ℂ) * Complex.I := by
      push_cast; ring
    rw [e, Complex.norm_exp_ofReal_mul_I, one_pow]
  rw [this, one_pow, one_pow]

theorem segBin_tone (w : ℕ → ℝ) (np step i k k' : ℕ) (hn : np ≠ 0) (h0 : 0 < k) (h1 : k < np) :
    Spec.segBin (Spec.tone np k) w np step i k'
      = Spec.tone np k (i * step) * ∑ j ∈ range np, (w j : ℂ) * (Spec.tone np k j
          * Complex.exp (-(2 * Real.pi * Complex.I / np)) ^ (j * k')) := by
  have hmean : ∑ m ∈ range np, Spec.tone np k (i * step + m) = 0 := by
    unfold Spec.tone
    simp only [pow_add]
    rw [← mul_sum, sum_tone np hn k h0 h1, mul_zero]
  unfold Spec.segBin
  rw [hmean, zero_div, mul_sum]
  refine sum_congr rfl fun j _ => ?_
  unfold Spec.tone
  rw [pow_add, sub_zero]; ring

theorem tone_cancel (np k j : ℕ) :
    Spec.tone np k j * Complex.exp (-(2 * Real.pi * Complex.I / np)) ^ (j * k) = 1 := by
  unfold Spec.tone
  rw [Complex.exp_neg, ← pow_mul, mul_comm j k, ← mul_pow, mul_inv_cancel₀ (Complex.exp_ne_zero _), one_pow]

theorem win_sum (c : SpecCfg) : ∑ j ∈ range c.len, (c.win j : ℂ) = ((c.window.sum : ℝ) : ℂ) := by
  rw [← Complex.ofReal_sum]
  congr 1
  unfold SpecCfg.win SpecCfg.len
  generalize c.window = w
  induction w with
  | nil => simp
  | cons a w ih =>
    rw [List.length_cons, sum_range_succ', List.sum_cons, add_comm]
    simp only [List.getD_cons_zero, List.getD_cons_succ, ih]

/-- C145: **a complex tone is measured at its power**: for `x[m] = A·exp(2πi k m/np) + b` with
`0 < k < np`, any number of segments, any overlap and any window, bin `k` of the SPECTRUM is `|A|²`,
and of the DENSITY `|A|²` divided by the equivalent noise bandwidth `fs Σw²/(Σw)²`. -/
theorem C145_tone (hv : c.Valid) (hc : c.Consistent) (hfs : 0 < c.fs) (hw : c.window.sum ≠ 0)
    (k N : ℕ) (h0 : 0 < k) (h1 : k < c.len) (h : c.len ≤ N) (A b : ℂ) :
    ∃ (f p q : List ℝ),
      welch c .spectrum (.cplx ((List.range N).map fun m : ℕ => A * Spec.tone c.len k m + b))
        = .ok (f, p.map Ex.fin) ∧ p[k]? = some (Complex.normSq A) ∧
      welch c .density (.cplx ((List.range N).map fun m : ℕ => A * Spec.tone c.len k m + b))
        = .ok (f, q.map Ex.fin) ∧
      q[k]? = some (Complex.normSq A
        / (c.fs * (c.window.map fun v => v ^ 2).sum / c.window.sum ^ 2)) := by
  have hpos : c.len ≠ 0 := by omega
  set x : Sig := .cplx ((List.range N).map fun m : ℕ => A * Spec.tone c.len k m + b) with hx
  have hsz : x.size = N := by simp [hx, Sig.size]
  have hs2 : 0 < (c.window.map fun v => v ^ 2).sum := by
    have h0 : 0 ≤ (c.window.map fun v => v ^ 2).sum := List.sum_nonneg (by
      intro z hz; obtain ⟨v, _, rfl⟩ := List.mem_map.mp hz; positivity)
    rcases h0.lt_or_eq with h | h
    · exact h
    · exfalso
      have hz : ∀ v ∈ c.window, v = 0 := by
        intro v hv'
        have := List.single_le_sum (l := c.window.map fun v => v ^ 2) (by
          intro z hz; obtain ⟨v, _, rfl⟩ := List.mem_map.mp hz; positivity) (v ^ 2)
            (List.mem_map.mpr ⟨v, hv', rfl⟩)
        rw [← h] at this
        nlinarith [sq_nonneg v, pow_eq_zero_iff (two_ne_zero) |>.mp (le_antisymm this (sq_nonneg v))]
      exact hw (List.sum_eq_zero hz)
  have sc1 : c.scale .spectrum = c.window.sum ^ 2 := hc.s1
  have sc2 : c.scale .density = c.fs * (c.window.map fun v => v ^ 2).sum := by
    simp only [SpecCfg.scale, hc.s2]
  have sp : c.scale .spectrum ≠ 0 := by rw [sc1]; exact pow_ne_zero 2 hw
  have sd : c.scale .density ≠ 0 := by rw [sc2]; positivity
  have hstep : 1 ≤ c.step := by have := hv.step_eq; have := hv.step; omega
  have hat : ∀ i, i < N → x.at i = A * Spec.tone c.len k i + b := by
    intro i hi
    simp [hx, Sig.at, Sig.toC, List.getD_eq_getElem?_getD, hi]
  have hP : Spec.power x.at c.win c.len c.step (Spec.numSegs x.size c.len c.step) k
      = Complex.normSq A * c.window.sum ^ 2 := by
    have hseg : ∀ i, i < Spec.numSegs x.size c.len c.step →
        Complex.normSq (Spec.segBin x.at c.win c.len c.step i k)
          = Complex.normSq A * c.window.sum ^ 2 := by
      intro i hi
      have hfit := (C49_segments_fit x.size c.len c.step hstep (by omega)).2.1 i hi
      rw [segBin_congr x.at (fun m => A * Spec.tone c.len k m + b) c.win c.len c.step i k
          (fun j hj => hat _ (by omega)), segBin_affine _ A b c.win c.len c.step i k hpos,
        segBin_tone c.win c.len c.step i k k hpos h0 h1]
      simp only [tone_cancel, mul_one]
      rw [win_sum, Complex.normSq_mul, Complex.normSq_mul, tone_normSq, Complex.normSq_ofReal]; ring
    have hn1 := numSegs_pos x.size c.len c.step
    have hn : ((Spec.numSegs x.size c.len c.step : ℕ) : ℝ) ≠ 0 := by
      rw [Nat.cast_ne_zero]; omega
    unfold Spec.power
    rw [sum_congr rfl (fun i hi => hseg i (mem_range.mp hi)), sum_const, card_range, nsmul_eq_mul,
      mul_div_cancel_left₀ _ hn]
  obtain ⟨f, e1, _, _⟩ := getFreqs_ok hv hfs x.isC
  have hne : x.size ≠ 0 := by omega
  have hb : x.bins c.len = c.len := by simp [hx, Sig.bins, Sig.isC]
  have hfac : x.factor c.len k = 1 := by simp [hx, Sig.factor, Sig.isC]
  refine ⟨f, (List.range (x.bins c.len)).map fun k : ℕ => x.factor c.len k * Spec.power x.at c.win c.len
      c.step (Spec.numSegs x.size c.len c.step) k / c.scale .spectrum,
    (List.range (x.bins c.len)).map fun k : ℕ => x.factor c.len k * Spec.power x.at c.win c.len
      c.step (Spec.numSegs x.size c.len c.step) k / c.scale .density, ?_, ?_, ?_, ?_⟩
  · unfold welch
    rw [if_neg hne, welchPsd_ok hv _ sp x (by omega), e1, List.map_map]; rfl
  · rw [List.getElem?_map, List.getElem?_range (by omega), Option.map_some, hfac, hP, sc1, one_mul,
      mul_div_cancel_right₀ _ (pow_ne_zero 2 hw)]
  · unfold welch
    rw [if_neg hne, welchPsd_ok hv _ sd x (by omega), e1, List.map_map]; rfl
  · rw [List.getElem?_map, List.getElem?_range (by omega), Option.map_some, hfac, hP, sc2, one_mul]
    congr 1
    have hws := pow_ne_zero 2 hw
    field_simp

/-- C145: **a real tone is measured at its mean square**: for `x[m] = A cos(2π k m/np + φ) + b` with
`0 < 2k < np` and a window without a component at twice the frequency, bin `k` of the one-sided
SPECTRUM is `A²/2`, for every phase, number of segments and overlap. -/
theorem C145_tone_real (hv : c.Valid) (hc : c.Consistent) (hfs : 0 < c.fs) (hw : c.window.sum ≠ 0)
    (k N : ℕ) (h0 : 0 < k) (h1 : 2 * k < c.len) (h : c.len ≤ N) (A φ b : ℝ)
    (hwin : ∑ j ∈ range c.len, (c.win j : ℂ) * Spec.tone c.len (2 * k) j = 0) :
    ∃ (f p : List ℝ),
      welch c .spectrum (.real ((List.range N).map fun m : ℕ =>
          A * Real.cos (2 * Real.pi * k * m / c.len + φ) + b))
        = .ok (f, p.map Ex.fin) ∧ p[k]? = some (A ^ 2 / 2) := by
  have hpos : c.len ≠ 0 := by omega
  have hnc : (c.len : ℂ) ≠ 0 := by exact_mod_cast hpos
  set x : Sig := .real ((List.range N).map fun m : ℕ =>
          A * Real.cos (2 * Real.pi * k * m / c.len + φ) + b) with hx
  have hsz : x.size = N := by simp [hx, Sig.size]
  have sc1 : c.scale .spectrum = c.window.sum ^ 2 := hc.s1
  have sp : c.scale .spectrum ≠ 0 := by rw [sc1]; exact pow_ne_zero 2 hw
  have hstep : 1 ≤ c.step := by have := hv.step_eq; have := hv.step; omega
  -- the two rotating components
  set P : ℂ := (A / 2 : ℝ) * Complex.exp ((φ : ℂ) * Complex.I) with hP
  set Q : ℂ := (A / 2 : ℝ) * Complex.exp (-((φ : ℂ) * Complex.I)) with hQ
  have htone : ∀ m : ℕ, Spec.tone c.len k m = Complex.exp ((2 * Real.pi * k * m / c.len : ℝ) * Complex.I) := by
    intro m
    unfold Spec.tone
    rw [← pow_mul, ← Complex.exp_nat_mul]
    congr 1; push_cast; field_simp
  have htone' : ∀ m : ℕ, Spec.tone c.len (c.len - k) m
      = Complex.exp (-((2 * Real.pi * k * m / c.len : ℝ) * Complex.I)) := by
    intro m
    have e : Spec.tone c.len (c.len - k) m * Spec.tone c.len k m = 1 := by
      unfold Spec.tone
      rw [← mul_pow, ← pow_add, Nat.sub_add_cancel (by omega),
        (Complex.isPrimitiveRoot_exp c.len hpos).pow_eq_one, one_pow]
    rw [htone m] at e
    rw [Complex.exp_neg]
    exact eq_inv_of_mul_eq_one_left e
  have hcos : ∀ m : ℕ, ((A * Real.cos (2 * Real.pi * k * m / c.len + φ) + b : ℝ) : ℂ)
      = P * Spec.tone c.len k m + (Q * Spec.tone c.len (c.len - k) m + b) := by
    intro m
    rw [htone, htone', hP, hQ, Complex.ofReal_add, Complex.ofReal_mul, Complex.ofReal_cos,
      Complex.cos]
    have e1 : Complex.exp (((2 * Real.pi * k * m / c.len + φ : ℝ) : ℂ) * Complex.I)
        = Complex.exp ((φ : ℂ) * Complex.I) * Complex.exp ((2 * Real.pi * k * m / c.len : ℝ) * Complex.I) := by
      rw [← Complex.exp_add]; congr 1; push_cast; ring
    have e2 : Complex.exp (-((2 * Real.pi * k * m / c.len + φ : ℝ) : ℂ) * Complex.I)
        = Complex.exp (-((φ : ℂ) * Complex.I))
          * Complex.exp (-((2 * Real.pi * k * m / c.len : ℝ) * Complex.I)) := by
      rw [← Complex.exp_add]; congr 1; push_cast; ring
    rw [e1, e2]; push_cast; ring
  have hat : ∀ i, i < N → x.at i = P * Spec.tone c.len k i + (Q * Spec.tone c.len (c.len - k) i + b) := by
    intro i hi
    rw [← hcos]
    simp [hx, Sig.at, Sig.toC, List.getD_eq_getElem?_getD, hi]
  have hother : ∑ j ∈ range c.len, (c.win j : ℂ) * (Spec.tone c.len (c.len - k) j
      * Complex.exp (-(2 * Real.pi * Complex.I / c.len)) ^ (j * k)) = 0 := by
    have := congrArg (starRingEnd ℂ) hwin
    rw [map_sum, map_zero] at this
    rw [← this]
    refine sum_congr rfl fun j _ => ?_
    rw [map_mul, Complex.conj_ofReal]
    congr 1
    rw [htone' j]
    unfold Spec.tone
    rw [← pow_mul, map_pow, ← Complex.exp_conj, ← Complex.exp_nat_mul, ← Complex.exp_nat_mul,
      ← Complex.exp_add]
    congr 1
    simp only [map_div₀, map_mul, Complex.conj_ofReal, Complex.conj_I, map_ofNat, map_natCast]
    push_cast
    field_simp
    ring
  have hPw : Spec.power x.at c.win c.len c.step (Spec.numSegs x.size c.len c.step) k
      = A ^ 2 / 4 * c.window.sum ^ 2 := by
    have hseg : ∀ i, i < Spec.numSegs x.size c.len c.step →
        Complex.normSq (Spec.segBin x.at c.win c.len c.step i k) = A ^ 2 / 4 * c.window.sum ^ 2 := by
      intro i hi
      have hfit := (C49_segments_fit x.size c.len c.step hstep (by omega)).2.1 i hi
      have hQb : Spec.segBin (fun m => Q * Spec.tone c.len (c.len - k) m + b) c.win c.len c.step i k = 0 := by
        rw [segBin_affine _ Q b c.win c.len c.step i k hpos,
          segBin_tone c.win c.len c.step i (c.len - k) k hpos (by omega) (by omega), hother]
        ring
      have hPb : Spec.segBin (fun m => P * Spec.tone c.len k m) c.win c.len c.step i k
          = P * (Spec.tone c.len k (i * c.step) * ((c.window.sum : ℝ) : ℂ)) := by
        rw [C51_scaled_signal, segBin_tone c.win c.len c.step i k k hpos h0 (by omega)]
        simp only [tone_cancel, mul_one]
        rw [win_sum]
      rw [segBin_congr x.at (fun m => P * Spec.tone c.len k m + (Q * Spec.tone c.len (c.len - k) m + b))
          c.win c.len c.step i k (fun j hj => hat _ (by omega)),
        segBin_add (fun m => P * Spec.tone c.len k m) (fun m => Q * Spec.tone c.len (c.len - k) m + b),
        hQb, hPb, add_zero, Complex.normSq_mul P, Complex.normSq_mul (Spec.tone _ _ _), tone_normSq,
        Complex.normSq_ofReal]
      have hPn : Complex.normSq P = A ^ 2 / 4 := by
        rw [hP, Complex.normSq_mul, Complex.normSq_ofReal, Complex.normSq_eq_norm_sq,
          Complex.norm_exp_ofReal_mul_I]
        ring
      rw [hPn]; ring
    have hn1 := numSegs_pos x.size c.len c.step
    have hn : ((Spec.numSegs x.size c.len c.step : ℕ) : ℝ) ≠ 0 := by
      rw [Nat.cast_ne_zero]; omega
    unfold Spec.power
    rw [sum_congr rfl (fun i hi => hseg i (mem_range.mp hi)), sum_const, card_range, nsmul_eq_mul,
      mul_div_cancel_left₀ _ hn]
  obtain ⟨f, e1, _, _⟩ := getFreqs_ok hv hfs x.isC
  have hne : x.size ≠ 0 := by omega
  have hb : x.bins c.len = c.len / 2 + 1 := by simp [hx, Sig.bins, Sig.isC]
  have hfac : x.factor c.len k = 2 := by
    simp only [hx, Sig.factor, Sig.isC, Bool.false_eq_true, if_false, Spec.sideFactor]
    rw [if_neg (by omega)]
  refine ⟨f, (List.range (x.bins c.len)).map fun k : ℕ => x.factor c.len k * Spec.power x.at c.win c.len
      c.step (Spec.numSegs x.size c.len c.step) k / c.scale .spectrum, ?_, ?_⟩
  · unfold welch
    rw [if_neg hne, welchPsd_ok hv _ sp x (by omega), e1, List.map_map]; rfl
  · rw [List.getElem?_map, List.getElem?_range (by omega), Option.map_some, hfac, hPw, sc1]
    congr 1
    have hws := pow_ne_zero 2 hw
    field_simp
    ring

/-- The hypotheses of the tone theorems hold for rectangular windows (segments of any `n ≥ 3` points
without overlap) and every `0 < k < n/2`. -/
example (n k : ℕ) (h0 : 0 < k) (h1 : 2 * k < n) :
    (rectCfg n 0).Valid ∧ (rectCfg n 0).Consistent ∧ 0 < (rectCfg n 0).fs ∧
      (rectCfg n 0).window.sum ≠ 0 ∧ (rectCfg n 0).len = n ∧
      ∑ j ∈ range (rectCfg n 0).len, ((rectCfg n 0).win j : ℂ) * Spec.tone (rectCfg n 0).len (2 * k) j
        = 0 := by
  have hl : (rectCfg n 0).len = n := by simp [SpecCfg.len, rectCfg]
  have hl' : (rectCfg n 0).window.length = n := hl
  have hn : (n : ℝ) ≠ 0 := by rw [Nat.cast_ne_zero]; omega
  refine ⟨⟨?_, by omega, ?_⟩, ⟨?_, ?_, ?_, ?_, ?_⟩, ?_, ?_, hl, ?_⟩
  · rw [hl']; rfl
  · change (0 : ℤ) < (n : ℤ); omega
  · rw [hl']; rfl
  · simp [rectCfg, sq]
  · simp [rectCfg]
  · change (0 : ℤ) ≤ (n : ℤ); omega
  · simp [rectCfg]
  · simp [rectCfg]
  · simpa [rectCfg] using hn
  · rw [hl, ← sum_tone n (by omega) (2 * k) (by omega) h1]
    refine sum_congr rfl fun j hj => ?_
    have hj' := mem_range.mp hj
    simp [SpecCfg.win, rectCfg, List.getD_eq_getElem?_getD, hj', Spec.tone]

example : (Sig.real [1, 2, 3]).Fits 2 5 ∧ (Sig.cplx [1, 2, 3]).Fits Complex.I 5 ∧
    (Sig.real [1, 2, 3]).aff 2 5 = .real [2 * 1 + 5, 2 * 2 + 5, 2 * 3 + 5] ∧
    (Sig.real [1, 2]).plus (.real [3, 4]) = .real [1 + 3, 2 + 4] := by
  refine ⟨.inr ⟨rfl, rfl⟩, .inl rfl, ?_, rfl⟩
  simp [Sig.aff]

end SciCpp
