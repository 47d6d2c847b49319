import Verif.Proofs.SpectralF
import Verif.Proofs.F64
import Verif.Props.Threads
import Verif.Proofs.FloatScale
import Verif.Props.Rounding
/-
  Property theorems C118: spectra in floating point.

  Arithmetic: `RFl rnd`, any rounding with relative error at most `u < 1` (binary64: `u = 2^-53`), no overflow or underflow.
  The transforms are arbitrary functions.
-/
namespace SciCpp
open Finset Spec

/-! ### Specification: exact spectra of given transforms -/

/-- The mean of `|X_i|²` over the first `n` segments, bin `k`; `X i k` is the transform of segment `i`. -/
def Spec.psd (X : ℕ → ℕ → ℚ × ℚ) (n k : ℕ) : ℚ := (∑ i ∈ range n, ((X i k).1 ^ 2 + (X i k).2 ^ 2)) / n

/-- The real part of the mean of `conj X_i · Y_i`. -/
def Spec.csdRe (X Y : ℕ → ℕ → ℚ × ℚ) (n k : ℕ) : ℚ :=
  (∑ i ∈ range n, ((X i k).1 * (Y i k).1 + (X i k).2 * (Y i k).2)) / n

/-- The imaginary part of the mean of `conj X_i · Y_i`. -/
def Spec.csdIm (X Y : ℕ → ℕ → ℚ × ℚ) (n k : ℕ) : ℚ :=
  (∑ i ∈ range n, ((X i k).1 * (Y i k).2 - (X i k).2 * (Y i k).1)) / n

/-- The coherence `|Pxy|² / (Pxx Pyy)`. -/
def Spec.coh (X Y : ℕ → ℕ → ℚ × ℚ) (n k : ℕ) : ℚ :=
  (csdRe X Y n k ^ 2 + csdIm X Y n k ^ 2) / (psd X n k * psd Y n k)

/-- Bins that are counted twice: those of a real signal that have a mirror image. -/
def Spec.side (real : Bool) (np k : ℕ) : ℚ := if real = true ∧ k ≠ 0 ∧ 2 * k ≠ np then 2 else 1

/-- Number of bins of a window of `np` points. -/
def Spec.nbins (real : Bool) (np : ℕ) : ℕ := if real then np / 2 + 1 else np

section
variable {rnd : ℚ → ℚ} {u : ℚ}

/-- Is the signal real? -/
def SigK.isReal {K : Type} : SigK K → Bool
  | .real _ => true
  | .cplx _ => false

/-- A configured object: the segments have the length of the window and overlap partially. -/
structure Spec.CfgOk {K : Type} (c : SpecCfgK K) (np step : ℕ) : Prop where
  win : c.window.length = np
  nper : c.nperseg = np
  pos : 1 ≤ np
  hstep : c.nperseg - c.noverlap = step
  step_pos : 1 ≤ step

/-- `X i k` is the `k`-th number returned by the transform of segment `i`, for all `n` segments. -/
def Spec.Transforms (lib : SpecLib (RFl rnd)) (c : SpecCfgK (RFl rnd)) (x : SigK (RFl rnd)) (np n : ℕ) (X : ℕ → ℕ → ℚ × ℚ) : Prop :=
  ∀ i : ℕ, i < n → segK lib c x.isReal x i =
    .ok ((List.range (nbins x.isReal np)).map fun k => ⟨RFl.fin (X i k).1, RFl.fin (X i k).2⟩)

/-- The divisor of the scaling. -/
def Spec.divisor (s : Scaling) (fs s1 s2 : ℚ) : ℚ :=
  match s with
  | .none => 1
  | .density => fs * s2
  | .spectrum => s1

theorem numSegsK_ok (c : SpecCfgK (RFl rnd)) {np step : ℕ} (hc : CfgOk c np step) (N : ℕ) (h : np ≤ N) :
    numSegsK c N = .ok ((Spec.numSegs N np step : ℕ) : ℤ) := by
  unfold numSegsK Spec.numSegs
  have h1 := hc.step_pos
  simp only [hc.hstep]
  rw [if_neg (by omega), hc.nper]
  congr 1
  rw [show (N : ℤ) - (np : ℤ) = ((N - np : ℕ) : ℤ) by omega]
  rw [Int.tdiv_eq_ediv_of_nonneg (by omega)]
  push_cast
  ring

theorem toNat_nper {c : SpecCfgK (RFl rnd)} {np step : ℕ} (hc : CfgOk c np step) : c.nperseg.toNat = np := by
  rw [hc.nper]; rfl

/-- The list returned by `welch` for given transforms. -/
theorem welchK_eq (lib : SpecLib (RFl rnd)) (c : SpecCfgK (RFl rnd)) {np step : ℕ} (hc : CfgOk c np step) (x : SigK (RFl rnd))
    (hx : np ≤ x.size) (X : ℕ → ℕ → ℚ × ℚ) (hX : Transforms lib c x np (Spec.numSegs x.size np step) X) (ord : List ℕ)
    (hord : ∀ i ∈ ord, i < Spec.numSegs x.size np step) (s : Scaling) :
    welchK lib c ord s x = .ok (scaleSpecK (· / ·) c s ((List.range (nbins x.isReal np)).map fun k =>
      let v := ord.foldl (fun acc i => acc + CK.norm ⟨RFl.fin (X i k).1, RFl.fin (X i k).2⟩) (0 : RFl rnd) /
        CppNum.ofInt ((Spec.numSegs x.size np step : ℕ) : ℤ)
      if x.isReal = true then
        (if k = 0 ∨ 2 * k = np then v * CppNum.ofInt 2 * halfK else v * CppNum.ofInt 2) else v)) := by
  have hpos := hc.pos
  unfold welchK
  rw [if_neg (by omega)]
  have key : ∀ one nfft, one = x.isReal → nfft = nbins x.isReal np → welchImplK lib c one ord nfft x =
      .ok ((List.range nfft).map fun k =>
        ord.foldl (fun acc i => acc + CK.norm ⟨RFl.fin (X i k).1, RFl.fin (X i k).2⟩) (0 : RFl rnd) /
        CppNum.ofInt ((Spec.numSegs x.size np step : ℕ) : ℤ)) := by
    rintro one nfft rfl rfl
    unfold welchImplK
    rw [numSegsK_ok c hc _ hx]
    simp only [Res.bind_ok]
    refine computeSpectrumK_ok _ _ _ _ _ (fun i k => CK.norm ⟨RFl.fin (X i k).1, RFl.fin (X i k).2⟩) fun i hi => ?_
    rw [hX i (hord i hi)]
    simp only [Res.bind_ok, Res.pure_eq, List.map_map]
    rfl
  cases x with
  | real x =>
    simp only
    rw [key true _ rfl (by rw [toNat_nper hc]; rfl)]
    simp only [Res.bind_ok]
    rw [toNat_nper hc, foldSidesK_ok _ _ c np hpos hc.nper]
    simp only [Res.bind_ok, Res.pure_eq, SigK.isReal, nbins, if_true]
  | cplx x =>
    simp only
    rw [key false _ rfl (by rw [toNat_nper hc]; rfl)]
    simp only [Res.bind_ok, Res.pure_eq, SigK.isReal, nbins, toNat_nper hc, Bool.false_eq_true, if_false]

theorem csdSameK_eq (lib : SpecLib (RFl rnd)) (c : SpecCfgK (RFl rnd)) {np step : ℕ} (hc : CfgOk c np step) (x y : SigK (RFl rnd))
    (hx : np ≤ x.size) (hl : x.size = y.size) (ht : x.isReal = y.isReal) (X Y : ℕ → ℕ → ℚ × ℚ)
    (hX : Transforms lib c x np (Spec.numSegs x.size np step) X) (hY : Transforms lib c y np (Spec.numSegs x.size np step) Y)
    (ord : List ℕ) (hord : ∀ i ∈ ord, i < Spec.numSegs x.size np step) (s : Scaling) :
    csdK lib c ord s x y = .ok (scaleSpecK CK.divR c s ((List.range (nbins x.isReal np)).map fun k =>
      let v := (ord.foldl (fun acc i => acc + CK.conj ⟨RFl.fin (X i k).1, RFl.fin (X i k).2⟩ *
          (⟨RFl.fin (Y i k).1, RFl.fin (Y i k).2⟩ : CK (RFl rnd))) 0).divR
        (CppNum.ofInt ((Spec.numSegs x.size np step : ℕ) : ℤ))
      if x.isReal = true then
        (if k = 0 ∨ 2 * k = np then (v.mulR (CppNum.ofInt 2)).mulR halfK else v.mulR (CppNum.ofInt 2)) else v)) := by
  have hpos := hc.pos
  unfold csdK
  rw [if_neg (by omega), if_pos hl]
  have key : ∀ one nfft, one = x.isReal → nfft = nbins x.isReal np → welch2ImplK lib c one ord nfft x y =
      .ok ((List.range nfft).map fun k =>
        (ord.foldl (fun acc i => acc + CK.conj ⟨RFl.fin (X i k).1, RFl.fin (X i k).2⟩ *
          (⟨RFl.fin (Y i k).1, RFl.fin (Y i k).2⟩ : CK (RFl rnd))) 0).divR
        (CppNum.ofInt ((Spec.numSegs x.size np step : ℕ) : ℤ))) := by
    rintro one nfft rfl rfl
    unfold welch2ImplK
    rw [numSegsK_ok c hc _ hx, hl]
    simp only [Res.bind_ok, beq_self_eq_true, require_true]
    refine computeSpectrumK_ok _ _ _ _ _ (fun i k => CK.conj ⟨RFl.fin (X i k).1, RFl.fin (X i k).2⟩ *
          (⟨RFl.fin (Y i k).1, RFl.fin (Y i k).2⟩ : CK (RFl rnd))) fun i hi => ?_
    have h2 := hY i (hord i hi)
    rw [← ht] at h2
    rw [hX i (hord i hi), h2]
    simp only [Res.bind_ok, List.map_map]
    rw [mulLists_map_range]
    rfl
  cases x with
  | real x =>
    cases y with
    | real y =>
      unfold csdSameK
      simp only
      rw [key true _ rfl (by rw [toNat_nper hc]; rfl)]
      simp only [Res.bind_ok]
      rw [toNat_nper hc, foldSidesK_ok _ _ c np hpos hc.nper]
      simp only [Res.bind_ok, Res.pure_eq, SigK.isReal, nbins, if_true]
    | cplx y => cases ht
  | cplx x =>
    cases y with
    | real y => cases ht
    | cplx y =>
      unfold csdSameK
      simp only
      rw [key false _ rfl (by rw [toNat_nper hc]; rfl)]
      simp only [Res.bind_ok, Res.pure_eq, SigK.isReal, nbins, toNat_nper hc, Bool.false_eq_true, if_false]


/-- Small integers and one half are represented exactly. -/
structure Spec.Exact (rnd : ℚ → ℚ) (n : ℕ) : Prop where
  one : rnd 1 = 1
  two : rnd 2 = 2
  half : rnd (1 / 2) = 1 / 2
  count : rnd n = n

section err
variable (hu : 0 ≤ u) (hu1 : u < 1) (hr : ∀ x, |rnd x - x| ≤ u * |x|)
include hu hu1 hr

omit hu hu1 hr in
theorem ord_sum {ord : List ℕ} {n : ℕ} (h : ord.Perm (List.range n)) (e : ℕ → ℚ) : (ord.map e).sum = ∑ i ∈ range n, e i := by
  rw [(h.map e).sum_eq]; rfl

omit hu hu1 hr in
theorem halfK_fin {n : ℕ} (hE : Exact rnd n) : (halfK : RFl rnd) = RFl.fin (1 / 2) := by
  unfold halfK
  rw [RFl.ofInt_def, RFl.ofInt_def]
  norm_num only [Int.cast_one, Int.cast_ofNat]
  rw [hE.one, hE.two, RFl.div_fin (by norm_num), hE.half]

omit hu hu1 hr in
theorem two_fin {n : ℕ} (hE : Exact rnd n) : (CppNum.ofInt 2 : RFl rnd) = RFl.fin 2 := by
  rw [RFl.ofInt_def]; norm_num only [Int.cast_ofNat]; rw [hE.two]

omit hu hu1 hr in
theorem count_fin {n : ℕ} (hE : Exact rnd n) : (CppNum.ofInt (n : ℤ) : RFl rnd) = RFl.fin n := by
  rw [RFl.ofInt_def, Int.cast_natCast, hE.count]

/-- One bin of a power spectrum before scaling. -/
theorem psd_rel {n : ℕ} (hn : 1 ≤ n) (hE : Exact rnd n) {ord : List ℕ} (hord : ord.Perm (List.range n)) (X : ℕ → ℕ → ℚ × ℚ)
    (real : Bool) (np k : ℕ) :
    Rel u (n + 5) (side real np k * psd X n k)
      (let v := ord.foldl (fun acc i => acc + CK.norm ⟨RFl.fin (X i k).1, RFl.fin (X i k).2⟩) (0 : RFl rnd) / CppNum.ofInt (n : ℤ)
       if real = true then (if k = 0 ∨ 2 * k = np then v * CppNum.ofInt 2 * halfK else v * CppNum.ofInt 2) else v) := by
  have hn0 : (n : ℚ) ≠ 0 := by exact_mod_cast (by omega : n ≠ 0)
  have hnorm : ∀ i, Rel u 2 ((X i k).1 ^ 2 + (X i k).2 ^ 2)
      (CK.norm ⟨RFl.fin (X i k).1, RFl.fin (X i k).2⟩ : RFl rnd) := by
    intro i
    rw [pow_two, pow_two]
    exact Rel.add hu hu1 hr (mul_self_nonneg _) (mul_self_nonneg _) (Rel.mul hu1 hr (Rel.exact _) (Rel.exact _))
      (Rel.mul hu1 hr (Rel.exact _) (Rel.exact _))
  have hsum := Rel.foldl_add hu hu1 hr ord (fun i => (CK.norm ⟨RFl.fin (X i k).1, RFl.fin (X i k).2⟩ : RFl rnd))
    (fun i => (X i k).1 ^ 2 + (X i k).2 ^ 2) 2 (fun i _ => ⟨by positivity, hnorm i⟩) 0 0 le_rfl
    ((Rel.exact (rnd := rnd) 0).mono hu hu1 (by omega))
  rw [ord_sum hord, zero_add, hord.length_eq, List.length_range] at hsum
  have hdiv := Rel.div hu1 hr hn0 hsum (Rel.exact (n : ℚ))
  rw [← count_fin hE] at hdiv
  have h2 := Rel.mul hu1 hr hdiv (Rel.exact 2)
  have h3 := Rel.mul hu1 hr h2 (Rel.exact (1 / 2))
  rw [← two_fin hE] at h2 h3
  rw [← halfK_fin hE] at h3
  unfold side psd
  cases real with
  | false =>
    simp only [Bool.false_eq_true, if_false, false_and, one_mul]
    exact hdiv.mono hu hu1 (by omega)
  | true =>
    simp only [if_true, true_and]
    by_cases hk : k = 0 ∨ 2 * k = np
    · rw [if_pos hk, if_neg (by tauto), one_mul]
      rw [mul_assoc, show (2 : ℚ) * (1 / 2) = 1 by norm_num, mul_one] at h3
      exact h3.mono hu hu1 (by omega)
    · rw [if_neg hk, if_pos (by tauto), mul_comm (2 : ℚ)]
      exact h2.mono hu hu1 (by omega)

omit hu hu1 hr in
theorem ck_foldl_re (z : ℕ → CK (RFl rnd)) (l : List ℕ) : ∀ w : CK (RFl rnd),
    (l.foldl (fun acc i => acc + z i) w).re = l.foldl (fun acc i => acc + (z i).re) w.re := by
  induction l with
  | nil => intro w; rfl
  | cons i l ih => intro w; simp only [List.foldl_cons]; exact ih (w + z i)

omit hu hu1 hr in
theorem ck_foldl_im (z : ℕ → CK (RFl rnd)) (l : List ℕ) : ∀ w : CK (RFl rnd),
    (l.foldl (fun acc i => acc + z i) w).im = l.foldl (fun acc i => acc + (z i).im) w.im := by
  induction l with
  | nil => intro w; rfl
  | cons i l ih => intro w; simp only [List.foldl_cons]; exact ih (w + z i)

omit hu hu1 hr in
theorem ck_fold_re (v : CK (RFl rnd)) (a b : RFl rnd) (p q : Prop) [Decidable p] [Decidable q] :
    (if p then (if q then (v.mulR a).mulR b else v.mulR a) else v).re =
      if p then (if q then v.re * a * b else v.re * a) else v.re := by
  split_ifs <;> rfl

omit hu hu1 hr in
theorem ck_fold_im (v : CK (RFl rnd)) (a b : RFl rnd) (p q : Prop) [Decidable p] [Decidable q] :
    (if p then (if q then (v.mulR a).mulR b else v.mulR a) else v).im =
      if p then (if q then v.im * a * b else v.im * a) else v.im := by
  split_ifs <;> rfl

omit hu hu1 hr in
theorem ck_cross_re (a b c d : ℚ) : (CK.conj ⟨RFl.fin a, RFl.fin b⟩ * (⟨RFl.fin c, RFl.fin d⟩ : CK (RFl rnd))).re =
    RFl.fin a * RFl.fin c - RFl.fin (-b) * RFl.fin d := rfl

omit hu hu1 hr in
theorem ck_cross_im (a b c d : ℚ) : (CK.conj ⟨RFl.fin a, RFl.fin b⟩ * (⟨RFl.fin c, RFl.fin d⟩ : CK (RFl rnd))).im =
    RFl.fin a * RFl.fin d + RFl.fin (-b) * RFl.fin c := rfl

omit hu1 in
theorem spec_mean_approx {n : ℕ} (hn : 1 ≤ n) (hE : Exact rnd n) {ord : List ℕ} (hord : ord.Perm (List.range n))
    (v : ℕ → RFl rnd) (e A : ℕ → ℚ) (h : ∀ i, Approx u 2 (e i) (A i) (v i)) :
    Approx u (n + 3) ((∑ i ∈ range n, e i) / n) ((∑ i ∈ range n, A i) / n)
      (ord.foldl (fun acc i => acc + v i) (RFl.fin 0) / CppNum.ofInt (n : ℤ)) := by
  have hn0 : (0 : ℚ) < (n : ℚ) := by exact_mod_cast (by omega : 0 < n)
  have h1 := Approx.foldl_add hu hr ord v e A 2 (fun i _ => h i) (RFl.fin 0) 0 0 (Approx.exact hu 2 0 0 (by simp))
  rw [ord_sum hord, ord_sum hord, zero_add, zero_add, hord.length_eq, List.length_range] at h1
  have h2 := Approx.div hu hr hn0 h1
  rw [← count_fin hE] at h2
  exact h2.mono hu (by omega) le_rfl

theorem side_dev {n : ℕ} (hE : Exact rnd n) (real : Bool) (np k : ℕ) {m : ℕ} (v : RFl rnd) (e A : ℚ) (h : Approx u m e A v) :
    Dev u (m + 2) (side real np k * e) (side real np k * A)
      (if real = true then (if k = 0 ∨ 2 * k = np then v * CppNum.ofInt 2 * halfK else v * CppNum.ofInt 2) else v) := by
  have h2 := Approx.mul hu hr h (Approx.exact hu 0 2 2 (by norm_num))
  have h3 := Approx.mul hu hr h2 (Approx.exact hu 0 (1 / 2) (1 / 2) (by norm_num))
  rw [← two_fin hE] at h2 h3
  rw [← halfK_fin hE] at h3
  unfold side
  cases real with
  | false =>
    simp only [Bool.false_eq_true, if_false, false_and, one_mul]
    exact (h.mono hu (by omega) le_rfl).dev hu hu1
  | true =>
    simp only [if_true, true_and]
    by_cases hk : k = 0 ∨ 2 * k = np
    · rw [if_pos hk, if_neg (by tauto), one_mul, one_mul]
      rw [mul_assoc, show (2 : ℚ) * (1 / 2) = 1 by norm_num, mul_one, mul_assoc, show (2 : ℚ) * (1 / 2) = 1 by norm_num,
        mul_one] at h3
      exact (h3.mono hu (by omega) le_rfl).dev hu hu1
    · rw [if_neg hk, if_pos (by tauto), mul_comm (2 : ℚ), mul_comm (2 : ℚ)]
      exact (h2.mono hu (by omega) le_rfl).dev hu hu1

/-- One bin of a cross spectrum before scaling. -/
theorem csd_dev {n : ℕ} (hn : 1 ≤ n) (hE : Exact rnd n) {ord : List ℕ} (hord : ord.Perm (List.range n)) (X Y : ℕ → ℕ → ℚ × ℚ)
    (real : Bool) (np k : ℕ) (v w : CK (RFl rnd))
    (hv : v = (ord.foldl (fun acc i => acc + CK.conj ⟨RFl.fin (X i k).1, RFl.fin (X i k).2⟩ *
          (⟨RFl.fin (Y i k).1, RFl.fin (Y i k).2⟩ : CK (RFl rnd))) 0).divR (CppNum.ofInt (n : ℤ)))
    (hw : w = if real = true then (if k = 0 ∨ 2 * k = np then (v.mulR (CppNum.ofInt 2)).mulR halfK else v.mulR (CppNum.ofInt 2))
      else v) :
    Dev u (n + 5) (side real np k * csdRe X Y n k)
        (side real np k * ((∑ i ∈ range n, (|(X i k).1| * |(Y i k).1| + |(X i k).2| * |(Y i k).2|)) / n)) w.re ∧
      Dev u (n + 5) (side real np k * csdIm X Y n k)
        (side real np k * ((∑ i ∈ range n, (|(X i k).1| * |(Y i k).2| + |(X i k).2| * |(Y i k).1|)) / n)) w.im := by
  have h1 : v.re = ord.foldl (fun acc i => acc +
      (RFl.fin (X i k).1 * RFl.fin (Y i k).1 - RFl.fin (-(X i k).2) * RFl.fin (Y i k).2)) (RFl.fin 0) / CppNum.ofInt (n : ℤ) := by
    rw [hv]
    exact congrArg (· / (CppNum.ofInt (n : ℤ) : RFl rnd)) (ck_foldl_re _ ord 0)
  have h2 : v.im = ord.foldl (fun acc i => acc +
      (RFl.fin (X i k).1 * RFl.fin (Y i k).2 + RFl.fin (-(X i k).2) * RFl.fin (Y i k).1)) (RFl.fin 0) / CppNum.ofInt (n : ℤ) := by
    rw [hv]
    exact congrArg (· / (CppNum.ofInt (n : ℤ) : RFl rnd)) (ck_foldl_im _ ord 0)
  refine ⟨?_, ?_⟩
  · rw [hw, ck_fold_re, h1]
    exact side_dev hu hu1 hr hE real np k _ _ _
      (spec_mean_approx hu hr hn hE hord _ _ _ fun i => cross_re_approx hu hr _ _ _ _)
  · rw [hw, ck_fold_im, h2]
    exact side_dev hu hu1 hr hE real np k _ _ _
      (spec_mean_approx hu hr hn hE hord _ _ _ fun i => cross_im_approx hu hr _ _ _ _)

omit hu in
theorem divisor_rel (c : SpecCfgK (RFl rnd)) {fs s1 s2 : ℚ} (h1 : c.fs = RFl.fin fs) (h2 : c.s1 = RFl.fin s1)
    (h3 : c.s2 = RFl.fin s2) : Rel u 1 (fs * s2) (c.fs * c.s2) ∧ Rel u 0 s1 c.s1 := by
  rw [h1, h2, h3]
  exact ⟨Rel.mul hu1 hr (Rel.exact fs) (Rel.exact s2), Rel.exact s1⟩

omit hu hu1 hr in
theorem psd_nonneg (X : ℕ → ℕ → ℚ × ℚ) (n k : ℕ) : 0 ≤ psd X n k := by
  unfold psd
  exact div_nonneg (sum_nonneg fun i _ => by positivity) (by positivity)

omit hu hu1 hr in
theorem side_pos (real : Bool) (np k : ℕ) : 0 < side real np k := by
  unfold side; split_ifs <;> norm_num

/-- The number of bins and the values of a list. -/
def Spec.Bins {A : Type} (l : List A) (m : ℕ) (P : ℕ → A → Prop) : Prop :=
  l.length = m ∧ ∀ k < m, ∃ v, l[k]? = some v ∧ P k v

omit hu hu1 hr in
theorem bins_map {A : Type} (m : ℕ) (g : ℕ → A) (P : ℕ → A → Prop) (h : ∀ k < m, P k (g k)) :
    Bins ((List.range m).map g) m P := by
  refine ⟨by simp, fun k hk => ⟨g k, ?_, h k hk⟩⟩
  simp [List.getElem?_range hk]

omit hu1 in
/-- C118, what is transformed: segment `i` of a real signal consists of the samples `i·step, …, i·step + np - 1`, minus their mean, times the window, each
product within `(1+u)^(67+⌈log₂ np⌉) - 1` times `(|x| + mean|x|)·|w|` of its exact value. -/
theorem C118_segment (lib : SpecLib (RFl rnd)) (c : SpecCfgK (RFl rnd)) {np step : ℕ} (hc : CfgOk c np step) (x w : List ℚ)
    (hw : c.window = w.map RFl.fin) (hnp : np < 2 ^ 31) (hE : rnd np = np) (i : ℕ) (hi : i * step + np ≤ x.length) (oneSided : Bool) :
    ∃ s : List (RFl rnd), segK lib c oneSided (.real (x.map RFl.fin)) i =
        .ok (if oneSided = true then lib.rfft s else lib.fft (s.map fun v => ⟨v, 0⟩)) ∧
      s.length = np ∧ ∀ k, k < np → ∃ q, s[k]? = some (RFl.fin q) ∧
        |q - (x.getD (i * step + k) 0 - (∑ j ∈ range np, x.getD (i * step + j) 0) / np) * w.getD k 0| ≤
          ((1 + u) ^ (67 + Nat.clog 2 np) - 1) *
            ((|x.getD (i * step + k) 0| + (∑ j ∈ range np, |x.getD (i * step + j) 0|) / np) * |w.getD k 0|) := by
  have hpos := hc.pos
  have hwl : w.length = np := by have := hc.win; rw [hw, List.length_map] at this; exact this
  set seg : List ℚ := (x.drop (i * step)).take np with hseg
  have hsl : seg.length = np := by rw [hseg, List.length_take, List.length_drop]; omega
  have hget : ∀ j, j < np → seg.getD j 0 = x.getD (i * step + j) 0 := by
    intro j hj
    rw [hseg, List.getD_eq_getElem?_getD, List.getD_eq_getElem?_getD, List.getElem?_take_of_lt hj, List.getElem?_drop]
  have hsumG : ∀ g : ℚ → ℚ, (seg.map g).sum = ∑ j ∈ range np, g (x.getD (i * step + j) 0) := by
    intro g
    have e : seg.map g = (List.range np).map fun j => g (x.getD (i * step + j) 0) := by
      apply List.ext_getElem
      · simp [hsl]
      · intro j h1 h2
        have hj : j < np := by simpa using h2
        rw [List.getElem_map, List.getElem_map, List.getElem_range, ← hget j hj, getD_of_lt _ _ (by rw [hsl]; exact hj)]
    rw [e, ← List.sum_toFinset _ List.nodup_range, List.toFinset_range]
  have hsv : subvector (x.map (RFl.fin (rnd := rnd))) c.nperseg ((i : ℤ) * (c.nperseg - c.noverlap)) = .ok (seg.map RFl.fin) := by
    unfold subvector
    simp only [hc.hstep]
    rw [hc.nper, List.length_map, show min (np : ℤ) (x.length : ℤ) = np by omega,
      show (i : ℤ) * (step : ℤ) = ((i * step : ℕ) : ℤ) by push_cast; ring,
      show ((i * step : ℕ) : ℤ) + (np : ℤ) = ((i * step + np : ℕ) : ℤ) by push_cast; ring,
      subrange_ok _ _ _ (by omega) (by rw [List.length_map]; omega)]
    rw [hseg, List.map_take, List.map_drop, show i * step + np - i * step = np by omega]
  have hm : Approx u (65 + Nat.clog 2 np) (seg.sum / np) ((seg.map abs).sum / np) (mean (seg.map (RFl.fin (rnd := rnd))) fun _ => true) := by
    have := mean_approx hu hr (seg.map (RFl.fin (rnd := rnd))) (fun _ => true) seg (by simp)
      (by rw [← List.length_pos_iff, hsl]; omega) (by rw [hsl]; exact hnp) (by rw [hsl]; exact hE)
    rw [List.length_map, hsl] at this
    unfold meanL at this
    rw [hsl] at this
    exact this
  refine ⟨List.zipWith (· * ·) ((seg.map RFl.fin).map (· - mean (seg.map (RFl.fin (rnd := rnd))) fun _ => true)) (w.map RFl.fin), ?_, ?_, ?_⟩
  · unfold segK
    simp only [hsv, Res.bind_ok, hw, mulLists, List.length_map, hsl, hwl, beq_self_eq_true, require_true, Res.pure_eq]
  · simp [hsl, hwl]
  · intro k hk
    have hk1 : k < seg.length := by rw [hsl]; exact hk
    have hk2 : k < w.length := by rw [hwl]; exact hk
    have key := Approx.mul hu hr (Approx.sub hu hr (Approx.exact (rnd := rnd) hu (65 + Nat.clog 2 np) (x.getD (i * step + k) 0) _ le_rfl) hm)
      (Approx.exact (rnd := rnd) hu 0 (w.getD k 0) _ le_rfl)
    obtain ⟨q, h1, h2, -⟩ := key
    refine ⟨q, ?_, ?_⟩
    · rw [← h1, List.getElem?_eq_getElem (by simp; omega)]
      congr 1
      rw [List.getElem_zipWith, List.getElem_map, List.getElem_map, List.getElem_map, ← hget k hk, getD_of_lt _ _ hk1, getD_of_lt _ _ hk2]
    · have e1 := hsumG id
      have e2 := hsumG abs
      rw [List.map_id] at e1
      rw [e1, e2] at h2
      refine h2.trans (le_of_eq ?_)
      rw [show 65 + Nat.clog 2 np + 1 + 0 + 1 = 67 + Nat.clog 2 np by ring]

omit hu hu1 hr in
/-- C118, what is transformed for a complex signal: the samples of the segment minus the mean, times the window, operation by operation. -/
theorem C118_segment_complex (lib : SpecLib (RFl rnd)) (c : SpecCfgK (RFl rnd)) {np step : ℕ} (hc : CfgOk c np step) (x : List (CK (RFl rnd)))
    (i : ℕ) (hi : i * step + np ≤ x.length) (oneSided : Bool) :
    ∃ s : List (CK (RFl rnd)), segK lib c oneSided (.cplx x) i = .ok (lib.fft s) ∧ s.length = np ∧
      ∀ k, k < np → ∀ z v, x[i * step + k]? = some z → c.window[k]? = some v →
        s[k]? = some ⟨(z.re - (lib.meanC ((x.drop (i * step)).take np)).re) * v, (z.im - (lib.meanC ((x.drop (i * step)).take np)).im) * v⟩ := by
  have hpos := hc.pos
  have hsl : ((x.drop (i * step)).take np).length = np := by rw [List.length_take, List.length_drop]; omega
  have hsv : subvector x c.nperseg ((i : ℤ) * (c.nperseg - c.noverlap)) = .ok ((x.drop (i * step)).take np) := by
    unfold subvector
    simp only [hc.hstep]
    rw [hc.nper, show min (np : ℤ) (x.length : ℤ) = np by omega,
      show (i : ℤ) * (step : ℤ) = ((i * step : ℕ) : ℤ) by push_cast; ring,
      show ((i * step : ℕ) : ℤ) + (np : ℤ) = ((i * step + np : ℕ) : ℤ) by push_cast; ring,
      subrange_ok _ _ _ (by omega) (by omega)]
    rw [show i * step + np - i * step = np by omega]
  refine ⟨List.zipWith CK.mulR (((x.drop (i * step)).take np).map (· - lib.meanC ((x.drop (i * step)).take np))) c.window, ?_, ?_, ?_⟩
  · unfold segK
    simp only [hsv, Res.bind_ok, hsl, hc.win, beq_self_eq_true, require_true, Res.pure_eq]
  · simp [hc.win]; omega
  · intro k hk z v hz hv
    rw [List.getElem?_zipWith, List.getElem?_map, List.getElem?_take_of_lt hk, List.getElem?_drop, hz, hv]
    rfl

/-- C118: `welch` in floating point, whatever the order in which the segments are added: one value per bin, each the exact
mean power times the scaling up to `n + 7` relative rounding errors, never negative when the scaling is positive. -/
theorem C118_welch (lib : SpecLib (RFl rnd)) (c : SpecCfgK (RFl rnd)) {np step : ℕ} (hc : CfgOk c np step) (x : SigK (RFl rnd))
    (hx : np ≤ x.size) {n : ℕ} (hn : n = Spec.numSegs x.size np step) (hE : Exact rnd n) (X : ℕ → ℕ → ℚ × ℚ)
    (hX : Transforms lib c x np n X) {fs s1 s2 : ℚ} (h1 : c.fs = RFl.fin fs) (h2 : c.s1 = RFl.fin s1) (h3 : c.s2 = RFl.fin s2)
    (s : Scaling) (hd : divisor s fs s1 s2 ≠ 0) (ord : List ℕ) (hord : ord.Perm (List.range n)) :
    ∃ p, welchK lib c ord s x = .ok p ∧ Bins p (nbins x.isReal np) fun k v => ∃ q, v = RFl.fin q ∧
      |q - side x.isReal np k * psd X n k / divisor s fs s1 s2| ≤
        (1 / (1 - u) ^ (n + 7) - 1) * |side x.isReal np k * psd X n k / divisor s fs s1 s2| ∧
      (0 < divisor s fs s1 s2 → 0 ≤ q) := by
  have hn1 : 1 ≤ n := by rw [hn]; unfold Spec.numSegs; generalize (x.size - np) / step = t; omega
  subst hn
  rw [welchK_eq lib c hc x hx X hX ord (fun i hi => List.mem_range.1 (hord.mem_iff.1 hi)) s]
  refine ⟨_, rfl, ?_⟩
  have key : ∀ (v : RFl rnd) (e d : ℚ), Rel u (Spec.numSegs x.size np step + 7) (e / d) v → 0 ≤ e → ∃ q, v = RFl.fin q ∧
      |q - e / d| ≤ (1 / (1 - u) ^ (Spec.numSegs x.size np step + 7) - 1) * |e / d| ∧ (0 < d → 0 ≤ q) := by
    intro v e d h he
    obtain ⟨q, hq, hb⟩ := h.err hu1
    refine ⟨q, hq, hb, fun hd => ?_⟩
    obtain ⟨θ, hθ, h1, _⟩ := h
    rw [hq] at hθ
    cases hθ
    exact mul_nonneg (div_nonneg he hd.le) ((pow_pos (by linarith) _).le.trans h1)
  obtain ⟨hr1, hr2⟩ := divisor_rel hu1 hr c h1 h2 h3
  have hP := fun k => mul_nonneg (side_pos x.isReal np k).le (psd_nonneg X (Spec.numSegs x.size np step) k)
  cases s with
  | none =>
    refine bins_map _ _ _ fun k _ => key _ _ _ ?_ (hP k)
    simp only [divisor, div_one]
    exact (psd_rel hu hu1 hr hn1 hE hord X _ np k).mono hu hu1 (by omega)
  | density =>
    simp only [scaleSpecK, List.map_map]
    refine bins_map _ _ _ fun k _ => key _ _ _ ?_ (hP k)
    exact (Rel.div hu1 hr hd (psd_rel hu hu1 hr hn1 hE hord X x.isReal np k) hr1).mono hu hu1 (by omega)
  | spectrum =>
    simp only [scaleSpecK, List.map_map]
    refine bins_map _ _ _ fun k _ => key _ _ _ ?_ (hP k)
    exact (Rel.div hu1 hr hd (psd_rel hu hu1 hr hn1 hE hord X x.isReal np k) hr2).mono hu hu1 (by omega)

omit hu hu1 hr in
/-- Cauchy-Schwarz for the two sums of products. -/
theorem cross_mean_sq (X Y : ℕ → ℕ → ℚ × ℚ) {n : ℕ} (k : ℕ) :
    ((∑ i ∈ range n, (|(X i k).1| * |(Y i k).1| + |(X i k).2| * |(Y i k).2|)) / n) ^ 2 ≤ psd X n k * psd Y n k ∧
    ((∑ i ∈ range n, (|(X i k).1| * |(Y i k).2| + |(X i k).2| * |(Y i k).1|)) / n) ^ 2 ≤ psd X n k * psd Y n k ∧
    csdRe X Y n k ^ 2 + csdIm X Y n k ^ 2 ≤ psd X n k * psd Y n k := by
  have a := cross_abs_sq_le (range n) (fun i => (X i k).1) (fun i => (X i k).2) (fun i => (Y i k).1) (fun i => (Y i k).2)
  have b := cross_abs_sq_le (range n) (fun i => (X i k).1) (fun i => (X i k).2) (fun i => (Y i k).2) (fun i => (Y i k).1)
  have d := cross_sq_le (range n) (fun i => (X i k).1) (fun i => (X i k).2) (fun i => (Y i k).1) (fun i => (Y i k).2)
  have hn : (0 : ℚ) ≤ n ^ 2 := by positivity
  unfold psd csdRe csdIm
  simp only [div_pow, div_mul_div_comm, ← pow_two, ← add_div]
  have e : ∀ i, (Y i k).2 ^ 2 + (Y i k).1 ^ 2 = (Y i k).1 ^ 2 + (Y i k).2 ^ 2 := fun i => add_comm _ _
  simp only [e] at b
  exact ⟨div_le_div_of_nonneg_right a hn, div_le_div_of_nonneg_right b hn, div_le_div_of_nonneg_right d hn⟩

omit hu hu1 hr in
theorem dev_sq {k : ℕ} {e A P : ℚ} {x : RFl rnd} (h : Dev u k e A x) (hA : A ^ 2 ≤ P) :
    ∃ q, x = RFl.fin q ∧ (q - e) ^ 2 ≤ (1 / (1 - u) ^ k - 1) ^ 2 * P := by
  obtain ⟨q, h1, h2, _⟩ := h
  refine ⟨q, h1, ?_⟩
  calc (q - e) ^ 2 = |q - e| ^ 2 := (sq_abs _).symm
    _ ≤ ((1 / (1 - u) ^ k - 1) * A) ^ 2 := pow_le_pow_left₀ (abs_nonneg _) h2 2
    _ = (1 / (1 - u) ^ k - 1) ^ 2 * A ^ 2 := by ring
    _ ≤ _ := mul_le_mul_of_nonneg_left hA (sq_nonneg _)

/-- C118: `csd` of two signals of one kind and one size in floating point: one value per bin; each component differs from the
exact mean cross power times the scaling by at most `1/(1-u)^(n+7) - 1` times the geometric mean of the two scaled powers. -/
theorem C118_csd (lib : SpecLib (RFl rnd)) (c : SpecCfgK (RFl rnd)) {np step : ℕ} (hc : CfgOk c np step) (x y : SigK (RFl rnd))
    (hx : np ≤ x.size) (hl : x.size = y.size) (ht : x.isReal = y.isReal) {n : ℕ} (hn : n = Spec.numSegs x.size np step)
    (hE : Exact rnd n) (X Y : ℕ → ℕ → ℚ × ℚ) (hX : Transforms lib c x np n X) (hY : Transforms lib c y np n Y)
    {fs s1 s2 : ℚ} (h1 : c.fs = RFl.fin fs) (h2 : c.s1 = RFl.fin s1) (h3 : c.s2 = RFl.fin s2)
    (s : Scaling) (hd : divisor s fs s1 s2 ≠ 0) (ord : List ℕ) (hord : ord.Perm (List.range n)) :
    ∃ p, csdK lib c ord s x y = .ok p ∧ Bins p (nbins x.isReal np) fun k v => ∃ a b, v = ⟨RFl.fin a, RFl.fin b⟩ ∧
      let w := side x.isReal np k / divisor s fs s1 s2
      (a - w * csdRe X Y n k) ^ 2 ≤ (1 / (1 - u) ^ (n + 7) - 1) ^ 2 * ((w * psd X n k) * (w * psd Y n k)) ∧
      (b - w * csdIm X Y n k) ^ 2 ≤ (1 / (1 - u) ^ (n + 7) - 1) ^ 2 * ((w * psd X n k) * (w * psd Y n k)) := by
  have hn1 : 1 ≤ n := by rw [hn]; unfold Spec.numSegs; generalize (x.size - np) / step = t; omega
  subst hn
  rw [csdSameK_eq lib c hc x y hx hl ht X Y hX hY ord (fun i hi => List.mem_range.1 (hord.mem_iff.1 hi)) s]
  refine ⟨_, rfl, ?_⟩
  obtain ⟨hr1, hr2⟩ := divisor_rel hu1 hr c h1 h2 h3
  have key : ∀ (k : ℕ) (v : CK (RFl rnd)) (d : ℚ) (A B : ℚ), A ^ 2 ≤ psd X (Spec.numSegs x.size np step) k *
      psd Y (Spec.numSegs x.size np step) k → B ^ 2 ≤ psd X (Spec.numSegs x.size np step) k *
      psd Y (Spec.numSegs x.size np step) k →
      Dev u (Spec.numSegs x.size np step + 7) (side x.isReal np k * csdRe X Y (Spec.numSegs x.size np step) k / d)
        (side x.isReal np k * A / |d|) v.re →
      Dev u (Spec.numSegs x.size np step + 7) (side x.isReal np k * csdIm X Y (Spec.numSegs x.size np step) k / d)
        (side x.isReal np k * B / |d|) v.im →
      ∃ a b, v = ⟨RFl.fin a, RFl.fin b⟩ ∧
      let w := side x.isReal np k / d
      (a - w * csdRe X Y (Spec.numSegs x.size np step) k) ^ 2 ≤ (1 / (1 - u) ^ (Spec.numSegs x.size np step + 7) - 1) ^ 2 *
        ((w * psd X (Spec.numSegs x.size np step) k) * (w * psd Y (Spec.numSegs x.size np step) k)) ∧
      (b - w * csdIm X Y (Spec.numSegs x.size np step) k) ^ 2 ≤ (1 / (1 - u) ^ (Spec.numSegs x.size np step + 7) - 1) ^ 2 *
        ((w * psd X (Spec.numSegs x.size np step) k) * (w * psd Y (Spec.numSegs x.size np step) k)) := by
    intro k v d A B hA hB ha hb
    have sq : ∀ A : ℚ, A ^ 2 ≤ psd X (Spec.numSegs x.size np step) k * psd Y (Spec.numSegs x.size np step) k →
        (side x.isReal np k * A / |d|) ^ 2 ≤ (side x.isReal np k / d * psd X (Spec.numSegs x.size np step) k) *
          (side x.isReal np k / d * psd Y (Spec.numSegs x.size np step) k) := by
      intro A hA
      rw [div_pow, mul_pow, sq_abs, mul_div_right_comm, ← div_pow]
      calc (side x.isReal np k / d) ^ 2 * A ^ 2 ≤ (side x.isReal np k / d) ^ 2 *
            (psd X (Spec.numSegs x.size np step) k * psd Y (Spec.numSegs x.size np step) k) :=
            mul_le_mul_of_nonneg_left hA (sq_nonneg _)
        _ = _ := by ring
    obtain ⟨a, ha1, ha2⟩ := dev_sq ha (sq A hA)
    obtain ⟨b, hb1, hb2⟩ := dev_sq hb (sq B hB)
    refine ⟨a, b, ?_, ?_, ?_⟩
    · cases v; simp only at ha1 hb1; rw [ha1, hb1]
    · rw [div_mul_eq_mul_div]; exact ha2
    · rw [div_mul_eq_mul_div]; exact hb2
  cases s with
  | none =>
    refine bins_map _ _ _ fun k _ => ?_
    obtain ⟨da, db⟩ := csd_dev hu hu1 hr hn1 hE hord X Y x.isReal np k _ _ rfl rfl
    refine key k _ 1 _ _ (cross_mean_sq X Y k).1 (cross_mean_sq X Y k).2.1 ?_ ?_
    · rw [abs_one, div_one, div_one]; exact da.mono hu hu1 (by omega)
    · rw [abs_one, div_one, div_one]; exact db.mono hu hu1 (by omega)
  | density =>
    simp only [scaleSpecK, List.map_map]
    refine bins_map _ _ _ fun k _ => ?_
    obtain ⟨da, db⟩ := csd_dev hu hu1 hr hn1 hE hord X Y x.isReal np k _ _ rfl rfl
    exact key k _ (fs * s2) _ _ (cross_mean_sq X Y k).1 (cross_mean_sq X Y k).2.1
      ((Dev.divRel hu hu1 hr hd da hr1).mono hu hu1 (by omega)) ((Dev.divRel hu hu1 hr hd db hr1).mono hu hu1 (by omega))
  | spectrum =>
    simp only [scaleSpecK, List.map_map]
    refine bins_map _ _ _ fun k _ => ?_
    obtain ⟨da, db⟩ := csd_dev hu hu1 hr hn1 hE hord X Y x.isReal np k _ _ rfl rfl
    exact key k _ s1 _ _ (cross_mean_sq X Y k).1 (cross_mean_sq X Y k).2.1
      ((Dev.divRel hu hu1 hr hd da hr2).mono hu hu1 (by omega)) ((Dev.divRel hu hu1 hr hd db hr2).mono hu hu1 (by omega))

theorem norm_rel (a b : ℚ) : Rel u 2 (a ^ 2 + b ^ 2) (CK.norm ⟨RFl.fin a, RFl.fin b⟩ : RFl rnd) := by
  rw [pow_two, pow_two]
  exact Rel.add hu hu1 hr (mul_self_nonneg _) (mul_self_nonneg _) (Rel.mul hu1 hr (Rel.exact _) (Rel.exact _))
    (Rel.mul hu1 hr (Rel.exact _) (Rel.exact _))

/-- One bin of the coherence. -/
theorem coh_bin {k : ℕ} {s R I A B Px Py : ℚ} (hs : 0 < s) (hPx : 0 < Px) (hPy : 0 < Py) (hA : A ^ 2 ≤ Px * Py)
    (hB : B ^ 2 ≤ Px * Py) (hRI : R ^ 2 + I ^ 2 ≤ Px * Py) {w : CK (RFl rnd)} {px py : RFl rnd}
    (ha : Dev u k (s * R) (s * A) w.re) (hb : Dev u k (s * I) (s * B) w.im) (hx : Rel u k (s * Px) px)
    (hy : Rel u k (s * Py) py) :
    ∃ q, CK.norm w / px / py = RFl.fin q ∧ 0 ≤ q ∧ |q - (R ^ 2 + I ^ 2) / (Px * Py)| ≤ 1 / (1 - u) ^ (5 * k + 4) - 1 := by
  have hA0 := ha.nonneg
  have hB0 := hb.nonneg
  obtain ⟨a, ha0, ha1, _⟩ := ha
  obtain ⟨b, hb0, hb1, _⟩ := hb
  have hw : w = ⟨RFl.fin a, RFl.fin b⟩ := by cases w; simp only at ha0 hb0; rw [ha0, hb0]
  rw [hw]
  have hP : 0 < (s * Px) * (s * Py) := by positivity
  have h1 := Rel.div hu1 hr (by positivity) (Rel.div hu1 hr (by positivity) (norm_rel hu hu1 hr a b) hx) hy
  rw [div_div] at h1
  have scale : ∀ t : ℚ, t ≤ Px * Py → s ^ 2 * t ≤ (s * Px) * (s * Py) := by
    intro t ht
    calc s ^ 2 * t ≤ s ^ 2 * (Px * Py) := mul_le_mul_of_nonneg_left ht (sq_nonneg s)
      _ = _ := by ring
  have h2 := sq_dev hu hu1 (k := k) hP.le (by rw [mul_pow]; exact scale _ hA) (by rw [mul_pow]; exact scale _ hB)
    (by rw [mul_pow, mul_pow, ← mul_add]; exact scale _ hRI) ha1 hb1 hA0 hB0
  have e1 : (R ^ 2 + I ^ 2) / (Px * Py) = ((s * R) ^ 2 + (s * I) ^ 2) / ((s * Px) * (s * Py)) := by
    field_simp
  rw [e1]
  obtain ⟨q, hq1, hq2, hq3⟩ := dev_rel hu hu1 (k := 3 * k) (e := ((s * R) ^ 2 + (s * I) ^ 2) / ((s * Px) * (s * Py)))
    (by rw [div_le_one hP, mul_pow, mul_pow, ← mul_add]; exact scale _ hRI)
    (by positivity) (by rw [← sub_div, abs_div, abs_of_pos hP, div_le_iff₀ hP]; exact h2) h1
  refine ⟨q, hq1, hq2, hq3.trans ?_⟩
  have := ratio_mono hu hu1 (show 3 * k + (2 + k + 1 + k + 1) ≤ 5 * k + 4 by omega)
  linarith

omit hu hu1 in
theorem rnd_zero_of_err : rnd 0 = 0 := by
  have := hr 0
  simp at this; exact this

omit hu hu1 hr in
theorem dev_zero {k : ℕ} {s : ℚ} (E A : ℚ) (v : RFl rnd) (hA : A ^ 2 ≤ 0) (h : Dev u k (s * E) (s * A) v) : v = RFl.fin 0 := by
  have hA0 : A = 0 := pow_eq_zero_iff (n := 2) (two_ne_zero) |>.1 (le_antisymm hA (sq_nonneg A))
  obtain ⟨q, h1, h2, h3⟩ := h
  rw [hA0, mul_zero] at h2 h3
  rw [mul_zero] at h2
  have e1 := abs_eq_zero.1 (le_antisymm h3 (abs_nonneg _))
  have e2 := abs_eq_zero.1 (le_antisymm h2 (abs_nonneg _))
  rw [h1, show q = 0 by linarith]

/-- One bin of the transfer function. -/
theorem tf_bin {n : ℕ} {s R I A B Px Py : ℚ} (hs : 0 < s) (hPx : 0 < Px) (hA : A ^ 2 ≤ Py * Px) (hB : B ^ 2 ≤ Py * Px)
    {w : CK (RFl rnd)} {px : RFl rnd} (ha : Dev u (n + 5) (s * R) (s * A) w.re) (hb : Dev u (n + 5) (s * I) (s * B) w.im)
    (hx : Rel u (n + 5) (s * Px) px) :
    ∃ a b, w.divR px = ⟨RFl.fin a, RFl.fin b⟩ ∧
      (a - R / Px) ^ 2 ≤ (1 / (1 - u) ^ (2 * n + 11) - 1) ^ 2 * (Py / Px) ∧
      (b - I / Px) ^ 2 ≤ (1 / (1 - u) ^ (2 * n + 11) - 1) ^ 2 * (Py / Px) := by
  have hp : 0 < s * Px := by positivity
  have comp : ∀ (E A : ℚ) (v : RFl rnd), A ^ 2 ≤ Py * Px → Dev u (n + 5) (s * E) (s * A) v →
      ∃ q, v / px = RFl.fin q ∧ (q - E / Px) ^ 2 ≤ (1 / (1 - u) ^ (2 * n + 11) - 1) ^ 2 * (Py / Px) := by
    intro E A v hA h
    have h1 := (Dev.divRel hu hu1 hr hp.ne' h hx).mono hu hu1 (show n + 5 + (n + 5) + 1 ≤ 2 * n + 11 by omega)
    rw [abs_of_pos hp, mul_div_mul_left _ _ hs.ne', mul_div_mul_left _ _ hs.ne'] at h1
    refine dev_sq h1 ?_
    rw [div_pow, div_le_iff₀ (by positivity)]
    calc A ^ 2 ≤ Py * Px := hA
      _ = Py / Px * Px ^ 2 := by field_simp
  obtain ⟨a, a1, a2⟩ := comp R A _ hA ha
  obtain ⟨b, b1, b2⟩ := comp I B _ hB hb
  exact ⟨a, b, by rw [CK.divR, a1, b1], a2, b2⟩

omit hu hu1 hr in
theorem tf_bin_nan {k : ℕ} {s R I A B Px Py : ℚ} (hP : Px = 0) (hA : A ^ 2 ≤ Py * Px) (hB : B ^ 2 ≤ Py * Px)
    {w : CK (RFl rnd)} {px : RFl rnd} (ha : Dev u k (s * R) (s * A) w.re) (hb : Dev u k (s * I) (s * B) w.im)
    (hx : Rel u k (s * Px) px) : w.divR px = ⟨RFl.nan, RFl.nan⟩ := by
  rw [hP, mul_zero] at hA hB
  obtain ⟨θ, rfl, _⟩ := hx
  have nz : (RFl.fin 0 / RFl.fin 0 : RFl rnd) = RFl.nan := by rw [RFl.div_zero', if_pos rfl]
  rw [CK.divR, dev_zero R A _ hA ha, dev_zero I B _ hB hb, hP, mul_zero, zero_mul, nz]

omit hu hu1 in
/-- One bin of the coherence where one of the powers is zero. -/
theorem coh_bin_nan {k : ℕ} {s R I A B Px Py : ℚ} (hP : Px = 0 ∨ Py = 0) (hA : A ^ 2 ≤ Px * Py)
    (hB : B ^ 2 ≤ Px * Py) {w : CK (RFl rnd)} {px py : RFl rnd}
    (ha : Dev u k (s * R) (s * A) w.re) (hb : Dev u k (s * I) (s * B) w.im) (hx : Rel u k (s * Px) px)
    (hy : Rel u k (s * Py) py) : CK.norm w / px / py = RFl.nan := by
  have h0 : Px * Py = 0 := by rcases hP with h | h <;> simp [h]
  rw [h0] at hA hB
  have hw : CK.norm w = RFl.fin 0 := by
    unfold CK.norm
    rw [dev_zero R A _ hA ha, dev_zero I B _ hB hb, RFl.mul_fin, mul_zero, rnd_zero_of_err hr, RFl.add_fin, add_zero,
      rnd_zero_of_err hr]
  obtain ⟨θ, hx0, hx1, _⟩ := hx
  obtain ⟨η, hy0, hy1, _⟩ := hy
  rw [hw, hx0, hy0]
  have nz : (RFl.fin 0 / RFl.fin 0 : RFl rnd) = RFl.nan := by rw [RFl.div_zero', if_pos rfl]
  by_cases h : s * Px * θ = 0
  · rw [h, nz]; rfl
  · have hPx : Px ≠ 0 := by rintro rfl; simp at h
    rw [RFl.div_fin h, zero_div, rnd_zero_of_err hr, hP.resolve_left hPx, mul_zero, zero_mul, nz]

omit hu hu1 hr in
theorem zipWith_map_range {A B C : Type} (f : A → B → C) (g : ℕ → A) (h : ℕ → B) (m : ℕ) :
    List.zipWith f ((List.range m).map g) ((List.range m).map h) = (List.range m).map fun k => f (g k) (h k) := by
  rw [List.zipWith_map, List.zipWith_self]

/-- C118: `coherence` of two signals of one kind and one size in floating point, whatever the orders in which the segments are
added: NaN in the bins where one of the powers is zero; elsewhere a nonnegative number within `1/(1-u)^(5n+29) - 1` of the exact
coherence (a number between 0 and 1). -/
theorem C118_coherence (lib : SpecLib (RFl rnd)) (c : SpecCfgK (RFl rnd)) {np step : ℕ} (hc : CfgOk c np step)
    (x y : SigK (RFl rnd)) (hx : np ≤ x.size) (hl : x.size = y.size) (ht : x.isReal = y.isReal) {n : ℕ}
    (hn : n = Spec.numSegs x.size np step) (hE : Exact rnd n) (X Y : ℕ → ℕ → ℚ × ℚ) (hX : Transforms lib c x np n X)
    (hY : Transforms lib c y np n Y) (o1 o2 o3 : List ℕ) (ho1 : o1.Perm (List.range n)) (ho2 : o2.Perm (List.range n))
    (ho3 : o3.Perm (List.range n)) :
    ∃ p, coherenceK lib c o1 o2 o3 x y = .ok p ∧ Bins p (nbins x.isReal np) fun k v =>
      (psd X n k = 0 ∨ psd Y n k = 0 → v = RFl.nan) ∧
      (psd X n k ≠ 0 → psd Y n k ≠ 0 → ∃ q, v = RFl.fin q ∧ 0 ≤ q ∧ |q - coh X Y n k| ≤ 1 / (1 - u) ^ (5 * n + 29) - 1) := by
  have hn1 : 1 ≤ n := by rw [hn]; unfold Spec.numSegs; generalize (x.size - np) / step = t; omega
  subst hn
  have mem : ∀ o : List ℕ, o.Perm (List.range (Spec.numSegs x.size np step)) → ∀ i ∈ o, i < Spec.numSegs x.size np step :=
    fun o ho i hi => List.mem_range.1 (ho.mem_iff.1 hi)
  unfold coherenceK
  have hY' := hY
  rw [csdSameK_eq lib c hc x y hx hl ht X Y hX hY o1 (mem o1 ho1) .none, welchK_eq lib c hc x hx X hX o2 (mem o2 ho2) .none]
  rw [hl] at hY' ho3 mem
  rw [welchK_eq lib c hc y (hl ▸ hx) Y hY' o3 (mem o3 ho3) .none]
  simp only [Res.bind_ok, hl, beq_self_eq_true, require_true, scaleSpecK, List.length_map, List.length_range, ← ht, List.map_map,
    zipWith_map_range, Res.pure_eq]
  refine ⟨_, rfl, ?_⟩
  rw [hl] at hE hn1 ho1 ho2
  obtain ⟨n, hnd⟩ : ∃ n, n = Spec.numSegs y.size np step := ⟨_, rfl⟩
  rw [← hnd] at hE hn1 ho1 ho2 ho3 ⊢
  refine bins_map _ _ _ fun k _ => ?_
  obtain ⟨da, db⟩ := csd_dev hu hu1 hr hn1 hE ho1 X Y x.isReal np k _ _ rfl rfl
  have dx := psd_rel hu hu1 hr hn1 hE ho2 X x.isReal np k
  have dy := psd_rel hu hu1 hr hn1 hE ho3 Y x.isReal np k
  obtain ⟨c1, c2, c3⟩ := cross_mean_sq X Y (n := n) k
  refine ⟨fun h => coh_bin_nan hr h c1 c2 da db dx dy, fun h1 h2 => ?_⟩
  have := coh_bin hu hu1 hr (side_pos x.isReal np k) (lt_of_le_of_ne (psd_nonneg X n k) (Ne.symm h1))
    (lt_of_le_of_ne (psd_nonneg Y n k) (Ne.symm h2)) c1 c2 c3 da db dx dy
  rw [show 5 * (n + 5) + 4 = 5 * n + 29 by ring] at this
  exact this

omit hu hu1 hr in
/-- C118: the exact coherence lies between 0 and 1. -/
theorem C118_coherence_exact (X Y : ℕ → ℕ → ℚ × ℚ) (n k : ℕ) (h1 : psd X n k ≠ 0) (h2 : psd Y n k ≠ 0) :
    0 ≤ coh X Y n k ∧ coh X Y n k ≤ 1 := by
  have p1 := lt_of_le_of_ne (psd_nonneg X n k) (Ne.symm h1)
  have p2 := lt_of_le_of_ne (psd_nonneg Y n k) (Ne.symm h2)
  have hP := mul_pos p1 p2
  unfold coh
  exact ⟨div_nonneg (by positivity) hP.le, by rw [div_le_one hP]; exact (cross_mean_sq X Y k).2.2⟩

/-- C118: `tfestimate` of two signals of one kind and one size in floating point: each component differs from the exact transfer
function by at most `1/(1-u)^(2n+11) - 1` times the root of the ratio of the powers; NaN where the power of `x` is zero. -/
theorem C118_tfestimate (lib : SpecLib (RFl rnd)) (c : SpecCfgK (RFl rnd)) {np step : ℕ} (hc : CfgOk c np step)
    (x y : SigK (RFl rnd)) (hx : np ≤ x.size) (hl : x.size = y.size) (ht : x.isReal = y.isReal) {n : ℕ}
    (hn : n = Spec.numSegs x.size np step) (hE : Exact rnd n) (X Y : ℕ → ℕ → ℚ × ℚ) (hX : Transforms lib c x np n X)
    (hY : Transforms lib c y np n Y) (o1 o2 : List ℕ) (ho1 : o1.Perm (List.range n)) (ho2 : o2.Perm (List.range n)) :
    ∃ p, tfestimateK lib c o1 o2 x y = .ok p ∧ Bins p (nbins x.isReal np) fun k v =>
      (psd X n k = 0 → v = ⟨RFl.nan, RFl.nan⟩) ∧
      (psd X n k ≠ 0 → ∃ a b, v = ⟨RFl.fin a, RFl.fin b⟩ ∧
        (a - csdRe Y X n k / psd X n k) ^ 2 ≤ (1 / (1 - u) ^ (2 * n + 11) - 1) ^ 2 * (psd Y n k / psd X n k) ∧
        (b - csdIm Y X n k / psd X n k) ^ 2 ≤ (1 / (1 - u) ^ (2 * n + 11) - 1) ^ 2 * (psd Y n k / psd X n k)) := by
  have hn1 : 1 ≤ n := by rw [hn]; unfold Spec.numSegs; generalize (x.size - np) / step = t; omega
  subst hn
  have mem : ∀ o : List ℕ, o.Perm (List.range (Spec.numSegs x.size np step)) → ∀ i ∈ o, i < Spec.numSegs x.size np step :=
    fun o ho i hi => List.mem_range.1 (ho.mem_iff.1 hi)
  unfold tfestimateK
  have hX' := hX
  rw [welchK_eq lib c hc x hx X hX o2 (mem o2 ho2) .none]
  rw [hl] at hY hX' ho1 mem
  rw [csdSameK_eq lib c hc y x (hl ▸ hx) hl.symm ht.symm Y X hY hX' o1 (mem o1 ho1) .none]
  simp only [Res.bind_ok, hl, beq_self_eq_true, require_true, scaleSpecK, List.length_map, List.length_range, ← ht,
    zipWith_map_range, Res.pure_eq]
  refine ⟨_, rfl, ?_⟩
  rw [hl] at hE hn1 ho2
  obtain ⟨n, hnd⟩ : ∃ n, n = Spec.numSegs y.size np step := ⟨_, rfl⟩
  rw [← hnd] at hE hn1 ho1 ho2 ⊢
  refine bins_map _ _ _ fun k _ => ?_
  obtain ⟨da, db⟩ := csd_dev hu hu1 hr hn1 hE ho1 Y X x.isReal np k _ _ rfl rfl
  have dx := psd_rel hu hu1 hr hn1 hE ho2 X x.isReal np k
  obtain ⟨c1, c2, -⟩ := cross_mean_sq Y X (n := n) k
  refine ⟨fun h => ?_, fun h => ?_⟩
  · exact tf_bin_nan h c1 c2 da db dx
  · exact tf_bin hu hu1 hr (side_pos x.isReal np k) (lt_of_le_of_ne (psd_nonneg X n k) (Ne.symm h)) c1 c2 da db dx

end err

end

/-! ### Schedules -/

theorem accumulateK_spec1 {A : Type} [Add A] (nfft : ℕ) (f : ℕ → List A) (F : ℤ → Res (List A)) (ord : List ℕ)
    (hF : ∀ i ∈ ord, F (i : ℤ) = .ok (f i)) (hlen : ∀ i ∈ ord, (f i).length = nfft) :
    ∀ s : Spec1 A, s.val.length = nfft →
      accumulateK F ord s.val = .ok (ord.foldl (fun acc i => acc + (⟨f i⟩ : Spec1 A)) s).val := by
  induction ord with
  | nil => intro s _; rfl
  | cons i ord ih =>
    intro s hs
    have h1 := hlen i (List.mem_cons_self ..)
    rw [accumulateK, hF i (List.mem_cons_self ..), Res.bind_ok]
    have h2 : addLists s.val (f i) = .ok (s + (⟨f i⟩ : Spec1 A)).val := by
      unfold addLists
      rw [hs, h1]
      simp only [beq_self_eq_true, require_true, Res.bind_ok, Res.pure_eq]
      rfl
    rw [h2, Res.bind_ok, List.foldl_cons]
    refine ih (fun j hj => hF j (List.mem_cons_of_mem _ hj)) (fun j hj => hlen j (List.mem_cons_of_mem _ hj)) _ ?_
    show (List.zipWith (· + ·) s.val (f i)).length = nfft
    rw [List.length_zipWith, hs, h1, min_self]

/-- C118: whatever the schedule of the threads, the array they return is that of a sequential loop over some permutation of the
segments; the bounds above hold for every permutation. -/
theorem C118_schedule {A K : Type} [CppNum K] [Add A] [Zero A] (divR : A → K → A) (nfft nseg nthreads : ℕ) (hn : 1 ≤ nthreads)
    (f : ℕ → List A) (hlen : ∀ i < nseg, (f i).length = nfft) (F : ℤ → Res (List A)) (hF : ∀ i < nseg, F (i : ℤ) = .ok (f i))
    (r : List A) (h : ComputeSpectrumMT divR nfft nseg nthreads f r) :
    ∃ ord : List ℕ, ord.Perm (List.range nseg) ∧ computeSpectrumK divR nfft nseg ord F = .ok r := by
  obtain ⟨t, k, h1, h2, rfl⟩ := h
  obtain ⟨-, -, ord, h3, h4⟩ := C50_result hn h1 h2
  have mem : ∀ i ∈ ord, i < nseg := fun i hi => List.mem_range.1 (h3.mem_iff.1 hi)
  refine ⟨ord, h3, ?_⟩
  unfold computeSpectrumK
  have := accumulateK_spec1 nfft f F ord (fun i hi => hF i (mem i hi)) (fun i hi => hlen i (mem i hi))
    ⟨List.replicate nfft 0⟩ (by simp)
  simp only at this
  rw [this, h4]
  rfl

/-! ### Consequences in binary64 -/

/-- The transform of two real numbers, and a comparison. -/
def dft2 : SpecLib F64 where
  fft x := x
  rfft x := match x with
    | [a, b] => [⟨a + b, RFl.fin 0⟩, ⟨a - b, RFl.fin 0⟩]
    | _ => []
  meanC _ := 0
  pos d := match d with
    | .fin q => decide (0 < q)
    | _ => false

/-- A boxcar of two points. -/
def cfg2 : SpecCfgK F64 := ⟨RFl.fin 1, [RFl.fin 1, RFl.fin 1], RFl.fin 4, RFl.fin 2, 2, 1⟩

/-- The alternating signal `a, -a`. -/
def alt (a : ℚ) : SigK F64 := .real [RFl.fin a, RFl.fin (-a)]

/-- C118: the coherence computed by the library can exceed 1: for two alternating signals of 2 samples it is `1 + 2^-52`. -/
theorem C118_coherence_above_one :
    coherenceK dft2 cfg2 [0] [0] [0] (alt 134217731) (alt 134217729) = .ok [RFl.nan, RFl.fin (1 + 1 / 2 ^ 52)] := by
  decide +kernel

/-- C118: the coherence of a signal with itself need not be 1. -/
theorem C118_coherence_self :
    coherenceK dft2 cfg2 [0] [0] [0] (alt 165871288) (alt 165871288) = .ok [RFl.nan, RFl.fin (1 - 1 / 2 ^ 53)] := by
  decide +kernel

/-- C118: coherence is not symmetric. -/
theorem C118_coherence_asymmetric :
    coherenceK dft2 cfg2 [0] [0] [0] (alt 267311313) (alt 196785859) = .ok [RFl.nan, RFl.fin 1] ∧
    coherenceK dft2 cfg2 [0] [0] [0] (alt 196785859) (alt 267311313) = .ok [RFl.nan, RFl.fin (1 - 1 / 2 ^ 53)] := by
  decide +kernel

/-- The transforms of an alternating signal. -/
def altX (a : ℚ) : ℕ → ℕ → ℚ × ℚ := fun _ k => if k = 0 then (0, 0) else (2 * a, 0)

theorem rnd64_exact_small {n : ℕ} (hn : n < 2 ^ 53) : Exact rnd64 n :=
  ⟨by decide +kernel, by decide +kernel, by decide +kernel, rnd64_nat n hn⟩

/-- The hypotheses of the theorems above hold for the two signals of `C118_coherence_above_one`, in binary64. -/
example : ∃ p, coherenceK dft2 cfg2 [0] [0] [0] (alt 134217731) (alt 134217729) = .ok p ∧ Bins p 2 fun k v =>
    (psd (altX 134217731) 1 k = 0 ∨ psd (altX 134217729) 1 k = 0 → v = RFl.nan) ∧
    (psd (altX 134217731) 1 k ≠ 0 → psd (altX 134217729) 1 k ≠ 0 → ∃ q, v = RFl.fin q ∧ 0 ≤ q ∧
      |q - coh (altX 134217731) (altX 134217729) 1 k| ≤ 1 / (1 - 1 / 2 ^ 53) ^ 34 - 1) := by
  have hX : ∀ a : ℚ, a = 134217731 ∨ a = 134217729 → Transforms dft2 cfg2 (alt a) 2 1 (altX a) := by
    intro a ha i hi
    obtain rfl : i = 0 := by omega
    rcases ha with rfl | rfl <;> decide +kernel
  exact C118_coherence (u := 1 / 2 ^ 53) (by norm_num) (by norm_num) rnd64_err dft2 cfg2 (np := 2) (step := 1)
    ⟨rfl, rfl, by norm_num, by rfl, by norm_num⟩ (alt 134217731) (alt 134217729) (by decide) rfl rfl (n := 1) rfl
    (rnd64_exact_small (by norm_num)) _ _ (hX _ (.inl rfl)) (hX _ (.inr rfl)) [0] [0] [0] (List.Perm.refl _) (List.Perm.refl _)
    (List.Perm.refl _)

end SciCpp
