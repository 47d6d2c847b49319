import Verif.Model.FftF
import Verif.Proofs.FftF
import Verif.Proofs.Approx
import Verif.Proofs.SpectralF
import Verif.Props.Fft
/-
  `convolve<FFT>` and `correlate<FFT>` in floating point (C133).
-/
namespace SciCpp

open Finset

variable {rnd : ℚ → ℚ} {u : ℚ}

/-- The real number stored in a floating point number (0 for NaN and infinities). -/
noncomputable def Spec.valR (x : RFl rnd) : ℝ := match x with
  | .fin q => (q : ℝ)
  | _ => 0

/-- The complex number stored in a pair of floating point numbers. -/
noncomputable def Spec.valC (z : CK (RFl rnd)) : ℂ := ⟨Spec.valR z.re, Spec.valR z.im⟩

/-- Euclidean norm of an array. -/
noncomputable def Spec.nrm (x : List ℂ) : ℝ := Spec.l2 x.length (fun k => x.getD k 0)

/-- Not NaN, not infinite. -/
def Spec.FinR (x : RFl rnd) : Prop := ∃ q : ℚ, x = RFl.fin q

/-- Both parts finite. -/
def Spec.FinC (z : CK (RFl rnd)) : Prop := Spec.FinR z.re ∧ Spec.FinR z.im

open Spec

/-- Transforms of length `n` accurate to `ε` in the Euclidean norm: on finite data the results are finite, have the right length, and differ from the exact
transform by at most `ε` times its norm.  Half spectra stand for their Hermitian extension. -/
structure Spec.Accurate (lib : FftLib (RFl rnd)) (ε : ℝ) (n : ℕ) : Prop where
  fwd : ∀ x : List (CK (RFl rnd)), x.length = n → (∀ z ∈ x, FinC z) → (lib.fwd x).length = n ∧ (∀ z ∈ lib.fwd x, FinC z) ∧
    l2 n (fun k => ((lib.fwd x).map valC).getD k 0 - (dft (x.map valC)).getD k 0) ≤ ε * l2 n (fun k => (dft (x.map valC)).getD k 0)
  inv : ∀ y : List (CK (RFl rnd)), y.length = n → (∀ z ∈ y, FinC z) → (lib.inv y).length = n ∧ (∀ z ∈ lib.inv y, FinC z) ∧
    l2 n (fun k => ((lib.inv y).map valC).getD k 0 - (idft (y.map valC)).getD k 0) ≤ ε * l2 n (fun k => (idft (y.map valC)).getD k 0)
  rfwd : ∀ x : List (RFl rnd), x.length = n → (∀ z ∈ x, FinR z) → (lib.rfwd x).length = n / 2 + 1 ∧ (∀ z ∈ lib.rfwd x, FinC z) ∧
    l2 n (fun k => (hermExt n ((lib.rfwd x).map valC)).getD k 0 - (dft (x.map fun t => (valR t : ℂ))).getD k 0) ≤
      ε * l2 n (fun k => (dft (x.map fun t => (valR t : ℂ))).getD k 0)
  rinv : ∀ y : List (CK (RFl rnd)), y.length = n → (∀ z ∈ y, FinC z) → (lib.rinv y).length = n ∧ (∀ z ∈ lib.rinv y, FinR z) ∧
    l2 n (fun k => (((lib.rinv y).map valR).getD k 0 : ℂ) - (((idft (hermExt n (y.map valC))).getD k 0).re : ℂ)) ≤
      ε * l2 n (fun k => (idft (hermExt n (y.map valC))).getD k 0)

namespace FftF

theorem dft_F (x : List ℂ) (k : ℕ) (h : k < x.length) : (dft x).getD k 0 = L2.F x.length (fun j => x.getD j 0) k := dft_getD x k h

theorem idft_G (y : List ℂ) (k : ℕ) (h : k < y.length) : (idft y).getD k 0 = L2.G y.length (fun j => y.getD j 0) k := by
  unfold idft; rw [getD_map_range _ _ _ _ h]; rfl

theorem map_getD {α : Type} [Zero α] {β : Type} [Zero β] (f : α → β) (hf : f 0 = 0) (l : List α) (k : ℕ) : (l.map f).getD k 0 = f (l.getD k 0) := by
  simp only [List.getD_eq_getElem?_getD, List.getElem?_map]
  cases l[k]? <;> simp [hf]

theorem valR_zero : valR (0 : RFl rnd) = 0 := by
  show ((0 : ℚ) : ℝ) = 0
  simp
theorem valC_zero : valC (0 : CK (RFl rnd)) = 0 := Complex.ext (valR_zero (rnd := rnd)) (valR_zero (rnd := rnd))
theorem fin_zero : FinC (0 : CK (RFl rnd)) := ⟨⟨0, rfl⟩, ⟨0, rfl⟩⟩

theorem map_pad {α β : Type} [Zero α] [Zero β] (f : α → β) (hf : f 0 = 0) (x : List α) (n : ℕ) :
    (x.take n ++ List.replicate (n - x.length) 0).map f = (x.map f).take n ++ List.replicate (n - (x.map f).length) 0 := by
  simp [List.map_take, hf]

theorem mem_pad {α : Type} [Zero α] {P : α → Prop} (h0 : P 0) {x : List α} (h : ∀ z ∈ x, P z) (n : ℕ) :
    ∀ z ∈ x.take n ++ List.replicate (n - x.length) (0 : α), P z := by
  intro z hz
  rcases List.mem_append.mp hz with hz | hz
  · exact h z (List.mem_of_mem_take hz)
  · rw [(List.mem_replicate.mp hz).2]; exact h0

theorem norm_mk (a b : ℝ) : ‖(⟨a, b⟩ : ℂ)‖ = √(a ^ 2 + b ^ 2) := by
  rw [Complex.norm_def, Complex.normSq_mk]; congr 1; ring

theorem cross_le (p q s t : ℝ) : (|p| * |s| + |q| * |t|) ^ 2 + (|p| * |t| + |q| * |s|) ^ 2 ≤ 2 * ((p ^ 2 + q ^ 2) * (s ^ 2 + t ^ 2)) := by
  have e1 : 2 * (|p| * |q|) ≤ p ^ 2 + q ^ 2 := by
    have := two_mul_le_add_sq |p| |q|
    rw [sq_abs, sq_abs] at this; linarith
  have e2 : 2 * (|s| * |t|) ≤ s ^ 2 + t ^ 2 := by
    have := two_mul_le_add_sq |s| |t|
    rw [sq_abs, sq_abs] at this; linarith
  have e3 := mul_le_mul e1 e2 (by positivity) (by positivity)
  have e4 : (|p| * |s| + |q| * |t|) ^ 2 + (|p| * |t| + |q| * |s|) ^ 2 =
      (|p| ^ 2 + |q| ^ 2) * (|s| ^ 2 + |t| ^ 2) + 2 * (|p| * |q|) * (2 * (|s| * |t|)) := by ring
  rw [e4, sq_abs, sq_abs, sq_abs, sq_abs]
  linarith

theorem cmul_bound {g p q s t x y : ℝ} (hg : 0 ≤ g) (hx : |x - (p * s - q * t)| ≤ g * (|p| * |s| + |q| * |t|))
    (hy : |y - (p * t + q * s)| ≤ g * (|p| * |t| + |q| * |s|)) :
    ‖(⟨x, y⟩ : ℂ) - ⟨p, q⟩ * ⟨s, t⟩‖ ≤ √2 * g * (‖(⟨p, q⟩ : ℂ)‖ * ‖(⟨s, t⟩ : ℂ)‖) := by
  have hd : (⟨x, y⟩ : ℂ) - ⟨p, q⟩ * ⟨s, t⟩ = ⟨x - (p * s - q * t), y - (p * t + q * s)⟩ := Complex.ext (by simp) (by simp)
  rw [hd, norm_mk, norm_mk, norm_mk]
  apply Real.sqrt_le_iff.mpr
  refine ⟨by positivity, ?_⟩
  rw [mul_pow, mul_pow, mul_pow, Real.sq_sqrt (by positivity), Real.sq_sqrt (by positivity), Real.sq_sqrt (by positivity)]
  have h1 := pow_le_pow_left₀ (abs_nonneg _) hx 2
  have h2 := pow_le_pow_left₀ (abs_nonneg _) hy 2
  rw [sq_abs] at h1 h2
  calc _ ≤ (g * (|p| * |s| + |q| * |t|)) ^ 2 + (g * (|p| * |t| + |q| * |s|)) ^ 2 := add_le_add h1 h2
    _ = g ^ 2 * ((|p| * |s| + |q| * |t|) ^ 2 + (|p| * |t| + |q| * |s|) ^ 2) := by ring
    _ ≤ g ^ 2 * (2 * ((p ^ 2 + q ^ 2) * (s ^ 2 + t ^ 2))) := mul_le_mul_of_nonneg_left (cross_le _ _ _ _) (sq_nonneg _)
    _ = _ := by ring

theorem valC_fin (a b : ℚ) : valC (⟨RFl.fin a, RFl.fin b⟩ : CK (RFl rnd)) = (⟨(a : ℝ), (b : ℝ)⟩ : ℂ) := rfl

theorem mul_mk (p q s t : RFl rnd) : ((⟨p, q⟩ : CK (RFl rnd)) * ⟨s, t⟩) = ⟨p * s - q * t, p * t + q * s⟩ := rfl

theorem castR {g p q s t x : ℚ} (h : |x - (p * s - q * t)| ≤ g * (|p| * |s| + |q| * |t|)) :
    |(x : ℝ) - ((p : ℝ) * s - q * t)| ≤ (g : ℝ) * (|(p : ℝ)| * |(s : ℝ)| + |(q : ℝ)| * |(t : ℝ)|) := by
  have := (Rat.cast_le (K := ℝ)).mpr h
  push_cast at this
  exact this

theorem castI {g p q s t x : ℚ} (h : |x - (p * s + q * t)| ≤ g * (|p| * |s| + |q| * |t|)) :
    |(x : ℝ) - ((p : ℝ) * s + q * t)| ≤ (g : ℝ) * (|(p : ℝ)| * |(s : ℝ)| + |(q : ℝ)| * |(t : ℝ)|) := by
  have := (Rat.cast_le (K := ℝ)).mpr h
  push_cast at this
  exact this

theorem out {k : ℕ} {e A : ℚ} {x : RFl rnd} (h : Approx u k e A x) : ∃ q : ℚ, x = RFl.fin q ∧ |q - e| ≤ ((1 + u) ^ k - 1) * A :=
  let ⟨q, h1, h2, _⟩ := h
  ⟨q, h1, h2⟩

theorem re_err (hu : 0 ≤ u) (hr : ∀ x, |rnd x - x| ≤ u * |x|) (p q s t : ℚ) : ∃ x : ℚ,
    ((RFl.fin p : RFl rnd) * RFl.fin s - RFl.fin q * RFl.fin t) = RFl.fin x ∧ |x - (p * s - q * t)| ≤ ((1 + u) ^ 2 - 1) * (|p| * |s| + |q| * |t|) := by
  have ex : ∀ q : ℚ, Approx u 0 q |q| (RFl.fin q : RFl rnd) := fun q => Approx.exact hu 0 q _ le_rfl
  have h := (ex p).mul hu hr (ex s)
  have h2 := (ex q).mul hu hr (ex t)
  have h3 := h.sub hu hr h2
  exact out (k := 2) h3

theorem im_err (hu : 0 ≤ u) (hr : ∀ x, |rnd x - x| ≤ u * |x|) (p q s t : ℚ) : ∃ x : ℚ,
    ((RFl.fin p : RFl rnd) * RFl.fin s + RFl.fin q * RFl.fin t) = RFl.fin x ∧ |x - (p * s + q * t)| ≤ ((1 + u) ^ 2 - 1) * (|p| * |s| + |q| * |t|) := by
  have ex : ∀ q : ℚ, Approx u 0 q |q| (RFl.fin q : RFl rnd) := fun q => Approx.exact hu 0 q _ le_rfl
  have h := (ex p).mul hu hr (ex s)
  have h2 := (ex q).mul hu hr (ex t)
  have h3 := h.add hu hr h2
  exact out (k := 2) h3

/-- A complex product of two rounded numbers. -/
theorem mul_err (hu : 0 ≤ u) (hr : ∀ x, |rnd x - x| ≤ u * |x|) {a b : CK (RFl rnd)} (ha : FinC a) (hb : FinC b) :
    FinC (a * b) ∧ ‖valC (a * b) - valC a * valC b‖ ≤ √2 * ((1 + (u : ℝ)) ^ 2 - 1) * (‖valC a‖ * ‖valC b‖) := by
  obtain ⟨ar, ai⟩ := a
  obtain ⟨br, bi⟩ := b
  obtain ⟨⟨p, hp⟩, ⟨q, hq⟩⟩ := ha
  obtain ⟨⟨s, hs⟩, ⟨t, ht⟩⟩ := hb
  have hp : ar = RFl.fin p := hp
  have hq : ai = RFl.fin q := hq
  have hs : br = RFl.fin s := hs
  have ht : bi = RFl.fin t := ht
  rw [hp, hq, hs, ht]
  obtain ⟨x, hx, hx1⟩ := re_err hu hr p q s t
  obtain ⟨y, hy, hy1⟩ := im_err hu hr p q t s
  rw [mul_mk, hx, hy]
  refine ⟨⟨⟨x, rfl⟩, ⟨y, rfl⟩⟩, ?_⟩
  rw [valC_fin, valC_fin, valC_fin]
  have hg : (0 : ℚ) ≤ (1 + u) ^ 2 - 1 := by nlinarith
  have hgR : (0 : ℝ) ≤ (((1 + u) ^ 2 - 1 : ℚ) : ℝ) := Rat.cast_nonneg.mpr hg
  have e : (((1 + u) ^ 2 - 1 : ℚ) : ℝ) = (1 + (u : ℝ)) ^ 2 - 1 := by push_cast; rfl
  rw [← e]
  have := cmul_bound hgR (castR (g := (1 + u) ^ 2 - 1) hx1) (castI (g := (1 + u) ^ 2 - 1) hy1)
  exact this

theorem len_pad {α : Type} [Zero α] (x : List α) (n : ℕ) : (x.take n ++ List.replicate (n - x.length) (0 : α)).length = n :=
  (C46_zero_padding x n).2.2

theorem nrm_pad (x : List ℂ) (n : ℕ) : l2 n (fun k => (x.take n ++ List.replicate (n - x.length) (0 : ℂ)).getD k 0) ≤ nrm x := by
  rw [L2.congr (g := fun k => x.getD k 0) fun k hk => pad_getD x n k (.inr hk)]
  refine (L2.mono_len (le_max_left n x.length) _).trans (le_of_eq ?_)
  unfold nrm l2
  congr 1
  symm
  apply Finset.sum_subset (Finset.range_mono (le_max_right _ _))
  intro k _ hk
  show ‖x.getD k 0‖ ^ 2 = 0
  rw [getD_of_ge _ _ (by simpa using hk)]
  simp

theorem zip_getD' {α : Type} [Zero α] [Mul α] (a b : List α) (k : ℕ) (h1 : k < a.length) (h2 : k < b.length) :
    (List.zipWith (· * ·) a b).getD k 0 = a.getD k 0 * b.getD k 0 := by
  rw [getD_of_lt _ _ (by rw [List.length_zipWith]; omega), List.getElem_zipWith, getD_of_lt _ _ h1, getD_of_lt _ _ h2]

theorem fin_getD {x : List (CK (RFl rnd))} (h : ∀ z ∈ x, FinC z) (k : ℕ) : FinC (x.getD k 0) := by
  rcases Nat.lt_or_ge k x.length with hk | hk
  · rw [getD_of_lt _ _ hk]; exact h _ (List.getElem_mem hk)
  · rw [getD_of_ge _ _ hk]; exact fin_zero

theorem fin_zip (hu : 0 ≤ u) (hr : ∀ x, |rnd x - x| ≤ u * |x|) {a b : List (CK (RFl rnd))} (ha : ∀ z ∈ a, FinC z) (hb : ∀ z ∈ b, FinC z) :
    ∀ z ∈ List.zipWith (· * ·) a b, FinC z := by
  intro z hz
  obtain ⟨k, hk, rfl⟩ := List.getElem_of_mem hz
  rw [List.getElem_zipWith]
  exact (mul_err hu hr (ha _ (List.getElem_mem _)) (hb _ (List.getElem_mem _))).1

/-- `fft` of one array, through the length-one shortcut or the library. -/
theorem fftK_ok (lib : FftLib (RFl rnd)) {ε : ℝ} (he : 0 ≤ ε) {n : ℕ} (hn : 1 ≤ n) (hacc : Accurate lib ε n) (x : List (CK (RFl rnd)))
    (hx : x.length = n) (hf : ∀ z ∈ x, FinC z) : ∃ y, fftK lib x = .ok y ∧ y.length = n ∧ (∀ z ∈ y, FinC z) ∧
      l2 n (fun k => (y.map valC).getD k 0 - L2.F n (fun j => (x.map valC).getD j 0) k) ≤ ε * l2 n (L2.F n (fun j => (x.map valC).getD j 0)) := by
  have hne : x.isEmpty = false := by cases x <;> simp at hx ⊢; omega
  have hF : ∀ k < n, (dft (x.map valC)).getD k 0 = L2.F n (fun j => (x.map valC).getD j 0) k := by
    intro k hk
    have := dft_F (x.map valC) k (by rw [List.length_map, hx]; exact hk)
    rwa [List.length_map, hx] at this
  by_cases h1 : n = 1
  · subst h1
    obtain ⟨z, rfl⟩ := List.length_eq_one_iff.mp hx
    refine ⟨[z], rfl, rfl, hf, ?_⟩
    rw [L2.congr (g := fun _ => (0 : ℂ)) fun k hk => by
      obtain rfl : k = 0 := by omega
      simp [L2.F, twiddle]]
    have : l2 1 (fun _ => (0 : ℂ)) = 0 := by simp [l2]
    rw [this]
    exact mul_nonneg he (L2.nonneg _ _)
  · obtain ⟨h2, h3, h4⟩ := hacc.fwd x hx hf
    refine ⟨lib.fwd x, ?_, h2, h3, ?_⟩
    · unfold fftK
      rw [hne, hx, if_neg h1]
      rfl
    · rw [L2.congr (g := fun k => (dft (x.map valC)).getD k 0) (f := L2.F n _) fun k hk => (hF k hk).symm,
        L2.congr (g := fun k => ((lib.fwd x).map valC).getD k 0 - (dft (x.map valC)).getD k 0) fun k hk => by rw [hF k hk]]
      exact h4

end FftF

/-- The error bound of C133: three transforms of accuracy `ε` and one complex product in arithmetic of unit roundoff `u`. -/
noncomputable def Spec.fftConvBound (ε u : ℝ) : ℝ := (1 + ε) ^ 3 * (1 + √2 * ((1 + u) ^ 2 - 1)) - 1

namespace FftF

theorem fftSize {fuel n m s : ℕ} (h0 : 0 < n + m) (hsz : n + m ≤ 2 ^ 30) (hf : n + m ≤ fuel)
    (hs : nextFastLen (2 ^ 64 - 1) fuel ((n + m - 1 : ℕ) : ℤ) = .ok (some s)) :
    fftconvSize fuel n m = .ok (n + m - 1, s) ∧ n + m - 1 ≤ s ∧ 1 ≤ s ∧ s < 2 ^ 31 := by
  obtain ⟨t, t1, t2⟩ := fftconvSize_ok fuel n m h0 hsz hf
  have : fftconvSize fuel n m = .ok (n + m - 1, s) := by
    unfold fftconvSize
    rw [decide_eq_true h0]
    simp only [require_true, Res.bind_ok, hs, Res.pure_eq]
  rw [this] at t1
  have e : s = t := by injection t1 with t1; exact (Prod.mk.inj t1).2
  subst e
  exact ⟨this, t2⟩

theorem pos_of_ne {α : Type} {a v : List α} (h : ¬ (a = [] ∧ v = [])) : 0 < a.length + v.length := by
  by_contra hc
  exact h ⟨List.length_eq_zero_iff.mp (by omega), List.length_eq_zero_iff.mp (by omega)⟩

theorem bound_nonneg {ε : ℝ} (he : 0 ≤ ε) (hu : 0 ≤ u) : 0 ≤ fftConvBound ε u := by
  unfold fftConvBound
  have hu' : (0 : ℝ) ≤ u := Rat.cast_nonneg.mpr hu
  have h1 : (1 : ℝ) ≤ (1 + ε) ^ 3 := one_le_pow₀ (by linarith)
  have h2 : (0 : ℝ) ≤ √2 * ((1 + (u : ℝ)) ^ 2 - 1) := mul_nonneg (Real.sqrt_nonneg _) (by nlinarith)
  nlinarith

end FftF

/-- C133, complex data: `convolve<FFT>(a, v)` in floating point has the length of the exact convolution, is finite, and is within
`((1+ε)³(1+√2((1+u)²−1))−1)·√s·‖a‖·‖v‖` of it in the Euclidean norm, where `s` is the length of the transforms and `ε` their accuracy. -/
theorem C133_convolve_complex (hu : 0 ≤ u) (hr : ∀ x, |rnd x - x| ≤ u * |x|) (lib : FftLib (RFl rnd)) {ε : ℝ} (he : 0 ≤ ε) (fuel s : ℕ)
    (a v : List (CK (RFl rnd))) (h : ¬ (a = [] ∧ v = [])) (hsz : a.length + v.length ≤ 2 ^ 30) (hf : a.length + v.length ≤ fuel)
    (hs : nextFastLen (2 ^ 64 - 1) fuel ((a.length + v.length - 1 : ℕ) : ℤ) = .ok (some s)) (hacc : Accurate lib ε s)
    (ha : ∀ z ∈ a, FinC z) (hv : ∀ z ∈ v, FinC z) :
    ∃ r c, fftconvolveCK lib fuel a v = .ok r ∧ convolve (a.map valC) (v.map valC) = .ok c ∧ r.length = c.length ∧ (∀ z ∈ r, FinC z) ∧
      l2 r.length (fun k => (r.map valC).getD k 0 - c.getD k 0) ≤ fftConvBound ε u * √s * (nrm (a.map valC) * nrm (v.map valC)) := by
  obtain ⟨z1, z2, z3, z4⟩ := FftF.fftSize (FftF.pos_of_ne h) hsz hf hs
  obtain ⟨c, c1, c2, c3⟩ := convolve_poly (a.map valC) (v.map valC) (by simpa using h)
  rw [List.length_map, List.length_map] at c2
  obtain ⟨A, A1, A2, A3, A4⟩ := FftF.fftK_ok lib he z3 hacc _ (FftF.len_pad a s) (FftF.mem_pad FftF.fin_zero ha s)
  obtain ⟨V, V1, V2, V3, V4⟩ := FftF.fftK_ok lib he z3 hacc _ (FftF.len_pad v s) (FftF.mem_pad FftF.fin_zero hv s)
  rw [FftF.map_pad valC FftF.valC_zero] at A4 V4
  set P := List.zipWith (· * ·) A V with hP
  have hPl : P.length = s := by rw [hP, List.length_zipWith, A2, V2, min_self]
  obtain ⟨R1, R2, R3⟩ := hacc.inv P hPl (FftF.fin_zip hu hr A3 V3)
  have hmul : mulLists A V = .ok P := by simp only [mulLists, A2, V2, beq_self_eq_true, require_true, Res.bind_ok, Res.pure_eq, hP]
  refine ⟨(lib.inv P).take (a.length + v.length - 1), c, ?_, c1, ?_, fun z hz => R2 z (List.mem_of_mem_take hz), ?_⟩
  · unfold fftconvolveCK
    rw [z1]
    simp -implicitDefEqProofs only [Res.bind_ok]
    rw [(C46_zero_padding a s).1, (C46_zero_padding v s).1]
    simp -implicitDefEqProofs only [Res.bind_ok]
    rw [A1, V1]
    simp -implicitDefEqProofs only [Res.bind_ok]
    rw [hmul]
    simp -implicitDefEqProofs only [Res.bind_ok]
    unfold ifftK
    rw [hPl, if_pos (.inl rfl)]
    simp -implicitDefEqProofs only [Res.bind_ok, Res.pure_eq]
    unfold zeroPadMove
    rw [R1, if_pos z2]
  · rw [List.length_take, R1, c2]; omega
  · have hl : ((lib.inv P).take (a.length + v.length - 1)).length = a.length + v.length - 1 := by rw [List.length_take, R1]; omega
    rw [hl]
    have key := L2.chain s (by omega) he (g := √2 * ((1 + (u : ℝ)) ^ 2 - 1))
      (mul_nonneg (Real.sqrt_nonneg _) (by have : (0 : ℝ) ≤ u := Rat.cast_nonneg.mpr hu
                                           nlinarith))
      (c := fun j => c.getD j 0) (P := fun k => (P.map valC).getD k 0) (R := fun k => ((lib.inv P).map valC).getD k 0) A4 V4
      (fun k hk => by
        rw [FftF.map_getD valC FftF.valC_zero, FftF.map_getD valC FftF.valC_zero, FftF.map_getD valC FftF.valC_zero, hP,
          FftF.zip_getD' _ _ _ (by omega) (by omega)]
        exact (FftF.mul_err hu hr (FftF.fin_getD A3 k) (FftF.fin_getD V3 k)).2)
      (fun k hk => by
        have := dft_conv (a.map valC) (v.map valC) c s (by simpa using z2) (by simpa using c2) c3 k hk
        rw [FftF.dft_F _ _ (by rw [FftF.len_pad]; exact hk), FftF.dft_F _ _ (by rw [FftF.len_pad]; exact hk),
          FftF.dft_F _ _ (by rw [FftF.len_pad]; exact hk), FftF.len_pad, FftF.len_pad, FftF.len_pad] at this
        rw [this]
        unfold L2.F
        refine Finset.sum_congr rfl fun j hj => ?_
        show (c.take s ++ List.replicate (s - c.length) 0).getD j 0 * _ = c.getD j 0 * _
        rw [pad_getD c s j (.inr (Finset.mem_range.mp hj))])
      (.inl (by
        have e : ∀ k < s, (idft (P.map valC)).getD k 0 = L2.G s (fun j => (P.map valC).getD j 0) k := by
          intro k hk
          have := FftF.idft_G (P.map valC) k (by rw [List.length_map, hPl]; exact hk)
          rwa [List.length_map, hPl] at this
        rw [L2.congr (g := fun k => (idft (P.map valC)).getD k 0) (f := L2.G s _) fun k hk => (e k hk).symm,
          L2.congr (g := fun k => ((lib.inv P).map valC).getD k 0 - (idft (P.map valC)).getD k 0) fun k hk => by rw [e k hk]]
        exact R3))
    calc _ ≤ l2 s (fun k => ((lib.inv P).map valC).getD k 0 - c.getD k 0) := by
            refine le_trans (le_of_eq (L2.congr fun k hk => ?_)) (L2.mono_len z2 _)
            rw [List.map_take, take_getD _ _ _ hk]
      _ ≤ _ := key
      _ ≤ _ := by
            rw [mul_assoc]
            refine mul_le_mul_of_nonneg_left ?_ (FftF.bound_nonneg he hu)
            refine mul_le_mul_of_nonneg_left ?_ (Real.sqrt_nonneg _)
            exact mul_le_mul (FftF.nrm_pad _ _) (FftF.nrm_pad _ _) (L2.nonneg _ _) (L2.nonneg _ _)

namespace FftF

theorem finR_zero : FinR (0 : RFl rnd) := ⟨0, rfl⟩

theorem herm_getD (n : ℕ) (y : List ℂ) (k : ℕ) (hk : k < n) :
    (hermExt n y).getD k 0 = if k ≤ n / 2 then y.getD k 0 else (starRingEnd ℂ) (y.getD (n - k) 0) := by
  unfold hermExt; rw [getD_map_range _ _ _ _ hk]

theorem map_ofReal (x : List (RFl rnd)) : (x.map fun t => (valR t : ℂ)) = (x.map valR).map (fun t : ℝ => (t : ℂ)) := by
  rw [List.map_map]; rfl

theorem rfftK_ok (lib : FftLib (RFl rnd)) {ε : ℝ} (he : 0 ≤ ε) {n : ℕ} (hn : 1 ≤ n) (hacc : Accurate lib ε n) (x : List (RFl rnd))
    (hx : x.length = n) (hf : ∀ z ∈ x, FinR z) : ∃ y, rfftK lib x = .ok y ∧ y.length = n / 2 + 1 ∧ (∀ z ∈ y, FinC z) ∧
      l2 n (fun k => (hermExt n (y.map valC)).getD k 0 - L2.F n (fun j => (x.map fun t => (valR t : ℂ)).getD j 0) k) ≤
        ε * l2 n (L2.F n (fun j => (x.map fun t => (valR t : ℂ)).getD j 0)) := by
  have hne : x.isEmpty = false := by cases x <;> simp at hx ⊢; omega
  have hF : ∀ k < n, (dft (x.map fun t => (valR t : ℂ))).getD k 0 = L2.F n (fun j => (x.map fun t => (valR t : ℂ)).getD j 0) k := by
    intro k hk
    have := dft_F (x.map fun t => (valR t : ℂ)) k (by rw [List.length_map, hx]; exact hk)
    rwa [List.length_map, hx] at this
  by_cases h1 : n = 1
  · subst h1
    obtain ⟨z, rfl⟩ := List.length_eq_one_iff.mp hx
    refine ⟨[⟨z, 0⟩], rfl, rfl, fun w hw => ?_, ?_⟩
    · rw [List.mem_singleton.mp hw]
      exact ⟨hf z (by simp), finR_zero⟩
    rw [L2.congr (g := fun _ => (0 : ℂ)) fun k hk => by
      obtain rfl : k = 0 := by omega
      have e : valC (⟨z, 0⟩ : CK (RFl rnd)) = (valR z : ℂ) := Complex.ext rfl (valR_zero (rnd := rnd))
      simp [L2.F, twiddle, hermExt, e]]
    have : l2 1 (fun _ => (0 : ℂ)) = 0 := by simp [l2]
    rw [this]
    exact mul_nonneg he (L2.nonneg _ _)
  · obtain ⟨h2, h3, h4⟩ := hacc.rfwd x hx hf
    refine ⟨lib.rfwd x, ?_, h2, h3, ?_⟩
    · unfold rfftK
      rw [hne, hx, if_neg h1]
      rfl
    · rw [L2.congr (g := fun k => (dft (x.map fun t => (valR t : ℂ))).getD k 0) (f := L2.F n _) fun k hk => (hF k hk).symm,
        L2.congr (g := fun k => (hermExt n ((lib.rfwd x).map valC)).getD k 0 - (dft (x.map fun t => (valR t : ℂ))).getD k 0) fun k hk => by rw [hF k hk]]
      exact h4

/-- `irfft` of a half spectrum to `s` points. -/
theorem irfftK_ok (lib : FftLib (RFl rnd)) {ε : ℝ} {s : ℕ} (hs : 1 ≤ s) (hs2 : s < 2 ^ 31) (hacc : Accurate lib ε s) (P : List (CK (RFl rnd)))
    (hP : P.length = s / 2 + 1) (hf : ∀ z ∈ P, FinC z) : ∃ y, irfftK lib P (toI32 s) = .ok y ∧ y.length = s ∧ (∀ z ∈ y, FinR z) ∧
      l2 s (fun k => ((y.map valR).getD k 0 : ℂ) - ((L2.G s (fun j => (hermExt s (P.map valC)).getD j 0) k).re : ℂ)) ≤
        ε * l2 s (L2.G s (fun j => (hermExt s (P.map valC)).getD j 0)) := by
  have h32 : toI32 (s : ℤ) = s := toI32_small s hs2
  have h32' : toI32 ((s / 2 + 1 : ℕ) : ℤ) = ((s / 2 + 1 : ℕ) : ℤ) := toI32_small _ (by omega)
  have main : ∀ Q : List (CK (RFl rnd)), Q.length = s → (∀ z ∈ Q, FinC z) → (∀ k ≤ s / 2, Q.getD k 0 = P.getD k 0) →
      ∃ y, eigenInvRealK lib Q = .ok y ∧ y.length = s ∧ (∀ z ∈ y, FinR z) ∧
      l2 s (fun k => ((y.map valR).getD k 0 : ℂ) - ((L2.G s (fun j => (hermExt s (P.map valC)).getD j 0) k).re : ℂ)) ≤
        ε * l2 s (L2.G s (fun j => (hermExt s (P.map valC)).getD j 0)) := by
    intro Q q1 q2 q3
    obtain ⟨r1, r2, r3⟩ := hacc.rinv Q q1 q2
    refine ⟨lib.rinv Q, ?_, r1, r2, ?_⟩
    · unfold eigenInvRealK; rw [if_neg (by omega)]
    have hh : hermExt s (Q.map valC) = hermExt s (P.map valC) := by
      apply list_ext_getD (by simp [hermExt])
      intro k hk
      have hk : k < s := by simpa [hermExt] using hk
      rw [herm_getD _ _ _ hk, herm_getD _ _ _ hk]
      by_cases hk2 : k ≤ s / 2
      · rw [if_pos hk2, if_pos hk2, map_getD valC valC_zero, map_getD valC valC_zero, q3 k hk2]
      · rw [if_neg hk2, if_neg hk2, map_getD valC valC_zero, map_getD valC valC_zero, q3 (s - k) (by omega)]
    rw [hh] at r3
    have hl : (hermExt s (P.map valC)).length = s := by simp [hermExt]
    have e : ∀ k < s, (idft (hermExt s (P.map valC))).getD k 0 = L2.G s (fun j => (hermExt s (P.map valC)).getD j 0) k := by
      intro k hk
      have := idft_G (hermExt s (P.map valC)) k (by rw [hl]; exact hk)
      rwa [hl] at this
    rw [L2.congr (g := fun k => (idft (hermExt s (P.map valC))).getD k 0) (f := L2.G s _) fun k hk => (e k hk).symm,
      L2.congr (g := fun k => (((lib.rinv Q).map valR).getD k 0 : ℂ) - (((idft (hermExt s (P.map valC))).getD k 0).re : ℂ)) fun k hk => by rw [e k hk]]
    exact r3
  unfold irfftK
  rw [hP, h32, h32']
  by_cases h1 : ((s / 2 + 1 : ℕ) : ℤ) = s
  · rw [if_pos h1]
    exact main P (by omega) hf fun _ _ => rfl
  · rw [if_neg h1, if_neg (by omega)]
    simp -implicitDefEqProofs only [Res.bind_ok, Int.toNat_natCast]
    rw [(C46_zero_padding P s).1]
    simp -implicitDefEqProofs only [Res.bind_ok]
    exact main _ (len_pad P s) (mem_pad fin_zero hf s) fun k hk => pad_getD _ _ _ (.inl (by omega))

theorem ofReal_getD (c : List ℝ) (k : ℕ) : (c.map fun t : ℝ => (t : ℂ)).getD k 0 = ((c.getD k 0 : ℝ) : ℂ) :=
  map_getD (fun t : ℝ => (t : ℂ)) Complex.ofReal_zero c k

end FftF

/-- C133, real data. -/
theorem C133_convolve_real (hu : 0 ≤ u) (hr : ∀ x, |rnd x - x| ≤ u * |x|) (lib : FftLib (RFl rnd)) {ε : ℝ} (he : 0 ≤ ε) (fuel s : ℕ)
    (a v : List (RFl rnd)) (h : ¬ (a = [] ∧ v = [])) (hsz : a.length + v.length ≤ 2 ^ 30) (hf : a.length + v.length ≤ fuel)
    (hs : nextFastLen (2 ^ 64 - 1) fuel ((a.length + v.length - 1 : ℕ) : ℤ) = .ok (some s)) (hacc : Accurate lib ε s)
    (ha : ∀ z ∈ a, FinR z) (hv : ∀ z ∈ v, FinR z) :
    ∃ r c, fftconvolveRK lib fuel a v = .ok r ∧ convolve (a.map valR) (v.map valR) = .ok c ∧ r.length = c.length ∧ (∀ z ∈ r, FinR z) ∧
      l2 r.length (fun k => ((r.map valR).getD k 0 - c.getD k 0 : ℝ)) ≤
        fftConvBound ε u * √s * (nrm (a.map fun t => (valR t : ℂ)) * nrm (v.map fun t => (valR t : ℂ))) := by
  obtain ⟨z1, z2, z3, z4⟩ := FftF.fftSize (FftF.pos_of_ne h) hsz hf hs
  obtain ⟨c, c1, c2, c3⟩ := convolve_poly (a.map valR) (v.map valR) (by simpa using h)
  rw [List.length_map, List.length_map] at c2
  have hv0 : ((valR (0 : RFl rnd) : ℝ) : ℂ) = 0 := by rw [FftF.valR_zero]; exact Complex.ofReal_zero
  obtain ⟨A, A1, A2, A3, A4⟩ := FftF.rfftK_ok lib he z3 hacc _ (FftF.len_pad a s) (FftF.mem_pad FftF.finR_zero ha s)
  obtain ⟨V, V1, V2, V3, V4⟩ := FftF.rfftK_ok lib he z3 hacc _ (FftF.len_pad v s) (FftF.mem_pad FftF.finR_zero hv s)
  rw [FftF.map_pad (fun t => ((valR t : ℝ) : ℂ)) hv0] at A4 V4
  set P := List.zipWith (· * ·) A V with hP
  have hPl : P.length = s / 2 + 1 := by rw [hP, List.length_zipWith, A2, V2, min_self]
  obtain ⟨R, R0, R1, R2, R3⟩ := FftF.irfftK_ok lib z3 z4 hacc P hPl (FftF.fin_zip hu hr A3 V3)
  have hmul : mulLists A V = .ok P := by simp only [mulLists, A2, V2, beq_self_eq_true, require_true, Res.bind_ok, Res.pure_eq, hP]
  refine ⟨R.take (a.length + v.length - 1), c, ?_, c1, ?_, fun z hz => R2 z (List.mem_of_mem_take hz), ?_⟩
  · unfold fftconvolveRK
    rw [z1]
    simp -implicitDefEqProofs only [Res.bind_ok]
    rw [(C46_zero_padding a s).1, (C46_zero_padding v s).1]
    simp -implicitDefEqProofs only [Res.bind_ok]
    rw [A1, V1]
    simp -implicitDefEqProofs only [Res.bind_ok]
    rw [hmul]
    simp -implicitDefEqProofs only [Res.bind_ok]
    rw [R0]
    simp -implicitDefEqProofs only [Res.bind_ok, Res.pure_eq]
    unfold zeroPadMove
    rw [R1, if_pos z2]
  · rw [List.length_take, R1, c2]; omega
  · have hl : (R.take (a.length + v.length - 1)).length = a.length + v.length - 1 := by rw [List.length_take, R1]; omega
    rw [hl]
    have half : ∀ k ≤ s / 2, ‖(P.map valC).getD k 0 - (A.map valC).getD k 0 * (V.map valC).getD k 0‖ ≤
        √2 * ((1 + (u : ℝ)) ^ 2 - 1) * (‖(A.map valC).getD k 0‖ * ‖(V.map valC).getD k 0‖) := by
      intro k hk
      rw [FftF.map_getD valC FftF.valC_zero, FftF.map_getD valC FftF.valC_zero, FftF.map_getD valC FftF.valC_zero, hP,
        FftF.zip_getD' _ _ _ (by omega) (by omega)]
      exact (FftF.mul_err hu hr (FftF.fin_getD A3 k) (FftF.fin_getD V3 k)).2
    have key := L2.chain s (by omega) he (g := √2 * ((1 + (u : ℝ)) ^ 2 - 1))
      (mul_nonneg (Real.sqrt_nonneg _) (by have : (0 : ℝ) ≤ u := Rat.cast_nonneg.mpr hu
                                           nlinarith))
      (c := fun j => ((c.getD j 0 : ℝ) : ℂ)) (P := fun k => (hermExt s (P.map valC)).getD k 0) (R := fun k => ((R.map valR).getD k 0 : ℂ)) A4 V4
      (fun k hk => by
        rw [FftF.herm_getD _ _ _ hk, FftF.herm_getD _ _ _ hk, FftF.herm_getD _ _ _ hk]
        by_cases hk2 : k ≤ s / 2
        · rw [if_pos hk2, if_pos hk2, if_pos hk2]; exact half k hk2
        · rw [if_neg hk2, if_neg hk2, if_neg hk2, ← map_mul, ← map_sub, RCLike.norm_conj, RCLike.norm_conj, RCLike.norm_conj]
          exact half (s - k) (by omega))
      (fun k hk => by
        have := dft_conv (a.map fun t => ((valR t : ℝ) : ℂ)) (v.map fun t => ((valR t : ℝ) : ℂ)) (c.map fun t : ℝ => (t : ℂ)) s
          (by simpa using z2) (by simpa using c2)
          (by rw [FftF.map_ofReal, FftF.map_ofReal, polyOf_map, polyOf_map, polyOf_map, c3, Polynomial.map_mul]) k hk
        rw [FftF.dft_F _ _ (by rw [FftF.len_pad]; exact hk), FftF.dft_F _ _ (by rw [FftF.len_pad]; exact hk),
          FftF.dft_F _ _ (by rw [FftF.len_pad]; exact hk), FftF.len_pad, FftF.len_pad, FftF.len_pad] at this
        rw [this]
        unfold L2.F
        refine Finset.sum_congr rfl fun j hj => ?_
        show ((c.map fun t : ℝ => (t : ℂ)).take s ++ List.replicate (s - (c.map fun t : ℝ => (t : ℂ)).length) 0).getD j 0 * _ = ((c.getD j 0 : ℝ) : ℂ) * _
        rw [pad_getD _ s j (.inr (Finset.mem_range.mp hj)), FftF.ofReal_getD])
      (.inr ⟨fun j _ => Complex.ofReal_im _, R3⟩)
    calc _ ≤ l2 s (fun k => ((R.map valR).getD k 0 : ℂ) - ((c.getD k 0 : ℝ) : ℂ)) := by
            refine le_trans (le_of_eq (L2.congr fun k hk => ?_)) (L2.mono_len z2 _)
            rw [List.map_take, take_getD _ _ _ hk, Complex.ofReal_sub]
      _ ≤ _ := key
      _ ≤ _ := by
            rw [mul_assoc]
            refine mul_le_mul_of_nonneg_left ?_ (FftF.bound_nonneg he hu)
            refine mul_le_mul_of_nonneg_left ?_ (Real.sqrt_nonneg _)
            exact mul_le_mul (FftF.nrm_pad _ _) (FftF.nrm_pad _ _) (L2.nonneg _ _) (L2.nonneg _ _)

/-- C133: every element is within the bound. -/
theorem C133_element (hu : 0 ≤ u) (hr : ∀ x, |rnd x - x| ≤ u * |x|) (lib : FftLib (RFl rnd)) {ε : ℝ} (he : 0 ≤ ε) (fuel s : ℕ)
    (a v : List (RFl rnd)) (h : ¬ (a = [] ∧ v = [])) (hsz : a.length + v.length ≤ 2 ^ 30) (hf : a.length + v.length ≤ fuel)
    (hs : nextFastLen (2 ^ 64 - 1) fuel ((a.length + v.length - 1 : ℕ) : ℤ) = .ok (some s)) (hacc : Accurate lib ε s)
    (ha : ∀ z ∈ a, FinR z) (hv : ∀ z ∈ v, FinR z) :
    ∃ r c, fftconvolveRK lib fuel a v = .ok r ∧ convolve (a.map valR) (v.map valR) = .ok c ∧ r.length = a.length + v.length - 1 ∧
      c.length = a.length + v.length - 1 ∧ ∀ k < a.length + v.length - 1, |(r.map valR).getD k 0 - c.getD k 0| ≤
        fftConvBound ε u * √s * (nrm (a.map fun t => (valR t : ℂ)) * nrm (v.map fun t => (valR t : ℂ))) := by
  obtain ⟨r, c, h1, h2, h3, -, h5⟩ := C133_convolve_real hu hr lib he fuel s a v h hsz hf hs hacc ha hv
  obtain ⟨c', c1, c2, -⟩ := convolve_poly (a.map valR) (v.map valR) (by simpa using h)
  rw [List.length_map, List.length_map] at c2
  obtain rfl : c = c' := by rw [h2] at c1; exact Res.ok.inj c1
  refine ⟨r, c, h1, h2, by omega, c2, fun k hk => le_trans ?_ h5⟩
  have := L2.one_le (show k < r.length by omega) (fun k => (((r.map valR).getD k 0 - c.getD k 0 : ℝ) : ℂ))
  rwa [Complex.norm_real, Real.norm_eq_abs] at this

/-- C133: integer data.  When the bound is under one half, rounding the result of `convolve<FFT>` to the nearest integer gives the exact convolution. -/
theorem C133_integers (hu : 0 ≤ u) (hr : ∀ x, |rnd x - x| ≤ u * |x|) (lib : FftLib (RFl rnd)) {ε : ℝ} (he : 0 ≤ ε) (fuel s : ℕ)
    (a v : List ℤ) (h : ¬ (a = [] ∧ v = [])) (hsz : a.length + v.length ≤ 2 ^ 30) (hf : a.length + v.length ≤ fuel)
    (hs : nextFastLen (2 ^ 64 - 1) fuel ((a.length + v.length - 1 : ℕ) : ℤ) = .ok (some s)) (hacc : Accurate lib ε s)
    (hb : fftConvBound ε u * √s * (nrm (a.map fun t : ℤ => (t : ℂ)) * nrm (v.map fun t : ℤ => (t : ℂ))) < 1 / 2) :
    ∃ r c, fftconvolveRK lib fuel (a.map fun t : ℤ => (RFl.fin (t : ℚ) : RFl rnd)) (v.map fun t : ℤ => (RFl.fin (t : ℚ) : RFl rnd)) = .ok r ∧ convolve a v = .ok c ∧
      r.map (fun x => round (valR x)) = c := by
  obtain ⟨r, c, h1, h2, h3, h4, h5⟩ := C133_element hu hr lib he fuel s (a.map fun t : ℤ => (RFl.fin (t : ℚ) : RFl rnd)) (v.map fun t : ℤ => (RFl.fin (t : ℚ) : RFl rnd))
    (by simpa using h) (by simpa using hsz) (by simpa using hf) (by simpa using hs) hacc
    (by intro z hz; obtain ⟨t, -, rfl⟩ := List.mem_map.mp hz; exact ⟨_, rfl⟩)
    (by intro z hz; obtain ⟨t, -, rfl⟩ := List.mem_map.mp hz; exact ⟨_, rfl⟩)
  obtain ⟨d, d1, d2, d3⟩ := convolve_poly a v h
  have eR : ∀ x : List ℤ, ((x.map fun t : ℤ => (RFl.fin t : RFl rnd)).map valR) = x.map fun t : ℤ => (t : ℝ) := by
    intro x; rw [List.map_map]; exact List.map_congr_left fun t _ => by show ((t : ℚ) : ℝ) = (t : ℝ); exact Rat.cast_intCast t
  have eC : ∀ x : List ℤ, ((x.map fun t : ℤ => (RFl.fin t : RFl rnd)).map fun t => (valR t : ℂ)) = x.map fun t : ℤ => (t : ℂ) := by
    intro x; rw [FftF.map_ofReal, eR, List.map_map]; exact List.map_congr_left fun t _ => by simp
  rw [eC, eC] at h5
  rw [eR, eR] at h2
  simp only [List.length_map] at h3 h4 h5
  have pm : ∀ x : List ℤ, polyOf (x.map fun t : ℤ => (t : ℝ)) = (polyOf x).map (Int.castRingHom ℝ) := by
    intro x
    induction x with
    | nil => simp [polyOf]
    | cons a l ih => simp [polyOf, ih]
  have hc : c = d.map fun t : ℤ => (t : ℝ) := by
    obtain ⟨c', c1, c2, c3⟩ := convolve_poly (a.map fun t : ℤ => (t : ℝ)) (v.map fun t : ℤ => (t : ℝ)) (by simpa using h)
    obtain rfl : c = c' := by rw [h2] at c1; exact Res.ok.inj c1
    apply list_ext_getD
    · rw [c2]; simp [d2]
    · intro k _
      rw [← coeff_polyOf, ← coeff_polyOf, c3, pm, pm, pm, d3, Polynomial.map_mul]
  refine ⟨r, d, h1, d1, ?_⟩
  apply list_ext_getD
  · rw [List.length_map, h3, d2]
  · intro k hk
    rw [List.length_map, h3] at hk
    have h6 := (h5 k hk).trans_lt hb
    rw [hc, FftF.map_getD (fun t : ℤ => (t : ℝ)) Int.cast_zero] at h6
    rw [FftF.map_getD valR FftF.valR_zero] at h6
    rw [FftF.map_getD (fun x => round (valR x)) (by rw [FftF.valR_zero]; exact round_zero)]
    rw [round_eq_iff, Set.mem_Ico]
    obtain ⟨h7, h8⟩ := abs_lt.mp h6
    constructor <;> linarith

namespace FftF

theorem nrm_reverse (x : List ℂ) : nrm x.reverse = nrm x := by
  unfold nrm l2
  rw [List.length_reverse]
  congr 1
  rw [← Finset.sum_range_reflect]
  refine Finset.sum_congr rfl fun k hk => ?_
  have hk := Finset.mem_range.mp hk
  beta_reduce
  rw [getD_of_lt _ _ (by rw [List.length_reverse]; omega), List.getElem_reverse, getD_of_lt _ _ hk]
  congr 3
  omega

theorem nrm_conj (x : List ℂ) : nrm (x.map (starRingEnd ℂ)) = nrm x := by
  unfold nrm l2
  rw [List.length_map]
  congr 1
  refine Finset.sum_congr rfl fun k _ => ?_
  beta_reduce
  rw [map_getD (starRingEnd ℂ) (map_zero _), RCLike.norm_conj]

theorem valC_conj {z : CK (RFl rnd)} (h : FinC z) : FinC z.conj ∧ valC z.conj = (starRingEnd ℂ) (valC z) := by
  obtain ⟨a, b⟩ := z
  obtain ⟨⟨p, hp⟩, ⟨q, hq⟩⟩ := h
  have hp : a = RFl.fin p := hp
  have hq : b = RFl.fin q := hq
  rw [hp, hq]
  have e : (CK.conj ⟨RFl.fin p, RFl.fin q⟩ : CK (RFl rnd)) = ⟨RFl.fin p, RFl.fin (-q)⟩ := rfl
  rw [e]
  refine ⟨⟨⟨p, rfl⟩, ⟨-q, rfl⟩⟩, ?_⟩
  rw [valC_fin, valC_fin]
  exact Complex.ext rfl (by simp)

end FftF

/-- C133, correlation of complex data. -/
theorem C133_correlate_complex (hu : 0 ≤ u) (hr : ∀ x, |rnd x - x| ≤ u * |x|) (lib : FftLib (RFl rnd)) {ε : ℝ} (he : 0 ≤ ε) (fuel s : ℕ)
    (a v : List (CK (RFl rnd))) (h : ¬ (a = [] ∧ v = [])) (hsz : a.length + v.length ≤ 2 ^ 30) (hf : a.length + v.length ≤ fuel)
    (hs : nextFastLen (2 ^ 64 - 1) fuel ((a.length + v.length - 1 : ℕ) : ℤ) = .ok (some s)) (hacc : Accurate lib ε s)
    (ha : ∀ z ∈ a, FinC z) (hv : ∀ z ∈ v, FinC z) :
    ∃ r c, fftcorrelateCK lib fuel a v = .ok r ∧ correlate (starRingEnd ℂ) (a.map valC) (v.map valC) = .ok c ∧ r.length = c.length ∧ (∀ z ∈ r, FinC z) ∧
      l2 r.length (fun k => (r.map valC).getD k 0 - c.getD k 0) ≤ fftConvBound ε u * √s * (nrm (a.map valC) * nrm (v.map valC)) := by
  have hv' : ∀ z ∈ v.reverse.map CK.conj, FinC z := by
    intro z hz
    obtain ⟨w, hw, rfl⟩ := List.mem_map.mp hz
    exact (FftF.valC_conj (hv w (List.mem_reverse.mp hw))).1
  have hm : (v.reverse.map CK.conj).map valC = (v.map valC).reverse.map (starRingEnd ℂ) := by
    rw [← List.map_reverse, List.map_map, List.map_map]
    exact List.map_congr_left fun w hw => (FftF.valC_conj (hv w (List.mem_reverse.mp hw))).2
  have := C133_convolve_complex hu hr lib he fuel s a (v.reverse.map CK.conj) (by simpa using h) (by simpa using hsz) (by simpa using hf)
    (by simpa using hs) hacc ha hv'
  rw [hm, FftF.nrm_conj, FftF.nrm_reverse] at this
  exact this

/-- C133, correlation of real data. -/
theorem C133_correlate_real (hu : 0 ≤ u) (hr : ∀ x, |rnd x - x| ≤ u * |x|) (lib : FftLib (RFl rnd)) {ε : ℝ} (he : 0 ≤ ε) (fuel s : ℕ)
    (a v : List (RFl rnd)) (h : ¬ (a = [] ∧ v = [])) (hsz : a.length + v.length ≤ 2 ^ 30) (hf : a.length + v.length ≤ fuel)
    (hs : nextFastLen (2 ^ 64 - 1) fuel ((a.length + v.length - 1 : ℕ) : ℤ) = .ok (some s)) (hacc : Accurate lib ε s)
    (ha : ∀ z ∈ a, FinR z) (hv : ∀ z ∈ v, FinR z) :
    ∃ r c, fftcorrelateRK lib fuel a v = .ok r ∧ correlate id (a.map valR) (v.map valR) = .ok c ∧ r.length = c.length ∧ (∀ z ∈ r, FinR z) ∧
      l2 r.length (fun k => ((r.map valR).getD k 0 - c.getD k 0 : ℝ)) ≤
        fftConvBound ε u * √s * (nrm (a.map fun t => (valR t : ℂ)) * nrm (v.map fun t => (valR t : ℂ))) := by
  have := C133_convolve_real hu hr lib he fuel s a v.reverse (by simpa using h) (by simpa using hsz) (by simpa using hf)
    (by simpa using hs) hacc ha fun z hz => hv z (List.mem_reverse.mp hz)
  rw [List.map_reverse, List.map_reverse, FftF.nrm_reverse] at this
  unfold correlate fftcorrelateRK
  rw [List.map_id]
  exact this

/-! ### A transform that meets the hypotheses, and what accuracy in norm does not give -/

/-- Transforms of two points by one butterfly, in rounded arithmetic. -/
def butterfly2 (rnd : ℚ → ℚ) : FftLib (RFl rnd) where
  fwd x := match x with
    | [a, b] => [⟨a.re + b.re, a.im + b.im⟩, ⟨a.re - b.re, a.im - b.im⟩]
    | _ => []
  rfwd x := match x with
    | [a, b] => [⟨a + b, RFl.fin 0⟩, ⟨a - b, RFl.fin 0⟩]
    | _ => []
  inv y := match y with
    | [a, b] => [⟨(a.re + b.re) * RFl.fin (1 / 2), (a.im + b.im) * RFl.fin (1 / 2)⟩, ⟨(a.re - b.re) * RFl.fin (1 / 2), (a.im - b.im) * RFl.fin (1 / 2)⟩]
    | _ => []
  rinv y := match y with
    | [a, b] => [(a.re + b.re) * RFl.fin (1 / 2), (a.re - b.re) * RFl.fin (1 / 2)]
    | _ => []

namespace FftF

theorem l2_rel {n : ℕ} {g : ℝ} (hg : 0 ≤ g) {f h : ℕ → ℂ} (H : ∀ k < n, ‖f k‖ ≤ g * ‖h k‖) : l2 n f ≤ g * l2 n h := by
  rw [← L2.smul n g hg h]
  refine L2.mono _ _ _ fun k hk => (H k hk).trans (le_of_eq ?_)
  rw [norm_mul, Complex.norm_real, Real.norm_eq_abs, abs_of_nonneg hg]

theorem parts {g x y X Y : ℝ} (hg : 0 ≤ g) (hx : |x - X| ≤ g * |X|) (hy : |y - Y| ≤ g * |Y|) :
    ‖(⟨x, y⟩ : ℂ) - ⟨X, Y⟩‖ ≤ g * ‖(⟨X, Y⟩ : ℂ)‖ := by
  have hd : (⟨x, y⟩ : ℂ) - ⟨X, Y⟩ = ⟨x - X, y - Y⟩ := Complex.ext (by simp) (by simp)
  rw [hd, norm_mk, norm_mk]
  apply Real.sqrt_le_iff.mpr
  refine ⟨by positivity, ?_⟩
  have h1 := pow_le_pow_left₀ (abs_nonneg _) hx 2
  have h2 := pow_le_pow_left₀ (abs_nonneg _) hy 2
  rw [sq_abs, mul_pow, sq_abs] at h1 h2
  rw [mul_pow, Real.sq_sqrt (by positivity)]
  linarith

theorem twiddle_two : twiddle 2 = -1 := by
  have : twiddle 2 = Complex.exp (-(Real.pi * Complex.I)) := by unfold twiddle; congr 1; push_cast; ring
  rw [this, Complex.exp_neg, Complex.exp_pi_mul_I]; norm_num

theorem dft_two (a b : ℂ) : dft [a, b] = [a + b, a - b] := by
  apply list_ext_getD (by simp [dft_length])
  intro k hk
  rw [dft_length] at hk
  rw [dft_getD _ _ hk]
  have hk : k < 2 := hk
  interval_cases k <;> simp [twiddle_two, Finset.sum_range_succ, sub_eq_add_neg]

theorem idft_two (a b : ℂ) : idft [a, b] = [(a + b) / 2, (a - b) / 2] := by
  apply list_ext_getD (by simp [idft])
  intro k hk
  have hk : k < 2 := by simpa [idft] using hk
  rw [idft_G _ _ (by simpa using hk)]
  interval_cases k <;> simp [L2.G, twiddle_two, Finset.sum_range_succ, sub_eq_add_neg]

theorem herm_two (a b : ℂ) : hermExt 2 [a, b] = [a, b] := rfl

theorem gq (hu : 0 ≤ u) : (0 : ℝ) ≤ (1 + (u : ℝ)) ^ 2 - 1 := by
  have : (0 : ℝ) ≤ u := Rat.cast_nonneg.mpr hu
  nlinarith

/-- One rounding. -/
theorem r1 (hu : 0 ≤ u) (hr : ∀ x, |rnd x - x| ≤ u * |x|) (x : ℚ) : |((rnd x : ℚ) : ℝ) - (x : ℝ)| ≤ ((1 + (u : ℝ)) ^ 2 - 1) * |(x : ℝ)| := by
  have h := (Rat.cast_le (K := ℝ)).mpr (hr x)
  push_cast at h
  have : (0 : ℝ) ≤ u := Rat.cast_nonneg.mpr hu
  refine h.trans (mul_le_mul_of_nonneg_right ?_ (abs_nonneg _))
  nlinarith

/-- A rounded number halved and rounded. -/
theorem r2 (hu : 0 ≤ u) (hr : ∀ x, |rnd x - x| ≤ u * |x|) (x : ℚ) :
    |((rnd (rnd x * (1 / 2)) : ℚ) : ℝ) - (x : ℝ) / 2| ≤ ((1 + (u : ℝ)) ^ 2 - 1) * |(x : ℝ) / 2| := by
  have h1 := hr x
  have h2 := hr (rnd x * (1 / 2))
  have h3 : |rnd x| ≤ (1 + u) * |x| := by
    have : rnd x = (rnd x - x) + x := by ring
    rw [this]; refine (abs_add_le _ _).trans ?_
    linarith
  have h : |rnd (rnd x * (1 / 2)) - x / 2| ≤ ((1 + u) ^ 2 - 1) * |x / 2| := by
    have e : rnd (rnd x * (1 / 2)) - x / 2 = (rnd (rnd x * (1 / 2)) - rnd x * (1 / 2)) + (rnd x - x) / 2 := by ring
    rw [e]
    refine (abs_add_le _ _).trans ?_
    rw [abs_div, abs_div, abs_of_pos (by norm_num : (0 : ℚ) < 2)]
    rw [abs_mul, abs_of_pos (by norm_num : (0 : ℚ) < 1 / 2)] at h2
    have h4 := mul_le_mul_of_nonneg_left h3 hu
    nlinarith
  have h' := (Rat.cast_le (K := ℝ)).mpr h
  push_cast at h' ⊢
  exact h'

theorem finC_eq {z : CK (RFl rnd)} (h : FinC z) : ∃ p q : ℚ, z = ⟨RFl.fin p, RFl.fin q⟩ := by
  obtain ⟨a, b⟩ := z
  obtain ⟨⟨p, hp⟩, ⟨q, hq⟩⟩ := h
  have hp : a = RFl.fin p := hp
  have hq : b = RFl.fin q := hq
  exact ⟨p, q, by rw [hp, hq]⟩

theorem two_eq {α : Type} {x : List α} (h : x.length = 2) : ∃ a b, x = [a, b] := List.length_eq_two.mp h

theorem add_mk (p q s t : ℝ) : (⟨p, q⟩ : ℂ) + ⟨s, t⟩ = ⟨p + s, q + t⟩ := rfl
theorem sub_mk (p q s t : ℝ) : (⟨p, q⟩ : ℂ) - ⟨s, t⟩ = ⟨p - s, q - t⟩ := rfl
theorem half_mk (p q : ℝ) : (⟨p, q⟩ : ℂ) / 2 = ⟨p / 2, q / 2⟩ := Complex.ext (by simp) (by simp)

end FftF

/-- The butterfly is accurate to two roundings. -/
theorem C133_butterfly (hu : 0 ≤ u) (hr : ∀ x, |rnd x - x| ≤ u * |x|) : Accurate (butterfly2 rnd) ((1 + (u : ℝ)) ^ 2 - 1) 2 := by
  have hg := FftF.gq hu
  constructor
  · intro x hx hf
    obtain ⟨a, b, rfl⟩ := FftF.two_eq hx
    obtain ⟨p, q, rfl⟩ := FftF.finC_eq (hf a (by simp))
    obtain ⟨s, t, rfl⟩ := FftF.finC_eq (hf b (by simp))
    have e : (butterfly2 rnd).fwd [⟨RFl.fin p, RFl.fin q⟩, ⟨RFl.fin s, RFl.fin t⟩] =
        [⟨RFl.fin (rnd (p + s)), RFl.fin (rnd (q + t))⟩, ⟨RFl.fin (rnd (p - s)), RFl.fin (rnd (q - t))⟩] := by
      show [(⟨_, _⟩ : CK (RFl rnd)), ⟨_, _⟩] = _
      rw [RFl.add_fin, RFl.add_fin, RFl.sub_fin, RFl.sub_fin]
    rw [e]
    refine ⟨rfl, ?_, FftF.l2_rel hg fun k hk => ?_⟩
    · intro z hz
      rcases List.mem_cons.mp hz with rfl | hz
      · exact ⟨⟨_, rfl⟩, ⟨_, rfl⟩⟩
      · rw [List.mem_singleton.mp hz]; exact ⟨⟨_, rfl⟩, ⟨_, rfl⟩⟩
    · simp only [List.map_cons, List.map_nil, FftF.dft_two, FftF.valC_fin, FftF.add_mk, FftF.sub_mk]
      interval_cases k
      · refine FftF.parts hg ?_ ?_
        · have := FftF.r1 hu hr (p + s); rwa [Rat.cast_add] at this
        · have := FftF.r1 hu hr (q + t); rwa [Rat.cast_add] at this
      · refine FftF.parts hg ?_ ?_
        · have := FftF.r1 hu hr (p - s); rwa [Rat.cast_sub] at this
        · have := FftF.r1 hu hr (q - t); rwa [Rat.cast_sub] at this
  · intro x hx hf
    obtain ⟨a, b, rfl⟩ := FftF.two_eq hx
    obtain ⟨p, q, rfl⟩ := FftF.finC_eq (hf a (by simp))
    obtain ⟨s, t, rfl⟩ := FftF.finC_eq (hf b (by simp))
    have e : (butterfly2 rnd).inv [⟨RFl.fin p, RFl.fin q⟩, ⟨RFl.fin s, RFl.fin t⟩] =
        [⟨RFl.fin (rnd (rnd (p + s) * (1 / 2))), RFl.fin (rnd (rnd (q + t) * (1 / 2)))⟩,
         ⟨RFl.fin (rnd (rnd (p - s) * (1 / 2))), RFl.fin (rnd (rnd (q - t) * (1 / 2)))⟩] := by
      show [(⟨_, _⟩ : CK (RFl rnd)), ⟨_, _⟩] = _
      rw [RFl.add_fin, RFl.add_fin, RFl.sub_fin, RFl.sub_fin, RFl.mul_fin, RFl.mul_fin, RFl.mul_fin, RFl.mul_fin]
    rw [e]
    refine ⟨rfl, ?_, FftF.l2_rel hg fun k hk => ?_⟩
    · intro z hz
      rcases List.mem_cons.mp hz with rfl | hz
      · exact ⟨⟨_, rfl⟩, ⟨_, rfl⟩⟩
      · rw [List.mem_singleton.mp hz]; exact ⟨⟨_, rfl⟩, ⟨_, rfl⟩⟩
    · simp only [List.map_cons, List.map_nil, FftF.idft_two, FftF.valC_fin, FftF.add_mk, FftF.sub_mk, FftF.half_mk]
      interval_cases k
      · refine FftF.parts hg ?_ ?_
        · have := FftF.r2 hu hr (p + s); rwa [Rat.cast_add] at this
        · have := FftF.r2 hu hr (q + t); rwa [Rat.cast_add] at this
      · refine FftF.parts hg ?_ ?_
        · have := FftF.r2 hu hr (p - s); rwa [Rat.cast_sub] at this
        · have := FftF.r2 hu hr (q - t); rwa [Rat.cast_sub] at this
  · intro x hx hf
    obtain ⟨a, b, rfl⟩ := FftF.two_eq hx
    obtain ⟨p, rfl⟩ := hf a (by simp)
    obtain ⟨s, rfl⟩ := hf b (by simp)
    have e : (butterfly2 rnd).rfwd [RFl.fin p, RFl.fin s] = [⟨RFl.fin (rnd (p + s)), RFl.fin 0⟩, ⟨RFl.fin (rnd (p - s)), RFl.fin 0⟩] := by
      show [(⟨_, _⟩ : CK (RFl rnd)), ⟨_, _⟩] = _
      rw [RFl.add_fin, RFl.sub_fin]
    rw [e]
    have hv : ∀ q : ℚ, ((valR (RFl.fin q : RFl rnd) : ℝ) : ℂ) = ⟨(q : ℝ), 0⟩ := fun q => rfl
    refine ⟨rfl, ?_, FftF.l2_rel hg fun k hk => ?_⟩
    · intro z hz
      rcases List.mem_cons.mp hz with rfl | hz
      · exact ⟨⟨_, rfl⟩, ⟨_, rfl⟩⟩
      · rw [List.mem_singleton.mp hz]; exact ⟨⟨_, rfl⟩, ⟨_, rfl⟩⟩
    · simp only [List.map_cons, List.map_nil, FftF.herm_two, hv, FftF.dft_two, FftF.valC_fin, FftF.add_mk, FftF.sub_mk]
      interval_cases k
      · refine FftF.parts hg ?_ (by simp)
        have := FftF.r1 hu hr (p + s); rwa [Rat.cast_add] at this
      · refine FftF.parts hg ?_ (by simp)
        have := FftF.r1 hu hr (p - s); rwa [Rat.cast_sub] at this
  · intro x hx hf
    obtain ⟨a, b, rfl⟩ := FftF.two_eq hx
    obtain ⟨p, q, rfl⟩ := FftF.finC_eq (hf a (by simp))
    obtain ⟨s, t, rfl⟩ := FftF.finC_eq (hf b (by simp))
    have e : (butterfly2 rnd).rinv [⟨RFl.fin p, RFl.fin q⟩, ⟨RFl.fin s, RFl.fin t⟩] =
        [RFl.fin (rnd (rnd (p + s) * (1 / 2))), RFl.fin (rnd (rnd (p - s) * (1 / 2)))] := by
      show [(_ : RFl rnd), _] = _
      rw [RFl.add_fin, RFl.sub_fin, RFl.mul_fin, RFl.mul_fin]
    rw [e]
    have hv : ∀ q : ℚ, valR (RFl.fin q : RFl rnd) = (q : ℝ) := fun q => rfl
    refine ⟨rfl, ?_, FftF.l2_rel hg fun k hk => ?_⟩
    · intro z hz
      rcases List.mem_cons.mp hz with rfl | hz
      · exact ⟨_, rfl⟩
      · rw [List.mem_singleton.mp hz]; exact ⟨_, rfl⟩
    · simp only [List.map_cons, List.map_nil, FftF.herm_two, hv, FftF.idft_two, FftF.valC_fin, FftF.add_mk, FftF.sub_mk, FftF.half_mk]
      have key : ∀ x y z : ℝ, |x - y| ≤ ((1 + (u : ℝ)) ^ 2 - 1) * |y| →
          ‖((x : ℝ) : ℂ) - ((y : ℝ) : ℂ)‖ ≤ ((1 + (u : ℝ)) ^ 2 - 1) * ‖(⟨y, z⟩ : ℂ)‖ := by
        intro x y z h
        rw [← Complex.ofReal_sub, Complex.norm_real, Real.norm_eq_abs]
        exact h.trans (mul_le_mul_of_nonneg_left (Complex.abs_re_le_norm ⟨y, z⟩) hg)
      interval_cases k
      · refine key _ _ _ ?_
        have := FftF.r2 hu hr (p + s); rwa [Rat.cast_add] at this
      · refine key _ _ _ ?_
        have := FftF.r2 hu hr (p - s); rwa [Rat.cast_sub] at this

/-- C133: accuracy in norm is no accuracy element by element.  In binary64 the convolution of `{1}` and `{1, 2^-60}` by transforms is `{1, 0}`: the second element,
`2^-60` exactly, is lost although the direct method returns it. -/
theorem C133_element_lost :
    fftconvolveRK (butterfly2 rnd64) 10 [RFl.fin 1] [RFl.fin 1, RFl.fin (1 / 2 ^ 60)] = .ok [RFl.fin 1, RFl.fin 0] ∧
    convolve [(RFl.fin 1 : F64)] [RFl.fin 1, RFl.fin (1 / 2 ^ 60)] = .ok [RFl.fin 1, RFl.fin (1 / 2 ^ 60)] := by
  decide +kernel

/-- The hypotheses hold for `{3}` and `{5, 7}` in binary64: rounding the result gives the exact convolution. -/
example : ∃ r c, fftconvolveRK (butterfly2 rnd64) 10 ([3].map fun t : ℤ => (RFl.fin (t : ℚ) : F64)) ([5, 7].map fun t : ℤ => (RFl.fin (t : ℚ) : F64)) = .ok r ∧
    convolve [(3 : ℤ)] [5, 7] = .ok c ∧ r.map (fun x => round (valR x)) = c := by
  refine C133_integers (u := 1 / 2 ^ 53) (by norm_num) rnd64_err (butterfly2 rnd64) (FftF.gq (u := 1 / 2 ^ 53) (by norm_num)) 10 2 [3] [5, 7] (by simp)
    (by norm_num) (by norm_num) (by decide +kernel) (C133_butterfly (by norm_num) rnd64_err) ?_
  have h2 : √(2 : ℝ) ≤ 2 := Real.sqrt_le_iff.mpr ⟨by norm_num, by norm_num⟩
  have n1 : nrm ([3].map fun t : ℤ => (t : ℂ)) ≤ 3 := by
    simp only [nrm, l2, List.map_cons, List.map_nil, List.length_singleton, Finset.sum_range_one, List.getD_cons_zero]
    refine Real.sqrt_le_iff.mpr ⟨by norm_num, ?_⟩
    norm_num
  have n2 : nrm ([5, 7].map fun t : ℤ => (t : ℂ)) ≤ 9 := by
    simp only [nrm, l2, List.map_cons, List.map_nil, List.length_cons, List.length_nil, zero_add, Finset.sum_range_succ, Finset.sum_range_zero]
    refine Real.sqrt_le_iff.mpr ⟨by norm_num, ?_⟩
    simp
    norm_num
  have hb : fftConvBound ((1 + ((1 / 2 ^ 53 : ℚ) : ℝ)) ^ 2 - 1) ((1 / 2 ^ 53 : ℚ) : ℝ) ≤ 1 / 1000 := by
    unfold fftConvBound
    have e : ((1 / 2 ^ 53 : ℚ) : ℝ) = 1 / 2 ^ 53 := by norm_num
    rw [e]
    have h3 : √2 * ((1 + (1 / 2 ^ 53 : ℝ)) ^ 2 - 1) ≤ 2 * ((1 + (1 / 2 ^ 53 : ℝ)) ^ 2 - 1) := mul_le_mul_of_nonneg_right h2 (by norm_num)
    have h4 : (1 + ((1 + (1 / 2 ^ 53 : ℝ)) ^ 2 - 1)) ^ 3 * (1 + √2 * ((1 + (1 / 2 ^ 53 : ℝ)) ^ 2 - 1)) ≤
        (1 + ((1 + (1 / 2 ^ 53 : ℝ)) ^ 2 - 1)) ^ 3 * (1 + 2 * ((1 + (1 / 2 ^ 53 : ℝ)) ^ 2 - 1)) :=
      mul_le_mul_of_nonneg_left (by linarith) (by norm_num)
    refine (sub_le_sub_right h4 1).trans ?_
    norm_num
  have h5 : √((2 : ℕ) : ℝ) ≤ 2 := by rw [Nat.cast_ofNat]; exact h2
  refine lt_of_le_of_lt (mul_le_mul (mul_le_mul hb h5 (Real.sqrt_nonneg _) (by norm_num))
    (mul_le_mul n1 n2 (L2.nonneg _ _) (by norm_num)) (mul_nonneg (L2.nonneg _ _) (L2.nonneg _ _)) (by norm_num)) ?_
  norm_num

end SciCpp
