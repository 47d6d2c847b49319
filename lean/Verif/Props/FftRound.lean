import Verif.Props.FftF
/-
  Round trips of the transforms in floating point (C142).
-/
namespace SciCpp

open Finset Spec

variable {rnd : ℚ → ℚ} {u : ℚ}

namespace FftF

theorem rootn {n : ℕ} (hn : 1 ≤ n) {a b : ℝ} (h : √n * a ≤ √n * b) : a ≤ b :=
  le_of_mul_le_mul_left h (Real.sqrt_pos.mpr (by exact_mod_cast hn))

/-- The inverse transform brings an approximate spectrum back with the same relative error. -/
theorem back {n : ℕ} (hn : 1 ≤ n) {ε : ℝ} {y x : ℕ → ℂ} (h : l2 n (fun k => y k - L2.F n x k) ≤ ε * l2 n (L2.F n x)) :
    l2 n (fun k => L2.G n y k - x k) ≤ ε * l2 n x := by
  apply rootn hn
  rw [L2.congr (g := L2.G n fun k => y k - L2.F n x k) fun k hk => by
    rw [← L2.G_sub, L2.G_F n x k hk], L2.parsevalG n (by omega)]
  rw [L2.parseval] at h
  linarith

/-- Two steps of relative errors. -/
theorem two_steps {n : ℕ} {ε : ℝ} (he : 0 ≤ ε) {z g x : ℕ → ℂ} (h1 : l2 n (fun k => z k - g k) ≤ ε * l2 n g)
    (h2 : l2 n (fun k => g k - x k) ≤ ε * l2 n x) : l2 n (fun k => z k - x k) ≤ ((1 + ε) ^ 2 - 1) * l2 n x := by
  have h3 := L2.le_of_dist n h2
  have h4 := L2.add_le n (fun k => z k - g k) (fun k => g k - x k)
  simp only [sub_add_sub_cancel] at h4
  have h5 := mul_le_mul_of_nonneg_left h3 he
  nlinarith

/-- `ifft` of an array at its own length. -/
theorem ifftK_own (lib : FftLib (RFl rnd)) {ε : ℝ} {n : ℕ} (hacc : Accurate lib ε n) (y : List (CK (RFl rnd))) (hy : y.length = n)
    (hf : ∀ z ∈ y, FinC z) (m : ℤ) (hm : toI32 y.length = m ∨ m < 0) : ∃ z, ifftK lib y m = .ok z ∧ z.length = n ∧ (∀ w ∈ z, FinC w) ∧
      l2 n (fun k => (z.map valC).getD k 0 - L2.G n (fun j => (y.map valC).getD j 0) k) ≤ ε * l2 n (L2.G n (fun j => (y.map valC).getD j 0)) := by
  obtain ⟨h1, h2, h3⟩ := hacc.inv y hy hf
  refine ⟨lib.inv y, by unfold ifftK; rw [if_pos hm], h1, h2, ?_⟩
  have e : ∀ k < n, (idft (y.map valC)).getD k 0 = L2.G n (fun j => (y.map valC).getD j 0) k := by
    intro k hk
    have := idft_G (y.map valC) k (by rw [List.length_map, hy]; exact hk)
    rwa [List.length_map, hy] at this
  rw [L2.congr (g := fun k => (idft (y.map valC)).getD k 0) (f := L2.G n _) fun k hk => (e k hk).symm,
    L2.congr (g := fun k => ((lib.inv y).map valC).getD k 0 - (idft (y.map valC)).getD k 0) fun k hk => by rw [e k hk]]
  exact h3

end FftF

/-- C142: `ifft(fft(x))`, with or without the length, returns `x` up to the relative error `(1 + ε)² - 1` in the Euclidean norm. -/
theorem C142_ifft_fft (lib : FftLib (RFl rnd)) {ε : ℝ} (he : 0 ≤ ε) (x : List (CK (RFl rnd))) (hx : x ≠ []) (hl : x.length < 2 ^ 31)
    (hacc : Accurate lib ε x.length) (hf : ∀ z ∈ x, FinC z) (m : ℤ) (hm : m = x.length ∨ m < 0) :
    ∃ y z, fftK lib x = .ok y ∧ ifftK lib y m = .ok z ∧ z.length = x.length ∧ (∀ w ∈ z, FinC w) ∧
      l2 x.length (fun k => valC (z.getD k 0) - valC (x.getD k 0)) ≤ ((1 + ε) ^ 2 - 1) * nrm (x.map valC) := by
  have hn : 1 ≤ x.length := List.length_pos_iff.mpr hx
  obtain ⟨y, y1, y2, y3, y4⟩ := FftF.fftK_ok lib he hn hacc x rfl hf
  obtain ⟨z, z1, z2, z3, z4⟩ := FftF.ifftK_own lib hacc y y2 y3 m (by rw [y2, toI32_small _ hl]; rcases hm with h | h
                                                                      · exact .inl h.symm
                                                                      · exact .inr h)
  refine ⟨y, z, y1, z1, z2, z3, ?_⟩
  have := FftF.two_steps he z4 (FftF.back hn y4)
  unfold nrm
  rw [List.length_map]
  simpa only [FftF.map_getD valC FftF.valC_zero] using this

/-- C142, Parseval: the norm of the spectrum is `√n` times the norm of the samples, up to the accuracy of the transform. -/
theorem C142_parseval (lib : FftLib (RFl rnd)) {ε : ℝ} (he : 0 ≤ ε) (x : List (CK (RFl rnd))) (hx : x ≠ [])
    (hacc : Accurate lib ε x.length) (hf : ∀ z ∈ x, FinC z) :
    ∃ y, fftK lib x = .ok y ∧ y.length = x.length ∧
      |nrm (y.map valC) - √x.length * nrm (x.map valC)| ≤ ε * (√x.length * nrm (x.map valC)) := by
  have hn : 1 ≤ x.length := List.length_pos_iff.mpr hx
  obtain ⟨y, y1, y2, y3, y4⟩ := FftF.fftK_ok lib he hn hacc x rfl hf
  refine ⟨y, y1, y2, ?_⟩
  unfold nrm
  rw [List.length_map, List.length_map, y2, ← L2.parseval]
  have a1 := L2.le_of_dist _ y4
  have y5 := y4
  have a2 := L2.add_le x.length (fun k => L2.F x.length (fun j => (x.map valC).getD j 0) k - (y.map valC).getD k 0) (fun k => (y.map valC).getD k 0)
  simp only [sub_add_cancel] at a2
  rw [L2.sub_comm'] at y5
  rw [abs_le]
  constructor
  · linarith
  · linarith

namespace FftF

theorem herm_len (n : ℕ) (y : List ℂ) : (hermExt n y).length = n := by simp [hermExt]

theorem real_part {n : ℕ} (g : ℕ → ℂ) (x : ℕ → ℝ) : l2 n (fun k => (((g k).re : ℝ) : ℂ) - ((x k : ℝ) : ℂ)) ≤ l2 n (fun k => g k - ((x k : ℝ) : ℂ)) := by
  apply L2.mono
  intro k _
  rw [← Complex.ofReal_sub, Complex.norm_real, Real.norm_eq_abs]
  have := Complex.abs_re_le_norm (g k - ((x k : ℝ) : ℂ))
  simpa using this

/-- The two halves of the round trip of real data. -/
theorem real_trip (lib : FftLib (RFl rnd)) {ε : ℝ} (he : 0 ≤ ε) (x : List (RFl rnd)) (hn : 1 ≤ x.length) (hl : x.length < 2 ^ 31)
    (hacc : Accurate lib ε x.length) (hf : ∀ z ∈ x, FinR z) :
    ∃ y z, rfftK lib x = .ok y ∧ y.length = x.length / 2 + 1 ∧ irfftK lib y (toI32 x.length) = .ok z ∧ z.length = x.length ∧ (∀ w ∈ z, FinR w) ∧
      l2 x.length (fun k => ((valR (z.getD k 0) - valR (x.getD k 0) : ℝ) : ℂ)) ≤ ((1 + ε) ^ 2 - 1) * nrm (x.map fun t => (valR t : ℂ)) := by
  obtain ⟨y, y1, y2, y3, y4⟩ := rfftK_ok lib he hn hacc x rfl hf
  obtain ⟨z, z1, z2, z3, z4⟩ := irfftK_ok lib hn hl hacc y y2 y3
  refine ⟨y, z, y1, y2, z1, z2, z3, ?_⟩
  have h0 : ((valR (0 : RFl rnd) : ℝ) : ℂ) = 0 := by rw [valR_zero]; exact Complex.ofReal_zero
  have hb := back hn y4
  have hx : ∀ k, (x.map fun t => (valR t : ℂ)).getD k 0 = ((valR (x.getD k 0) : ℝ) : ℂ) := fun k => map_getD (fun t => ((valR t : ℝ) : ℂ)) h0 x k
  simp only [hx] at hb
  have h3 := L2.le_of_dist _ hb
  have h4 := L2.add_le x.length (fun k => ((z.map valR).getD k 0 : ℂ) - ((L2.G x.length (fun j => (hermExt x.length (y.map valC)).getD j 0) k).re : ℂ))
    (fun k => ((L2.G x.length (fun j => (hermExt x.length (y.map valC)).getD j 0) k).re : ℂ) - ((valR (x.getD k 0) : ℝ) : ℂ))
  simp only [sub_add_sub_cancel] at h4
  have h5 := real_part (n := x.length) (L2.G x.length (fun j => (hermExt x.length (y.map valC)).getD j 0)) (fun k => valR (x.getD k 0))
  have h6 := mul_le_mul_of_nonneg_left h3 he
  unfold nrm
  rw [List.length_map]
  simp only [hx]
  have h7 : l2 x.length (fun k => ((valR (z.getD k 0) - valR (x.getD k 0) : ℝ) : ℂ)) =
      l2 x.length (fun k => ((z.map valR).getD k 0 : ℂ) - ((valR (x.getD k 0) : ℝ) : ℂ)) := by
    apply L2.congr
    intro k _
    rw [map_getD valR valR_zero, Complex.ofReal_sub]
  rw [h7]
  nlinarith

/-- Without a length, `irfft` of a half spectrum of an even number of points takes the right one. -/
theorem irfft_default (lib : FftLib (RFl rnd)) (y : List (CK (RFl rnd))) (m : ℤ) (hm : m < 0) (hl : y.length < 2 ^ 31) (hy : y ≠ []) :
    irfftK lib y m = eigenInvRealK lib (y.take (2 * (y.length - 1)) ++ List.replicate (2 * (y.length - 1) - y.length) 0) := by
  have hp := List.length_pos_iff.mpr hy
  unfold irfftK
  rw [toI32_small _ hl, if_neg (by omega), if_pos hm, if_neg (by omega)]
  simp -implicitDefEqProofs only [Res.bind_ok]
  rw [(C46_zero_padding y _).1]
  simp -implicitDefEqProofs only [Res.bind_ok]

end FftF

/-- C142: `irfft(rfft(x), x.size())`, and `irfft(rfft(x))` for arrays of even length, return `x` up to the relative error `(1 + ε)² - 1`. -/
theorem C142_irfft_rfft (lib : FftLib (RFl rnd)) {ε : ℝ} (he : 0 ≤ ε) (x : List (RFl rnd)) (hx : x ≠ []) (hl : x.length < 2 ^ 31)
    (hacc : Accurate lib ε x.length) (hf : ∀ z ∈ x, FinR z) (m : ℤ) (hm : m = x.length ∨ m < 0 ∧ Even x.length) :
    ∃ y z, rfftK lib x = .ok y ∧ irfftK lib y m = .ok z ∧ z.length = x.length ∧ (∀ w ∈ z, FinR w) ∧
      l2 x.length (fun k => ((valR (z.getD k 0) - valR (x.getD k 0) : ℝ) : ℂ)) ≤ ((1 + ε) ^ 2 - 1) * nrm (x.map fun t => (valR t : ℂ)) := by
  have hn : 1 ≤ x.length := List.length_pos_iff.mpr hx
  obtain ⟨y, z, y1, y2, z1, z2, z3, z4⟩ := FftF.real_trip lib he x hn hl hacc hf
  refine ⟨y, z, y1, ?_, z2, z3, z4⟩
  rcases hm with rfl | ⟨hm, k, hk⟩
  · rw [toI32_small _ hl] at z1; exact z1
  · have hy : y ≠ [] := by intro h; subst h; simp at y2
    rw [FftF.irfft_default lib y m hm (by omega) hy]
    have e : 2 * (y.length - 1) = x.length := by omega
    rw [e]
    unfold irfftK at z1
    rw [toI32_small _ (by omega : y.length < 2 ^ 31), toI32_small _ hl] at z1
    by_cases h : (y.length : ℤ) = x.length
    · have h' : y.length = x.length := by omega
      rw [if_pos h] at z1
      rw [← h', List.take_length, Nat.sub_self, List.replicate_zero, List.append_nil]
      exact z1
    · rw [if_neg h, if_neg (by omega)] at z1
      simp -implicitDefEqProofs only [Res.bind_ok, Int.toNat_natCast] at z1
      rw [(C46_zero_padding y _).1] at z1
      simp -implicitDefEqProofs only [Res.bind_ok] at z1
      exact z1

/-- C142 (negation for `irfft(rfft(x))` of an odd number of points): one sample is missing, and a single sample is undefined behaviour. -/
theorem C142_irfft_odd_false (lib : FftLib (RFl rnd)) {ε : ℝ} (he : 0 ≤ ε) (x : List (RFl rnd)) (hl : x.length < 2 ^ 31)
    (hacc : Accurate lib ε x.length) (hacc' : Accurate lib ε (x.length - 1)) (hf : ∀ z ∈ x, FinR z) (m : ℤ) (hm : m < 0) (ho : Odd x.length) :
    ∃ y, rfftK lib x = .ok y ∧ if x.length = 1 then irfftK lib y m = .ub else ∃ z, irfftK lib y m = .ok z ∧ z.length = x.length - 1 := by
  obtain ⟨k, hk⟩ := ho
  obtain ⟨y, y1, y2, y3, -⟩ := FftF.rfftK_ok lib he (by omega) hacc x rfl hf
  have hy : y ≠ [] := by intro h; subst h; simp at y2
  refine ⟨y, y1, ?_⟩
  have e : 2 * (y.length - 1) = x.length - 1 := by omega
  rw [FftF.irfft_default lib y m hm (by omega) hy, e]
  split_ifs with h1
  · unfold eigenInvRealK
    rw [if_pos (by rw [FftF.len_pad]; omega)]
  · obtain ⟨h2, -, -⟩ := hacc'.rinv _ (FftF.len_pad y _) (FftF.mem_pad FftF.fin_zero y3 _)
    exact ⟨_, by unfold eigenInvRealK; rw [if_neg (by rw [FftF.len_pad]; omega)], h2⟩

-- the hypotheses are met: the two-point transform in binary64
example : ∃ y z, fftK (butterfly2 rnd64) [⟨RFl.fin (1 / 8), RFl.fin 3⟩, ⟨RFl.fin 5, RFl.fin 7⟩] = .ok y ∧ ifftK (butterfly2 rnd64) y (-1) = .ok z ∧
    z.length = 2 := by
  obtain ⟨y, z, h1, h2, h3, -⟩ := C142_ifft_fft (butterfly2 rnd64) (FftF.gq (u := 1 / 2 ^ 53) (by norm_num))
    [⟨RFl.fin (1 / 8), RFl.fin 3⟩, ⟨RFl.fin 5, RFl.fin 7⟩] (by simp) (by norm_num) (C133_butterfly (by norm_num) rnd64_err)
    (by
      intro w hw
      rcases List.mem_cons.mp hw with rfl | hw
      · exact ⟨⟨_, rfl⟩, ⟨_, rfl⟩⟩
      · rw [List.mem_singleton.mp hw]; exact ⟨⟨_, rfl⟩, ⟨_, rfl⟩⟩) (-1) (.inr (by norm_num))
  exact ⟨y, z, h1, h2, h3⟩

example : ∃ y z, rfftK (butterfly2 rnd64) [RFl.fin (1 / 8), RFl.fin 3] = .ok y ∧ irfftK (butterfly2 rnd64) y (-1) = .ok z ∧ z.length = 2 := by
  obtain ⟨y, z, h1, h2, h3, -⟩ := C142_irfft_rfft (butterfly2 rnd64) (FftF.gq (u := 1 / 2 ^ 53) (by norm_num))
    [RFl.fin (1 / 8), RFl.fin 3] (by simp) (by norm_num) (C133_butterfly (by norm_num) rnd64_err)
    (by
      intro w hw
      rcases List.mem_cons.mp hw with rfl | hw
      · exact ⟨_, rfl⟩
      · rw [List.mem_singleton.mp hw]; exact ⟨_, rfl⟩) (-1) (.inr ⟨by norm_num, by decide⟩)
  exact ⟨y, z, h1, h2, h3⟩

end SciCpp
