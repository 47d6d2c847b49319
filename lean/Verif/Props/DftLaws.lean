import Verif.Props.Fft
import Verif.Props.Manips
import Verif.Proofs.FftF
import Mathlib.Data.List.GetD
/-
  Property theorems C152: laws of the discrete Fourier transform computed by `fft` (exact arithmetic).
-/
namespace SciCpp

set_option linter.unusedSectionVars false
open Finset Spec

theorem twiddle_pow (n N : ℕ) : twiddle n ^ N = Complex.exp (-(2 * Real.pi * Complex.I * N / n)) := by
  unfold twiddle
  rw [← Complex.exp_nat_mul]
  congr 1; ring

theorem twiddle_inv_pow (n N : ℕ) : (twiddle n)⁻¹ ^ N = Complex.exp (2 * Real.pi * Complex.I * N / n) := by
  rw [inv_pow, twiddle_pow, ← Complex.exp_neg, neg_neg]

/-- The exponents of the roots of unity count modulo `n`. -/
theorem twiddle_mod (n N k : ℕ) (hn : n ≠ 0) : twiddle n ^ (N % n * k) = twiddle n ^ (N * k) := by
  conv_rhs => rw [← Nat.div_add_mod N n]
  rw [add_mul, pow_add, mul_assoc, pow_mul (twiddle n) n, twiddle_pow_self n hn, one_pow, one_mul]

theorem twiddle_inv_sub (n d k : ℕ) (hn : n ≠ 0) (h : d ≤ n) : (twiddle n)⁻¹ ^ ((n - d) * k) = twiddle n ^ (d * k) := by
  have h1 : twiddle n ^ ((n - d) * k) * twiddle n ^ (d * k) = 1 := by
    rw [← pow_add, ← add_mul, Nat.sub_add_cancel h, pow_mul, twiddle_pow_self n hn, one_pow]
  rw [inv_pow]
  exact inv_eq_of_mul_eq_one_right h1

/-- Sums over a period may start anywhere. -/
theorem sum_rotate {M : Type*} [AddCommMonoid M] (n d : ℕ) (hn : n ≠ 0) (f : ℕ → M) : ∑ j ∈ range n, f ((j + d) % n) = ∑ j ∈ range n, f j := by
  have hmaps : Set.MapsTo (fun j => (j + d) % n) (range n : Set ℕ) (range n : Set ℕ) := by
    intro j _
    simpa using Nat.mod_lt _ (Nat.pos_of_ne_zero hn)
  have hinj : Set.InjOn (fun j => (j + d) % n) (range n : Set ℕ) := by
    intro a ha b hb hab
    have ha : a < n := by simpa using ha
    have hb : b < n := by simpa using hb
    have h1 : a + d ≡ b + d [MOD n] := hab
    exact Nat.ModEq.eq_of_lt_of_lt (Nat.ModEq.add_right_cancel' d h1) ha hb
  exact Finset.sum_nbij (fun j => (j + d) % n) (fun a ha => hmaps ha) hinj (Finset.surjOn_of_injOn_of_card_le _ hmaps hinj le_rfl) fun _ _ => rfl

theorem sum_shift (n d k : ℕ) (hn : n ≠ 0) (y : ℕ → ℂ) :
    ∑ j ∈ range n, y ((j + d) % n) * twiddle n ^ (j * k) = (twiddle n)⁻¹ ^ (d * k) * ∑ j ∈ range n, y j * twiddle n ^ (j * k) := by
  rw [← sum_rotate n d hn fun j => y j * twiddle n ^ (j * k), Finset.mul_sum]
  apply Finset.sum_congr rfl
  intro j _
  rw [twiddle_mod n (j + d) k hn, add_mul, pow_add, inv_pow]
  have := pow_ne_zero (d * k) (twiddle_ne n)
  field_simp

/-- **C152 (definition).**  Bin `k` of `fft(x)` is the sum of `x[j] exp(-2πi jk/n)`. -/
theorem C152_definition (x : List ℂ) (h : x ≠ []) :
    ∃ y, fft x = .ok y ∧ y.length = x.length ∧
      ∀ k < x.length, y.getD k 0 = ∑ j ∈ range x.length, x.getD j 0 * Complex.exp (-(2 * Real.pi * Complex.I * (j * k : ℕ) / x.length)) := by
  refine ⟨_, fft_eq x h, dft_length x, fun k hk => ?_⟩
  rw [dft_getD x k hk]
  simp only [twiddle_pow]

/-- **C152 (Parseval).**  The energy of the spectrum is `n` times that of the signal. -/
theorem C152_parseval (x : List ℂ) (h : x ≠ []) :
    ∃ y, fft x = .ok y ∧ ∑ k ∈ range x.length, ‖y.getD k 0‖ ^ 2 = x.length * ∑ j ∈ range x.length, ‖x.getD j 0‖ ^ 2 := by
  refine ⟨_, fft_eq x h, ?_⟩
  have hp := L2.parseval x.length fun j => x.getD j 0
  have h1 : ∀ n (f : ℕ → ℂ), l2 n f ^ 2 = ∑ k ∈ range n, ‖f k‖ ^ 2 := by
    intro n f
    unfold l2
    exact Real.sq_sqrt (Finset.sum_nonneg fun _ _ => sq_nonneg _)
  have h2 := congrArg (· ^ 2) hp
  simp only [mul_pow, h1, Real.sq_sqrt (Nat.cast_nonneg (α := ℝ) x.length)] at h2
  rw [← h2]
  apply Finset.sum_congr rfl
  intro k hk
  rw [dft_getD x k (Finset.mem_range.1 hk)]
  rfl

/-- **C152 (real signals).**  The spectrum of a real signal has a real bin 0 and conjugate bins `k` and `n - k`. -/
theorem C152_real (x : List ℝ) (h : x ≠ []) :
    ∃ y, fftReal x = .ok y ∧ y.length = x.length ∧ y.getD 0 0 = ((x.sum : ℝ) : ℂ) ∧
      ∀ k, 0 < k → k < x.length → y.getD k 0 = (starRingEnd ℂ) (y.getD (x.length - k) 0) := by
  have hx : x.map (fun v : ℝ => (v : ℂ)) ≠ [] := by simpa using h
  obtain ⟨y, y1, y2, y3⟩ := C70_bins _ hx
  rw [fft_eq _ hx] at y1; cases y1
  refine ⟨_, fft_eq _ hx, by rw [dft_length]; simp, ?_, fun k h0 hk => dft_real_symm x k h0 hk⟩
  rw [List.getD_eq_getElem?_getD, y3, Option.getD_some]
  clear y2 y3 hx h
  induction x with
  | nil => simp
  | cons a l ih => rw [List.map_cons, List.sum_cons, ih, List.sum_cons]; push_cast; rfl

/-- **C152 (circular shift).**  Advancing the signal circularly by `d` samples multiplies bin `k` by `exp(2πi dk/n)`, which does not change its magnitude. -/
theorem C152_shift (x : List ℂ) (d : ℕ) (h : x ≠ []) :
    ∃ y z, fft x = .ok y ∧ fft (x.rotate d) = .ok z ∧ z.length = y.length ∧
      ∀ k < x.length, z.getD k 0 = Complex.exp (2 * Real.pi * Complex.I * (d * k : ℕ) / x.length) * y.getD k 0 ∧ ‖z.getD k 0‖ = ‖y.getD k 0‖ := by
  have hn : x.length ≠ 0 := by simpa using h
  have hr : x.rotate d ≠ [] := by simpa using h
  refine ⟨_, _, fft_eq x h, fft_eq _ hr, by rw [dft_length, dft_length, List.length_rotate], fun k hk => ?_⟩
  have key : (dft (x.rotate d)).getD k 0 = (twiddle x.length)⁻¹ ^ (d * k) * (dft x).getD k 0 := by
    rw [dft_getD _ _ (by rw [List.length_rotate]; exact hk), List.length_rotate, dft_getD _ _ hk, ← sum_shift x.length d k hn fun j => x.getD j 0]
    apply Finset.sum_congr rfl
    intro j hj
    have hj := Finset.mem_range.1 hj
    rw [List.getD_eq_getElem _ _ (by rw [List.length_rotate]; exact hj), List.getElem_rotate,
      List.getD_eq_getElem _ _ (Nat.mod_lt _ (Nat.pos_of_ne_zero hn))]
  rw [key, twiddle_inv_pow]
  refine ⟨rfl, ?_⟩
  rw [norm_mul]
  have : (2 * Real.pi * Complex.I * ((d * k : ℕ) : ℂ) / (x.length : ℂ)) = ((2 * Real.pi * (d * k : ℕ) / x.length : ℝ) : ℂ) * Complex.I := by
    push_cast; ring
  rw [this, Complex.norm_exp_ofReal_mul_I, one_mul]

/-- **C152 (complex tone).**  A complex exponential of `m` periods has `n` times its amplitude in bin `m` and nothing elsewhere. -/
theorem C152_tone (n m : ℕ) (hm : m < n) (A : ℂ) :
    ∃ y, fft ((List.range n).map fun j : ℕ => A * Complex.exp (2 * Real.pi * Complex.I * (m * j : ℕ) / n)) = .ok y ∧ y.length = n ∧
      ∀ k < n, y.getD k 0 = if k = m then n * A else 0 := by
  set x := (List.range n).map fun j : ℕ => A * Complex.exp (2 * Real.pi * Complex.I * (m * j : ℕ) / n) with hx
  have hl : x.length = n := by simp [hx]
  have h : x ≠ [] := by rw [← List.length_pos_iff]; omega
  refine ⟨_, fft_eq x h, by rw [dft_length, hl], fun k hk => ?_⟩
  rw [dft_getD x k (by omega), hl]
  have h1 := sum_twiddle n m k hm hk
  have h2 : ∑ j ∈ range n, x.getD j 0 * twiddle n ^ (j * k) = A * ∑ j ∈ range n, twiddle n ^ (k * j) * (twiddle n)⁻¹ ^ (m * j) := by
    rw [Finset.mul_sum]
    apply Finset.sum_congr rfl
    intro j hj
    rw [hx, getD_map_range _ _ _ _ (Finset.mem_range.1 hj), ← twiddle_inv_pow, Nat.mul_comm j k]; ring
  rw [h2, h1]
  split_ifs with e1 e2 e2
  · ring
  · exact absurd e1.symm e2
  · exact absurd e2.symm e1
  · ring

/-- **C152 (frequencies).**  `fftfreq(n, d)[m]` is the frequency of bin `m`: a complex tone of that frequency, sampled `n` times with spacing `d`, is found in bin `m`
and nowhere else. -/
theorem C152_frequency (n : ℕ) (d : ℝ) (hd : 0 < d) (m : ℕ) (hm : m < n) (A : ℂ) :
    ∃ r f y, fftfreq n d = .ok r ∧ r[m]? = some f ∧ fft ((List.range n).map fun j : ℕ => A * Complex.exp (2 * Real.pi * Complex.I * f * (j * d))) = .ok y ∧
      y.length = n ∧ ∀ k < n, y.getD k 0 = if k = m then n * A else 0 := by
  obtain ⟨r, r1, -, r3, r4, -⟩ := C45_fftfreq n d (by omega) hd
  obtain ⟨y, y1, y2, y3⟩ := C152_tone n m hm A
  have hn : (n : ℂ) ≠ 0 := by exact_mod_cast (by omega : n ≠ 0)
  have hd' : (d : ℂ) ≠ 0 := by exact_mod_cast hd.ne'
  by_cases hk : m < (n + 1) / 2
  · refine ⟨r, _, y, r1, r3 m hk, ?_, y2, y3⟩
    rw [← y1]
    congr 1
    apply List.map_congr_left
    intro j _
    congr 2
    push_cast
    field_simp
  · refine ⟨r, _, y, r1, r4 m (by omega) hm, ?_, y2, y3⟩
    rw [← y1]
    congr 1
    apply List.map_congr_left
    intro j _
    congr 1
    have : 2 * Real.pi * Complex.I * (((m : ℝ) - n) / (n * d) : ℝ) * (j * d) = 2 * Real.pi * Complex.I * (m * j : ℕ) / n + ((-(j : ℤ) : ℤ) : ℂ) * (2 * Real.pi * Complex.I) := by
      push_cast
      field_simp
      ring
    rw [this, Complex.exp_add, Complex.exp_int_mul_two_pi_mul_I, mul_one]

/-- **C152 (real tone).**  A cosine of `m` periods and amplitude `A` has `n A / 2` in the bins `m` and `n - m` (both halves in one bin at the Nyquist frequency) and
nothing elsewhere. -/
theorem C152_cosine (n m : ℕ) (h0 : 0 < m) (hm : m < n) (A : ℝ) :
    ∃ y, fftReal ((List.range n).map fun j : ℕ => A * Real.cos (2 * Real.pi * (m * j : ℕ) / n)) = .ok y ∧ y.length = n ∧
      ∀ k < n, y.getD k 0 = (if k = m then (n * A / 2 : ℂ) else 0) + if k = n - m then (n * A / 2 : ℂ) else 0 := by
  set x := ((List.range n).map fun j : ℕ => A * Real.cos (2 * Real.pi * (m * j : ℕ) / n)).map (fun v : ℝ => (v : ℂ)) with hx
  have hl : x.length = n := by simp [hx]
  have h : x ≠ [] := by rw [← List.length_pos_iff]; omega
  refine ⟨_, fft_eq x h, by rw [dft_length, hl], fun k hk => ?_⟩
  rw [dft_getD x k (by omega), hl]
  have h1 := sum_twiddle n m k hm hk
  have h1' := sum_twiddle n (n - m) k (by omega) hk
  have h2 : ∑ j ∈ range n, x.getD j 0 * twiddle n ^ (j * k) =
      A / 2 * ∑ j ∈ range n, twiddle n ^ (k * j) * (twiddle n)⁻¹ ^ (m * j) + A / 2 * ∑ j ∈ range n, twiddle n ^ (k * j) * (twiddle n)⁻¹ ^ ((n - m) * j) := by
    rw [Finset.mul_sum, Finset.mul_sum, ← Finset.sum_add_distrib]
    apply Finset.sum_congr rfl
    intro j hj
    rw [hx, List.map_map, getD_map_range _ _ _ _ (Finset.mem_range.1 hj), twiddle_inv_sub n m j (by omega) hm.le, twiddle_inv_pow, Nat.mul_comm j k]
    simp only [Function.comp]
    push_cast
    rw [Complex.cos, twiddle_pow n (m * j)]
    have e1 : Complex.exp (2 * Real.pi * (m * j) / n * Complex.I) = Complex.exp (2 * Real.pi * Complex.I * (m * j : ℕ) / n) := by
      congr 1; push_cast; ring
    have e2 : Complex.exp (-(2 * Real.pi * (m * j) / n) * Complex.I) = Complex.exp (-(2 * Real.pi * Complex.I * (m * j : ℕ) / n)) := by
      congr 1; push_cast; ring
    rw [e1, e2]
    push_cast
    ring
  rw [h2, h1, h1']
  have f1 : (m = k) = (k = m) := propext eq_comm
  have f2 : (n - m = k) = (k = n - m) := propext eq_comm
  simp only [f1, f2]
  split_ifs <;> ring

/-- **C152 (twice).**  Transforming twice gives `n` times the signal in reversed circular order. -/
theorem C152_twice (x : List ℂ) (h : x ≠ []) :
    ∃ y z, fft x = .ok y ∧ fft y = .ok z ∧ z.length = x.length ∧ ∀ j < x.length, z.getD j 0 = x.length * x.getD ((x.length - j) % x.length) 0 := by
  have hn : x.length ≠ 0 := by simpa using h
  have hd : dft x ≠ [] := by rw [← List.length_pos_iff, dft_length]; omega
  refine ⟨_, _, fft_eq x h, fft_eq _ hd, by rw [dft_length, dft_length], fun j hj => ?_⟩
  set n := x.length with hnn
  have hj' : (n - j) % n < n := Nat.mod_lt _ (Nat.pos_of_ne_zero hn)
  rw [dft_getD _ _ (by rw [dft_length]; exact hj), dft_length, ← hnn]
  have h1 : ∀ k ∈ range n, (dft x).getD k 0 * twiddle n ^ (k * j) =
      ∑ i ∈ range n, x.getD i 0 * (twiddle n ^ (i * k) * (twiddle n)⁻¹ ^ ((n - j) % n * k)) := by
    intro k hk
    rw [dft_getD x k (Finset.mem_range.1 hk), ← hnn, Finset.sum_mul]
    apply Finset.sum_congr rfl
    intro i _
    have : (twiddle n)⁻¹ ^ ((n - j) % n * k) = twiddle n ^ (k * j) := by
      rw [inv_pow, twiddle_mod n (n - j) k hn, ← inv_pow, twiddle_inv_sub n j k hn hj.le, Nat.mul_comm]
    rw [this]; ring
  rw [Finset.sum_congr rfl h1, Finset.sum_comm]
  have h2 : ∀ i ∈ range n, ∑ k ∈ range n, x.getD i 0 * (twiddle n ^ (i * k) * (twiddle n)⁻¹ ^ ((n - j) % n * k)) =
      if (n - j) % n = i then x.getD i 0 * n else 0 := by
    intro i hi
    rw [← Finset.mul_sum, sum_twiddle n _ i hj' (Finset.mem_range.1 hi)]
    split_ifs <;> ring
  rw [Finset.sum_congr rfl h2, Finset.sum_ite_eq (range n) ((n - j) % n), if_pos (Finset.mem_range.2 hj'), mul_comm]

/-- **C152 (impulse).**  The spectrum of a unit impulse is one in every bin. -/
theorem C152_impulse (n : ℕ) : fft ((1 : ℂ) :: List.replicate n 0) = .ok (List.replicate (n + 1) 1) := by
  rw [fft_eq _ (by simp)]
  congr 1
  apply list_ext_getD (by rw [dft_length]; simp)
  intro k hk
  rw [dft_length] at hk
  rw [dft_getD _ _ hk, List.length_cons, List.length_replicate, Finset.sum_range_succ']
  simp only [List.length_cons, List.length_replicate] at hk
  rw [Finset.sum_eq_zero]
  · simp [List.getD_eq_getElem?_getD, hk]
  · intro j hj
    have := Finset.mem_range.1 hj
    simp [List.getD_eq_getElem?_getD, this]

/-- **C152 (circular convolution).**  The inverse transform of the product of two spectra is the circular convolution of the signals. -/
theorem C152_circular (x y : List ℂ) (h : x ≠ []) (hl : x.length = y.length) :
    ∃ X Y, fft x = .ok X ∧ fft y = .ok Y ∧
      ifft (List.zipWith (· * ·) X Y) (-1) =
        .ok ((List.range x.length).map fun i => ∑ j ∈ range x.length, x.getD j 0 * y.getD ((i + (x.length - j)) % x.length) 0) := by
  have hn : x.length ≠ 0 := by simpa using h
  have hy : y ≠ [] := by rw [← List.length_pos_iff]; omega
  refine ⟨_, _, fft_eq x h, fft_eq y hy, ?_⟩
  set n := x.length with hnn
  set z := (List.range n).map fun i => ∑ j ∈ range n, x.getD j 0 * y.getD ((i + (n - j)) % n) 0 with hz
  have hzl : z.length = n := by simp [hz]
  have hz0 : z ≠ [] := by rw [← List.length_pos_iff]; omega
  have key : List.zipWith (· * ·) (dft x) (dft y) = dft z := by
    apply list_ext_getD
    · rw [List.length_zipWith, dft_length, dft_length, dft_length, hzl]; omega
    intro k hk
    rw [List.length_zipWith, dft_length, dft_length] at hk
    rw [zip_getD _ _ _ (by rw [dft_length]; omega) (by rw [dft_length]; omega), dft_getD _ _ (by omega), dft_getD _ _ (by omega), dft_getD _ _ (by omega), hzl,
      ← hl]
    have h1 : ∀ i ∈ range n, z.getD i 0 * twiddle n ^ (i * k) = ∑ j ∈ range n, x.getD j 0 * (y.getD ((i + (n - j)) % n) 0 * twiddle n ^ (i * k)) := by
      intro i hi
      rw [hz, getD_map_range _ _ _ _ (Finset.mem_range.1 hi), Finset.sum_mul]
      apply Finset.sum_congr rfl
      intro j _; ring
    rw [Finset.sum_congr rfl h1, Finset.sum_comm, Finset.sum_mul]
    apply Finset.sum_congr rfl
    intro j hj
    rw [← Finset.mul_sum, sum_shift n (n - j) k hn fun i => y.getD i 0, twiddle_inv_sub n j k hn (Finset.mem_range.1 hj).le, mul_assoc]
  rw [key]
  have := (C70_ifft_fft z hz0).1
  rw [fft_eq z hz0] at this
  simp -implicitDefEqProofs only [Res.bind_ok] at this
  exact this

/-- A cosine of one period in four samples. -/
example : ∃ y, fftReal ((List.range 4).map fun j : ℕ => 1 * Real.cos (2 * Real.pi * (1 * j : ℕ) / (4 : ℕ))) = .ok y ∧ y.getD 1 0 = 2 ∧ y.getD 2 0 = 0 := by
  obtain ⟨y, y1, -, y3⟩ := C152_cosine 4 1 (by norm_num) (by norm_num) 1
  refine ⟨y, y1, ?_, ?_⟩
  · rw [y3 1 (by norm_num)]; norm_num
  · rw [y3 2 (by norm_num)]; norm_num

end SciCpp
