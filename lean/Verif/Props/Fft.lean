import Verif.Proofs.Hamming
import Verif.Proofs.Dft
import Verif.Props.Poly
/-
  Property theorems C43 (next_fast_len), C41 (fftconvolve), C70 (transforms and their inverses).
-/
namespace SciCpp

open Finset Spec

/-! ## C43 — next_fast_len -/

/-- C43: for every `n` of an integer type whose largest value is at least `max(5, 2n)`,
`next_fast_len(n)` terminates, stays inside its generator, never overflows, and returns the least
number `≥ n` of the form `2^a 3^b 5^c`. -/
theorem C43_next_fast_len (lim fuel : ℕ) (n : ℤ) (hlim : 2 * n ≤ lim) (hfuel : n ≤ fuel)
    (h1 : 1 ≤ fuel) :
    ∃ m : ℕ, nextFastLen lim fuel n = .ok (some m) ∧ n ≤ m ∧ (∃ a b c, m = 2 ^ a * 3 ^ b * 5 ^ c) ∧
      ∀ k : ℕ, n ≤ k → (∃ a b c, k = 2 ^ a * 3 ^ b * 5 ^ c) → m ≤ k := by
  have hps : ∀ p ∈ [2, 3, 5], 2 ≤ p := by decide
  obtain ⟨f, rfl⟩ : ∃ f, fuel = f + 1 := ⟨fuel - 1, by omega⟩
  obtain ⟨m, e1, e2, e3, e4⟩ := nextUglyLoop_ok hps (by simp) lim n hlim f
    (Hamming.init [2, 3, 5]) 1 (HInv.init hps) (by push_cast at *; omega) (by
      intro k hk hlt
      have := hk.pos hps
      omega)
  exact ⟨m, e1, e3, (smooth_iff m).mp e2, fun k hk hs => e4 k ((smooth_iff k).mpr hs) hk⟩

/-- C43: hence `n ≤ next_fast_len(n) < 2n` for `n ≥ 1`, and 5-smooth lengths are fixed points. -/
theorem C43_bounds (lim fuel n : ℕ) (hn : 1 ≤ n) (hlim : 2 * n ≤ lim) (hfuel : n ≤ fuel) :
    ∃ m, nextFastLen lim fuel n = .ok (some m) ∧ n ≤ m ∧ m < 2 * n ∧
      ((∃ a b c, n = 2 ^ a * 3 ^ b * 5 ^ c) → m = n) := by
  obtain ⟨m, e1, e2, _, e4⟩ := C43_next_fast_len lim fuel n (by exact_mod_cast hlim)
    (by exact_mod_cast hfuel) (by omega)
  refine ⟨m, e1, by exact_mod_cast e2, ?_, fun h => ?_⟩
  · obtain ⟨a, ha1, ha2⟩ : ∃ a, n ≤ 2 ^ a ∧ 2 ^ a < 2 * n := by
      refine ⟨Nat.clog 2 n, Nat.le_pow_clog (by omega) n, ?_⟩
      rcases Nat.lt_or_ge 1 n with h | h
      · have := Nat.pow_pred_clog_lt_self (b := 2) (by omega) h
        have hpos : 0 < Nat.clog 2 n := Nat.clog_pos (by omega) h
        obtain ⟨c, hc⟩ : ∃ c, Nat.clog 2 n = c + 1 := ⟨Nat.clog 2 n - 1, by omega⟩
        rw [hc] at this ⊢
        simp only [Nat.pred_succ] at this
        rw [pow_succ]; omega
      · have : n = 1 := by omega
        subst this; simp
    have := e4 (2 ^ a) (by exact_mod_cast ha1) ⟨a, 0, 0, by simp⟩
    omega
  · have := e4 n (le_refl _) h
    have : n ≤ m := by exact_mod_cast e2
    omega

/-- C43 (range of integers): a request above every 5-smooth value of the integer type overflows;
for an 8-bit type `126` is such a request (`125` is the largest 5-smooth number below 128). -/
theorem C43_overflow : nextFastLen 127 200 126 = .ub := by decide +kernel

example : nextFastLen (2 ^ 64 - 1) 200 97 = .ok (some 100) := by decide +kernel

/-! ## C70 — transforms and inverses -/

theorem dft_singleton (x : List ℂ) (h : x.length = 1) : dft x = x := by
  obtain ⟨v, rfl⟩ := List.length_eq_one_iff.mp h
  simp [dft]

theorem fft_eq (x : List ℂ) (h : x ≠ []) : fft x = .ok (dft x) := by
  have he : x.isEmpty = false := by simpa using h
  unfold fft
  simp only [he, Bool.not_false, require_true, Res.bind_ok]
  split_ifs with h1
  · have h2 := dft_singleton x h1
    obtain ⟨v, rfl⟩ := List.length_eq_one_iff.mp h1
    rw [h2]; rfl
  · rfl

theorem rfft_eq (x : List ℝ) (h : x ≠ []) :
    rfft x = .ok ((dft (x.map (fun v : ℝ => (v : ℂ)))).take (x.length / 2 + 1)) := by
  have he : x.isEmpty = false := by simpa using h
  unfold rfft
  simp only [he, Bool.not_false, require_true, Res.bind_ok]
  split_ifs with h1
  · obtain ⟨v, rfl⟩ := List.length_eq_one_iff.mp h1
    rw [dft_singleton _ (by simp)]
    simp [rd]
  · rfl

theorem toI32_small (n : ℕ) (h : n < 2 ^ 31) : toI32 (n : ℤ) = n := by
  unfold toI32
  apply Int.bmod_eq_of_le <;> omega

/-- C70: `ifft(fft(x)) = x` for every non-empty complex signal, with the default and with the explicit
length. -/
theorem C70_ifft_fft (x : List ℂ) (h : x ≠ []) :
    (fft x >>= fun y => ifft y (-1)) = .ok x ∧
    (x.length < 2 ^ 31 → (fft x >>= fun y => ifft y x.length) = .ok x) := by
  rw [fft_eq x h]
  simp -implicitDefEqProofs only [Res.bind_ok]
  constructor
  · unfold ifft
    rw [if_pos (.inr (by omega)), idft_dft]
  · intro hl
    unfold ifft
    have h1 : toI32 ((dft x).length : ℤ) = x.length := by
      rw [dft_length]; exact toI32_small _ hl
    rw [if_pos (.inl h1), idft_dft]

theorem take_getD {α : Type} [Zero α] (l : List α) (m k : ℕ) (h : k < m) :
    (l.take m).getD k 0 = l.getD k 0 := by
  simp only [List.getD_eq_getElem?_getD, List.getElem?_take_of_lt h]

/-- C70: `irfft(rfft(x), x.size()) = x` for every non-empty real signal of either parity. -/
theorem C70_irfft_rfft (x : List ℝ) (h : x ≠ []) (hl : x.length < 2 ^ 31) :
    (rfft x >>= fun y => irfft y x.length) = .ok x := by
  have hpos := List.length_pos_iff.mpr h
  rw [rfft_eq x h]
  simp -implicitDefEqProofs only [Res.bind_ok]
  set d := dft (x.map (fun v : ℝ => (v : ℂ))) with hd
  have hdl : d.length = x.length := by rw [hd, dft_length]; simp
  have htl : (d.take (x.length / 2 + 1)).length = x.length / 2 + 1 := by
    rw [List.length_take, hdl]; omega
  unfold irfft
  have h32 : toI32 ((x.length / 2 + 1 : ℕ) : ℤ) = ((x.length / 2 + 1 : ℕ) : ℤ) :=
    toI32_small _ (by omega)
  rw [htl, h32]
  by_cases h1 : ((x.length / 2 + 1 : ℕ) : ℤ) = x.length
  · rw [if_pos h1]
    have h2 : x.length / 2 + 1 = x.length := by exact_mod_cast h1
    refine eigenInvReal_half x _ h (by rw [htl]; exact h2) ?_
    intro k hk
    rw [take_getD _ _ _ (by omega)]
  · rw [if_neg h1, if_neg (by omega)]
    simp -implicitDefEqProofs only [Res.bind_ok, Int.toNat_natCast]
    rw [(C46_zero_padding _ _).1]
    simp -implicitDefEqProofs only [Res.bind_ok]
    refine eigenInvReal_half x _ h (C46_zero_padding _ _).2.2 ?_
    intro k hk
    rw [pad_getD _ _ _ (.inl (by rw [htl]; omega)), take_getD _ _ _ (by omega)]

/-- C70: the default length recovers real signals of even length. -/
theorem C70_irfft_default_even_partial (x : List ℝ) (h : x ≠ []) (he : Even x.length)
    (hl : x.length < 2 ^ 31) : (rfft x >>= fun y => irfft y (-1)) = .ok x := by
  have hpos := List.length_pos_iff.mpr h
  rw [rfft_eq x h]
  simp -implicitDefEqProofs only [Res.bind_ok]
  set d := dft (x.map (fun v : ℝ => (v : ℂ))) with hd
  have hdl : d.length = x.length := by rw [hd, dft_length]; simp
  have htl : (d.take (x.length / 2 + 1)).length = x.length / 2 + 1 := by
    rw [List.length_take, hdl]; omega
  unfold irfft
  have h32 : toI32 ((x.length / 2 + 1 : ℕ) : ℤ) = ((x.length / 2 + 1 : ℕ) : ℤ) :=
    toI32_small _ (by omega)
  rw [htl, h32, if_neg (by omega), if_pos (by omega), if_neg (by omega)]
  simp -implicitDefEqProofs only [Res.bind_ok]
  rw [(C46_zero_padding _ _).1]
  simp -implicitDefEqProofs only [Res.bind_ok]
  obtain ⟨m, hm⟩ := he
  have hsz : 2 * (x.length / 2 + 1 - 1) = x.length := by omega
  rw [hsz]
  refine eigenInvReal_half x _ h (C46_zero_padding _ _).2.2 ?_
  intro k hk
  rw [pad_getD _ _ _ (.inl (by rw [htl]; omega)), take_getD _ _ _ (by omega)]

/-- C70 fails for the default length and odd sizes: one point is undefined behaviour, and any other
odd length gives an array that is one element too short. -/
theorem C70_irfft_default_odd_false (x : List ℝ) (ho : Odd x.length) (hl : x.length < 2 ^ 31) :
    (x.length = 1 → (rfft x >>= fun y => irfft y (-1)) = .ub) ∧
    (x.length ≠ 1 → ∃ r, (rfft x >>= fun y => irfft y (-1)) = .ok r ∧
      r.length + 1 = x.length) := by
  obtain ⟨m, hm⟩ := ho
  have h : x ≠ [] := by intro h; simp [h] at hm
  rw [rfft_eq x h]
  simp -implicitDefEqProofs only [Res.bind_ok]
  set d := dft (x.map (fun v : ℝ => (v : ℂ))) with hd
  have hdl : d.length = x.length := by rw [hd, dft_length]; simp
  have htl : (d.take (x.length / 2 + 1)).length = x.length / 2 + 1 := by
    rw [List.length_take, hdl]; omega
  unfold irfft
  have h32 : toI32 ((x.length / 2 + 1 : ℕ) : ℤ) = ((x.length / 2 + 1 : ℕ) : ℤ) :=
    toI32_small _ (by omega)
  rw [htl, h32, if_neg (by omega), if_pos (by omega), if_neg (by omega)]
  simp -implicitDefEqProofs only [Res.bind_ok]
  rw [(C46_zero_padding _ _).1]
  simp -implicitDefEqProofs only [Res.bind_ok]
  have hlen := (C46_zero_padding (d.take (x.length / 2 + 1)) (2 * (x.length / 2 + 1 - 1))).2.2
  unfold eigenInvReal
  rw [hlen]
  constructor
  · intro h1
    rw [if_pos (by omega)]
  · intro h1
    rw [if_neg (by omega)]
    refine ⟨_, rfl, ?_⟩
    rw [List.length_map, idft_length, hermExt]
    simp; omega

/-- C70: an empty signal is rejected. -/
theorem C70_empty : fft [] = .ub ∧ rfft [] = .ub ∧ fftReal [] = .ub := ⟨rfl, rfl, rfl⟩

/-- C70: bins of the transform: sizes, the DC bin is the sum, linearity. -/
theorem C70_bins (x : List ℂ) (h : x ≠ []) :
    ∃ y, fft x = .ok y ∧ y.length = x.length ∧ y[0]? = some x.sum := by
  have hpos := List.length_pos_iff.mpr h
  refine ⟨_, fft_eq x h, dft_length x, ?_⟩
  have h1 := dft_getD x 0 hpos
  rw [getD_of_lt _ _ (by rw [dft_length]; exact hpos)] at h1
  rw [List.getElem?_eq_getElem (by rw [dft_length]; exact hpos), h1]
  congr 1
  simp only [Nat.mul_zero, pow_zero, mul_one]
  clear h1 h hpos
  induction x with
  | nil => simp
  | cons a l ih => 
    rw [List.length_cons, Finset.sum_range_succ']
    simp only [List.getD_cons_succ, List.getD_cons_zero, ih, List.sum_cons, add_comm]

/-- C70: linearity of `fft` for signals of equal length. -/
theorem C70_linear (x y : List ℂ) (a b : ℂ) (hl : x.length = y.length) (h : x ≠ []) :
    ∃ fx fy, fft x = .ok fx ∧ fft y = .ok fy ∧
      fft (List.zipWith (fun u v => a * u + b * v) x y)
        = .ok (List.zipWith (fun u v => a * u + b * v) fx fy) := by
  have hpos := List.length_pos_iff.mpr h
  have hy : y ≠ [] := by intro hc; simp [hc] at hl; exact h hl
  have hzl : (List.zipWith (fun u v => a * u + b * v) x y).length = x.length := by
    rw [List.length_zipWith]; omega
  have hz : List.zipWith (fun u v => a * u + b * v) x y ≠ [] := by
    intro hc; rw [hc] at hzl; simp at hzl; omega
  refine ⟨_, _, fft_eq x h, fft_eq y hy, ?_⟩
  rw [fft_eq _ hz]
  congr 1
  apply list_ext_getD
  · rw [dft_length, hzl, List.length_zipWith, dft_length, dft_length]; omega
  · intro k hk
    rw [dft_length, hzl] at hk
    rw [dft_getD _ _ (by omega), hzl, getD_of_lt (List.zipWith _ _ _) k
      (by rw [List.length_zipWith, dft_length, dft_length]; omega), List.getElem_zipWith,
      ← getD_of_lt, ← getD_of_lt, dft_getD _ _ hk, dft_getD _ _ (by omega), Finset.mul_sum,
      Finset.mul_sum, ← hl, ← Finset.sum_add_distrib]
    refine Finset.sum_congr rfl fun j hj => ?_
    have hj' := mem_range.mp hj
    rw [getD_of_lt (List.zipWith _ _ _) j (by omega), List.getElem_zipWith,
      ← getD_of_lt, ← getD_of_lt]
    ring

/-! ## C41 — fftconvolve -/

theorem fftconvSize_ok (fuel n m : ℕ) (h0 : 0 < n + m) (hsz : n + m ≤ 2 ^ 30) (hf : n + m ≤ fuel) :
    ∃ s, fftconvSize fuel n m = .ok (n + m - 1, s) ∧ n + m - 1 ≤ s ∧ 1 ≤ s ∧ s < 2 ^ 31 := by
  obtain ⟨s, e1, e2, ⟨a, b, c, hs⟩, e4⟩ := C43_next_fast_len (2 ^ 64 - 1) fuel
    ((n + m - 1 : ℕ) : ℤ) (by push_cast; omega) (by omega) (by omega)
  have hs1 : 1 ≤ s := by
    rw [hs]
    exact Nat.mul_pos (Nat.mul_pos (Nat.pow_pos (by omega)) (Nat.pow_pos (by omega)))
      (Nat.pow_pos (by omega))
  have hs2 : s ≤ 2 ^ 30 := e4 (2 ^ 30) (by push_cast; omega) ⟨30, 0, 0, by norm_num⟩
  refine ⟨s, ?_, by omega, hs1, by omega⟩
  unfold fftconvSize
  rw [show decide (0 < n + m) = true by simpa using h0]
  simp only [require_true, Res.bind_ok]
  rw [e1]
  rfl

theorem zip_getD (a b : List ℂ) (k : ℕ) (h1 : k < a.length) (h2 : k < b.length) :
    (List.zipWith (· * ·) a b).getD k 0 = a.getD k 0 * b.getD k 0 := by
  rw [getD_of_lt (List.zipWith _ _ _) k (by rw [List.length_zipWith]; omega),
    List.getElem_zipWith, getD_of_lt _ _ h1, getD_of_lt _ _ h2]

/-- C41 for complex arrays: `convolve<FFT>(a, v)` equals `convolve<DIRECT>(a, v)`, for every pair of
arrays that are not both empty (at most `2^30` elements in total, so that `int(fft_size)` is
representable). -/
theorem C41_fftconvolve_complex (fuel : ℕ) (a v : List ℂ) (h : ¬ (a = [] ∧ v = []))
    (hsz : a.length + v.length ≤ 2 ^ 30) (hf : a.length + v.length ≤ fuel) :
    fftconvolveC fuel a v = convolve a v := by
  obtain ⟨r, r1, r2, r3⟩ := convolve_poly a v h
  have h0 : 0 < a.length + v.length := by
    rcases Nat.eq_zero_or_pos a.length with h1 | h1
    · rcases Nat.eq_zero_or_pos v.length with h2 | h2
      · exact absurd ⟨List.length_eq_zero_iff.mp h1, List.length_eq_zero_iff.mp h2⟩ h
      · omega
    · omega
  obtain ⟨s, s1, s2, s3, s4⟩ := fftconvSize_ok fuel _ _ h0 hsz hf
  have hne : ∀ x : List ℂ, x.take s ++ List.replicate (s - x.length) (0 : ℂ) ≠ [] := by
    intro x hc
    have := (C46_zero_padding x s).2.2
    rw [hc] at this; simp at this; omega
  have hlen : ∀ x : List ℂ, (dft (x.take s ++ List.replicate (s - x.length) (0 : ℂ))).length = s := by
    intro x; rw [dft_length]; exact (C46_zero_padding x s).2.2
  unfold fftconvolveC
  rw [s1]
  simp -implicitDefEqProofs only [Res.bind_ok]
  rw [(C46_zero_padding a s).1, (C46_zero_padding v s).1]
  simp -implicitDefEqProofs only [Res.bind_ok]
  rw [fft_eq _ (hne a), fft_eq _ (hne v)]
  simp -implicitDefEqProofs only [Res.bind_ok, mulLists, hlen, beq_self_eq_true, require_true, Res.pure_eq]
  have hprod : List.zipWith (· * ·) (dft (a.take s ++ List.replicate (s - a.length) (0 : ℂ)))
      (dft (v.take s ++ List.replicate (s - v.length) (0 : ℂ)))
      = dft (r.take s ++ List.replicate (s - r.length) (0 : ℂ)) := by
    apply list_ext_getD
    · rw [List.length_zipWith, hlen, hlen, hlen]; omega
    · intro k hk
      rw [List.length_zipWith, hlen, hlen] at hk
      rw [zip_getD _ _ _ (by rw [hlen]; omega) (by rw [hlen]; omega)]
      exact dft_conv a v r s s2 r2 r3 k (by omega)
  rw [hprod]
  unfold ifft
  have h32 : toI32 (s : ℤ) = s := toI32_small s s4
  rw [hlen, if_pos (.inl rfl), idft_dft, r1]
  simp -implicitDefEqProofs only [Res.bind_ok]
  rw [(C46_zero_padding _ _).2.1, List.take_of_length_le (l := r) (by omega), ← r2,
    List.take_left' rfl]
  simp

theorem map_ofReal_injective : Function.Injective (List.map (fun v : ℝ => (v : ℂ))) :=
  List.map_injective_iff.mpr Complex.ofReal_injective

theorem polyOf_map (l : List ℝ) :
    polyOf (l.map (fun v : ℝ => (v : ℂ))) = (polyOf l).map (Complex.ofRealHom) := by
  induction l with
  | nil => simp [polyOf]
  | cons a l ih => simp [polyOf, ih]

theorem map_pad (x : List ℝ) (n : ℕ) :
    (x.take n ++ List.replicate (n - x.length) 0).map (fun v : ℝ => (v : ℂ))
      = (x.map (fun v : ℝ => (v : ℂ))).take n
        ++ List.replicate (n - (x.map (fun v : ℝ => (v : ℂ))).length) 0 := by
  simp [List.map_take]

/-- C41 for real arrays. -/
theorem C41_fftconvolve_real (fuel : ℕ) (a v : List ℝ) (h : ¬ (a = [] ∧ v = []))
    (hsz : a.length + v.length ≤ 2 ^ 30) (hf : a.length + v.length ≤ fuel) :
    fftconvolveR fuel a v = convolve a v := by
  obtain ⟨r, r1, r2, r3⟩ := convolve_poly a v h
  have h0 : 0 < a.length + v.length := by
    rcases Nat.eq_zero_or_pos a.length with h1 | h1
    · rcases Nat.eq_zero_or_pos v.length with h2 | h2
      · exact absurd ⟨List.length_eq_zero_iff.mp h1, List.length_eq_zero_iff.mp h2⟩ h
      · omega
    · omega
  obtain ⟨s, s1, s2, s3, s4⟩ := fftconvSize_ok fuel _ _ h0 hsz hf
  have hplen : ∀ x : List ℝ, (x.take s ++ List.replicate (s - x.length) (0 : ℝ)).length = s :=
    fun x => (C46_zero_padding x s).2.2
  have hne : ∀ x : List ℝ, x.take s ++ List.replicate (s - x.length) (0 : ℝ) ≠ [] := by
    intro x hc
    have := hplen x
    rw [hc] at this; simp at this; omega
  set D : List ℝ → List ℂ := fun x =>
    dft ((x.take s ++ List.replicate (s - x.length) 0).map (fun v : ℝ => (v : ℂ))) with hD
  have hDl : ∀ x, (D x).length = s := by intro x; simp only [hD, dft_length, List.length_map, hplen]
  have hprod : ∀ k, k < s → (D a).getD k 0 * (D v).getD k 0 = (D r).getD k 0 := by
    intro k hk
    simp only [hD, map_pad]
    refine dft_conv _ _ _ s (by simpa using s2) (by simpa using r2) ?_ k hk
    rw [polyOf_map, polyOf_map, polyOf_map, r3, Polynomial.map_mul]
  unfold fftconvolveR
  rw [s1]
  simp -implicitDefEqProofs only [Res.bind_ok]
  rw [(C46_zero_padding a s).1, (C46_zero_padding v s).1]
  simp -implicitDefEqProofs only [Res.bind_ok]
  rw [rfft_eq _ (hne a), rfft_eq _ (hne v)]
  simp -implicitDefEqProofs only [Res.bind_ok, hplen]
  have htl : ∀ x, ((D x).take (s / 2 + 1)).length = s / 2 + 1 := by
    intro x; rw [List.length_take, hDl]; omega
  have hmul : mulLists ((D a).take (s / 2 + 1)) ((D v).take (s / 2 + 1))
      = .ok (List.zipWith (· * ·) ((D a).take (s / 2 + 1)) ((D v).take (s / 2 + 1))) := by
    simp only [mulLists, htl, beq_self_eq_true, require_true, Res.bind_ok, Res.pure_eq]
  simp only [hD] at hmul
  rw [hmul]
  simp -implicitDefEqProofs only [Res.bind_ok]
  set P := List.zipWith (· * ·) ((D a).take (s / 2 + 1)) ((D v).take (s / 2 + 1)) with hP
  have hPl : P.length = s / 2 + 1 := by rw [hP, List.length_zipWith, htl, htl]; omega
  have hPk : ∀ k, k ≤ s / 2 → P.getD k 0 = (D r).getD k 0 := by
    intro k hk
    rw [hP, zip_getD _ _ _ (by rw [htl]; omega) (by rw [htl]; omega), take_getD _ _ _ (by omega),
      take_getD _ _ _ (by omega)]
    exact hprod k (by omega)
  have hinv : irfft P (toI32 s) = .ok (r.take s ++ List.replicate (s - r.length) 0) := by
    unfold irfft
    have h32 : toI32 (s : ℤ) = s := toI32_small s s4
    have h32' : toI32 ((s / 2 + 1 : ℕ) : ℤ) = ((s / 2 + 1 : ℕ) : ℤ) := toI32_small _ (by omega)
    rw [hPl, h32, h32']
    by_cases h1 : ((s / 2 + 1 : ℕ) : ℤ) = s
    · rw [if_pos h1]
      refine eigenInvReal_half _ _ (hne r) (by rw [hplen, hPl]; exact_mod_cast h1) ?_
      intro k hk
      rw [hplen] at hk
      exact hPk k hk
    · rw [if_neg h1, if_neg (by omega)]
      simp -implicitDefEqProofs only [Res.bind_ok, Int.toNat_natCast]
      rw [(C46_zero_padding P s).1]
      simp -implicitDefEqProofs only [Res.bind_ok]
      refine eigenInvReal_half _ _ (hne r) (by rw [hplen]; exact (C46_zero_padding P s).2.2) ?_
      intro k hk
      rw [hplen] at hk
      rw [pad_getD _ _ _ (.inl (by rw [hPl]; omega))]
      exact hPk k hk
  simp only [hP, hD] at hinv
  rw [hinv, r1]
  simp -implicitDefEqProofs only [Res.bind_ok]
  rw [(C46_zero_padding _ _).2.1, List.take_of_length_le (l := r) (by omega), ← r2,
    List.take_left' rfl]
  simp

end SciCpp
