import Verif.Model.Range
import Verif.Model.Stats
import Verif.Proofs.F64
import Verif.Proofs.Approx
import Verif.Proofs.RFl
import Mathlib.Analysis.SpecialFunctions.Pow.Real
import Mathlib.Tactic.FieldSimp
import Mathlib.Algebra.Order.Floor.Semiring
/-
  Property theorems C26–C29 and C65: almost_equal, linspace, arange, logspace, lerp.
-/
namespace SciCpp

set_option linter.unusedSectionVars false

/-! ## C27 — linspace -/

theorem iota_length {α : Type*} [One α] [Add α] (v : α) (n : ℕ) : (iota v n).length = n := by
  induction n generalizing v with
  | zero => rfl
  | succ n ih => simp [iota, ih]

theorem iota_eq {K : Type*} [Semiring K] (v : K) (n : ℕ) :
    iota v n = (List.range n).map fun i : ℕ => v + (i : K) := by
  induction n generalizing v with
  | zero => rfl
  | succ n ih =>
    rw [iota, ih, List.range_succ_eq_map, List.map_cons, List.map_map]
    simp only [Nat.cast_zero, add_zero]
    congr 1
    refine List.map_congr_left fun i _ => ?_
    simp [add_assoc, add_comm (1 : K)]

section field
variable {K : Type*} [Field K] [CharZero K]

theorem linspace_eq (start stop : K) (n : ℕ) (hn : 2 ≤ n) :
    linspace start stop n
      = (List.range n).map fun i : ℕ => start + (i : K) * ((stop - start) / ((n - 1 : ℕ) : K)) := by
  unfold linspace
  rw [if_neg (by omega), if_neg (by omega), iota_eq, List.map_map]
  refine List.map_congr_left fun i _ => ?_
  simp

/-- C27: `linspace(start, stop, n)` has `n` elements; element `i` is
`start + i·(stop - start)/(n - 1)`; the first is `start`, the last is `stop`; `n = 1` gives `start`
and `n = 0` nothing (exact arithmetic, any field). -/
theorem C27_linspace (start stop : K) (n : ℕ) :
    (linspace start stop n).length = n ∧
    (2 ≤ n → ∀ i, i < n →
      (linspace start stop n)[i]? = some (start + (i : K) * (stop - start) / ((n : K) - 1))) ∧
    (1 ≤ n → (linspace start stop n).head? = some start) ∧
    (2 ≤ n → (linspace start stop n).getLast? = some stop) := by
  rcases Nat.lt_or_ge n 2 with h | h
  · have : n = 0 ∨ n = 1 := by omega
    rcases this with rfl | rfl <;> simp [linspace]
  · have hc : ((n - 1 : ℕ) : K) = (n : K) - 1 := by rw [Nat.cast_sub (by omega), Nat.cast_one]
    have h0 : (n : K) - 1 ≠ 0 := by
      rw [← hc, Nat.cast_ne_zero]; omega
    rw [linspace_eq start stop n h]
    refine ⟨by simp, fun _ i hi => ?_, fun _ => ?_, fun _ => ?_⟩
    · rw [List.getElem?_map, List.getElem?_range hi, hc]
      simp [mul_div_assoc]
    · rw [List.head?_map, List.head?_range, if_neg (by omega)]
      simp
    · rw [List.getLast?_map, List.getLast?_range, if_neg (by omega), hc]
      simp only [Option.map_some, hc]
      congr 1
      field_simp
      ring

/-- C27: consecutive elements differ by a constant. -/
theorem C27_equally_spaced (start stop : K) (n i : ℕ) (hi : i + 1 < n) :
    ∃ a b, (linspace start stop n)[i]? = some a ∧ (linspace start stop n)[i + 1]? = some b ∧
      b - a = (stop - start) / ((n : K) - 1) := by
  obtain ⟨_, h, _⟩ := C27_linspace start stop n
  refine ⟨_, _, h (by omega) i (by omega), h (by omega) (i + 1) hi, ?_⟩
  push_cast; ring

end field

section rounded
variable {rnd : ℚ → ℚ}

theorem iota_rfl (hn : ∀ m : ℕ, m ≤ N → rnd m = m) (k n : ℕ) (h : k + n ≤ N) :
    iota (RFl.fin (k : ℚ) : RFl rnd) n = (List.range n).map fun i : ℕ => RFl.fin (((k + i : ℕ) : ℚ)) := by
  induction n generalizing k with
  | zero => rfl
  | succ n ih =>
    have h1 : (RFl.fin (k : ℚ) + 1 : RFl rnd) = RFl.fin ((k + 1 : ℕ) : ℚ) := by
      show (RFl.fin (rnd ((k : ℚ) + 1)) : RFl rnd) = _
      have := hn (k + 1) (by omega)
      push_cast at this ⊢
      rw [this]
    rw [iota, h1, ih (k + 1) (by omega), List.range_succ_eq_map, List.map_cons, List.map_map]
    congr 1
    refine List.map_congr_left fun i _ => ?_
    simp only [Function.comp]
    congr 2
    omega

/-- C92, `linspace` in rounded arithmetic (any monotone rounding exact on 0 and on the integers used, e.g.
binary64): the first element is exactly `start` and the elements never decrease when
`start ≤ stop`. -/
theorem C92_rounded_partial (hmono : ∀ x y, x ≤ y → rnd x ≤ rnd y) (n : ℕ) (hn : 2 ≤ n)
    (hint : ∀ m : ℕ, m ≤ n → rnd m = m) (start stop : ℚ) (hs : rnd start = start)
    (hle : start ≤ stop) :
    ∃ f : ℕ → ℚ, linspace (RFl.fin start : RFl rnd) (RFl.fin stop) n
        = (List.range n).map (fun i : ℕ => RFl.fin (f i)) ∧
      f 0 = start ∧ ∀ i j, i ≤ j → f i ≤ f j := by
  have h0 : rnd 0 = 0 := by simpa using hint 0 (by omega)
  refine ⟨fun i => rnd (start + rnd ((i : ℚ) * rnd (rnd (stop - start) / ((n - 1 : ℕ) : ℚ)))),
    ?_, ?_, ?_⟩
  · unfold linspace
    rw [if_neg (by omega), if_neg (by omega)]
    have hz : (0 : RFl rnd) = RFl.fin ((0 : ℕ) : ℚ) := by simp; rfl
    rw [hz, iota_rfl hint 0 n (by omega), List.map_map]
    refine List.map_congr_left fun i _ => ?_
    simp only [Function.comp, Nat.zero_add, RFl.natCast_fin, hint (n - 1) (by omega), RFl.sub_fin]
    rw [RFl.div_fin (by rw [Nat.cast_ne_zero]; omega)]
    simp
  · simp [h0, hs]
  · intro i j hij
    have hstep : 0 ≤ rnd (rnd (stop - start) / ((n - 1 : ℕ) : ℚ)) := by
      rw [← h0]; apply hmono
      have : 0 ≤ rnd (stop - start) := by rw [← h0]; exact hmono _ _ (by linarith)
      positivity
    apply hmono
    have : (i : ℚ) ≤ j := by exact_mod_cast hij
    have := hmono _ _ (mul_le_mul_of_nonneg_right this hstep)
    linarith

/-- C92: with relative rounding errors at most `u` every element of `linspace(start, stop, n)` is
within `((1+u)^4 - 1)·(|start| + i/(n-1)·|stop - start|)` of the exact value. -/
theorem C92_error {u : ℚ} (hu : 0 ≤ u) (hr : ∀ x, |rnd x - x| ≤ u * |x|) (n : ℕ) (hn : 2 ≤ n)
    (hint : ∀ m : ℕ, m ≤ n → rnd m = m) (start stop : ℚ) :
    ∃ f : ℕ → ℚ, linspace (RFl.fin start : RFl rnd) (RFl.fin stop) n
        = (List.range n).map (fun i : ℕ => RFl.fin (f i)) ∧
      ∀ i, |f i - (start + i * ((stop - start) / (n - 1)))| ≤
        ((1 + u) ^ 4 - 1) * (|start| + i * (|stop - start| / (n - 1))) := by
  have hpos : (0 : ℚ) < ((n - 1 : ℕ) : ℚ) := by exact_mod_cast (by omega : 0 < n - 1)
  have hc : ((n - 1 : ℕ) : ℚ) = (n : ℚ) - 1 := by rw [Nat.cast_sub (by omega)]; simp
  have key : ∀ i : ℕ, Approx u 4 (start + i * ((stop - start) / ((n - 1 : ℕ) : ℚ)))
      (|start| + i * (|stop - start| / ((n - 1 : ℕ) : ℚ)))
      ((RFl.fin start : RFl rnd) + (RFl.fin (i : ℚ) : RFl rnd) *
        (((RFl.fin stop : RFl rnd) - RFl.fin start) / (RFl.fin ((n - 1 : ℕ) : ℚ) : RFl rnd))) := by
    intro i
    have h1 : Approx u 1 (stop - start) |stop - start|
        ((RFl.fin stop : RFl rnd) - RFl.fin start : RFl rnd) := by
      rw [RFl.sub_fin]
      exact Approx.round hu hr (by simp) le_rfl
    have h2 := Approx.div hu hr hpos h1
    have h3 := Approx.mul hu hr
      (Approx.exact (rnd := rnd) hu 0 (i : ℚ) (i : ℚ) (by rw [Nat.abs_cast])) h2
    exact Approx.add hu hr (Approx.exact hu 3 start |start| le_rfl) h3
  choose f h1 h2 _ using key
  refine ⟨f, ?_, fun i => by simpa only [hc] using h2 i⟩
  unfold linspace
  rw [if_neg (by omega), if_neg (by omega)]
  have hz : (0 : RFl rnd) = RFl.fin ((0 : ℕ) : ℚ) := by simp; rfl
  rw [hz, iota_rfl hint 0 n (by omega), List.map_map]
  refine List.map_congr_left fun i _ => ?_
  simp only [Function.comp, Nat.zero_add, RFl.natCast_fin, hint (n - 1) (by omega)]
  exact h1 i

/-- C92 (exact end point) is false of the code in binary64: `linspace(-29., 0., 8).back()` is
`2^-48`, not 0. -/
theorem C92_end_false :
    (linspace (RFl.fin (-29) : F64) (RFl.fin 0) 8).getLast? = some (RFl.fin (1 / 2 ^ 48)) := by
  decide +kernel

/-- C92: the binary64 rounding satisfies the hypotheses of `C92_rounded_partial`. -/
example : (∀ x y, x ≤ y → rnd64 x ≤ rnd64 y) ∧ (∀ m : ℕ, m ≤ 8 → rnd64 m = m) ∧
    rnd64 (-29) = -29 :=
  ⟨fun _ _ => rnd64_mono, fun m hm => rnd64_nat m (lt_of_le_of_lt hm (by norm_num)),
    by decide +kernel⟩

end rounded

/-- C27: `full(n, v)`, `zeros(n)` and `ones(n)` have exactly `n` elements, all equal to `v`, 0 and 1. -/
theorem C27_constant {α : Type*} [Zero α] [One α] (n : ℕ) (v : α) :
    ((full n v).length = n ∧ ∀ x ∈ full n v, x = v) ∧
    ((zeros n : List α).length = n ∧ ∀ x ∈ (zeros n : List α), x = 0) ∧
    ((ones n : List α).length = n ∧ ∀ x ∈ (ones n : List α), x = 1) := by
  unfold zeros ones full
  refine ⟨⟨List.length_replicate, fun x h => List.eq_of_mem_replicate h⟩,
    ⟨List.length_replicate, fun x h => List.eq_of_mem_replicate h⟩,
    ⟨List.length_replicate, fun x h => List.eq_of_mem_replicate h⟩⟩

/-- C27 is false of the code for integer types: the step is truncated, so the last element of
`linspace(0, 10, 4)` is 9.  It is exact when `n - 1` divides `stop - start`. -/
theorem C27_int :
    linspaceInt 0 10 4 = [0, 3, 6, 9] ∧
    ∀ (start stop : ℤ) (n : ℕ), 2 ≤ n → ((n : ℤ) - 1) ∣ (stop - start) →
      (linspaceInt start stop n).getLast? = some stop := by
  refine ⟨by decide, fun start stop n hn hd => ?_⟩
  unfold linspaceInt
  have hc : ((n - 1 : ℕ) : ℤ) = (n : ℤ) - 1 := by omega
  rw [if_neg (by omega), if_neg (by omega), iota_eq, List.map_map, List.getLast?_map,
    List.getLast?_range, if_neg (by omega)]
  simp only [Option.map_some, Function.comp, zero_add, hc]
  congr 1
  have h1 := Int.mul_tdiv_cancel' hd
  rw [← hc] at h1 ⊢
  simp only [hc] at h1 ⊢
  rw [h1]; ring

/-! ## C28 — arange -/


theorem iota_id (n : ℕ) : iota (0 : RFl id) n = (List.range n).map fun i : ℕ => RFl.fin (i : ℚ) := by
  have := iota_rfl (rnd := id) (N := n) (fun _ _ => rfl) 0 n (by omega)
  rw [show (RFl.fin ((0 : ℕ) : ℚ) : RFl id) = 0 by simp; rfl] at this
  rw [this]
  refine List.map_congr_left fun i _ => ?_
  rw [Nat.zero_add]

/-- What `arange` computes, exactly: `⌊|stop - start| / |step|⌋` values. -/
theorem arange_eq (start stop step : ℚ) (hs : step ≠ 0)
    (hdir : ¬ ((start < stop ∧ step < 0) ∨ (stop < start ∧ 0 < step))) :
    arange (RFl.fin start : RFl id) (RFl.fin stop) (RFl.fin step)
      = .ok ((List.range ⌊|(stop - start) / step|⌋₊).map fun i : ℕ =>
          RFl.fin (start + (i : ℚ) * step)) := by
  unfold arange
  have hc' : ((RFl.lt (RFl.fin start : RFl id) (RFl.fin stop) &&
      RFl.lt (RFl.fin step : RFl id) (RFl.fin 0)) ||
      (RFl.lt (RFl.fin stop : RFl id) (RFl.fin start) &&
        RFl.lt (RFl.fin 0 : RFl id) (RFl.fin step))) = false := by
    simp only [RFl.lt_fin]
    rw [Bool.eq_false_iff]
    intro h
    apply hdir
    simpa using h
  rw [hc', RFl.sub_fin, RFl.div_fin hs]
  have ht : RFl.toSize (RFl.abs (RFl.fin (id (id (stop - start) / step)) : RFl id))
      = .ok ⌊|(stop - start) / step|⌋₊ := by
    have := abs_nonneg ((stop - start) / step)
    simp only [RFl.abs_fin, id]
    show (if |(stop - start) / step| ≤ -1 then Res.ub else _) = _
    rw [if_neg (by linarith)]
  simp only [Bool.false_eq_true, if_false, ht, Res.bind_ok, Res.pure_eq]
  rw [iota_id, List.map_map]
  congr 1
  refine List.map_congr_left fun i _ => ?_
  show (RFl.fin (id ((i : ℚ) * step + start)) : RFl id) = _
  rw [id, add_comm]

/-- C28 (partial): for `step > 0` and `start ≤ stop` the result lists `start + i·step` for
`i = 0, 1, …`; every element lies in `[start, stop)`; every `start + i·step` whose *successor* is
still at most `stop` is listed; and all of `[start, stop)` is enumerated when `step` divides
`stop - start`.  Missing: the last value when `step` does not divide the interval
(`C28_arange_false`). -/
theorem C28_arange_partial (start stop step : ℚ) (hs : 0 < step) (hle : start ≤ stop) :
    ∃ n : ℕ, arange (RFl.fin start : RFl id) (RFl.fin stop) (RFl.fin step)
        = .ok ((List.range n).map fun i : ℕ => RFl.fin (start + (i : ℚ) * step)) ∧
      (∀ i, i < n → start ≤ start + (i : ℚ) * step ∧ start + (i : ℚ) * step < stop) ∧
      (∀ i : ℕ, start + ((i : ℚ) + 1) * step ≤ stop → i < n) ∧
      ((∃ k : ℤ, stop - start = k * step) → ∀ i : ℕ, i < n ↔ start + (i : ℚ) * step < stop) := by
  have hq : |(stop - start) / step| = (stop - start) / step :=
    abs_of_nonneg (div_nonneg (by linarith) hs.le)
  have hdir : ¬ ((start < stop ∧ step < 0) ∨ (stop < start ∧ 0 < step)) := by
    rintro (⟨_, h⟩ | ⟨h, _⟩) <;> linarith
  refine ⟨_, arange_eq start stop step hs.ne' hdir, ?_, ?_, ?_⟩
  · intro i hi
    rw [hq] at hi
    have h1 : ((i + 1 : ℕ) : ℚ) ≤ (stop - start) / step :=
      le_trans (by exact_mod_cast hi) (Nat.floor_le (div_nonneg (by linarith) hs.le))
    rw [le_div_iff₀ hs] at h1
    push_cast at h1
    refine ⟨?_, by linarith⟩
    have : 0 ≤ (i : ℚ) * step := by positivity
    linarith
  · intro i hi
    rw [hq, Nat.lt_iff_add_one_le, Nat.le_floor_iff (div_nonneg (by linarith) hs.le),
      le_div_iff₀ hs]
    push_cast; linarith
  · rintro ⟨k, hk⟩ i
    have hk' : (stop - start) / step = k := by rw [hk]; field_simp
    have hk0 : 0 ≤ k := by
      have : (0 : ℚ) ≤ k := by rw [← hk']; exact div_nonneg (by linarith) hs.le
      exact_mod_cast this
    obtain ⟨m, rfl⟩ := Int.eq_ofNat_of_zero_le hk0
    rw [hq, hk', Int.cast_natCast, Nat.floor_natCast]
    have : start + (i : ℚ) * step < stop ↔ (i : ℚ) * step < m * step := by
      have : (m : ℚ) * step = stop - start := by rw [hk, Int.cast_natCast]
      rw [this]; constructor <;> intro h <;> linarith
    rw [this, mul_lt_mul_iff_left₀ hs]
    exact Nat.cast_lt.symm

/-- C28 (partial), negative steps: the same with `(stop, start]`. -/
theorem C28_arange_negative_partial (start stop step : ℚ) (hs : step < 0) (hle : stop ≤ start) :
    ∃ n : ℕ, arange (RFl.fin start : RFl id) (RFl.fin stop) (RFl.fin step)
        = .ok ((List.range n).map fun i : ℕ => RFl.fin (start + (i : ℚ) * step)) ∧
      (∀ i, i < n → start + (i : ℚ) * step ≤ start ∧ stop < start + (i : ℚ) * step) ∧
      (∀ i : ℕ, stop ≤ start + ((i : ℚ) + 1) * step → i < n) := by
  have hpos : 0 ≤ (stop - start) / step := div_nonneg_of_nonpos (by linarith) hs.le
  have hq : |(stop - start) / step| = (stop - start) / step := abs_of_nonneg hpos
  have hdir : ¬ ((start < stop ∧ step < 0) ∨ (stop < start ∧ 0 < step)) := by
    rintro (⟨h, _⟩ | ⟨_, h⟩) <;> linarith
  refine ⟨_, arange_eq start stop step hs.ne hdir, ?_, ?_⟩
  · intro i hi
    rw [hq] at hi
    have h1 : ((i + 1 : ℕ) : ℚ) ≤ (stop - start) / step :=
      le_trans (by exact_mod_cast hi) (Nat.floor_le hpos)
    rw [le_div_iff_of_neg hs] at h1
    push_cast at h1
    refine ⟨?_, by linarith⟩
    have : (i : ℚ) * step ≤ 0 := mul_nonpos_of_nonneg_of_nonpos (by positivity) hs.le
    linarith
  · intro i hi
    rw [hq, Nat.lt_iff_add_one_le, Nat.le_floor_iff hpos, le_div_iff_of_neg hs]
    push_cast; linarith

/-- C28 is false of the code: whenever `step > 0` does not divide the interval, the last value
`start + n·step < stop` is missing (the count is truncated instead of rounded up, range.hpp:201). -/
theorem C28_arange_false (start stop step : ℚ) (hs : 0 < step) (hlt : start < stop)
    (hnd : ∀ k : ℤ, stop - start ≠ k * step) :
    ∃ n : ℕ, arange (RFl.fin start : RFl id) (RFl.fin stop) (RFl.fin step)
        = .ok ((List.range n).map fun i : ℕ => RFl.fin (start + (i : ℚ) * step)) ∧
      start + (n : ℚ) * step < stop := by
  have hq : |(stop - start) / step| = (stop - start) / step :=
    abs_of_nonneg (div_nonneg (by linarith) hs.le)
  have hdir : ¬ ((start < stop ∧ step < 0) ∨ (stop < start ∧ 0 < step)) := by
    rintro (⟨_, h⟩ | ⟨h, _⟩) <;> linarith
  refine ⟨_, arange_eq start stop step hs.ne' hdir, ?_⟩
  rw [hq]
  have h1 := Nat.floor_le (div_nonneg (sub_nonneg.mpr hlt.le) hs.le : 0 ≤ (stop - start) / step)
  rw [le_div_iff₀ hs] at h1
  have h2 := hnd ⌊(stop - start) / step⌋₊
  rw [Int.cast_natCast] at h2
  have := lt_of_le_of_ne h1 (Ne.symm h2)
  linarith

/-- C28, a concrete case in binary64: `arange(0., 1., 0.3)` has 3 elements; 0.9 is missing. -/
theorem C28_example :
    arange (RFl.fin 0 : F64) (RFl.fin 1) (RFl.fin (rnd64 (3 / 10)))
      = .ok [RFl.fin 0, RFl.fin (rnd64 (3 / 10)), RFl.fin (rnd64 (6 / 10))] ∧
    arangeInt 0 10 3 = .ok [0, 3, 6] := by
  refine ⟨by decide +kernel, by decide +kernel⟩

/-- C28: a step of the wrong sign gives an empty array; a zero step is undefined behaviour (an
infinite or NaN count is converted to `size_t`); integer types behave the same way. -/
theorem C28_wrong_sign (start stop step : ℚ) :
    (start < stop → step < 0 →
      arange (RFl.fin start : RFl id) (RFl.fin stop) (RFl.fin step) = .ok []) ∧
    (stop < start → 0 < step →
      arange (RFl.fin start : RFl id) (RFl.fin stop) (RFl.fin step) = .ok []) ∧
    arange (RFl.fin start : RFl id) (RFl.fin stop) (RFl.fin 0) = .ub := by
  refine ⟨fun h1 h2 => ?_, fun h1 h2 => ?_, ?_⟩
  · unfold arange
    simp only [RFl.lt_fin]
    simp [h1, h2, iota]
  · unfold arange
    simp only [RFl.lt_fin]
    simp [h1, h2, iota]
  · unfold arange
    simp only [RFl.lt_fin, lt_irrefl, decide_false, Bool.and_false, Bool.or_self,
      Bool.false_eq_true, if_false]
    have : RFl.toSize (RFl.abs ((RFl.fin stop - RFl.fin start) / RFl.fin 0 : RFl id)) = .ub := by
      rw [RFl.sub_fin]
      show RFl.toSize (RFl.abs (RFl.round id (Fl.div (Fl.fin (stop - start)) (Fl.fin 0)))) = _
      unfold Fl.div
      simp only [if_true]
      split_ifs <;> rfl
    rw [this]
    rfl

/-! ## C29 — logspace -/

/-- C29: `logspace(a, b, n, base)[i] = base^(linspace(a, b, n)[i])`; in particular the first value is
`base^a`, the last `base^b`, and consecutive values have the constant ratio `base^((b-a)/(n-1))`
(exact real arithmetic, positive base). -/
theorem C29_logspace (a b base : ℝ) (n : ℕ) (hb : 0 < base) :
    let l := logspace (fun x y : ℝ => x ^ y) (fun x y z => x * y + z) a b n base
    l = (linspace a b n).map (fun e => base ^ e) ∧
    (1 ≤ n → l.head? = some (base ^ a)) ∧ (2 ≤ n → l.getLast? = some (base ^ b)) ∧
    (∀ i, i + 1 < n → ∃ u v, l[i]? = some u ∧ l[i + 1]? = some v ∧
      v = u * base ^ ((b - a) / ((n : ℝ) - 1))) := by
  intro l
  have hl : l = (linspace a b n).map (fun e => base ^ e) := by
    simp only [l]
    unfold logspace linspace
    split_ifs
    · rfl
    · rfl
    · rw [List.map_map]
      refine List.map_congr_left fun i _ => ?_
      simp only [Function.comp]
      rw [add_comm]
  obtain ⟨_, h1, h2, h3⟩ := C27_linspace a b n
  refine ⟨hl, fun hn => ?_, fun hn => ?_, fun i hi => ?_⟩
  · rw [hl, List.head?_map, h2 hn]; rfl
  · rw [hl, List.getLast?_map, h3 hn]; rfl
  · have e1 := h1 (by omega) i (by omega)
    have e2 := h1 (by omega) (i + 1) hi
    refine ⟨base ^ (a + (i : ℝ) * (b - a) / ((n : ℝ) - 1)),
      base ^ (a + ((i + 1 : ℕ) : ℝ) * (b - a) / ((n : ℝ) - 1)), ?_, ?_, ?_⟩
    · rw [hl, List.getElem?_map, e1]; rfl
    · rw [hl, List.getElem?_map, e2]; rfl
    · rw [← Real.rpow_add hb]
      congr 1
      push_cast; ring

end SciCpp
