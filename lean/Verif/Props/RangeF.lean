import Verif.Model.RangeQ
import Verif.Proofs.SqrtNewton
import Verif.Props.Range
import Verif.Props.Ieee
import Verif.Props.QSum
import Verif.Props.QuantF
import Verif.Props.IntPoly
/-
  Property theorems C112 (logspace, arange and long ranges in floating point) and C113 (ranges of quantities).
-/
namespace SciCpp
open Spec

/-! ## C112 — logspace -/

section rounded
variable {rnd : ℚ → ℚ}

/-- C112: in rounded arithmetic (monotone, exact on the integers used) `logspace(start, stop, n, base)` is
`pow(base, e_0), ..., pow(base, e_(n-1))` for any `pow`, with exponents that start exactly at `start`, never
decrease when `start ≤ stop`, and are within `((1+u)^3 - 1)·(|start| + i·|stop - start|/(n-1))` of the equally spaced
ones. -/
theorem C112_logspace {u : ℚ} (hu : 0 ≤ u) (hr : ∀ x, |rnd x - x| ≤ u * |x|)
    (hmono : ∀ x y, x ≤ y → rnd x ≤ rnd y) (n : ℕ) (hn : 1 ≤ n) (hint : ∀ m : ℕ, m ≤ n → rnd m = m)
    (start stop : ℚ) (hs : rnd start = start) (pw : RFl rnd → RFl rnd → RFl rnd) (base : RFl rnd) :
    ∃ e : ℕ → ℚ, logspace pw RFl.fma (RFl.fin start) (RFl.fin stop) n base
        = (List.range n).map (fun i : ℕ => pw base (RFl.fin (e i))) ∧
      e 0 = start ∧ (start ≤ stop → ∀ i j, i ≤ j → e i ≤ e j) ∧
      ∀ i, |e i - (start + i * ((stop - start) / (n - 1)))| ≤
        ((1 + u) ^ 3 - 1) * (|start| + i * (|stop - start| / (n - 1))) := by
  have h0 : rnd 0 = 0 := by simpa using hint 0 (by omega)
  by_cases h1 : n = 1
  · subst h1
    refine ⟨fun _ => start, by simp [logspace], rfl, fun _ _ _ _ => le_rfl, fun i => ?_⟩
    simp only [Nat.cast_one, sub_self, div_zero, mul_zero, add_zero, abs_zero]
    have := one_le_M hu 3
    exact mul_nonneg (by linarith) (abs_nonneg _)
  have hpos : (0 : ℚ) < ((n - 1 : ℕ) : ℚ) := by exact_mod_cast (by omega : 0 < n - 1)
  have hc : ((n - 1 : ℕ) : ℚ) = (n : ℚ) - 1 := by rw [Nat.cast_sub hn]; simp
  set st := rnd (rnd (stop - start) / ((n - 1 : ℕ) : ℚ)) with hst
  refine ⟨fun i => rnd ((i : ℚ) * st + start), ?_, ?_, ?_, ?_⟩
  · unfold logspace
    rw [if_neg (by omega), if_neg h1]
    have hz : (0 : RFl rnd) = RFl.fin ((0 : ℕ) : ℚ) := by simp; rfl
    rw [hz, iota_rfl hint 0 n (by omega), List.map_map]
    refine List.map_congr_left fun i _ => ?_
    simp only [Function.comp, Nat.zero_add, RFl.natCast_fin, hint (n - 1) (by omega), RFl.sub_fin]
    rw [RFl.div_fin hpos.ne', RFl.fma_fin]
  · simp [hs]
  · intro hle i j hij
    have hstep : 0 ≤ st := by
      rw [← h0]; apply hmono
      have : 0 ≤ rnd (stop - start) := by rw [← h0]; exact hmono _ _ (by linarith)
      positivity
    apply hmono
    have : (i : ℚ) ≤ j := by exact_mod_cast hij
    have := mul_le_mul_of_nonneg_right this hstep
    linarith
  · intro i
    have h2 : Approx u 1 (stop - start) |stop - start| ((RFl.fin stop : RFl rnd) - RFl.fin start : RFl rnd) := by
      rw [RFl.sub_fin]
      exact Approx.round hu hr (by simp) le_rfl
    have h3 := Approx.div hu hr hpos h2
    rw [RFl.sub_fin, RFl.div_fin hpos.ne'] at h3
    obtain ⟨q, hq, he, hA⟩ := h3
    have hq' : q = st := (RFl.fin_inj.1 hq).symm
    rw [hq'] at he
    have hi : (0 : ℚ) ≤ i := Nat.cast_nonneg i
    have h4 : |((i : ℚ) * st + start) - (start + i * ((stop - start) / ((n - 1 : ℕ) : ℚ)))| ≤
        ((1 + u) ^ 2 - 1) * (|start| + i * (|stop - start| / ((n - 1 : ℕ) : ℚ))) := by
      have e1 : ((i : ℚ) * st + start) - (start + i * ((stop - start) / ((n - 1 : ℕ) : ℚ)))
          = i * (st - (stop - start) / ((n - 1 : ℕ) : ℚ)) := by ring
      rw [e1, abs_mul, abs_of_nonneg hi]
      have := mul_le_mul_of_nonneg_left he hi
      have h5 := one_le_M hu 2
      have h6 := mul_nonneg (sub_nonneg.2 h5) (abs_nonneg start)
      linarith
    have h5 : |start + (i : ℚ) * ((stop - start) / ((n - 1 : ℕ) : ℚ))| ≤
        |start| + i * (|stop - start| / ((n - 1 : ℕ) : ℚ)) := by
      refine (abs_add_le _ _).trans ?_
      rw [abs_mul, abs_of_nonneg hi, abs_div, abs_of_pos hpos]
    obtain ⟨q, hq, he, -⟩ := Approx.round (rnd := rnd) hu hr h4 h5
    rw [← RFl.fin_inj.1 hq] at he
    rw [hc] at he
    exact he

/-- C112: so the values themselves never decrease, for a `pow` that does not decrease in the exponent. -/
theorem C112_logspace_mono {u : ℚ} (hu : 0 ≤ u) (hr : ∀ x, |rnd x - x| ≤ u * |x|)
    (hmono : ∀ x y, x ≤ y → rnd x ≤ rnd y) (n : ℕ) (hint : ∀ m : ℕ, m ≤ n → rnd m = m)
    (start stop : ℚ) (hs : rnd start = start) (hle : start ≤ stop) (pw : RFl rnd → RFl rnd → RFl rnd)
    (base : RFl rnd) (hpw : ∀ x y, x ≤ y → RFl.le (pw base (RFl.fin x)) (pw base (RFl.fin y)) = true) :
    (logspace pw RFl.fma (RFl.fin start) (RFl.fin stop) n base).Pairwise fun a b => RFl.le a b = true := by
  by_cases h0 : n = 0
  · subst h0; simp [logspace]
  obtain ⟨e, h1, -, h2, -⟩ := C112_logspace hu hr hmono n (by omega) hint start stop hs pw base
  rw [h1, List.pairwise_map]
  refine List.Pairwise.imp ?_ List.pairwise_lt_range
  intro i j hij
  exact hpw _ _ (h2 hle i j hij.le)

end rounded

/-- C112 (exact end) is false of the code: the last exponent of `logspace(0., 1., 50)` is `1 - 2^-53`, for every
`pow` and every base. -/
theorem C112_logspace_end_false (pw : F64 → F64 → F64) (base : F64) :
    (logspace pw RFl.fma (RFl.fin 0) (RFl.fin 1) 50 base).getLast? = some (pw base (RFl.fin (1 - 1 / 2 ^ 53))) := by
  have key : (logspace (fun _ e => e) RFl.fma (RFl.fin 0 : F64) (RFl.fin 1) 50 (RFl.fin 10)).getLast?
      = some (RFl.fin (1 - 1 / 2 ^ 53)) := by decide +kernel
  have hmap : logspace pw RFl.fma (RFl.fin 0) (RFl.fin 1) 50 base
      = (logspace (fun _ e => e) RFl.fma (RFl.fin 0 : F64) (RFl.fin 1) 50 (RFl.fin 10)).map (pw base) := by
    unfold logspace
    rw [if_neg (by norm_num), if_neg (by norm_num), if_neg (by norm_num), if_neg (by norm_num), List.map_map]
    rfl
  rw [hmap, List.getLast?_map, key]
  rfl

/-! ## C112 — integer logspace -/

/-- C112, `logspace` of integers: the exponents advance by the *truncated* quotient
`(stop - start) / (n - 1)`; when the exponents are non-negative and `pow` is exact on them, the results are the
powers of the base, provided they fit the type. -/
theorem C112_logspace_int (lo hi start stop base : ℤ) (n : ℕ) (hn : 2 ≤ n) (pw : ℚ → ℚ → ℚ)
    (hpw : ∀ (b : ℤ) (k : ℕ), |b| < 2 ^ 53 → (k : ℤ) < 2 ^ 53 → lo ≤ b ^ k → b ^ k ≤ hi → pw b k = (b : ℚ) ^ k)
    (hd : lo ≤ stop - start ∧ stop - start ≤ hi) (hlo : lo ≤ 0) (hm : ((n - 1 : ℕ) : ℤ) ≤ hi)
    (hb : |base| < 2 ^ 53) (hs : |start| < 2 ^ 53)
    (hst : |(stop - start).tdiv ((n - 1 : ℕ) : ℤ)| < 2 ^ 53) (hnn : n < 2 ^ 53)
    (he : ∀ i : ℕ, i < n → 0 ≤ start + i * (stop - start).tdiv ((n - 1 : ℕ) : ℤ) ∧
      start + i * (stop - start).tdiv ((n - 1 : ℕ) : ℤ) < 2 ^ 53)
    (hfit : ∀ i : ℕ, i < n → lo ≤ base ^ (start + i * (stop - start).tdiv ((n - 1 : ℕ) : ℤ)).toNat ∧
      base ^ (start + i * (stop - start).tdiv ((n - 1 : ℕ) : ℤ)).toNat ≤ hi) :
    logspaceInt lo hi pw start stop n base = .ok ((List.range n).map fun i : ℕ =>
      base ^ (start + i * (stop - start).tdiv ((n - 1 : ℕ) : ℤ)).toNat) := by
  set st := (stop - start).tdiv ((n - 1 : ℕ) : ℤ) with hstd
  unfold logspaceInt
  rw [if_neg (by omega), if_neg (by omega), chk_ok.2 ⟨hd, rfl⟩, chk_ok.2 ⟨⟨by omega, hm⟩, rfl⟩]
  simp only [Res.bind_ok, ← hstd]
  have hgen : ∀ l : List ℕ, (∀ i ∈ l, i < n) → (l.mapM fun i : ℕ =>
      chk lo hi (truncK (pw (rnd64 base) (rnd64 (rnd64 (i : ℕ) * rnd64 st + rnd64 start)))))
        = .ok (l.map fun i : ℕ => base ^ (start + i * st).toNat) := by
    intro l hl
    induction l with
    | nil => rfl
    | cons i l ih =>
      have hi := hl i (by simp)
      obtain ⟨e1, e2⟩ := he i hi
      obtain ⟨f1, f2⟩ := hfit i hi
      have hi53 : ((i : ℕ) : ℤ) < 2 ^ 53 := by
        have : i < 2 ^ 53 := by omega
        exact_mod_cast this
      have r1 : rnd64 (base : ℚ) = base := rnd64_intCast base hb
      have r2 : rnd64 ((i : ℕ) : ℚ) = i := by
        have := rnd64_intCast (i : ℤ) (by rw [Nat.abs_cast]; exact hi53)
        rwa [Int.cast_natCast] at this
      have r3 : rnd64 (st : ℚ) = st := rnd64_intCast st hst
      have r4 : rnd64 (start : ℚ) = start := rnd64_intCast start hs
      have r5 : rnd64 ((i : ℚ) * st + start) = ((start + i * st).toNat : ℕ) := by
        have h1 : ((i : ℚ) * st + start) = ((start + i * st : ℤ) : ℚ) := by push_cast; ring
        rw [h1, rnd64_intCast _ (by rw [abs_of_nonneg e1]; exact e2)]
        have : ((start + i * st).toNat : ℤ) = start + i * st := Int.toNat_of_nonneg e1
        exact_mod_cast this.symm
      have hk : (((start + i * st).toNat : ℕ) : ℤ) < 2 ^ 53 := by rw [Int.toNat_of_nonneg e1]; exact e2
      have r6 : truncK (pw (rnd64 base) (rnd64 (rnd64 (i : ℕ) * rnd64 st + rnd64 start)))
          = base ^ (start + i * st).toNat := by
        rw [r1, r2, r3, r4, r5, hpw base _ hb hk f1 f2]
        have : ((base : ℚ) ^ (start + i * st).toNat) = ((base ^ (start + i * st).toNat : ℤ) : ℚ) := by push_cast; rfl
        rw [this, truncK_int]
      rw [List.mapM_cons, r6, chk_ok.2 ⟨⟨f1, f2⟩, rfl⟩, ih fun j hj => hl j (List.mem_cons_of_mem _ hj)]
      rfl
  exact hgen _ fun i hi => by simpa using hi

/-- C112: on integers `logspace(0, 1, 3)` is `{1, 1, 1}`: the step of the exponents, 1/2, is truncated to 0. -/
theorem C112_logspace_int_false (pw : ℚ → ℚ → ℚ) (h : pw 10 0 = 1) :
    logspaceInt (-(2 ^ 31)) (2 ^ 31 - 1) pw 0 1 3 10 = .ok [1, 1, 1] := by
  have r10 : rnd64 10 = 10 := by decide +kernel
  have r0 : rnd64 0 = 0 := rnd64_zero
  unfold logspaceInt
  have t1 : truncK (1 : ℚ) = 1 := by decide +kernel
  have h2 : (1 : ℤ).tdiv 2 = 0 := by decide
  simp [chk, List.range_succ, r10, r0, h, t1, h2]

/-! ## C112 — arange -/

section arange
variable {rnd : ℚ → ℚ}

/-- C112, `arange(start, stop, step)` for `start ≤ stop`, `step > 0` in rounded arithmetic: element `i` is the
correctly rounded `start + i·step`, for `i < n`; the elements never decrease and lie in `[start, stop]`; every
element of exact position up to `(1-u)^2·(stop - start)/step - 1` is listed. -/
theorem C112_arange_partial {u : ℚ} (hu : 0 ≤ u) (hu1 : u < 1) (hr : ∀ x, |rnd x - x| ≤ u * |x|)
    (hmono : ∀ x y, x ≤ y → rnd x ≤ rnd y) (start stop step : ℚ) (hs : rnd start = start) (ht : rnd stop = stop)
    (hstep : 0 < step) (hle : start ≤ stop)
    (hint : ∀ m : ℕ, (m : ℚ) ≤ rnd (rnd (stop - start) / step) → rnd m = m)
    (hsmall : rnd (rnd (stop - start) / step) * ((1 + u) ^ 2 - 1) ≤ 1) :
    ∃ n : ℕ, arange (RFl.fin start : RFl rnd) (RFl.fin stop) (RFl.fin step)
        = .ok ((List.range n).map fun i : ℕ => RFl.fin (rnd (start + i * step))) ∧
      (∀ i j, i ≤ j → rnd (start + (i : ℕ) * step) ≤ rnd (start + (j : ℕ) * step)) ∧
      (∀ i : ℕ, i < n → start ≤ rnd (start + i * step) ∧ rnd (start + i * step) ≤ stop) ∧
      (∀ i : ℕ, ((i : ℚ) + 1) * step ≤ (1 - u) ^ 2 * (stop - start) → i < n) := by
  have h0 : rnd 0 = 0 := by
    have := hr 0
    simp at this
    exact this
  have hd : 0 ≤ stop - start := by linarith
  have hrd : 0 ≤ rnd (stop - start) := by rw [← h0]; exact hmono _ _ hd
  have hq0 : 0 ≤ rnd (stop - start) / step := div_nonneg hrd hstep.le
  set p := rnd (rnd (stop - start) / step) with hp
  have hp0 : 0 ≤ p := by rw [hp, ← h0]; exact hmono _ _ hq0
  have hb : ∀ y, 0 ≤ y → (1 - u) * y ≤ rnd y ∧ rnd y ≤ (1 + u) * y := by
    intro y hy
    have := abs_le.1 (hr y)
    rw [abs_of_nonneg hy] at this
    exact ⟨by linarith [this.1], by linarith [this.2]⟩
  have hfl : (⌊p⌋₊ : ℚ) ≤ p := Nat.floor_le hp0
  refine ⟨⌊p⌋₊, ?_, ?_, ?_, ?_⟩
  · unfold arange
    have hc : ((RFl.lt (RFl.fin start : RFl rnd) (RFl.fin stop) && RFl.lt (RFl.fin step : RFl rnd) (RFl.fin 0)) ||
        (RFl.lt (RFl.fin stop : RFl rnd) (RFl.fin start) && RFl.lt (RFl.fin 0 : RFl rnd) (RFl.fin step))) = false := by
      simp only [RFl.lt_fin]
      simp [not_lt.2 hstep.le, not_lt.2 hle]
    rw [hc, RFl.sub_fin, RFl.div_fin hstep.ne']
    have htS : RFl.toSize (RFl.abs (RFl.fin p : RFl rnd)) = .ok ⌊p⌋₊ := by
      rw [RFl.abs_fin, abs_of_nonneg hp0]
      show (if p ≤ -1 then Res.ub else _) = _
      rw [if_neg (by linarith)]
    simp only [Bool.false_eq_true, if_false, ← hp, htS, Res.bind_ok, Res.pure_eq]
    have hz : (0 : RFl rnd) = RFl.fin ((0 : ℕ) : ℚ) := by simp; rfl
    rw [hz, iota_rfl (N := ⌊p⌋₊) (fun m hm => hint m (le_trans (by exact_mod_cast hm) hfl)) 0 _ (by omega),
      List.map_map]
    congr 1
    refine List.map_congr_left fun i _ => ?_
    simp only [Function.comp, Nat.zero_add]
    rw [RFl.fma_fin, add_comm]
  · intro i j hij
    apply hmono
    have : (i : ℚ) ≤ j := by exact_mod_cast hij
    have := mul_le_mul_of_nonneg_right this hstep.le
    linarith
  · intro i hi
    constructor
    · conv_lhs => rw [← hs]
      apply hmono
      have : 0 ≤ (i : ℚ) * step := by positivity
      linarith
    · rw [← ht]
      apply hmono
      have h1 : (i : ℚ) + 1 ≤ p := le_trans (by exact_mod_cast hi) hfl
      have h2 : p ≤ (1 + u) * (rnd (stop - start) / step) := (hb _ hq0).2
      have h3 : rnd (stop - start) / step ≤ (1 + u) * ((stop - start) / step) := by
        rw [← mul_div_assoc]
        exact div_le_div_of_nonneg_right (hb _ hd).2 hstep.le
      have h4 : p ≤ (1 + u) ^ 2 * ((stop - start) / step) := by
        have := mul_le_mul_of_nonneg_left h3 (show 0 ≤ 1 + u by linarith)
        nlinarith
      have h5 : (i : ℚ) ≤ (stop - start) / step := by
        by_contra hc
        rw [not_le] at hc
        have h6 : (1 + u) ^ 2 * ((stop - start) / step) < (1 + u) ^ 2 * i :=
          mul_lt_mul_of_pos_left hc (by positivity)
        have h7 : 0 ≤ (1 + u) ^ 2 - 1 := by nlinarith
        have h8 : (i : ℚ) * ((1 + u) ^ 2 - 1) ≤ p * ((1 + u) ^ 2 - 1) :=
          mul_le_mul_of_nonneg_right (by linarith) h7
        nlinarith
      rw [le_div_iff₀ hstep] at h5
      linarith
  · intro i hi
    rw [Nat.lt_iff_add_one_le, Nat.le_floor_iff hp0]
    push_cast
    have h2 := (hb _ hq0).1
    have h3 : (1 - u) * ((stop - start) / step) ≤ rnd (stop - start) / step := by
      rw [← mul_div_assoc]
      exact div_le_div_of_nonneg_right (hb _ hd).1 hstep.le
    have h4 := mul_le_mul_of_nonneg_left h3 (show 0 ≤ 1 - u by linarith)
    have h5 : (i : ℚ) + 1 ≤ (1 - u) ^ 2 * ((stop - start) / step) := by
      rw [← mul_div_assoc, le_div_iff₀ hstep]
      exact hi
    nlinarith

/-- C112: the requirements of `C112_arange_partial` hold in `double` for `arange(0., 1., 0.125)`. -/
example : rnd64 0 = 0 ∧ rnd64 1 = 1 ∧ (∀ m : ℕ, (m : ℚ) ≤ rnd64 (rnd64 (1 - 0) / (1 / 8)) → rnd64 m = m) ∧
    rnd64 (rnd64 (1 - 0) / (1 / 8)) * ((1 + 1 / 2 ^ 53) ^ 2 - 1) ≤ 1 := by
  have h : rnd64 (rnd64 (1 - 0) / (1 / 8)) = 8 := by decide +kernel
  rw [h]
  refine ⟨rnd64_zero, by decide +kernel, fun m hm => rnd64_nat m ?_, by norm_num⟩
  have : m ≤ 8 := by exact_mod_cast hm
  exact lt_of_le_of_lt this (by norm_num)

/-- C112 (half-open interval) is false of the code in `double`: `arange(2^52, 2^52 + 1, 0.25)` contains `stop`. -/
theorem C112_arange_false :
    arange (RFl.fin (2 ^ 52) : F64) (RFl.fin (2 ^ 52 + 1)) (RFl.fin (1 / 4)) =
      .ok [RFl.fin (2 ^ 52), RFl.fin (2 ^ 52), RFl.fin (2 ^ 52), RFl.fin (2 ^ 52 + 1)] := by decide +kernel

/-- C112: with a rounding symmetric about 0, `arange(-start, -stop, -step)` is `arange(start, stop, step)` with the signs changed, bit for bit, so
what is proved of increasing ranges holds of decreasing ones. -/
theorem C112_arange_neg (hodd : ∀ q, rnd (-q) = -rnd q) (start stop step : ℚ) (hs : step ≠ 0) :
    arange (RFl.fin (-start) : RFl rnd) (RFl.fin (-stop)) (RFl.fin (-step))
      = (do let l ← arange (RFl.fin start : RFl rnd) (RFl.fin stop) (RFl.fin step)
            pure (l.map (-·))) := by
  have hz : ∀ n : ℕ, ∃ l : List ℚ, iota (0 : RFl rnd) n = l.map RFl.fin := by
    suffices h : ∀ (n : ℕ) (q : ℚ), ∃ l : List ℚ, iota (RFl.fin q : RFl rnd) n = l.map RFl.fin from fun n => h n 0
    intro n
    induction n with
    | zero => exact fun q => ⟨[], rfl⟩
    | succ n ih =>
      intro q
      obtain ⟨l, hl⟩ := ih (rnd (q + 1))
      exact ⟨q :: l, by rw [iota, RFl.one_fin, RFl.add_fin, hl]; rfl⟩
  unfold arange
  have hsub : -stop - -start = -(stop - start) := by ring
  simp only [RFl.lt_fin, RFl.sub_fin, RFl.div_fin hs, RFl.div_fin (neg_ne_zero.mpr hs), hsub, hodd, neg_div_neg_eq, neg_lt_neg_iff,
    Left.neg_neg_iff, Left.neg_pos_iff]
  rw [Bool.or_comm]
  have hk : ∀ n : ℕ, (iota (0 : RFl rnd) n).map (fun x => x.fma (RFl.fin (-step)) (RFl.fin (-start)))
      = ((iota (0 : RFl rnd) n).map fun x => x.fma (RFl.fin step) (RFl.fin start)).map (-·) := by
    intro n
    obtain ⟨l, hl⟩ := hz n
    rw [hl, List.map_map, List.map_map, List.map_map]
    apply List.map_congr_left
    intro x _
    show (RFl.fin (rnd (x * -step + -start)) : RFl rnd) = RFl.fin (-rnd (x * step + start))
    rw [← hodd, neg_add, mul_neg]
  split_ifs
  · simp only [Res.bind_ok, Res.pure_eq, hk]
  · cases (RFl.fin (rnd (rnd (stop - start) / step)) : RFl rnd).abs.toSize with
    | ub => rfl
    | ok n => simp only [Res.bind_ok, Res.pure_eq, hk]

/-- `arange(0., -1., -0.125)` in `double`. -/
example : arange (RFl.fin (-0) : F64) (RFl.fin (-1)) (RFl.fin (-(1 / 8)))
      = (do let l ← arange (RFl.fin 0 : F64) (RFl.fin 1) (RFl.fin (1 / 8))
            pure (l.map (-·))) := C112_arange_neg rnd64_neg 0 1 (1 / 8) (by norm_num)

end arange

/-! ## C112 — long ranges -/

/-- Counting up from 0 stops at the first integer whose successor is not representable. -/
theorem iota_sat {α : Type*} [One α] [Add α] (c : ℕ → α) (P : ℕ) (h : ∀ k, k < P → c k + 1 = c (k + 1))
    (hP : c P + 1 = c P) (k n : ℕ) (hk : k ≤ P) :
    iota (c k) n = (List.range n).map fun i : ℕ => c (min (k + i) P) := by
  induction n generalizing k with
  | zero => rfl
  | succ n ih =>
    rw [iota, List.range_succ_eq_map, List.map_cons, List.map_map]
    congr 1
    · congr 1; omega
    · rcases Nat.lt_or_ge k P with hlt | hge
      · rw [h k hlt, ih (k + 1) hlt]
        refine List.map_congr_left fun i _ => ?_
        simp only [Function.comp]
        congr 2; omega
      · obtain rfl : k = P := by omega
        rw [hP, ih k le_rfl]
        refine List.map_congr_left fun i _ => ?_
        simp only [Function.comp]
        congr 1; omega

section long
variable {f : Fmt}

/-- `2^p + 1` is a tie and rounds to `2^p`, for a significand of `p ≥ 2` bits. -/
theorem rnd_pow_succ (hfr : 1 ≤ f.frac) (he : f.emin ≤ f.frac) :
    f.rnd ((2 : ℚ) ^ (f.frac + 1) + 1) = 2 ^ (f.frac + 1) := by
  have hpos : (0 : ℚ) < (2 : ℚ) ^ (f.frac + 1) + 1 := by positivity
  have hexp : expo ((2 : ℚ) ^ (f.frac + 1) + 1) = f.frac + 1 := by
    obtain ⟨h1, h2⟩ := expo_spec hpos.ne'
    rw [abs_of_pos hpos] at h1 h2
    have h3 : (2 : ℚ) ^ ((f.frac : ℤ) + 1) < (2 : ℚ) ^ (expo ((2 : ℚ) ^ (f.frac + 1) + 1) + 1) := by
      refine lt_trans ?_ h2
      rw [← Nat.cast_one (R := ℤ), ← Nat.cast_add, zpow_natCast]
      linarith
    have h4 : (2 : ℚ) ^ (expo ((2 : ℚ) ^ (f.frac + 1) + 1)) < (2 : ℚ) ^ ((f.frac : ℤ) + 1 + 1) := by
      refine lt_of_le_of_lt h1 ?_
      rw [zpow_add₀ two_ne_zero, ← Nat.cast_one (R := ℤ), ← Nat.cast_add, zpow_natCast]
      have : (1 : ℚ) < 2 ^ (f.frac + 1) := one_lt_pow₀ (by norm_num) (by omega)
      norm_num
      linarith
    have h5 := (zpow_lt_zpow_iff_right₀ (by norm_num : (1 : ℚ) < 2)).1 h3
    have h6 := (zpow_lt_zpow_iff_right₀ (by norm_num : (1 : ℚ) < 2)).1 h4
    omega
  unfold Fmt.rnd
  rw [if_neg hpos.ne', hexp, max_eq_left (by omega)]
  have hs : (2 : ℚ) ^ ((f.frac : ℤ) - (f.frac + 1)) = 1 / 2 := by
    rw [show (f.frac : ℤ) - (f.frac + 1) = -1 by ring]; norm_num
  simp only [hs]
  have h7 : ((2 : ℚ) ^ (f.frac + 1) + 1) * (1 / 2) = ((2 ^ f.frac : ℤ) : ℚ) + 1 / 2 := by
    push_cast; rw [pow_succ]; ring
  rw [h7, nearestEven_tie, if_pos]
  · push_cast; rw [pow_succ]; ring
  · obtain ⟨k, hk⟩ : ∃ k, f.frac = k + 1 := ⟨f.frac - 1, by omega⟩
    rw [hk, pow_succ]; omega

/-- The indices computed by `std::iota` in a floating point type of `p` bits stay at `2^p`. -/
theorem iota_long (hfr : 1 ≤ f.frac) (he : f.emin ≤ f.frac) (hm : (f.frac : ℤ) + 1 < f.emax) (n : ℕ) :
    iota (0 : IFl f) n = (List.range n).map fun i : ℕ => (IFl.fin ((min i (2 ^ (f.frac + 1)) : ℕ) : ℚ) : IFl f) := by
  have hfin : (2 : ℚ) ^ (f.frac + 1) < (2 : ℚ) ^ f.emax := by
    rw [← zpow_natCast]
    exact zpow_lt_zpow_right₀ (by norm_num) (by push_cast; exact hm)
  have hpow : f.rnd ((2 : ℚ) ^ (f.frac + 1)) = 2 ^ (f.frac + 1) := by
    have := f.rnd_exact (2 ^ (f.frac + 1)) 0 (by omega) (by rw [abs_of_nonneg (by positivity)])
    simpa using this
  have hadd : ∀ q r : ℚ, f.rnd (q + 1) = r → |r| < (2 : ℚ) ^ f.emax → (IFl.fin q + 1 : IFl f) = IFl.fin r := by
    intro q r h1 h2
    rw [IFl.one_fin, IFl.add_fin]
    show f.ofRat (q + 1) = _
    rw [f.ofRat_fin (by rw [h1]; exact h2), h1]
    rfl
  have key := iota_sat (fun k : ℕ => (IFl.fin (k : ℚ) : IFl f)) (2 ^ (f.frac + 1)) ?_ ?_ 0 n (by positivity)
  · have hz : (0 : IFl f) = IFl.fin ((0 : ℕ) : ℚ) := by simp; rfl
    rw [hz, key]
    refine List.map_congr_left fun i _ => ?_
    rw [Nat.zero_add]
  · intro k hk
    have hk' : (k : ℚ) + 1 ≤ 2 ^ (f.frac + 1) := by exact_mod_cast hk
    refine hadd _ _ ?_ ?_
    · rcases Nat.lt_or_ge (k + 1) (2 ^ (f.frac + 1)) with h | h
      · have := f.rnd_nat (k + 1) h he
        push_cast at this ⊢
        exact this
      · have : (k : ℚ) + 1 = 2 ^ (f.frac + 1) := by
          have : k + 1 = 2 ^ (f.frac + 1) := by omega
          exact_mod_cast this
        push_cast
        rw [this, hpow]
    · rw [Nat.abs_cast]
      push_cast
      linarith
  · refine hadd _ _ ?_ ?_
    · push_cast
      exact rnd_pow_succ hfr he
    · rw [Nat.abs_cast]
      push_cast
      exact hfin

/-- C112: in a type of `p` bits the elements of `linspace(start, stop, n)` beyond index `2^p` all equal element
`2^p`, whatever the ends and the number of points. -/
theorem C112_long (hfr : 1 ≤ f.frac) (he : f.emin ≤ f.frac) (hm : (f.frac : ℤ) + 1 < f.emax)
    (start stop : IFl f) (n i : ℕ) (hi : i < n) (hP : 2 ^ (f.frac + 1) ≤ i) :
    (linspace start stop n)[i]? = (linspace start stop n)[2 ^ (f.frac + 1)]? := by
  have h2 : 2 ≤ 2 ^ (f.frac + 1) := by
    calc 2 = 2 ^ 1 := by norm_num
      _ ≤ _ := Nat.pow_le_pow_right (by norm_num) (by omega)
  unfold linspace
  rw [if_neg (by omega), if_neg (by omega), iota_long hfr he hm, List.map_map, List.getElem?_map,
    List.getElem?_map, List.getElem?_range hi, List.getElem?_range (lt_of_le_of_lt hP hi)]
  simp only [Option.map_some, Function.comp, Nat.min_eq_right hP, Nat.min_self]

/-- The elements of `linspace` beyond the exact indices. -/
theorem linspace_last (hfr : 1 ≤ f.frac) (he : f.emin ≤ f.frac) (hm : (f.frac : ℤ) + 1 < f.emax)
    (start stop : IFl f) (N P : ℕ) (hN : 1 ≤ N) (hP : P = 2 ^ (f.frac + 1)) (hPN : P ≤ N) :
    (linspace start stop (N + 1)).getLast? =
      some (start + (IFl.fin ((P : ℕ) : ℚ)) * ((stop - start) / ((N : ℕ) : IFl f))) := by
  rw [List.getLast?_eq_getElem?]
  unfold linspace
  rw [if_neg (by omega), if_neg (by omega), iota_long hfr he hm, List.map_map, List.length_map,
    List.length_range, List.getElem?_map, List.getElem?_range (by omega)]
  simp only [Option.map_some, Function.comp, Nat.add_sub_cancel, ← hP, Nat.min_eq_right hPN]

/-- C112: `linspace(0.f, 1.f, 33554433)` ends at 0.5, not at 1: its last `2^24 + 1` elements are equal. -/
theorem C112_long_false :
    (linspace (IFl.fin 0 : D32) (IFl.fin 1) 33554433).getLast? = some (IFl.fin (1 / 2)) := by
  have h := linspace_last (f := binary32) (by decide) (by decide) (by decide) (IFl.fin 0) (IFl.fin 1)
    33554432 16777216 (by norm_num) (by decide +kernel) (by norm_num)
  refine h.trans ?_
  decide +kernel

end long

/-! ## C113 — ranges of quantities -/

theorem gcd_lcm_self (s : RootRatio) (h : s.root = 1) :
    (⟨Nat.gcd s.num s.num, Nat.lcm s.den s.den, 1⟩ : RootRatio) = s := by
  cases s; simp_all

theorem commonQuantity_self (t : QTy) (ht : t.scal.Valid) (hr : t.scal.root = 1) :
    commonQuantity t t = .ok t := by
  unfold commonQuantity
  rw [if_neg (by simp), rrCommon_plain _ _ ht ht hr hr, gcd_lcm_self _ hr]
  rfl

section qty
variable {K : Type} [CppNum K]

theorem qfAdd_self (lt eqv : K → K → Bool) (fuel : ℕ) (t : QTy) (ht : t.scal.Valid) (hr : t.scal.root = 1) (a b : K) :
    qfAdd lt eqv fuel ⟨t, a⟩ ⟨t, b⟩ = .ok ⟨t, a + b⟩ := by
  unfold qfAdd
  rw [if_neg (by simp), commonQuantity_self t ht hr]
  simp [qfConv]

theorem qfSub_self (lt eqv : K → K → Bool) (fuel : ℕ) (t : QTy) (ht : t.scal.Valid) (hr : t.scal.root = 1) (a b : K) :
    qfSub lt eqv fuel ⟨t, a⟩ ⟨t, b⟩ = .ok ⟨t, a - b⟩ := by
  unfold qfSub
  rw [if_neg (by simp), commonQuantity_self t ht hr]
  simp [qfConv]

theorem iotaQ_eq (t : QTy) (v : K) (n : ℕ) : iotaQ t v n = (iota v n).map (Qty.mk t) := by
  induction n generalizing v with
  | zero => rfl
  | succ n ih => simp [iotaQ, iota, ih]

theorem mapM_ok {α β : Type} (g : α → Res β) (h : α → β) (l : List α) (e : ∀ x ∈ l, g x = .ok (h x)) :
    l.mapM g = .ok (l.map h) := by
  induction l with
  | nil => rfl
  | cons x l ih =>
    rw [List.mapM_cons, e x (by simp), Res.bind_ok, ih fun y hy => e y (by simp [hy])]
    rfl

variable [NatCast K]

/-- C113: for every arithmetic with a commutative product (exact, rounded or IEEE), every unit with a rational
scale and any offset, and all ends, `linspace` of quantities of one type has the values of the plain `linspace` of
the stored values, in the same unit. -/
theorem C113_linspace (hmul : ∀ x y : K, x * y = y * x) (lt eqv : K → K → Bool) (fuel : ℕ) (t : QTy)
    (ht : t.scal.Valid) (hr : t.scal.root = 1) (a b : K) (n : ℕ) :
    linspaceQ lt eqv fuel ⟨t, a⟩ ⟨t, b⟩ n = .ok ((linspace a b n).map (Qty.mk t)) := by
  unfold linspaceQ linspace
  rw [if_neg (by simp)]
  by_cases h0 : n = 0
  · rw [if_pos h0, if_pos h0]; rfl
  rw [if_neg h0, if_neg h0]
  by_cases h1 : n = 1
  · rw [if_pos h1, if_pos h1]; rfl
  rw [if_neg h1, if_neg h1, qfSub_self lt eqv fuel t ht hr]
  simp only [Res.bind_ok]
  rw [iotaQ_eq, mapM_ok _ (fun x : Qty K => ⟨t, a + x.val * ((b - a) / ((n - 1 : ℕ) : K))⟩)]
  · simp [List.map_map, Function.comp_def]
  · intro x hx
    obtain ⟨y, _, rfl⟩ := List.mem_map.1 hx
    rw [qfAdd_self lt eqv fuel t ht hr, hmul]

/-- C113: `logspace<Qty>` has the values of the plain `logspace`, in the unit asked for. -/
theorem C113_logspace (pw : K → K → K) (fma : K → K → K → K) (t : QTy) (a b : K) (n : ℕ) (base : K) :
    logspaceQ pw fma t a b n base = (logspace pw fma a b n base).map (Qty.mk t) := by
  unfold logspaceQ logspace
  split_ifs with h0 h1
  · rfl
  · rfl
  · simp only [iotaQ_eq, List.map_map]
    rfl

/-- C113 holds in particular for every IEEE format; metres, kilometres and degrees Celsius are such units. -/
theorem C113_linspace_ieee (f : Fmt) (lt eqv : IFl f → IFl f → Bool) (fuel : ℕ) (t : QTy) (ht : t.scal.Valid)
    (hr : t.scal.root = 1) (a b : IFl f) (n : ℕ) :
    linspaceQ lt eqv fuel ⟨t, a⟩ ⟨t, b⟩ n = .ok ((linspace a b n).map (Qty.mk t)) :=
  C113_linspace IFl.mul_comm' lt eqv fuel t ht hr a b n

/-- Quantities of different types are not accepted. -/
theorem C113_types (lt eqv : K → K → Bool) (fuel : ℕ) (x y : Qty K) (h : x.ty ≠ y.ty) (n : ℕ) :
    linspaceQ lt eqv fuel x y n = .ub := by
  unfold linspaceQ
  rw [if_pos h]

end qty

example : (⟨1000, 1, 1⟩ : RootRatio).Valid := ⟨by decide, by decide, by decide, by decide⟩

section arangeQty
variable {rnd : ℚ → ℚ}

/-- A comparison of two quantities of one type never contradicts the order of the stored values. -/
theorem qfLt_le (hmono : ∀ x y, x ≤ y → rnd x ≤ rnd y) (h0 : rnd 0 = 0) (t : QTy) (a b : ℚ) (h : a ≤ b) :
    qfLt RFl.lt (⟨t, RFl.fin b⟩ : Qty (RFl rnd)) ⟨t, RFl.fin a⟩ = false := by
  unfold qfLt qSide
  simp only [RFl.ofInt_def, RFl.mul_fin, RFl.add_fin, RFl.lt_fin, decide_eq_false_iff_not, not_lt]
  apply hmono
  have h1 : rnd (rnd ((t.scal.num * t.scal.den * t.off.den * t.off.den : ℕ) : ℤ) * a) ≤
      rnd (rnd ((t.scal.num * t.scal.den * t.off.den * t.off.den : ℕ) : ℤ) * b) := by
    apply hmono
    apply mul_le_mul_of_nonneg_left h
    rw [← h0]
    exact hmono _ _ (by positivity)
  linarith

/-- C113: `arange` of quantities of one type without offset, when the step goes from `start` towards `stop` (or
they are equal), has the values of the plain `arange` of the stored values, for every monotone rounding. -/
theorem C113_arange_partial (hmono : ∀ x y, x ≤ y → rnd x ≤ rnd y) (h0 : rnd 0 = 0) (fuel : ℕ) (t : QTy)
    (ht : t.scal.Valid) (hr : t.scal.root = 1) (hoff : t.off = 0) (start stop step : ℚ)
    (hdir : start ≤ stop ∧ 0 ≤ step ∨ stop ≤ start ∧ step ≤ 0) :
    arangeQ fuel (⟨t, RFl.fin start⟩ : Qty (RFl rnd)) ⟨t, RFl.fin stop⟩ ⟨t, RFl.fin step⟩ =
      (do let l ← arange (RFl.fin start : RFl rnd) (RFl.fin stop) (RFl.fin step)
          pure (l.map (Qty.mk t))) := by
  unfold arangeQ arange
  rw [if_neg (by simp), if_neg (by simpa using hoff)]
  have hb : ((RFl.lt (RFl.fin start : RFl rnd) (RFl.fin stop) && RFl.lt (RFl.fin step : RFl rnd) (RFl.fin 0)) ||
      (RFl.lt (RFl.fin stop : RFl rnd) (RFl.fin start) && RFl.lt (RFl.fin 0 : RFl rnd) (RFl.fin step))) = false := by
    simp only [RFl.lt_fin]
    rcases hdir with ⟨h1, h2⟩ | ⟨h1, h2⟩ <;> simp [not_lt.2 h1, not_lt.2 h2]
  have hq : ((qfGt RFl.lt (⟨t, RFl.fin stop⟩ : Qty (RFl rnd)) ⟨t, RFl.fin start⟩ &&
      qfLt RFl.lt (⟨t, RFl.fin step⟩ : Qty (RFl rnd)) ⟨t, RFl.fin 0⟩) ||
      (qfLt RFl.lt (⟨t, RFl.fin stop⟩ : Qty (RFl rnd)) ⟨t, RFl.fin start⟩ &&
        qfGt RFl.lt (⟨t, RFl.fin step⟩ : Qty (RFl rnd)) ⟨t, RFl.fin 0⟩)) = false := by
    unfold qfGt
    rcases hdir with ⟨h1, h2⟩ | ⟨h1, h2⟩
    · rw [qfLt_le hmono h0 t _ _ h1, qfLt_le hmono h0 t _ _ h2]; simp
    · rw [qfLt_le hmono h0 t _ _ h1, qfLt_le hmono h0 t _ _ h2]; simp
  simp only [hb, hq, qfSub_self _ _ fuel t ht hr, Bool.false_eq_true, if_false, Res.bind_ok]
  cases RFl.toSize (RFl.abs ((RFl.fin stop - RFl.fin start) / RFl.fin step : RFl rnd)) with
  | ub => rfl
  | ok n =>
    simp only [Res.bind_ok, Res.pure_eq, iotaQ_eq, List.map_map]
    rfl

/-- `arange` does not compile for a unit with an offset (degrees Celsius): `(stop - start) / step` is rejected. -/
theorem C113_arange_offset (fuel : ℕ) (x y z : Qty (RFl rnd)) (h : z.ty.off ≠ 0) : arangeQ fuel x y z = .ub := by
  unfold arangeQ
  split_ifs <;> rfl

/-- C113 is false of the code for a step of the wrong direction in `double`: the two ends of
`arange(1.5000000000000018 min, 1.500000000000002 min, -5.6e-17 min)` compare equal once scaled by 60, and two minutes
are listed where the plain `arange` is empty. -/
theorem C113_arange_false :
    (do let l ← arangeQ 0 (⟨⟨⟨2, 1, 1⟩, ⟨60, 1, 1⟩, 0⟩, RFl.fin (3 / 2 + 8 / 2 ^ 52)⟩ : Qty F64)
          ⟨⟨⟨2, 1, 1⟩, ⟨60, 1, 1⟩, 0⟩, RFl.fin (3 / 2 + 9 / 2 ^ 52)⟩ ⟨⟨⟨2, 1, 1⟩, ⟨60, 1, 1⟩, 0⟩, RFl.fin (-1 / 2 ^ 53)⟩
        pure l.length) = .ok 2 ∧
    arange (RFl.fin (3 / 2 + 8 / 2 ^ 52) : F64) (RFl.fin (3 / 2 + 9 / 2 ^ 52)) (RFl.fin (-1 / 2 ^ 53)) = .ok [] := by
  constructor <;> decide +kernel

end arangeQty

end SciCpp
