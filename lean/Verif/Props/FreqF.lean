import Verif.Model.SpectralF
import Verif.Model.Constants
import Verif.Proofs.Rel
import Verif.Proofs.SpectralF
import Verif.Proofs.F64
import Verif.Props.Manips
import Verif.Props.Range
/-
  Property theorems C119: the frequencies of `fftfreq` and `rfftfreq` in floating point.

  Arithmetic: `RFl rnd`, any rounding with relative error at most `u`; no overflow or underflow.
-/
namespace SciCpp
open Spec

/-- The index of bin `k` of a transform of `n` points: negative frequencies are in the upper half. -/
def Spec.binIdx (n k : ℕ) : ℤ := if k < (n + 1) / 2 then (k : ℤ) else (k : ℤ) - n

section
variable {rnd : ℚ → ℚ} {u : ℚ}

/-- `std::iota` counts exactly as long as the integers are representable. -/
theorem iota_fin (n : ℕ) : ∀ a : ℤ, (∀ k : ℕ, 1 ≤ k → k < n → rnd ((a + k : ℤ) : ℚ) = ((a + k : ℤ) : ℚ)) →
    iota (RFl.fin (a : ℚ) : RFl rnd) n = (List.range n).map fun k : ℕ => RFl.fin ((a + k : ℤ) : ℚ) := by
  induction n with
  | zero => intro a _; rfl
  | succ n ih =>
    intro a h
    rw [iota, List.range_succ_eq_map, List.map_cons, List.map_map]
    congr 1
    · simp
    · by_cases hn : n = 0
      · subst hn; rfl
      have e : (RFl.fin (a : ℚ) + 1 : RFl rnd) = RFl.fin ((a + 1 : ℤ) : ℚ) := by
        have h1 := h 1 le_rfl (by omega)
        show RFl.fin (rnd ((a : ℚ) + 1)) = _
        push_cast at h1 ⊢
        rw [h1]
      rw [e, ih (a + 1) fun k h1 h2 => ?_]
      · refine List.map_congr_left fun k _ => ?_
        simp only [Function.comp]
        congr 1
        push_cast
        ring
      · have := h (k + 1) (by omega) (by omega)
        push_cast at this ⊢
        rw [show (a : ℚ) + 1 + k = a + (k + 1) by ring]
        exact this

/-- Distinct indices give distinct frequencies, in order. -/
theorem freq_strict (hr : ∀ x, |rnd x - x| ≤ u * |x|) (hu : 0 ≤ u) {n : ℕ} (hn : (n + 1) * u < 1) {D : ℚ} (hD : 0 < D) {a b : ℤ}
    (hab : a < b) (ha : -(n : ℤ) ≤ 2 * a) (hb : 2 * b ≤ n) : rnd (a / D) < rnd (b / D) := by
  have h1 := (abs_le.1 (hr (a / D))).2
  have h2 := (abs_le.1 (hr (b / D))).1
  have h3 : (|a| + |b| : ℤ) ≤ n + (b - a) := by
    rcases abs_cases a with ⟨e1, _⟩ | ⟨e1, _⟩ <;> rcases abs_cases b with ⟨e2, _⟩ | ⟨e2, _⟩ <;> rw [e1, e2] <;> omega
  have h4 : (|(a : ℚ)| + |(b : ℚ)|) ≤ n + (b - a) := by exact_mod_cast h3
  have h5 : (1 : ℚ) ≤ b - a := by
    have : (1 : ℤ) ≤ b - a := by omega
    exact_mod_cast this
  have e1 : |(a : ℚ) / D| = |(a : ℚ)| / D := by rw [abs_div, abs_of_pos hD]
  have e2 : |(b : ℚ) / D| = |(b : ℚ)| / D := by rw [abs_div, abs_of_pos hD]
  have h6 : u * (|(a : ℚ)| + |(b : ℚ)|) < b - a := by
    calc u * (|(a : ℚ)| + |(b : ℚ)|) ≤ u * (n + (b - a)) := mul_le_mul_of_nonneg_left h4 hu
      _ < b - a := by
        have hu1 : u < 1 := by nlinarith [mul_nonneg (Nat.cast_nonneg (α := ℚ) n) hu]
        nlinarith [mul_le_mul_of_nonneg_left h5 (by linarith : 0 ≤ 1 - u)]
  have h7 : u * (|(a : ℚ)| / D) + u * (|(b : ℚ)| / D) < b / D - a / D := by
    rw [← sub_div, lt_div_iff₀ hD]
    calc _ = u * (|(a : ℚ)| + |(b : ℚ)|) := by field_simp
      _ < _ := h6
  rw [e1] at h1
  rw [e2] at h2
  linarith

/-- The integers up to `n` are represented exactly. -/
def Spec.ExactInts (rnd : ℚ → ℚ) (n : ℕ) : Prop := ∀ z : ℤ, |z| ≤ n → rnd z = z

theorem fftfreqK_eq (lib : SpecLib (RFl rnd)) (n : ℕ) (hn : 0 < n) (hE : ExactInts rnd n) (d : ℚ) (hpos : lib.pos (RFl.fin d) = true) :
    fftfreqK lib n (RFl.fin d) = .ok (ifftshiftMove ((List.range n).map fun k : ℕ =>
      (RFl.fin ((-((n / 2 : ℕ) : ℤ) + k : ℤ) : ℚ) : RFl rnd) / RFl.fin (rnd (d * n)))) := by
  unfold fftfreqK
  rw [hpos]
  simp only [hn, decide_true, require_true, Res.bind_ok, Res.pure_eq]
  have e1 : (-(castK (n / 2)) : RFl rnd) = RFl.fin ((-((n / 2 : ℕ) : ℤ) : ℤ) : ℚ) := by
    have h1 := hE ((n / 2 : ℕ) : ℤ) (by rw [abs_of_nonneg (by omega)]; omega)
    show RFl.fin (-(rnd (((n / 2 : ℕ) : ℤ) : ℚ))) = _
    rw [h1]; push_cast; rfl
  have e2 : (RFl.fin d * castK n : RFl rnd) = RFl.fin (rnd (d * n)) := by
    have h1 := hE (n : ℤ) (by rw [abs_of_nonneg (by omega)])
    show RFl.fin (rnd (d * rnd ((n : ℤ) : ℚ))) = _
    rw [h1]; push_cast; rfl
  rw [e1, e2, iota_fin n _ fun k h1 h2 => hE _ ?_, List.map_map]
  · rfl
  · rw [abs_le]; omega

theorem fftfreqK_get (lib : SpecLib (RFl rnd)) (n : ℕ) (hn : 0 < n) (hE : ExactInts rnd n) (d : ℚ) (hpos : lib.pos (RFl.fin d) = true)
    (hD : rnd (d * n) ≠ 0) :
    ∃ r, fftfreqK lib n (RFl.fin d) = .ok r ∧ r.length = n ∧
      (∀ k < n, r[k]? = some (RFl.fin (rnd (binIdx n k / rnd (d * n))))) ∧
      fftshiftMove r = (List.range n).map fun k : ℕ => RFl.fin (rnd (((-((n / 2 : ℕ) : ℤ) + k : ℤ) : ℚ) / rnd (d * n))) := by
  rw [fftfreqK_eq lib n hn hE d hpos]
  have hlen : ((List.range n).map fun k : ℕ =>
      (RFl.fin ((-((n / 2 : ℕ) : ℤ) + k : ℤ) : ℚ) : RFl rnd) / RFl.fin (rnd (d * n))).length = n := by simp
  have div : ∀ a : ℚ, (RFl.fin a / RFl.fin (rnd (d * n)) : RFl rnd) = RFl.fin (rnd (a / rnd (d * n))) :=
    fun a => RFl.div_fin hD
  refine ⟨_, rfl, ?_, fun k hk => ?_, ?_⟩
  · rw [(C44_inverse _).2.2.2.2.1.length_eq, hlen]
  · rw [(C44_elements _ k (by rw [hlen]; exact hk)).2, hlen, List.getElem?_map]
    unfold binIdx
    by_cases h : k < (n + 1) / 2
    · rw [if_pos h, Nat.mod_eq_of_lt (by omega), List.getElem?_range (by omega), Option.map_some, div]
      congr 4
      push_cast
      ring
    · have h2 : (k + n / 2) % n = k + n / 2 - n := by
        rw [Nat.mod_eq_sub_mod (by omega), Nat.mod_eq_of_lt (by omega)]
      rw [if_neg h, h2, List.getElem?_range (by omega), Option.map_some, div]
      congr 4
      rw [Nat.cast_sub (by omega)]
      push_cast
      ring
  · rw [(C44_inverse _).2.1]
    exact List.map_congr_left fun k _ => div _

/-- C119: `fftfreq(n, d)` in floating point: `n` values, that of bin `k` is `idx/(n d)` up to two relative rounding errors; bin 0 is
exactly 0; opposite bins are exactly opposite; the list shifted by `fftshift` is strictly increasing. -/
theorem C119_fftfreq (hu : 0 ≤ u) (hr : ∀ x, |rnd x - x| ≤ u * |x|) (hodd : ∀ x, rnd (-x) = -rnd x) (lib : SpecLib (RFl rnd))
    (n : ℕ) (hn : 0 < n) (hE : ExactInts rnd n) (hnu : (n + 1) * u < 1) (d : ℚ) (hd : 0 < d) (hpos : lib.pos (RFl.fin d) = true) :
    ∃ r, fftfreqK lib n (RFl.fin d) = .ok r ∧ r.length = n ∧ r[0]? = some (RFl.fin 0) ∧
      (∀ k < n, ∃ q, r[k]? = some (RFl.fin q) ∧
        |q - binIdx n k / (n * d)| ≤ (1 / (1 - u) ^ 2 - 1) * |(binIdx n k : ℚ) / (n * d)|) ∧
      (∀ k, 0 < k → 2 * k < n → ∃ q, r[k]? = some (RFl.fin q) ∧ r[n - k]? = some (RFl.fin (-q))) ∧
      (fftshiftMove r).Pairwise fun a b => RFl.lt a b = true := by
  have hu1 : u < 1 := by nlinarith [mul_nonneg (Nat.cast_nonneg (α := ℚ) n) hu]
  have hn' : (0 : ℚ) < n := by exact_mod_cast hn
  have hdn : 0 < d * n := by positivity
  obtain ⟨θ, t0, t1, t2⟩ := rnd_factor hu1 hr (d * n)
  have hD : 0 < rnd (d * n) := by rw [t0]; exact mul_pos hdn (lt_of_lt_of_le (by linarith) t1)
  obtain ⟨r, h1, h2, h3, h4⟩ := fftfreqK_get lib n hn hE d hpos hD.ne'
  refine ⟨r, h1, h2, ?_, fun k hk => ?_, fun k hk0 hk => ?_, ?_⟩
  · rw [h3 0 hn]
    have e : binIdx n 0 = 0 := by unfold binIdx; rw [if_pos (by omega)]; rfl
    have := hr 0
    simp only [abs_zero, mul_zero, sub_zero, abs_nonpos_iff] at this
    rw [e, Int.cast_zero, zero_div, this]
  · have hrel : Rel u 2 ((binIdx n k : ℚ) / (d * n)) (RFl.fin (rnd (binIdx n k / rnd (d * n))) : RFl rnd) := by
      have hy : Rel u 1 (d * n) (RFl.fin (rnd (d * n)) : RFl rnd) := ⟨θ, by rw [t0], by simpa using t1, by simpa using t2⟩
      have := Rel.div hu1 hr hdn.ne' (Rel.exact (rnd := rnd) (binIdx n k : ℚ)) hy
      rw [RFl.div_fin hD.ne'] at this
      exact this
    obtain ⟨q, hq, hb⟩ := hrel.err hu1
    rw [mul_comm d] at hb
    exact ⟨q, by rw [h3 k hk, hq], hb⟩
  · refine ⟨_, h3 k (by omega), ?_⟩
    rw [h3 (n - k) (by omega), ← hodd]
    have e1 : binIdx n k = k := by unfold binIdx; rw [if_pos (by omega)]
    have e2 : binIdx n (n - k) = -(k : ℤ) := by unfold binIdx; rw [if_neg (by omega)]; omega
    rw [e1, e2, Int.cast_neg, neg_div]
  · rw [h4, List.pairwise_map]
    refine List.Pairwise.imp_of_mem ?_ List.pairwise_lt_range
    intro i j hi hj hij
    rw [RFl.lt_fin, decide_eq_true_eq]
    have hi := List.mem_range.1 hi
    have hj := List.mem_range.1 hj
    exact freq_strict hr hu hnu hD (by omega) (by omega) (by omega)

theorem rfftfreqK_eq (lib : SpecLib (RFl rnd)) (n : ℕ) (hn : 0 < n) (hE : ExactInts rnd n) (d : ℚ) (hpos : lib.pos (RFl.fin d) = true)
    (hD : rnd (d * n) ≠ 0) :
    rfftfreqK lib n (RFl.fin d) = .ok ((List.range (n / 2 + 1)).map fun k : ℕ => RFl.fin (rnd ((k : ℚ) / rnd (d * n)))) := by
  unfold rfftfreqK
  rw [hpos]
  simp only [hn, decide_true, require_true, Res.bind_ok, Res.pure_eq]
  have e1 : (CppNum.ofInt 0 : RFl rnd) = RFl.fin ((0 : ℤ) : ℚ) := by
    rw [RFl.ofInt_def, hE 0 (by simp)]
  have e2 : (RFl.fin d * castK n : RFl rnd) = RFl.fin (rnd (d * n)) := by
    have h1 := hE (n : ℤ) (by rw [abs_of_nonneg (by omega)])
    show RFl.fin (rnd (d * rnd ((n : ℤ) : ℚ))) = _
    rw [h1]; push_cast; rfl
  rw [e1, e2, iota_fin _ _ fun k h1 h2 => hE _ ?_, List.map_map]
  · congr 1
    refine List.map_congr_left fun k _ => ?_
    simp only [Function.comp]
    rw [RFl.div_fin hD]
    push_cast
    rw [zero_add]
  · rw [abs_le]; omega

/-- C119: `rfftfreq(n, d)` in floating point: `n/2 + 1` values, strictly increasing from exactly 0, `k/(n d)` up to two relative
rounding errors; bit for bit the values of `fftfreq` in the lower half, and minus that of the Nyquist bin if `n` is even. -/
theorem C119_rfftfreq (hu : 0 ≤ u) (hr : ∀ x, |rnd x - x| ≤ u * |x|) (hodd : ∀ x, rnd (-x) = -rnd x) (lib : SpecLib (RFl rnd))
    (n : ℕ) (hn : 0 < n) (hE : ExactInts rnd n) (hnu : (n + 1) * u < 1) (d : ℚ) (hd : 0 < d) (hpos : lib.pos (RFl.fin d) = true) :
    ∃ r g, rfftfreqK lib n (RFl.fin d) = .ok r ∧ fftfreqK lib n (RFl.fin d) = .ok g ∧ r.length = n / 2 + 1 ∧
      r[0]? = some (RFl.fin 0) ∧
      (∀ k ≤ n / 2, ∃ q, r[k]? = some (RFl.fin q) ∧ |q - k / (n * d)| ≤ (1 / (1 - u) ^ 2 - 1) * |(k : ℚ) / (n * d)|) ∧
      (∀ k, 2 * k < n → r[k]? = g[k]?) ∧
      (∀ k, 2 * k = n → ∃ q, r[k]? = some (RFl.fin q) ∧ g[k]? = some (RFl.fin (-q))) ∧
      r.Pairwise fun a b => RFl.lt a b = true := by
  have hu1 : u < 1 := by nlinarith [mul_nonneg (Nat.cast_nonneg (α := ℚ) n) hu]
  have hn' : (0 : ℚ) < n := by exact_mod_cast hn
  have hdn : 0 < d * n := by positivity
  obtain ⟨θ, t0, t1, t2⟩ := rnd_factor hu1 hr (d * n)
  have hD : 0 < rnd (d * n) := by rw [t0]; exact mul_pos hdn (lt_of_lt_of_le (by linarith) t1)
  obtain ⟨g, g1, g2, g3, g4⟩ := fftfreqK_get lib n hn hE d hpos hD.ne'
  have get : ∀ k ≤ n / 2, ((List.range (n / 2 + 1)).map fun k : ℕ => (RFl.fin (rnd ((k : ℚ) / rnd (d * n))) : RFl rnd))[k]? =
      some (RFl.fin (rnd ((k : ℚ) / rnd (d * n)))) := by
    intro k hk
    rw [List.getElem?_map, List.getElem?_range (by omega)]; rfl
  refine ⟨_, g, rfftfreqK_eq lib n hn hE d hpos hD.ne', g1, by simp, ?_, fun k hk => ?_, fun k hk => ?_, fun k hk => ?_, ?_⟩
  · rw [get 0 (by omega)]
    have := hr 0
    simp only [abs_zero, mul_zero, sub_zero, abs_nonpos_iff] at this
    rw [Nat.cast_zero, zero_div, this]
  · have hrel : Rel u 2 ((k : ℚ) / (d * n)) (RFl.fin (rnd (k / rnd (d * n))) : RFl rnd) := by
      have hy : Rel u 1 (d * n) (RFl.fin (rnd (d * n)) : RFl rnd) := ⟨θ, by rw [t0], by simpa using t1, by simpa using t2⟩
      have := Rel.div hu1 hr hdn.ne' (Rel.exact (rnd := rnd) (k : ℚ)) hy
      rw [RFl.div_fin hD.ne'] at this
      exact this
    obtain ⟨q, hq, hb⟩ := hrel.err hu1
    rw [mul_comm d] at hb
    exact ⟨q, by rw [get k hk, hq], hb⟩
  · rw [get k (by omega), g3 k (by omega)]
    have e1 : binIdx n k = k := by unfold binIdx; rw [if_pos (by omega)]
    rw [e1, Int.cast_natCast]
  · refine ⟨_, get k (by omega), ?_⟩
    rw [g3 k (by omega), ← hodd]
    have e2 : binIdx n k = -(k : ℤ) := by unfold binIdx; rw [if_neg (by omega)]; omega
    rw [e2, Int.cast_neg, neg_div, Int.cast_natCast]
  · rw [List.pairwise_map]
    refine List.Pairwise.imp_of_mem ?_ List.pairwise_lt_range
    intro i j hi hj hij
    rw [RFl.lt_fin, decide_eq_true_eq]
    have hi := List.mem_range.1 hi
    have hj := List.mem_range.1 hj
    have := freq_strict (rnd := rnd) hr hu hnu hD (a := i) (b := j) (by omega) (by omega) (by omega)
    exact_mod_cast this

theorem iota_stuck {α : Type} [One α] [Add α] (v : α) (h : v + 1 = v) : ∀ n : ℕ, iota v n = List.replicate n v := by
  intro n
  induction n with
  | zero => rfl
  | succ n ih => rw [iota, h, ih, List.replicate_succ]

end

theorem rotateAt_replicate {α : Type} (v : α) (n k : ℕ) : rotateAt (List.replicate n v) k = List.replicate n v := by
  unfold rotateAt
  rw [List.drop_replicate, List.take_replicate, List.replicate_append_replicate]
  congr 1
  omega

/-- C119: in single precision the loop that fills the frequencies stops counting at 16777220: all `n` frequencies of
`fftfreq<float>(33554440)` are equal (and negative). -/
theorem C119_fftfreq_float_stuck (lib : SpecLib F32) (hpos : lib.pos (RFl.fin 1) = true) :
    ∃ q : ℚ, q < 0 ∧ fftfreqK lib 33554440 (RFl.fin 1 : F32) = .ok (List.replicate 33554440 (RFl.fin q)) := by
  obtain ⟨n, hn⟩ : ∃ n, n = 33554440 := ⟨_, rfl⟩
  have hv : (-(castK (n / 2)) : F32) = RFl.fin (-16777220) := by rw [hn]; decide +kernel
  have hs : (RFl.fin (-16777220) + 1 : F32) = RFl.fin (-16777220) := by decide +kernel
  have hd : (RFl.fin (-16777220) / (RFl.fin 1 * castK n) : F32) = RFl.fin (-1 / 2) := by rw [hn]; decide +kernel
  refine ⟨-1 / 2, by norm_num, ?_⟩
  rw [← hn]
  unfold fftfreqK
  rw [hpos, hv, iota_stuck _ hs]
  have h0 : 0 < n := by omega
  simp only [h0, decide_true, require_true, Res.bind_ok, Res.pure_eq]
  rw [List.map_replicate, hd]
  unfold ifftshiftMove
  rw [rotateAt_replicate]

/-- A comparison for the examples. -/
def posLib : SpecLib F64 where
  fft x := x
  rfft _ := []
  meanC _ := 0
  pos d := match d with
    | .fin q => decide (0 < q)
    | _ => false

theorem rnd64_exactInts {n : ℕ} (hn : n < 2 ^ 53) : ExactInts rnd64 n := fun z hz => by
  have := rnd64_exact z 0 (lt_of_le_of_lt hz (by exact_mod_cast hn))
  simpa using this

/-- The hypotheses hold for doubles and fewer than `2^53 - 1` points. -/
example : ∃ r, fftfreqK posLib 1000 (RFl.fin (1 / 2)) = .ok r ∧ r.length = 1000 := by
  obtain ⟨r, h1, h2, _⟩ := C119_fftfreq (u := 1 / 2 ^ 53) (by norm_num) rnd64_err rnd64_neg posLib 1000 (by norm_num)
    (rnd64_exactInts (by norm_num)) (by norm_num) (1 / 2) (by norm_num) (by decide +kernel)
  exact ⟨r, h1, h2⟩

/-- C119, the values: `fftfreq(3, 1)`. -/
example : fftfreqK posLib 3 (RFl.fin 1) =
    .ok [RFl.fin 0, RFl.fin (6004799503160661 / 2 ^ 54), RFl.fin (-(6004799503160661 / 2 ^ 54))] := by
  decide +kernel

end SciCpp
