import Verif.Model.Winvis
import Verif.Proofs.Dft
import Verif.Props.Manips
import Verif.Props.Numeric
/-
  C96: the window visualisation tool shows the frequency response of the windows in decibels relative
  to their response at frequency zero, and the bin where it has fallen by 3 dB.
-/
namespace SciCpp

open Finset Spec

/-! ### Specification -/

/-- Frequency response of a window at the frequency `ν` (cycles per sample). -/
noncomputable def response (w : List ℝ) (ν : ℝ) : ℂ :=
  ∑ j ∈ range w.length, (w.getD j 0 : ℂ) * Complex.exp (-(2 * Real.pi * Complex.I * (j * ν)))

/-- The amplitude ratio `r` in decibels. -/
noncomputable def decibel (r : ℝ) : XR := if r = 0 then .inf true else .fin (20 * Real.logb 10 r)

theorem response_zero (w : List ℝ) : response w 0 = (w.sum : ℝ) := by
  unfold response
  simp only [Complex.ofReal_zero, mul_zero, neg_zero, Complex.exp_zero, mul_one]
  rw [← Complex.ofReal_sum]
  congr 1
  induction w with
  | nil => simp
  | cons x xs ih =>
    rw [List.length_cons, Finset.sum_range_succ', List.sum_cons, ← ih, add_comm]
    simp

/-! ### The transform of the padded window -/

theorem normSq_twiddle (n : ℕ) : Complex.normSq (twiddle n) = 1 := by
  unfold twiddle
  rw [Complex.normSq_eq_norm_sq]
  have : -(2 * (Real.pi : ℂ) * Complex.I / n) = ((-(2 * Real.pi / n) : ℝ) : ℂ) * Complex.I := by
    push_cast; ring
  rw [this, Complex.norm_exp_ofReal_mul_I]; norm_num

theorem twiddle_exp (n j k : ℕ) :
    twiddle n ^ (j * k) = Complex.exp (-(2 * Real.pi * Complex.I * (j * ((k / n : ℝ) : ℂ)))) := by
  unfold twiddle
  rw [← Complex.exp_nat_mul]
  congr 1
  push_cast
  ring

theorem getD_padded (w : List ℝ) (a b j : ℕ) :
    (List.replicate a (0:ℝ) ++ w ++ List.replicate b 0).getD j 0
      = if j < a then 0 else w.getD (j - a) 0 := by
  rw [List.append_assoc]
  by_cases h : j < a
  · rw [if_pos h, List.getD_eq_getElem?_getD, List.getElem?_append_left (by simpa using h)]
    simp [h]
  · rw [if_neg h, List.getD_eq_getElem?_getD, List.getElem?_append_right (by simpa using h),
      List.length_replicate, List.getD_eq_getElem?_getD]
    by_cases h2 : j - a < w.length
    · rw [List.getElem?_append_left h2]
    · rw [List.getElem?_append_right (by omega), List.getElem?_eq_none (l := w) (by omega)]
      by_cases h3 : j - a - w.length < b
      · simp [h3]
      · simp [h3]

theorem padded_sum (w : List ℝ) (a b : ℕ) (g : ℕ → ℂ) :
    ∑ j ∈ range (a + w.length + b),
        (((List.replicate a (0:ℝ) ++ w ++ List.replicate b 0).getD j 0 : ℝ) : ℂ) * g j
      = ∑ j ∈ range w.length, ((w.getD j 0 : ℝ) : ℂ) * g (a + j) := by
  rw [Finset.sum_range_add, Finset.sum_range_add]
  have e1 : ∑ x ∈ range a,
      (((List.replicate a (0:ℝ) ++ w ++ List.replicate b 0).getD x 0 : ℝ) : ℂ) * g x = 0 := by
    refine Finset.sum_eq_zero fun j hj => ?_
    rw [getD_padded, if_pos (Finset.mem_range.mp hj)]; simp
  have e2 : ∑ x ∈ range b, (((List.replicate a (0:ℝ) ++ w ++ List.replicate b 0).getD
      (a + w.length + x) 0 : ℝ) : ℂ) * g (a + w.length + x) = 0 := by
    refine Finset.sum_eq_zero fun j _ => ?_
    rw [getD_padded, if_neg (by omega), List.getD_eq_getElem?_getD, List.getElem?_eq_none (by omega)]
    simp
  rw [e1, e2, zero_add, add_zero]
  refine Finset.sum_congr rfl fun j _ => ?_
  rw [getD_padded, if_neg (by omega), Nat.add_sub_cancel_left]

/-- The spectrum the tool computes. -/
theorem windowSpectrum_eq (w : List ℝ) (hw : w ≠ []) (h0 : w.sum ≠ 0) :
    windowSpectrumDb w = .ok ((List.range (11 * w.length / 2 + 1)).map fun k : ℕ =>
      decibel (‖response w (k / (11 * w.length))‖ / ‖response w 0‖)) := by
  have hl : 0 < w.length := List.length_pos_iff.mpr hw
  set P := List.replicate (5 * w.length) (0:ℝ) ++ w ++ List.replicate (5 * w.length) 0 with hP
  have hPl : P.length = 11 * w.length := by simp [hP]; omega
  have hrfft : rfft P = .ok ((dft (P.map (fun v : ℝ => (v : ℂ)))).take (P.length / 2 + 1)) := by
    unfold rfft
    have : P.isEmpty = false := by
      rw [← Bool.not_eq_true, List.isEmpty_iff]; intro h; rw [h, List.length_nil] at hPl; omega
    rw [this]
    simp only [Bool.not_false, require_true, Res.bind_ok]
    rw [if_neg (by omega)]; rfl
  have hbin : ∀ k, k < P.length →
      Complex.normSq ((dft (P.map (fun v : ℝ => (v : ℂ)))).getD k 0)
        = ‖response w (k / (11 * w.length))‖ ^ 2 := by
    intro k hk
    rw [dft_getD _ _ (by simpa using hk)]
    have e : ∀ j, (P.map (fun v : ℝ => (v : ℂ))).getD j 0 = ((P.getD j 0 : ℝ) : ℂ) := by
      intro j
      rw [List.getD_eq_getElem?_getD, List.getElem?_map, List.getD_eq_getElem?_getD]
      cases P[j]? <;> simp
    simp only [e, List.length_map]
    have hlen : P.length = 5 * w.length + w.length + 5 * w.length := by rw [hPl]; ring
    rw [show range P.length = range (5 * w.length + w.length + 5 * w.length) by rw [← hlen]]
    rw [padded_sum w (5 * w.length) (5 * w.length) (fun j => twiddle P.length ^ (j * k))]
    have : ∀ j, twiddle P.length ^ ((5 * w.length + j) * k)
        = twiddle P.length ^ (5 * w.length * k) * twiddle P.length ^ (j * k) := by
      intro j; rw [← pow_add]; congr 1; ring
    simp only [this]
    have e2 : ∑ x ∈ range w.length, ((w.getD x 0 : ℝ) : ℂ) *
        (twiddle P.length ^ (5 * w.length * k) * twiddle P.length ^ (x * k))
        = twiddle P.length ^ (5 * w.length * k) * response w (k / (11 * w.length)) := by
      unfold response
      rw [Finset.mul_sum]
      refine Finset.sum_congr rfl fun j _ => ?_
      rw [twiddle_exp P.length j k, hPl]
      push_cast
      ring
    rw [e2, map_mul, map_pow, normSq_twiddle, one_pow, one_mul, Complex.normSq_eq_norm_sq]
  have hr0 : ‖response w 0‖ ≠ 0 := by
    rw [response_zero]; simpa using h0
  set z := (dft (P.map (fun v : ℝ => (v : ℂ)))).take (P.length / 2 + 1) with hz
  have hzl : z.length = 11 * w.length / 2 + 1 := by
    rw [hz, List.length_take, dft_length, List.length_map, hPl]; omega
  have hzk : ∀ k (hk : k < z.length), Complex.normSq z[k] = ‖response w (k / (11 * w.length))‖ ^ 2 := by
    intro k hk
    have hk' : k < P.length := by omega
    rw [← hbin k hk', List.getD_eq_getElem?_getD,
      List.getElem?_eq_getElem (by rw [dft_length]; simpa using hk')]
    simp only [hz, List.getElem_take, Option.getD_some]
  unfold windowSpectrumDb
  simp only []
  rw [← hP, hrfft, Res.bind_ok]
  have hs0 : rd (z.map fun c => XR.fin (Complex.normSq c)) 0 = .ok (.fin (‖response w 0‖ ^ 2)) := by
    unfold rd
    rw [if_pos le_rfl]
    have hlt : 0 < z.length := by omega
    simp only [Int.toNat_zero, List.getElem?_map, List.getElem?_eq_getElem hlt, Option.map_some]
    have := hzk 0 hlt
    simp only [Nat.cast_zero, zero_div] at this
    rw [this]
  rw [hs0, Res.bind_ok]
  show Res.ok _ = Res.ok _
  congr 1
  refine List.ext_getElem (by simp [hzl]) fun k h1 h2 => ?_
  simp only [List.getElem_map, List.getElem_range]
  have hk : k < z.length := by simpa using h1
  rw [hzk k hk]
  have ha : 0 ≤ ‖response w (k / (11 * w.length))‖ := norm_nonneg _
  have hb : 0 < ‖response w 0‖ := lt_of_le_of_ne (norm_nonneg _) (Ne.symm hr0)
  generalize ‖response w (k / (11 * w.length))‖ = a at ha
  generalize ‖response w 0‖ = b at hb
  have hb2 : b ^ 2 ≠ 0 := by positivity
  simp only [XR.div, if_neg hb2]
  rw [show a ^ 2 / b ^ 2 = (a / b) ^ 2 by rw [div_pow]]
  have hc : 0 ≤ a / b := div_nonneg ha hb.le
  generalize a / b = c at hc
  unfold decibel XR.log10
  simp only [not_lt.mpr (sq_nonneg c), if_false]
  by_cases h0 : c = 0
  · rw [if_pos h0, if_pos (by rw [h0]; norm_num)]
    have h10 : ¬ ((10:ℝ) = 0) := by norm_num
    have h11 : ¬ ((10:ℝ) < 0) := by norm_num
    simp only [XR.mul, h10, h11, if_false, decide_false, Bool.bne_false]
  · rw [if_neg h0, if_neg (by positivity)]
    simp only [XR.mul]
    rw [Real.logb_pow]
    push_cast
    congr 1
    ring

/-- C96: for every non-empty window whose samples do not add up to zero, the spectrum drawn by
`winvis` has one value per frequency `k / (11 N)`, `k = 0 … 11N/2`: the magnitude of the frequency
response relative to that at zero, in decibels; it starts at 0 dB, and if no sample is negative it
never rises above 0 dB. -/
theorem C96_spectrum (w : List ℝ) (hw : w ≠ []) (h0 : w.sum ≠ 0) :
    ∃ s, windowSpectrumDb w = .ok s ∧ s.length = 11 * w.length / 2 + 1 ∧
      (∀ k (hk : k < s.length),
        s[k] = decibel (‖response w (k / (11 * w.length))‖ / |w.sum|)) ∧
      s[0]? = some (.fin 0) ∧
      ((∀ x ∈ w, 0 ≤ x) → ∀ v ∈ s, v = .inf true ∨ ∃ r ≤ 0, v = .fin r) := by
  have hn0 : ‖response w 0‖ = |w.sum| := by rw [response_zero]; simp
  refine ⟨_, windowSpectrum_eq w hw h0, by simp, ?_, ?_, ?_⟩
  · intro k hk
    simp only [List.getElem_map, List.getElem_range, hn0]
  · rw [List.getElem?_map, List.getElem?_range (by omega)]
    have : |w.sum| ≠ 0 := by simpa using h0
    simp only [Option.map_some, Nat.cast_zero, zero_div, hn0, div_self this, decibel]
    norm_num
  · intro hpos v hv
    obtain ⟨k, -, rfl⟩ := List.mem_map.mp hv
    rw [hn0]
    have hle : ‖response w (k / (11 * w.length))‖ ≤ |w.sum| := by
      have hs : w.sum = ∑ j ∈ range w.length, w.getD j 0 := by
        have := response_zero w
        unfold response at this
        simp only [Complex.ofReal_zero, mul_zero, neg_zero, Complex.exp_zero, mul_one] at this
        rw [← Complex.ofReal_sum] at this
        exact (Complex.ofReal_injective this).symm
      have hnn : ∀ j, 0 ≤ w.getD j 0 := by
        intro j
        rw [List.getD_eq_getElem?_getD]
        cases hj : w[j]? with
        | none => simp
        | some x => simpa using hpos x (List.mem_of_getElem? hj)
      rw [hs, abs_of_nonneg (Finset.sum_nonneg fun j _ => hnn j)]
      unfold response
      refine (norm_sum_le _ _).trans (Finset.sum_le_sum fun j _ => ?_)
      rw [norm_mul, Complex.norm_real, Real.norm_of_nonneg (hnn j)]
      have : -(2 * (Real.pi:ℂ) * Complex.I * (j * (((k:ℝ) / (11 * w.length) : ℝ) : ℂ)))
          = ((-(2 * Real.pi * (j * (k / (11 * w.length)))) : ℝ) : ℂ) * Complex.I := by
        push_cast; ring
      rw [this, Complex.norm_exp_ofReal_mul_I, mul_one]
    have hr : ‖response w (k / (11 * w.length))‖ / |w.sum| ≤ 1 :=
      div_le_one_of_le₀ hle (abs_nonneg _)
    have hr0 : 0 ≤ ‖response w (k / (11 * w.length))‖ / |w.sum| := by positivity
    generalize ‖response w (k / (11 * w.length))‖ / |w.sum| = r at hr hr0
    unfold decibel
    by_cases h : r = 0
    · left; rw [if_pos h]
    · right
      rw [if_neg h]
      refine ⟨_, ?_, rfl⟩
      have := Real.logb_nonpos (b := 10) (by norm_num) hr0 hr
      linarith

/-- C96: the spectrum does not depend on the scale of the window. -/
theorem C96_scale (w : List ℝ) (c : ℝ) (hw : w ≠ []) (h0 : w.sum ≠ 0) (hc : c ≠ 0) :
    windowSpectrumDb (w.map fun x : ℝ => c * x) = windowSpectrumDb w := by
  have hs : (w.map fun x : ℝ => c * x).sum = c * w.sum := by
    simpa using List.sum_map_mul_left w (fun x : ℝ => x) c
  have hr : ∀ ν, response (w.map fun x : ℝ => c * x) ν = c * response w ν := by
    intro ν
    unfold response
    rw [Finset.mul_sum, List.length_map]
    refine Finset.sum_congr rfl fun j _ => ?_
    have : (w.map fun x : ℝ => c * x).getD j 0 = c * w.getD j 0 := by
      rw [List.getD_eq_getElem?_getD, List.getD_eq_getElem?_getD, List.getElem?_map]
      cases w[j]? <;> simp
    rw [this]; push_cast; ring
  rw [windowSpectrum_eq w hw h0, windowSpectrum_eq _ (by simpa using hw) (by rw [hs]; exact mul_ne_zero hc h0),
    List.length_map]
  congr 1
  refine List.map_congr_left fun k _ => ?_
  rw [hr, hr, norm_mul, norm_mul, mul_div_mul_left _ _ (by simpa using hc)]

/-! ### The 3 dB width -/

/-- `-3 ≤ v` for a value in decibels. -/
def AboveM3 : XR → Prop
  | .fin r => -3 ≤ r
  | _ => False

theorem sw_XR : StrictWeakOn XR.positive XR.lt := by
  constructor
  · intro x _; cases x with
    | nan => rfl
    | inf n => cases n <;> rfl
    | fin r => simp [XR.lt]
  · intro x y z _ _ _ h1 h2
    cases x with
    | nan => simp [XR.lt] at h1
    | inf n =>
      cases n
      · cases y <;> simp [XR.lt] at h1
      · cases y with
        | nan => simp [XR.lt] at h1
        | inf m => cases m
                   · cases z <;> simp_all [XR.lt]
                   · simp [XR.lt] at h1
        | fin r => cases z with
          | nan => simp [XR.lt] at h2
          | inf m => cases m <;> simp_all [XR.lt]
          | fin s => simp [XR.lt]
    | fin q => cases y with
      | nan => simp [XR.lt] at h1
      | inf m => cases m
                 · cases z <;> simp_all [XR.lt]
                 · simp [XR.lt] at h1
      | fin r => cases z with
        | nan => simp [XR.lt] at h2
        | inf m => cases m <;> simp_all [XR.lt]
        | fin s => simp only [XR.lt, decide_eq_true_eq] at *; exact h1.trans h2
  · intro x y z _ hy _ h
    cases y with
    | nan => simp [XR.positive] at hy
    | inf m =>
      cases m with
      | true => simp [XR.positive] at hy
      | false =>
        cases x with
        | nan => simp [XR.lt] at h
        | inf n => cases n
                   · cases z <;> simp [XR.lt] at h
                   · left; rfl
        | fin q => left; rfl
    | fin r =>
      cases x with
      | nan => simp [XR.lt] at h
      | inf n => cases n
                 · cases z <;> simp [XR.lt] at h
                 · left; rfl
      | fin q =>
        cases z with
        | nan => simp [XR.lt] at h
        | inf m => cases m
                   · right; rfl
                   · simp [XR.lt] at h
        | fin s =>
          simp only [XR.lt, decide_eq_true_eq] at *
          rcases lt_or_ge q r with h1 | h1
          · exact Or.inl h1
          · exact Or.inr (lt_of_le_of_lt h1 h)

/-- C96: for every non-empty window whose samples do not add up to zero, the width reported is four
times the frequency `k / (11 N)` of the lowest bin among those whose response is at least -3 dB that
is closest to -3 dB. -/
theorem C96_width (w : List ℝ) (hw : w ≠ []) (h0 : w.sum ≠ 0) :
    ∃ (f : List ℝ) (s : List XR) (k : ℕ), rfftfreq (11 * w.length) (1:ℝ) = .ok f ∧
      windowSpectrumDb w = .ok s ∧
      mainlobeWidth f s = .ok (4 * ((k:ℝ) / (11 * w.length))) ∧
      ∃ r, s[k]? = some (.fin r) ∧ -3 ≤ r ∧
        (∀ (j : ℕ) (q : ℝ), s[j]? = some (.fin q) → -3 ≤ q → r ≤ q ∧ (j < k → r < q)) := by
  have hl : 0 < w.length := List.length_pos_iff.mpr hw
  obtain ⟨f, hf, hfl, hfk⟩ := C45_rfftfreq (11 * w.length) (1:ℝ) (by omega) one_pos
  obtain ⟨s, hs, hsl, hsk, hs0, -⟩ := C96_spectrum w hw h0
  obtain ⟨x, xs, rfl⟩ : ∃ x xs, s = x :: xs := by
    cases s with
    | nil => simp at hsl
    | cons x xs => exact ⟨x, xs, rfl⟩
  have hx : x = .fin 0 := by simpa using hs0
  have hsp : ∀ v ∈ x :: xs, v = .inf true ∨ ∃ r, v = .fin r := by
    intro v hv
    obtain ⟨k, hk, rfl⟩ := List.getElem_of_mem hv
    rw [hsk k hk]
    unfold decibel
    split_ifs
    · left; rfl
    · right; exact ⟨_, rfl⟩
  subst hx
  obtain ⟨k, h1, h2⟩ := argcmp_head sw_XR (XR.add (.fin 3) (.fin 0))
    (xs.map fun v => XR.add (.fin 3) v) (by simp [XR.add, XR.positive])
  set L := (XR.fin 0 :: xs).map fun v => XR.add (.fin 3) v with hL
  have hLeq : XR.add (.fin 3) (.fin 0) :: (xs.map fun v => XR.add (.fin 3) v) = L := by simp [hL]
  rw [hLeq] at h1 h2
  have hkl : k < (XR.fin 0 :: xs).length := by simpa [hL] using h2.lt
  have hLk : ∀ (j : ℕ) (h : j < L.length) (q : ℝ), (XR.fin 0 :: xs)[j]? = some (.fin q) →
      L[j] = .fin (3 + q) := by
    intro j h q hq
    have : L[j]? = some (.fin (3 + q)) := by
      rw [hL, List.getElem?_map, hq]; rfl
    rw [List.getElem?_eq_getElem h] at this
    simpa using this
  obtain ⟨r, hr⟩ : ∃ r, (XR.fin 0 :: xs)[k]? = some (.fin r) := by
    rw [List.getElem?_eq_getElem hkl]
    rcases hsp _ (List.getElem_mem hkl) with h | ⟨r, h⟩
    · exfalso
      have := h2.acc
      have e : L[k]'h2.lt = XR.add (.fin 3) ((XR.fin 0 :: xs)[k]) := by simp only [hL, List.getElem_map]
      rw [e, h] at this
      simp [XR.add, XR.positive] at this
    · exact ⟨r, by rw [h]⟩
  have hLr := hLk k h2.lt r hr
  have hacc := h2.acc
  rw [hLr] at hacc
  simp only [XR.positive, decide_eq_true_eq] at hacc
  refine ⟨f, XR.fin 0 :: xs, k, hf, hs, ?_, r, hr, by linarith, ?_⟩
  · unfold mainlobeWidth
    rw [← hL]
    unfold argmin
    rw [h1, Res.bind_ok]
    have : rd f (k : ℤ) = .ok ((k:ℝ) / (11 * w.length)) := by
      unfold rd
      rw [if_pos (by omega)]
      simp only [Int.toNat_natCast]
      rw [hfk k (by omega)]
      simp
    rw [this]; rfl
  · intro j q hq hq3
    have hj : j < (XR.fin 0 :: xs).length := by
      by_contra hcon
      rw [List.getElem?_eq_none (by omega)] at hq
      cases hq
    have hjL : j < L.length := by simpa [hL] using hj
    have hLq := hLk j hjL q hq
    have hpos : XR.positive L[j] := by
      rw [hLq]; simp only [XR.positive, decide_eq_true_eq]; linarith
    constructor
    · have := h2.best j hjL hpos
      rw [hLq, hLr] at this
      simp only [XR.lt, decide_eq_false_iff_not, not_lt] at this
      linarith
    · intro hjk
      have := h2.first j hjk hpos
      rw [hLr, hLq] at this
      simp only [XR.lt, decide_eq_true_eq] at this
      linarith

/-! ### The tool as a whole -/

theorem allOk_map {α β : Type} (f : α → Res β) (l : List α) (h : ∀ a ∈ l, ∃ b, f a = .ok b) :
    ∃ r, allOk (l.map f) = .ok r ∧ List.Forall₂ (fun a b => f a = .ok b) l r := by
  induction l with
  | nil => exact ⟨[], rfl, .nil⟩
  | cons a l ih =>
    obtain ⟨b, hb⟩ := h a (by simp)
    obtain ⟨r, h1, h2⟩ := ih fun a ha => h a (by simp [ha])
    refine ⟨b :: r, ?_, .cons hb h2⟩
    simp only [List.map_cons, allOk, hb, Res.bind_ok, h1]

/-- C96: `winvis` of any number of windows of one size whose samples do not add up to zero is
defined; every curve it hands to a plot has as many values as the abscissae of that plot, the spectra
are those of the windows (C96_spectrum), and there is one width per window (C96_width). -/
theorem C96_winvis (w0 : List ℝ) (ws : List (List ℝ)) (hne : w0 ≠ [])
    (hlen : ∀ w ∈ ws, w.length = w0.length) (h0 : ∀ w ∈ w0 :: ws, w.sum ≠ 0) :
    ∃ v, winvis w0 ws = .ok v ∧ v.windows = w0 :: ws ∧
      v.x.length = w0.length ∧ (∀ w ∈ v.windows, w.length = v.x.length) ∧
      rfftfreq (11 * w0.length) (1:ℝ) = .ok v.f ∧ (∀ s ∈ v.spectra, s.length = v.f.length) ∧
      List.Forall₂ (fun w s => windowSpectrumDb w = .ok s) (w0 :: ws) v.spectra ∧
      List.Forall₂ (fun s b => mainlobeWidth v.f s = .ok b) v.spectra v.widths := by
  have hl : 0 < w0.length := List.length_pos_iff.mpr hne
  have hlen' : ∀ w ∈ w0 :: ws, w.length = w0.length := by
    intro w hw
    rcases List.mem_cons.mp hw with rfl | hw
    · rfl
    · exact hlen w hw
  have hne' : ∀ w ∈ w0 :: ws, w ≠ [] := by
    intro w hw h
    have := hlen' w hw
    rw [h, List.length_nil] at this; omega
  obtain ⟨f, hf, hfl, hfk⟩ := C45_rfftfreq (11 * w0.length) (1:ℝ) (by omega) one_pos
  obtain ⟨S, hS, hS2⟩ := allOk_map windowSpectrumDb (w0 :: ws) (fun w hw => by
    obtain ⟨s, hs, -⟩ := C96_spectrum w (hne' w hw) (h0 w hw)
    exact ⟨s, hs⟩)
  have hmem : ∀ s ∈ S, ∃ w ∈ w0 :: ws, windowSpectrumDb w = .ok s := by
    intro s hs
    obtain ⟨i, hi, rfl⟩ := List.getElem_of_mem hs
    have hi' : i < (w0 :: ws).length := by rw [hS2.length_eq]; exact hi
    exact ⟨(w0 :: ws)[i], List.getElem_mem hi', (List.forall₂_iff_get.mp hS2).2 i hi' hi⟩
  obtain ⟨B, hB, hB2⟩ := allOk_map (mainlobeWidth f) S (fun s hs => by
    obtain ⟨w, hw, hws⟩ := hmem s hs
    obtain ⟨f', s', k, e1, e2, e3, -⟩ := C96_width w (hne' w hw) (h0 w hw)
    rw [hlen' w hw, hf] at e1
    rw [hws] at e2
    cases e1; cases e2
    exact ⟨_, e3⟩)
  refine ⟨⟨linspace 0 (w0.length : ℝ) w0.length, w0 :: ws, f, S, B⟩, ?_, rfl, ?_, ?_, hf, ?_, hS2, hB2⟩
  · unfold winvis
    have : ((w0 :: ws).all fun w => w.length == w0.length) = true := by
      rw [List.all_eq_true]
      intro w hw
      simpa using hlen' w hw
    simp only []
    rw [this, require_true, Res.bind_ok, hf, Res.bind_ok, hS, Res.bind_ok, hB]
    rfl
  · show (linspace _ _ _).length = _
    unfold linspace
    split_ifs with a b
    · omega
    · simp [b]
    · simp [iota_length]
  · intro w hw
    show w.length = (linspace _ _ _).length
    rw [hlen' w hw]
    unfold linspace
    split_ifs with a b
    · omega
    · simp [b]
    · simp [iota_length]
  · intro s hs
    obtain ⟨w, hw, hws⟩ := hmem s hs
    obtain ⟨s', e1, e2, -⟩ := C96_spectrum w (hne' w hw) (h0 w hw)
    rw [hws] at e1
    cases e1
    rw [e2, hlen' w hw]
    exact hfl.symm

/-- C96: windows of different sizes violate the requirement. -/
theorem C96_sizes (w0 : List ℝ) (ws : List (List ℝ)) (w : List ℝ) (hw : w ∈ ws)
    (h : w.length ≠ w0.length) : winvis w0 ws = .ub := by
  unfold winvis
  have : ((w0 :: ws).all fun w => w.length == w0.length) = false := by
    rw [← Bool.not_eq_true, List.all_eq_true]
    intro hall
    exact h (by simpa using hall w (by simp [hw]))
  simp only []
  rw [this]; rfl

/-- A rectangular window of two samples meets the hypotheses. -/
example : ∃ v, winvis [1, 1] [[1, 2]] = .ok v ∧ v.widths.length = 2 := by
  obtain ⟨v, h1, -, -, -, -, -, h2, h3⟩ := C96_winvis [1, 1] [[1, 2]] (by simp) (by simp)
    (by intro w hw; simp at hw; rcases hw with rfl | rfl <;> norm_num)
  exact ⟨v, h1, by rw [← h3.length_eq, ← h2.length_eq]; rfl⟩

/-- C96 (outside the stated domain): a window of zeros makes every value NaN, no bin is accepted and
the search runs past the end of the spectrum. -/
theorem C96_zero_window (n : ℕ) (hn : 0 < n) : winvis (List.replicate n 0) [] = .ub := by
  set w : List ℝ := List.replicate n 0 with hw
  have hwl : w.length = n := by simp [hw]
  obtain ⟨f, hf, hfl, hfk⟩ := C45_rfftfreq (11 * w.length) (1:ℝ) (by omega) one_pos
  set P := List.replicate (5 * w.length) (0:ℝ) ++ w ++ List.replicate (5 * w.length) 0 with hP
  have hP0 : ∀ x ∈ P, x = 0 := by
    intro x hx
    simp only [hP, hw, List.mem_append, List.mem_replicate] at hx
    rcases hx with (hx | hx) | hx <;> exact hx.2
  have hPl : P.length = 11 * w.length := by simp [hP]; omega
  have hrfft : rfft P = .ok ((dft (P.map (fun v : ℝ => (v : ℂ)))).take (P.length / 2 + 1)) := by
    unfold rfft
    have : P.isEmpty = false := by
      rw [← Bool.not_eq_true, List.isEmpty_iff]; intro h; rw [h, List.length_nil] at hPl; omega
    rw [this]
    simp only [Bool.not_false, require_true, Res.bind_ok]
    rw [if_neg (by omega)]; rfl
  set z := (dft (P.map (fun v : ℝ => (v : ℂ)))).take (P.length / 2 + 1) with hz
  have hzl : 0 < z.length := by
    rw [hz, List.length_take, dft_length, List.length_map, hPl]; omega
  have hz0 : ∀ c ∈ z, c = 0 := by
    intro c hc
    have hc' : c ∈ dft (P.map (fun v : ℝ => (v : ℂ))) := List.mem_of_mem_take hc
    unfold dft at hc'
    obtain ⟨k, -, rfl⟩ := List.mem_map.mp hc'
    refine Finset.sum_eq_zero fun j _ => ?_
    have : (P.map (fun v : ℝ => (v : ℂ))).getD j 0 = 0 := by
      rw [List.getD_eq_getElem?_getD, List.getElem?_map]
      cases hj : P[j]? with
      | none => rfl
      | some x => simp [hP0 x (List.mem_of_getElem? hj)]
    rw [this, zero_mul]
  have hspec : (z.map fun c => XR.fin (Complex.normSq c)) = z.map fun _ => XR.fin 0 := by
    refine List.map_congr_left fun c hc => ?_
    rw [hz0 c hc]; simp
  have hdb : windowSpectrumDb w = .ok (z.map fun _ => XR.nan) := by
    unfold windowSpectrumDb
    simp only []
    rw [← hP, hrfft, Res.bind_ok, hspec]
    have : rd (z.map fun _ => XR.fin 0) 0 = .ok (XR.fin 0) := by
      unfold rd
      rw [if_pos le_rfl]
      simp only [Int.toNat_zero, List.getElem?_map, List.getElem?_eq_getElem hzl, Option.map_some]
    rw [this, Res.bind_ok, List.map_map, List.map_map]
    show Res.ok _ = Res.ok _
    congr 1
    refine List.map_congr_left fun c _ => ?_
    simp [XR.div, XR.log10, XR.mul]
  have hml : mainlobeWidth f (z.map fun _ => XR.nan) = .ub := by
    unfold mainlobeWidth argmin
    rw [C08_argcmp_none]
    · rfl
    · intro x hx
      rw [List.map_map] at hx
      obtain ⟨c, -, rfl⟩ := List.mem_map.mp hx
      rfl
  unfold winvis
  simp only [List.map_cons, List.map_nil, List.all_cons, List.all_nil, beq_self_eq_true, Bool.and_self,
    require_true, Res.bind_ok]
  rw [hf, Res.bind_ok]
  simp only [allOk, hdb, Res.bind_ok, List.map_cons, List.map_nil, hml, Res.bind_ub]

end SciCpp
