import Verif.Model.QuantF
import Verif.Props.Stats
import Verif.Props.Equal
import Verif.Props.Limits
import Verif.Props.Sqrt
import Verif.Props.FloatSign
/-
  Property theorems C109: medians and quantiles in floating point.
-/
namespace SciCpp
open Spec

/-! ### Median -/

variable {f : Fmt}

/-- Halving a rounded sum of two numbers of the format rounds once: the sum is exact where halving is not. -/
theorem rnd_half_sum {a b : ℚ} (ha : f.rnd a = a) (hb : f.rnd b = b) :
    f.rnd (f.rnd (a + b) / 2) = f.rnd ((a + b) / 2) := by
  have pos : ∀ t : ℚ, 0 ≤ t → (t < 2 * (2 : ℚ) ^ f.emin → f.rnd t = t) →
      f.rnd (f.rnd t / 2) = f.rnd (t / 2) := by
    intro t ht hs
    rcases lt_or_ge t (2 * (2 : ℚ) ^ f.emin) with h | h
    · rw [hs h]
    · exact rnd_half (by linarith)
  have grid : ∀ c : ℚ, f.rnd c = c → ∃ n : ℤ, c = n * (2 : ℚ) ^ (f.emin - (f.frac : ℤ)) := by
    intro c hc
    rcases eq_or_ne c 0 with rfl | h0
    · exact ⟨0, by simp⟩
    · rw [← hc]
      unfold Fmt.rnd
      rw [if_neg h0]
      set E := max (expo c) f.emin
      obtain ⟨k, hk⟩ := Int.eq_ofNat_of_zero_le (show 0 ≤ E - f.emin by omega)
      refine ⟨nearestEven (c * (2 : ℚ) ^ ((f.frac : ℤ) - E)) * 2 ^ k, ?_⟩
      simp only
      rw [div_eq_mul_inv, ← zpow_neg]
      push_cast
      rw [mul_assoc, ← zpow_natCast, ← zpow_add₀ two_ne_zero]
      congr 2
      omega
  have exact : ∀ t : ℚ, (∃ n : ℤ, t = n * (2 : ℚ) ^ (f.emin - (f.frac : ℤ))) → |t| < 2 * (2 : ℚ) ^ f.emin →
      f.rnd t = t := by
    rintro t ⟨n, rfl⟩ h
    refine f.rnd_exact n _ le_rfl ?_
    have hg : (0 : ℚ) < (2 : ℚ) ^ (f.emin - (f.frac : ℤ)) := by positivity
    have e : 2 * (2 : ℚ) ^ f.emin = (2 : ℚ) ^ (f.frac + 1) * (2 : ℚ) ^ (f.emin - (f.frac : ℤ)) := by
      rw [pow_succ, ← zpow_natCast, mul_right_comm, ← zpow_add₀ two_ne_zero, mul_comm]
      congr 2; ring
    rw [abs_mul, abs_of_pos hg, e] at h
    have h2 : |(n : ℚ)| < (2 : ℚ) ^ (f.frac + 1) := lt_of_mul_lt_mul_right h hg.le
    have h3 : |n| < 2 ^ (f.frac + 1) := by exact_mod_cast h2
    exact h3.le
  obtain ⟨n, hn⟩ := grid a ha
  obtain ⟨m, hm⟩ := grid b hb
  have hsum : ∃ k : ℤ, a + b = k * (2 : ℚ) ^ (f.emin - (f.frac : ℤ)) := ⟨n + m, by rw [hn, hm]; push_cast; ring⟩
  rcases le_total 0 (a + b) with h | h
  · exact pos _ h fun hlt => exact _ hsum (by rwa [abs_of_nonneg h])
  · have h1 := pos (-(a + b)) (by linarith) fun hlt => by
      rw [f.rnd_neg]
      rw [exact _ hsum (by rwa [abs_of_nonpos h])]
    rw [f.rnd_neg, show -f.rnd (a + b) / 2 = -(f.rnd (a + b) / 2) by ring,
      show -(a + b) / 2 = -((a + b) / 2) by ring, f.rnd_neg, f.rnd_neg] at h1
    linarith

/-- C109, median: for finite data of a format and any selection algorithm, the median of an odd number of
elements is the middle element, and of an even number the correctly rounded mean of the two middle elements,
unless their sum overflows. -/
theorem C109_median (hs : StdFmt f) (nth : NthImpl ℚ) (l : List ℚ) (h : 0 < l.length) (hf : ∀ x ∈ l, Finite f x) :
    medianF f nth l =
      if l.length % 2 = 1 then .ok (IFl.fin (orderStat l (l.length / 2) (by omega)))
      else
        let a := orderStat l (l.length / 2 - 1) (by omega)
        let b := orderStat l (l.length / 2) (by omega)
        .ok (if |f.rnd (a + b)| < (2 : ℚ) ^ f.emax then IFl.fin (f.rnd ((a + b) / 2)) else IFl.inf (decide (a + b < 0))) := by
  unfold medianF
  have hc := nth.correct (l.length / 2) l
  have hlt : l.length / 2 < l.length := by omega
  simp only []
  rw [if_neg (by omega)]
  by_cases hodd : l.length % 2 = 1
  · rw [if_pos (by omega), if_pos hodd, nth_eq hc hlt]
    rfl
  · rw [if_neg (by omega), if_neg hodd, nth_eq hc hlt]
    obtain ⟨x, xs, e, hm⟩ := max_before hc hlt (by omega)
    rw [e]
    simp only [Res.bind_ok, Res.pure_eq, hm]
    congr 1
    have fa := hf _ (orderStat_mem l (l.length / 2 - 1) (by omega))
    have fb := hf _ (orderStat_mem l (l.length / 2) hlt)
    have hab := orderStat_mono l (show l.length / 2 - 1 ≤ l.length / 2 by omega) hlt
    set a := orderStat l (l.length / 2 - 1) (by omega) with ha
    set b := orderStat l (l.length / 2) hlt with hb
    have two : (2 : ℚ) ^ f.emax = 2 * (2 : ℚ) ^ (f.emax - 1) := by
      rw [mul_comm, ← zpow_add_one₀ two_ne_zero]; congr 1; ring
    by_cases hfin : |f.rnd (a + b)| < (2 : ℚ) ^ f.emax
    · rw [if_pos hfin]
      have h1 : (IFl.fin a : IFl f) + IFl.fin b = IFl.fin (f.rnd (a + b)) := f.ofRat_fin hfin
      rw [h1, ← rnd_half_sum fa.1 fb.1]
      show f.round (Fl.div (.fin _) (.fin 2)) = _
      have h2 : Fl.div (.fin (f.rnd (a + b))) (.fin 2) = .fin (f.rnd (a + b) / 2) := by simp [Fl.div]
      rw [h2]
      refine f.ofRat_fin ?_
      have hp := (finite_zpow (f := f) (f.emax - 1) (by have := hs.1; have := hs.2; omega) (by omega)).1
      have u : f.rnd (f.rnd (a + b) / 2) ≤ (2 : ℚ) ^ (f.emax - 1) := by
        rw [← hp]
        exact f.rnd_mono (by have := (abs_lt.1 hfin).2; linarith)
      have v : -(2 : ℚ) ^ (f.emax - 1) ≤ f.rnd (f.rnd (a + b) / 2) := by
        rw [← hp, ← f.rnd_neg]
        exact f.rnd_mono (by have := (abs_lt.1 hfin).1; linarith)
      have w : (0 : ℚ) < (2 : ℚ) ^ (f.emax - 1) := by positivity
      rw [abs_lt]
      constructor <;> linarith
    · rw [if_neg hfin]
      have h1 : (IFl.fin a : IFl f) + IFl.fin b = IFl.inf (decide (a + b < 0)) := by
        show f.ofRat (a + b) = _
        unfold Fmt.ofRat
        rw [if_pos (not_lt.1 hfin)]
        rfl
      rw [h1]
      show f.round (Fl.div (.inf _) (.fin 2)) = _
      have h2 : ∀ s, Fl.div (.inf s) (.fin 2) = .inf s := by
        intro s
        show Fl.inf (s != decide ((2 : ℚ) < 0)) = _
        rw [decide_eq_false (by norm_num)]
        simp
      rw [h2]
      rfl

/-- C109, median: it lies between the two middle elements, hence in the range of the data. -/
theorem C109_median_range (hs : StdFmt f) (nth : NthImpl ℚ) (l : List ℚ) (h : 0 < l.length)
    (hf : ∀ x ∈ l, Finite f x) (m : ℚ) (hm : medianF f nth l = .ok (IFl.fin m)) (lo hi : ℚ)
    (hlo : ∀ x ∈ l, lo ≤ x) (hhi : ∀ x ∈ l, x ≤ hi) : Finite f m ∧ lo ≤ m ∧ m ≤ hi := by
  rw [C109_median hs nth l h hf] at hm
  by_cases hodd : l.length % 2 = 1
  · rw [if_pos hodd] at hm
    have he : orderStat l (l.length / 2) (by omega) = m := by
      injection hm with h1; injection h1
    have := orderStat_mem l (l.length / 2) (by omega)
    rw [he] at this
    exact ⟨hf _ this, hlo _ this, hhi _ this⟩
  · rw [if_neg hodd] at hm
    have ma := orderStat_mem l (l.length / 2 - 1) (by omega)
    have mb := orderStat_mem l (l.length / 2) (by omega)
    have hab := orderStat_mono l (show l.length / 2 - 1 ≤ l.length / 2 by omega) (by omega)
    simp only at hm
    generalize orderStat l (l.length / 2 - 1) _ = a at *
    generalize orderStat l (l.length / 2) _ = b at *
    have fa := hf a ma
    have fb := hf b mb
    by_cases hfin : |f.rnd (a + b)| < (2 : ℚ) ^ f.emax
    · rw [if_pos hfin] at hm
      have he : f.rnd ((a + b) / 2) = m := by
        injection hm with h1; injection h1
      have l1 : a ≤ m := by rw [← he, ← fa.1]; exact f.rnd_mono (by rw [fa.1]; linarith)
      have l2 : m ≤ b := by rw [← he, ← fb.1]; exact f.rnd_mono (by rw [fb.1]; linarith)
      refine ⟨⟨by rw [← he, f.rnd_idem], ?_⟩, (hlo a ma).trans l1, l2.trans (hhi b mb)⟩
      have := abs_lt.1 fa.2
      have := abs_lt.1 fb.2
      rw [abs_lt]; constructor <;> linarith
    · rw [if_neg hfin] at hm
      injection hm with h1
      cases h1

/-- C109, median: without a bound on the sum it is false: the median of two equal numbers near the largest
one is infinite. -/
theorem C109_median_false (hs : StdFmt f) (nth : NthImpl ℚ) :
    medianF f nth [f.maxVal, f.maxVal] = .ok (IFl.inf false) := by
  have hlow := hs.low
  have hhigh := hs.high
  have hw : (0 : ℚ) < (2 : ℚ) ^ (f.emax - 1 - (f.frac : ℤ)) := by positivity
  have e1 : (2 : ℚ) ^ f.emax = 2 * (2 : ℚ) ^ f.frac * (2 : ℚ) ^ (f.emax - 1 - (f.frac : ℤ)) := by
    rw [mul_assoc, ← zpow_natCast, ← zpow_add₀ two_ne_zero, mul_comm, ← zpow_add_one₀ two_ne_zero]
    congr 1; ring
  have hP : (1 : ℚ) ≤ (2 : ℚ) ^ f.frac := one_le_pow₀ (by norm_num)
  have hmax : (2 : ℚ) ^ f.emax ≤ f.maxVal + f.maxVal := by
    unfold Fmt.maxVal
    rw [e1, pow_succ]
    nlinarith
  have h0 : (0 : ℚ) < (2 : ℚ) ^ f.emax := by positivity
  have hr : (2 : ℚ) ^ f.emax ≤ f.rnd (f.maxVal + f.maxVal) := by
    have h3 := f.rnd_exact 1 f.emax (by omega) (by rw [abs_one]; exact one_le_pow₀ (by norm_num))
    have h4 := f.rnd_mono hmax
    rw [show f.rnd ((2 : ℚ) ^ f.emax) = (2 : ℚ) ^ f.emax by simpa using h3] at h4
    exact h4
  rw [C109_median hs nth _ (by simp) (by
    intro x hx
    have : x = f.maxVal := by simpa using hx
    rw [this]; exact finite_max hs)]
  have os : ∀ k (hk : k < [f.maxVal, f.maxVal].length), orderStat [f.maxVal, f.maxVal] k hk = f.maxVal := by
    intro k hk
    have := orderStat_mem _ k hk
    simpa using this
  simp only [os]
  rw [if_neg (by simp), if_neg, decide_eq_false (by linarith)]
  rw [abs_of_nonneg (by linarith)]
  exact not_lt.2 hr

/-! ### Quantiles -/

section
variable {rnd : ℚ → ℚ}

/-- The rounding used for an array of `n + 1` elements: monotone, exact on the integers up to `2 n`. -/
structure Spec.IndexRounding (rnd : ℚ → ℚ) (n : ℕ) : Prop where
  mono : ∀ x y, x ≤ y → rnd x ≤ rnd y
  nat : ∀ k : ℕ, k ≤ 2 * n → rnd k = k

/-- The position `q (size - 1)` as computed. -/
def Spec.position (rnd : ℚ → ℚ) (l : List ℚ) (q : ℚ) : ℚ := rnd (q * ((l.length - 1 : ℕ) : ℚ))

/-- The `i`-th smallest element (`0` beyond the end). -/
def Spec.nthSmallest (l : List ℚ) (i : ℤ) : ℚ := (sorted l).getD i.toNat 0

theorem Spec.IndexRounding.zero {n : ℕ} (h : IndexRounding rnd n) : rnd 0 = 0 := by
  have := h.nat 0 (by omega); simpa using this

theorem Spec.IndexRounding.int {n : ℕ} (h : IndexRounding rnd n) (z : ℤ) (h0 : 0 ≤ z) (h1 : z ≤ 2 * n) :
    rnd (z : ℚ) = z := by
  obtain ⟨k, rfl⟩ := Int.eq_ofNat_of_zero_le h0
  have := h.nat k (by omega)
  push_cast
  exact this

theorem position_bounds (l : List ℚ) (hr : IndexRounding rnd (l.length - 1)) (q : ℚ) (hq0 : 0 ≤ q) (hq1 : q ≤ 1) :
    0 ≤ position rnd l q ∧ position rnd l q ≤ ((l.length - 1 : ℕ) : ℚ) := by
  have hn : (0 : ℚ) ≤ ((l.length - 1 : ℕ) : ℚ) := Nat.cast_nonneg _
  constructor
  · rw [← hr.zero]; exact hr.mono _ _ (mul_nonneg hq0 hn)
  · conv_rhs => rw [← hr.nat _ (by omega)]
    exact hr.mono _ _ (by nlinarith)

/-- The index stays between the two integers next to the position. -/
theorem qIndexF_bounds (n : ℕ) (hr : IndexRounding rnd n) (m : QInterp) (h : ℚ) (h0 : 0 ≤ h) (h1 : h ≤ (n : ℚ)) :
    (⌊h⌋ : ℚ) ≤ qInterpIndexF rnd m h ∧ qInterpIndexF rnd m h ≤ (⌈h⌉ : ℚ) := by
  have hf : (0 : ℤ) ≤ ⌊h⌋ := Int.floor_nonneg.mpr h0
  have hc : ⌈h⌉ ≤ (n : ℤ) := Int.ceil_le.mpr (by simpa using h1)
  have hfc := Int.floor_le_ceil h
  have hfc' : (⌊h⌋ : ℚ) ≤ (⌈h⌉ : ℚ) := by exact_mod_cast hfc
  obtain ⟨n1, n2⟩ := nearbyint_bounds h
  cases m with
  | lower => exact ⟨le_rfl, hfc'⟩
  | higher => exact ⟨hfc', le_rfl⟩
  | nearest =>
    simp only [qInterpIndexF]
    exact ⟨by exact_mod_cast n1, by exact_mod_cast n2⟩
  | linear => exact ⟨Int.floor_le h, Int.le_ceil h⟩
  | midpoint =>
    simp only [qInterpIndexF]
    have e1 : 2 * (⌊h⌋ : ℚ) ≤ rnd ((⌊h⌋ : ℚ) + (⌈h⌉ : ℚ)) := by
      have := hr.int (2 * ⌊h⌋) (by omega) (by omega)
      push_cast at this
      rw [← this]
      exact hr.mono _ _ (by linarith)
    have e2 : rnd ((⌊h⌋ : ℚ) + (⌈h⌉ : ℚ)) ≤ 2 * (⌈h⌉ : ℚ) := by
      have := hr.int (2 * ⌈h⌉) (by omega) (by omega)
      push_cast at this
      rw [← this]
      exact hr.mono _ _ (by linarith)
    constructor
    · conv_lhs => rw [← hr.int ⌊h⌋ hf (by omega)]
      exact hr.mono _ _ (by linarith)
    · conv_rhs => rw [← hr.int ⌈h⌉ (by omega) (by omega)]
      exact hr.mono _ _ (by linarith)

/-- The part of `quantile_inplace` after the index computation. -/
theorem quantileF_core (nth : NthImpl ℚ) (tol : ℚ) (ht : 0 ≤ tol) (m : QInterp) (l : List ℚ) (q : ℚ)
    (hq0 : 0 ≤ q) (hq1 : q ≤ 1) (hl : 2 ≤ l.length) (hr : IndexRounding rnd (l.length - 1)) (h0 : ℚ)
    (hh : h0 = qInterpIndexF rnd m (position rnd l q)) :
    (quantileF nth tol m l q : Res (RFl rnd)) =
      .ok (RFl.fin (if almostEqual tol (RFl.fin (nearbyint h0 : ℚ) : RFl rnd) (RFl.fin h0)
        then nthSmallest l ⌊h0⌋
        else lerpR rnd (nthSmallest l ⌊h0⌋) (nthSmallest l (⌊h0⌋ + 1)) (rnd (h0 - ⌊h0⌋)))) := by
  obtain ⟨p0, p1⟩ := position_bounds l hr q hq0 hq1
  obtain ⟨b0, b1⟩ := qIndexF_bounds _ hr m _ p0 p1
  rw [← hh] at b0 b1
  have hpf : (0 : ℤ) ≤ ⌊position rnd l q⌋ := Int.floor_nonneg.mpr p0
  have hpc : ⌈position rnd l q⌉ ≤ ((l.length - 1 : ℕ) : ℤ) := Int.ceil_le.mpr (by simpa using p1)
  have hge : 0 ≤ h0 := le_trans (by exact_mod_cast hpf) b0
  have hle : h0 ≤ ((l.length - 1 : ℕ) : ℚ) := b1.trans (by exact_mod_cast hpc)
  have hfl : 0 ≤ ⌊h0⌋ := Int.floor_nonneg.mpr hge
  have hfl' : ⌊h0⌋ ≤ ((l.length - 1 : ℕ) : ℤ) := by
    have := (Int.floor_le h0).trans hle
    exact_mod_cast this
  have htr : truncK h0 = ⌊h0⌋ := by rw [truncK, if_pos hge]
  unfold quantileF
  have hq : decide (0 ≤ q ∧ q ≤ 1) = true := by simp [hq0, hq1]
  simp only [hq, require_true, Res.bind_ok]
  rcases l with _ | ⟨x, _ | ⟨y, l⟩⟩
  · simp at hl
  · simp at hl
  · simp only []
    set L := x :: y :: l with hL
    rw [hr.nat (L.length - 1) (by omega), show rnd (q * ((L.length - 1 : ℕ) : ℚ)) = position rnd L q from rfl, ← hh]
    by_cases hal : almostEqual tol (RFl.fin (nearbyint h0 : ℚ) : RFl rnd) (RFl.fin h0) = true
    · have hlt : ⌊h0⌋.toNat < L.length := by omega
      rw [if_pos hal, if_pos hal, htr, Nat.min_eq_left (le_of_lt hlt), nth_eq (nth.correct _ L) hlt]
      unfold nthSmallest
      rw [getD_sorted L _ hlt]
      rfl
    · rw [if_neg hal, if_neg hal, htr]
      have hint : ¬ ∃ z : ℤ, h0 = z := by
        rintro ⟨z, hz⟩
        apply hal
        rw [hz, nearbyint_int]
        exact C26_refl hr.zero (fun x hx => by rw [← hr.zero]; exact hr.mono _ _ hx) tol ht _
      have hlt1 : ⌊h0⌋ + 1 ≤ ((L.length - 1 : ℕ) : ℤ) := by
        by_contra hc
        have h2 : ((L.length - 1 : ℕ) : ℤ) ≤ ⌊h0⌋ := by omega
        have h3 : (((L.length - 1 : ℕ) : ℤ) : ℚ) ≤ (⌊h0⌋ : ℚ) := by exact_mod_cast h2
        rw [Int.cast_natCast] at h3
        exact hint ⟨⌊h0⌋, le_antisymm (le_trans hle h3) (Int.floor_le h0)⟩
      have hn : ⌊h0⌋.toNat + 1 < L.length := by omega
      rw [Nat.min_eq_left (le_of_lt hn)]
      obtain ⟨a, as, e, hm⟩ := max_before (nth.correct (⌊h0⌋.toNat + 1) L) hn (by omega)
      rw [e]
      simp only []
      rw [nth_eq (nth.correct _ L) hn]
      simp only [Res.bind_ok, Res.pure_eq, hm, Nat.add_sub_cancel]
      rw [hr.int ⌊h0⌋ hfl (by omega), lerpF_fin]
      unfold nthSmallest
      rw [show (⌊h0⌋ + 1).toNat = ⌊h0⌋.toNat + 1 by omega, getD_sorted L _ hn,
        getD_sorted L ⌊h0⌋.toNat (by omega)]

theorem nthSmallest_mono (l : List ℚ) {i j : ℤ} (_ : 0 ≤ i) (hij : i ≤ j) (hj : j ≤ ((l.length - 1 : ℕ) : ℤ))
    (hl : 0 < l.length) : nthSmallest l i ≤ nthSmallest l j := by
  unfold nthSmallest
  rw [getD_sorted l _ (by omega), getD_sorted l _ (by omega)]
  exact orderStat_mono l (by omega) (by omega)

theorem nthSmallest_mem (l : List ℚ) {i : ℤ} (_ : 0 ≤ i) (hj : i ≤ ((l.length - 1 : ℕ) : ℤ))
    (hl : 0 < l.length) : nthSmallest l i ∈ l := by
  unfold nthSmallest
  rw [getD_sorted l _ (by omega)]
  exact orderStat_mem l _ _

/-- C109, quantile: for finite data of the type, every interpolation mode, probability in [0, 1], selection
algorithm and tolerance, the call is defined and the result lies between the two elements next to the computed
position. -/
theorem C109_quantile_between (nth : NthImpl ℚ) (tol : ℚ) (ht : 0 ≤ tol) (m : QInterp) (l : List ℚ) (q : ℚ)
    (hq0 : 0 ≤ q) (hq1 : q ≤ 1) (hl : 2 ≤ l.length) (hr : IndexRounding rnd (l.length - 1))
    (hf : ∀ x ∈ l, rnd x = x) :
    ∃ x, (quantileF nth tol m l q : Res (RFl rnd)) = .ok (RFl.fin x) ∧
      nthSmallest l ⌊position rnd l q⌋ ≤ x ∧ x ≤ nthSmallest l ⌈position rnd l q⌉ := by
  obtain ⟨p0, p1⟩ := position_bounds l hr q hq0 hq1
  set h := position rnd l q with hpos
  obtain ⟨b0, b1⟩ := qIndexF_bounds _ hr m _ p0 p1
  rw [quantileF_core nth tol ht m l q hq0 hq1 hl hr _ rfl, ← hpos]
  set h0 := qInterpIndexF rnd m h
  refine ⟨_, rfl, ?_⟩
  have f0 : (0 : ℤ) ≤ ⌊h⌋ := Int.floor_nonneg.mpr p0
  have c0 : ⌈h⌉ ≤ ((l.length - 1 : ℕ) : ℤ) := Int.ceil_le.mpr (by simpa using p1)
  have f1 : ⌊h⌋ ≤ ⌊h0⌋ := Int.le_floor.2 b0
  have c1 : ⌊h0⌋ ≤ ⌈h⌉ := by
    have := (Int.floor_le h0).trans b1
    exact_mod_cast this
  have lo := nthSmallest_mono l f0 f1 (by omega) (by omega)
  split_ifs with hal
  · exact ⟨lo, nthSmallest_mono l (by omega) c1 c0 (by omega)⟩
  · have hne : (⌊h0⌋ : ℚ) ≠ h0 := by
      intro he
      apply hal
      rw [← he, nearbyint_int]
      exact C26_refl hr.zero (fun x hx => by rw [← hr.zero]; exact hr.mono _ _ hx) tol ht _
    have c2 : ⌊h0⌋ + 1 ≤ ⌈h⌉ := by
      have h2 : (⌊h0⌋ : ℚ) < ⌈h⌉ := lt_of_lt_of_le (lt_of_le_of_ne (Int.floor_le h0) hne) b1
      have : ⌊h0⌋ < ⌈h⌉ := by exact_mod_cast h2
      omega
    have ra := hf _ (nthSmallest_mem l (show 0 ≤ ⌊h0⌋ by omega) (by omega) (by omega))
    have rb := hf _ (nthSmallest_mem l (show 0 ≤ ⌊h0⌋ + 1 by omega) (by omega) (by omega))
    have hab := nthSmallest_mono l (show 0 ≤ ⌊h0⌋ by omega) (show ⌊h0⌋ ≤ ⌊h0⌋ + 1 by omega) (by omega) (by omega)
    have r1 : rnd 1 = 1 := by
      have := hr.nat 1 (by omega)
      simpa using this
    obtain ⟨g, hg, -, -, -, -, hb⟩ := C65_rounded hr.mono hr.zero r1 _ _ ra rb
    have t0 : 0 ≤ rnd (h0 - ⌊h0⌋) := by
      rw [← hr.zero]; exact hr.mono _ _ (by linarith [Int.floor_le h0])
    have t1 : rnd (h0 - ⌊h0⌋) ≤ 1 := by
      rw [← r1]; exact hr.mono _ _ (by linarith [Int.lt_floor_add_one h0])
    have hgv := hg (rnd (h0 - ⌊h0⌋))
    rw [lerpF_fin] at hgv
    have hgv' := RFl.fin_inj.1 hgv
    obtain ⟨g0, g1⟩ := hb _ t0 t1
    rw [min_eq_left hab] at g0
    rw [max_eq_right hab] at g1
    rw [hgv']
    exact ⟨lo.trans g0, g1.trans (nthSmallest_mono l (by omega) c2 c0 (by omega))⟩

/-- C109, quantile: LOWER, HIGHER and NEAREST return the element below, above or nearest to the computed
position, whatever the tolerance. -/
theorem C109_quantile_element (nth : NthImpl ℚ) (tol : ℚ) (ht : 0 ≤ tol) (l : List ℚ) (q : ℚ)
    (hq0 : 0 ≤ q) (hq1 : q ≤ 1) (hl : 2 ≤ l.length) (hr : IndexRounding rnd (l.length - 1)) :
    (quantileF nth tol .lower l q : Res (RFl rnd)) = .ok (RFl.fin (nthSmallest l ⌊position rnd l q⌋)) ∧
    (quantileF nth tol .higher l q : Res (RFl rnd)) = .ok (RFl.fin (nthSmallest l ⌈position rnd l q⌉)) ∧
    (quantileF nth tol .nearest l q : Res (RFl rnd)) =
      .ok (RFl.fin (nthSmallest l (nearbyint (position rnd l q)))) := by
  have key : ∀ (m : QInterp) (z : ℤ), qInterpIndexF rnd m (position rnd l q) = z →
      (quantileF nth tol m l q : Res (RFl rnd)) = .ok (RFl.fin (nthSmallest l z)) := by
    intro m z hz
    rw [quantileF_core nth tol ht m l q hq0 hq1 hl hr z hz.symm, nearbyint_int, if_pos, Int.floor_intCast]
    exact C26_refl hr.zero (fun x hx => by rw [← hr.zero]; exact hr.mono _ _ hx) tol ht _
  exact ⟨key _ _ rfl, key _ _ rfl, key _ _ rfl⟩

/-- C109, quantile: the whole range is reached at the ends. -/
theorem C109_quantile_ends (nth : NthImpl ℚ) (tol : ℚ) (ht : 0 ≤ tol) (m : QInterp) (l : List ℚ)
    (hl : 2 ≤ l.length) (hr : IndexRounding rnd (l.length - 1)) (hf : ∀ x ∈ l, rnd x = x) :
    (quantileF nth tol m l 0 : Res (RFl rnd)) = .ok (RFl.fin (nthSmallest l 0)) ∧
    (quantileF nth tol m l 1 : Res (RFl rnd)) = .ok (RFl.fin (nthSmallest l ((l.length - 1 : ℕ) : ℤ))) := by
  have p0 : position rnd l 0 = ((0 : ℤ) : ℚ) := by unfold position; rw [zero_mul, hr.zero]; norm_num
  have p1 : position rnd l 1 = (((l.length - 1 : ℕ) : ℤ) : ℚ) := by
    unfold position; rw [one_mul, hr.nat _ (by omega)]; norm_num
  obtain ⟨x, e, h1, h2⟩ := C109_quantile_between nth tol ht m l 0 le_rfl (by norm_num) hl hr hf
  obtain ⟨y, e', h3, h4⟩ := C109_quantile_between nth tol ht m l 1 (by norm_num) le_rfl hl hr hf
  rw [p0, Int.floor_intCast] at h1
  rw [p0, Int.ceil_intCast] at h2
  rw [p1, Int.floor_intCast] at h3
  rw [p1, Int.ceil_intCast] at h4
  rw [e, e', le_antisymm h2 h1, le_antisymm h4 h3]
  exact ⟨rfl, rfl⟩

end

/-! ### Linear interpolation on `double` -/

theorem nearbyint_err (h : ℚ) : |h - nearbyint h| ≤ 1 / 2 := by
  unfold nearbyint
  have h1 := Int.floor_le h
  have h2 := Int.lt_floor_add_one h
  simp only
  split_ifs with a b c <;> rw [abs_le] <;> push_cast <;> constructor <;> linarith

theorem nearbyint_near (h : ℚ) (z : ℤ) (hz : |h - z| < 1 / 2) : nearbyint h = z := by
  have h1 := abs_le.1 (nearbyint_err h)
  have h2 := abs_lt.1 hz
  have a : ((nearbyint h - z : ℤ) : ℚ) < 1 := by push_cast; linarith
  have b : (-1 : ℚ) < ((nearbyint h - z : ℤ) : ℚ) := by push_cast; linarith
  have a' : nearbyint h - z < 1 := by exact_mod_cast a
  have b' : -1 < nearbyint h - z := by exact_mod_cast b
  omega

/-- A `double` just below a power of two. -/
def Spec.JustBelow (h : ℚ) : Prop := ∃ k : ℕ, h = (2 : ℚ) ^ k - (2 : ℚ) ^ ((k : ℤ) - 53)

theorem rnd64_form {h : ℚ} (h0 : 0 < h) (hr : rnd64 h = h) :
    ∃ n : ℤ, h = n * (2 : ℚ) ^ (expo h - 52) := by
  have e : rnd64 h = (nearestEven (h * (2 : ℚ) ^ (52 - expo h)) : ℚ) / (2 : ℚ) ^ (52 - expo h) := by
    unfold rnd64
    rw [if_neg h0.ne']
  refine ⟨nearestEven (h * (2 : ℚ) ^ (52 - expo h)), ?_⟩
  have e' := hr.symm.trans e
  rw [div_eq_mul_inv, ← zpow_neg, neg_sub] at e'
  exact e'

/-- Which positions `almost_equal` takes for integers. -/
theorem snap64 {h : ℚ} (h0 : 0 ≤ h) (hb : h < 2 ^ 51) (hr : rnd64 h = h) (hni : ∀ z : ℤ, h ≠ z) :
    almostEqual tol64 (RFl.fin (nearbyint h : ℚ) : F64) (RFl.fin h) = true ↔
      h ≤ 1 / 2 ^ 53 ∨ JustBelow h := by
  have hne : h ≠ 0 := by have := hni 0; simpa using this
  have hp : 0 < h := lt_of_le_of_ne h0 hne.symm
  have herr := abs_le.1 (nearbyint_err h)
  have two1 : (1 : ℚ) ≤ 2 := by norm_num
  have jb : JustBelow h → almostEqual tol64 (RFl.fin (nearbyint h : ℚ) : F64) (RFl.fin h) = true := by
    rintro ⟨k, hk⟩
    have hk51 : k ≤ 51 := by
      by_contra hc
      have h1 : (2 : ℚ) ^ (52 : ℕ) ≤ (2 : ℚ) ^ k := pow_le_pow_right₀ two1 (by omega)
      have h2 : (2 : ℚ) ^ ((k : ℤ) - 53) = (2 : ℚ) ^ k / 2 ^ 53 := by
        rw [zpow_sub₀ two_ne_zero, zpow_natCast]; norm_num
      rw [h2] at hk
      norm_num at h1 hb hk
      linarith
    have hs : (2 : ℚ) ^ ((k : ℤ) - 53) ≤ 1 / 4 := by
      have := zpow_le_zpow_right₀ two1 (show (k : ℤ) - 53 ≤ -2 by omega)
      norm_num at this ⊢
      exact this
    have hs0 : (0 : ℚ) < (2 : ℚ) ^ ((k : ℤ) - 53) := by positivity
    have hz : nearbyint h = 2 ^ k := by
      apply nearbyint_near
      rw [hk]; push_cast
      rw [abs_lt]; constructor <;> linarith
    have hz' : ((nearbyint h : ℤ) : ℚ) = (2 : ℚ) ^ k := by rw [hz]; push_cast; rfl
    have hk1 : (1 : ℚ) ≤ (2 : ℚ) ^ k := one_le_pow₀ two1
    rw [C26_finite, hz']
    right
    have hmax : max |(2 : ℚ) ^ k| |h| = (2 : ℚ) ^ k := by
      rw [abs_of_pos (by positivity), abs_of_pos hp, max_eq_left]
      rw [hk]; linarith
    refine ⟨by positivity, hne, ?_, ?_⟩
    · rw [hmax]; unfold tol64; refine le_trans ?_ hk1; norm_num
    · rw [hmax, show (2 : ℚ) ^ k - h = (2 : ℚ) ^ ((k : ℤ) - 53) by rw [hk]; ring]
      have e1 : tol64 * (2 : ℚ) ^ k = (2 : ℚ) ^ ((k : ℤ) - 53) := by
        unfold tol64
        rw [zpow_sub₀ two_ne_zero, zpow_natCast]; norm_num; ring
      rw [e1]
      have e2 := rnd64_exact 1 ((k : ℤ) - 53) (by norm_num)
      rw [show ((1 : ℤ) : ℚ) * (2 : ℚ) ^ ((k : ℤ) - 53) = (2 : ℚ) ^ ((k : ℤ) - 53) by simp] at e2
      rw [e2, abs_of_pos hs0]
  constructor
  · intro hal
    rw [C26_finite] at hal
    rcases eq_or_ne (nearbyint h) 0 with hz | hz
    · left
      rw [hz] at hal
      rcases hal with ⟨-, h1⟩ | ⟨h1, -⟩
      · rw [Int.cast_zero, zero_sub, rnd64_neg, hr, abs_neg, abs_of_pos hp] at h1
        exact h1
      · simp at h1
    · right
      have hz1 : 1 ≤ nearbyint h := by
        have h1 : (0 : ℤ) ≤ ⌊h⌋ := Int.floor_nonneg.mpr h0
        have := (nearbyint_bounds h).1
        omega
      set z := nearbyint h with hzd
      have hz1' : (1 : ℚ) ≤ z := by exact_mod_cast hz1
      have hh : (1 : ℚ) / 2 ≤ h := by linarith
      obtain ⟨xa, xb⟩ := expo_spec hne
      rw [abs_of_pos hp] at xa xb
      obtain ⟨n, hn⟩ := rnd64_form hp hr
      set e := expo h with he
      have e1 : -1 ≤ e := by
        by_contra hc
        have := zpow_le_zpow_right₀ two1 (show e + 1 ≤ -1 by omega)
        norm_num at this
        linarith
      have e2 : e < 51 := by
        by_contra hc
        have := zpow_le_zpow_right₀ two1 (show (51 : ℤ) ≤ e by omega)
        norm_num at this hb
        linarith
      -- the difference in units
      obtain ⟨k, hk⟩ := Int.eq_ofNat_of_zero_le (show 0 ≤ 52 - e by omega)
      have hzu : (z : ℚ) = ((z * 2 ^ k : ℤ) : ℚ) * (2 : ℚ) ^ (e - 52) := by
        push_cast
        rw [mul_assoc, ← zpow_natCast, ← zpow_add₀ two_ne_zero, show ((k : ℕ) : ℤ) + (e - 52) = 0 by omega, zpow_zero,
          mul_one]
      have hg0 : (0 : ℚ) < (2 : ℚ) ^ (e - 52) := by positivity
      obtain ⟨j, hj⟩ : ∃ j : ℤ, j = z * 2 ^ k - n := ⟨_, rfl⟩
      have hd : (z : ℚ) - h = j * (2 : ℚ) ^ (e - 52) := by
        rw [hj]; push_cast
        rw [sub_mul, ← hn]
        push_cast at hzu
        rw [← hzu]
      have hg52 : (2 : ℚ) ^ (e + 1) = 2 ^ 53 * (2 : ℚ) ^ (e - 52) := by
        rw [← zpow_natCast, ← zpow_add₀ two_ne_zero]; congr 1; push_cast; ring
      have hjb : |j| < 2 ^ 53 := by
        have h1 : |(j : ℚ) * (2 : ℚ) ^ (e - 52)| ≤ 1 / 2 := by
          rw [← hd, abs_le]; constructor <;> linarith
        rw [abs_mul, abs_of_pos hg0] at h1
        have h2 : |(j : ℚ)| * (2 : ℚ) ^ (e - 52) < 2 ^ 53 * (2 : ℚ) ^ (e - 52) := by
          rw [← hg52]; linarith
        have h3 := lt_of_mul_lt_mul_right h2 hg0.le
        exact_mod_cast h3
      have hrd : rnd64 ((z : ℚ) - h) = (z : ℚ) - h := by rw [hd]; exact rnd64_exact j _ hjb
      rcases hal with ⟨h1, -⟩ | ⟨-, -, -, h1⟩
      · exfalso
        rcases h1 with h1 | h1 | h1
        · linarith
        · exact hne h1
        · have : |(z : ℚ)| ≤ max |(z : ℚ)| |h| := le_max_left _ _
          rw [abs_of_pos (by linarith)] at this
          unfold tol64 at h1
          norm_num at h1
          rcases h1 with ⟨h2, -⟩
          rw [abs_of_pos (by linarith)] at h2
          linarith
      · rw [hrd] at h1
        -- z at most the next power of two
        obtain ⟨K, hK⟩ := Int.eq_ofNat_of_zero_le (show 0 ≤ e + 1 by omega)
        have hzK : z ≤ 2 ^ K := by
          have h2 := (nearbyint_bounds h).2
          have h3 : ⌈h⌉ ≤ ((2 ^ K : ℕ) : ℤ) := by
            apply Int.ceil_le.2
            push_cast
            rw [hK] at xb
            exact_mod_cast xb.le
          push_cast at h3
          omega
        have hzK' : (z : ℚ) ≤ (2 : ℚ) ^ (e + 1) := by
          rw [hK]
          have : (z : ℚ) ≤ ((2 ^ K : ℤ) : ℚ) := by exact_mod_cast hzK
          push_cast at this
          exact_mod_cast this
        have hmaxle : max |(z : ℚ)| |h| ≤ (2 : ℚ) ^ (e + 1) := by
          rw [abs_of_pos (by linarith), abs_of_pos hp]
          exact max_le hzK' xb.le
        have hmr : rnd64 (tol64 * max |(z : ℚ)| |h|) ≤ (2 : ℚ) ^ (e - 52) := by
          have h2 : tol64 * max |(z : ℚ)| |h| ≤ (2 : ℚ) ^ (e - 52) := by
            unfold tol64
            rw [hg52] at hmaxle
            rw [div_mul_eq_mul_div, one_mul, div_le_iff₀ (by positivity)]
            linarith
          have h3 := rnd64_mono h2
          have h4 := rnd64_exact 1 (e - 52) (by norm_num)
          rw [show ((1 : ℤ) : ℚ) * (2 : ℚ) ^ (e - 52) = (2 : ℚ) ^ (e - 52) by simp] at h4
          rwa [h4] at h3
        have hj0 : j ≠ 0 := by
          intro hj0
          rw [hj0, Int.cast_zero, zero_mul, sub_eq_zero] at hd
          exact hni z hd.symm
        rw [hd, abs_mul, abs_of_pos hg0] at h1
        have hj1 : |(j : ℚ)| ≤ 1 := by
          by_contra hc
          push Not at hc
          have : (2 : ℚ) ^ (e - 52) < |(j : ℚ)| * (2 : ℚ) ^ (e - 52) := by nlinarith
          linarith
        have hj1' : |j| ≤ 1 := by exact_mod_cast hj1
        -- the bound is attained only at the power of two itself
        have hcmp : (2 : ℚ) ^ (e - 52) ≤ rnd64 (tol64 * max |(z : ℚ)| |h|) := by
          have : |(j : ℚ)| = 1 := by
            have : |j| = 1 := by have := abs_pos.2 hj0; omega
            exact_mod_cast this
          rw [this, one_mul] at h1
          exact h1
        have hmx : rnd64 (max |(z : ℚ)| |h|) = max |(z : ℚ)| |h| := by
          rw [abs_of_pos (show (0 : ℚ) < z by linarith), abs_of_pos hp]
          rcases max_choice (z : ℚ) h with hh | hh <;> rw [hh]
          · have h5 : |z * 2 ^ k| < 2 ^ 53 ∨ (z : ℚ) = (2 : ℚ) ^ (e + 1) := by
              rcases lt_or_eq_of_le hzK' with h6 | h6
              · left
                rw [hzu, hg52] at h6
                have h7 := lt_of_mul_lt_mul_right h6 hg0.le
                have h8 : z * 2 ^ k < 2 ^ 53 := by exact_mod_cast h7
                rw [abs_of_nonneg (by positivity)]
                exact h8
              · exact Or.inr h6
            rcases h5 with h5 | h5
            · conv_lhs => rw [hzu]
              rw [rnd64_exact _ _ h5, ← hzu]
            · rw [h5]
              have h4 := rnd64_exact 1 (e + 1) (by norm_num)
              rwa [show ((1 : ℤ) : ℚ) * (2 : ℚ) ^ (e + 1) = (2 : ℚ) ^ (e + 1) by simp] at h4
          · exact hr
        have htm : rnd64 (tol64 * max |(z : ℚ)| |h|) = tol64 * max |(z : ℚ)| |h| := by
          have h4 := rnd64_pow2 (-53) (max |(z : ℚ)| |h|)
          rw [hmx] at h4
          have h5 : (2 : ℚ) ^ (-53 : ℤ) = tol64 := by unfold tol64; norm_num
          rwa [h5] at h4
        rw [htm] at hcmp
        have hmaxeq : max |(z : ℚ)| |h| = (2 : ℚ) ^ (e + 1) := by
          refine le_antisymm hmaxle ?_
          rw [hg52]
          unfold tol64 at hcmp
          rw [div_mul_eq_mul_div, one_mul, le_div_iff₀ (by positivity)] at hcmp
          linarith
        rw [abs_of_pos (show (0 : ℚ) < z by linarith), abs_of_pos hp] at hmaxeq
        have hzeq : (z : ℚ) = (2 : ℚ) ^ (e + 1) := by
          rcases max_choice (z : ℚ) h with hh | hh
          · rw [hh] at hmaxeq; exact hmaxeq
          · rw [hh] at hmaxeq; linarith
        have hjpos : j = 1 := by
          have h5 : (0 : ℚ) < j * (2 : ℚ) ^ (e - 52) := by rw [← hd, hzeq]; linarith
          have h6 : (0 : ℚ) < j := by
            by_contra hc
            push Not at hc
            nlinarith
          have h7 : 0 < j := by exact_mod_cast h6
          have := abs_of_pos h7
          omega
        refine ⟨K, ?_⟩
        rw [hjpos, hzeq, hK] at hd
        rw [show (K : ℤ) - 53 = e - 52 by omega]
        push_cast at hd
        rw [zpow_natCast, one_mul] at hd
        linarith
  · rintro (h1 | h1)
    · have hz : nearbyint h = 0 := by
        apply nearbyint_near
        rw [Int.cast_zero, sub_zero, abs_of_pos hp]
        refine lt_of_le_of_lt h1 ?_
        norm_num
      rw [C26_finite, hz]
      left
      refine ⟨Or.inl (by simp), ?_⟩
      rw [Int.cast_zero, zero_sub, rnd64_neg, hr, abs_neg, abs_of_pos hp]
      exact h1
    · exact jb h1

theorem indexRounding64 (n : ℕ) (h : n < 2 ^ 52) : IndexRounding rnd64 n :=
  ⟨fun _ _ => rnd64_mono, fun k hk => rnd64_nat k (by omega)⟩

/-- The fractional part of a `double` is a `double`. -/
theorem rnd64_frac {h : ℚ} (h0 : 0 ≤ h) (hr : rnd64 h = h) : rnd64 (h - ⌊h⌋) = h - ⌊h⌋ := by
  rcases eq_or_lt_of_le h0 with h1 | hp
  · rw [← h1]; simp
  obtain ⟨xa, xb⟩ := expo_spec hp.ne'
  rw [abs_of_pos hp] at xa xb
  obtain ⟨n, hn⟩ := rnd64_form hp hr
  have hg0 : (0 : ℚ) < (2 : ℚ) ^ (expo h - 52) := by positivity
  rcases le_or_gt 52 (expo h) with he | he
  · obtain ⟨k, hk⟩ := Int.eq_ofNat_of_zero_le (show 0 ≤ expo h - 52 by omega)
    rw [hk] at hn
    have : h = ((n * 2 ^ k : ℤ) : ℚ) := by rw [hn]; push_cast; rw [zpow_natCast]
    rw [this, Int.floor_intCast]; simp
  · obtain ⟨k, hk⟩ := Int.eq_ofNat_of_zero_le (show 0 ≤ 52 - expo h by omega)
    have hf : ((⌊h⌋ : ℤ) : ℚ) = ((⌊h⌋ * 2 ^ k : ℤ) : ℚ) * (2 : ℚ) ^ (expo h - 52) := by
      push_cast
      rw [mul_assoc, ← zpow_natCast, ← zpow_add₀ two_ne_zero, show ((k : ℕ) : ℤ) + (expo h - 52) = 0 by omega,
        zpow_zero, mul_one]
    have hd : h - ⌊h⌋ = ((n - ⌊h⌋ * 2 ^ k : ℤ) : ℚ) * (2 : ℚ) ^ (expo h - 52) := by
      push_cast at hf ⊢
      rw [sub_mul, ← hf, ← hn]
    have a0 : 0 ≤ h - ⌊h⌋ := by linarith [Int.floor_le h]
    have a1 : h - ⌊h⌋ ≤ h := by
      have : (0 : ℤ) ≤ ⌊h⌋ := Int.floor_nonneg.mpr h0
      have : (0 : ℚ) ≤ ⌊h⌋ := by exact_mod_cast this
      linarith
    have e53 : (2 : ℚ) ^ (expo h + 1) = 2 ^ 53 * (2 : ℚ) ^ (expo h - 52) := by
      rw [← zpow_natCast, ← zpow_add₀ two_ne_zero]; congr 1; push_cast; ring
    have hb : |n - ⌊h⌋ * 2 ^ k| < 2 ^ 53 := by
      have h1 : |((n - ⌊h⌋ * 2 ^ k : ℤ) : ℚ)| * (2 : ℚ) ^ (expo h - 52) < 2 ^ 53 * (2 : ℚ) ^ (expo h - 52) := by
        rw [← abs_of_pos hg0, ← abs_mul, abs_of_pos hg0, ← hd, abs_of_nonneg a0, ← e53]
        linarith
      have h2 := lt_of_mul_lt_mul_right h1 hg0.le
      rw [← Int.cast_abs] at h2
      exact_mod_cast h2
    rw [hd, rnd64_exact _ _ hb]

/-- The piecewise linear curve through the sorted data, interpolated by `lerp`. -/
def Spec.curve (l : List ℚ) (h : ℚ) : ℚ :=
  lerpR rnd64 (nthSmallest l ⌊h⌋) (nthSmallest l ⌈h⌉) (h - ⌊h⌋)

theorem curve_bounds (l : List ℚ) (hl : 0 < l.length) (hf : ∀ x ∈ l, rnd64 x = x) (h : ℚ) (h0 : 0 ≤ h)
    (h1 : h ≤ ((l.length - 1 : ℕ) : ℚ)) :
    nthSmallest l ⌊h⌋ ≤ curve l h ∧ curve l h ≤ nthSmallest l ⌈h⌉ := by
  have f0 : (0 : ℤ) ≤ ⌊h⌋ := Int.floor_nonneg.mpr h0
  have c0 : ⌈h⌉ ≤ ((l.length - 1 : ℕ) : ℤ) := Int.ceil_le.mpr (by simpa using h1)
  have fc := Int.floor_le_ceil h
  have ra := hf _ (nthSmallest_mem l f0 (by omega) hl)
  have rb := hf _ (nthSmallest_mem l (show 0 ≤ ⌈h⌉ by omega) c0 hl)
  have hab := nthSmallest_mono l f0 fc c0 hl
  obtain ⟨g, hg, -, -, -, -, hb⟩ := C65_rounded (rnd := rnd64) (fun _ _ => rnd64_mono) rnd64_zero (by decide +kernel) _ _ ra rb
  have hgv := RFl.fin_inj.1 ((lerpF_fin (rnd := rnd64) _ _ _).symm.trans (hg (h - ⌊h⌋)))
  obtain ⟨g0, g1⟩ := hb (h - ⌊h⌋) (by linarith [Int.floor_le h]) (by linarith [Int.lt_floor_add_one h])
  rw [min_eq_left hab] at g0
  rw [max_eq_right hab] at g1
  unfold curve
  rw [hgv]
  exact ⟨g0, g1⟩

theorem curve_mono (l : List ℚ) (hl : 0 < l.length) (hf : ∀ x ∈ l, rnd64 x = x) (h h' : ℚ) (h0 : 0 ≤ h)
    (hh : h ≤ h') (h1 : h' ≤ ((l.length - 1 : ℕ) : ℚ)) : curve l h ≤ curve l h' := by
  have f0 : (0 : ℤ) ≤ ⌊h⌋ := Int.floor_nonneg.mpr h0
  have c0 : ⌈h'⌉ ≤ ((l.length - 1 : ℕ) : ℤ) := Int.ceil_le.mpr (by simpa using h1)
  have ff := Int.floor_mono hh
  have cc := Int.ceil_mono hh
  have b := curve_bounds l hl hf h h0 (hh.trans h1)
  have b' := curve_bounds l hl hf h' (h0.trans hh) h1
  rcases eq_or_lt_of_le ff with he | he
  · rcases eq_or_ne (h : ℚ) ⌊h⌋ with hz | hz
    · -- at an integer
      have : ⌈h⌉ = ⌊h⌋ := by
        have := congrArg Int.ceil hz
        rwa [Int.ceil_intCast] at this
      rw [this] at b
      rw [← he] at b'
      exact b.2.trans b'.1
    · have hlt : (⌊h⌋ : ℚ) < h := lt_of_le_of_ne (Int.floor_le h) hz.symm
      have e1 : ⌈h⌉ = ⌊h⌋ + 1 := by
        apply le_antisymm (Int.ceil_le_floor_add_one h)
        have : ⌊h⌋ < ⌈h⌉ := Int.lt_ceil.2 hlt
        omega
      have e2 : ⌈h'⌉ = ⌊h⌋ + 1 := by
        have := Int.ceil_le_floor_add_one h'
        omega
      unfold curve
      rw [← he, e1, e2]
      refine lerpR_mono (fun _ _ => rnd64_mono) rnd64_zero _ _ ?_ ?_ _ _ (by linarith)
      · exact hf _ (nthSmallest_mem l f0 (by omega) hl)
      · exact nthSmallest_mono l f0 (by omega) (by omega) hl
  · have h2 : ⌈h⌉ ≤ ⌊h'⌋ := by
      have := Int.ceil_le_floor_add_one h
      omega
    have c2 : ⌊h'⌋ ≤ ⌈h'⌉ := Int.floor_le_ceil h'
    have := Int.floor_le_ceil h
    exact b.2.trans ((nthSmallest_mono l (by omega) h2 (by omega) hl).trans b'.1)

theorem rnd64_position (l : List ℚ) (q : ℚ) : rnd64 (position rnd64 l q) = position rnd64 l q := rnd64_idem _

theorem curve_int (l : List ℚ) (hl : 0 < l.length) (hf : ∀ x ∈ l, rnd64 x = x) (z : ℤ) (h0 : 0 ≤ z)
    (h1 : z ≤ ((l.length - 1 : ℕ) : ℤ)) : curve l z = nthSmallest l z := by
  obtain ⟨a, b⟩ := curve_bounds l hl hf z (by exact_mod_cast h0) (by exact_mod_cast h1)
  rw [Int.floor_intCast] at a
  rw [Int.ceil_intCast] at b
  exact le_antisymm b a

/-- C109, quantile of `double` data with linear interpolation: the piecewise linear curve through the sorted data
at the computed position, except where `almost_equal` takes a position for an integer: positions up to 2^-53
count as 0, and a position just below a power of two is cut to the integer below. -/
theorem C109_quantile_linear (nth : NthImpl ℚ) (l : List ℚ) (q : ℚ) (hq0 : 0 ≤ q) (hq1 : q ≤ 1)
    (hl : 2 ≤ l.length) (hn : l.length ≤ 2 ^ 51) (hf : ∀ x ∈ l, rnd64 x = x) :
    ∃ x, (quantileF nth tol64 .linear l q : Res F64) = .ok (RFl.fin x) ∧
      (position rnd64 l q ≤ 1 / 2 ^ 53 → x = nthSmallest l 0) ∧
      (JustBelow (position rnd64 l q) → x = nthSmallest l ⌊position rnd64 l q⌋) ∧
      (1 / 2 ^ 53 < position rnd64 l q → ¬ JustBelow (position rnd64 l q) → x = curve l (position rnd64 l q)) := by
  have hr := indexRounding64 (l.length - 1) (by omega)
  obtain ⟨p0, p1⟩ := position_bounds l hr q hq0 hq1
  have pr := rnd64_position l q
  rw [quantileF_core nth tol64 (by unfold tol64; positivity) .linear l q hq0 hq1 hl hr _ rfl]
  have hidx : qInterpIndexF rnd64 .linear (position rnd64 l q) = position rnd64 l q := rfl
  rw [hidx]
  set h := position rnd64 l q with hh
  have hb : h < 2 ^ 51 := by
    refine lt_of_le_of_lt p1 ?_
    have : ((l.length - 1 : ℕ) : ℚ) < ((2 ^ 51 : ℕ) : ℚ) := by exact_mod_cast (show l.length - 1 < 2 ^ 51 by omega)
    push_cast at this
    exact this
  have small : h ≤ 1 / 2 ^ 53 → ⌊h⌋ = 0 := fun h1 =>
    Int.floor_eq_zero_iff.2 ⟨p0, lt_of_le_of_lt h1 (by norm_num)⟩
  by_cases hint : ∃ z : ℤ, h = z
  · obtain ⟨z, hz⟩ := hint
    refine ⟨_, rfl, ?_⟩
    have hz0 : 0 ≤ z := by rw [hz] at p0; exact_mod_cast p0
    have hz1 : z ≤ ((l.length - 1 : ℕ) : ℤ) := by rw [hz] at p1; exact_mod_cast p1
    rw [hz, nearbyint_int, if_pos (C26_refl rnd64_zero (fun x hx => by rw [← rnd64_zero]; exact rnd64_mono hx)
      tol64 (by unfold tol64; positivity) _)]
    refine ⟨fun h1 => ?_, fun _ => rfl, fun _ _ => ?_⟩
    · rw [← hz, small (by rw [hz]; exact h1)]
    · rw [curve_int l (by omega) hf z hz0 hz1, Int.floor_intCast]
  · have hni : ∀ z : ℤ, h ≠ z := fun z hz => hint ⟨z, hz⟩
    refine ⟨_, rfl, fun h1 => ?_, fun h1 => ?_, fun h1 h2 => ?_⟩
    · rw [if_pos ((snap64 p0 hb pr hni).2 (Or.inl h1)), small h1]
    · rw [if_pos ((snap64 p0 hb pr hni).2 (Or.inr h1))]
    · rw [if_neg fun hc => ?_]
      · have hlt : (⌊h⌋ : ℚ) < h := lt_of_le_of_ne (Int.floor_le h) (hni _).symm
        have e1 : ⌈h⌉ = ⌊h⌋ + 1 := by
          apply le_antisymm (Int.ceil_le_floor_add_one h)
          have : ⌊h⌋ < ⌈h⌉ := Int.lt_ceil.2 hlt
          omega
        unfold curve
        rw [e1, rnd64_frac p0 pr]
      · rcases (snap64 p0 hb pr hni).1 hc with h3 | h3
        · linarith
        · exact h2 h3

/-- C109, quantile: for `double` data, raising the probability does not lower the linear quantile, unless the
computed position of the larger one falls just below a power of two (see `C109_quantile_mono_false`). -/
theorem C109_quantile_mono_partial (nth : NthImpl ℚ) (l : List ℚ) (q q' : ℚ) (hq0 : 0 ≤ q) (hqq : q ≤ q')
    (hq1 : q' ≤ 1) (hl : 2 ≤ l.length) (hn : l.length ≤ 2 ^ 51) (hf : ∀ x ∈ l, rnd64 x = x)
    (hj : ¬ JustBelow (position rnd64 l q')) :
    ∃ x x', (quantileF nth tol64 .linear l q : Res F64) = .ok (RFl.fin x) ∧
      (quantileF nth tol64 .linear l q' : Res F64) = .ok (RFl.fin x') ∧ x ≤ x' := by
  have hr := indexRounding64 (l.length - 1) (by omega)
  obtain ⟨p0, -⟩ := position_bounds l hr q hq0 (hqq.trans hq1)
  obtain ⟨-, p1⟩ := position_bounds l hr q' (hq0.trans hqq) hq1
  have hp : position rnd64 l q ≤ position rnd64 l q' :=
    rnd64_mono (mul_le_mul_of_nonneg_right hqq (Nat.cast_nonneg _))
  obtain ⟨x, e, a1, a2, a3⟩ := C109_quantile_linear nth l q hq0 (hqq.trans hq1) hl hn hf
  obtain ⟨x', e', b1, b2, b3⟩ := C109_quantile_linear nth l q' (hq0.trans hqq) hq1 hl hn hf
  refine ⟨x, x', e, e', ?_⟩
  have bd := curve_bounds l (by omega) hf _ p0 (hp.trans p1)
  have hxc : x ≤ curve l (position rnd64 l q) := by
    by_cases h1 : position rnd64 l q ≤ 1 / 2 ^ 53
    · rw [a1 h1]
      have : ⌊position rnd64 l q⌋ = 0 := Int.floor_eq_zero_iff.2 ⟨p0, lt_of_le_of_lt h1 (by norm_num)⟩
      rw [← this]
      exact bd.1
    · by_cases h2 : JustBelow (position rnd64 l q)
      · rw [a2 h2]; exact bd.1
      · rw [a3 (not_le.1 h1) h2]
  by_cases h1 : position rnd64 l q' ≤ 1 / 2 ^ 53
  · rw [a1 (hp.trans h1), b1 h1]
  · rw [b3 (not_le.1 h1) hj]
    exact hxc.trans (curve_mono l (by omega) hf _ _ p0 hp p1)

/-- C109, quantile: the linear quantile of `{0, 0, 1}` is 3/4 at q = 7/8 and 0 at the larger q = 1 - 2^-53 (the
`double` just below 1), whatever the selection algorithm. -/
theorem C109_quantile_mono_false (nth : NthImpl ℚ) :
    (quantileF nth tol64 .linear [0, 0, 1] (7 / 8) : Res F64) = .ok (RFl.fin (3 / 4)) ∧
    (quantileF nth tol64 .linear [0, 0, 1] (1 - 1 / 2 ^ 53) : Res F64) = .ok (RFl.fin 0) := by
  have hr := indexRounding64 2 (by norm_num)
  have p1 : (7 / 4 : ℚ) = qInterpIndexF rnd64 .linear (position rnd64 [0, 0, 1] (7 / 8)) := by decide +kernel
  have p2 : (2 - 1 / 2 ^ 52 : ℚ) = qInterpIndexF rnd64 .linear (position rnd64 [0, 0, 1] (1 - 1 / 2 ^ 53)) := by
    decide +kernel
  have s : sorted ([0, 0, 1] : List ℚ) = [0, 0, 1] := by decide +kernel
  constructor
  · refine (quantileF_core nth tol64 (by unfold tol64; positivity) .linear [0, 0, 1] (7 / 8) (by norm_num)
      (by norm_num) (by simp) hr _ p1).trans (congrArg (fun v : ℚ => Res.ok (RFl.fin v)) ?_)
    unfold nthSmallest
    rw [s]
    decide +kernel
  · refine (quantileF_core nth tol64 (by unfold tol64; positivity) .linear [0, 0, 1] (1 - 1 / 2 ^ 53) (by norm_num)
      (by norm_num) (by simp) hr _ p2).trans (congrArg (fun v : ℚ => Res.ok (RFl.fin v)) ?_)
    unfold nthSmallest
    rw [s]
    decide +kernel

/-- C109, percentile: for every percentage from 0 to 100 the call is defined, the result lies between the smallest
and the largest element, and these are the results at 0 and 100. -/
theorem C109_percentile (nth : NthImpl ℚ) (m : QInterp) (l : List ℚ) (p : ℚ) (hp0 : 0 ≤ p) (hp1 : p ≤ 100)
    (hl : 2 ≤ l.length) (hn : l.length ≤ 2 ^ 51) (hf : ∀ x ∈ l, rnd64 x = x) :
    (∃ x, (percentileF nth tol64 m l p : Res F64) = .ok (RFl.fin x) ∧
      nthSmallest l 0 ≤ x ∧ x ≤ nthSmallest l ((l.length - 1 : ℕ) : ℤ)) ∧
    (percentileF nth tol64 m l 0 : Res F64) = .ok (RFl.fin (nthSmallest l 0)) ∧
    (percentileF nth tol64 m l 100 : Res F64) = .ok (RFl.fin (nthSmallest l ((l.length - 1 : ℕ) : ℤ))) := by
  have hr := indexRounding64 (l.length - 1) (by omega)
  have ht : 0 ≤ tol64 := by unfold tol64; positivity
  have q0 : 0 ≤ rnd64 (p / 100) := by rw [← rnd64_zero]; exact rnd64_mono (by positivity)
  have q1 : rnd64 (p / 100) ≤ 1 := by
    have h1 : rnd64 1 = 1 := by decide +kernel
    rw [← h1]; exact rnd64_mono (by rw [div_le_one (by norm_num)]; exact hp1)
  obtain ⟨e0, e1⟩ := C109_quantile_ends nth tol64 ht m l hl hr hf
  refine ⟨?_, ?_, ?_⟩
  · obtain ⟨x, e, a, b⟩ := C109_quantile_between nth tol64 ht m l _ q0 q1 hl hr hf
    obtain ⟨b0, b1⟩ := position_bounds l hr _ q0 q1
    have f0 := Int.floor_nonneg.mpr b0
    have c1 : ⌈position rnd64 l (rnd64 (p / 100))⌉ ≤ ((l.length - 1 : ℕ) : ℤ) := Int.ceil_le.mpr (by simpa using b1)
    have fc := Int.floor_le_ceil (position rnd64 l (rnd64 (p / 100)))
    exact ⟨x, e, (nthSmallest_mono l le_rfl f0 (by omega) (by omega)).trans a,
      b.trans (nthSmallest_mono l (by omega) c1 le_rfl (by omega))⟩
  · unfold percentileF
    rw [show rnd64 ((0 : ℚ) / 100) = 0 by decide +kernel, e0]
  · unfold percentileF
    rw [show rnd64 ((100 : ℚ) / 100) = 1 by decide +kernel, e1]

/-! ### `float` -/

theorem rnd32_eq (x : ℚ) : rnd32 x = binary32.rnd x := rfl

theorem indexRounding32 (n : ℕ) (h : n < 2 ^ 23) : IndexRounding rnd32 n := by
  refine ⟨fun _ _ h => binary32.rnd_mono h, fun k hk => ?_⟩
  rw [rnd32_eq]
  exact binary32.rnd_nat k (by show k < 2 ^ 24; omega) (by decide)

/-- C109, quantile of `float` data with a `float` probability: for every array of 2^24 + 4 elements, every mode and
every selection algorithm, `quantile(a, 1.0f)` dereferences the end of the array, because `static_cast<float>(size - 1)`
rounds up. -/
theorem C109_float_ub (nth : NthImpl ℚ) (tol : ℚ) (ht : 0 ≤ tol) (m : QInterp) (l : List ℚ)
    (hl : l.length = 2 ^ 24 + 4) : (quantileF nth tol m l 1 : Res F32) = .ub := by
  have hp : rnd32 (1 * rnd32 ((2 ^ 24 + 4 - 1 : ℕ) : ℚ)) = ((2 ^ 24 + 4 : ℤ) : ℚ) := by decide +kernel
  have hm : qInterpIndexF rnd32 m ((2 ^ 24 + 4 : ℤ) : ℚ) = ((2 ^ 24 + 4 : ℤ) : ℚ) := by
    cases m with
    | lower => simp only [qInterpIndexF, Int.floor_intCast]
    | higher => simp only [qInterpIndexF, Int.ceil_intCast]
    | nearest => simp only [qInterpIndexF, nearbyint_int]
    | linear => rfl
    | midpoint =>
      simp only [qInterpIndexF, Int.floor_intCast, Int.ceil_intCast]
      decide +kernel
  unfold quantileF
  have hq : decide ((0 : ℚ) ≤ 1 ∧ (1 : ℚ) ≤ 1) = true := by decide +kernel
  simp only [hq, require_true, Res.bind_ok]
  rcases l with _ | ⟨x, _ | ⟨y, l⟩⟩
  · simp at hl
  · simp at hl
  · simp only []
    set L := x :: y :: l with hL
    rw [hl, hp, hm, nearbyint_int]
    have z32 : rnd32 0 = 0 := by decide +kernel
    rw [if_pos]
    · have ht : (truncK ((2 ^ 24 + 4 : ℤ) : ℚ)).toNat = 2 ^ 24 + 4 := by decide +kernel
      rw [ht, Nat.min_self]
      have hlen : (nth.run (2 ^ 24 + 4) L).length = 2 ^ 24 + 4 := by
        rw [(nth.correct (2 ^ 24 + 4) L).1.length_eq, hl]
      unfold rd
      rw [List.getElem?_eq_none (by omega)]
      rfl
    · exact C26_refl z32 (fun _ h => binary32.rnd_nonneg h) tol ht _

-- the hypotheses of the median theorems are met by non-trivial data
example : (∀ x ∈ ([3, 1 / 2, -7, 2] : List ℚ), Finite binary64 x) ∧
    medianF binary64 (sortNth ℚ) [3, 1 / 2, -7, 2] = .ok (IFl.fin (5 / 4)) := by
  constructor
  · unfold Spec.Finite; decide +kernel
  · decide +kernel

-- those of the quantile theorems, with `double` and with `float` probabilities
example : IndexRounding rnd64 4 ∧ IndexRounding rnd32 4 ∧ (∀ x ∈ ([3, 1 / 2, -7, 2, 9] : List ℚ), rnd64 x = x) ∧
    position rnd64 [3, 1 / 2, -7, 2, 9] (3 / 8) = 3 / 2 ∧ ¬ JustBelow (3 / 2 : ℚ) := by
  refine ⟨indexRounding64 _ (by norm_num), indexRounding32 _ (by norm_num), by decide +kernel, by decide +kernel, ?_⟩
  rintro ⟨k, hk⟩
  rcases k with _ | _ | k
  · norm_num at hk
  · norm_num at hk
  · have h1 : (2 : ℚ) ^ ((k + 1 + 1 : ℕ) : ℤ) = 2 ^ (k + 1 + 1) := zpow_natCast _ _
    rw [zpow_sub₀ two_ne_zero, h1] at hk
    have h2 : (1 : ℚ) ≤ 2 ^ k := one_le_pow₀ (by norm_num)
    have h3 : (2 : ℚ) ^ (k + 1 + 1) = 4 * 2 ^ k := by ring
    rw [h3] at hk
    norm_num at hk
    linarith

-- and the array of `C109_float_ub`
example : (List.replicate (2 ^ 24 + 4) (1 : ℚ)).length = 2 ^ 24 + 4 := List.length_replicate

end SciCpp
