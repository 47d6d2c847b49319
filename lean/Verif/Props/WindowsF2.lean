import Verif.Model.WindowsF2
import Verif.Proofs.Rel
import Verif.Props.WindowsF
import Mathlib.Analysis.SpecialFunctions.Trigonometric.Sinc
import Mathlib.Analysis.SpecialFunctions.Integrals.Basic
/-
  Property theorems C117: distance of the floating point windows from the textbook windows.
-/
namespace SciCpp
open Spec

variable {rnd : ℚ → ℚ} {u : ℚ}

/-- The number of points of the symmetric window a call builds: a periodic window of `m` points is the beginning of a
symmetric window of `m + 1` points. -/
def Spec.points : Sym → ℕ → ℕ
  | .symmetric, m => m
  | .periodic, m => m + 1

/-- The call `r` succeeds with `m` finite samples, each within `E` of the textbook window. -/
def Spec.WindowWithin (r : Res (List (RFl rnd))) (s : Sym) (m : ℕ) (textbook : ℕ → ℕ → ℝ) (E : ℝ) : Prop :=
  ∃ w, r = .ok w ∧ w.length = m ∧
    ∀ i (hi : i < w.length), ∃ v : ℚ, w[i] = RFl.fin v ∧ |(v : ℝ) - textbook (points s m) i| ≤ E

/-- Half integers up to `M/2` are representable. -/
def Spec.HalvesExact (rnd : ℚ → ℚ) (M : ℕ) : Prop := ∀ z : ℤ, |z| ≤ M → rnd ((z : ℚ) / 2) = (z : ℚ) / 2

theorem Spec.HalvesExact.int {M : ℕ} (h : HalvesExact rnd M) {z : ℤ} (hz : 2 * |z| ≤ M) : rnd z = z := by
  have := h (2 * z) (by rw [abs_mul]; simpa using hz)
  rw [show (((2 * z : ℤ)) : ℚ) / 2 = z by push_cast; ring] at this
  exact this

theorem Spec.HalvesExact.ofInt {M : ℕ} (h : HalvesExact rnd M) {z : ℤ} (hz : 2 * |z| ≤ M) :
    (CppNum.ofInt z : RFl rnd) = RFl.fin z := by rw [RFl.ofInt_def, h.int hz]

theorem Spec.HalvesExact.cast {M : ℕ} (h : HalvesExact rnd M) {n : ℕ} (hn : 2 * n ≤ M) :
    (castK n : RFl rnd) = RFl.fin n := by
  have := h.ofInt (z := n) (by rw [Nat.abs_cast]; exact_mod_cast hn)
  unfold castK
  rw [this]; simp

theorem Spec.HalvesExact.sizeM1 {M : ℕ} (h : HalvesExact rnd M) {n : ℕ} (hn : 2 * n ≤ M) (h1 : 1 ≤ n) :
    (sizeM1K n : RFl rnd) = RFl.fin ((n : ℚ) - 1) := by
  unfold sizeM1K
  rw [if_neg (by omega), h.cast (by omega), Nat.cast_sub h1, Nat.cast_one]

/-- A window is within `E` of a symmetric textbook window if its upper half is. -/
theorem within_of (o : WinOps (RFl rnd)) (ho : o.toN = Fl.toNat) (g : ℕ → ℕ → RFl rnd) (tb : ℕ → ℕ → ℝ) (E : ℝ) (s : Sym)
    (m : ℕ) (d : RFl rnd) {M : ℕ} (hM : HalvesExact rnd M) (hm : 2 * m + 2 ≤ M)
    (hsym : ∀ i, i < points s m → tb (points s m) (points s m - 1 - i) = tb (points s m) i)
    (h : ∀ p, points s m / 2 ≤ p → p < points s m → ∃ v : ℚ, g (points s m) p = RFl.fin v ∧
      |(v : ℝ) - tb (points s m) p| ≤ E) :
    WindowWithin (buildWindow d s m (fun w => fillIdxK o (g w.length) w)) s m tb E := by
  have htoN : ∀ p, p < points s m → o.toN (castK p) = p := by
    intro p hp
    have : points s m ≤ m + 1 := by cases s <;> simp [points]
    rw [hM.cast (by omega), ho]; exact toNat_fin p
  have hflip : ∀ i, i < points s m → tb (points s m) (max i (points s m - 1 - i)) = tb (points s m) i := by
    intro i hi
    rcases le_total (points s m - 1 - i) i with hle | hle
    · rw [max_eq_left hle]
    · rw [max_eq_right hle, hsym i hi]
  have key : ∀ i, i < m → ∃ v : ℚ, g (points s m) (o.toN (castK (max i (points s m - 1 - i)))) = RFl.fin v ∧
      |(v : ℝ) - tb (points s m) i| ≤ E := by
    intro i hi
    have hp : m ≤ points s m := by cases s <;> simp [points]
    obtain ⟨v, v1, v2⟩ := h (max i (points s m - 1 - i)) (by omega) (by omega)
    rw [htoN _ (by omega)]
    rw [hflip i (by omega)] at v2
    exact ⟨v, v1, v2⟩
  cases s with
  | symmetric =>
    refine ⟨_, symmetricFiller_eq _ _ _, by simp, ?_⟩
    intro i hi
    simp only [List.length_map, List.length_range, List.length_replicate] at hi
    simp only [List.length_replicate, List.getElem_map, List.getElem_range]
    exact key i hi
  | periodic =>
    refine ⟨_, by unfold buildWindow fillIdxK; simp only [symmetricFiller_eq, Res.bind_ok]; rfl, by simp, ?_⟩
    intro i hi
    simp only [List.length_take, List.length_map, List.length_range, List.length_replicate] at hi
    simp only [List.length_replicate, List.getElem_take, List.getElem_map, List.getElem_range]
    exact key i (by omega)

theorem points_le (s : Sym) (m : ℕ) : points s m ≤ m + 1 := by cases s <;> simp [points]

theorem WindowWithin.congr {r : Res (List (RFl rnd))} {s : Sym} {m : ℕ} {tb : ℕ → ℕ → ℝ} {E E' : ℝ}
    (h : WindowWithin r s m tb E) (hE : E ≤ E') : WindowWithin r s m tb E' := by
  obtain ⟨w, h1, h2, h3⟩ := h
  exact ⟨w, h1, h2, fun i hi => by
    obtain ⟨v, v1, v2⟩ := h3 i hi
    exact ⟨v, v1, v2.trans hE⟩⟩

section errors
variable (hu : 0 ≤ u) (hu1 : u < 1) (hr : ∀ x, |rnd x - x| ≤ u * |x|)
include hu hr

omit hu hr in
theorem lit_half {M : ℕ} (hM : HalvesExact rnd M) (h : 1 ≤ M) : (RFl.fin (rnd 0.5) : RFl rnd) = RFl.fin (1 / 2) := by
  have := hM 1 (by simpa using h)
  rw [show (0.5 : ℚ) = ((1 : ℤ) : ℚ) / 2 by norm_num, this]; norm_num

/-- C117: `cosine`: every sample is within `ε + ((1+u)^2 - 1)·|π'| + |π' - π|` of the textbook value, where `u` is the relative
rounding error, `ε` the absolute error of `std::sin` and `π'` the constant `pi<T>`. -/
theorem C117_cosine (π' : ℚ) (ε : ℝ) (sin cos exp sqrt bessel : RFl rnd → RFl rnd) (pow : RFl rnd → RFl rnd → RFl rnd)
    (hsin : ∀ x : ℚ, ∃ c : ℚ, sin (RFl.fin x) = RFl.fin c ∧ |(c : ℝ) - Real.sin x| ≤ ε) (s : Sym) (m : ℕ)
    (hM : HalvesExact rnd (4 * m + 8)) (hm : 1 ≤ m) :
    WindowWithin (cosineWinK (roundOps2 rnd (RFl.fin π') sin cos exp sqrt bessel pow) s m) s m cosineWin
      (ε + ((1 + (u : ℝ)) ^ 2 - 1) * |(π' : ℝ)| + |(π' : ℝ) - Real.pi|) := by
  have hN : 1 ≤ points s m := by cases s <;> simp [points, hm]
  have hN' := points_le s m
  obtain ⟨g, hg⟩ : ∃ g : ℕ → ℕ → RFl rnd, g = fun n i => sin (RFl.fin π' / castK n * (castK i + RFl.fin (rnd 0.5))) := ⟨_, rfl⟩
  have hb : cosineWinK (roundOps2 rnd (RFl.fin π') sin cos exp sqrt bessel pow) s m =
      buildWindow 0 s m (fun w => fillIdxK (roundOps rnd (RFl.fin π') cos exp sqrt bessel) (g w.length) w) := by
    unfold cosineWinK
    rw [hg]
    cases s with
    | symmetric => simp only [buildWindow, cosineWinFillerK, List.length_replicate]; rw [if_neg (by omega)]; rfl
    | periodic => simp only [buildWindow, cosineWinFillerK, List.length_replicate]; rw [if_neg (by omega)]; rfl
  rw [hb]
  refine within_of (roundOps rnd (RFl.fin π') cos exp sqrt bessel) rfl g _ _ s m 0 hM (by omega) (fun i hi => ?_)
    (fun p h1 h2 => ?_)
  · unfold cosineWin
    rw [flip_idx hi, ← Real.sin_pi_sub]
    congr 1
    have : ((points s m : ℕ) : ℝ) ≠ 0 := by exact_mod_cast (by omega : points s m ≠ 0)
    field_simp; ring
  · generalize points s m = N at *
    have hNq : (0 : ℚ) < N := by exact_mod_cast hN
    have hpN : ((p : ℚ) + 1 / 2) / N ≤ 1 := by
      rw [div_le_one hNq]
      have : (p : ℚ) + 1 ≤ N := by exact_mod_cast h2
      linarith
    have hp0 : 0 ≤ ((p : ℚ) + 1 / 2) / N := by positivity
    have h3 : (castK p + RFl.fin (rnd 0.5) : RFl rnd) = RFl.fin ((p : ℚ) + 1 / 2) := by
      rw [lit_half hM (by omega), hM.cast (by omega), RFl.add_fin]
      have := hM (2 * p + 1) (by rw [abs_of_nonneg] <;> push_cast <;> omega)
      rw [show (((2 * (p : ℤ) + 1 : ℤ)) : ℚ) / 2 = (p : ℚ) + 1 / 2 by push_cast; ring] at this
      rw [this]
    have a1 : Approx u 1 (π' / N) (|π'| / N) (RFl.fin π' / castK N : RFl rnd) := by
      rw [hM.cast (by omega)]
      exact Approx.div hu hr hNq (Approx.exact hu 0 π' |π'| le_rfl)
    have a2 := Approx.mul hu hr a1 (Approx.exact (rnd := rnd) hu 0 ((p : ℚ) + 1 / 2) ((p : ℚ) + 1 / 2)
      (by rw [abs_of_nonneg (by positivity)]))
    obtain ⟨x, x1, x2, -⟩ := a2
    obtain ⟨c, c1, c2⟩ := hsin x
    refine ⟨c, ?_, ?_⟩
    · rw [hg]; show sin (RFl.fin π' / castK N * (castK p + RFl.fin (rnd 0.5))) = _
      rw [h3, x1, c1]
    · set t : ℚ := ((p : ℚ) + 1 / 2) / N with ht
      have x3 : |x - π' * t| ≤ ((1 + u) ^ 2 - 1) * |π'| := by
        have e1 : π' / N * ((p : ℚ) + 1 / 2) = π' * t := by rw [ht]; ring
        have e2 : |π'| / N * ((p : ℚ) + 1 / 2) = |π'| * t := by rw [ht]; ring
        rw [e1, e2] at x2
        refine x2.trans (mul_le_mul_of_nonneg_left ?_ (by have := one_le_M hu (1 + 0 + 1); linarith))
        exact mul_le_of_le_one_right (abs_nonneg _) hpN
      have x4 : |(x : ℝ) - π' * t| ≤ ((1 + (u : ℝ)) ^ 2 - 1) * |(π' : ℝ)| := by exact_mod_cast x3
      have htR : cosineWin N p = Real.sin (Real.pi * t) := by
        unfold cosineWin; rw [ht]; push_cast; congr 1; ring
      rw [htR]
      have s1 := Real.abs_sin_sub_sin_le (x := (x : ℝ)) (y := Real.pi * t)
      have x5 : |(x : ℝ) - Real.pi * t| ≤ ((1 + (u : ℝ)) ^ 2 - 1) * |(π' : ℝ)| + |(π' : ℝ) - Real.pi| := by
        have : (x : ℝ) - Real.pi * t = (x - π' * t) + (π' - Real.pi) * t := by ring
        rw [this]
        refine (abs_add_le _ _).trans (add_le_add x4 ?_)
        rw [abs_mul]
        refine mul_le_of_le_one_right (abs_nonneg _) ?_
        rw [abs_of_nonneg] <;> [exact_mod_cast hpN; exact_mod_cast hp0]
      have : (c : ℝ) - Real.sin (Real.pi * t) = (c - Real.sin x) + (Real.sin x - Real.sin (Real.pi * t)) := by ring
      rw [this]
      refine (abs_add_le _ _).trans ?_
      linarith

omit hu hr in
/-- The distance of a sample of the upper half to the centre, `x = 2p/(N-1) - 1`. -/
theorem unitX {N p : ℕ} (hN : 2 ≤ N) (h1 : N / 2 ≤ p) (h2 : p < N) :
    (0 : ℚ) ≤ 2 * p / ((N : ℚ) - 1) - 1 ∧ 2 * p / ((N : ℚ) - 1) - 1 ≤ (1 : ℚ) := by
  have hd : (0 : ℚ) < (N : ℚ) - 1 := by
    have : (2 : ℚ) ≤ N := by exact_mod_cast hN
    linarith
  constructor
  · rw [le_sub_iff_add_le, zero_add, le_div_iff₀ hd]
    have : (N : ℚ) ≤ 2 * p + 1 := by exact_mod_cast (by omega : N ≤ 2 * p + 1)
    linarith
  · rw [sub_le_iff_le_add, div_le_iff₀ hd]
    have : (p : ℚ) + 1 ≤ N := by exact_mod_cast h2
    linarith

set_option maxHeartbeats 1000000 in
/-- C117: `bohman`: every sample is within `5((1+u)^6 - 1) + 2(ε + 3((1+u)^4 - 1)·π' + |π' - π|) + |π' - π|` of the textbook
value, where `ε` is the absolute error of `std::sin` and `std::cos`. -/
theorem C117_bohman (π' : ℚ) (hπ : 3 ≤ π') (ε : ℝ) (sin cos exp sqrt bessel : RFl rnd → RFl rnd)
    (pow : RFl rnd → RFl rnd → RFl rnd)
    (hsin : ∀ x : ℚ, ∃ c : ℚ, sin (RFl.fin x) = RFl.fin c ∧ |c| ≤ 1 ∧ |(c : ℝ) - Real.sin x| ≤ ε)
    (hcos : ∀ x : ℚ, ∃ c : ℚ, cos (RFl.fin x) = RFl.fin c ∧ |c| ≤ 1 ∧ |(c : ℝ) - Real.cos x| ≤ ε) (s : Sym) (m : ℕ)
    (hM : HalvesExact rnd (4 * m + 8)) (hm : 2 ≤ points s m) :
    WindowWithin (bohmanK (roundOps2 rnd (RFl.fin π') sin cos exp sqrt bessel pow) s m) s m bohman
      (5 * ((1 + (u : ℝ)) ^ 6 - 1) + 2 * (ε + 3 * ((1 + (u : ℝ)) ^ 4 - 1) * π' + |(π' : ℝ) - Real.pi|) +
        |(π' : ℝ) - Real.pi|) := by
  have hN' := points_le s m
  obtain ⟨g, hg⟩ : ∃ g : ℕ → ℕ → RFl rnd, g = fun n i =>
          (CppNum.ofInt 1 - (castK i * (CppNum.ofInt 2 / sizeM1K n) - CppNum.ofInt 1)) *
            cos (RFl.fin π' * (castK i * (CppNum.ofInt 2 / sizeM1K n) - CppNum.ofInt 1)) +
            sin (RFl.fin π' * (castK i * (CppNum.ofInt 2 / sizeM1K n) - CppNum.ofInt 1)) / RFl.fin π' := ⟨_, rfl⟩
  have hb : bohmanK (roundOps2 rnd (RFl.fin π') sin cos exp sqrt bessel pow) s m =
      buildWindow 0 s m (fun w => fillIdxK (roundOps rnd (RFl.fin π') cos exp sqrt bessel) (g w.length) w) := by
    unfold bohmanK
    rw [hg]
    cases s with
    | symmetric =>
      simp only [buildWindow, bohmanFillerK, List.length_replicate]; rw [if_neg (by simp only [points] at hm; omega)]; rfl
    | periodic =>
      simp only [buildWindow, bohmanFillerK, List.length_replicate]; rw [if_neg (by omega)]; rfl
  rw [hb]
  refine within_of (roundOps rnd (RFl.fin π') cos exp sqrt bessel) rfl g _ _ s m 0 hM (by omega) (fun i hi => ?_)
    (fun p h1 h2 => ?_)
  · unfold bohman
    rw [x_flip hm hi, abs_neg]
  · generalize points s m = N at *
    obtain ⟨t0, t1⟩ := unitX hm h1 h2
    have hd : (0 : ℚ) < (N : ℚ) - 1 := by
      have : (2 : ℚ) ≤ N := by exact_mod_cast hm
      linarith
    obtain ⟨t, ht⟩ : ∃ t : ℚ, t = 2 * p / ((N : ℚ) - 1) - 1 := ⟨_, rfl⟩
    rw [← ht] at t0 t1
    have i1 : (CppNum.ofInt 1 : RFl rnd) = RFl.fin 1 := by
      have := hM.ofInt (z := 1) (by norm_num; omega); exact_mod_cast this
    have i2 : (CppNum.ofInt 2 : RFl rnd) = RFl.fin 2 := by
      have := hM.ofInt (z := 2) (by norm_num; omega); exact_mod_cast this
    have a1 : Approx u 1 (2 / ((N : ℚ) - 1)) (2 / ((N : ℚ) - 1)) (CppNum.ofInt 2 / sizeM1K N : RFl rnd) := by
      rw [hM.sizeM1 (by omega) (by omega), i2]
      exact Approx.div hu hr hd (Approx.exact hu 0 2 2 (by norm_num))
    have a2 : Approx u 2 (t + 1) 2 (castK p * (CppNum.ofInt 2 / sizeM1K N) : RFl rnd) := by
      rw [hM.cast (by omega)]
      have := Approx.mul hu hr (Approx.exact (rnd := rnd) hu 0 (p : ℚ) p (by rw [Nat.abs_cast])) a1
      rw [show (p : ℚ) * (2 / ((N : ℚ) - 1)) = t + 1 by rw [ht]; ring] at this
      exact this.mono hu (by omega) (by linarith)
    have a3 : Approx u 3 t 3 (castK p * (CppNum.ofInt 2 / sizeM1K N) - CppNum.ofInt 1 : RFl rnd) := by
      rw [i1]
      have := Approx.sub hu hr a2 (Approx.exact (rnd := rnd) hu 2 1 1 (by norm_num))
      rw [add_sub_cancel_right] at this
      exact this.mono hu (by omega) (by norm_num)
    obtain ⟨x, hx⟩ : ∃ x : RFl rnd, x = castK p * (CppNum.ofInt 2 / sizeM1K N) - CppNum.ofInt 1 := ⟨_, rfl⟩
    rw [hg]
    simp only [← hx] at a3 ⊢
    have a4 : Approx u 4 (1 - t) 4 (CppNum.ofInt 1 - x : RFl rnd) := by
      rw [i1]
      have := Approx.sub hu hr (Approx.exact (rnd := rnd) hu 3 1 1 (by norm_num)) a3
      exact this.mono hu (by omega) (by norm_num)
    have a5 : Approx u 4 (π' * t) (π' * 3) (RFl.fin π' * x : RFl rnd) := by
      have := Approx.mul hu hr (Approx.exact (rnd := rnd) hu 0 π' π' (by rw [abs_of_nonneg (by linarith)])) a3
      exact this.mono hu (by omega) le_rfl
    obtain ⟨y, y1, y2, -⟩ := a5
    obtain ⟨c, c1, c2, c3⟩ := hcos y
    obtain ⟨z, z1, z2, z3⟩ := hsin y
    have a6 : Approx u 5 ((1 - t) * c) 4 ((CppNum.ofInt 1 - x) * cos (RFl.fin π' * x) : RFl rnd) := by
      rw [y1, c1]
      have := Approx.mul hu hr a4 (Approx.exact (rnd := rnd) hu 0 c 1 c2)
      exact this.mono hu (by omega) (by norm_num)
    have a7 : Approx u 5 (z / π') 1 (sin (RFl.fin π' * x) / RFl.fin π' : RFl rnd) := by
      rw [y1, z1]
      have := Approx.div hu hr (show (0 : ℚ) < π' by linarith) (Approx.exact (rnd := rnd) hu 0 z 1 z2)
      refine this.mono hu (by omega) ?_
      rw [div_le_one (by linarith)]; linarith
    obtain ⟨v, v1, v2, -⟩ := Approx.add hu hr a6 a7
    refine ⟨v, v1, ?_⟩
    -- the exact value
    have htR : bohman N p = (1 - (t : ℝ)) * Real.cos (Real.pi * t) + Real.sin (Real.pi * t) / Real.pi := by
      unfold bohman
      have : |2 * (p : ℝ) / ((N : ℝ) - 1) - 1| = (t : ℝ) := by
        rw [ht, abs_of_nonneg]
        · push_cast; rfl
        · rw [ht] at t0; exact_mod_cast t0
      simp only [this]
    rw [htR]
    have t0R : (0 : ℝ) ≤ t := by exact_mod_cast t0
    have t1R : (t : ℝ) ≤ 1 := by exact_mod_cast t1
    have hπR : (3 : ℝ) ≤ π' := by exact_mod_cast hπ
    have hu4 : (0 : ℝ) ≤ (1 + (u : ℝ)) ^ 4 - 1 := by
      have : (0 : ℝ) ≤ u := by exact_mod_cast hu
      have := one_le_pow₀ (n := 4) (show (1 : ℝ) ≤ 1 + u by linarith)
      linarith
    have y3 : |(y : ℝ) - π' * t| ≤ 3 * ((1 + (u : ℝ)) ^ 4 - 1) * π' := by
      have : |(y : ℝ) - π' * t| ≤ ((1 + (u : ℝ)) ^ 4 - 1) * (π' * 3) := by exact_mod_cast y2
      linarith
    obtain ⟨δ, hδ⟩ : ∃ δ : ℝ, δ = ε + 3 * ((1 + (u : ℝ)) ^ 4 - 1) * π' + |(π' : ℝ) - Real.pi| := ⟨_, rfl⟩
    have y4 : |(y : ℝ) - Real.pi * t| ≤ 3 * ((1 + (u : ℝ)) ^ 4 - 1) * π' + |(π' : ℝ) - Real.pi| := by
      have : (y : ℝ) - Real.pi * t = (y - π' * t) + (π' - Real.pi) * t := by ring
      rw [this]
      refine (abs_add_le _ _).trans (add_le_add y3 ?_)
      rw [abs_mul, abs_of_nonneg t0R]
      exact mul_le_of_le_one_right (abs_nonneg _) t1R
    have cδ : |(c : ℝ) - Real.cos (Real.pi * t)| ≤ δ := by
      have := Real.abs_cos_sub_cos_le (x := (y : ℝ)) (y := Real.pi * t)
      have e : (c : ℝ) - Real.cos (Real.pi * t) = (c - Real.cos y) + (Real.cos y - Real.cos (Real.pi * t)) := by ring
      rw [e, hδ]; refine (abs_add_le _ _).trans ?_; linarith
    have zδ : |(z : ℝ) - Real.sin (Real.pi * t)| ≤ δ := by
      have := Real.abs_sin_sub_sin_le (x := (y : ℝ)) (y := Real.pi * t)
      have e : (z : ℝ) - Real.sin (Real.pi * t) = (z - Real.sin y) + (Real.sin y - Real.sin (Real.pi * t)) := by ring
      rw [e, hδ]; refine (abs_add_le _ _).trans ?_; linarith
    have v3 : |(v : ℝ) - ((1 - t) * c + z / π')| ≤ 5 * ((1 + (u : ℝ)) ^ 6 - 1) := by
      have : |(v : ℝ) - ((1 - t) * c + z / π')| ≤ ((1 + (u : ℝ)) ^ 6 - 1) * (4 + 1) := by exact_mod_cast v2
      linarith
    have hπ3 := Real.pi_gt_three
    have w1 : |(1 - (t : ℝ)) * c - (1 - t) * Real.cos (Real.pi * t)| ≤ δ := by
      rw [← mul_sub, abs_mul, abs_of_nonneg (by linarith : (0 : ℝ) ≤ 1 - t)]
      exact (mul_le_of_le_one_left (abs_nonneg _) (by linarith)).trans cδ
    have w2 : |(z : ℝ) / π' - Real.sin (Real.pi * t) / Real.pi| ≤ δ + |(π' : ℝ) - Real.pi| := by
      have e : (z : ℝ) / π' - Real.sin (Real.pi * t) / Real.pi =
          (z - Real.sin (Real.pi * t)) / π' + Real.sin (Real.pi * t) * ((Real.pi - π') / (π' * Real.pi)) := by
        field_simp; ring
      rw [e]
      refine (abs_add_le _ _).trans (add_le_add ?_ ?_)
      · rw [abs_div, abs_of_pos (by linarith : (0 : ℝ) < π')]
        refine (div_le_self (abs_nonneg _) (by linarith)).trans zδ
      · rw [abs_mul, abs_div, abs_of_pos (by positivity : (0 : ℝ) < π' * Real.pi), abs_sub_comm Real.pi]
        refine (mul_le_of_le_one_left (by positivity) (Real.abs_sin_le_one _)).trans (div_le_self (abs_nonneg _) ?_)
        nlinarith
    have e : (v : ℝ) - ((1 - (t : ℝ)) * Real.cos (Real.pi * t) + Real.sin (Real.pi * t) / Real.pi) =
        (v - ((1 - t) * c + z / π')) + (((1 - (t : ℝ)) * c - (1 - t) * Real.cos (Real.pi * t)) +
          ((z : ℝ) / π' - Real.sin (Real.pi * t) / Real.pi)) := by ring
    rw [e, ← hδ]
    refine (abs_add_le _ _).trans ?_
    have := (abs_add_le ((1 - (t : ℝ)) * c - (1 - t) * Real.cos (Real.pi * t))
      ((z : ℝ) / π' - Real.sin (Real.pi * t) / Real.pi)).trans (add_le_add w1 w2)
    linarith

omit hu hr in
theorem sinc_integral (x : ℝ) : Real.sinc x = ∫ t in (0 : ℝ)..1, Real.cos (t * x) := by
  by_cases h : x = 0
  · subst h; simp
  · rw [Real.sinc_of_ne_zero h, intervalIntegral.integral_comp_mul_right (fun y => Real.cos y) h, integral_cos]
    simp; field_simp

omit hu hr in
/-- The cardinal sine is 1-Lipschitz. -/
theorem sinc_lipschitz (a b : ℝ) : |Real.sinc a - Real.sinc b| ≤ |a - b| := by
  rw [sinc_integral, sinc_integral, ← intervalIntegral.integral_sub]
  · have := intervalIntegral.norm_integral_le_of_norm_le_const (a := (0 : ℝ)) (b := 1)
      (f := fun t => Real.cos (t * a) - Real.cos (t * b)) (C := |a - b|) (fun t ht => by
        rw [Set.uIoc_of_le (by norm_num)] at ht
        rw [Real.norm_eq_abs]
        refine (Real.abs_cos_sub_cos_le (x := t * a) (y := t * b)).trans ?_
        rw [← mul_sub, abs_mul, abs_of_pos ht.1]
        exact mul_le_of_le_one_left (abs_nonneg _) ht.2)
    simpa using this
  · exact (by fun_prop : Continuous fun t : ℝ => Real.cos (t * a)).intervalIntegrable _ _
  · exact (by fun_prop : Continuous fun t : ℝ => Real.cos (t * b)).intervalIntegrable _ _

omit hu hr in
theorem sinc_spec (x : ℝ) : Spec.sinc x = Real.sinc (Real.pi * x) := by
  unfold Spec.sinc
  rw [Real.sinc_apply]
  by_cases h : x = 0
  · simp [h]
  · rw [if_neg h, if_neg (mul_ne_zero Real.pi_ne_zero h)]

include hu1 in
set_option maxHeartbeats 1000000 in
/-- C117: `lanczos`: every sample is within `u + (1+u)·ε + 3((1+u)^3 - 1)·π' + |π' - π|` of the textbook value, where `ε` is the
relative error of `std::sin`. -/
theorem C117_lanczos (π' : ℚ) (hπ : 0 < π') (ε : ℝ) (sin cos exp sqrt bessel : RFl rnd → RFl rnd)
    (pow : RFl rnd → RFl rnd → RFl rnd)
    (hsin : ∀ x : ℚ, ∃ c : ℚ, sin (RFl.fin x) = RFl.fin c ∧ |(c : ℝ) - Real.sin x| ≤ ε * |Real.sin x|) (s : Sym) (m : ℕ)
    (hM : HalvesExact rnd (4 * m + 8)) (hm : 2 ≤ points s m) :
    WindowWithin (lanczosK (roundOps2 rnd (RFl.fin π') sin cos exp sqrt bessel pow) s m) s m lanczos
      (u + (1 + (u : ℝ)) * ε + 3 * ((1 + (u : ℝ)) ^ 3 - 1) * π' + |(π' : ℝ) - Real.pi|) := by
  have hN' := points_le s m
  obtain ⟨g, hg⟩ : ∃ g : ℕ → ℕ → RFl rnd, g = fun n i => sincK (roundOps2 rnd (RFl.fin π') sin cos exp sqrt bessel pow)
    (CppNum.ofInt 1 - castK (2 * i) / sizeM1K n) := ⟨_, rfl⟩
  have hb : lanczosK (roundOps2 rnd (RFl.fin π') sin cos exp sqrt bessel pow) s m =
      buildWindow 0 s m (fun w => fillIdxK (roundOps rnd (RFl.fin π') cos exp sqrt bessel) (g w.length) w) := by
    rw [hg]; rfl
  rw [hb]
  refine within_of (roundOps rnd (RFl.fin π') cos exp sqrt bessel) rfl g _ _ s m 0 hM (by omega) (fun i hi => ?_)
    (fun p h1 h2 => ?_)
  · unfold lanczos
    rw [x_flip hm hi, sinc_neg]
  · generalize points s m = N at *
    obtain ⟨t0, t1⟩ := unitX hm h1 h2
    have hd : (0 : ℚ) < (N : ℚ) - 1 := by
      have : (2 : ℚ) ≤ N := by exact_mod_cast hm
      linarith
    obtain ⟨t, ht⟩ : ∃ t : ℚ, t = 2 * p / ((N : ℚ) - 1) - 1 := ⟨_, rfl⟩
    rw [← ht] at t0 t1
    have i1 : (CppNum.ofInt 1 : RFl rnd) = RFl.fin 1 := by
      have := hM.ofInt (z := 1) (by norm_num; omega); exact_mod_cast this
    have a1 : Approx u 1 (t + 1) 2 (castK (2 * p) / sizeM1K N : RFl rnd) := by
      rw [hM.sizeM1 (by omega) (by omega), hM.cast (by omega)]
      have := Approx.div hu hr hd (Approx.exact (rnd := rnd) hu 0 ((2 * p : ℕ) : ℚ) ((2 * p : ℕ) : ℚ) (by rw [Nat.abs_cast]))
      have e : ((2 * p : ℕ) : ℚ) / ((N : ℚ) - 1) = t + 1 := by rw [ht]; push_cast; ring
      rw [e] at this
      exact this.mono hu (by omega) (by linarith)
    have a2 : Approx u 2 (-t) 3 (CppNum.ofInt 1 - castK (2 * p) / sizeM1K N : RFl rnd) := by
      rw [i1]
      have := Approx.sub hu hr (Approx.exact (rnd := rnd) hu 1 1 1 (by norm_num)) a1
      rw [show (1 : ℚ) - (t + 1) = -t by ring] at this
      exact this.mono hu (by omega) (by norm_num)
    have htR : lanczos N p = Real.sinc (Real.pi * (-t : ℚ)) := by
      unfold lanczos
      rw [sinc_spec, ← Real.sinc_neg, ht]; push_cast; congr 1; ring
    rw [htR, hg]
    simp only
    obtain ⟨q, q1, q2, -⟩ := id a2
    have a3 := Approx.mul hu hr (Approx.exact (rnd := rnd) hu 0 π' π' (by rw [abs_of_pos hπ])) a2
    obtain ⟨y, y1, y2, -⟩ := a3
    rw [q1] at y1 ⊢
    have hπR : (0 : ℝ) < π' := by exact_mod_cast hπ
    have huR : (0 : ℝ) ≤ u := by exact_mod_cast hu
    have y3 : |(y : ℝ) - Real.pi * (-t : ℚ)| ≤ 3 * ((1 + (u : ℝ)) ^ 3 - 1) * π' + |(π' : ℝ) - Real.pi| := by
      have h : |(y : ℝ) - π' * (-t)| ≤ ((1 + (u : ℝ)) ^ 3 - 1) * (π' * 3) := by exact_mod_cast y2
      have e : (y : ℝ) - Real.pi * (-t : ℚ) = (y - π' * (-t)) + (π' - Real.pi) * (-t) := by push_cast; ring
      rw [e]
      have h' : |((π' : ℝ) - Real.pi) * (-t)| ≤ |(π' : ℝ) - Real.pi| := by
        rw [abs_mul]
        refine mul_le_of_le_one_right (abs_nonneg _) ?_
        rw [abs_neg, abs_of_nonneg] <;> [exact_mod_cast t1; exact_mod_cast t0]
      refine (abs_add_le _ _).trans ?_
      linarith
    have hyq : rnd (π' * q) = y := by rw [RFl.mul_fin, RFl.fin_inj] at y1; exact y1
    have hε : 0 ≤ ε := by
      obtain ⟨c, -, hc⟩ := hsin 1
      have : 0 < |Real.sin ((1 : ℚ) : ℝ)| := abs_pos.2 (by push_cast; exact (Real.sin_pos_of_pos_of_lt_pi one_pos (by linarith [Real.pi_gt_three])).ne')
      by_contra hneg
      have : ε * |Real.sin ((1 : ℚ) : ℝ)| < 0 := mul_neg_of_neg_of_pos (by linarith) this
      linarith [abs_nonneg ((c : ℝ) - Real.sin ((1 : ℚ) : ℝ))]
    have hlip := sinc_lipschitz (y : ℝ) (Real.pi * (-t : ℚ))
    by_cases hq : q = 0
    · refine ⟨1, ?_, ?_⟩
      · unfold sincK
        show (if RFl.isZero (RFl.fin q : RFl rnd) = true then CppNum.ofInt 1
          else sin (RFl.fin π' * RFl.fin q) / (RFl.fin π' * RFl.fin q)) = _
        rw [if_pos (show RFl.isZero (RFl.fin q : RFl rnd) = true by simp [hq])]
        exact i1
      · have hy0 : y = 0 := by
          have := hr 0
          rw [hq, mul_zero] at hyq
          rw [← hyq]; simpa using this
        rw [hy0] at hlip y3
        simp only [Rat.cast_zero, Real.sinc_zero] at hlip y3
        have : ((1 : ℚ) : ℝ) = 1 := by norm_num
        rw [this]
        have hmul : 0 ≤ (1 + (u : ℝ)) * ε := by positivity
        linarith
    · have hy : y ≠ 0 := by
        obtain ⟨θ, e1, e2, -⟩ := rnd_factor hu1 hr (π' * q)
        rw [hyq] at e1
        rw [e1]
        exact mul_ne_zero (mul_ne_zero hπ.ne' hq) (by linarith : 0 < θ).ne'
      obtain ⟨c, c1, c2⟩ := hsin y
      refine ⟨rnd (c / y), ?_, ?_⟩
      · unfold sincK
        show (if RFl.isZero (RFl.fin q : RFl rnd) = true then CppNum.ofInt 1
          else sin (RFl.fin π' * RFl.fin q) / (RFl.fin π' * RFl.fin q)) = _
        rw [if_neg (show ¬ RFl.isZero (RFl.fin q : RFl rnd) = true by simp [hq])]
        rw [y1, c1, RFl.div_fin hy]
      · have hyR : (y : ℝ) ≠ 0 := by exact_mod_cast hy
        have k1 : |(c : ℝ) / y - Real.sinc y| ≤ ε := by
          rw [Real.sinc_of_ne_zero hyR, ← sub_div, abs_div, div_le_iff₀ (abs_pos.2 hyR)]
          refine c2.trans (mul_le_mul_of_nonneg_left ?_ hε)
          exact Real.abs_sin_le_abs
        have k2 : |(c : ℝ) / y| ≤ 1 + ε := by
          have := abs_add_le ((c : ℝ) / y - Real.sinc y) (Real.sinc y)
          rw [sub_add_cancel] at this
          linarith [Real.abs_sinc_le_one (y : ℝ)]
        have k3 : |((rnd (c / y) : ℚ) : ℝ) - c / y| ≤ u * (1 + ε) := by
          have : |((rnd (c / y) : ℚ) : ℝ) - c / y| ≤ u * |(c : ℝ) / y| := by exact_mod_cast hr (c / y)
          exact this.trans (mul_le_mul_of_nonneg_left k2 huR)
        have e : ((rnd (c / y) : ℚ) : ℝ) - Real.sinc (Real.pi * (-t : ℚ)) = (((rnd (c / y) : ℚ) : ℝ) - c / y) +
            (((c : ℝ) / y - Real.sinc y) + (Real.sinc y - Real.sinc (Real.pi * (-t : ℚ)))) := by ring
        rw [e]
        refine (abs_add_le _ _).trans ?_
        have := abs_add_le ((c : ℝ) / y - Real.sinc y) (Real.sinc y - Real.sinc (Real.pi * (-t : ℚ)))
        linarith

omit hu hr in
theorem exp_sub_le (a b : ℝ) : Real.exp a - Real.exp b ≤ Real.exp a * (a - b) := by
  have := Real.add_one_le_exp (b - a)
  have e : Real.exp b = Real.exp a * Real.exp (b - a) := by rw [← Real.exp_add]; congr 1; ring
  rw [e]
  have := mul_le_mul_of_nonneg_left this (Real.exp_pos a).le
  linarith

omit hu hr in
/-- A relative error `γ` of a negative argument changes the exponential by at most `γ/(1-γ)`. -/
theorem exp_rel {x x' γ : ℝ} (hx : x ≤ 0) (h0 : 0 ≤ γ) (h1 : γ < 1) (h : |x' - x| ≤ γ * |x|) :
    |Real.exp x' - Real.exp x| ≤ γ / (1 - γ) := by
  obtain ⟨y, hy⟩ : ∃ y, y = -x := ⟨_, rfl⟩
  have hy0 : 0 ≤ y := by linarith
  rw [abs_of_nonpos hx, ← hy] at h
  obtain ⟨l, r⟩ := abs_le.1 h
  have p : 0 < 1 - γ := by linarith
  have key : Real.exp (-((1 - γ) * y)) * ((1 - γ) * y) ≤ 1 := by
    rw [Real.exp_neg, inv_mul_le_iff₀ (Real.exp_pos _), mul_one]
    linarith [Real.add_one_le_exp ((1 - γ) * y)]
  have bound : ∀ a b : ℝ, a ≤ -((1 - γ) * y) → a - b ≤ γ * y → Real.exp a - Real.exp b ≤ γ / (1 - γ) := by
    intro a b ha hab
    have k0 := exp_sub_le a b
    have k1 : Real.exp a * (a - b) ≤ Real.exp a * (γ * y) := mul_le_mul_of_nonneg_left hab (Real.exp_pos _).le
    have k2 : Real.exp a * (γ * y) ≤ Real.exp (-((1 - γ) * y)) * (γ * y) :=
      mul_le_mul_of_nonneg_right (Real.exp_le_exp.2 ha) (by positivity)
    have k3 : Real.exp (-((1 - γ) * y)) * (γ * y) ≤ γ / (1 - γ) := by
      rw [le_div_iff₀ p]
      calc Real.exp (-((1 - γ) * y)) * (γ * y) * (1 - γ) = γ * (Real.exp (-((1 - γ) * y)) * ((1 - γ) * y)) := by ring
        _ ≤ γ * 1 := mul_le_mul_of_nonneg_left key h0
        _ = γ := mul_one _
    linarith
  rw [abs_le]
  constructor
  · have := bound x x' (by nlinarith) (by linarith)
    linarith
  · exact bound x' x (by nlinarith) (by linarith)

omit hu hr in
/-- The relative error `1/(1-u)^k - 1` and the exponential. -/
theorem exp_rel_pow {x x' : ℝ} {v : ℝ} (h0 : 0 ≤ v) (k : ℕ) (h1 : 2 * k * v < 1) (hx : x ≤ 0)
    (h : |x' - x| ≤ (1 / (1 - v) ^ k - 1) * |x|) (hv : v < 1) : |Real.exp x' - Real.exp x| ≤ k * v / (1 - 2 * k * v) := by
  have hb : 1 - k * v ≤ (1 - v) ^ k := by
    have := one_add_mul_le_pow (a := -v) (by linarith) k
    rw [show 1 - k * v = 1 + k * (-v) by ring, show 1 - v = 1 + -v by ring]; exact this
  have hk : 0 ≤ (k : ℝ) * v := by positivity
  have hpos : 0 < 1 - k * v := by linarith
  have hγ : 1 / (1 - v) ^ k - 1 ≤ k * v / (1 - k * v) := by
    have h2 := one_div_le_one_div_of_le hpos hb
    have e : k * v / (1 - k * v) = 1 / (1 - k * v) - 1 := by field_simp; ring
    linarith
  have hγ1 : k * v / (1 - k * v) < 1 := by rw [div_lt_one hpos]; linarith
  have := exp_rel hx (div_nonneg hk hpos.le) hγ1 (h.trans (mul_le_mul_of_nonneg_right hγ (abs_nonneg _)))
  refine this.trans (le_of_eq ?_)
  have h3 : 1 - 2 * k * v ≠ 0 := by linarith
  rw [show 1 - k * v / (1 - k * v) = (1 - 2 * k * v) / (1 - k * v) by field_simp; ring]
  field_simp

omit hu hr in
theorem centre_rounded {M : ℕ} (hM : HalvesExact rnd M) {N p : ℕ} (h0 : 1 ≤ N) (h : 2 * N ≤ M) (h1 : N / 2 ≤ p) (h2 : p < N)
    (o : WinOps (RFl rnd)) (ho : o.lit 0.5 = RFl.fin (rnd 0.5)) :
    (castK p - centreK o N : RFl rnd) = RFl.fin ((p : ℚ) - ((N : ℚ) - 1) / 2) := by
  have i0 : (CppNum.ofInt 0 : RFl rnd) = RFl.fin 0 := by
    have := hM.ofInt (z := 0) (by norm_num); exact_mod_cast this
  have hc : (centreK o N : RFl rnd) = RFl.fin (((N : ℚ) - 1) / 2) := by
    unfold centreK
    rw [ho, lit_half hM (by omega), i0]
    have := hM (N - 1) (by rw [abs_of_nonneg (by omega)]; omega)
    rw [show (((N : ℤ) - 1 : ℤ) : ℚ) = (N : ℚ) - 1 by push_cast; ring] at this
    split
    · rename_i hev
      have e : ((N / 2 : ℕ) : ℚ) - 1 / 2 = ((N : ℚ) - 1) / 2 := by
        have : (N : ℚ) = 2 * ((N / 2 : ℕ) : ℚ) := by exact_mod_cast (by omega : N = 2 * (N / 2))
        rw [this]; simp; ring
      rw [hM.cast (by omega), RFl.sub_fin, e, this]
    · rename_i hev
      have e : ((N / 2 : ℕ) : ℚ) - 0 = ((N : ℚ) - 1) / 2 := by
        have : (N : ℚ) = 2 * ((N / 2 : ℕ) : ℚ) + 1 := by exact_mod_cast (by omega : N = 2 * (N / 2) + 1)
        generalize hk : ((N / 2 : ℕ) : ℚ) = k at *
        rw [this]; ring
      rw [hM.cast (by omega), RFl.sub_fin, e, this]
  rw [hc, hM.cast (by omega), RFl.sub_fin]
  have := hM (2 * p - N + 1) (by rw [abs_of_nonneg] <;> omega)
  rw [show (((2 * (p : ℤ) - N + 1 : ℤ)) : ℚ) / 2 = (p : ℚ) - ((N : ℚ) - 1) / 2 by push_cast; ring] at this
  rw [this]

omit hu hr in
theorem centred_rat {N p : ℕ} (h1 : N / 2 ≤ p) : centred N p = (((p : ℚ) - ((N : ℚ) - 1) / 2 : ℚ) : ℝ) ∧
    (0 : ℚ) ≤ (p : ℚ) - ((N : ℚ) - 1) / 2 := by
  have h0 : (0 : ℚ) ≤ (p : ℚ) - ((N : ℚ) - 1) / 2 := by
    have : (N : ℚ) ≤ 2 * p + 1 := by exact_mod_cast (by omega : N ≤ 2 * p + 1)
    linarith
  refine ⟨?_, h0⟩
  unfold centred
  rw [abs_of_nonneg (by exact_mod_cast h0)]; push_cast; ring

include hu1 in
/-- C117: `gaussian`: every sample is within `ε + 5u/(1-10u)` of the textbook value, where `ε` is the absolute error of
`std::exp` at negative arguments. -/
theorem C117_gaussian (hu10 : 10 * u < 1) (pi : RFl rnd) (ε : ℝ) (cos exp sqrt bessel : RFl rnd → RFl rnd)
    (hexp : ∀ x : ℚ, x ≤ 0 → ∃ c : ℚ, exp (RFl.fin x) = RFl.fin c ∧ |(c : ℝ) - Real.exp x| ≤ ε) (σ : ℚ) (hσ : σ ≠ 0) (s : Sym)
    (m : ℕ) (hM : HalvesExact rnd (4 * m + 8)) :
    WindowWithin (gaussianK (roundOps rnd pi cos exp sqrt bessel) s m (RFl.fin σ)) s m (gaussian σ)
      (ε + 5 * u / (1 - 10 * u)) := by
  have hN' := points_le s m
  obtain ⟨g, hg⟩ : ∃ g : ℕ → ℕ → RFl rnd, g = fun n i =>
    exp (CppNum.ofInt (-1) / (CppNum.ofInt 2 * RFl.fin σ * RFl.fin σ) *
      (castK i - centreK (roundOps rnd pi cos exp sqrt bessel) n) *
      (castK i - centreK (roundOps rnd pi cos exp sqrt bessel) n)) := ⟨_, rfl⟩
  have hb : gaussianK (roundOps rnd pi cos exp sqrt bessel) s m (RFl.fin σ) =
      buildWindow 0 s m (fun w => fillIdxK (roundOps rnd pi cos exp sqrt bessel) (g w.length) w) := by
    rw [hg]; rfl
  rw [hb]
  refine within_of (roundOps rnd pi cos exp sqrt bessel) rfl g _ _ s m 0 hM (by omega) (fun i hi => ?_)
    (fun p h1 h2 => ?_)
  · unfold gaussian; rw [centred_flip hi]
  · generalize points s m = N at *
    obtain ⟨c0, c1⟩ := centred_rat h1
    obtain ⟨n, hn⟩ : ∃ n : ℚ, n = (p : ℚ) - ((N : ℚ) - 1) / 2 := ⟨_, rfl⟩
    rw [hg]
    simp only
    rw [centre_rounded hM (by omega) (by omega) h1 h2 _ rfl]
    rw [← hn] at c0 c1 ⊢
    have im1 : (CppNum.ofInt (-1) : RFl rnd) = RFl.fin (-1) := by
      have := hM.ofInt (z := -1) (by norm_num; omega); exact_mod_cast this
    have i2 : (CppNum.ofInt 2 : RFl rnd) = RFl.fin 2 := by
      have := hM.ofInt (z := 2) (by norm_num; omega); exact_mod_cast this
    rw [im1, i2]
    have r1 := Rel.mul hu1 hr (Rel.mul hu1 hr (Rel.exact (rnd := rnd) (u := u) 2) (Rel.exact σ)) (Rel.exact σ)
    have r2 := Rel.div hu1 hr (f := 2 * σ * σ) (by positivity) (Rel.exact (rnd := rnd) (u := u) (-1)) r1
    have r3 := Rel.mul hu1 hr (Rel.mul hu1 hr r2 (Rel.exact n)) (Rel.exact n)
    obtain ⟨θ, e0, e1, e2⟩ := id r3
    obtain ⟨x, x1, x2⟩ := Rel.err hu1 r3
    have hθ : 0 < θ := lt_of_lt_of_le (pow_pos (by linarith) _) e1
    have hxθ : x = -1 / (2 * σ * σ) * n * n * θ := by rw [x1, RFl.fin_inj] at e0; exact e0
    have hneg : -1 / (2 * σ * σ) * n * n ≤ 0 := by
      have e : -1 / (2 * σ * σ) * n * n = -(n ^ 2 / (2 * σ ^ 2)) := by field_simp
      rw [e]; have : 0 ≤ n ^ 2 / (2 * σ ^ 2) := by positivity
      linarith
    obtain ⟨c, d1, d2⟩ := hexp x (by rw [hxθ]; exact mul_nonpos_of_nonpos_of_nonneg hneg hθ.le)
    refine ⟨c, by rw [x1, d1], ?_⟩
    have hgs : gaussian σ N p = Real.exp ((-1 / (2 * σ * σ) * n * n : ℚ) : ℝ) := by
      unfold gaussian
      rw [c0]; congr 1; push_cast
      have : (σ : ℝ) ≠ 0 := by exact_mod_cast hσ
      field_simp
    rw [hgs]
    have := exp_rel_pow (x := ((-1 / (2 * σ * σ) * n * n : ℚ) : ℝ)) (x' := (x : ℝ)) (v := (u : ℝ)) (by exact_mod_cast hu) 5
      (by have : ((10 * u : ℚ) : ℝ) < 1 := by exact_mod_cast hu10
          push_cast at this ⊢; linarith) (by exact_mod_cast hneg) (by exact_mod_cast x2) (by exact_mod_cast hu1)
    have e5 : ((5 : ℕ) : ℝ) * u / (1 - 2 * (5 : ℕ) * u) = 5 * u / (1 - 10 * u) := by push_cast; ring
    rw [e5] at this
    have e : (c : ℝ) - Real.exp ((-1 / (2 * σ * σ) * n * n : ℚ) : ℝ) = (c - Real.exp x) +
      (Real.exp x - Real.exp ((-1 / (2 * σ * σ) * n * n : ℚ) : ℝ)) := by ring
    rw [e]
    exact (abs_add_le _ _).trans (add_le_add d2 this)

set_option maxHeartbeats 1000000 in
/-- C117: `parzen`: every sample is within `16((1+u)^9 - 1)` of the textbook value. -/
theorem C117_parzen (pi : RFl rnd) (cos exp sqrt bessel : RFl rnd → RFl rnd) (s : Sym) (m : ℕ)
    (hM : HalvesExact rnd (4 * m + 16)) :
    WindowWithin (parzenK (roundOps rnd pi cos exp sqrt bessel) s m) s m parzen (16 * ((1 + (u : ℝ)) ^ 9 - 1)) := by
  have hN' := points_le s m
  obtain ⟨A, hA⟩ : ∃ A : ℕ → ℕ → RFl rnd, A = fun n i =>
    CppNum.ofInt 2 * RFl.abs (castK i - centreK (roundOps rnd pi cos exp sqrt bessel) n) / castK n := ⟨_, rfl⟩
  obtain ⟨g, hg⟩ : ∃ g : ℕ → ℕ → RFl rnd, g = fun (n i : ℕ) =>
    if (if (i : ℤ) - Int.tdiv ((n : ℤ) - 1) 2 ≥ 0 then (i : ℤ) - Int.tdiv ((n : ℤ) - 1) 2
        else -((i : ℤ) - Int.tdiv ((n : ℤ) - 1) 2)) ≤ Int.tdiv (n : ℤ) 4
      then CppNum.ofInt 1 - CppNum.ofInt 6 * A n i * A n i * (CppNum.ofInt 1 - A n i)
      else CppNum.ofInt 2 * (CppNum.ofInt 1 - A n i) * (CppNum.ofInt 1 - A n i) * (CppNum.ofInt 1 - A n i) := ⟨_, rfl⟩
  have hb : parzenK (roundOps rnd pi cos exp sqrt bessel) s m =
      buildWindow 0 s m (fun w => fillIdxK (roundOps rnd pi cos exp sqrt bessel) (g w.length) w) := by
    rw [hg, hA]; rfl
  rw [hb]
  refine within_of (roundOps rnd pi cos exp sqrt bessel) rfl g _ _ s m 0 hM (by omega) (fun i hi => ?_)
    (fun p h1 h2 => ?_)
  · unfold parzen; simp only [centred_flip hi]
  · generalize points s m = N at *
    obtain ⟨c0, c1⟩ := centred_rat h1
    obtain ⟨n, hn⟩ : ∃ n : ℚ, n = (p : ℚ) - ((N : ℚ) - 1) / 2 := ⟨_, rfl⟩
    have hNq : (0 : ℚ) < N := by exact_mod_cast (by omega : 0 < N)
    have hnN : 2 * n ≤ N := by
      have : (p : ℚ) + 1 ≤ N := by exact_mod_cast h2
      rw [hn]; linarith
    rw [← hn] at c0 c1
    have i1 : (CppNum.ofInt 1 : RFl rnd) = RFl.fin 1 := by
      have := hM.ofInt (z := 1) (by norm_num; omega); exact_mod_cast this
    have i2 : (CppNum.ofInt 2 : RFl rnd) = RFl.fin 2 := by
      have := hM.ofInt (z := 2) (by norm_num; omega); exact_mod_cast this
    have i6 : (CppNum.ofInt 6 : RFl rnd) = RFl.fin 6 := by
      have := hM.ofInt (z := 6) (by norm_num; omega); exact_mod_cast this
    obtain ⟨d, hd⟩ : ∃ d : ℚ, d = 2 * n / N := ⟨_, rfl⟩
    have d0 : 0 ≤ d := by rw [hd]; positivity
    have d1 : d ≤ 1 := by rw [hd, div_le_one hNq]; exact hnN
    have aA : Approx u 1 d 1 (A N p) := by
      rw [hA]
      simp only
      rw [centre_rounded hM (by omega) (by omega) h1 h2 _ rfl, ← hn, RFl.abs_fin, abs_of_nonneg c1, i2, RFl.mul_fin,
        hM.cast (by omega)]
      have : rnd (2 * n) = 2 * n := by
        have := hM.int (z := 2 * p - N + 1) (by rw [abs_of_nonneg] <;> omega)
        rw [show (((2 * (p : ℤ) - N + 1 : ℤ)) : ℚ) = 2 * n by rw [hn]; push_cast; ring] at this
        exact this
      rw [this]
      have := Approx.div hu hr hNq (Approx.exact (rnd := rnd) hu 0 (2 * n) (2 * n) (by rw [abs_of_nonneg]; linarith))
      rw [← hd] at this
      exact this.mono hu (by omega) d1
    have aB : Approx u 2 (1 - d) 2 (CppNum.ofInt 1 - A N p : RFl rnd) := by
      rw [i1]
      exact (Approx.sub hu hr (Approx.exact (rnd := rnd) hu 1 1 1 (by norm_num)) aA).mono hu (by omega) (by norm_num)
    have hpz : parzen N p = if (n : ℝ) ≤ (N : ℝ) / 4 then 1 - 6 * (d : ℝ) ^ 2 * (1 - d) else 2 * (1 - (d : ℝ)) ^ 3 := by
      unfold parzen
      rw [c0]
      have e : (n : ℝ) / ((N : ℝ) / 2) = d := by rw [hd]; push_cast; field_simp
      simp only [e]
    have hMu : (0 : ℝ) ≤ (1 + (u : ℝ)) ^ 9 - 1 := by
      have : (0 : ℝ) ≤ u := by exact_mod_cast hu
      have := one_le_pow₀ (n := 9) (show (1 : ℝ) ≤ 1 + u by linarith)
      linarith
    have hpn : (p : ℤ) - Int.tdiv ((N : ℤ) - 1) 2 ≥ 0 := by
      rw [Int.tdiv_eq_ediv_of_nonneg (by omega)]; omega
    have hnR : (n : ℝ) = (p : ℝ) - ((N : ℝ) - 1) / 2 := by rw [hn]; push_cast; ring
    -- which piece
    have hpiece : (p : ℤ) - Int.tdiv ((N : ℤ) - 1) 2 ≤ Int.tdiv N 4 → (n : ℝ) ≤ (N : ℝ) / 4 := by
      rw [Int.tdiv_eq_ediv_of_nonneg (show 0 ≤ (N : ℤ) - 1 by omega), Int.tdiv_eq_ediv_of_nonneg (show 0 ≤ (N : ℤ) by omega)]
      intro h
      have h' : 4 * (p : ℝ) + 2 ≤ 3 * N := by exact_mod_cast (by omega : 4 * p + 2 ≤ 3 * N)
      rw [hnR]; linarith
    have hpiece' : ¬ (p : ℤ) - Int.tdiv ((N : ℤ) - 1) 2 ≤ Int.tdiv N 4 → (n : ℝ) ≤ (N : ℝ) / 4 → (d : ℝ) = 1 / 2 := by
      rw [Int.tdiv_eq_ediv_of_nonneg (show 0 ≤ (N : ℤ) - 1 by omega), Int.tdiv_eq_ediv_of_nonneg (show 0 ≤ (N : ℤ) by omega)]
      intro h hle
      have h' : 4 * (p : ℝ) + 2 ≤ 3 * N := by rw [hnR] at hle; linarith
      have h'' : 4 * p + 2 ≤ 3 * N := by exact_mod_cast h'
      have heq : 4 * p + 2 = 3 * N := by omega
      have heq' : 4 * (p : ℚ) + 2 = 3 * N := by exact_mod_cast heq
      have : n = (N : ℚ) / 4 := by rw [hn]; linarith
      rw [hd, this]; push_cast
      have : (N : ℝ) ≠ 0 := by exact_mod_cast hNq.ne'
      field_simp; norm_num
    rw [hg]
    simp only [if_pos hpn]
    by_cases hbr : (p : ℤ) - Int.tdiv ((N : ℤ) - 1) 2 ≤ Int.tdiv N 4
    · rw [if_pos hbr, hpz, if_pos (hpiece hbr)]
      have b1 := Approx.mul hu hr (Approx.mul hu hr (Approx.mul hu hr
        (Approx.exact (rnd := rnd) hu 0 6 6 (by norm_num)) aA) aA) aB
      have b2 := Approx.sub hu hr (Approx.exact (rnd := rnd) hu _ 1 1 (by norm_num)) b1
      obtain ⟨v, v1, v2, -⟩ := b2.mono hu (k' := 9) (A' := 16) (by omega) (by norm_num)
      refine ⟨v, by rw [i6]; rw [i1] at v1 ⊢; exact v1, ?_⟩
      have : |(v : ℝ) - (1 - 6 * d * d * (1 - d))| ≤ ((1 + (u : ℝ)) ^ 9 - 1) * 16 := by exact_mod_cast v2
      rw [show 1 - 6 * (d : ℝ) ^ 2 * (1 - d) = 1 - 6 * d * d * (1 - d) by ring]
      linarith
    · rw [if_neg hbr]
      have b1 := Approx.mul hu hr (Approx.mul hu hr (Approx.mul hu hr
        (Approx.exact (rnd := rnd) hu 0 2 2 (by norm_num)) aB) aB) aB
      obtain ⟨v, v1, v2, -⟩ := b1.mono hu (k' := 9) (A' := 16) (by omega) (by norm_num)
      refine ⟨v, by rw [i2]; exact v1, ?_⟩
      have h3 : |(v : ℝ) - (2 * (1 - d) * (1 - d) * (1 - d))| ≤ ((1 + (u : ℝ)) ^ 9 - 1) * 16 := by exact_mod_cast v2
      have hval : parzen N p = 2 * (1 - (d : ℝ)) * (1 - d) * (1 - d) := by
        rw [hpz]
        split
        · rename_i hle
          rw [hpiece' hbr hle]; norm_num
        · ring
      rw [hval]; linarith

omit hu hr in
/-- `I0(√y)` grows at most like `e^{y/4}`: a difference of arguments. -/
theorem besselI0_lip {a b β : ℝ} (ha : |a| ≤ |β|) (hb : |b| ≤ |β|) :
    |besselI0 a - besselI0 b| ≤ |a ^ 2 - b ^ 2| / 4 * besselI0 β := by
  have hz : ∀ x k, (x / 2) ^ (2 * k) / ((k.factorial : ℕ) : ℝ) ^ 2 = (x ^ 2 / 4) ^ k / (k.factorial : ℝ) ^ 2 := by
    intro x k; rw [pow_mul]; congr 2; ring
  have hab : ∀ a b : ℝ, b ^ 2 ≤ a ^ 2 → |a| ≤ |β| → besselI0 a - besselI0 b ≤ (a ^ 2 - b ^ 2) / 4 * besselI0 β := by
    intro a b hab ha
    unfold besselI0
    rw [← (summable_besselI0 a).tsum_sub (summable_besselI0 b), ← tsum_mul_left]
    have hsum : Summable fun k : ℕ => (a ^ 2 - b ^ 2) / 4 * ((β / 2) ^ (2 * k) / (k.factorial : ℝ) ^ 2) :=
      (summable_besselI0 β).mul_left _
    -- shift the index: the term of order 0 vanishes
    have hs1 := (summable_besselI0 a).sub (summable_besselI0 b)
    rw [hs1.tsum_eq_zero_add]
    have h00 : (a / 2) ^ (2 * 0) / ((Nat.factorial 0 : ℕ) : ℝ) ^ 2 - (b / 2) ^ (2 * 0) / ((Nat.factorial 0 : ℕ) : ℝ) ^ 2 = 0 := by
      simp
    rw [h00, zero_add]
    refine Summable.tsum_le_tsum (fun k => ?_) ((summable_nat_add_iff 1).2 hs1) hsum
    rw [hz, hz, hz]
    have hy0 : 0 ≤ b ^ 2 / 4 := by positivity
    have hyx : b ^ 2 / 4 ≤ a ^ 2 / 4 := by linarith
    have hxB : a ^ 2 / 4 ≤ β ^ 2 / 4 := by have := sq_le_sq.2 ha; linarith
    rw [show (a ^ 2 - b ^ 2) / 4 = a ^ 2 / 4 - b ^ 2 / 4 by ring]
    generalize b ^ 2 / 4 = y at *
    generalize a ^ 2 / 4 = x at *
    generalize β ^ 2 / 4 = B at *
    have hx0 : 0 ≤ x := hy0.trans hyx
    have hpw : ∀ k : ℕ, x ^ (k + 1) - y ^ (k + 1) ≤ (k + 1) * ((x - y) * x ^ k) := by
      intro k
      induction k with
      | zero => simp
      | succ k ih =>
        have e : x ^ (k + 1 + 1) - y ^ (k + 1 + 1) = x * (x ^ (k + 1) - y ^ (k + 1)) + y ^ (k + 1) * (x - y) := by ring
        have h1 := mul_le_mul_of_nonneg_left ih hx0
        have h2 : y ^ (k + 1) * (x - y) ≤ x ^ (k + 1) * (x - y) :=
          mul_le_mul_of_nonneg_right (pow_le_pow_left₀ hy0 hyx _) (by linarith)
        rw [e]; push_cast
        have e2 : x * ((k + 1) * ((x - y) * x ^ k)) = (k + 1) * ((x - y) * x ^ (k + 1)) := by ring
        linarith
    have hf : (0 : ℝ) < (k.factorial : ℝ) := by exact_mod_cast k.factorial_pos
    rw [← sub_div, Nat.factorial_succ, div_le_iff₀ (by positivity)]
    have h1 : (k : ℝ) + 1 ≤ ((k : ℝ) + 1) ^ 2 := by nlinarith [(Nat.cast_nonneg k : (0 : ℝ) ≤ k)]
    have h2 : x ^ k ≤ B ^ k := pow_le_pow_left₀ hx0 hxB k
    have hxy : 0 ≤ x - y := by linarith
    calc x ^ (k + 1) - y ^ (k + 1) ≤ (k + 1) * ((x - y) * x ^ k) := hpw k
      _ ≤ ((k : ℝ) + 1) ^ 2 * ((x - y) * B ^ k) :=
          mul_le_mul h1 (mul_le_mul_of_nonneg_left h2 hxy) (by positivity) (by positivity)
      _ = _ := by push_cast; field_simp
  rcases le_total (b ^ 2) (a ^ 2) with h | h
  · rw [abs_of_nonneg (by linarith : 0 ≤ a ^ 2 - b ^ 2), abs_of_nonneg]
    · exact hab a b h ha
    · have := besselI0_mono (sq_le_sq.1 h); linarith
  · rw [abs_sub_comm, abs_sub_comm (a ^ 2), abs_of_nonneg (by linarith : 0 ≤ b ^ 2 - a ^ 2), abs_of_nonneg]
    · exact hab b a h hb
    · have := besselI0_mono (sq_le_sq.1 h); linarith

omit hu hr in
theorem besselI0_abs (x : ℝ) : besselI0 |x| = besselI0 x :=
  le_antisymm (besselI0_mono (by simp)) (besselI0_mono (by simp))

set_option maxHeartbeats 1000000 in
/-- C117: `kaiser`: every sample is within `β²/4·(((1+u)^2 - 1) + εs + 2((1+u)^4 - 1)) + ((1+u)(1+ε)/(1-ε) - 1)` of the textbook
value, where `εs` is the error of the square of `std::sqrt` on `[0,1]` and `ε` the relative error of `std::cyl_bessel_i`. -/
theorem C117_kaiser (hmono : Monotone rnd) (pi : RFl rnd) (εs : ℚ) (ε : ℝ) (hε : ε < 1)
    (cos exp sqrt bessel : RFl rnd → RFl rnd)
    (hsq : ∀ x : ℚ, 0 ≤ x → x ≤ 1 → ∃ y : ℚ, sqrt (RFl.fin x) = RFl.fin y ∧ 0 ≤ y ∧ y ≤ 1 ∧ |y ^ 2 - x| ≤ εs) (β : ℚ)
    (hβ : rnd |β| = |β|)
    (hbes : ∀ x : ℚ, 0 ≤ x → x ≤ |β| → ∃ y : ℚ, bessel (RFl.fin x) = RFl.fin y ∧ |(y : ℝ) - besselI0 x| ≤ ε * besselI0 x)
    (s : Sym) (m : ℕ) (hM : HalvesExact rnd (4 * m + 8)) (hm : 2 ≤ points s m) :
    WindowWithin (kaiserK (roundOps rnd pi cos exp sqrt bessel) s m (RFl.fin β)) s m (kaiser β)
      ((β : ℝ) ^ 2 / 4 * (((1 + (u : ℝ)) ^ 2 - 1) + εs + 2 * ((1 + (u : ℝ)) ^ 4 - 1)) +
        ((1 + (u : ℝ)) * (1 + ε) / (1 - ε) - 1)) := by
  have hN' := points_le s m
  obtain ⟨g, hg⟩ : ∃ g : ℕ → ℕ → RFl rnd, g = fun (n i : ℕ) =>
    bessel (RFl.fin |β| * sqrt (CppNum.ofInt 1 - (castK i - RFl.fin (rnd 0.5) * sizeM1K n) / (RFl.fin (rnd 0.5) * sizeM1K n) *
      ((castK i - RFl.fin (rnd 0.5) * sizeM1K n) / (RFl.fin (rnd 0.5) * sizeM1K n)))) / bessel (RFl.fin |β|) := ⟨_, rfl⟩
  have hb : kaiserK (roundOps rnd pi cos exp sqrt bessel) s m (RFl.fin β) =
      buildWindow 0 s m (fun w => fillIdxK (roundOps rnd pi cos exp sqrt bessel) (g w.length) w) := by
    rw [hg]; rfl
  rw [hb]
  refine within_of (roundOps rnd pi cos exp sqrt bessel) rfl g _ _ s m 0 hM (by omega) (fun i hi => ?_)
    (fun p h1 h2 => ?_)
  · unfold kaiser; rw [x_flip hm hi, neg_sq]
  · generalize points s m = N at *
    obtain ⟨t0, t1⟩ := unitX hm h1 h2
    have hd : (0 : ℚ) < (N : ℚ) - 1 := by
      have : (2 : ℚ) ≤ N := by exact_mod_cast hm
      linarith
    obtain ⟨t, ht⟩ : ∃ t : ℚ, t = 2 * p / ((N : ℚ) - 1) - 1 := ⟨_, rfl⟩
    rw [← ht] at t0 t1
    have i1 : (CppNum.ofInt 1 : RFl rnd) = RFl.fin 1 := by
      have := hM.ofInt (z := 1) (by norm_num; omega); exact_mod_cast this
    have r0 : rnd 0 = 0 := by have := hM.int (z := 0) (by norm_num; omega); exact_mod_cast this
    have r1 : rnd 1 = 1 := by have := hM.int (z := 1) (by norm_num; omega); exact_mod_cast this
    have mem : ∀ q : ℚ, 0 ≤ q → q ≤ 1 → 0 ≤ rnd q ∧ rnd q ≤ 1 := fun q a b =>
      ⟨by rw [← r0]; exact hmono a, by rw [← r1]; exact hmono b⟩
    have hal : (RFl.fin (rnd 0.5) * sizeM1K N : RFl rnd) = RFl.fin (((N : ℚ) - 1) / 2) := by
      rw [lit_half hM (by omega), hM.sizeM1 (by omega) (by omega), RFl.mul_fin]
      have := hM (N - 1) (by rw [abs_of_nonneg (by omega)]; omega)
      rw [show (((N : ℤ) - 1 : ℤ) : ℚ) = (N : ℚ) - 1 by push_cast; ring] at this
      rw [show (1 : ℚ) / 2 * ((N : ℚ) - 1) = ((N : ℚ) - 1) / 2 by ring, this]
    have hn : (castK p - RFl.fin (((N : ℚ) - 1) / 2) : RFl rnd) = RFl.fin ((p : ℚ) - ((N : ℚ) - 1) / 2) := by
      rw [hM.cast (by omega), RFl.sub_fin]
      have := hM (2 * p - N + 1) (by rw [abs_of_nonneg] <;> omega)
      rw [show (((2 * (p : ℤ) - N + 1 : ℤ)) : ℚ) / 2 = (p : ℚ) - ((N : ℚ) - 1) / 2 by push_cast; ring] at this
      rw [this]
    have hrt : (RFl.fin ((p : ℚ) - ((N : ℚ) - 1) / 2) / RFl.fin (((N : ℚ) - 1) / 2) : RFl rnd) = RFl.fin (rnd t) := by
      rw [RFl.div_fin (by linarith : ((N : ℚ) - 1) / 2 ≠ 0)]
      congr 2; rw [ht]; field_simp
    rw [hg]
    simp only
    rw [hal, hn, hrt, i1]
    obtain ⟨q0, q1⟩ := mem t t0 t1
    have a1 : Approx u 1 t 1 (RFl.fin (rnd t) : RFl rnd) :=
      Approx.round hu hr (k := 0) (by simp) (by rw [abs_of_nonneg t0]; exact t1)
    have a2 := Approx.mul hu hr a1 a1
    have a3 := Approx.sub hu hr (Approx.exact (rnd := rnd) hu _ 1 1 (by norm_num)) a2
    rw [RFl.mul_fin, RFl.sub_fin] at a3 ⊢
    obtain ⟨w0, w1⟩ := mem (rnd t * rnd t) (by positivity) (by nlinarith)
    obtain ⟨x0, x1⟩ := mem (1 - rnd (rnd t * rnd t)) (by linarith) (by linarith)
    obtain ⟨x, hx⟩ : ∃ x, x = rnd (1 - rnd (rnd t * rnd t)) := ⟨_, rfl⟩
    rw [← hx] at a3 x0 x1 ⊢
    have a4 : |x - (1 - t ^ 2)| ≤ 2 * ((1 + u) ^ 4 - 1) := by
      obtain ⟨q, e1, e2, -⟩ := a3
      rw [RFl.fin_inj] at e1
      rw [← e1] at e2
      rw [show t ^ 2 = t * t by ring]
      refine e2.trans (le_of_eq ?_)
      norm_num
      try ring
    obtain ⟨y, y1, y2, y3, y4⟩ := hsq x x0 x1
    rw [y1, RFl.mul_fin]
    obtain ⟨z, hz⟩ : ∃ z, z = rnd (|β| * y) := ⟨_, rfl⟩
    have hb0 : 0 ≤ |β| := abs_nonneg β
    have z0 : 0 ≤ z := by rw [hz, ← r0]; exact hmono (by positivity)
    have z1 : z ≤ |β| := by rw [hz, ← hβ]; exact hmono (by rw [hβ]; exact mul_le_of_le_one_right hb0 y3)
    rw [← hz]
    have z2 : |z ^ 2 - β ^ 2 * (1 - t ^ 2)| ≤ β ^ 2 * (((1 + u) ^ 2 - 1) + εs + 2 * ((1 + u) ^ 4 - 1)) := by
      have k1 : |z - |β| * y| ≤ u * (|β| * y) := by
        have := hr (|β| * y)
        rw [abs_of_nonneg (by positivity : 0 ≤ |β| * y)] at this
        rw [hz]; exact this
      have k2 : |z ^ 2 - (|β| * y) ^ 2| ≤ β ^ 2 * ((1 + u) ^ 2 - 1) := by
        have e : z ^ 2 - (|β| * y) ^ 2 = (z - |β| * y) * (z - |β| * y + 2 * (|β| * y)) := by ring
        rw [e, abs_mul]
        have hw : 0 ≤ |β| * y := by positivity
        have k3 : |z - |β| * y + 2 * (|β| * y)| ≤ u * (|β| * y) + 2 * (|β| * y) := by
          refine (abs_add_le _ _).trans ?_
          rw [abs_of_nonneg (by positivity : 0 ≤ 2 * (|β| * y))]; linarith
        refine (mul_le_mul k1 k3 (abs_nonneg _) (by positivity)).trans ?_
        have e2 : u * (|β| * y) * (u * (|β| * y) + 2 * (|β| * y)) = β ^ 2 * ((1 + u) ^ 2 - 1) * y ^ 2 := by
          rw [← sq_abs β]; ring
        rw [e2]
        have : 0 ≤ β ^ 2 * ((1 + u) ^ 2 - 1) := by
          have := one_le_M hu 2; have := sq_nonneg β; nlinarith
        exact mul_le_of_le_one_right this (by nlinarith)
      have k4 : |y ^ 2 - (1 - t ^ 2)| ≤ εs + 2 * ((1 + u) ^ 4 - 1) := by
        have e : y ^ 2 - (1 - t ^ 2) = (y ^ 2 - x) + (x - (1 - t ^ 2)) := by ring
        rw [e]; exact (abs_add_le _ _).trans (add_le_add y4 a4)
      have e : z ^ 2 - β ^ 2 * (1 - t ^ 2) = (z ^ 2 - (|β| * y) ^ 2) + β ^ 2 * (y ^ 2 - (1 - t ^ 2)) := by
        rw [mul_pow, sq_abs]; ring
      rw [e]
      refine (abs_add_le _ _).trans ?_
      rw [abs_mul, abs_of_nonneg (sq_nonneg β)]
      have := mul_le_mul_of_nonneg_left k4 (sq_nonneg β)
      linarith
    obtain ⟨b1, e1, e2⟩ := hbes z z0 z1
    obtain ⟨b0, f1, f2⟩ := hbes |β| hb0 le_rfl
    have hI0 := one_le_besselI0 (β : ℝ)
    have hIz := one_le_besselI0 (z : ℝ)
    have hbabs : besselI0 ((|β| : ℚ) : ℝ) = besselI0 (β : ℝ) := by push_cast; exact besselI0_abs _
    rw [hbabs] at f2
    have hε0 : 0 ≤ ε := by
      by_contra hneg
      have := mul_neg_of_neg_of_pos (show ε < 0 by linarith) (show 0 < besselI0 (β : ℝ) by linarith)
      linarith [abs_nonneg ((b0 : ℝ) - besselI0 (β : ℝ))]
    obtain ⟨f3, f4⟩ := abs_le.1 f2
    obtain ⟨e3, e4⟩ := abs_le.1 e2
    have hb0pos : 0 < (b0 : ℝ) := by nlinarith
    have hb0q : b0 ≠ 0 := by rintro rfl; simp at hb0pos
    refine ⟨rnd (b1 / b0), by rw [e1, f1, RFl.div_fin hb0q], ?_⟩
    have hzb : |(z : ℝ)| ≤ |(β : ℝ)| := by
      rw [abs_of_nonneg (by exact_mod_cast z0)]; exact_mod_cast z1
    have ht2 : (0 : ℝ) ≤ 1 - (t : ℝ) ^ 2 := by
      have : (0 : ℚ) ≤ 1 - t ^ 2 := by nlinarith
      exact_mod_cast this
    have hcc : |(β : ℝ) * √(1 - (t : ℝ) ^ 2)| ≤ |(β : ℝ)| := by
      rw [abs_mul, abs_of_nonneg (Real.sqrt_nonneg _)]
      exact mul_le_of_le_one_right (abs_nonneg _) (Real.sqrt_le_one.2 (by nlinarith [sq_nonneg (t : ℝ)]))
    have hlip := besselI0_lip hzb hcc
    rw [mul_pow, Real.sq_sqrt ht2] at hlip
    have z2R : |(z : ℝ) ^ 2 - (β : ℝ) ^ 2 * (1 - (t : ℝ) ^ 2)| ≤
        (β : ℝ) ^ 2 * (((1 + (u : ℝ)) ^ 2 - 1) + εs + 2 * ((1 + (u : ℝ)) ^ 4 - 1)) := by exact_mod_cast z2
    have hk : kaiser β N p = besselI0 ((β : ℝ) * √(1 - (t : ℝ) ^ 2)) / besselI0 β := by
      unfold kaiser; rw [ht]; push_cast; rfl
    rw [hk]
    have g1 : |besselI0 (z : ℝ) / besselI0 β - besselI0 ((β : ℝ) * √(1 - (t : ℝ) ^ 2)) / besselI0 β| ≤
        (β : ℝ) ^ 2 / 4 * (((1 + (u : ℝ)) ^ 2 - 1) + εs + 2 * ((1 + (u : ℝ)) ^ 4 - 1)) := by
      rw [← sub_div, abs_div, abs_of_pos (by linarith : 0 < besselI0 (β : ℝ)), div_le_iff₀ (by linarith)]
      refine hlip.trans (mul_le_mul_of_nonneg_right ?_ (by linarith))
      linarith
    have huR : (0 : ℝ) ≤ u := by exact_mod_cast hu
    have hR1 : besselI0 (z : ℝ) ≤ besselI0 β := besselI0_mono hzb
    have h1e : 0 < 1 - ε := by linarith
    have g2 : |(b1 : ℝ) / b0 - besselI0 (z : ℝ) / besselI0 β| ≤ (1 + ε) / (1 - ε) - 1 := by
      have hRle : besselI0 (z : ℝ) / besselI0 β ≤ 1 := (div_le_one (by linarith)).2 hR1
      have hR0 : 0 ≤ besselI0 (z : ℝ) / besselI0 β := div_nonneg (by linarith) (by linarith)
      have up : (b1 : ℝ) / b0 ≤ (1 + ε) / (1 - ε) * (besselI0 (z : ℝ) / besselI0 β) := by
        rw [div_mul_div_comm]
        exact div_le_div₀ (by nlinarith) (by linarith) (by nlinarith) (by linarith)
      have lo : (1 - ε) / (1 + ε) * (besselI0 (z : ℝ) / besselI0 β) ≤ (b1 : ℝ) / b0 := by
        rw [div_mul_div_comm]
        exact div_le_div₀ (by nlinarith) (by linarith) hb0pos (by linarith)
      have hge : 1 ≤ (1 + ε) / (1 - ε) := by rw [le_div_iff₀ h1e]; linarith
      have hle2 : 1 - (1 - ε) / (1 + ε) ≤ (1 + ε) / (1 - ε) - 1 := by
        rw [show 1 - (1 - ε) / (1 + ε) = 2 * ε / (1 + ε) by field_simp; ring,
          show (1 + ε) / (1 - ε) - 1 = 2 * ε / (1 - ε) by field_simp; ring]
        exact div_le_div_of_nonneg_left (by linarith) h1e (by linarith)
      generalize besselI0 (z : ℝ) / besselI0 β = R at *
      generalize (1 + ε) / (1 - ε) = P at *
      generalize (1 - ε) / (1 + ε) = Q at *
      rw [abs_le]; constructor <;> nlinarith
    have g3 : |(b1 : ℝ) / b0| ≤ (1 + ε) / (1 - ε) := by
      rw [abs_of_nonneg (div_nonneg (by nlinarith) hb0pos.le)]
      exact div_le_div₀ (by linarith) (by nlinarith) (by nlinarith) (by nlinarith) |>.trans
        (le_of_eq (by rw [mul_div_mul_right _ _ (by linarith : besselI0 (β : ℝ) ≠ 0)]) :
          (1 + ε) * besselI0 (β : ℝ) / ((1 - ε) * besselI0 (β : ℝ)) ≤ _)
    have g4 : |((rnd (b1 / b0) : ℚ) : ℝ) - b1 / b0| ≤ u * ((1 + ε) / (1 - ε)) := by
      have : |((rnd (b1 / b0) : ℚ) : ℝ) - b1 / b0| ≤ u * |(b1 : ℝ) / b0| := by exact_mod_cast hr (b1 / b0)
      exact this.trans (mul_le_mul_of_nonneg_left g3 huR)
    have e : ((rnd (b1 / b0) : ℚ) : ℝ) - besselI0 ((β : ℝ) * √(1 - (t : ℝ) ^ 2)) / besselI0 β =
      (((rnd (b1 / b0) : ℚ) : ℝ) - b1 / b0) + (((b1 : ℝ) / b0 - besselI0 (z : ℝ) / besselI0 β) +
        (besselI0 (z : ℝ) / besselI0 β - besselI0 ((β : ℝ) * √(1 - (t : ℝ) ^ 2)) / besselI0 β)) := by ring
    rw [e]
    refine (abs_add_le _ _).trans ?_
    have g5 := (abs_add_le ((b1 : ℝ) / b0 - besselI0 (z : ℝ) / besselI0 β)
      (besselI0 (z : ℝ) / besselI0 β - besselI0 ((β : ℝ) * √(1 - (t : ℝ) ^ 2)) / besselI0 β)).trans (add_le_add g2 g1)
    have e6 : (1 + (u : ℝ)) * (1 + ε) / (1 - ε) - 1 = u * ((1 + ε) / (1 - ε)) + ((1 + ε) / (1 - ε) - 1) := by
      field_simp; ring
    rw [e6]; linarith

include hu1 in
set_option maxHeartbeats 1000000 in
/-- C117: `general_gaussian` with shape `q` and standard deviation `σ > 0`: every sample is within `ε + (1-κ)/(2κ-1)` of the
textbook value, with `κ = (1-u)^(2q+1)·(1-εp)`, `εp` the relative error of `std::pow` and `ε` the absolute error of `std::exp`
at negative arguments. -/
theorem C117_general_gaussian (pi : RFl rnd) (εp ε κ : ℝ) (q σ : ℚ) (hq : 0 ≤ q) (hσ : 0 < σ)
    (hκ : κ = (1 - (u : ℝ)) ^ (2 * (q : ℝ) + 1) * (1 - εp)) (hκ2 : 1 < 2 * κ) (h0 : 0 ≤ εp)
    (sin cos exp sqrt bessel : RFl rnd → RFl rnd) (pow : RFl rnd → RFl rnd → RFl rnd) (h2q : rnd (2 * q) = 2 * q)
    (hpow : ∀ y : ℚ, 0 ≤ y → ∃ c : ℚ, pow (RFl.fin y) (RFl.fin (2 * q)) = RFl.fin c ∧
      |(c : ℝ) - (y : ℝ) ^ (2 * (q : ℝ))| ≤ εp * (y : ℝ) ^ (2 * (q : ℝ)))
    (hexp : ∀ x : ℚ, x ≤ 0 → ∃ c : ℚ, exp (RFl.fin x) = RFl.fin c ∧ |(c : ℝ) - Real.exp x| ≤ ε) (s : Sym)
    (m : ℕ) (hM : HalvesExact rnd (4 * m + 8)) :
    WindowWithin (generalGaussianK (roundOps2 rnd pi sin cos exp sqrt bessel pow) s m (RFl.fin q) (RFl.fin σ)) s m
      (generalGaussian q σ) (ε + (1 - κ) / (2 * κ - 1)) := by
  have hN' := points_le s m
  obtain ⟨g, hg⟩ : ∃ g : ℕ → ℕ → RFl rnd, g = fun (n i : ℕ) =>
    exp (RFl.fin (rnd (-0.5)) * pow ((castK i - centreK (roundOps rnd pi cos exp sqrt bessel) n) / RFl.fin σ)
      (CppNum.ofInt 2 * RFl.fin q)) := ⟨_, rfl⟩
  have hb : generalGaussianK (roundOps2 rnd pi sin cos exp sqrt bessel pow) s m (RFl.fin q) (RFl.fin σ) =
      buildWindow 0 s m (fun w => fillIdxK (roundOps rnd pi cos exp sqrt bessel) (g w.length) w) := by
    rw [hg]; rfl
  rw [hb]
  refine within_of (roundOps rnd pi cos exp sqrt bessel) rfl g _ _ s m 0 hM (by omega) (fun i hi => ?_)
    (fun p h1 h2 => ?_)
  · unfold generalGaussian; rw [centred_flip hi]
  · generalize points s m = N at *
    obtain ⟨c0, c1⟩ := centred_rat h1
    obtain ⟨n, hn⟩ : ∃ n : ℚ, n = (p : ℚ) - ((N : ℚ) - 1) / 2 := ⟨_, rfl⟩
    rw [hg]
    simp only
    rw [centre_rounded hM (by omega) (by omega) h1 h2 _ rfl]
    rw [← hn] at c0 c1 ⊢
    have i2 : (CppNum.ofInt 2 : RFl rnd) = RFl.fin 2 := by
      have := hM.ofInt (z := 2) (by norm_num; omega); exact_mod_cast this
    have ih : rnd (-0.5) = -1 / 2 := by
      have := hM (-1) (by norm_num; omega)
      rw [show (((-1 : ℤ)) : ℚ) / 2 = -0.5 by norm_num] at this
      rw [this]; norm_num
    rw [i2, RFl.mul_fin, h2q, ih, RFl.div_fin hσ.ne']
    obtain ⟨θ, e1, e2, e3⟩ := rnd_factor hu1 hr (n / σ)
    have p1 : 0 < 1 - u := by linarith
    have hθ : 0 < θ := lt_of_lt_of_le p1 e2
    have hns : 0 ≤ n / σ := div_nonneg c1 hσ.le
    have hy0 : 0 ≤ rnd (n / σ) := by rw [e1]; positivity
    obtain ⟨z, z1, z2⟩ := hpow (rnd (n / σ)) hy0
    rw [z1, RFl.mul_fin]
    obtain ⟨η, f1, f2, f3⟩ := rnd_factor hu1 hr (-1 / 2 * z)
    have hη : 0 < η := lt_of_lt_of_le p1 f2
    -- the real exponent
    obtain ⟨E, hE⟩ : ∃ E : ℝ, E = 2 * (q : ℝ) := ⟨_, rfl⟩
    have hE0 : 0 ≤ E := by rw [hE]; have : (0 : ℝ) ≤ q := by exact_mod_cast hq
                           linarith
    rw [← hE] at z2 hκ
    have p1R : (0 : ℝ) < 1 - (u : ℝ) := by have : ((u : ℚ) : ℝ) < 1 := by exact_mod_cast hu1
                                           linarith
    have hθR : (0 : ℝ) < θ := by exact_mod_cast hθ
    have hηR : (0 : ℝ) < η := by exact_mod_cast hη
    have e2R : 1 - (u : ℝ) ≤ θ := by exact_mod_cast e2
    have e3R : (θ : ℝ) * (1 - u) ≤ 1 := by exact_mod_cast e3
    have f2R : 1 - (u : ℝ) ≤ η := by exact_mod_cast f2
    have f3R : (η : ℝ) * (1 - u) ≤ 1 := by exact_mod_cast f3
    have hnsR : (0 : ℝ) ≤ (n : ℝ) / σ := by exact_mod_cast hns
    obtain ⟨W, hW⟩ : ∃ W : ℝ, W = ((n : ℝ) / σ) ^ E := ⟨_, rfl⟩
    have hW0 : 0 ≤ W := by rw [hW]; positivity
    have hyE : ((rnd (n / σ) : ℚ) : ℝ) ^ E = W * (θ : ℝ) ^ E := by
      rw [e1]; push_cast
      rw [Real.mul_rpow hnsR hθR.le, hW]
    rw [hyE] at z2
    have hpE : (1 - (u : ℝ)) ^ (E + 1) = (1 - (u : ℝ)) ^ E * (1 - u) := by
      rw [Real.rpow_add p1R, Real.rpow_one]
    have hpE0 : 0 < (1 - (u : ℝ)) ^ E := Real.rpow_pos_of_pos p1R _
    have t1 : (1 - (u : ℝ)) ^ E ≤ (θ : ℝ) ^ E := Real.rpow_le_rpow p1R.le e2R hE0
    have t2 : (θ : ℝ) ^ E * (1 - (u : ℝ)) ^ E ≤ 1 := by
      rw [← Real.mul_rpow hθR.le p1R.le]
      exact Real.rpow_le_one (by positivity) e3R hE0
    have hθE : 0 < (θ : ℝ) ^ E := Real.rpow_pos_of_pos hθR _
    have hκpos : 0 < κ := by linarith
    have hεp : 0 < 1 - εp := by
      by_contra hneg
      have : κ ≤ 0 := by
        rw [hκ]; exact mul_nonpos_of_nonneg_of_nonpos (Real.rpow_pos_of_pos p1R _).le (by linarith)
      linarith
    obtain ⟨zl, zu⟩ := abs_le.1 z2
    have hz0 : (0 : ℝ) ≤ z := by
      have : 0 ≤ (1 - εp) * (W * (θ : ℝ) ^ E) := by positivity
      linarith
    have hz0q : 0 ≤ z := by exact_mod_cast hz0
    obtain ⟨c, d1, d2⟩ := hexp (rnd (-1 / 2 * z)) (by
      rw [f1]; exact mul_nonpos_of_nonpos_of_nonneg (by linarith) hη.le)
    refine ⟨c, d1, ?_⟩
    have hgs : generalGaussian q σ N p = Real.exp (-W / 2) := by
      unfold generalGaussian
      rw [c0, hW, hE]
    rw [hgs]
    -- relative error of the exponent
    have hx' : ((rnd (-1 / 2 * z) : ℚ) : ℝ) = -(1 / 2) * z * η := by rw [f1]; push_cast; ring
    have hlow : κ * W ≤ z * η := by
      have k1 : (1 - εp) * (W * (θ : ℝ) ^ E) ≤ z := by linarith
      calc κ * W = ((1 - εp) * (W * (1 - (u : ℝ)) ^ E)) * (1 - u) := by rw [hκ, hpE]; ring
        _ ≤ ((1 - εp) * (W * (θ : ℝ) ^ E)) * η :=
            mul_le_mul (mul_le_mul_of_nonneg_left (mul_le_mul_of_nonneg_left t1 hW0) hεp.le) f2R p1R.le (by positivity)
        _ ≤ z * η := mul_le_mul_of_nonneg_right k1 hηR.le
    have hup : κ * (z * η) ≤ W := by
      have k1 : (z : ℝ) ≤ (1 + εp) * (W * (θ : ℝ) ^ E) := by linarith
      have k2 : (1 - εp) * (1 + εp) ≤ 1 := by nlinarith
      calc κ * (z * η) ≤ κ * ((1 + εp) * (W * (θ : ℝ) ^ E) * η) :=
            mul_le_mul_of_nonneg_left (mul_le_mul_of_nonneg_right k1 hηR.le) hκpos.le
        _ = W * (((1 - εp) * (1 + εp)) * (((θ : ℝ) ^ E * (1 - (u : ℝ)) ^ E) * (η * (1 - u)))) := by rw [hκ, hpE]; ring
        _ ≤ W * (1 * (1 * 1)) := by
            refine mul_le_mul_of_nonneg_left ?_ hW0
            refine mul_le_mul k2 (mul_le_mul t2 f3R (by positivity) one_pos.le) (by positivity) one_pos.le
        _ = W := by ring
    have hκ1 : κ ≤ 1 := by
      rw [hκ]
      have : (1 - (u : ℝ)) ^ (E + 1) ≤ 1 := Real.rpow_le_one p1R.le (by have : (0 : ℝ) ≤ u := by exact_mod_cast hu
                                                                        linarith) (by linarith)
      exact mul_le_one₀ this hεp.le (by linarith)
    have hγ : |((rnd (-1 / 2 * z) : ℚ) : ℝ) - -W / 2| ≤ (1 / κ - 1) * |(-W / 2)| := by
      rw [hx', abs_of_nonpos (by linarith : -W / 2 ≤ 0)]
      have k3 : (1 / κ - 1) * (-(-W / 2)) = (W / κ - W) / 2 := by field_simp
      rw [k3]
      have k4 : z * η ≤ W / κ := by rw [le_div_iff₀ hκpos]; linarith
      have k5 : W - κ * W ≤ W / κ - W := by
        have : W / κ - W - (W - κ * W) = W * (1 - κ) ^ 2 / κ := by field_simp
        have h6 : 0 ≤ W * (1 - κ) ^ 2 / κ := by positivity
        linarith
      rw [abs_le]; constructor <;> linarith
    have hk1 : 1 / κ - 1 < 1 := by
      have : 1 / κ < 2 := by rw [div_lt_iff₀ hκpos]; linarith
      linarith
    have := exp_rel (by linarith : -W / 2 ≤ 0) (by have : 1 ≤ 1 / κ := by rw [le_div_iff₀ hκpos]; linarith
                                                   linarith) hk1 hγ
    have e7 : (1 / κ - 1) / (1 - (1 / κ - 1)) = (1 - κ) / (2 * κ - 1) := by
      have : 2 * κ - 1 ≠ 0 := by linarith
      rw [show 1 - (1 / κ - 1) = (2 * κ - 1) / κ by field_simp; ring]
      field_simp
    rw [e7] at this
    have e : (c : ℝ) - Real.exp (-W / 2) = (c - Real.exp ((rnd (-1 / 2 * z) : ℚ) : ℝ)) +
      (Real.exp ((rnd (-1 / 2 * z) : ℚ) : ℝ) - Real.exp (-W / 2)) := by ring
    rw [e]
    exact (abs_add_le _ _).trans (add_le_add d2 this)

include hu1 in
set_option maxHeartbeats 1000000 in
/-- C117: `tukey` with `0 < α < 1` and an odd number of (built) points: every sample is within
`((1+u)^2 - 1) + (ε + (5((1+u)^5 - 1)·π' + |π' - π|)/α)/2 + 2(1/(1-u)^2 - 1)/α` of the textbook value, where `ε` is the
absolute error of `std::cos`. -/
theorem C117_tukey_partial (π' : ℚ) (hπ : 0 < π') (ε : ℝ) (sin cos exp sqrt bessel : RFl rnd → RFl rnd)
    (pow : RFl rnd → RFl rnd → RFl rnd)
    (hcos : ∀ x : ℚ, ∃ c : ℚ, cos (RFl.fin x) = RFl.fin c ∧ |c| ≤ 1 ∧ |(c : ℝ) - Real.cos x| ≤ ε) (α : ℚ) (h0 : 0 < α)
    (h1 : α < 1) (s : Sym) (m : ℕ) (hM : HalvesExact rnd (4 * m + 8)) (hodd : points s m % 2 = 1) :
    WindowWithin (tukeyK (roundOps2 rnd (RFl.fin π') sin cos exp sqrt bessel pow) s m (RFl.fin α)) s m (tukey α)
      (((1 + (u : ℝ)) ^ 2 - 1) + (ε + (5 * ((1 + (u : ℝ)) ^ 5 - 1) * π' + |(π' : ℝ) - Real.pi|) / α) / 2 +
        2 * (1 / (1 - (u : ℝ)) ^ 2 - 1) / α) := by
  have hN' := points_le s m
  have i0 : (CppNum.ofInt 0 : RFl rnd) = RFl.fin 0 := by
    have := hM.ofInt (z := 0) (by norm_num; omega); exact_mod_cast this
  have i1 : (CppNum.ofInt 1 : RFl rnd) = RFl.fin 1 := by
    have := hM.ofInt (z := 1) (by norm_num; omega); exact_mod_cast this
  have i2 : (CppNum.ofInt 2 : RFl rnd) = RFl.fin 2 := by
    have := hM.ofInt (z := 2) (by norm_num; omega); exact_mod_cast this
  obtain ⟨W, hW⟩ : ∃ W : ℕ → ℤ, W = fun n =>
    if n % 2 = 0 ∧ Fl.toInt ((CppNum.ofInt 1 - RFl.fin α) * castK (n / 2) : RFl rnd) = 0 then 1
      else Fl.toInt ((CppNum.ofInt 1 - RFl.fin α) * castK (n / 2) : RFl rnd) := ⟨_, rfl⟩
  obtain ⟨g, hg⟩ : ∃ g : ℕ → ℕ → RFl rnd, g = fun (n i : ℕ) =>
    if (i : ℤ) - Int.tdiv ((n : ℤ) - 1) 2 ≤ W n then CppNum.ofInt 1
    else RFl.fin (rnd 0.5) * (CppNum.ofInt 1 + cos (RFl.fin π' *
      (CppNum.ofInt 1 - CppNum.ofInt 2 / RFl.fin α + CppNum.ofInt 2 / RFl.fin α * castK i / CppNum.ofInt ((n : ℤ) - 1)))) :=
    ⟨_, rfl⟩
  have hb : tukeyK (roundOps2 rnd (RFl.fin π') sin cos exp sqrt bessel pow) s m (RFl.fin α) =
      buildWindow 0 s m (fun w => fillIdxK (roundOps rnd (RFl.fin π') cos exp sqrt bessel) (g w.length) w) := by
    unfold tukeyK
    rw [if_neg (show ¬ (roundOps2 rnd (RFl.fin π') sin cos exp sqrt bessel pow).le (RFl.fin α) (CppNum.ofInt 0) = true by
        rw [i0]; simp [roundOps2, h0]),
      if_neg (show ¬ (roundOps2 rnd (RFl.fin π') sin cos exp sqrt bessel pow).le (CppNum.ofInt 1) (RFl.fin α) = true by
        rw [i1]; simp [roundOps2, h1]), hg, hW]
    rfl
  rw [hb]
  refine within_of (roundOps rnd (RFl.fin π') cos exp sqrt bessel) rfl g _ _ s m 0 hM (by omega) (fun i hi => ?_)
    (fun p hp1 hp2 => ?_)
  · unfold tukey; rw [centred_flip hi]
  · generalize points s m = N at *
    obtain ⟨h, hh⟩ : ∃ h, N = 2 * h + 1 := ⟨N / 2, by omega⟩
    obtain ⟨c0, c1⟩ := centred_rat hp1
    have hn : (p : ℚ) - ((N : ℚ) - 1) / 2 = (p : ℚ) - h := by rw [hh]; push_cast; ring
    rw [hn] at c0 c1
    have hph : (p : ℚ) - h ≤ h := by
      have : (p : ℚ) ≤ 2 * h := by exact_mod_cast (by omega : p ≤ 2 * h)
      linarith
    have hαR : (0 : ℝ) < α := by exact_mod_cast h0
    have hα1R : (α : ℝ) < 1 := by exact_mod_cast h1
    have p1 : 0 < 1 - u := by linarith
    have huR : (0 : ℝ) ≤ u := by exact_mod_cast hu
    have p1R : (0 : ℝ) < 1 - (u : ℝ) := by have : ((u : ℚ) : ℝ) < 1 := by exact_mod_cast hu1
                                           linarith
    -- the width
    have rw1 := Rel.mul hu1 hr (Rel.round hu1 hr (k := 0) (e := 1 - α) (θ := 1) (by simp) (by simp))
      (Rel.exact (rnd := rnd) (u := u) (h : ℚ))
    obtain ⟨θ, e1, e2, e3⟩ := rw1
    have hθ : 0 < θ := lt_of_lt_of_le (pow_pos p1 _) e2
    have hw0 : 0 ≤ (1 - α) * h * θ := mul_nonneg (mul_nonneg (by linarith) (by positivity)) hθ.le
    have hWN : W N = ⌊(1 - α) * h * θ⌋ := by
      rw [hW]
      simp only
      have e : (CppNum.ofInt 1 - RFl.fin α) * castK (N / 2) = (RFl.fin ((1 - α) * h * θ) : RFl rnd) := by
        rw [← e1, i1, RFl.sub_fin, hM.cast (by omega), mul_one, show N / 2 = h by omega]
      rw [if_neg (by omega), e]
      show (if 0 ≤ (1 - α) * h * θ then _ else _) = _
      rw [if_pos hw0]
    have hcode : (p : ℤ) - Int.tdiv ((N : ℤ) - 1) 2 ≤ W N ↔ (p : ℚ) - h ≤ (1 - α) * h * θ := by
      rw [hWN, Int.le_floor, hh, Int.tdiv_eq_ediv_of_nonneg (by omega)]
      have : ((((2 * h + 1 : ℕ) : ℤ) - 1) / 2) = (h : ℤ) := by omega
      rw [this]; push_cast; rfl
    have hspec : tukey α N p = if ((p : ℝ) - h) ≤ (1 - (α : ℝ)) * h then 1
        else (1 + Real.cos (Real.pi * ((p : ℝ) - h - (1 - α) * h) / (α * h))) / 2 := by
      unfold tukey
      rw [c0]
      have : (((N : ℝ) - 1) / 2) = h := by rw [hh]; push_cast; ring
      rw [this]; push_cast; rfl
    by_cases hz : h = 0
    · -- one point
      subst hz
      have hp : p = 0 := by omega
      subst hp
      refine ⟨1, ?_, ?_⟩
      · rw [hg]; simp only
        rw [if_pos (hcode.2 (by simp)), i1]
      · rw [hspec, if_pos (by simp)]
        obtain ⟨c, k1, k2, k3⟩ := hcos 0
        have hε0 : 0 ≤ ε := (abs_nonneg _).trans k3
        have k4 : (0 : ℝ) ≤ (1 + (u : ℝ)) ^ 2 - 1 := by nlinarith
        have k5 : (0 : ℝ) ≤ (1 + (u : ℝ)) ^ 5 - 1 := by
          have := one_le_pow₀ (n := 5) (show (1 : ℝ) ≤ 1 + u by linarith); linarith
        have k6 : (0 : ℝ) ≤ 1 / (1 - (u : ℝ)) ^ 2 - 1 := by
          have : (1 : ℝ) ≤ 1 / (1 - (u : ℝ)) ^ 2 := by
            rw [le_div_iff₀ (by positivity)]; nlinarith
          linarith
        have hπR : (0 : ℝ) < π' := by exact_mod_cast hπ
        have := abs_nonneg ((π' : ℝ) - Real.pi)
        rw [show ((1 : ℚ) : ℝ) - 1 = 0 by norm_num, abs_zero]
        positivity
    · have hhq : (0 : ℚ) < h := by exact_mod_cast Nat.pos_of_ne_zero hz
      have hhR : (0 : ℝ) < h := by exact_mod_cast hhq
      obtain ⟨φ, hφ⟩ : ∃ φ : ℚ, φ = ((p : ℚ) - h - (1 - α) * h) / (α * h) := ⟨_, rfl⟩
      have hαh : 0 < α * h := by positivity
      have hφR : (φ : ℝ) = ((p : ℝ) - h - (1 - α) * h) / (α * h) := by rw [hφ]; push_cast; rfl
      have hφ1 : |φ| ≤ 1 / α := by
        have k : |(p : ℚ) - h - (1 - α) * h| ≤ h := by
          have : (1 - α) * h ≤ h := by nlinarith
          have : 0 ≤ (1 - α) * h := mul_nonneg (by linarith) hhq.le
          rw [abs_le]; constructor <;> linarith
        rw [hφ, abs_div, abs_of_pos hαh, div_le_div_iff₀ hαh h0]
        nlinarith
      have hspec' : tukey α N p = if ((p : ℝ) - h) ≤ (1 - (α : ℝ)) * h then 1
        else (1 + Real.cos (Real.pi * φ)) / 2 := by
        rw [hspec, hφR]; congr 4; ring
      have hγ0 : (0 : ℝ) ≤ 1 / (1 - (u : ℝ)) ^ 2 - 1 := by
        have : (1 : ℝ) ≤ 1 / (1 - (u : ℝ)) ^ 2 := by
          rw [le_div_iff₀ (by positivity)]; nlinarith
        linarith
      have hMu2 : (0 : ℝ) ≤ (1 + (u : ℝ)) ^ 2 - 1 := by nlinarith
      have hMu5 : (0 : ℝ) ≤ (1 + (u : ℝ)) ^ 5 - 1 := by
        have := one_le_pow₀ (n := 5) (show (1 : ℝ) ≤ 1 + u by linarith); linarith
      have hπR : (0 : ℝ) < π' := by exact_mod_cast hπ
      -- near the edge of the flat part the taper is close to 1
      have hedge : |φ| ≤ (1 / (1 - u) ^ 2 - 1) / α → |(1 + Real.cos (Real.pi * φ)) / 2 - 1| ≤
          2 * (1 / (1 - (u : ℝ)) ^ 2 - 1) / α := by
        intro hle
        have hleR : |(φ : ℝ)| ≤ (1 / (1 - (u : ℝ)) ^ 2 - 1) / α := by exact_mod_cast hle
        have := Real.abs_cos_sub_cos_le (x := Real.pi * φ) (y := 0)
        rw [Real.cos_zero, sub_zero, abs_mul, abs_of_pos Real.pi_pos] at this
        rw [show (1 + Real.cos (Real.pi * φ)) / 2 - 1 = (Real.cos (Real.pi * φ) - 1) / 2 by ring, abs_div,
          abs_of_pos (by norm_num : (0 : ℝ) < 2)]
        have h4 := mul_le_mul_of_nonneg_right Real.pi_le_four (abs_nonneg (φ : ℝ))
        rw [mul_div_assoc]
        linarith
      -- the computed taper
      have b1 : Approx u 1 (2 / α) (2 / α) (CppNum.ofInt 2 / RFl.fin α : RFl rnd) := by
        rw [i2]; exact Approx.div hu hr h0 (Approx.exact (rnd := rnd) hu 0 2 2 (by norm_num))
      have b2 : Approx u 3 (1 - 2 / α) (1 + 2 / α) (CppNum.ofInt 1 - CppNum.ofInt 2 / RFl.fin α : RFl rnd) := by
        rw [i1]
        exact (Approx.sub hu hr (Approx.exact (rnd := rnd) hu 1 1 1 (by norm_num)) b1).mono hu (by omega) le_rfl
      have hNm : (CppNum.ofInt ((N : ℤ) - 1) : RFl rnd) = RFl.fin (2 * h : ℚ) := by
        have := hM.ofInt (z := (N : ℤ) - 1) (by rw [abs_of_nonneg] <;> omega)
        rw [this, hh]; congr 1; push_cast; ring
      have b3 : Approx u 3 (2 / α * p / (2 * h)) (2 / α)
          (CppNum.ofInt 2 / RFl.fin α * castK p / CppNum.ofInt ((N : ℤ) - 1) : RFl rnd) := by
        rw [hNm, hM.cast (by omega)]
        have := Approx.div hu hr (c := 2 * (h : ℚ)) (by positivity)
          (Approx.mul hu hr b1 (Approx.exact (rnd := rnd) hu 0 (p : ℚ) p (by rw [Nat.abs_cast])))
        refine this.mono hu (by omega) ?_
        rw [div_le_iff₀ (by positivity)]
        exact mul_le_mul_of_nonneg_left (by linarith) (by positivity)
      have b4 : Approx u 4 φ (5 / α)
          (CppNum.ofInt 1 - CppNum.ofInt 2 / RFl.fin α +
            CppNum.ofInt 2 / RFl.fin α * castK p / CppNum.ofInt ((N : ℤ) - 1) : RFl rnd) := by
        have := Approx.add hu hr b2 b3
        have e : 1 - 2 / α + 2 / α * (p : ℚ) / (2 * h) = φ := by rw [hφ]; field_simp; ring
        rw [e] at this
        refine this.mono hu (by omega) ?_
        have : 1 ≤ 1 / α := by rw [le_div_iff₀ h0]; linarith
        have e2 : 5 / α = 1 / α + 2 / α + 2 / α := by ring
        linarith
      obtain ⟨y, y1, y2, -⟩ := Approx.mul hu hr (Approx.exact (rnd := rnd) hu 0 π' π' (by rw [abs_of_pos hπ])) b4
      obtain ⟨c, k1, k2, k3⟩ := hcos y
      have hε0 : 0 ≤ ε := (abs_nonneg _).trans k3
      have b5 := Approx.mul hu hr (Approx.exact (rnd := rnd) hu 0 (1 / 2) (1 / 2) (by norm_num))
        (Approx.add hu hr (Approx.exact (rnd := rnd) hu 0 1 1 (by norm_num)) (Approx.exact (rnd := rnd) hu 0 c 1 k2))
      obtain ⟨v, v1, v2, -⟩ := b5
      have v3 : |(v : ℝ) - (1 + c) / 2| ≤ (1 + (u : ℝ)) ^ 2 - 1 := by
        have v2' : |v - (1 + c) / 2| ≤ (1 + u) ^ 2 - 1 := by
          have e : (1 : ℚ) / 2 * (1 + c) = (1 + c) / 2 := by ring
          rw [e] at v2; norm_num at v2; exact v2
        exact_mod_cast v2'
      have y3 : |(y : ℝ) - Real.pi * φ| ≤ (5 * ((1 + (u : ℝ)) ^ 5 - 1) * π' + |(π' : ℝ) - Real.pi|) / α := by
        have k4 : |(y : ℝ) - π' * φ| ≤ ((1 + (u : ℝ)) ^ 5 - 1) * (π' * (5 / α)) := by exact_mod_cast y2
        have hφ1R : |(φ : ℝ)| ≤ 1 / α := by exact_mod_cast hφ1
        have e : (y : ℝ) - Real.pi * φ = (y - π' * φ) + (π' - Real.pi) * φ := by ring
        rw [e]
        refine (abs_add_le _ _).trans ?_
        rw [abs_mul]
        have k5 := mul_le_mul_of_nonneg_left hφ1R (abs_nonneg ((π' : ℝ) - Real.pi))
        have e2 : (5 * ((1 + (u : ℝ)) ^ 5 - 1) * π' + |(π' : ℝ) - Real.pi|) / α =
          ((1 + (u : ℝ)) ^ 5 - 1) * (π' * (5 / α)) + |(π' : ℝ) - Real.pi| * (1 / α) := by ring
        rw [e2]; linarith
      have htaper : |(v : ℝ) - (1 + Real.cos (Real.pi * φ)) / 2| ≤ ((1 + (u : ℝ)) ^ 2 - 1) +
          (ε + (5 * ((1 + (u : ℝ)) ^ 5 - 1) * π' + |(π' : ℝ) - Real.pi|) / α) / 2 := by
        have k6 := Real.abs_cos_sub_cos_le (x := (y : ℝ)) (y := Real.pi * φ)
        have k7 : |(c : ℝ) - Real.cos (Real.pi * φ)| ≤ ε + (5 * ((1 + (u : ℝ)) ^ 5 - 1) * π' + |(π' : ℝ) - Real.pi|) / α := by
          have e : (c : ℝ) - Real.cos (Real.pi * φ) = (c - Real.cos y) + (Real.cos y - Real.cos (Real.pi * φ)) := by ring
          rw [e]; refine (abs_add_le _ _).trans ?_; linarith
        have e : (v : ℝ) - (1 + Real.cos (Real.pi * φ)) / 2 = (v - (1 + c) / 2) + (c - Real.cos (Real.pi * φ)) / 2 := by ring
        rw [e]
        refine (abs_add_le _ _).trans ?_
        rw [abs_div, abs_of_pos (by norm_num : (0 : ℝ) < 2)]
        linarith
      have hE1 : (0 : ℝ) ≤ ((1 + (u : ℝ)) ^ 2 - 1) +
          (ε + (5 * ((1 + (u : ℝ)) ^ 5 - 1) * π' + |(π' : ℝ) - Real.pi|) / α) / 2 := by
        have := abs_nonneg ((π' : ℝ) - Real.pi)
        positivity
      have hE2 : (0 : ℝ) ≤ 2 * (1 / (1 - (u : ℝ)) ^ 2 - 1) / α := by positivity
      have hth1 : (1 - u) ^ 2 ≤ θ := by simpa using e2
      have hth2 : θ ≤ 1 / (1 - u) ^ 2 := by rw [le_div_iff₀ (pow_pos p1 2)]; simpa using e3
      have hγq : 1 - (1 - u) ^ 2 ≤ 1 / (1 - u) ^ 2 - 1 := by
        have e : 1 / (1 - u) ^ 2 - 1 - (1 - (1 - u) ^ 2) = (1 - (1 - u) ^ 2) ^ 2 / (1 - u) ^ 2 := by field_simp
        have : 0 ≤ (1 - (1 - u) ^ 2) ^ 2 / (1 - u) ^ 2 := by positivity
        linarith
      have hαq : 0 ≤ (1 - α) * h := mul_nonneg (by linarith) hhq.le
      have hαq1 : (1 - α) * h ≤ h := by nlinarith
      by_cases hfl : (p : ℚ) - h ≤ (1 - α) * h * θ
      · refine ⟨1, ?_, ?_⟩
        · rw [hg]; simp only
          rw [if_pos (hcode.2 hfl), i1]
        · rw [hspec']
          split
          · rw [show ((1 : ℚ) : ℝ) - 1 = 0 by norm_num, abs_zero]; linarith
          · rename_i hs
            have hs' : (1 - α) * h < (p : ℚ) - h := by
              push Not at hs; exact_mod_cast hs
            have : |φ| ≤ (1 / (1 - u) ^ 2 - 1) / α := by
              rw [hφ, abs_of_pos (div_pos (by linarith) hαh), div_le_div_iff₀ hαh h0]
              have k8 : (p : ℚ) - h - (1 - α) * h ≤ (1 / (1 - u) ^ 2 - 1) * h := by
                have k9 := mul_le_mul_of_nonneg_left hth2 hαq
                have k10 : (1 - α) * h * (1 / (1 - u) ^ 2 - 1) ≤ h * (1 / (1 - u) ^ 2 - 1) :=
                  mul_le_mul_of_nonneg_right hαq1 (by exact_mod_cast hγ0)
                linarith
              have := mul_le_mul_of_nonneg_right k8 h0.le
              linarith
            have := hedge this
            rw [show ((1 : ℚ) : ℝ) = 1 by norm_num, abs_sub_comm]
            linarith
      · refine ⟨v, ?_, ?_⟩
        · rw [hg]; simp only
          rw [if_neg (fun hc => hfl (hcode.1 hc)), y1, k1, lit_half hM (by omega), i1]
          exact v1
        · rw [hspec']
          split
          · rename_i hs
            have hs' : (p : ℚ) - h ≤ (1 - α) * h := by exact_mod_cast hs
            push Not at hfl
            have hle : |φ| ≤ (1 / (1 - u) ^ 2 - 1) / α := by
              rw [hφ, abs_of_nonpos (div_nonpos_of_nonpos_of_nonneg (by linarith) hαh.le), ← neg_div,
                div_le_div_iff₀ hαh h0]
              have k8 : -((p : ℚ) - h - (1 - α) * h) ≤ (1 / (1 - u) ^ 2 - 1) * h := by
                have k9 := mul_le_mul_of_nonneg_left hth1 hαq
                have k10 : (1 - α) * h * (1 - (1 - u) ^ 2) ≤ (1 - α) * h * (1 / (1 - u) ^ 2 - 1) :=
                  mul_le_mul_of_nonneg_left hγq hαq
                have k11 : (1 - α) * h * (1 / (1 - u) ^ 2 - 1) ≤ h * (1 / (1 - u) ^ 2 - 1) :=
                  mul_le_mul_of_nonneg_right hαq1 (by exact_mod_cast hγ0)
                linarith
              have := mul_le_mul_of_nonneg_right k8 h0.le
              linarith
            have k12 := hedge hle
            have e : (v : ℝ) - 1 = (v - (1 + Real.cos (Real.pi * φ)) / 2) + ((1 + Real.cos (Real.pi * φ)) / 2 - 1) := by ring
            rw [e]
            exact (abs_add_le _ _).trans (add_le_add htaper k12)
          · linarith

end errors

/-- C117: `tukey` with `α ≤ 0` is the rectangular window and with `α ≥ 1` the symmetric Hann window, whatever was asked. -/
theorem C117_tukey_ends (h0 : rnd 0 = 0) (h1 : rnd 1 = 1) (π' : RFl rnd) (sin cos exp sqrt bessel : RFl rnd → RFl rnd)
    (pow : RFl rnd → RFl rnd → RFl rnd) (α : ℚ) (s : Sym) (m : ℕ) :
    (α ≤ 0 → tukeyK (roundOps2 rnd π' sin cos exp sqrt bessel pow) s m (RFl.fin α) = .ok (List.replicate m (RFl.fin 1))) ∧
    (1 ≤ α → tukeyK (roundOps2 rnd π' sin cos exp sqrt bessel pow) s m (RFl.fin α) =
      hannK (roundOps rnd π' cos exp sqrt bessel) .symmetric m) := by
  have i0 : (CppNum.ofInt 0 : RFl rnd) = RFl.fin 0 := by
    show RFl.fin (rnd ((0 : ℤ) : ℚ)) = RFl.fin 0
    rw [Int.cast_zero, h0]
  have i1 : (CppNum.ofInt 1 : RFl rnd) = RFl.fin 1 := by
    show RFl.fin (rnd ((1 : ℤ) : ℚ)) = RFl.fin 1
    rw [Int.cast_one, h1]
  constructor
  · intro h
    unfold tukeyK
    rw [i0, i1, if_pos (by simp [roundOps2, h])]
  · intro h
    unfold tukeyK
    rw [i0, i1, if_neg (by simp [roundOps2]; linarith), if_pos (by simp [roundOps2, h])]
    rfl

/-- C117: no samples: `cosine` and `bohman` return an empty array; one sample of `bohman` is NaN (`0 · ∞ - 1`), not 1. -/
theorem C117_small (h0 : rnd 0 = 0) (h1 : rnd 1 = 1) (h2 : rnd 2 = 2) (π' : ℚ) (sin cos exp sqrt bessel : RFl rnd → RFl rnd)
    (pow : RFl rnd → RFl rnd → RFl rnd) (hsin : sin RFl.nan = RFl.nan) (hcos : cos RFl.nan = RFl.nan) :
    cosineWinK (roundOps2 rnd (RFl.fin π') sin cos exp sqrt bessel pow) .symmetric 0 = .ok [] ∧
    bohmanK (roundOps2 rnd (RFl.fin π') sin cos exp sqrt bessel pow) .symmetric 0 = .ok [] ∧
    bohmanK (roundOps2 rnd (RFl.fin π') sin cos exp sqrt bessel pow) .symmetric 1 = .ok [RFl.nan] := by
  have i : ∀ n : ℤ, (CppNum.ofInt n : RFl rnd) = RFl.fin (rnd n) := fun _ => rfl
  refine ⟨rfl, rfl, ?_⟩
  unfold bohmanK bohmanFillerK buildWindow
  simp [fillIdxK, symmetricFiller, sizeM1K, castK, i, h0, h1, h2]
  have tn : (roundOps2 rnd (RFl.fin π') sin cos exp sqrt bessel pow).toN (RFl.fin 0) = 0 := rfl
  have e1 : (RFl.fin 2 / RFl.fin 0 : RFl rnd) = RFl.inf false := rfl
  have e2 : (RFl.fin 0 * RFl.inf false : RFl rnd) = RFl.nan := rfl
  have e3 : ∀ x : RFl rnd, (RFl.nan * x : RFl rnd) = RFl.nan := fun _ => rfl
  have e4 : (RFl.fin π' * RFl.nan : RFl rnd) = RFl.nan := rfl
  have ec : (roundOps2 rnd (RFl.fin π') sin cos exp sqrt bessel pow).cos = cos := rfl
  have es : (roundOps2 rnd (RFl.fin π') sin cos exp sqrt bessel pow).sin = sin := rfl
  have ep : (roundOps2 rnd (RFl.fin π') sin cos exp sqrt bessel pow).pi = RFl.fin π' := rfl
  have e5 : (RFl.nan - RFl.fin 1 : RFl rnd) = RFl.nan := rfl
  rw [tn, e1, Nat.cast_zero, h0, e2, e5, ec, es, ep, e4, hcos, hsin]
  rfl

/-- C117: all samples of `tukey` with `0 < α < 1` are between 0 and 1, for every length, when `std::cos` returns values in
`[-1, 1]`. -/
theorem C117_tukey_range (hmono : Monotone rnd) (π' : ℚ) (sin cos exp sqrt bessel : RFl rnd → RFl rnd)
    (pow : RFl rnd → RFl rnd → RFl rnd) (hcos : ∀ x : ℚ, ∃ c : ℚ, cos (RFl.fin x) = RFl.fin c ∧ |c| ≤ 1) (α : ℚ) (h0 : 0 < α)
    (h1 : α < 1) (s : Sym) (m : ℕ) (hM : HalvesExact rnd (4 * m + 8)) :
    ∃ r, tukeyK (roundOps2 rnd (RFl.fin π') sin cos exp sqrt bessel pow) s m (RFl.fin α) = .ok r ∧ r.length = m ∧
      ∀ x ∈ r, ∃ v, x = RFl.fin v ∧ 0 ≤ v ∧ v ≤ 1 := by
  have i0 : (CppNum.ofInt 0 : RFl rnd) = RFl.fin 0 := by
    have := hM.ofInt (z := 0) (by norm_num; omega); exact_mod_cast this
  have i1 : (CppNum.ofInt 1 : RFl rnd) = RFl.fin 1 := by
    have := hM.ofInt (z := 1) (by norm_num; omega); exact_mod_cast this
  have i2 : (CppNum.ofInt 2 : RFl rnd) = RFl.fin 2 := by
    have := hM.ofInt (z := 2) (by norm_num; omega); exact_mod_cast this
  have r0 : rnd 0 = 0 := by have := hM.int (z := 0) (by norm_num; omega); exact_mod_cast this
  have r1 : rnd 1 = 1 := by have := hM.int (z := 1) (by norm_num; omega); exact_mod_cast this
  have r2 : rnd 2 = 2 := by have := hM.int (z := 2) (by norm_num; omega); exact_mod_cast this
  obtain ⟨W, hW⟩ : ∃ W : ℕ → ℤ, W = fun n =>
    if n % 2 = 0 ∧ Fl.toInt ((CppNum.ofInt 1 - RFl.fin α) * castK (n / 2) : RFl rnd) = 0 then 1
      else Fl.toInt ((CppNum.ofInt 1 - RFl.fin α) * castK (n / 2) : RFl rnd) := ⟨_, rfl⟩
  obtain ⟨g, hg⟩ : ∃ g : ℕ → RFl rnd → RFl rnd, g = fun (n : ℕ) (t : RFl rnd) =>
    if ((Fl.toNat t : ℕ) : ℤ) - Int.tdiv ((n : ℤ) - 1) 2 ≤ W n then CppNum.ofInt 1
    else RFl.fin (rnd 0.5) * (CppNum.ofInt 1 + cos (RFl.fin π' *
      (CppNum.ofInt 1 - CppNum.ofInt 2 / RFl.fin α + CppNum.ofInt 2 / RFl.fin α * castK (Fl.toNat t) /
        CppNum.ofInt ((n : ℤ) - 1)))) := ⟨_, rfl⟩
  have hb : tukeyK (roundOps2 rnd (RFl.fin π') sin cos exp sqrt bessel pow) s m (RFl.fin α) =
      buildWindow 0 s m (fun w => symmetricFiller castK (g w.length) w) := by
    unfold tukeyK
    rw [if_neg (show ¬ (roundOps2 rnd (RFl.fin π') sin cos exp sqrt bessel pow).le (RFl.fin α) (CppNum.ofInt 0) = true by
        rw [i0]; simp [roundOps2, h0]),
      if_neg (show ¬ (roundOps2 rnd (RFl.fin π') sin cos exp sqrt bessel pow).le (CppNum.ofInt 1) (RFl.fin α) = true by
        rw [i1]; simp [roundOps2, h1]), hg, hW]
    rfl
  rw [hb]
  refine build_forall 0 castK g _ m s (fun n i hn hi1 hi2 => ?_)
  have hnm : n ≤ m + 1 := by omega
  rw [hg]
  simp only
  rw [hM.cast (n := i) (by omega), show Fl.toNat (RFl.fin (i : ℚ) : RFl rnd) = i from toNat_fin i]
  split
  · exact ⟨1, i1, by norm_num, le_rfl⟩
  · rename_i hlt
    have hn1 : n ≠ 1 := by
      rintro rfl
      have : i = 0 := by omega
      subst this
      apply hlt
      have z0 : ((CppNum.ofInt 1 - RFl.fin α) * castK (1 / 2) : RFl rnd) = RFl.fin 0 := by
        rw [show (1 / 2 : ℕ) = 0 from rfl, hM.cast (n := 0) (by omega), i1, RFl.sub_fin, RFl.mul_fin, Nat.cast_zero, mul_zero, r0]
      rw [hW]
      show ((0 : ℕ) : ℤ) - Int.tdiv (((1 : ℕ) : ℤ) - 1) 2 ≤ if (1 : ℕ) % 2 = 0 ∧
        Fl.toInt ((CppNum.ofInt 1 - RFl.fin α) * castK (1 / 2) : RFl rnd) = 0 then 1
        else Fl.toInt ((CppNum.ofInt 1 - RFl.fin α) * castK (1 / 2) : RFl rnd)
      rw [z0, if_neg (fun h => absurd h.1 (by decide))]
      have t0 : Fl.toInt (RFl.fin 0 : RFl rnd) = 0 := by
        show (if (0 : ℚ) ≤ 0 then ⌊(0 : ℚ)⌋ else ⌈(0 : ℚ)⌉) = 0
        simp
      rw [t0]
      simp
    have hN1 : (CppNum.ofInt ((n : ℤ) - 1) : RFl rnd) = RFl.fin ((n : ℚ) - 1) := by
      have := hM.ofInt (z := (n : ℤ) - 1) (by rw [abs_of_nonneg] <;> omega)
      rw [this]; congr 1; push_cast; ring
    have hnz : ((n : ℚ) - 1) ≠ 0 := by
      have : (2 : ℚ) ≤ n := by exact_mod_cast (by omega : 2 ≤ n)
      linarith
    rw [i1, i2, RFl.div_fin h0.ne', RFl.sub_fin, hM.cast (n := i) (by omega), RFl.mul_fin, hN1, RFl.div_fin hnz, RFl.add_fin,
      RFl.mul_fin]
    obtain ⟨c, c1, c2⟩ := hcos (rnd (π' * rnd (rnd (1 - rnd (2 / α)) + rnd (rnd (rnd (2 / α) * i) / ((n : ℚ) - 1)))))
    rw [c1, RFl.add_fin, lit_half hM (by omega), RFl.mul_fin]
    obtain ⟨cl, cu⟩ := abs_le.1 c2
    have s0 : 0 ≤ rnd (1 + c) := by rw [← r0]; exact hmono (by linarith)
    have s1 : rnd (1 + c) ≤ 2 := by rw [← r2]; exact hmono (by linarith)
    refine ⟨_, rfl, ?_, ?_⟩
    · have := hmono (show (0 : ℚ) ≤ 1 / 2 * rnd (1 + c) by linarith)
      rwa [r0] at this
    · have := hmono (show 1 / 2 * rnd (1 + c) ≤ (1 : ℚ) by linarith)
      rwa [r1] at this

/-- C117: the end samples of a Tukey window with a tiny taper: `tukey(3, 2^-53)` is `{1, 1, 1}`, while the textbook window
ends in 0 (`1 - 2/α` loses the 1). -/
theorem C117_tukey_end (π' : ℚ) (sin cos exp sqrt bessel : F64 → F64) (pow : F64 → F64 → F64) (hcos : cos (RFl.fin 0) = RFl.fin 1) :
    tukeyK (roundOps2 rnd64 (RFl.fin π') sin cos exp sqrt bessel pow) .symmetric 3 (RFl.fin (1 / 2 ^ 53)) =
      .ok [RFl.fin 1, RFl.fin 1, RFl.fin 1] ∧ tukey (1 / 2 ^ 53) 3 0 = 0 ∧ tukey (1 / 2 ^ 53) 3 2 = 0 := by
  refine ⟨?_, ?_, ?_⟩
  · unfold tukeyK
    have q0 : (CppNum.ofInt 0 : F64) = RFl.fin 0 := by decide +kernel
    have q1 : (CppNum.ofInt 1 : F64) = RFl.fin 1 := by decide +kernel
    rw [if_neg (show ¬ (roundOps2 rnd64 (RFl.fin π') sin cos exp sqrt bessel pow).le (RFl.fin (1 / 2 ^ 53)) (CppNum.ofInt 0) =
        true by rw [q0]; simp [roundOps2]),
      if_neg (show ¬ (roundOps2 rnd64 (RFl.fin π') sin cos exp sqrt bessel pow).le (CppNum.ofInt 1) (RFl.fin (1 / 2 ^ 53)) =
        true by rw [q1]; simp [roundOps2]; norm_num)]
    show symmetricFiller _ _ _ = _
    rw [symmetricFiller_eq]
    have k1 : Fl.toInt ((CppNum.ofInt 1 - RFl.fin (1 / 2 ^ 53)) * castK 1 : F64) = 0 := by decide +kernel
    have k2 : (CppNum.ofInt 1 - CppNum.ofInt 2 / RFl.fin (1 / 2 ^ 53) +
        CppNum.ofInt 2 / RFl.fin (1 / 2 ^ 53) * castK 2 / CppNum.ofInt 2 : F64) = RFl.fin 0 := by decide +kernel
    have k3 : (RFl.fin π' * RFl.fin 0 : F64) = RFl.fin 0 := by rw [RFl.mul_fin, mul_zero, rnd64_zero]
    have k4 : (RFl.fin (rnd64 0.5) * (CppNum.ofInt 1 + RFl.fin 1) : F64) = RFl.fin 1 := by decide +kernel
    have k5 : (CppNum.ofInt 1 : F64) = RFl.fin 1 := by decide +kernel
    have t1 : Fl.toNat (castK 1 : F64) = 1 := by decide +kernel
    have t2 : Fl.toNat (castK 2 : F64) = 2 := by decide +kernel
    have v1 : (if ((Fl.toNat (castK 1 : F64) : ℕ) : ℤ) - Int.tdiv (((3 : ℕ) : ℤ) - 1) 2 ≤ (if (3 : ℕ) % 2 = 0 ∧
        Fl.toInt ((CppNum.ofInt 1 - RFl.fin (1 / 2 ^ 53)) * castK 1 : F64) = 0 then (1 : ℤ) else
        Fl.toInt ((CppNum.ofInt 1 - RFl.fin (1 / 2 ^ 53)) * castK 1 : F64)) then (CppNum.ofInt 1 : F64)
      else RFl.fin (rnd64 0.5) * (CppNum.ofInt 1 + cos (RFl.fin π' * (CppNum.ofInt 1 - CppNum.ofInt 2 / RFl.fin (1 / 2 ^ 53) +
        CppNum.ofInt 2 / RFl.fin (1 / 2 ^ 53) * castK (Fl.toNat (castK 1 : F64)) / CppNum.ofInt (((3 : ℕ) : ℤ) - 1))))) = RFl.fin 1 := by
      rw [t1, k1]; exact k5
    have v2 : (if ((Fl.toNat (castK 2 : F64) : ℕ) : ℤ) - Int.tdiv (((3 : ℕ) : ℤ) - 1) 2 ≤ (if (3 : ℕ) % 2 = 0 ∧
        Fl.toInt ((CppNum.ofInt 1 - RFl.fin (1 / 2 ^ 53)) * castK 1 : F64) = 0 then (1 : ℤ) else
        Fl.toInt ((CppNum.ofInt 1 - RFl.fin (1 / 2 ^ 53)) * castK 1 : F64)) then (CppNum.ofInt 1 : F64)
      else RFl.fin (rnd64 0.5) * (CppNum.ofInt 1 + cos (RFl.fin π' * (CppNum.ofInt 1 - CppNum.ofInt 2 / RFl.fin (1 / 2 ^ 53) +
        CppNum.ofInt 2 / RFl.fin (1 / 2 ^ 53) * castK (Fl.toNat (castK 2 : F64)) / CppNum.ofInt (((3 : ℕ) : ℤ) - 1))))) = RFl.fin 1 := by
      rw [t2, k1, show (((3 : ℕ) : ℤ) - 1) = 2 by norm_num, k2, k3, hcos, k4]
      rfl
    have key : ∀ {a b c : F64}, a = RFl.fin 1 → b = RFl.fin 1 → c = RFl.fin 1 →
        (Res.ok [a, b, c] : Res (List F64)) = .ok [RFl.fin 1, RFl.fin 1, RFl.fin 1] := by
      rintro a b c rfl rfl rfl; rfl
    refine key ?_ ?_ ?_
    · exact v2
    · exact v1
    · exact v2
  · unfold tukey centred
    rw [if_neg (by norm_num [abs_of_neg])]
    norm_num [abs_of_neg]
  · unfold tukey centred
    rw [if_neg (by norm_num)]
    norm_num

/-! ### The hypotheses are met -/

/-- For every function there is a library with a given relative accuracy. -/
theorem exists_lib (F : ℚ → ℝ) (ε : ℝ) (hε : 0 < ε) : ∃ lib : RFl rnd → RFl rnd,
    ∀ x : ℚ, ∃ c : ℚ, lib (RFl.fin x) = RFl.fin c ∧ |c| ≤ |F x| ∧ |(c : ℝ) - F x| ≤ ε * |F x| := by
  have h : ∀ x : ℚ, ∃ c : ℚ, |(c : ℝ)| ≤ |F x| ∧ |(c : ℝ) - F x| ≤ ε * |F x| := by
    intro x
    rcases lt_trichotomy (F x) 0 with hx | hx | hx
    · obtain ⟨c, c1, c2⟩ := exists_rat_btwn (show F x < min 0 (F x + ε * |F x|) by
        have : 0 < ε * |F x| := mul_pos hε (abs_pos.2 hx.ne)
        exact lt_min hx (by linarith))
      have c3 := lt_of_lt_of_le c2 (min_le_left _ _)
      have c4 := lt_of_lt_of_le c2 (min_le_right _ _)
      refine ⟨c, ?_, ?_⟩
      · rw [abs_of_neg c3, abs_of_neg hx]; linarith
      · rw [abs_of_pos (by linarith)]; linarith
    · exact ⟨0, by simp [hx], by simp [hx]⟩
    · obtain ⟨c, c1, c2⟩ := exists_rat_btwn (show max 0 (F x - ε * |F x|) < F x by
        have : 0 < ε * |F x| := mul_pos hε (abs_pos.2 hx.ne')
        exact max_lt hx (by linarith))
      have c3 := lt_of_le_of_lt (le_max_left _ _) c1
      have c4 := lt_of_le_of_lt (le_max_right _ _) c1
      refine ⟨c, ?_, ?_⟩
      · rw [abs_of_pos c3, abs_of_pos hx]; linarith
      · rw [abs_of_neg (by linarith)]; linarith
  choose C hC using h
  refine ⟨fun v => match v with
    | Fl.fin x => RFl.fin (C x)
    | _ => RFl.nan, fun x => ⟨C x, rfl, ?_⟩⟩
  exact_mod_cast hC x

theorem halves64 (M : ℕ) (h : M < 2 ^ 53) : HalvesExact rnd64 M := by
  intro z hz
  have := rnd64_exact z (-1) (by omega)
  rw [zpow_neg_one] at this
  rw [div_eq_mul_inv]; exact this

/-- In `double`, with libraries accurate to `2^-53`: cosine, Bohman, Lanczos, Gaussian, Parzen and Tukey windows of 1001
points. -/
example : ∃ sin cos exp : F64 → F64, ∃ E1 E2 E3 E4 E5 E6 : ℝ,
    WindowWithin (cosineWinK (roundOps2 rnd64 (RFl.fin piD64) sin cos exp id id (fun x _ => x)) .symmetric 1001) .symmetric 1001
      cosineWin E1 ∧
    WindowWithin (bohmanK (roundOps2 rnd64 (RFl.fin piD64) sin cos exp id id (fun x _ => x)) .symmetric 1001) .symmetric 1001
      bohman E2 ∧
    WindowWithin (lanczosK (roundOps2 rnd64 (RFl.fin piD64) sin cos exp id id (fun x _ => x)) .periodic 1001) .periodic 1001
      lanczos E3 ∧
    WindowWithin (gaussianK (roundOps rnd64 (RFl.fin piD64) cos exp id id) .symmetric 1001 (RFl.fin 7)) .symmetric 1001
      (gaussian (7 : ℚ)) E4 ∧
    WindowWithin (parzenK (roundOps rnd64 (RFl.fin piD64) cos exp id id) .symmetric 1001) .symmetric 1001 parzen E5 ∧
    WindowWithin (tukeyK (roundOps2 rnd64 (RFl.fin piD64) sin cos exp id id (fun x _ => x)) .symmetric 1001 (RFl.fin (1 / 2)))
      .symmetric 1001 (tukey (1 / 2 : ℚ)) E6 := by
  obtain ⟨sin, hsin⟩ := exists_lib (rnd := rnd64) (fun x => Real.sin x) (1 / 2 ^ 53) (by norm_num)
  obtain ⟨cos, hcos⟩ := exists_lib (rnd := rnd64) (fun x => Real.cos x) (1 / 2 ^ 53) (by norm_num)
  obtain ⟨exp, hexp⟩ := exists_lib (rnd := rnd64) (fun x => Real.exp x) (1 / 2 ^ 53) (by norm_num)
  have hu : (0 : ℚ) ≤ 1 / 2 ^ 53 := by norm_num
  have hu1 : (1 : ℚ) / 2 ^ 53 < 1 := by norm_num
  have hr : ∀ x, |rnd64 x - x| ≤ 1 / 2 ^ 53 * |x| := rnd64_err
  have hsin' : ∀ x : ℚ, ∃ c : ℚ, sin (RFl.fin x) = RFl.fin c ∧ |c| ≤ 1 ∧ |(c : ℝ) - Real.sin x| ≤ 1 / 2 ^ 53 := fun x => by
    obtain ⟨c, h1, h2, h3⟩ := hsin x
    have := Real.abs_sin_le_one (x : ℝ)
    exact ⟨c, h1, by have : |(c : ℝ)| ≤ 1 := by exact_mod_cast h2.trans this
                     exact_mod_cast this, h3.trans (mul_le_of_le_one_right (by norm_num) this)⟩
  have hcos' : ∀ x : ℚ, ∃ c : ℚ, cos (RFl.fin x) = RFl.fin c ∧ |c| ≤ 1 ∧ |(c : ℝ) - Real.cos x| ≤ 1 / 2 ^ 53 := fun x => by
    obtain ⟨c, h1, h2, h3⟩ := hcos x
    have := Real.abs_cos_le_one (x : ℝ)
    exact ⟨c, h1, by have : |(c : ℝ)| ≤ 1 := by exact_mod_cast h2.trans this
                     exact_mod_cast this, h3.trans (mul_le_of_le_one_right (by norm_num) this)⟩
  have hexp' : ∀ x : ℚ, x ≤ 0 → ∃ c : ℚ, exp (RFl.fin x) = RFl.fin c ∧ |(c : ℝ) - Real.exp x| ≤ 1 / 2 ^ 53 := fun x hx => by
    obtain ⟨c, h1, h2, h3⟩ := hexp x
    have : |Real.exp (x : ℝ)| ≤ 1 := by
      rw [abs_of_pos (Real.exp_pos _), Real.exp_le_one_iff]; exact_mod_cast hx
    exact ⟨c, h1, h3.trans (mul_le_of_le_one_right (by norm_num) this)⟩
  exact ⟨sin, cos, exp, _, _, _, _, _, _,
    C117_cosine hu hr piD64 _ sin cos exp id id _ (fun x => by obtain ⟨c, h1, -, h3⟩ := hsin' x; exact ⟨c, h1, h3⟩)
      .symmetric 1001 (halves64 _ (by norm_num)) (by norm_num),
    C117_bohman hu hr piD64 (by unfold piD64; norm_num) _ sin cos exp id id _ hsin' hcos' .symmetric 1001
      (halves64 _ (by norm_num)) (by decide),
    C117_lanczos hu hu1 hr piD64 (by unfold piD64; norm_num) _ sin cos exp id id _
      (fun x => by obtain ⟨c, h1, -, h3⟩ := hsin x; exact ⟨c, h1, h3⟩) .periodic 1001 (halves64 _ (by norm_num)) (by decide),
    C117_gaussian hu hu1 hr (by norm_num) _ _ cos exp id id hexp' 7 (by norm_num) .symmetric 1001 (halves64 _ (by norm_num)),
    C117_parzen hu hr _ cos exp id id .symmetric 1001 (halves64 _ (by norm_num)),
    C117_tukey_partial hu hu1 hr piD64 (by unfold piD64; norm_num) _ sin cos exp id id _ hcos' (1 / 2) (by norm_num)
      (by norm_num) .symmetric 1001 (halves64 _ (by norm_num)) (by decide)⟩

end SciCpp
