import Verif.Model.CtRoot
import Verif.Proofs.Near
import Verif.Proofs.F64
import Verif.Props.FloatSign
import Mathlib.Data.Real.Basic
/-
  Property theorems C99 (compile-time roots in floating point arithmetic).
-/
namespace SciCpp

section Rounded

variable {rnd : ℚ → ℚ} {u : ℚ}

/-- The power computed in floating point is within `n - 1` roundings of the exact one. -/
theorem powSq_near (hu : 0 ≤ u) (hu1 : u < 1) (hr : ∀ x, |rnd x - x| ≤ u * |x|)
    (hid : ∀ x, rnd (rnd x) = rnd x) (h1 : rnd 1 = 1) (r : ℚ) (hr0 : 0 < r) (hrr : rnd r = r) (n : ℕ)
    (hn : 1 ≤ n) :
    ∃ q, powSq (RFl.fin r : RFl rnd) (n : ℤ) = RFl.fin q ∧ Near (1 - u) (n - 1) (r ^ n) q := by
  have hg : 0 < 1 - u := by linarith
  induction n using Nat.strong_induction_on with
  | _ n ih =>
    have hdiv : ((n : ℤ)).tdiv 2 = ((n / 2 : ℕ) : ℤ) := by
      rw [Int.tdiv_eq_ediv_of_nonneg (by omega)]; rfl
    have hmod : ((n : ℤ)).tmod 2 = ((n % 2 : ℕ) : ℤ) := by
      rw [Int.tmod_eq_emod_of_nonneg (by omega)]; rfl
    rw [powSq, if_neg (by omega), hdiv, hmod]
    by_cases h2 : n = 1
    · subst h2
      refine ⟨r, ?_, by simpa using Near.refl hr0⟩
      have : powSq (RFl.fin r : RFl rnd) ((1 / 2 : ℕ) : ℤ) = 1 := by rw [powSq]; simp
      simp only [this, RFl.one_fin, RFl.mul_fin]
      norm_num [h1, hrr]
    · obtain ⟨p, hp1, hp2⟩ := ih (n / 2) (by omega) (by omega)
      simp only [hp1]
      have hsq : Near (1 - u) (n / 2 - 1 + (n / 2 - 1) + 1) (r ^ (n / 2) * r ^ (n / 2)) (rnd (p * p)) :=
        (hp2.mul hg hp2).round hu hu1 hr
      rcases Nat.mod_two_eq_zero_or_one n with hm | hm
      · refine ⟨rnd (p * p), ?_, ?_⟩
        · rw [hm, if_pos (by norm_num), RFl.mul_fin, RFl.one_fin, RFl.mul_fin, mul_one, hid]
        · rw [← pow_add] at hsq
          rw [show n / 2 + n / 2 = n by omega, show n / 2 - 1 + (n / 2 - 1) + 1 = n - 1 by omega] at hsq
          exact hsq
      · refine ⟨rnd (rnd (p * p) * r), ?_, ?_⟩
        · rw [hm, if_neg (by norm_num), RFl.mul_fin, RFl.mul_fin]
        · have := (hsq.mul hg (Near.refl (g := 1 - u) hr0)).round hu hu1 hr
          rw [← pow_add, ← pow_succ] at this
          rw [show n / 2 + n / 2 + 1 = n by omega,
            show n / 2 - 1 + (n / 2 - 1) + 1 + 0 + 1 = n - 1 by omega] at this
          exact this

/-- One step: the rounded sum of the two rounded terms. -/
theorem newtonStep_near (hu : 0 ≤ u) (hu1 : u < 1) (hr : ∀ x, |rnd x - x| ≤ u * |x|)
    (hid : ∀ x, rnd (rnd x) = rnd x) (h1 : rnd 1 = 1) (N : ℕ) (hN : 2 ≤ N) (hN0 : rnd N = N)
    (hN1 : rnd ((N : ℚ) - 1) = N - 1) (x : ℚ) (hx : 0 < x) (c : ℚ) (hc0 : 0 < c) (hc : rnd c = c) :
    ∃ A B r, newtonStep N (RFl.fin x : RFl rnd) (RFl.fin c) = RFl.fin r ∧ 0 < r ∧ rnd r = r ∧
      Near (1 - u) 1 (((N : ℚ) - 1) * c) A ∧ Near (1 - u) (N - 1) (x / c ^ (N - 1)) B ∧
      Near (1 - u) 2 ((A + B) / N) r := by
  have hg : 0 < 1 - u := by linarith
  have hNp : (0 : ℚ) < N := by exact_mod_cast (by omega : 0 < N)
  have hM : (0 : ℚ) < (N : ℚ) - 1 := by
    have : (2 : ℚ) ≤ N := by exact_mod_cast hN
    linarith
  obtain ⟨w, hw1, hw2⟩ := powSq_near hu hu1 hr hid h1 c hc0 hc (N - 1) (by omega)
  have hw0 := hw2.pos hg
  have hA : Near (1 - u) 1 (((N : ℚ) - 1) * c) (rnd (((N : ℚ) - 1) * c)) :=
    (Near.refl (mul_pos hM hc0)).round hu hu1 hr
  have hB : Near (1 - u) (N - 1) (x / c ^ (N - 1)) (rnd (x / w)) := by
    have := ((Near.refl (g := 1 - u) hx).div hg hw2).round hu hu1 hr
    rwa [show 0 + (N - 1 - 1) + 1 = N - 1 by omega] at this
  have hs : Near (1 - u) 0 ((rnd (((N : ℚ) - 1) * c) + rnd (x / w)) / N)
      ((rnd (((N : ℚ) - 1) * c) + rnd (x / w)) / N) := Near.refl (div_pos (add_pos (hA.pos hg) (hB.pos hg)) hNp)
  have hs1 : Near (1 - u) 1 (rnd (((N : ℚ) - 1) * c) + rnd (x / w))
      (rnd (rnd (((N : ℚ) - 1) * c) + rnd (x / w))) :=
    (Near.refl (add_pos (hA.pos hg) (hB.pos hg))).round hu hu1 hr
  have hs2 := (hs1.div hg (Near.refl (g := 1 - u) hNp)).round hu hu1 hr
  refine ⟨_, _, _, ?_, hs2.pos hg, hid _, hA, hB, hs2⟩
  unfold newtonStep
  have e : ((N : ℤ) - 1) = ((N - 1 : ℕ) : ℤ) := by omega
  rw [RFl.ofInt_def, RFl.ofInt_def]
  push_cast
  rw [hN0, hN1, e, hw1, RFl.mul_fin, RFl.div_fin hw0.ne', RFl.add_fin, RFl.div_fin hNp.ne']

set_option maxHeartbeats 1000000 in
/-- The bounds at a fixed point. -/
theorem newton_fixed (hu : 0 ≤ u) (N : ℕ) (hN : 2 ≤ N) (hNu : 16 * N * u ≤ 1) (x c A B : ℚ) (hc : 0 < c)
    (hA : Near (1 - u) 1 (((N : ℚ) - 1) * c) A) (hB : Near (1 - u) (N - 1) (x / c ^ (N - 1)) B)
    (hr : Near (1 - u) 2 ((A + B) / N) c) : |x - c ^ N| ≤ 6 * N * u * c ^ N := by
  have hN2 : (2 : ℚ) ≤ N := by exact_mod_cast hN
  have hu16 : u ≤ 1 / 32 := by nlinarith
  have hg : 0 < 1 - u := by linarith
  have hcM : 0 < c ^ (N - 1) := pow_pos hc _
  have hcN : c ^ N = c ^ (N - 1) * c := by rw [← pow_succ]; congr 1; omega
  have hMc : (((N - 1 : ℕ) : ℚ)) = (N : ℚ) - 1 := by rw [Nat.cast_sub (by omega)]; simp
  have hbern : 1 - ((N : ℚ) - 1) * u ≤ (1 - u) ^ (N - 1) := by
    have := one_add_mul_le_pow (show (-2 : ℚ) ≤ -u by linarith) (N - 1)
    rw [hMc] at this
    have e : (1 : ℚ) + -u = 1 - u := by ring
    rw [e] at this
    linarith
  have hgle : (1 - u) ^ (N - 1) ≤ 1 := pow_le_one₀ hg.le (by linarith)
  set G := (1 - u) ^ (N - 1) with hG
  have hG0 : 0 < G := pow_pos hg _
  obtain ⟨-, a1, a2⟩ := hA
  obtain ⟨x0, b1, b2⟩ := hB
  obtain ⟨-, r1, r2⟩ := hr
  rw [pow_one] at a1 a2
  have hNp : (0 : ℚ) < N := by linarith
  have hx0 : 0 < x := by
    have := mul_pos x0 hcM
    rwa [div_mul_cancel₀ _ hcM.ne'] at this
  have r1' : (A + B) * (1 - u) ^ 2 ≤ N * c := by
    rw [div_mul_eq_mul_div, div_le_iff₀ hNp] at r1; linarith
  have r2' : N * c * (1 - u) ^ 2 ≤ A + B := by
    rw [le_div_iff₀ hNp] at r2; linarith
  have b1' : x * G ≤ B * c ^ (N - 1) := by
    rw [div_mul_eq_mul_div, div_le_iff₀ hcM] at b1; exact b1
  have b2' : B * G * c ^ (N - 1) ≤ x := by
    rwa [le_div_iff₀ hcM] at b2
  have hB0 : 0 < B := lt_of_lt_of_le (by positivity) b1
  -- bounds of B
  have hAlo : ((N : ℚ) - 1) * c * (1 - u) ≤ A := a1
  have hAhi : A ≤ ((N : ℚ) - 1) * c * (1 + 2 * u) := by
    have h1 : (1 : ℚ) ≤ (1 - u) * (1 + 2 * u) := by nlinarith
    have hA0 : 0 ≤ A := le_trans (by
      have : 0 ≤ (N : ℚ) - 1 := by linarith
      positivity) hAlo
    calc A ≤ A * ((1 - u) * (1 + 2 * u)) := le_mul_of_one_le_right hA0 h1
      _ = A * (1 - u) * (1 + 2 * u) := by ring
      _ ≤ _ := mul_le_mul_of_nonneg_right a2 (by linarith)
  have hBhi : B ≤ c * (1 + (4 * N - 1) * u) := by
    have h1 : (1 : ℚ) ≤ (1 - u) ^ 2 * (1 + 3 * u) := by nlinarith [mul_nonneg hu hu, mul_nonneg hu (mul_nonneg hu hu)]
    have hAB : 0 ≤ A + B := le_trans (by positivity) r2'
    have h2 : A + B ≤ N * c * (1 + 3 * u) :=
      calc A + B ≤ (A + B) * ((1 - u) ^ 2 * (1 + 3 * u)) := le_mul_of_one_le_right hAB h1
        _ = (A + B) * (1 - u) ^ 2 * (1 + 3 * u) := by ring
        _ ≤ _ := mul_le_mul_of_nonneg_right r1' (by linarith)
    nlinarith
  have hBlo : c * (1 - (4 * N - 2) * u) ≤ B := by
    have h1 : (1 : ℚ) - 2 * u ≤ (1 - u) ^ 2 := by nlinarith [mul_nonneg hu hu]
    have h2 : N * c * (1 - 2 * u) ≤ A + B := le_trans (mul_le_mul_of_nonneg_left h1 (by positivity)) r2'
    nlinarith
  have hNu0 : 0 ≤ N * u := by positivity
  rw [abs_le]
  constructor
  · -- x ≥ c^N (1 - 6Nu)
    have h1 : 0 ≤ 1 - (4 * N - 2) * u := by nlinarith
    have h2 : c * (1 - (4 * N - 2) * u) * (1 - ((N : ℚ) - 1) * u) ≤ B * G :=
      mul_le_mul hBlo hbern (by nlinarith) hB0.le
    have h3 := mul_le_mul_of_nonneg_right h2 hcM.le
    have h4 : (1 : ℚ) - 6 * N * u ≤ (1 - (4 * N - 2) * u) * (1 - ((N : ℚ) - 1) * u) := by
      have : 0 ≤ (4 * (N : ℚ) - 2) * u * (((N : ℚ) - 1) * u) :=
        mul_nonneg (mul_nonneg (by linarith) hu) (mul_nonneg (by linarith) hu)
      nlinarith
    have h5 := mul_le_mul_of_nonneg_right h4 (mul_pos hcM hc).le
    rw [hcN]
    nlinarith
  · have h1 : G * (1 + 6 * N * u) ≥ 1 + (4 * N - 1) * u := by
      have : (1 - ((N : ℚ) - 1) * u) * (1 + 6 * N * u) ≤ G * (1 + 6 * N * u) :=
        mul_le_mul_of_nonneg_right hbern (by nlinarith)
      have h6 : 6 * ((N : ℚ) * u) * ((N - 1) * u) ≤ 6 / 16 * ((N : ℚ) * u) := by
        have : ((N : ℚ) - 1) * u ≤ 1 / 16 := by nlinarith
        nlinarith
      nlinarith
    have h2 : x * G ≤ c ^ N * (G * (1 + 6 * N * u)) := by
      calc x * G ≤ B * c ^ (N - 1) := b1'
        _ ≤ c * (1 + (4 * N - 1) * u) * c ^ (N - 1) := mul_le_mul_of_nonneg_right hBhi hcM.le
        _ = c ^ N * (1 + (4 * N - 1) * u) := by rw [hcN]; ring
        _ ≤ _ := mul_le_mul_of_nonneg_left h1 (pow_pos hc _).le
    have h3 : x ≤ c ^ N * (1 + 6 * N * u) := by
      have : x * G ≤ c ^ N * (1 + 6 * N * u) * G := h2.trans (le_of_eq (by ring))
      exact le_of_mul_le_mul_right this hG0
    linarith

/-- C99 (partial; missing: that the call returns, which is false, see `C99_root_false`): whenever `ct_root<N>(x)` of a positive number returns, the result is
positive and within twelve units of rounding of the exact root (roundings of relative error `u`, no overflow
or underflow). -/
theorem C99_root_rounded_partial (hu : 0 ≤ u) (hr : ∀ x, |rnd x - x| ≤ u * |x|)
    (hid : ∀ x, rnd (rnd x) = rnd x) (h1 : rnd 1 = 1) (N : ℕ) (hN : 2 ≤ N) (hNu : 16 * N * u ≤ 1)
    (hN0 : rnd N = N) (hN1 : rnd ((N : ℚ) - 1) = N - 1) (x : ℚ) (hx : 0 < x) (hxr : rnd x = x) (fuel : ℕ)
    (y : RFl rnd) (h : ctRootR N fuel (RFl.fin x : RFl rnd) = some y) :
    ∃ r : ℚ, y = RFl.fin r ∧ 0 < r ∧ |x - r ^ N| ≤ 6 * N * u * r ^ N ∧
      ∀ s : ℝ, 0 ≤ s → s ^ N = x → |s - r| ≤ 12 * u * r := by
  have hN2 : (2 : ℚ) ≤ N := by exact_mod_cast hN
  have hu1 : u < 1 := by nlinarith
  have key : ∀ (fuel : ℕ) (c : ℚ) (prev : RFl rnd), 0 < c → rnd c = c →
      (RFl.eqv (RFl.fin c) prev = true → newtonStep N (RFl.fin x : RFl rnd) (RFl.fin c) = RFl.fin c) →
      newtonRootF RFl.eqv N (RFl.fin x : RFl rnd) fuel (RFl.fin c) prev = some y →
      ∃ r, y = RFl.fin r ∧ 0 < r ∧ rnd r = r ∧
        newtonStep N (RFl.fin x : RFl rnd) (RFl.fin r) = RFl.fin r := by
    intro fuel
    induction fuel with
    | zero => intro c prev _ _ _ h; cases h
    | succ fuel ih =>
      intro c prev hc0 hc hfix h
      rw [newtonRootF] at h
      split_ifs at h with he
      · injection h with h
        exact ⟨c, h.symm, hc0, hc, hfix he⟩
      · obtain ⟨A, B, r, e, r0, rr, -⟩ := newtonStep_near hu hu1 hr hid h1 N hN hN0 hN1 x hx c hc0 hc
        rw [e] at h
        refine ih r _ r0 rr ?_ h
        intro heq
        have : r = c := by simpa using heq
        rw [this] at e ⊢
        exact e
  unfold ctRootR ctRootF at h
  have hlt : RFl.lt (RFl.fin x : RFl rnd) 0 = false := by
    rw [RFl.zero_fin, RFl.lt_fin]; simpa using hx.le
  rw [hlt, if_neg (by simp), if_neg (by omega)] at h
  obtain ⟨r, e, r0, rr, hfix⟩ := key fuel x 0 hx hxr (by
    intro h
    rw [RFl.zero_fin, RFl.eqv_fin] at h
    have : x = 0 := by simpa using h
    exact absurd this hx.ne') h
  obtain ⟨A, B, r', e', -, -, hA, hB, hR⟩ := newtonStep_near hu hu1 hr hid h1 N hN hN0 hN1 x hx r r0 rr
  rw [hfix] at e'
  have : r = r' := RFl.fin_inj.1 e'
  subst this
  have hb := newton_fixed hu N hN hNu x r A B r0 hA hB hR
  refine ⟨r, e, r0, hb, fun s hs hsx => ?_⟩
  have hbR : |(x : ℝ) - (r : ℝ) ^ N| ≤ 6 * N * (u : ℝ) * (r : ℝ) ^ N := by exact_mod_cast hb
  have hrR : (0 : ℝ) < r := by exact_mod_cast r0
  have huR : (0 : ℝ) ≤ u := by exact_mod_cast hu
  have hNuR : 16 * (N : ℝ) * u ≤ 1 := by exact_mod_cast hNu
  have hN2R : (2 : ℝ) ≤ N := by exact_mod_cast hN
  have hrN : (0 : ℝ) < (r : ℝ) ^ N := pow_pos hrR N
  rw [abs_le] at hbR
  rw [abs_le]
  have hu32 : (u : ℝ) ≤ 1 / 32 := by nlinarith
  constructor
  · by_contra hlt'
    push Not at hlt'
    have h2 : s < r * (1 - 12 * u) := by linarith
    have h3 : s ^ N < (r * (1 - 12 * u)) ^ N := pow_lt_pow_left₀ h2 hs (by omega)
    rw [mul_pow] at h3
    have hpos : (0 : ℝ) < 1 + 12 * N * u := by positivity
    have h4 : (1 - 12 * (u : ℝ)) ^ N ≤ 1 - 6 * N * u := by
      have hb1 : (1 - 12 * (u : ℝ)) ^ N * (1 + N * (12 * u)) ≤ 1 := by
        have hb2 := one_add_mul_le_pow (show (-2 : ℝ) ≤ 12 * u by linarith) N
        calc (1 - 12 * (u : ℝ)) ^ N * (1 + N * (12 * u))
            ≤ (1 - 12 * (u : ℝ)) ^ N * (1 + 12 * u) ^ N :=
              mul_le_mul_of_nonneg_left hb2 (pow_nonneg (by linarith) N)
          _ = ((1 - 12 * (u : ℝ)) * (1 + 12 * u)) ^ N := by rw [mul_pow]
          _ ≤ 1 := pow_le_one₀ (by nlinarith) (by nlinarith [mul_nonneg huR huR])
      have h5 : (1 : ℝ) ≤ (1 - 6 * N * u) * (1 + N * (12 * u)) := by
        have : 0 ≤ (N : ℝ) * u := by positivity
        nlinarith
      exact le_of_mul_le_mul_right (hb1.trans h5) (by linarith)
    have h5 := mul_le_mul_of_nonneg_left h4 hrN.le
    rw [hsx] at h3
    linarith [hbR.1]
  · by_contra hlt'
    push Not at hlt'
    have h2 : r * (1 + 12 * u) < s := by linarith
    have h3 : (r * (1 + 12 * u)) ^ N < s ^ N := pow_lt_pow_left₀ h2 (by positivity) (by omega)
    rw [mul_pow] at h3
    have hb2 := one_add_mul_le_pow (show (-2 : ℝ) ≤ 12 * u by linarith) N
    have h5 := mul_le_mul_of_nonneg_left hb2 hrN.le
    rw [hsx] at h3
    have : 0 ≤ (N : ℝ) * u * r ^ N := by positivity
    nlinarith [hbR.2]

end Rounded

/-- C99 (partial): for `double`, for every positive representable `x` and every `N ≤ 2^40`. -/
theorem C99_root_double_partial (N : ℕ) (hN : 2 ≤ N) (hN40 : N ≤ 2 ^ 40) (x : ℚ) (hx : 0 < x)
    (hxr : rnd64 x = x) (fuel : ℕ) (y : F64) (h : ctRootR N fuel (RFl.fin x : F64) = some y) :
    ∃ r : ℚ, y = RFl.fin r ∧ 0 < r ∧ ∀ s : ℝ, 0 ≤ s → s ^ N = x → |s - r| ≤ 12 / 2 ^ 53 * r := by
  have hNR : (N : ℚ) ≤ 2 ^ 40 := by exact_mod_cast hN40
  obtain ⟨r, h1, h2, -, h4⟩ := C99_root_rounded_partial (u := 1 / 2 ^ 53) (by norm_num) rnd64_err rnd64_idem
    (by have := rnd64_nat 1 (by norm_num); simpa using this) N hN (by
      have : 16 * (N : ℚ) * (1 / 2 ^ 53) ≤ 16 * 2 ^ 40 * (1 / 2 ^ 53) := by gcongr
      refine this.trans (by norm_num))
    (rnd64_nat N (by omega)) (by
      have := rnd64_nat (N - 1) (by omega)
      rw [Nat.cast_sub (by omega)] at this
      simpa using this) x hx hxr fuel y h
  refine ⟨r, h1, h2, fun s hs hsx => ?_⟩
  have := h4 s hs hsx
  push_cast at this
  rw [show (12 : ℝ) / 2 ^ 53 = 12 * (1 / 2 ^ 53) by ring]
  exact this

/-- The computed powers for exponents 1, 2 and 3. -/
theorem powSq_small {α : Type*} [One α] [Mul α] (a : α) :
    powSq a 1 = 1 * 1 * a ∧ powSq a 2 = 1 * 1 * a * (1 * 1 * a) * 1 ∧
      powSq a 3 = 1 * 1 * a * (1 * 1 * a) * a := by
  have h0 : powSq a 0 = 1 := by rw [powSq]; simp
  have h1 : powSq a 1 = 1 * 1 * a := by
    rw [powSq]
    simp only [show (1 : ℤ).tdiv 2 = 0 from rfl, show (1 : ℤ).tmod 2 = 1 from rfl, h0]
    simp
  refine ⟨h1, ?_, ?_⟩
  · rw [powSq]
    simp only [show (2 : ℤ).tdiv 2 = 1 from rfl, show (2 : ℤ).tmod 2 = 0 from rfl, h1]
    simp
  · rw [powSq]
    simp only [show (3 : ℤ).tdiv 2 = 1 from rfl, show (3 : ℤ).tmod 2 = 1 from rfl, h1]
    simp

/-- The iteration with another name of the step. -/
def Spec.run {K : Type*} (eqv : K → K → Bool) (st : K → K) : ℕ → K → K → Option K
  | 0, _, _ => none
  | fuel + 1, curr, prev => if eqv curr prev then some curr else Spec.run eqv st fuel (st curr) curr

theorem newton_run {K : Type*} [CppNum K] (eqv : K → K → Bool) (N : ℕ) (x : K) (st : K → K)
    (h : ∀ c, newtonStep N x c = st c) (fuel : ℕ) (c p : K) :
    newtonRootF eqv N x fuel c p = Spec.run eqv st fuel c p := by
  induction fuel generalizing c p with
  | zero => rfl
  | succ fuel ih => rw [newtonRootF, Spec.run, h, ih]

/-- The steps of the square, cube and fourth root. -/
def Spec.step {K : Type*} [CppNum K] (N : ℕ) (x c : K) : K :=
  (CppNum.ofInt ((N : ℤ) - 1) * c + x / (match N with
    | 2 => 1 * 1 * c
    | 3 => 1 * 1 * c * (1 * 1 * c) * 1
    | _ => 1 * 1 * c * (1 * 1 * c) * c)) / CppNum.ofInt (N : ℤ)

theorem step_eq {K : Type*} [CppNum K] (N : ℕ) (hN : N = 2 ∨ N = 3 ∨ N = 4) (x c : K) :
    newtonStep N x c = Spec.step N x c := by
  unfold newtonStep Spec.step
  obtain ⟨h1, h2, h3⟩ := powSq_small c
  rcases hN with rfl | rfl | rfl
  · rw [show ((2 : ℕ) : ℤ) - 1 = 1 from rfl, h1]; rfl
  · rw [show ((3 : ℕ) : ℤ) - 1 = 2 from rfl, h2]; rfl
  · rw [show ((4 : ℕ) : ℤ) - 1 = 3 from rfl, h3]; rfl

/-- The hypotheses are met: the iteration for the square root of 2 returns. -/
example : ctRootR 2 10 (RFl.fin 2 : F64) = some (RFl.fin (1592262918131443 / 1125899906842624)) := by
  unfold ctRootR ctRootF
  rw [if_neg (by decide +kernel), if_neg (by norm_num), newton_run _ _ _ _ (step_eq 2 (by simp) _)]
  decide +kernel

/-- C99: the root of zero is zero, the first root of a number is the number, the root of a negative number is
NaN. -/
theorem C99_special (N fuel : ℕ) (x : ℚ) :
    ctRoot64 N (fuel + 1) (IFl.fin 0) = some (IFl.fin 0) ∧
    (0 ≤ x → ctRoot64 1 fuel (IFl.fin x) = some (IFl.fin x)) ∧
    (x < 0 → ctRoot64 N fuel (IFl.fin x) = some IFl.nan) := by
  refine ⟨?_, fun h => ?_, fun h => ?_⟩
  · unfold ctRoot64 ctRootF
    rw [if_neg (by decide +kernel)]
    split_ifs
    · rfl
    · rw [newtonRootF, if_pos (by decide +kernel)]
  · unfold ctRoot64 ctRootF
    rw [if_neg (by show ¬ decide (x < 0) = true; simpa using h), if_pos rfl]
  · unfold ctRoot64 ctRootF
    rw [if_pos (by show decide (x < 0) = true; simpa using h)]
    rfl

/-! ### Where it fails -/

theorem run_none {K : Type*} (eqv : K → K → Bool) (st : K → K) (c p : K) (h : eqv c p = false)
    (hs : ∀ fuel, Spec.run eqv st fuel (st c) c = none) (fuel : ℕ) : Spec.run eqv st fuel c p = none := by
  cases fuel with
  | zero => rfl
  | succ fuel => rw [Spec.run, h]; exact hs fuel

/-- A cycle of length two. -/
theorem run_cycle {K : Type*} (eqv : K → K → Bool) (st : K → K) (c d : K) (h : eqv c d = false)
    (h' : eqv d c = false) (hc : st c = d) (hd : st d = c) (fuel : ℕ) :
    Spec.run eqv st fuel c d = none ∧ Spec.run eqv st fuel d c = none := by
  induction fuel with
  | zero => exact ⟨rfl, rfl⟩
  | succ fuel ih =>
    constructor
    · rw [Spec.run, h, hc]; exact ih.2
    · rw [Spec.run, h', hd]; exact ih.1

/-- The `k`-th iterate. -/
def Spec.iterate (N : ℕ) (x : D64) : ℕ → D64
  | 0 => x
  | k + 1 => Spec.step N x (Spec.iterate N x k)

theorem run_iterate (N : ℕ) (x : D64) (m : ℕ)
    (h0 : IFl.eqv x 0 = false)
    (hne : ∀ i < m, IFl.eqv (Spec.iterate N x (i + 1)) (Spec.iterate N x i) = false)
    (hs : ∀ fuel, Spec.run (K := D64) IFl.eqv (Spec.step N x) fuel (Spec.iterate N x (m + 1))
      (Spec.iterate N x m) = none) (fuel : ℕ) :
    Spec.run (K := D64) IFl.eqv (Spec.step N x) fuel x 0 = none := by
  have key : ∀ j ≤ m, ∀ fuel, Spec.run (K := D64) IFl.eqv (Spec.step N x) fuel (Spec.iterate N x (m - j + 1))
      (Spec.iterate N x (m - j)) = none := by
    intro j
    induction j with
    | zero => intro _ fuel; exact hs fuel
    | succ j ih =>
      intro hj fuel
      refine run_none _ _ _ _ (hne _ (by omega)) (fun fuel => ?_) fuel
      have := ih (by omega) fuel
      rw [show m - j = m - (j + 1) + 1 by omega] at this
      exact this
  refine run_none _ _ _ _ h0 (fun fuel => ?_) fuel
  have := key m le_rfl fuel
  rw [Nat.sub_self] at this
  exact this

/-- C99 is false of the code: the cube root of 4 and the fourth root of 2 are never returned (the iteration
alternates between two neighbouring numbers), and the cube root of 1e-200 is infinite. -/
theorem C99_root_false :
    (∀ fuel, ctRoot64 3 fuel (IFl.fin 4) = none) ∧ (∀ fuel, ctRoot64 4 fuel (IFl.fin 2) = none) ∧
    ctRoot64 3 10 (IFl.fin (binary64.rnd (1 / 10 ^ 200))) = some (IFl.inf false) := by
  refine ⟨fun fuel => ?_, fun fuel => ?_, ?_⟩
  · unfold ctRoot64 ctRootF
    rw [if_neg (by decide +kernel), if_neg (by norm_num), newton_run _ _ _ _ (step_eq 3 (by simp) _)]
    refine run_iterate 3 _ 7 (by decide +kernel) (by decide +kernel) (fun fuel => ?_) fuel
    exact (run_cycle _ _ _ _ (by decide +kernel) (by decide +kernel) (by decide +kernel) rfl fuel).1
  · unfold ctRoot64 ctRootF
    rw [if_neg (by decide +kernel), if_neg (by norm_num), newton_run _ _ _ _ (step_eq 4 (by simp) _)]
    refine run_iterate 4 _ 7 (by decide +kernel) (by decide +kernel) (fun fuel => ?_) fuel
    exact (run_cycle _ _ _ _ (by decide +kernel) (by decide +kernel) (by decide +kernel) rfl fuel).1
  · unfold ctRoot64 ctRootF
    rw [if_neg (by decide +kernel), if_neg (by norm_num), newton_run _ _ _ _ (step_eq 3 (by simp) _)]
    decide +kernel

end SciCpp
