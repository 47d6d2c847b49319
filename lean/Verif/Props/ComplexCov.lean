import Verif.Props.ComplexF
import Verif.Props.RoundCov
/-
  Property theorems C139, continued: rounding errors of the covariance and of the variance of complex arrays.
-/
set_option linter.unusedSectionVars false
namespace SciCpp
open Spec

section
variable {rnd : ℚ → ℚ} {u : ℚ}

/-- `Σ abs1 x² + Σ abs1 y²` of a list of pairs. -/
noncomputable def Spec.sqSumC (s : List (CK ℚ × CK ℚ)) : ℝ := (s.map fun ab => abs1 ab.1 ^ 2 + abs1 ab.2 ^ 2).sum

/-- The pairs as numbers of `ℂ`. -/
noncomputable def Spec.toC2 (s : List (CK ℚ × CK ℚ)) : List (ℂ × ℂ) := s.map fun ab => (toC ab.1, toC ab.2)

/-- Mean of the magnitudes. -/
noncomputable def absMeanC (s : List (CK ℚ)) : ℝ := (s.map abs1).sum / s.length

/-- The exact mean. -/
noncomputable def meanC (s : List (CK ℚ)) : ℂ := meanL (s.map toC)

theorem abs1_nonneg (z : CK ℚ) : 0 ≤ abs1 z := add_nonneg (abs_nonneg _) (abs_nonneg _)

theorem absMeanC_nonneg (s : List (CK ℚ)) : 0 ≤ absMeanC s := by
  apply div_nonneg _ (Nat.cast_nonneg _)
  apply List.sum_nonneg
  simp only [List.mem_map, forall_exists_index, and_imp]
  rintro _ a - rfl
  exact abs1_nonneg a

theorem absMeanC_sq (s : List (CK ℚ)) : (s.length : ℝ) * absMeanC s ^ 2 ≤ (s.map fun x => abs1 x ^ 2).sum := by
  have key : ∀ (t : List (CK ℚ)) (c : ℝ),
      2 * c * (t.map abs1).sum - (t.length : ℝ) * c ^ 2 ≤ (t.map fun x => abs1 x ^ 2).sum := by
    intro t c
    induction t with
    | nil => simp
    | cons x t ih =>
      simp only [List.map_cons, List.sum_cons, List.length_cons, Nat.cast_add, Nat.cast_one]
      have h1 := sq_nonneg (abs1 x - c)
      nlinarith
  have h := key s (absMeanC s)
  rcases s with _ | ⟨a, s⟩
  · simp
  · have hpos : (0 : ℝ) < ((a :: s).length : ℝ) := by exact_mod_cast Nat.succ_pos _
    have e : ((a :: s).map abs1).sum = ((a :: s).length : ℝ) * absMeanC (a :: s) := by
      unfold absMeanC; field_simp
    rw [e] at h
    nlinarith

theorem sqSumC_split (s : List (CK ℚ × CK ℚ)) : sqSumC s
    = ((s.map Prod.fst).map fun x => abs1 x ^ 2).sum + ((s.map Prod.snd).map fun x => abs1 x ^ 2).sum := by
  unfold sqSumC
  induction s with
  | nil => simp
  | cons a s ih => simp only [List.map_cons, List.sum_cons, ih]; ring

theorem sqSumC_nonneg (s : List (CK ℚ × CK ℚ)) : 0 ≤ sqSumC s := by
  unfold sqSumC
  apply List.sum_nonneg
  simp only [List.mem_map, forall_exists_index, and_imp]
  rintro _ a - rfl
  positivity

theorem sqSumC_append (s t : List (CK ℚ × CK ℚ)) : sqSumC (s ++ t) = sqSumC s + sqSumC t := by
  simp [sqSumC]

theorem devC_bound (s : List (CK ℚ × CK ℚ)) (M N : ℝ) :
    (s.map fun ab => (abs1 ab.1 + M) * (abs1 ab.2 + N)).sum
      ≤ 1 / 2 * sqSumC s + (s.map fun ab => abs1 ab.1).sum * N + M * (s.map fun ab => abs1 ab.2).sum
        + s.length * (M * N) := by
  unfold sqSumC
  induction s with
  | nil => simp
  | cons a s ih =>
    simp only [List.map_cons, List.sum_cons, List.length_cons, Nat.cast_add, Nat.cast_one]
    have h1 := sq_nonneg (abs1 a.1 - abs1 a.2)
    nlinarith

theorem covLoopC_fold (m1 m2 : CK (RFl rnd)) (s : List (CK ℚ × CK ℚ)) (res : CK (RFl rnd)) (c : ℕ) :
    covLoop (fun _ => true) m1 m2 res c (s.map fun ab => finC ab.1) (s.map fun ab => finC ab.2)
      = .ok (s.foldl (fun acc ab => acc + (finC ab.1 - m1) * CK.conj (finC ab.2 - m2)) res, c + s.length) := by
  induction s generalizing res c with
  | nil => rfl
  | cons ab s ih =>
    rw [List.map_cons, List.map_cons, covLoop, Bool.and_self, if_pos rfl, ih, List.foldl_cons, List.length_cons]
    rw [show c + 1 + s.length = c + (s.length + 1) by omega]
    rfl

/-- Invariant of the covariance accumulator. -/
def CovOkC (u : ℚ) (c : ℕ) (s : List (CK ℚ × CK ℚ)) (r : CovAcc (CK (RFl rnd))) : Prop :=
  CApprox u (72 + 7 * c) (meanC (s.map Prod.fst)) (absMeanC (s.map Prod.fst)) r.1 ∧
  CApprox u (72 + 7 * c) (meanC (s.map Prod.snd)) (absMeanC (s.map Prod.snd)) r.2.1 ∧
  CApprox u (212 + 14 * c) (covSum (toC2 s)) ((2 + c) * sqSumC s) r.2.2.1 ∧ r.2.2.2 = s.length

theorem covSum_toC2 (s : List (CK ℚ × CK ℚ)) : covSum (toC2 s)
    = (s.map fun ab => (toC ab.1 - meanC (s.map Prod.fst)) * starRingEnd ℂ (toC ab.2 - meanC (s.map Prod.snd))).sum := by
  unfold covSum toC2 meanC
  simp only [List.map_map]
  rfl

theorem covBlockC_approx (hu : 0 ≤ u) (hr : ∀ x, |rnd x - x| ≤ u * |x|) (s : List (CK ℚ × CK ℚ))
    (hne : s ≠ []) (hlen : s.length ≤ 64) (hn : rnd s.length = s.length) (c : ℕ) :
    ∃ r, covBlock (fun _ => true) (s.map fun ab => (finC ab.1 : CK (RFl rnd))) (s.map fun ab => finC ab.2)
      = .ok r ∧ CovOkC u c s r := by
  have hpos : (0 : ℝ) < s.length := by exact_mod_cast List.length_pos_iff.mpr hne
  have hclog : Nat.clog 2 s.length ≤ 6 := by
    refine (Nat.clog_mono_right 2 hlen).trans ?_
    exact Nat.clog_le_of_le_pow (by norm_num)
  have m1 : CApprox u 72 (meanC (s.map Prod.fst)) (absMeanC (s.map Prod.fst)) (mean (s.map fun ab => (finC ab.1 : CK (RFl rnd))) fun _ => true) := by
    have h := (mean_capprox hu hr (s.map fun ab => (finC ab.1 : CK (RFl rnd))) (fun _ => true) (s.map Prod.fst)
      (by simp [List.map_map]) (by simpa using hne) (by rw [List.length_map]; omega)
      (by rw [List.length_map]; exact hn)).mono hu (show _ ≤ 72 by rw [List.length_map]; omega) le_rfl
    unfold meanC meanL absMeanC
    rw [List.length_map (f := toC)]
    exact h
  have m2 : CApprox u 72 (meanC (s.map Prod.snd)) (absMeanC (s.map Prod.snd)) (mean (s.map fun ab => (finC ab.2 : CK (RFl rnd))) fun _ => true) := by
    have h := (mean_capprox hu hr (s.map fun ab => (finC ab.2 : CK (RFl rnd))) (fun _ => true) (s.map Prod.snd)
      (by simp [List.map_map]) (by simpa using hne) (by rw [List.length_map]; omega)
      (by rw [List.length_map]; exact hn)).mono hu (show _ ≤ 72 by rw [List.length_map]; omega) le_rfl
    unfold meanC meanL absMeanC
    rw [List.length_map (f := toC)]
    exact h
  unfold covBlock
  generalize mean (s.map fun ab => (finC ab.1 : CK (RFl rnd))) (fun _ => true) = v1 at m1 ⊢
  generalize mean (s.map fun ab => (finC ab.2 : CK (RFl rnd))) (fun _ => true) = v2 at m2 ⊢
  simp only [covLoopC_fold, Res.bind_ok, Res.pure_eq]
  refine ⟨_, rfl, m1.mono hu (by omega) le_rfl, m2.mono hu (by omega) le_rfl, ?_, by simp⟩
  set M := absMeanC (s.map Prod.fst) with hMdef
  set N := absMeanC (s.map Prod.snd) with hNdef
  have hM : 0 ≤ M := absMeanC_nonneg _
  have hN : 0 ≤ N := absMeanC_nonneg _
  have hf := CApprox.foldl_add hu hr s
    (fun ab => (finC ab.1 - v1) * CK.conj (finC ab.2 - v2) : CK ℚ × CK ℚ → CK (RFl rnd))
    (fun ab => (toC ab.1 - meanC (s.map Prod.fst)) * starRingEnd ℂ (toC ab.2 - meanC (s.map Prod.snd)))
    (fun ab => (abs1 ab.1 + M) * (abs1 ab.2 + N)) 148
    (fun ab _ => by
      have d1 := CApprox.sub hu hr (CApprox.exact (rnd := rnd) hu 72 ab.1) m1
      have d2 := CApprox.sub hu hr (CApprox.exact (rnd := rnd) hu 72 ab.2) m2
      have d3 := CApprox.mul hu hr d1 d2.conj
      exact d3.mono hu (by omega) le_rfl) 0 0 0 (CApprox.zero hu _)
  rw [zero_add, zero_add] at hf
  rw [covSum_toC2]
  refine hf.mono hu (by omega) ?_
  refine (devC_bound s M N).trans ?_
  have e1 : (s.map fun ab => abs1 ab.1).sum = s.length * M := by
    rw [hMdef, absMeanC, List.length_map, List.map_map]
    field_simp
    rfl
  have e2 : (s.map fun ab => abs1 ab.2).sum = s.length * N := by
    rw [hNdef, absMeanC, List.length_map, List.map_map]
    field_simp
    rfl
  rw [e1, e2]
  have q1 := absMeanC_sq (s.map Prod.fst)
  have q2 := absMeanC_sq (s.map Prod.snd)
  rw [List.length_map, ← hMdef] at q1
  rw [List.length_map, ← hNdef] at q2
  have q3 := sqSumC_split s
  clear hf m1 m2 hr hn hclog
  have h1 : (s.length : ℝ) * (M * N) ≤ 1 / 2 * sqSumC s := by
    have := mul_nonneg hpos.le (sq_nonneg (M - N))
    nlinarith
  have h2 := sqSumC_nonneg s
  have h3 : (0 : ℝ) ≤ c := Nat.cast_nonneg c
  have h4 := mul_nonneg h3 h2
  nlinarith

theorem meanC_append (a b : List (CK ℚ)) (ha : a ≠ []) (hb : b ≠ []) :
    meanC (a ++ b) = 1 / ((((a.length + b.length : ℕ) : ℚ) : ℝ) : ℂ) * ((a.length : ℂ) * meanC a + (b.length : ℂ) * meanC b) := by
  have h1 : (a.length : ℂ) ≠ 0 := by exact_mod_cast (List.length_pos_iff.mpr ha).ne'
  have h2 : (b.length : ℂ) ≠ 0 := by exact_mod_cast (List.length_pos_iff.mpr hb).ne'
  have h3 : (a.length : ℂ) + b.length ≠ 0 := by
    have := List.length_pos_iff.mpr ha
    exact_mod_cast (show a.length + b.length ≠ 0 by omega)
  unfold meanC meanL
  rw [List.map_append, List.sum_append, List.length_append, List.length_map, List.length_map]
  push_cast
  field_simp

theorem absMeanC_append (a b : List (CK ℚ)) (ha : a ≠ []) (hb : b ≠ []) :
    absMeanC (a ++ b) = 1 / (((a.length + b.length : ℕ) : ℚ) : ℝ) * ((a.length : ℝ) * absMeanC a + (b.length : ℝ) * absMeanC b) := by
  have h1 : (0 : ℝ) < a.length := by exact_mod_cast List.length_pos_iff.mpr ha
  have h2 : (0 : ℝ) < b.length := by exact_mod_cast List.length_pos_iff.mpr hb
  unfold absMeanC
  rw [List.map_append, List.sum_append, List.length_append]
  push_cast
  field_simp

theorem covSumC_append (s t : List (CK ℚ × CK ℚ)) (hs : s ≠ []) (ht : t ≠ []) :
    covSum (toC2 (s ++ t)) = covSum (toC2 s) + covSum (toC2 t)
      + (s.length : ℂ) * (t.length : ℂ) / ((((s.length + t.length : ℕ) : ℚ) : ℝ) : ℂ)
        * starRingEnd ℂ (meanC (s.map Prod.snd) - meanC (t.map Prod.snd))
        * (meanC (s.map Prod.fst) - meanC (t.map Prod.fst)) := by
  have h1 : (s.length : ℂ) ≠ 0 := by exact_mod_cast (List.length_pos_iff.mpr hs).ne'
  have h2 : (t.length : ℂ) ≠ 0 := by exact_mod_cast (List.length_pos_iff.mpr ht).ne'
  have h3 : (s.length : ℂ) + t.length ≠ 0 := by
    have := List.length_pos_iff.mpr hs
    exact_mod_cast (show s.length + t.length ≠ 0 by omega)
  have l : ∀ r, ((toC2 r).length : ℂ) = r.length := by intro r; unfold toC2; rw [List.length_map]
  have f : ∀ r, ((toC2 r).map Prod.fst) = (r.map Prod.fst).map toC := by
    intro r; unfold toC2; rw [List.map_map, List.map_map]; rfl
  have g : ∀ r, ((toC2 r).map Prod.snd) = (r.map Prod.snd).map toC := by
    intro r; unfold toC2; rw [List.map_map, List.map_map]; rfl
  rw [covSum_eq (toC2 s) (by rwa [l]), covSum_eq (toC2 t) (by rwa [l]), covSum_eq (toC2 (s ++ t)) (by rw [l, List.length_append]; exact_mod_cast h3)]
  have ap : toC2 (s ++ t) = toC2 s ++ toC2 t := by unfold toC2; rw [List.map_append]
  simp only [f, g, l, ap, List.map_append, List.sum_append, List.length_append, meanC, meanL, List.length_map]
  simp only [star_add, map_sub, map_div₀, map_natCast]
  simp only [← starRingEnd_apply]
  generalize starRingEnd ℂ _ = P
  generalize starRingEnd ℂ _ = Q
  push_cast
  rw [l, l]
  field_simp
  ring

theorem CApprox.nat (hu : 0 ≤ u) (k n : ℕ) : CApprox u k (n : ℂ) (n : ℝ) (⟨RFl.fin (n : ℚ), 0⟩ : CK (RFl rnd)) :=
  ⟨n, 0, n, 0, by simp [Complex.ext_iff], by simp, Approx.exact hu k _ _ (by simp), Approx.exact hu k 0 0 (by simp)⟩

/-- The mean part of the combination step. -/
theorem combine_meanC_approx (hu : 0 ≤ u) (hr : ∀ x, |rnd x - x| ≤ u * |x|) (a b : List (CK ℚ)) (ha : a ≠ [])
    (hb : b ≠ []) (hn : rnd ((a.length + b.length : ℕ) : ℚ) = ((a.length + b.length : ℕ) : ℚ)) (k : ℕ) (x y : CK (RFl rnd))
    (hx : CApprox u k (meanC a) (absMeanC a) x) (hy : CApprox u k (meanC b) (absMeanC b) y) :
    CApprox u (k + 7) (meanC (a ++ b)) (absMeanC (a ++ b))
      (((⟨RFl.fin 1, 0⟩ : CK (RFl rnd)) / ⟨RFl.fin ((a.length + b.length : ℕ) : ℚ), 0⟩) *
        ((⟨RFl.fin (a.length : ℚ), 0⟩ : CK (RFl rnd)) * x + (⟨RFl.fin (b.length : ℚ), 0⟩ : CK (RFl rnd)) * y)) := by
  have hpos : (0 : ℚ) < ((a.length + b.length : ℕ) : ℚ) := by
    have := List.length_pos_iff.mpr ha
    exact_mod_cast (show 0 < a.length + b.length by omega)
  rw [meanC_append a b ha hb, absMeanC_append a b ha hb]
  have n1 := CApprox.mul hu hr (CApprox.nat (rnd := rnd) hu 0 a.length) hx
  have n2 := CApprox.mul hu hr (CApprox.nat (rnd := rnd) hu 0 b.length) hy
  have o : CApprox u 0 1 1 (⟨RFl.fin 1, 0⟩ : CK (RFl rnd)) := CApprox.one hu 0
  have d := CApprox.div_nat hu hr hpos hn o
  have s := CApprox.add hu hr n1 n2
  have r := CApprox.mul hu hr d s
  exact r.mono hu (by omega) le_rfl

theorem cross_boundR {p q A B C D X Y : ℝ} (hp : 0 < p) (hq : 0 < q)
    (hX : p * A ^ 2 + q * B ^ 2 ≤ X) (hY : p * C ^ 2 + q * D ^ 2 ≤ Y) :
    p * q / (p + q) * (C + D) * (A + B) ≤ X + Y := by
  have h0 : 0 < p + q := by linarith
  have hw : 0 < p * q / (p + q) := by positivity
  have w1 : p * q / (p + q) ≤ p := by
    rw [div_le_iff₀ h0]; nlinarith [mul_pos hp hp]
  have w2 : p * q / (p + q) ≤ q := by
    rw [div_le_iff₀ h0]; nlinarith [mul_pos hq hq]
  set w := p * q / (p + q)
  have a1 : (C + D) * (A + B) ≤ A ^ 2 + B ^ 2 + C ^ 2 + D ^ 2 := by
    nlinarith [sq_nonneg (A - B), sq_nonneg (C - D), sq_nonneg (A + B - C - D)]
  have a2 := mul_le_mul_of_nonneg_left a1 hw.le
  have b1 := mul_le_mul_of_nonneg_right w1 (sq_nonneg A)
  have b2 := mul_le_mul_of_nonneg_right w2 (sq_nonneg B)
  have b3 := mul_le_mul_of_nonneg_right w1 (sq_nonneg C)
  have b4 := mul_le_mul_of_nonneg_right w2 (sq_nonneg D)
  nlinarith

theorem ofIntC_nat (n : ℕ) (h : n < 2 ^ 31) (hn : rnd n = n) :
    (CppNum.ofInt (toI32 (n : ℤ)) : CK (RFl rnd)) = ⟨RFl.fin (n : ℚ), 0⟩ := by
  show (⟨RFl.fin (rnd _), 0⟩ : CK (RFl rnd)) = _
  rw [toI32_of_lt (by omega) (by exact_mod_cast h), Int.cast_natCast, hn]

theorem covCombineC_approx (hu : 0 ≤ u) (hr : ∀ x, |rnd x - x| ≤ u * |x|) (s t : List (CK ℚ × CK ℚ))
    (hs : s ≠ []) (ht : t ≠ []) (hlen : s.length + t.length < 2 ^ 31)
    (hn : ∀ n : ℕ, n ≤ s.length + t.length → rnd n = n) (c : ℕ) (r1 r2 : CovAcc (CK (RFl rnd)))
    (h1 : CovOkC u c s r1) (h2 : CovOkC u c t r2) : CovOkC u (c + 1) (s ++ t) (covCombine r1 r2) := by
  obtain ⟨m11, m12, c1, n1⟩ := r1
  obtain ⟨m21, m22, c2, n2⟩ := r2
  obtain ⟨p1, p2, p3, p4⟩ := h1
  obtain ⟨q1, q2, q3, q4⟩ := h2
  simp only at p1 p2 p3 p4 q1 q2 q3 q4
  subst p4 q4
  have hs1 : (0 : ℝ) < s.length := by exact_mod_cast List.length_pos_iff.mpr hs
  have ht1 : (0 : ℝ) < t.length := by exact_mod_cast List.length_pos_iff.mpr ht
  have hsn := List.length_pos_iff.mpr hs
  have h3 : (0 : ℚ) < ((s.length + t.length : ℕ) : ℚ) := by
    exact_mod_cast (show 0 < s.length + t.length by omega)
  have r1 : (CppNum.ofInt 1 : CK (RFl rnd)) = ⟨RFl.fin 1, 0⟩ := by
    have := hn 1 (by omega)
    show (⟨RFl.fin (rnd _), 0⟩ : CK (RFl rnd)) = _
    rw [Int.cast_one]
    rw [Nat.cast_one] at this
    rw [this]
  unfold covCombine
  simp only [r1, ofIntC_nat s.length (by omega) (hn s.length (by omega)), ofIntC_nat t.length (by omega) (hn t.length (by omega)),
    ofIntC_nat (s.length + t.length) hlen (hn _ le_rfl)]
  have hnc := hn _ le_rfl
  clear hlen r1
  refine ⟨?_, ?_, ?_, by simp⟩
  · have := combine_meanC_approx hu hr (s.map Prod.fst) (t.map Prod.fst) (by simpa using hs)
      (by simpa using ht) (by rw [List.length_map, List.length_map]; exact hnc) _ _ _ p1 q1
    rw [List.length_map, List.length_map, ← List.map_append] at this
    exact this.mono hu (by omega) le_rfl
  · have := combine_meanC_approx hu hr (s.map Prod.snd) (t.map Prod.snd) (by simpa using hs)
      (by simpa using ht) (by rw [List.length_map, List.length_map]; exact hnc) _ _ _ p2 q2
    rw [List.length_map, List.length_map, ← List.map_append] at this
    exact this.mono hu (by omega) le_rfl
  · have a1 := CApprox.add hu hr p3 q3
    have w1 := CApprox.mul hu hr (CApprox.nat (rnd := rnd) hu 0 s.length) (CApprox.nat (rnd := rnd) hu 0 t.length)
    have w2 := CApprox.div_nat hu hr h3 hnc w1
    have d1 := CApprox.sub hu hr p1 q1
    have d2 := CApprox.sub hu hr p2 q2
    have w3 := CApprox.mul hu hr w2 d2.conj
    have w5 := CApprox.mul hu hr w3 d1
    have w4 := CApprox.add hu hr (a1.mono hu (show _ ≤ 213 + 14 * c by omega) le_rfl)
      (w5.mono hu (show _ ≤ 213 + 14 * c by omega) le_rfl)
    rw [covSumC_append s t hs ht]
    refine w4.mono hu (by omega) ?_
    have b1 := absMeanC_sq (s.map Prod.fst)
    have b2 := absMeanC_sq (t.map Prod.fst)
    have b3 := absMeanC_sq (s.map Prod.snd)
    have b4 := absMeanC_sq (t.map Prod.snd)
    rw [List.length_map] at b1 b2 b3 b4
    have hX := cross_boundR hs1 ht1 (add_le_add b1 b2) (add_le_add b3 b4)
    rw [sqSumC_append]
    have e1 := sqSumC_split s
    have e2 := sqSumC_split t
    clear w4 w5 w3 w2 w1 d1 d2 a1 p1 p2 p3 q1 q2 q3
    push_cast
    nlinarith

theorem covC_pairwise_approx (hu : 0 ≤ u) (hr : ∀ x, |rnd x - x| ≤ u * |x|) (s : List (CK ℚ × CK ℚ))
    (hne : s ≠ []) (hlen : s.length < 2 ^ 31) (hn : ∀ n : ℕ, n ≤ s.length → rnd n = n) :
    ∃ r, pairwiseAcc2 pwBlock (covBlock fun _ => true) covCombine (s.map fun ab => (finC ab.1 : CK (RFl rnd)))
      (s.map fun ab => finC ab.2) = .ok r ∧ CovOkC u (Nat.clog 2 s.length) s r := by
  induction hL : s.length using Nat.strong_induction_on generalizing s with
  | _ n ih =>
    subst hL
    unfold pairwiseAcc2
    rw [if_neg (by simp)]
    split
    · rename_i hle
      simp only [List.length_map, pwBlock] at hle
      exact covBlockC_approx hu hr s hne hle (hn _ le_rfl) _
    · rename_i hgt
      simp only [List.length_map, pwBlock, not_le] at hgt
      obtain ⟨k1, k2⟩ := clog_half s.length hgt
      simp only [List.length_map, ← List.map_take, ← List.map_drop]
      set h := s.length / 2 with hh
      have L1 : (s.take h).length = h := by simp; omega
      have L2 : (s.drop h).length = s.length - h := by simp
      have N1 : s.take h ≠ [] := by
        intro e; rw [e] at L1; simp at L1; omega
      have N2 : s.drop h ≠ [] := by
        intro e; rw [e] at L2; simp at L2; omega
      obtain ⟨r1, e1, o1⟩ := ih _ (by omega) (s.take h) N1 (by omega) (fun n hn' => hn n (by omega)) rfl
      obtain ⟨r2, e2, o2⟩ := ih _ (by omega) (s.drop h) N2 (by omega) (fun n hn' => hn n (by omega)) rfl
      rw [L1] at o1
      rw [L2] at o2
      have mono : ∀ (t : List (CK ℚ × CK ℚ)) (r : CovAcc (CK (RFl rnd))) (c c' : ℕ), c ≤ c' → CovOkC u c t r →
          CovOkC u c' t r := by
        rintro t r c c' hc ⟨o1, o2, o3, o4⟩
        refine ⟨o1.mono hu (by omega) le_rfl, o2.mono hu (by omega) le_rfl, o3.mono hu (by omega) ?_, o4⟩
        exact mul_le_mul_of_nonneg_right (by have : (c : ℝ) ≤ c' := by exact_mod_cast hc
                                             linarith) (sqSumC_nonneg t)
      obtain ⟨c', hc'⟩ : ∃ c', Nat.clog 2 s.length = c' + 1 := ⟨Nat.clog 2 s.length - 1, by omega⟩
      have o := covCombineC_approx hu hr (s.take h) (s.drop h) N1 N2 (by omega)
        (fun n hn' => hn n (by omega)) c' r1 r2 (mono _ _ _ _ (by omega) o1) (mono _ _ _ _ (by omega) o2)
      rw [List.take_append_drop] at o
      exact ⟨covCombine r1 r2, by rw [e1, e2]; rfl, by rw [hc']; exact o⟩

/-- C139, covariance: of two complex arrays of equal length `n`, `0 ≤ ddof < n`, whose length and smaller counts are numbers of the
type, the computed covariance is finite and within
`((1+u)^(214 + 14⌈log₂ n⌉) - 1)·(2 + ⌈log₂ n⌉)·(Σ(|re x| + |im x|)² + Σ(|re y| + |im y|)²)/(n - ddof)` of
`Σ (xᵢ - x̄)·conj(yᵢ - ȳ)/(n - ddof)`. -/
theorem C139_covariance (hu : 0 ≤ u) (hr : ∀ x, |rnd x - x| ≤ u * |x|) (ddof : ℕ) (x y : List (CK ℚ))
    (hxy : x.length = y.length) (hlen : x.length < 2 ^ 31) (hd : ddof < x.length)
    (hn : ∀ n : ℕ, n ≤ x.length → rnd n = n) :
    ∃ z : CK ℚ, covarianceF ddof (x.map (finC (rnd := rnd))) (y.map finC) (fun _ => true)
        = .ok (finC z, x.length) ∧
      ‖toC z - covL ddof ((x.map toC).zip (y.map toC))‖ ≤ ((1 + (u : ℝ)) ^ (214 + 14 * Nat.clog 2 x.length) - 1) *
        ((2 + Nat.clog 2 x.length) * ((x.map fun a => abs1 a ^ 2).sum + (y.map fun a => abs1 a ^ 2).sum) / (x.length - ddof)) := by
  have hz : (x.zip y).length = x.length := by rw [List.length_zip, hxy, min_self]
  have hf : (x.zip y).map Prod.fst = x := List.map_fst_zip (le_of_eq hxy)
  have hg : (x.zip y).map Prod.snd = y := List.map_snd_zip (le_of_eq hxy.symm)
  have hne : x.zip y ≠ [] := by
    intro e; rw [e] at hz; simp at hz; omega
  obtain ⟨⟨m1, m2, cv, n⟩, e, -, -, o3, o4⟩ := covC_pairwise_approx hu hr (x.zip y) hne (by omega)
    (by rw [hz]; exact hn)
  have z1 : (x.zip y).map (fun ab => (finC ab.1 : CK (RFl rnd))) = x.map finC := by
    conv_rhs => rw [← hf]
    rw [List.map_map]; rfl
  have z2 : (x.zip y).map (fun ab => (finC ab.2 : CK (RFl rnd))) = y.map finC := by
    conv_rhs => rw [← hg]
    rw [List.map_map]; rfl
  rw [z1, z2] at e
  simp only [hz] at o3 o4
  subst o4
  have hpos : (0 : ℚ) < x.length - ddof := by
    have : (ddof : ℚ) < x.length := by exact_mod_cast hd
    linarith
  have hsub : rnd ((x.length : ℚ) - ddof) = x.length - ddof := by
    have := hn (x.length - ddof) (by omega)
    rwa [Nat.cast_sub hd.le] at this
  have hdiv := CApprox.div_nat hu hr hpos hsub o3
  obtain ⟨z, hv, hb⟩ := hdiv.out hu
  refine ⟨z, ?_, ?_⟩
  · unfold covarianceF
    have hreq : ((x.map (finC (rnd := rnd))).length == (y.map (finC (rnd := rnd))).length) = true := by
      simp [hxy]
    have h0 : (x.map (finC (rnd := rnd))).length ≠ 0 := by rw [List.length_map]; omega
    simp only [hreq, require_true, Res.bind_ok, if_neg h0, e]
    rw [if_neg (by omega)]
    simp only [Res.pure_eq]
    have ho : (CppNum.ofInt (toI32 (x.length : ℤ) - (ddof : ℤ)) : CK (RFl rnd)) = ⟨RFl.fin ((x.length : ℚ) - ddof), 0⟩ := by
      show (⟨RFl.fin (rnd _), 0⟩ : CK (RFl rnd)) = _
      rw [toI32_of_lt (by omega) (by exact_mod_cast hlen)]
      push_cast
      rw [hsub]
    rw [ho, hv]
  · have hq : (x.map fun a => abs1 a ^ 2).sum + (y.map fun a => abs1 a ^ 2).sum = sqSumC (x.zip y) := by
      rw [sqSumC_split, hf, hg]
    rw [hq]
    have hcov : covL (ddof : ℤ) ((x.map toC).zip (y.map toC)) = covSum (toC2 (x.zip y)) / ((((x.length : ℚ) - ddof : ℚ) : ℝ) : ℂ) := by
      unfold covL toC2
      rw [List.zip_map, List.length_map, hz]
      push_cast
      rfl
    rw [hcov, show 214 + 14 * Nat.clog 2 x.length = 212 + 14 * Nat.clog 2 x.length + 2 by omega]
    refine hb.trans (le_of_eq ?_)
    push_cast
    rfl

/-- C139, variance: the computed variance is finite and within the bound of `C139_covariance` of `Σ |xᵢ - x̄|²/(n - ddof)`. -/
theorem C139_var (hu : 0 ≤ u) (hr : ∀ x, |rnd x - x| ≤ u * |x|) (ddof : ℕ) (x : List (CK ℚ))
    (hlen : x.length < 2 ^ 31) (hd : ddof < x.length) (hn : ∀ n : ℕ, n ≤ x.length → rnd n = n) :
    ∃ v : ℚ, varC ddof (x.map (finC (rnd := rnd))) = .ok (RFl.fin v) ∧
      |(v : ℝ) - (x.map fun t => ‖toC t - (x.map toC).sum / x.length‖ ^ 2).sum / (x.length - ddof)|
        ≤ ((1 + (u : ℝ)) ^ (214 + 14 * Nat.clog 2 x.length) - 1) *
          (2 * (2 + Nat.clog 2 x.length) * (x.map fun a => abs1 a ^ 2).sum / (x.length - ddof)) := by
  obtain ⟨z, h1, h2⟩ := C139_covariance hu hr ddof x x rfl hlen hd hn
  refine ⟨z.re, ?_, ?_⟩
  · unfold varC varF
    rw [h1]
    rfl
  have e : covL (ddof : ℤ) ((x.map toC).zip (x.map toC))
      = (((x.map fun t => ‖toC t - (x.map toC).sum / x.length‖ ^ 2).sum / (x.length - ddof) : ℝ) : ℂ) := by
    unfold covL covSum
    rw [List.map_fst_zip (le_refl _), List.map_snd_zip (le_refl _), List.zip_eq_zipWith, List.zipWith_self, List.map_map, List.map_map,
      List.length_map, List.length_map]
    push_cast
    congr 1
    have hs : ∀ l : List ℝ, ((l.sum : ℝ) : ℂ) = (l.map fun r : ℝ => (r : ℂ)).sum := by
      intro l; induction l with
      | nil => simp
      | cons a l ih => simp [ih]
    rw [hs, List.map_map]
    congr 1
    apply List.map_congr_left
    intro a _
    simp only [Function.comp, meanL, List.length_map]
    rw [← starRingEnd_apply, Complex.mul_conj, Complex.normSq_eq_norm_sq]
  rw [e] at h2
  have h3 := (Complex.abs_re_le_norm _).trans h2
  rw [Complex.sub_re, Complex.ofReal_re] at h3
  refine h3.trans (le_of_eq ?_)
  ring

end

/-- C139 in `double`: the covariance and the variance of complex arrays of fewer than `2^31` elements. -/
theorem C139_cov_binary64 (x y : List (CK ℚ)) (hlen : x.length < 2 ^ 31) (hxy : x.length = y.length) (ddof : ℕ) (hd : ddof < x.length) :
    (∃ z : CK ℚ, covarianceF ddof (x.map (finC (rnd := rnd64))) (y.map finC) (fun _ => true) = .ok (finC z, x.length) ∧
      ‖toC z - covL ddof ((x.map toC).zip (y.map toC))‖ ≤ ((1 + 1 / 2 ^ 53 : ℝ) ^ (214 + 14 * Nat.clog 2 x.length) - 1) *
        ((2 + Nat.clog 2 x.length) * ((x.map fun a => abs1 a ^ 2).sum + (y.map fun a => abs1 a ^ 2).sum) / (x.length - ddof))) ∧
    ∃ v : ℚ, varC ddof (x.map (finC (rnd := rnd64))) = .ok (RFl.fin v) ∧
      |(v : ℝ) - (x.map fun t => ‖toC t - (x.map toC).sum / x.length‖ ^ 2).sum / (x.length - ddof)|
        ≤ ((1 + 1 / 2 ^ 53 : ℝ) ^ (214 + 14 * Nat.clog 2 x.length) - 1) *
          (2 * (2 + Nat.clog 2 x.length) * (x.map fun a => abs1 a ^ 2).sum / (x.length - ddof)) := by
  have hu : (0 : ℚ) ≤ 1 / 2 ^ 53 := by positivity
  have hn : ∀ n : ℕ, n ≤ x.length → rnd64 n = n := fun n h =>
    rnd64_nat n (by generalize x.length = L at *; omega)
  have a := C139_covariance hu rnd64_err ddof x y hxy hlen hd hn
  have b := C139_var hu rnd64_err ddof x hlen hd hn
  push_cast at a b
  exact ⟨a, b⟩

/-- The hypotheses are met: two complex numbers. -/
example : ∃ v : ℚ, varC 1 ([⟨1, 1⟩, ⟨3, -1⟩].map (finC (rnd := rnd64))) = .ok (RFl.fin v) ∧
    |(v : ℝ) - 4| ≤ ((1 + 1 / 2 ^ 53 : ℝ) ^ 228 - 1) * 120 := by
  obtain ⟨v, h1, h2⟩ := (C139_cov_binary64 [⟨1, 1⟩, ⟨3, -1⟩] [⟨0, 0⟩, ⟨0, 0⟩] (by norm_num) rfl 1 (by simp)).2
  refine ⟨v, h1, ?_⟩
  have hc : Nat.clog 2 2 = 1 := by decide
  have e1 : toC ⟨1, 1⟩ - (toC ⟨1, 1⟩ + toC ⟨3, -1⟩) / 2 = ⟨-1, 1⟩ := by
    rw [Complex.ext_iff]; constructor
    · simp [toC]; norm_num
    · simp [toC]
  have e2 : toC ⟨3, -1⟩ - (toC ⟨1, 1⟩ + toC ⟨3, -1⟩) / 2 = ⟨1, -1⟩ := by
    rw [Complex.ext_iff]; constructor
    · simp [toC]; norm_num
    · simp [toC]
  simp only [List.map_cons, List.map_nil, List.sum_cons, List.sum_nil, List.length_cons, List.length_nil, add_zero] at h2
  norm_num [hc, abs1] at h2
  rw [e1, e2, ← Complex.normSq_eq_norm_sq, ← Complex.normSq_eq_norm_sq] at h2
  norm_num [Complex.normSq_apply] at h2
  norm_num
  exact h2

end SciCpp
