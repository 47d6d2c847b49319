import Verif.Props.Rounding
import Mathlib.Tactic.FieldSimp
import Mathlib.Tactic.Linarith
/-
  Property theorems C88, continued: rounding errors of the covariance and of the variance.
-/
set_option linter.unusedSectionVars false
namespace SciCpp
open Spec

section
variable {rnd : ℚ → ℚ} {u : ℚ}

/-- `Σ x² + Σ y²` of a list of pairs. -/
def Spec.sqSum (s : List (ℚ × ℚ)) : ℚ := (s.map fun ab => ab.1 ^ 2 + ab.2 ^ 2).sum

/-- Mean of the magnitudes. -/
def absMean (s : List ℚ) : ℚ := (s.map abs).sum / s.length

theorem absMean_nonneg (s : List ℚ) : 0 ≤ absMean s := by
  apply div_nonneg _ (Nat.cast_nonneg _)
  apply List.sum_nonneg
  simp only [List.mem_map, forall_exists_index, and_imp]
  rintro _ a - rfl
  exact abs_nonneg a

theorem covSum_rat (s : List (ℚ × ℚ)) : covSum s
    = (s.map fun ab => (ab.1 - meanL (s.map Prod.fst)) * (ab.2 - meanL (s.map Prod.snd))).sum := by
  unfold covSum; simp only [star_trivial]

/-- `n·(mean |x|)² ≤ Σ x²`. -/
theorem absMean_sq (s : List ℚ) : (s.length : ℚ) * absMean s ^ 2 ≤ (s.map fun x => x ^ 2).sum := by
  have key : ∀ (t : List ℚ) (c : ℚ),
      2 * c * (t.map abs).sum - (t.length : ℚ) * c ^ 2 ≤ (t.map fun x => x ^ 2).sum := by
    intro t c
    induction t with
    | nil => simp
    | cons x t ih =>
      simp only [List.map_cons, List.sum_cons, List.length_cons, Nat.cast_add, Nat.cast_one]
      have h1 := sq_nonneg (|x| - c)
      have h2 := sq_abs x
      nlinarith
  have h := key s (absMean s)
  rcases s with _ | ⟨a, s⟩
  · simp
  · have hpos : (0 : ℚ) < ((a :: s).length : ℚ) := by exact_mod_cast Nat.succ_pos _
    have e : ((a :: s).map abs).sum = ((a :: s).length : ℚ) * absMean (a :: s) := by
      unfold absMean; field_simp
    rw [e] at h
    nlinarith

theorem covLoop_fold (m1 m2 : RFl rnd) (s : List (ℚ × ℚ)) (res : RFl rnd) (c : ℕ) :
    covLoop (fun _ => true) m1 m2 res c (s.map fun ab => RFl.fin ab.1) (s.map fun ab => RFl.fin ab.2)
      = .ok (s.foldl (fun acc ab => acc + (RFl.fin ab.1 - m1) * (RFl.fin ab.2 - m2)) res, c + s.length) := by
  induction s generalizing res c with
  | nil => rfl
  | cons ab s ih =>
    rw [List.map_cons, List.map_cons, covLoop, Bool.and_self, if_pos rfl, ih, List.foldl_cons, List.length_cons]
    simp only [RFl.conj_def]
    rw [show c + 1 + s.length = c + (s.length + 1) by omega]

/-- Invariant of the covariance accumulator. -/
def CovOk (u : ℚ) (c : ℕ) (s : List (ℚ × ℚ)) (r : CovAcc (RFl rnd)) : Prop :=
  Approx u (71 + 4 * c) (meanL (s.map Prod.fst)) (absMean (s.map Prod.fst)) r.1 ∧
  Approx u (71 + 4 * c) (meanL (s.map Prod.snd)) (absMean (s.map Prod.snd)) r.2.1 ∧
  Approx u (209 + 8 * c) (covSum s) ((2 + c) * sqSum s) r.2.2.1 ∧ r.2.2.2 = s.length

theorem sqSum_split (s : List (ℚ × ℚ)) : sqSum s
    = ((s.map Prod.fst).map fun x => x ^ 2).sum + ((s.map Prod.snd).map fun x => x ^ 2).sum := by
  unfold sqSum
  induction s with
  | nil => simp
  | cons a s ih => simp only [List.map_cons, List.sum_cons, ih]; ring

theorem sqSum_nonneg (s : List (ℚ × ℚ)) : 0 ≤ sqSum s := by
  unfold sqSum
  apply List.sum_nonneg
  simp only [List.mem_map, forall_exists_index, and_imp]
  rintro _ a - rfl
  positivity

theorem sqSum_append (s t : List (ℚ × ℚ)) : sqSum (s ++ t) = sqSum s + sqSum t := by
  simp [sqSum]

theorem dev_bound (s : List (ℚ × ℚ)) (M N : ℚ) :
    (s.map fun ab => (|ab.1| + M) * (|ab.2| + N)).sum
      ≤ 1 / 2 * sqSum s + (s.map fun ab => |ab.1|).sum * N + M * (s.map fun ab => |ab.2|).sum
        + s.length * (M * N) := by
  unfold sqSum
  induction s with
  | nil => simp
  | cons a s ih =>
    simp only [List.map_cons, List.sum_cons, List.length_cons, Nat.cast_add, Nat.cast_one]
    have h1 := sq_nonneg (|a.1| - |a.2|)
    have h2 := sq_abs a.1
    have h3 := sq_abs a.2
    nlinarith

theorem covBlock_approx (hu : 0 ≤ u) (hr : ∀ x, |rnd x - x| ≤ u * |x|) (s : List (ℚ × ℚ))
    (hne : s ≠ []) (hlen : s.length ≤ 64) (hn : rnd s.length = s.length) (c : ℕ) :
    ∃ r, covBlock (fun _ => true) (s.map fun ab => (RFl.fin ab.1 : RFl rnd)) (s.map fun ab => RFl.fin ab.2)
      = .ok r ∧ CovOk u c s r := by
  have hpos : (0 : ℚ) < s.length := by exact_mod_cast List.length_pos_iff.mpr hne
  have hclog : Nat.clog 2 s.length ≤ 6 := by
    refine (Nat.clog_mono_right 2 hlen).trans ?_
    exact Nat.clog_le_of_le_pow (by norm_num)
  have m1 := (mean_approx hu hr (s.map fun ab => (RFl.fin ab.1 : RFl rnd)) (fun _ => true) (s.map Prod.fst)
    (by simp [List.map_map]) (by simpa using hne) (by rw [List.length_map]; omega)
    (by rw [List.length_map]; exact hn)).mono hu (show _ ≤ 71 by rw [List.length_map]; omega) le_rfl
  have m2 := (mean_approx hu hr (s.map fun ab => (RFl.fin ab.2 : RFl rnd)) (fun _ => true) (s.map Prod.snd)
    (by simp [List.map_map]) (by simpa using hne) (by rw [List.length_map]; omega)
    (by rw [List.length_map]; exact hn)).mono hu (show _ ≤ 71 by rw [List.length_map]; omega) le_rfl
  unfold covBlock
  generalize mean (s.map fun ab => (RFl.fin ab.1 : RFl rnd)) (fun _ => true) = v1 at m1 ⊢
  generalize mean (s.map fun ab => (RFl.fin ab.2 : RFl rnd)) (fun _ => true) = v2 at m2 ⊢
  simp only [covLoop_fold, Res.bind_ok, Res.pure_eq]
  refine ⟨_, rfl, m1.mono hu (by omega) le_rfl, m2.mono hu (by omega) le_rfl, ?_, by simp⟩
  set M := absMean (s.map Prod.fst) with hMdef
  set N := absMean (s.map Prod.snd) with hNdef
  have hM : 0 ≤ M := absMean_nonneg _
  have hN : 0 ≤ N := absMean_nonneg _
  have hf := Approx.foldl_add hu hr s
    (fun ab => (RFl.fin ab.1 - v1) * (RFl.fin ab.2 - v2) : ℚ × ℚ → RFl rnd)
    (fun ab => (ab.1 - meanL (s.map Prod.fst)) * (ab.2 - meanL (s.map Prod.snd)))
    (fun ab => (|ab.1| + M) * (|ab.2| + N)) 145
    (fun ab _ => by
      have d1 := Approx.sub hu hr (Approx.exact (rnd := rnd) hu 71 ab.1 _ le_rfl) m1
      have d2 := Approx.sub hu hr (Approx.exact (rnd := rnd) hu 71 ab.2 _ le_rfl) m2
      exact (Approx.mul hu hr d1 d2).mono hu (by omega) le_rfl) (RFl.fin 0) 0 0 (Approx.exact hu _ 0 0 (by simp))
  rw [zero_add, zero_add] at hf
  rw [covSum_rat]
  refine hf.mono hu (by omega) ?_
  refine (dev_bound s M N).trans ?_
  have e1 : (s.map fun ab => |ab.1|).sum = s.length * M := by
    rw [hMdef, absMean, List.length_map, List.map_map]
    field_simp
    rfl
  have e2 : (s.map fun ab => |ab.2|).sum = s.length * N := by
    rw [hNdef, absMean, List.length_map, List.map_map]
    field_simp
    rfl
  rw [e1, e2]
  have q1 := absMean_sq (s.map Prod.fst)
  have q2 := absMean_sq (s.map Prod.snd)
  rw [List.length_map, ← hMdef] at q1
  rw [List.length_map, ← hNdef] at q2
  have q3 := sqSum_split s
  clear hf m1 m2 hr hn hclog
  have h1 : (s.length : ℚ) * (M * N) ≤ 1 / 2 * sqSum s := by
    have := mul_nonneg hpos.le (sq_nonneg (M - N))
    nlinarith
  have h2 := sqSum_nonneg s
  have h3 : (0 : ℚ) ≤ c := Nat.cast_nonneg c
  have h4 := mul_nonneg h3 h2
  nlinarith

theorem meanL_append (a b : List ℚ) (ha : a ≠ []) (hb : b ≠ []) :
    meanL (a ++ b) = 1 / ((a.length + b.length : ℕ) : ℚ) * (a.length * meanL a + b.length * meanL b) := by
  have h1 : (0 : ℚ) < a.length := by exact_mod_cast List.length_pos_iff.mpr ha
  have h2 : (0 : ℚ) < b.length := by exact_mod_cast List.length_pos_iff.mpr hb
  unfold meanL
  rw [List.sum_append, List.length_append]
  push_cast
  field_simp

theorem absMean_append (a b : List ℚ) (ha : a ≠ []) (hb : b ≠ []) :
    absMean (a ++ b) = 1 / ((a.length + b.length : ℕ) : ℚ) * (a.length * absMean a + b.length * absMean b) := by
  have h1 : (0 : ℚ) < a.length := by exact_mod_cast List.length_pos_iff.mpr ha
  have h2 : (0 : ℚ) < b.length := by exact_mod_cast List.length_pos_iff.mpr hb
  unfold absMean
  rw [List.map_append, List.sum_append, List.length_append]
  push_cast
  field_simp

theorem covSum_append (s t : List (ℚ × ℚ)) (hs : s ≠ []) (ht : t ≠ []) :
    covSum (s ++ t) = covSum s + covSum t
      + (s.length : ℚ) * t.length / ((s.length + t.length : ℕ) : ℚ)
        * (meanL (s.map Prod.snd) - meanL (t.map Prod.snd))
        * (meanL (s.map Prod.fst) - meanL (t.map Prod.fst)) := by
  have h1 : (0 : ℚ) < s.length := by exact_mod_cast List.length_pos_iff.mpr hs
  have h2 : (0 : ℚ) < t.length := by exact_mod_cast List.length_pos_iff.mpr ht
  have hc : ((s ++ t).length : ℚ) ≠ 0 := by rw [List.length_append]; push_cast; positivity
  rw [covSum_eq s h1.ne', covSum_eq t h2.ne', covSum_eq (s ++ t) hc]
  simp only [List.map_append, List.sum_append, List.length_append, meanL, List.length_map, star_trivial]
  push_cast
  field_simp
  ring

/-- The mean part of the combination step. -/
theorem combine_mean_approx (hu : 0 ≤ u) (hr : ∀ x, |rnd x - x| ≤ u * |x|) (a b : List ℚ) (ha : a ≠ [])
    (hb : b ≠ []) (k : ℕ) (x y : RFl rnd) (hx : Approx u k (meanL a) (absMean a) x)
    (hy : Approx u k (meanL b) (absMean b) y) :
    Approx u (k + 4) (meanL (a ++ b)) (absMean (a ++ b))
      ((RFl.fin 1 / RFl.fin ((a.length + b.length : ℕ) : ℚ)) * (RFl.fin (a.length : ℚ) * x + RFl.fin (b.length : ℚ) * y)) := by
  have h1 : (0 : ℚ) < a.length := by exact_mod_cast List.length_pos_iff.mpr ha
  have h2 : (0 : ℚ) < b.length := by exact_mod_cast List.length_pos_iff.mpr hb
  have h3 : (0 : ℚ) < ((a.length + b.length : ℕ) : ℚ) := by push_cast; positivity
  rw [meanL_append a b ha hb, absMean_append a b ha hb]
  have n1 := Approx.mul hu hr (Approx.exact (rnd := rnd) hu 0 (a.length : ℚ) _ (abs_of_pos h1).le) hx
  have n2 := Approx.mul hu hr (Approx.exact (rnd := rnd) hu 0 (b.length : ℚ) _ (abs_of_pos h2).le) hy
  have d := Approx.div hu hr h3 (Approx.exact (rnd := rnd) hu 0 1 1 (by norm_num))
  exact (Approx.mul hu hr d (Approx.add hu hr n1 n2)).mono hu (by omega) le_rfl

theorem cross_bound {p q A B C D X Y : ℚ} (hp : 0 < p) (hq : 0 < q)
    (hX : p * A ^ 2 + q * B ^ 2 ≤ X) (hY : p * C ^ 2 + q * D ^ 2 ≤ Y) :
    p * q / (p + q) * (C + D) * (A + B) ≤ X + Y := by
  have h0 : 0 < p + q := by linarith
  have hw : 0 < p * q / (p + q) := by positivity
  have w1 : p * q / (p + q) ≤ p := by
    rw [div_le_iff₀ h0]; nlinarith [mul_pos hp hp]
  have w2 : p * q / (p + q) ≤ q := by
    rw [div_le_iff₀ h0]; nlinarith [mul_pos hq hq]
  set w := p * q / (p + q)
  have a1 : (C + D) * (A + B) ≤ A ^ 2 + B ^ 2 + C ^ 2 + D ^ 2 := by
    nlinarith [sq_nonneg (A - B), sq_nonneg (C - D), sq_nonneg (A + B - C - D)]
  have a2 := mul_le_mul_of_nonneg_left a1 hw.le
  have b1 := mul_le_mul_of_nonneg_right w1 (sq_nonneg A)
  have b2 := mul_le_mul_of_nonneg_right w2 (sq_nonneg B)
  have b3 := mul_le_mul_of_nonneg_right w1 (sq_nonneg C)
  have b4 := mul_le_mul_of_nonneg_right w2 (sq_nonneg D)
  nlinarith

theorem covCombine_approx (hu : 0 ≤ u) (hr : ∀ x, |rnd x - x| ≤ u * |x|) (s t : List (ℚ × ℚ))
    (hs : s ≠ []) (ht : t ≠ []) (hlen : s.length + t.length < 2 ^ 31)
    (hn : ∀ n : ℕ, n ≤ s.length + t.length → rnd n = n) (c : ℕ) (r1 r2 : CovAcc (RFl rnd))
    (h1 : CovOk u c s r1) (h2 : CovOk u c t r2) : CovOk u (c + 1) (s ++ t) (covCombine r1 r2) := by
  obtain ⟨m11, m12, c1, n1⟩ := r1
  obtain ⟨m21, m22, c2, n2⟩ := r2
  obtain ⟨p1, p2, p3, p4⟩ := h1
  obtain ⟨q1, q2, q3, q4⟩ := h2
  simp only at p1 p2 p3 p4 q1 q2 q3 q4
  subst p4 q4
  have hs1 : (0 : ℚ) < s.length := by exact_mod_cast List.length_pos_iff.mpr hs
  have ht1 : (0 : ℚ) < t.length := by exact_mod_cast List.length_pos_iff.mpr ht
  have h3 : (0 : ℚ) < ((s.length + t.length : ℕ) : ℚ) := by push_cast; positivity
  have i1 : toI32 ((s.length : ℕ) : ℤ) = s.length := toI32_of_lt (by omega) (by omega)
  have i2 : toI32 ((t.length : ℕ) : ℤ) = t.length := toI32_of_lt (by omega) (by omega)
  have i3 : toI32 ((s.length + t.length : ℕ) : ℤ) = ((s.length + t.length : ℕ) : ℤ) :=
    toI32_of_lt (by omega) (by omega)
  have r1 : rnd (1 : ℚ) = 1 := by
    have hs1' := List.length_pos_iff.mpr hs
    have := hn 1 (by omega)
    simpa using this
  unfold covCombine
  simp only [i1, i2, i3, RFl.ofInt_def, Int.cast_natCast, Int.cast_one, r1, RFl.conj_def,
    hn s.length (by omega), hn t.length (by omega), hn (s.length + t.length) le_rfl]
  clear i1 i2 i3 hlen
  refine ⟨?_, ?_, ?_, by simp⟩
  · have := combine_mean_approx hu hr (s.map Prod.fst) (t.map Prod.fst) (by simpa using hs)
      (by simpa using ht) _ _ _ p1 q1
    rw [List.length_map, List.length_map, ← List.map_append] at this
    exact this.mono hu (by omega) le_rfl
  · have := combine_mean_approx hu hr (s.map Prod.snd) (t.map Prod.snd) (by simpa using hs)
      (by simpa using ht) _ _ _ p2 q2
    rw [List.length_map, List.length_map, ← List.map_append] at this
    exact this.mono hu (by omega) le_rfl
  · have a1 := Approx.add hu hr p3 q3
    have w1 := Approx.mul hu hr (Approx.exact (rnd := rnd) hu 0 (s.length : ℚ) _ (abs_of_pos hs1).le)
      (Approx.exact (rnd := rnd) hu 0 (t.length : ℚ) _ (abs_of_pos ht1).le)
    have w2 := Approx.div hu hr h3 w1
    have d1 := Approx.sub hu hr p1 q1
    have d2 := Approx.sub hu hr p2 q2
    have w3 := Approx.mul hu hr (Approx.mul hu hr w2 d2) d1
    have w4 := Approx.add hu hr (a1.mono hu (show _ ≤ 210 + 8 * c by omega) le_rfl)
      (w3.mono hu (show _ ≤ 210 + 8 * c by omega) le_rfl)
    rw [covSum_append s t hs ht]
    refine w4.mono hu (by omega) ?_
    have b1 := absMean_sq (s.map Prod.fst)
    have b2 := absMean_sq (t.map Prod.fst)
    have b3 := absMean_sq (s.map Prod.snd)
    have b4 := absMean_sq (t.map Prod.snd)
    rw [List.length_map] at b1 b2 b3 b4
    have hX := cross_bound hs1 ht1 (add_le_add b1 b2) (add_le_add b3 b4)
    rw [sqSum_append]
    have e1 := sqSum_split s
    have e2 := sqSum_split t
    push_cast
    nlinarith

theorem cov_pairwise_approx (hu : 0 ≤ u) (hr : ∀ x, |rnd x - x| ≤ u * |x|) (s : List (ℚ × ℚ))
    (hne : s ≠ []) (hlen : s.length < 2 ^ 31) (hn : ∀ n : ℕ, n ≤ s.length → rnd n = n) :
    ∃ r, pairwiseAcc2 pwBlock (covBlock fun _ => true) covCombine (s.map fun ab => (RFl.fin ab.1 : RFl rnd))
      (s.map fun ab => RFl.fin ab.2) = .ok r ∧ CovOk u (Nat.clog 2 s.length) s r := by
  induction hL : s.length using Nat.strong_induction_on generalizing s with
  | _ n ih =>
    subst hL
    unfold pairwiseAcc2
    rw [if_neg (by simp)]
    split
    · rename_i hle
      simp only [List.length_map, pwBlock] at hle
      exact covBlock_approx hu hr s hne hle (hn _ le_rfl) _
    · rename_i hgt
      simp only [List.length_map, pwBlock, not_le] at hgt
      obtain ⟨k1, k2⟩ := clog_half s.length hgt
      simp only [List.length_map, ← List.map_take, ← List.map_drop]
      set h := s.length / 2 with hh
      have L1 : (s.take h).length = h := by simp; omega
      have L2 : (s.drop h).length = s.length - h := by simp
      have N1 : s.take h ≠ [] := by
        intro e; rw [e] at L1; simp at L1; omega
      have N2 : s.drop h ≠ [] := by
        intro e; rw [e] at L2; simp at L2; omega
      obtain ⟨r1, e1, o1⟩ := ih _ (by omega) (s.take h) N1 (by omega) (fun n hn' => hn n (by omega)) rfl
      obtain ⟨r2, e2, o2⟩ := ih _ (by omega) (s.drop h) N2 (by omega) (fun n hn' => hn n (by omega)) rfl
      rw [L1] at o1
      rw [L2] at o2
      have mono : ∀ (t : List (ℚ × ℚ)) (r : CovAcc (RFl rnd)) (c c' : ℕ), c ≤ c' → CovOk u c t r →
          CovOk u c' t r := by
        rintro t r c c' hc ⟨o1, o2, o3, o4⟩
        refine ⟨o1.mono hu (by omega) le_rfl, o2.mono hu (by omega) le_rfl, o3.mono hu (by omega) ?_, o4⟩
        exact mul_le_mul_of_nonneg_right (by have : (c : ℚ) ≤ c' := by exact_mod_cast hc
                                             linarith) (sqSum_nonneg t)
      obtain ⟨c', hc'⟩ : ∃ c', Nat.clog 2 s.length = c' + 1 := ⟨Nat.clog 2 s.length - 1, by omega⟩
      have o := covCombine_approx hu hr (s.take h) (s.drop h) N1 N2 (by omega)
        (fun n hn' => hn n (by omega)) c' r1 r2 (mono _ _ _ _ (by omega) o1) (mono _ _ _ _ (by omega) o2)
      rw [List.take_append_drop] at o
      exact ⟨covCombine r1 r2, by rw [e1, e2]; rfl, by rw [hc']; exact o⟩

/-- C88, covariance: for two arrays of equal length `n`, `0 ≤ ddof < n`, whose length and smaller counts
are representable, the computed covariance is finite and within
`((1+u)^(210 + 8⌈log₂ n⌉) - 1)·(2 + ⌈log₂ n⌉)·(Σx² + Σy²)/(n - ddof)` of the exact one. -/
theorem C88_covariance (hu : 0 ≤ u) (hr : ∀ x, |rnd x - x| ≤ u * |x|) (ddof : ℕ) (x y : List ℚ)
    (hxy : x.length = y.length) (hlen : x.length < 2 ^ 31) (hd : ddof < x.length)
    (hn : ∀ n : ℕ, n ≤ x.length → rnd n = n) :
    ∃ v, covarianceF ddof (x.map (RFl.fin (rnd := rnd))) (y.map RFl.fin) (fun _ => true)
        = .ok (RFl.fin v, x.length) ∧
      |v - covL ddof (x.zip y)| ≤ ((1 + u) ^ (210 + 8 * Nat.clog 2 x.length) - 1) *
        ((2 + Nat.clog 2 x.length) * ((x.map (· ^ 2)).sum + (y.map (· ^ 2)).sum) / (x.length - ddof)) := by
  have hz : (x.zip y).length = x.length := by rw [List.length_zip, hxy, min_self]
  have hf : (x.zip y).map Prod.fst = x := List.map_fst_zip (le_of_eq hxy)
  have hg : (x.zip y).map Prod.snd = y := List.map_snd_zip (le_of_eq hxy.symm)
  have hne : x.zip y ≠ [] := by
    intro e; rw [e] at hz; simp at hz; omega
  obtain ⟨⟨m1, m2, cv, n⟩, e, -, -, o3, o4⟩ := cov_pairwise_approx hu hr (x.zip y) hne (by omega)
    (by rw [hz]; exact hn)
  have z1 : (x.zip y).map (fun ab => (RFl.fin ab.1 : RFl rnd)) = x.map RFl.fin := by
    conv_rhs => rw [← hf]
    rw [List.map_map]; rfl
  have z2 : (x.zip y).map (fun ab => (RFl.fin ab.2 : RFl rnd)) = y.map RFl.fin := by
    conv_rhs => rw [← hg]
    rw [List.map_map]; rfl
  rw [z1, z2] at e
  simp only [hz] at o3 o4
  subst o4
  have hpos : (0 : ℚ) < x.length - ddof := by
    have : (ddof : ℚ) < x.length := by exact_mod_cast hd
    linarith
  have hsub : rnd ((x.length : ℚ) - ddof) = x.length - ddof := by
    have := hn (x.length - ddof) (by omega)
    rwa [Nat.cast_sub hd.le] at this
  have hdiv := Approx.div hu hr hpos o3
  obtain ⟨v, hv, hb, -⟩ := hdiv
  refine ⟨v, ?_, ?_⟩
  · unfold covarianceF
    have hreq : ((x.map (RFl.fin (rnd := rnd))).length == (y.map (RFl.fin (rnd := rnd))).length) = true := by
      simp [hxy]
    have h0 : (x.map (RFl.fin (rnd := rnd))).length ≠ 0 := by rw [List.length_map]; omega
    simp only [hreq, require_true, Res.bind_ok, if_neg h0, e]
    rw [if_neg (by omega)]
    simp only [Res.pure_eq, RFl.ofInt_def]
    rw [toI32_of_lt (by omega) (by exact_mod_cast hlen)]
    push_cast
    rw [hsub, hv]
  · have hq : (x.map (· ^ 2)).sum + (y.map (· ^ 2)).sum = sqSum (x.zip y) := by
      rw [sqSum_split, hf, hg]
    rw [hq]
    have hcov : covL (ddof : ℤ) (x.zip y) = covSum (x.zip y) / (x.length - ddof) := by
      unfold covL; rw [hz]; push_cast; rfl
    rw [hcov, show 210 + 8 * Nat.clog 2 x.length = 209 + 8 * Nat.clog 2 x.length + 1 by omega]
    exact hb

/-- C88, variance: `C88_covariance` with both arrays the same. -/
theorem C88_var (hu : 0 ≤ u) (hr : ∀ x, |rnd x - x| ≤ u * |x|) (ddof : ℕ) (x : List ℚ)
    (hlen : x.length < 2 ^ 31) (hd : ddof < x.length) (hn : ∀ n : ℕ, n ≤ x.length → rnd n = n) :
    ∃ v, varF ddof (x.map (RFl.fin (rnd := rnd))) (fun _ => true) = .ok (RFl.fin v, x.length) ∧
      |v - (x.map fun t => (t - x.sum / x.length) ^ 2).sum / (x.length - ddof)|
        ≤ ((1 + u) ^ (210 + 8 * Nat.clog 2 x.length) - 1) *
          (2 * (2 + Nat.clog 2 x.length) * (x.map (· ^ 2)).sum / (x.length - ddof)) := by
  obtain ⟨v, h1, h2⟩ := C88_covariance hu hr ddof x x rfl hlen hd hn
  refine ⟨v, h1, ?_⟩
  have e : covL (ddof : ℤ) (x.zip x) = (x.map fun t => (t - x.sum / x.length) ^ 2).sum / (x.length - ddof) := by
    unfold covL
    rw [covSum_rat, List.map_fst_zip (le_refl _), List.map_snd_zip (le_refl _)]
    have hzz : x.zip x = x.map fun a => (a, a) := by
      induction x with
      | nil => rfl
      | cons a x ih => clear ih; simp [List.zip_eq_zipWith, List.zipWith_self]
    rw [hzz, List.map_map, List.length_map]
    push_cast
    congr 2
    apply List.map_congr_left
    intro a _
    simp only [Function.comp, meanL]; ring
  rw [e] at h2
  refine h2.trans (le_of_eq ?_)
  ring

end

/-! ### binary64 -/

/-- C88 in `double`: the mean, the inner product, the trapezoidal rule and the variance of arrays of
fewer than `2^31` finite elements, with `u = 2^-53`. -/
theorem C88_binary64 (x y : List ℚ) (hlen : x.length < 2 ^ 31) (hne : x ≠ []) (hxy : x.length = y.length)
    (ddof : ℕ) (hd : ddof < x.length) :
    (∃ m, mean (x.map (RFl.fin (rnd := rnd64))) (fun _ => true) = RFl.fin m ∧
      |m - x.sum / x.length| ≤ ((1 + 1 / 2 ^ 53) ^ (65 + Nat.clog 2 x.length) - 1) *
        ((x.map abs).sum / x.length)) ∧
    (∃ z, inner (x.map (RFl.fin (rnd := rnd64))) (y.map RFl.fin) = .ok (RFl.fin z) ∧
      |z - (List.zipWith (· * ·) x y).sum| ≤ ((1 + 1 / 2 ^ 53) ^ (65 + Nat.clog 2 x.length) - 1) *
        (List.zipWith (fun a b => |a| * |b|) x y).sum) ∧
    (2 ≤ x.length → ∀ dx, ∃ z, trapz false (x.map (RFl.fin (rnd := rnd64))) (RFl.fin dx) = .ok (RFl.fin z) ∧
      |z - trapezoidRule dx x| ≤ ((1 + 1 / 2 ^ 53) ^ (69 + Nat.clog 2 x.length) - 1) *
        trapezoidRule |dx| (x.map abs)) ∧
    (∃ v, varF ddof (x.map (RFl.fin (rnd := rnd64))) (fun _ => true) = .ok (RFl.fin v, x.length) ∧
      |v - (x.map fun t => (t - x.sum / x.length) ^ 2).sum / (x.length - ddof)|
        ≤ ((1 + 1 / 2 ^ 53) ^ (210 + 8 * Nat.clog 2 x.length) - 1) *
          (2 * (2 + Nat.clog 2 x.length) * (x.map (· ^ 2)).sum / (x.length - ddof))) := by
  have hu : (0 : ℚ) ≤ 1 / 2 ^ 53 := by positivity
  have hn : ∀ n : ℕ, n ≤ x.length → rnd64 n = n := fun n h =>
    rnd64_nat n (by generalize x.length = L at *; omega)
  refine ⟨?_, C88_inner hu rnd64_err x y hxy, fun h2 dx => C88_trapz hu rnd64_err ?_ ?_ x dx h2,
    C88_var hu rnd64_err ddof x hlen hd hn⟩
  · have := C88_mean hu rnd64_err (x.map (RFl.fin (rnd := rnd64))) (fun _ => true) x (by simp) hne hlen
      (hn _ le_rfl)
    rwa [List.length_map] at this
  · have := rnd64_nat 2 (by norm_num)
    simpa using this
  · have := rnd64_exact 1 (-1) (by norm_num)
    norm_num at this ⊢
    exact this

/-- The hypotheses are met, and the bound is not vacuous: the mean of three binary64 numbers. -/
example : ∃ m, mean ([1, 2, 4].map (RFl.fin (rnd := rnd64))) (fun _ => true) = RFl.fin m ∧
    |m - 7 / 3| ≤ ((1 + 1 / 2 ^ 53) ^ 67 - 1) * (7 / 3) := by
  obtain ⟨m, h1, h2⟩ := (C88_binary64 [1, 2, 4] [0, 0, 0] (by norm_num) (by simp) rfl 0 (by simp)).1
  refine ⟨m, h1, ?_⟩
  have hc : Nat.clog 2 3 = 2 := by decide
  norm_num [hc] at h2 ⊢
  exact h2

end SciCpp
