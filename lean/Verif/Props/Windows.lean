import Verif.Proofs.Windows
import Verif.Props.Numeric
import Verif.Proofs.Dft
import Mathlib.Algebra.Order.Chebyshev
import Mathlib.Algebra.BigOperators.Field
import Mathlib.Algebra.BigOperators.Group.List.Basic
/-
  Property theorems C47 (windows) and C48 (window gains).
-/
namespace SciCpp

set_option linter.unusedSectionVars false

universe u
variable {α : Type u}

/-! ## The public window functions and what the textbook says about them -/

/-- A call of one of the public window functions, except for its length and symmetry. -/
inductive WinCall where
  | kind (k : WinKind)
  | generalCosine (a : List ℝ)
  | gaussian (sigma : ℝ)
  | generalGaussian (p sigma : ℝ)
  | kaiser (beta : ℝ)
  | tukey (alpha : ℝ)

/-- The call itself (scicpp/signal/windows.hpp:72-506). -/
noncomputable def callWindow : WinCall → Sym → ℕ → Res (List (Ex ℝ))
  | .kind .boxcar, s, m => boxcarW s m
  | .kind .bartlett, s, m => bartlettW s m
  | .kind .cosine, s, m => cosineW s m
  | .kind .hann, s, m => hannW s m
  | .kind .hamming, s, m => hammingW s m
  | .kind .blackman, s, m => blackmanW s m
  | .kind .nuttall, s, m => nuttallW s m
  | .kind .blackmanharris, s, m => blackmanharrisW s m
  | .kind .flattop, s, m => flattopW s m
  | .kind .bohman, s, m => bohmanW s m
  | .kind .parzen, s, m => parzenW s m
  | .kind .lanczos, s, m => lanczosW s m
  | .generalCosine a, s, m => generalCosineW s m a
  | .gaussian σ, s, m => gaussianW s m σ
  | .generalGaussian p σ, s, m => generalGaussianW s m p σ
  | .kaiser β, s, m => kaiserW s m β
  | .tukey a, s, m => tukeyW s m a

/-- The textbook window of each call. -/
noncomputable def textbook : WinCall → ℕ → ℕ → ℝ
  | .kind .boxcar => fun _ _ => 1
  | .kind .bartlett => Spec.bartlett
  | .kind .cosine => Spec.cosineWin
  | .kind .hann => Spec.hann
  | .kind .hamming => Spec.hamming
  | .kind .blackman => Spec.blackman
  | .kind .nuttall => Spec.nuttall
  | .kind .blackmanharris => Spec.blackmanharris
  | .kind .flattop => Spec.flattop
  | .kind .bohman => Spec.bohman
  | .kind .parzen => Spec.parzen
  | .kind .lanczos => Spec.lanczos
  | .generalCosine a => Spec.generalCosine a
  | .gaussian σ => Spec.gaussian σ
  | .generalGaussian p σ => Spec.generalGaussian p σ
  | .kaiser β => Spec.kaiser β
  | .tukey a => Spec.tukey (max 0 (min a 1))

/-- Parameters for which the windows are defined. -/
def validCall : WinCall → Prop
  | .gaussian σ => σ ≠ 0
  | .generalGaussian _ σ => 0 < σ
  | _ => True

/-! ## C47 — symmetry -/

/-- C47: whatever the element type, its arithmetic and the sample function, a window filled by the
library has the requested length and reads the same in both directions, exactly. -/
theorem C47_filler_symmetric (cast : ℕ → α) (f : α → α) (w : List α) :
    ∃ r, symmetricFiller cast f w = .ok r ∧ r.length = w.length ∧
      ∀ i (h : i < r.length), r[i] = r[r.length - 1 - i]'(by omega) := by
  refine ⟨_, symmetricFiller_eq cast f w, by simp, ?_⟩
  intro i h
  simp only [List.length_map, List.length_range, List.getElem_map, List.getElem_range]
  simp only [List.length_map, List.length_range] at h
  rw [show max (w.length - 1 - i) (w.length - 1 - (w.length - 1 - i)) = max i (w.length - 1 - i) by omega]

theorem reverse_of_symm (r : List α)
    (h : ∀ i (h : i < r.length), r[i] = r[r.length - 1 - i]'(by omega)) : r.reverse = r := by
  apply List.ext_getElem (by simp)
  intro i h1 h2
  rw [List.getElem_reverse]
  exact (h i h2).symm

theorem filler_sym (cast : ℕ → α) (f : α → α) (w : List α) :
    ∃ r, symmetricFiller cast f w = .ok r ∧ r.length = w.length ∧ r.reverse = r := by
  obtain ⟨r, h1, h2, h3⟩ := C47_filler_symmetric cast f w
  exact ⟨r, h1, h2, reverse_of_symm r h3⟩

/-- Each call is `ones`, a Hann window, or a filler applied through `build_window_*`. -/
theorem call_cases (c : WinCall) :
    (∀ s m, callWindow c s m = .ok (ones m)) ∨
    (∃ a, 1 ≤ a ∧ c = .tukey a) ∨
    (∃ F : List (Ex ℝ) → Res (List (Ex ℝ)), (∀ s m, callWindow c s m = buildR s m F) ∧
      ∀ w, ∃ r, F w = .ok r ∧ r.length = w.length ∧ r.reverse = r) := by
  have fi : ∀ (f : ℕ → Ex ℝ) (w : List (Ex ℝ)),
      ∃ r, fillIdx f w = .ok r ∧ r.length = w.length ∧ r.reverse = r :=
    fun f w => filler_sym _ _ w
  have gc : ∀ (a : List ℝ) (w : List (Ex ℝ)),
      ∃ r, generalCosineFiller a w = .ok r ∧ r.length = w.length ∧ r.reverse = r :=
    fun a w => by unfold generalCosineFiller; exact fi _ w
  rcases c with k | a | σ | ⟨p, σ⟩ | β | a
  · cases k
    case boxcar => exact .inl fun _ _ => rfl
    case bartlett => exact .inr (.inr ⟨_, fun _ _ => rfl, fun w => filler_sym _ _ w⟩)
    case cosine =>
      refine .inr (.inr ⟨_, fun _ _ => rfl, fun w => ?_⟩)
      unfold cosineFiller
      split
      · rename_i h; subst h; exact ⟨[], rfl, rfl, rfl⟩
      · exact fi _ w
    case bohman =>
      refine .inr (.inr ⟨_, fun _ _ => rfl, fun w => ?_⟩)
      unfold bohmanFiller
      split
      · rename_i h; subst h; exact ⟨[], rfl, rfl, rfl⟩
      · exact fi _ w
    case parzen => exact .inr (.inr ⟨_, fun _ _ => rfl, fun w => by unfold parzenFiller; exact fi _ w⟩)
    case lanczos => exact .inr (.inr ⟨_, fun _ _ => rfl, fun w => by unfold lanczosFiller; exact fi _ w⟩)
    all_goals exact .inr (.inr ⟨_, fun _ _ => rfl, fun w => gc _ w⟩)
  · exact .inr (.inr ⟨_, fun _ _ => rfl, fun w => gc _ w⟩)
  · exact .inr (.inr ⟨_, fun _ _ => rfl, fun w => by unfold gaussianFiller; exact fi _ w⟩)
  · exact .inr (.inr ⟨_, fun _ _ => rfl, fun w => by unfold generalGaussianFiller; exact fi _ w⟩)
  · refine .inr (.inr ⟨_, fun _ _ => rfl, fun w => ?_⟩)
    unfold kaiserFiller
    simp only [abs_nonneg, decide_true, require_true, Res.bind_ok]
    exact fi _ w
  · by_cases h0 : a ≤ 0
    · exact .inl fun s m => by simp [callWindow, tukeyW, h0, boxcarW]
    · by_cases h1 : 1 ≤ a
      · exact .inr (.inl ⟨a, h1, rfl⟩)
      · exact .inr (.inr ⟨tukeyFiller a, fun s m => by simp [callWindow, tukeyW, h0, h1],
          fun w => by unfold tukeyFiller; exact fi _ w⟩)

/-- C47: every public window function called with `Symmetric` succeeds for every number of points
and every parameter, gives that many points, and `w[i] = w[M-1-i]`. -/
theorem C47_symmetric (c : WinCall) (m : ℕ) :
    ∃ r, callWindow c .symmetric m = .ok r ∧ r.length = m ∧
      ∀ i (h : i < r.length), r[i] = r[r.length - 1 - i]'(by omega) := by
  have key : ∃ r, callWindow c .symmetric m = .ok r ∧ r.length = m ∧ r.reverse = r := by
    rcases call_cases c with h | ⟨a, ha, rfl⟩ | ⟨F, h, hF⟩
    · exact ⟨_, h _ _, by simp [ones, full], by simp [ones, full]⟩
    · have h0 : ¬ a ≤ 0 := by linarith
      obtain ⟨r, h1, h2, h3⟩ := filler_sym (α := Ex ℝ) idx _ (List.replicate m (Ex.fin 0))
      refine ⟨r, ?_, by simpa using h2, h3⟩
      show tukeyW .symmetric m a = _
      rw [tukeyW, if_neg h0, if_pos ha]
      exact h1
    · obtain ⟨r, h1, h2, h3⟩ := hF (List.replicate m (.fin 0))
      exact ⟨r, by rw [h]; exact h1, by simpa using h2, h3⟩
  obtain ⟨r, h1, h2, h3⟩ := key
  refine ⟨r, h1, h2, fun i h => ?_⟩
  have := List.getElem_reverse (l := r) (i := r.length - 1 - i) (h := by simp; omega)
  simp only [h3] at this
  rw [this]
  congr 1; omega

/-- C47, partial: the periodic window of `M` points is the symmetric one of `M + 1` points without its
last sample, for every window function, length and parameter, except Tukey windows with `alpha ≥ 1`
(where it is false, see `C47_tukey_periodic_wrong`). -/
theorem C47_periodic_partial (c : WinCall) (hc : ∀ a, c = .tukey a → a < 1) (m : ℕ) :
    ∃ r, callWindow c .symmetric (m + 1) = .ok r ∧ callWindow c .periodic m = .ok (r.dropLast) := by
  rcases call_cases c with h | ⟨a, ha, rfl⟩ | ⟨F, h, hF⟩
  · exact ⟨_, h _ _, by simp [h, ones, full]⟩
  · exact absurd (hc a rfl) (by linarith)
  · obtain ⟨r, h1, h2, _⟩ := hF (List.replicate (m + 1) (.fin 0))
    refine ⟨r, by rw [h]; exact h1, ?_⟩
    rw [h, buildR, buildWindow]
    simp only [h1, Res.bind_ok, Res.pure_eq, List.dropLast_eq_take]
    rw [h2]; simp

/-- The hypothesis of `C47_periodic_partial` is met by every window but Tukey and by Tukey windows. -/
example : (∀ a : ℝ, WinCall.kind .hann = .tukey a → a < 1) ∧
    (∀ a : ℝ, WinCall.tukey 0.5 = .tukey a → a < 1) := by
  constructor
  · intro a h; cases h
  · intro a h; cases h; norm_num

/-! ## C47 — values -/

/-- Smallest number of points for which the code's formula of a window is defined (it divides by the
number of intervals, except in the windows listed with 0). -/
def minPoints : WinCall → ℕ
  | .kind .boxcar | .kind .cosine | .kind .parzen | .gaussian _ | .generalGaussian _ _ => 0
  | _ => 2

theorem specWin_congr {g g' : ℕ → ℕ → ℝ} (m : ℕ) (h : ∀ i, i < m → g m i = g' m i) :
    specWin g m = specWin g' m := by
  unfold specWin
  apply List.map_congr_left
  intro i hi
  rw [h i (by simpa using hi)]

section Real
open Real

theorem gc_hann (N i : ℕ) : Spec.generalCosine [0.5, 1 - 0.5] N i = Spec.hann N i := by
  unfold Spec.generalCosine Spec.hann
  simp [Finset.sum_range_succ]; norm_num; ring

theorem gc_hamming (N i : ℕ) : Spec.generalCosine [0.54, 1 - 0.54] N i = Spec.hamming N i := by
  unfold Spec.generalCosine Spec.hamming
  simp [Finset.sum_range_succ]; norm_num; ring

theorem gc_blackman (N i : ℕ) : Spec.generalCosine [0.42, 0.50, 0.08] N i = Spec.blackman N i := by
  unfold Spec.generalCosine Spec.blackman
  simp [Finset.sum_range_succ]
  rw [show 2 * π * (i : ℝ) * 2 / ((N : ℝ) - 1) = 4 * π * i / (N - 1) by ring]
  ring

theorem gc_nuttall (N i : ℕ) :
    Spec.generalCosine [0.3635819, 0.4891775, 0.1365995, 0.0106411] N i = Spec.nuttall N i := by
  unfold Spec.generalCosine Spec.nuttall
  simp [Finset.sum_range_succ]
  rw [show 2 * π * (i : ℝ) * 2 / ((N : ℝ) - 1) = 4 * π * i / (N - 1) by ring,
    show 2 * π * (i : ℝ) * 3 / ((N : ℝ) - 1) = 6 * π * i / (N - 1) by ring]
  ring

theorem gc_blackmanharris (N i : ℕ) :
    Spec.generalCosine [0.35875, 0.48829, 0.14128, 0.01168] N i = Spec.blackmanharris N i := by
  unfold Spec.generalCosine Spec.blackmanharris
  simp [Finset.sum_range_succ]
  rw [show 2 * π * (i : ℝ) * 2 / ((N : ℝ) - 1) = 4 * π * i / (N - 1) by ring,
    show 2 * π * (i : ℝ) * 3 / ((N : ℝ) - 1) = 6 * π * i / (N - 1) by ring]
  ring

theorem gc_flattop (N i : ℕ) :
    Spec.generalCosine [0.21557895, 0.41663158, 0.277263158, 0.083578947, 0.006947368] N i
      = Spec.flattop N i := by
  unfold Spec.generalCosine Spec.flattop
  simp [Finset.sum_range_succ]
  rw [show 2 * π * (i : ℝ) * 2 / ((N : ℝ) - 1) = 4 * π * i / (N - 1) by ring,
    show 2 * π * (i : ℝ) * 3 / ((N : ℝ) - 1) = 6 * π * i / (N - 1) by ring,
    show 2 * π * (i : ℝ) * 4 / ((N : ℝ) - 1) = 8 * π * i / (N - 1) by ring]
  ring

theorem tukey_zero (N i : ℕ) (hi : i < N) : Spec.tukey 0 N i = 1 := by
  unfold Spec.tukey
  rw [if_pos]
  rw [sub_zero, one_mul]; exact centred_le hi

theorem tukey_one (N i : ℕ) (hN : 2 ≤ N) : Spec.tukey 1 N i = Spec.hann N i := by
  have h1 : (2 : ℝ) ≤ N := by exact_mod_cast hN
  have hne : (N : ℝ) - 1 ≠ 0 := by linarith
  unfold Spec.tukey Spec.hann
  have hc : Spec.centred N i = |(i : ℝ) - ((N : ℝ) - 1) / 2| := rfl
  have key : cos (π * (Spec.centred N i - (1 - 1) * (((N : ℝ) - 1) / 2)) / (1 * (((N : ℝ) - 1) / 2)))
      = - cos (2 * π * i / ((N : ℝ) - 1)) := by
    have e : π * (Spec.centred N i - (1 - 1) * (((N : ℝ) - 1) / 2)) / (1 * (((N : ℝ) - 1) / 2))
        = |2 * π * i / ((N : ℝ) - 1) - π| := by
      rw [hc, sub_self, zero_mul, sub_zero, one_mul]
      have : 2 * π * i / ((N : ℝ) - 1) - π = (π / (((N : ℝ) - 1) / 2)) * (i - ((N : ℝ) - 1) / 2) := by
        field_simp
      rw [this, abs_mul, abs_of_nonneg (div_nonneg pi_pos.le (by linarith))]
      ring
    rw [e, cos_abs, cos_sub_pi]
  rw [key]
  split
  · rename_i h
    rw [sub_self, zero_mul] at h
    have h0 : Spec.centred N i = 0 := le_antisymm h (abs_nonneg _)
    rw [h0] at key
    simp at key
    linarith
  · ring

/-- C47: every window function computes the textbook window of its name, at every sample, for every
length (at least two points for the windows that divide by `M - 1`), symmetric and periodic; for
Tukey windows with `0 < alpha < 1` the (built) window must have an odd number of points. -/
theorem C47_textbook_partial (c : WinCall) (hv : validCall c) (m : ℕ) :
    (minPoints c ≤ m → (∀ a, c = .tukey a → 0 < a → a < 1 → m % 2 = 1) →
      callWindow c .symmetric m = .ok ((List.range m).map fun i : ℕ => Ex.fin (textbook c m i))) ∧
    (minPoints c ≤ m + 1 → (∀ a, c = .tukey a → a < 1 ∧ (0 < a → m % 2 = 0)) →
      callWindow c .periodic m =
        .ok ((List.range m).map fun i : ℕ => Ex.fin (textbook c (m + 1) i))) := by
  have takeEq : ∀ g : ℕ → ℕ → ℝ, (specWin g (m + 1)).take m
      = (List.range m).map fun i : ℕ => Ex.fin (g (m + 1) i) := by
    intro g
    unfold specWin
    rw [← List.map_take, List.take_range, Nat.min_eq_left (by omega)]
  have main : ∀ (F : List (Ex ℝ) → Res (List (Ex ℝ))) (g g' : ℕ → ℕ → ℝ) (k : ℕ)
      (_ : ∀ w : List (Ex ℝ), k ≤ w.length → F w = .ok (specWin g w.length))
      (_ : ∀ N i, g N i = g' N i),
      (k ≤ m → buildR .symmetric m F = .ok ((List.range m).map fun i : ℕ => Ex.fin (g' m i))) ∧
      (k ≤ m + 1 → buildR .periodic m F =
        .ok ((List.range m).map fun i : ℕ => Ex.fin (g' (m + 1) i))) := by
    intro F g g' k hF hg
    have hgg : g = g' := by funext N i; exact hg N i
    subst hgg
    obtain ⟨h1, h2⟩ := buildR_spec F g k hF m
    exact ⟨fun h => h1 h, fun h => by rw [h2 h, takeEq]⟩
  have boxc : ∀ g : ℕ → ℝ, (∀ i, i < m → g i = 1) →
      (Res.ok (ones m) : Res (List (Ex ℝ))) = .ok ((List.range m).map fun i : ℕ => Ex.fin (g i)) := by
    intro g hg
    congr 1
    unfold ones full
    apply List.ext_getElem (by simp)
    intro i h1 h2
    simp at h1
    simp [hg i h1]
  have wrap : ∀ {P Q R S : Prop}, (P → R) ∧ (Q → S) → ∀ {A B : Prop}, (P → A → R) ∧ (Q → B → S) :=
    fun h => ⟨fun p _ => h.1 p, fun q _ => h.2 q⟩
  rcases c with k | a | σ | ⟨p, σ⟩ | β | a
  · cases k
    case boxcar => exact ⟨fun _ _ => boxc _ (fun _ _ => rfl), fun _ _ => boxc _ (fun _ _ => rfl)⟩
    case bartlett => exact wrap (main _ _ _ 2 bartlettFiller_eq fun _ _ => rfl)
    case cosine => exact wrap (main _ _ _ 0 (fun w _ => cosineFiller_eq w) fun _ _ => rfl)
    case hann => exact wrap (main _ _ _ 2 (generalCosineFiller_eq _) gc_hann)
    case hamming => exact wrap (main _ _ _ 2 (generalCosineFiller_eq _) gc_hamming)
    case blackman => exact wrap (main _ _ _ 2 (generalCosineFiller_eq _) gc_blackman)
    case nuttall => exact wrap (main _ _ _ 2 (generalCosineFiller_eq _) gc_nuttall)
    case blackmanharris => exact wrap (main _ _ _ 2 (generalCosineFiller_eq _) gc_blackmanharris)
    case flattop => exact wrap (main _ _ _ 2 (generalCosineFiller_eq _) gc_flattop)
    case bohman => exact wrap (main _ _ _ 2 bohmanFiller_eq fun _ _ => rfl)
    case parzen => exact wrap (main _ _ _ 0 (fun w _ => parzenFiller_eq w) fun _ _ => rfl)
    case lanczos => exact wrap (main _ _ _ 2 lanczosFiller_eq fun _ _ => rfl)
  · exact wrap (main _ _ _ 2 (generalCosineFiller_eq a) fun _ _ => rfl)
  · exact wrap (main _ _ _ 0 (fun w _ => gaussianFiller_eq σ hv w) fun _ _ => rfl)
  · exact wrap (main _ _ _ 0 (fun w _ => generalGaussianFiller_eq p σ hv w) fun _ _ => rfl)
  · refine wrap (main _ (Spec.kaiser |β|) _ 2 (fun w h => kaiserFiller_eq |β| (abs_nonneg _) ?_ w h) ?_)
    · exact (lt_of_lt_of_le one_pos (one_le_besselI0 _)).ne'
    · intro N i
      have ev : ∀ x : ℝ, Spec.besselI0 (-x) = Spec.besselI0 x := fun x =>
        le_antisymm (besselI0_mono (by simp)) (besselI0_mono (by simp))
      show Spec.kaiser |β| N i = Spec.kaiser β N i
      unfold Spec.kaiser
      rcases abs_choice β with h | h
      · rw [h]
      · rw [h, ev, neg_mul, ev]
  · by_cases h0 : a ≤ 0
    · have e : max 0 (min a 1) = 0 := by
        rw [max_eq_left]; exact le_trans (min_le_left _ _) h0
      have hc : ∀ s, callWindow (.tukey a) s m = .ok (ones m) := fun s => by
        simp [callWindow, tukeyW, h0, boxcarW]
      refine ⟨fun _ _ => ?_, fun _ _ => ?_⟩
      · rw [hc]
        exact boxc _ fun i hi => by
          show Spec.tukey (max 0 (min a 1)) m i = 1
          rw [e]; exact tukey_zero m i hi
      · rw [hc]
        exact boxc _ fun i hi => by
          show Spec.tukey (max 0 (min a 1)) (m + 1) i = 1
          rw [e]; exact tukey_zero (m + 1) i (by omega)
    · by_cases h1 : 1 ≤ a
      · refine ⟨fun hm _ => ?_, fun _ h => absurd (h a rfl).1 (by linarith)⟩
        have e : max 0 (min a 1) = 1 := by rw [min_eq_right h1]; simp
        have := (main _ _ _ 2 (generalCosineFiller_eq _) gc_hann).1 hm
        show tukeyW .symmetric m a = _
        rw [tukeyW, if_neg h0, if_pos h1]
        refine this.trans ?_
        congr 1
        apply List.map_congr_left
        intro i _
        show _ = Ex.fin (Spec.tukey (max 0 (min a 1)) m i)
        rw [e, tukey_one m i hm]
      · push Not at h0 h1
        have e : max 0 (min a 1) = a := by rw [min_eq_left h1.le, max_eq_right h0.le]
        have hc : ∀ s, callWindow (.tukey a) s m = buildR s m (tukeyFiller a) := fun s => by
          simp [callWindow, tukeyW, not_le.mpr h0, not_le.mpr h1]
        have htb : textbook (.tukey a) = Spec.tukey a := by
          show Spec.tukey (max 0 (min a 1)) = _; rw [e]
        rw [htb]
        refine ⟨fun _ ho => ?_, fun _ ho => ?_⟩
        · rw [hc, buildR, buildWindow, tukeyFiller_odd a h0 h1 _ (by simpa using ho a rfl h0 h1), List.length_replicate]
          rfl
        · have := (ho a rfl).2 h0
          rw [hc, buildR, buildWindow, tukeyFiller_odd a h0 h1 _ (by rw [List.length_replicate]; omega), List.length_replicate]
          simp only [Res.bind_ok, Res.pure_eq]
          rw [takeEq]

/-- `C47_textbook_partial` applies to a Hann window of 256 points, a Kaiser window and an odd Tukey window. -/
example : callWindow (.kind .hann) .symmetric 256 =
      .ok ((List.range 256).map fun i : ℕ => Ex.fin (Spec.hann 256 i)) ∧
    callWindow (.kaiser 14) .periodic 5 =
      .ok ((List.range 5).map fun i : ℕ => Ex.fin (Spec.kaiser 14 6 i)) ∧
    callWindow (.tukey 0.5) .symmetric 51 =
      .ok ((List.range 51).map fun i : ℕ => Ex.fin (textbook (.tukey 0.5) 51 i)) :=
  ⟨(C47_textbook_partial (.kind .hann) trivial 256).1 (by simp [minPoints]) (fun a h => by cases h),
   (C47_textbook_partial (.kaiser 14) trivial 5).2 (by simp [minPoints]) (fun a h => by cases h),
   (C47_textbook_partial (.tukey 0.5) trivial 51).1 (by simp [minPoints]) (fun _ _ _ _ => rfl)⟩

/-- C47: `get_window(win, N)` is the textbook window of the enumerator, symmetric, for `N ≥ 2`. -/
theorem C47_get_window (k : WinKind) (n : ℕ) (h : 2 ≤ n) :
    getWindow k n = .ok ((List.range n).map fun i : ℕ => Ex.fin (textbook (.kind k) n i)) := by
  have := (C47_textbook_partial (.kind k) trivial n).1
    (le_trans (by cases k <;> simp [minPoints]) h) (fun a h => by cases h)
  rw [← this]
  cases k <;> rfl

/-- C47: the samples of every textbook window except the flat top (and arbitrary cosine sums) lie in
`[0,1]`; with `C47_textbook_partial` this is a statement about the code's output. -/
theorem C47_range (c : WinCall) (hv : validCall c) (hf : c ≠ .kind .flattop)
    (hg : ∀ a, c ≠ .generalCosine a) (m i : ℕ) (hm : minPoints c ≤ m) (hi : i < m) :
    0 ≤ textbook c m i ∧ textbook c m i ≤ 1 := by
  rcases c with k | a | σ | ⟨p, σ⟩ | β | a
  · cases k
    case boxcar => exact ⟨zero_le_one, le_refl _⟩
    case bartlett => exact bartlett_range hm hi
    case cosine => exact cosineWin_range hi
    case hann => exact hann_range m i
    case hamming =>
      have := hamming_range m i
      exact ⟨le_trans (by norm_num) this.1, this.2⟩
    case blackman => exact blackman_range m i
    case nuttall => exact nuttall_range m i
    case blackmanharris => exact blackmanharris_range m i
    case flattop => exact absurd rfl hf
    case bohman => exact bohman_range hm hi
    case parzen => exact parzen_range hi
    case lanczos => exact lanczos_range hm hi
  · exact absurd rfl (hg a)
  · exact gaussian_range σ m i
  · exact generalGaussian_range p σ hv m i
  · exact kaiser_range β m i
  · exact tukey_range _ m i

/-- C47 is false of the flat top window as to its range (as every textbook says): its end points are
negative. -/
theorem C47_flattop_negative (m : ℕ) : textbook (.kind .flattop) m 0 < 0 := by
  show Spec.flattop m 0 < 0
  unfold Spec.flattop
  norm_num

/-- C47 is false of one-point windows: Bartlett, Bohman, Hann, Lanczos, Kaiser and all cosine-sum
windows of a single point are NaN (0 intervals: division by zero). -/
theorem C47_one_point_nan :
    callWindow (.kind .bartlett) .symmetric 1 = .ok [.nan] ∧
    callWindow (.kind .bohman) .symmetric 1 = .ok [.nan] ∧
    callWindow (.kind .hann) .symmetric 1 = .ok [.nan] ∧
    callWindow (.kind .lanczos) .symmetric 1 = .ok [.nan] ∧
    (∀ β, callWindow (.kaiser β) .symmetric 1 = .ok [.nan]) := by
  have hz : sizeM1 1 = .fin 0 := by rw [sizeM1_pos (le_refl 1)]; norm_num
  have hfn : ∀ f, Ex.fn f .nan = .nan := fun _ => rfl
  refine ⟨?_, ?_, ?_, ?_, fun β => ?_⟩
  · show bartlettFiller [.fin 0] = _
    unfold bartlettFiller
    rw [symmetricFiller_eq]
    simp [hz, Ex.fin_div_zero]
  · show bohmanFiller [.fin 0] = _
    unfold bohmanFiller fillIdx
    rw [symmetricFiller_eq]
    simp [hz, Ex.fin_div_zero, hfn]
  · show generalCosineFiller _ [.fin 0] = _
    unfold generalCosineFiller fillIdx
    rw [symmetricFiller_eq]
    simp [hz, Ex.fin_div_zero, hfn, cosineLoop]
  · show lanczosFiller [.fin 0] = _
    unfold lanczosFiller fillIdx
    rw [symmetricFiller_eq]
    simp [hz, Ex.fin_div_zero, sincEx]
  · show kaiserFiller |β| [.fin 0] = _
    unfold kaiserFiller fillIdx
    rw [symmetricFiller_eq]
    simp [hz, Ex.fin_div_zero, hfn, Ex.sqrt, idx]

/-- C47 is false of periodic Tukey windows with `alpha ≥ 1`: the symmetric Hann window is returned. -/
theorem C47_tukey_periodic_wrong :
    callWindow (.tukey 1) .periodic 2 = .ok [.fin 0, .fin 0] ∧
    callWindow (.tukey 1) .symmetric 3 = .ok [.fin 0, .fin 1, .fin 0] := by
  have h2 := (C47_textbook_partial (.kind .hann) trivial 2).1 (by simp [minPoints]) (fun a h => by cases h)
  have h3 := (C47_textbook_partial (.kind .hann) trivial 3).1 (by simp [minPoints]) (fun a h => by cases h)
  have e : ∀ s m, callWindow (.tukey 1) s m = callWindow (.kind .hann) .symmetric m := by
    intro s m
    show tukeyW s m 1 = _
    rw [tukeyW, if_neg (by norm_num), if_pos (le_refl _)]
    rfl
  rw [e, e, h2, h3]
  constructor
  · simp only [List.range_succ, List.range_zero, List.nil_append, List.map_cons,
      List.map_nil, List.cons_append, textbook, Spec.hann]
    norm_num
  · simp only [List.range_succ, List.range_zero, List.nil_append, List.map_cons,
      List.map_nil, List.cons_append, textbook, Spec.hann]
    norm_num

/-- C47 is false of Tukey windows with an even number of points: for every even length `2h` and every
`alpha` close to 1 (`(1-alpha)(2h-1) < 1`) the code returns 1 at the two central samples, where the
textbook value is below 1. -/
theorem C47_tukey_even_wrong (h : ℕ) (hh : 1 ≤ h) (a : ℝ) (h0 : 0 < a) (h1 : a < 1)
    (hc : (1 - a) * (2 * h - 1) < 1) :
    ∃ r, callWindow (.tukey a) .symmetric (2 * h) = .ok r ∧ r[h]? = some (.fin 1) ∧
      textbook (.tukey a) (2 * h) h < 1 := by
  have hc' : callWindow (.tukey a) .symmetric (2 * h) = tukeyFiller a (List.replicate (2 * h) (.fin 0)) := by
    simp [callWindow, tukeyW, not_le.mpr h0, not_le.mpr h1, buildR, buildWindow]
  have hR : (1 : ℝ) ≤ h := by exact_mod_cast hh
  refine ⟨_, hc'.trans (symmetricFiller_eq _ _ _), ?_, ?_⟩
  · rw [List.getElem?_map, List.getElem?_range (by simp; omega)]
    simp only [Option.map_some, List.length_replicate, toIdx_idx]
    rw [if_pos]
    · rw [Int.tdiv_eq_ediv_of_nonneg (by omega), show max h (2 * h - 1 - h) = h by omega]
      have hl : ((h : ℤ) - (((2 * h : ℕ) : ℤ) - 1) / 2) = 1 := by omega
      rw [hl]
      have hfl : (0 : ℤ) ≤ ⌊(1 - a) * ((2 * h / 2 : ℕ) : ℝ)⌋ := by
        rw [Int.floor_nonneg]; exact mul_nonneg (by linarith) (by positivity)
      rw [if_pos (show 0 ≤ (1 - a) * ((2 * h / 2 : ℕ) : ℝ) from mul_nonneg (by linarith) (by positivity))]
      split <;> omega
  · show Spec.tukey (max 0 (min a 1)) (2 * h) h < 1
    rw [min_eq_left h1.le, max_eq_right h0.le]
    have hcen : Spec.centred (2 * h) h = 1 / 2 := by
      unfold Spec.centred; push_cast
      rw [show (h : ℝ) - (2 * h - 1) / 2 = 1 / 2 by ring]; norm_num
    unfold Spec.tukey
    rw [hcen]
    have hN : ((2 * h : ℕ) : ℝ) - 1 = 2 * h - 1 := by push_cast; ring
    rw [hN]
    rw [if_neg (by push Not; linarith)]
    set t := π * (1 / 2 - (1 - a) * ((2 * (h : ℝ) - 1) / 2)) / (a * ((2 * (h : ℝ) - 1) / 2)) with ht
    have hden : 0 < a * ((2 * (h : ℝ) - 1) / 2) := mul_pos h0 (by linarith)
    have t0 : 0 < t := div_pos (mul_pos pi_pos (by linarith)) hden
    have t1 : t ≤ π := by
      rw [ht, div_le_iff₀ hden]
      apply mul_le_mul_of_nonneg_left _ pi_pos.le
      nlinarith
    have : cos t < cos 0 := cos_lt_cos_of_nonneg_of_le_pi (le_refl 0) t1 t0
    rw [cos_zero] at this
    linarith

/-- The hypotheses of `C47_tukey_even_wrong` are met by `tukey(4, 0.75)`. -/
example : (0 : ℝ) < 0.75 ∧ (0.75 : ℝ) < 1 ∧ (1 - 0.75 : ℝ) * (2 * (2 : ℕ) - 1) < 1 := by norm_num

end Real

/-! ## C48 — gains -/

theorem reduce_sq {R : Type} [CommSemiring R] (w : List R) (acc : R) (n : ℕ) :
    (filterReduceLoop (fun r v => r + v * v) (fun _ => true) acc n w).1
      = acc + (w.map fun v => v ^ 2).sum := by
  induction w generalizing acc n with
  | nil => simp [filterReduceLoop]
  | cons x xs ih => simp [filterReduceLoop, ih, sq, add_assoc]

/-- C48: `s1` is the square of the sum, `s2` the sum of squares and `enbw = fs * s2 / s1`, over every
field and for every window. -/
theorem C48_gains {R : Type} [Field R] (w : List R) (fs : R) :
    winS1 w = w.sum ^ 2 ∧ winS2 w = (w.map fun v => v ^ 2).sum ∧
    enbw w fs = fs * (w.map fun v => v ^ 2).sum / w.sum ^ 2 := by
  have h1 : winS1 w = w.sum ^ 2 := by
    unfold winS1; rw [(C01_sum_prod_all false w).1, sq]
  have h2 : winS2 w = (w.map fun v => v ^ 2).sum := by
    unfold winS2 reduceArr filterReduce
    rw [reduce_sq, zero_add]
  exact ⟨h1, h2, by unfold enbw; rw [h1, h2]⟩

theorem sum_sq_defect {K : Type} [Field K] (w : List K) (hN : (w.length : K) ≠ 0) :
    (w.length : K) * (w.map fun v => v ^ 2).sum - w.sum ^ 2
      = (w.length : K) * (w.map fun v => (v - w.sum / w.length) ^ 2).sum := by
  have key : ∀ (m : K) (l : List K), (l.map fun v => (v - m) ^ 2).sum
      = (l.map fun v => v ^ 2).sum - 2 * m * l.sum + l.length * m ^ 2 := by
    intro m l
    induction l with
    | nil => simp
    | cons x xs ih => simp [ih]; ring
  rw [key]; field_simp; ring

/-- C48: the equivalent noise bandwidth of a window of `N` points with non-zero sum is at least
`fs / N`, with equality exactly for constant windows; stated for every ordered field. -/
theorem C48_enbw_bound {K : Type} [Field K] [LinearOrder K] [IsStrictOrderedRing K] (w : List K)
    (fs : K) (hfs : 0 < fs) (hs : w.sum ≠ 0) :
    fs ≤ enbw w fs * w.length ∧
    (enbw w fs * w.length = fs ↔ ∀ v ∈ w, v = w.sum / w.length) := by
  have hlen : w.length ≠ 0 := by
    intro h; rw [List.length_eq_zero_iff] at h; subst h; simp at hs
  have hN : (0 : K) < w.length := by exact_mod_cast Nat.pos_of_ne_zero hlen
  have hd := sum_sq_defect w hN.ne'
  have hsq : (0 : K) < w.sum ^ 2 := by positivity
  have hnn : 0 ≤ (w.map fun v => (v - w.sum / w.length) ^ 2).sum := by
    apply List.sum_nonneg
    intro x hx
    obtain ⟨v, _, rfl⟩ := List.mem_map.mp hx
    positivity
  have he : enbw w fs * w.length - fs
      = fs * (w.length * (w.map fun v => (v - w.sum / w.length) ^ 2).sum) / w.sum ^ 2 := by
    rw [(C48_gains w fs).2.2, ← hd]; field_simp
  constructor
  · have : 0 ≤ enbw w fs * w.length - fs := by
      rw [he]; positivity
    linarith
  · rw [← sub_eq_zero, he]
    have hiff : fs * (w.length * (w.map fun v => (v - w.sum / w.length) ^ 2).sum) / w.sum ^ 2 = 0
        ↔ (w.map fun v => (v - w.sum / w.length) ^ 2).sum = 0 := by
      constructor
      · intro h
        rw [div_eq_zero_iff] at h
        rcases h with h | h
        · rcases mul_eq_zero.mp h with h | h
          · exact absurd h hfs.ne'
          · rcases mul_eq_zero.mp h with h | h
            · exact absurd h hN.ne'
            · exact h
        · exact absurd h hsq.ne'
      · intro h; rw [h]; simp
    rw [hiff]
    constructor
    · intro h v hv
      by_contra hne
      have hpos : 0 < (v - w.sum / w.length) ^ 2 := by
        have : v - w.sum / w.length ≠ 0 := sub_ne_zero.mpr hne
        positivity
      have hle : (v - w.sum / w.length) ^ 2 ≤ (w.map fun v => (v - w.sum / w.length) ^ 2).sum := by
        apply List.single_le_sum
        · intro x hx
          obtain ⟨v, _, rfl⟩ := List.mem_map.mp hx
          positivity
        · exact List.mem_map.mpr ⟨v, hv, rfl⟩
      linarith
    · intro h
      apply List.sum_eq_zero
      intro x hx
      obtain ⟨v, hv, rfl⟩ := List.mem_map.mp hx
      rw [h v hv]; simp

/-- The hypotheses of `C48_enbw_bound` are met by a Hann-like window, whose bandwidth is strictly
larger than that of a boxcar. -/
example : ([0, 1, 0] : List ℚ).sum ≠ 0 ∧ enbw ([0, 1, 0] : List ℚ) 1 * 3 ≠ 1 := by
  constructor
  · norm_num
  · rw [(C48_gains ([0, 1, 0] : List ℚ) 1).2.2]; norm_num

/-- C48: a boxcar of `N ≥ 1` points has noise bandwidth `fs / N`. -/
theorem C48_boxcar {K : Type} [Field K] [CharZero K] (n : ℕ) (hn : n ≠ 0) (fs : K) :
    enbw (ones n : List K) fs = fs / n := by
  have : (n : K) ≠ 0 := by exact_mod_cast hn
  rw [(C48_gains _ fs).2.2]
  unfold ones full
  simp
  field_simp

section Hann
open Real Finset

theorem twiddle_pow_re (n m : ℕ) : (twiddle n ^ m).re = cos (2 * π * m / n) := by
  unfold twiddle
  rw [← Complex.exp_nat_mul]
  have : (m : ℂ) * -(2 * (π : ℂ) * Complex.I / n) = ((-(2 * π * m / n) : ℝ) : ℂ) * Complex.I := by
    push_cast; ring
  rw [this, Complex.exp_ofReal_mul_I_re, cos_neg]

theorem sum_cos (n k : ℕ) (h0 : 0 < k) (hk : k < n) :
    ∑ j ∈ range n, cos (2 * π * (k * j : ℕ) / n) = 0 := by
  have h := sum_twiddle n 0 k (by omega) hk
  rw [if_neg (by omega)] at h
  have h' := congrArg Complex.re h
  rw [Complex.re_sum] at h'
  simp only [zero_mul, pow_zero, mul_one, Complex.zero_re] at h'
  rw [← h']
  exact sum_congr rfl fun j _ => (twiddle_pow_re n (k * j)).symm

/-- C48: the periodic Hann window of `N ≥ 3` points (the one used for spectral estimation) has
coherent gain `N/2`, `s2 = 3N/8` and noise bandwidth exactly 1.5 bins. -/
theorem C48_hann_bandwidth (n : ℕ) (hn : 3 ≤ n) (fs : ℝ) :
    ∃ w : List ℝ, callWindow (.kind .hann) .periodic n = .ok (w.map Ex.fin) ∧
      winS1 w = ((n : ℝ) / 2) ^ 2 ∧ winS2 w = 3 * n / 8 ∧ enbw w fs * n = 3 / 2 * fs := by
  have hN : (3 : ℝ) ≤ n := by exact_mod_cast hn
  refine ⟨(List.range n).map fun i : ℕ => Spec.hann (n + 1) i, ?_, ?_⟩
  · rw [(C47_textbook_partial (.kind .hann) trivial n).2 (by simp [minPoints]; omega) (fun a h => by cases h),
      List.map_map]
    rfl
  have hv : ∀ i : ℕ, Spec.hann (n + 1) i = 1 / 2 - cos (2 * π * (1 * i : ℕ) / n) / 2 := by
    intro i; unfold Spec.hann; push_cast
    rw [show (n : ℝ) + 1 - 1 = n by ring, one_mul]; ring
  have lsum : ∀ f : ℕ → ℝ, ((List.range n).map f).sum = ∑ i ∈ range n, f i := fun f => rfl
  have c1 := sum_cos n 1 (by omega) (by omega)
  have c2 := sum_cos n 2 (by omega) (by omega)
  have hs : ((List.range n).map fun i : ℕ => Spec.hann (n + 1) i).sum = n / 2 := by
    rw [lsum, sum_congr rfl fun i _ => hv i, sum_sub_distrib, ← sum_div, ← sum_div, c1]
    simp
  have hs2 : (((List.range n).map fun i : ℕ => Spec.hann (n + 1) i).map fun v : ℝ => v ^ 2).sum
      = 3 * (n : ℝ) / 8 := by
    rw [List.map_map, lsum]
    have e : ∀ i : ℕ, ((fun v : ℝ => v ^ 2) ∘ fun i : ℕ => Spec.hann (n + 1) i) i
        = 3 / 8 - cos (2 * π * (1 * i : ℕ) / n) / 2 + cos (2 * π * (2 * i : ℕ) / n) / 8 := by
      intro i
      simp only [Function.comp, hv]
      have : 2 * π * ((2 * i : ℕ) : ℝ) / n = 2 * (2 * π * ((1 * i : ℕ) : ℝ) / n) := by
        push_cast; ring
      rw [this, cos_two_mul]; ring
    rw [sum_congr rfl fun i _ => e i, sum_add_distrib, sum_sub_distrib, ← sum_div, ← sum_div, ← sum_div, c1, c2]
    simp; ring
  obtain ⟨g1, g2, g3⟩ := C48_gains ((List.range n).map fun i : ℕ => Spec.hann (n + 1) i) fs
  refine ⟨by rw [g1, hs], by rw [g2, hs2], ?_⟩
  rw [g3, hs, hs2]; field_simp; norm_num

end Hann

end SciCpp
