import Verif.Model.Plots
import Verif.Props.Stats
import Mathlib.Analysis.SpecialFunctions.Log.Base
/-
  C79 box plots, C80 curves, histograms and spectra.
-/
set_option linter.unusedSectionVars false
set_option linter.unusedSimpArgs false
namespace SciCpp

universe u

theorem Res.bind_eq_ok {α β : Type} {m : Res α} {f : α → Res β} {b : β} :
    (m >>= f) = .ok b ↔ ∃ a, m = .ok a ∧ f a = .ok b := by
  cases m with
  | ok a => simp
  | ub => simp

/-- Specification: the argument of the last call of a kind (`f` recognises the kind and extracts the
argument) in a history, or the default if there is none. -/
def Spec.lastOf {C : Type u} {β : Type} (f : C → Option β) (dflt : β) (calls : List C) : β :=
  (calls.filterMap f).getLastD dflt

theorem lastOf_cons {C : Type u} {β : Type} (f : C → Option β) (d : β) (c : C) (cs : List C) :
    Spec.lastOf f d (c :: cs) = Spec.lastOf f ((f c).getD d) cs := by
  unfold Spec.lastOf
  rw [List.filterMap_cons]
  cases h : f c with
  | none => simp
  | some v => simp only [List.getLastD_cons, Option.getD_some]

section Boxplot
variable {K : Type} [Field K] [LinearOrder K] [IsStrictOrderedRing K] [FloorRing K] [StarRing K]

/-! ### quartiles and median -/

/-- C16/C17: with exact interpolation the median is the quantile at 1/2. -/
theorem C16_median_is_half_quantile (nth nth' : NthImpl K) (qnan qnan' : K) (l : List K)
    (hl : 2 ≤ l.length) :
    medianInplace nth qnan (fun x => x / 2) l = quantileInplace nth' qnan' 0 .linear l (1 / 2) := by
  rw [C16_median nth qnan l (by omega),
    C17_quantile_exact_partial nth' qnan' .linear l (1 / 2) (by norm_num) (by norm_num) hl]
  rcases Nat.even_or_odd' (l.length - 1) with ⟨k, hk | hk⟩
  · have hodd : l.length % 2 = 1 := by omega
    have hh : (1 / 2 : K) * ((l.length - 1 : ℕ) : K) = ((k : ℤ) : K) := by
      rw [hk]; push_cast; ring
    rw [if_pos hodd, hh]
    simp only [Spec.quantileAt, Int.floor_intCast, Int.ceil_intCast, sub_self, mul_zero, add_zero,
      Int.toNat_natCast]
    rw [getD_sorted l k (by omega)]
    congr 2
    omega
  · have hev : ¬ l.length % 2 = 1 := by omega
    have hh : (1 / 2 : K) * ((l.length - 1 : ℕ) : K) = (k : K) + 1 / 2 := by
      rw [hk]; push_cast; ring
    have hf : ⌊(k : K) + 1 / 2⌋ = (k : ℤ) := by
      rw [Int.floor_eq_iff]; push_cast; constructor <;> linarith
    have hc : ⌈(k : K) + 1 / 2⌉ = (k : ℤ) + 1 := by
      rw [Int.ceil_eq_iff]; push_cast; constructor <;> linarith
    rw [if_neg hev, hh]
    simp only [Spec.quantileAt, hf, hc]
    have e1 : ((k : ℤ) + 1).toNat = k + 1 := by omega
    rw [e1, Int.toNat_natCast, getD_sorted l k (by omega), getD_sorted l (k + 1) (by omega)]
    have a1 : l.length / 2 - 1 = k := by omega
    have a2 : l.length / 2 = k + 1 := by omega
    simp only [a2]
    simp only [Nat.add_sub_cancel]
    congr 1
    push_cast
    ring

/-- Reading a percentile with tolerance 0 of one or more samples. -/
theorem percentile_one (nth : NthImpl K) (qnan tol : K) (x p : K) (h0 : 0 ≤ p) (h1 : p ≤ 100) :
    percentile nth qnan tol .linear [x] p = .ok x := by
  unfold percentile quantileInplace
  have a : (0 : K) ≤ p / 100 := by positivity
  have b : p / 100 ≤ 1 := by rw [div_le_one (by norm_num)]; exact h1
  simp [require, a, b]

/-- C79: the quartiles enclose the median (exact interpolation), for every non-empty data set. -/
theorem C79_quartiles (nth : NthImpl K) (qnan whis : K) (f : List K) (hf : f ≠ []) :
    ∃ s, boxStats1 nth qnan 0 whis f = .ok s ∧ s.q1 ≤ s.median ∧ s.median ≤ s.q3 ∧
      s.iqr = s.q3 - s.q1 ∧ 0 ≤ s.iqr := by
  by_cases hl : 2 ≤ f.length
  · obtain ⟨x, y, e1, e2, h12⟩ := C17_quantile_monotone_partial nth nth qnan .linear f (25 / 100)
      (1 / 2) (by norm_num) (by norm_num) (by norm_num) hl
    obtain ⟨y', z, e2', e3, h23⟩ := C17_quantile_monotone_partial nth nth qnan .linear f (1 / 2)
      (75 / 100) (by norm_num) (by norm_num) (by norm_num) hl
    have hy : y = y' := Res.ok.inj (e2.symm.trans e2')
    subst hy
    have em : (median nth qnan (fun x => x / 2) .lvalue f).1 = .ok y := by
      rw [(C16_median_filter nth qnan (fun x => x / 2) f (fun _ => true)).2.2.2.2 .lvalue]
      rw [C16_median_is_half_quantile nth nth qnan qnan f hl, e2]
    refine ⟨⟨y, SciCpp.mean (f.map Ex.fin) fun _ => true, x, z, z - x,
      f.filter (isFlier y (z - x) whis)⟩, ?_, h12, h23, rfl, by simp only; linarith⟩
    unfold boxStats1 percentile
    rw [e1, e3, em]; rfl
  · obtain ⟨x, rfl⟩ : ∃ x, f = [x] := by
      match f, hf, hl with
      | [x], _, _ => exact ⟨x, rfl⟩
      | _ :: _ :: _, _, hl => simp at hl
    have em : (median nth qnan (fun x => x / 2) .lvalue [x]).1 = .ok x := by
      rw [(C16_median_filter nth qnan (fun x => x / 2) [x] (fun _ => true)).2.2.2.2 .lvalue]
      rw [C16_median nth qnan [x] (by simp), if_pos (by simp)]
      congr 1
      have := orderStat_mem [x] ([x].length / 2) (by simp)
      simpa using this
    refine ⟨⟨x, SciCpp.mean ([x].map Ex.fin) fun _ => true, x, x, x - x,
      [x].filter (isFlier x (x - x) whis)⟩, ?_, le_rfl, le_rfl, rfl, by simp⟩
    unfold boxStats1
    rw [percentile_one nth qnan 0 x 25 (by norm_num) (by norm_num),
      percentile_one nth qnan 0 x 75 (by norm_num) (by norm_num), em]
    rfl

/-- C79: for whisker lengths of at least one interquartile range the box lies within the whiskers,
every flier is a sample outside the whiskers (hence outside the box) and every other sample is
within them. -/
theorem C79_fliers (nth : NthImpl K) (qnan whis : K) (hw : 1 ≤ whis) (f : List K) (hf : f ≠ []) :
    ∃ s, boxStats1 nth qnan 0 whis f = .ok s ∧
      s.median - whis * s.iqr ≤ s.q1 ∧ s.q3 ≤ s.median + whis * s.iqr ∧
      (∀ x ∈ s.fliers, x ∈ f ∧ (x < s.q1 ∨ s.q3 < x)) ∧
      (∀ x ∈ f, x ∈ s.fliers ∨
        (s.median - whis * s.iqr ≤ x ∧ x ≤ s.median + whis * s.iqr)) ∧
      (∀ x ∈ s.fliers, ¬ (s.median - whis * s.iqr ≤ x ∧ x ≤ s.median + whis * s.iqr)) := by
  obtain ⟨s, e, h1, h2, h3, h4⟩ := C79_quartiles nth qnan whis f hf
  have hfl : s.fliers = f.filter (isFlier s.median s.iqr whis) := by
    unfold boxStats1 at e
    obtain ⟨q1, e1, e⟩ := Res.bind_eq_ok.mp e
    obtain ⟨q3, e3, e⟩ := Res.bind_eq_ok.mp e
    obtain ⟨m, em, e⟩ := Res.bind_eq_ok.mp e
    cases e
    rfl
  have hm : s.iqr ≤ whis * s.iqr := by nlinarith
  have lo : s.median - whis * s.iqr ≤ s.q1 := by rw [h3] at hm ⊢; linarith
  have hi : s.q3 ≤ s.median + whis * s.iqr := by rw [h3] at hm ⊢; linarith
  refine ⟨s, e, lo, hi, ?_, ?_, ?_⟩
  · intro x hx
    rw [hfl, List.mem_filter] at hx
    refine ⟨hx.1, ?_⟩
    have := hx.2
    simp only [isFlier, Bool.or_eq_true, decide_eq_true_eq] at this
    rcases this with h | h
    · left; linarith
    · right; linarith
  · intro x hx
    by_cases hc : isFlier s.median s.iqr whis x = true
    · left; rw [hfl, List.mem_filter]; exact ⟨hx, hc⟩
    · right
      simp only [isFlier, Bool.or_eq_true, decide_eq_true_eq, not_or, not_lt, gt_iff_lt] at hc
      exact hc
  · intro x hx
    rw [hfl, List.mem_filter] at hx
    have := hx.2
    simp only [isFlier, Bool.or_eq_true, decide_eq_true_eq] at this
    rintro ⟨a, b⟩
    rcases this with h | h <;> linarith

/-! ### histories -/

/-- The objects obtained from the constructor by any history of calls. -/
def BoxReach (nth : NthImpl K) (qnan tol : K) (c : Cont) (data : List (List K)) (b : Box K) : Prop :=
  ∃ b0 cs, boxplotNew nth qnan tol c data = .ok b0 ∧ boxRun nth qnan tol b0 cs = .ok b

/-- The drawing and the statistics are those of the current options. -/
structure BoxUpToDate (nth : NthImpl K) (qnan tol : K) (b : Box K) : Prop where
  stats : dataStats nth qnan tol b.data b.whis = .ok b.stats
  drawn : drawBoxes b 0 b.stats = .ok b.drawn

theorem drawBoxes_congr (b : Box K) (d : List (Draw K)) (i : ℕ) (ss : List (BoxStats K)) :
    drawBoxes { b with drawn := d } i ss = drawBoxes b i ss := by
  induction ss generalizing i with
  | nil => rfl
  | cons s ss ih => simp only [drawBoxes, ih]; rfl

theorem redrawBox_inv (b b' : Box K) (h : redrawBox b = .ok b') :
    b' = { b with drawn := b'.drawn } ∧ drawBoxes b' 0 b'.stats = .ok b'.drawn := by
  unfold redrawBox at h
  obtain ⟨d, e, h⟩ := Res.bind_eq_ok.mp h
  cases h
  exact ⟨rfl, by rw [drawBoxes_congr]; exact e⟩

theorem boxCall_uptodate (nth : NthImpl K) (qnan tol : K) (b b' : Box K) (c : BoxCall K)
    (hb : BoxUpToDate nth qnan tol b) (h : boxCall nth qnan tol b c = .ok b') :
    BoxUpToDate nth qnan tol b' := by
  cases c with
  | whis w =>
    obtain ⟨st, e, h⟩ := Res.bind_eq_ok.mp h
    obtain ⟨e1, e2⟩ := redrawBox_inv _ _ h
    refine ⟨?_, e2⟩
    rw [e1]; exact e
  | _ =>
    obtain ⟨e1, e2⟩ := redrawBox_inv _ _ h
    refine ⟨?_, e2⟩
    rw [e1]; exact hb.stats

/-- C79: after any history of calls the drawing shows the current options and the statistics of
the data for the current whisker length. -/
theorem BoxReach.uptodate (nth : NthImpl K) (qnan tol : K) (c : Cont) (data : List (List K))
    (b : Box K) (h : BoxReach nth qnan tol c data b) : BoxUpToDate nth qnan tol b := by
  obtain ⟨b0, cs, e0, e⟩ := h
  have h0 : BoxUpToDate nth qnan tol b0 := by
    unfold boxplotNew at e0
    obtain ⟨st, es, e0⟩ := Res.bind_eq_ok.mp e0
    obtain ⟨e1, e2⟩ := redrawBox_inv _ _ e0
    refine ⟨?_, e2⟩
    rw [e1]; exact es
  clear e0
  induction cs generalizing b0 with
  | nil => cases e; exact h0
  | cons c cs ih =>
    obtain ⟨b1, e1, e⟩ := Res.bind_eq_ok.mp e
    exact ih b1 e (boxCall_uptodate nth qnan tol b0 b1 c h0 e1)

/-- C79: the last call of each kind determines each option, whatever happened before (the width
lists are treated in `C79_widths_partial`). -/
theorem C79_last_call_wins (nth : NthImpl K) (qnan tol : K) (c : Cont) (data : List (List K))
    (b0 b : Box K) (cs : List (BoxCall K)) (h0 : boxplotNew nth qnan tol c data = .ok b0)
    (h : boxRun nth qnan tol b0 cs = .ok b) :
    b.data = data ∧
    b.showcaps = Spec.lastOf (fun | .showcaps v => some v | _ => none) true cs ∧
    b.showbox = Spec.lastOf (fun | .showbox v => some v | _ => none) true cs ∧
    b.showfliers = Spec.lastOf (fun | .showfliers v => some v | _ => none) true cs ∧
    b.showmeans = Spec.lastOf (fun | .showmeans v => some v | _ => none) false cs ∧
    b.boxcolor = Spec.lastOf (fun | .boxcolor v => some v | _ => none) "blue" cs ∧
    b.whis = Spec.lastOf (fun | .whis v => some v | _ => none) (3 / 2) cs := by
  have key : ∀ (cs : List (BoxCall K)) (b0 b : Box K), boxRun nth qnan tol b0 cs = .ok b →
      b.data = b0.data ∧
      b.showcaps = Spec.lastOf (fun | .showcaps v => some v | _ => none) b0.showcaps cs ∧
      b.showbox = Spec.lastOf (fun | .showbox v => some v | _ => none) b0.showbox cs ∧
      b.showfliers = Spec.lastOf (fun | .showfliers v => some v | _ => none) b0.showfliers cs ∧
      b.showmeans = Spec.lastOf (fun | .showmeans v => some v | _ => none) b0.showmeans cs ∧
      b.boxcolor = Spec.lastOf (fun | .boxcolor v => some v | _ => none) b0.boxcolor cs ∧
      b.whis = Spec.lastOf (fun | .whis v => some v | _ => none) b0.whis cs := by
    intro cs
    induction cs with
    | nil => intro b0 b h; cases h; exact ⟨rfl, rfl, rfl, rfl, rfl, rfl, rfl⟩
    | cons c cs ih =>
      intro b0 b h
      obtain ⟨b1, e1, h⟩ := Res.bind_eq_ok.mp h
      obtain ⟨a1, a2, a3, a4, a5, a6, a7⟩ := ih b1 b h
      simp only [lastOf_cons]
      rw [a1, a2, a3, a4, a5, a6, a7]
      cases c with
      | whis w =>
        obtain ⟨st, e, e1⟩ := Res.bind_eq_ok.mp e1
        obtain ⟨e1, -⟩ := redrawBox_inv _ _ e1
        rw [e1]; exact ⟨rfl, rfl, rfl, rfl, rfl, rfl, rfl⟩
      | _ =>
        obtain ⟨e1, -⟩ := redrawBox_inv _ _ e1
        rw [e1]; exact ⟨rfl, rfl, rfl, rfl, rfl, rfl, rfl⟩
  have := key cs b0 b h
  unfold boxplotNew at h0
  obtain ⟨st, es, h0⟩ := Res.bind_eq_ok.mp h0
  obtain ⟨e1, -⟩ := redrawBox_inv _ _ h0
  rw [e1] at this
  exact this

theorem drawBox_inv (b : Box K) (i : ℕ) (s : BoxStats K) (d : List (Draw K))
    (h : drawBox b i s = .ok d) :
    ∃ w, b.widths[i]? = some w ∧
      let lo := s.median - b.whis * s.iqr
      let hi := s.median + b.whis * s.iqr
      Draw.curve [(i : K) + 1, (i : K) + 1] [lo, hi] "black" ∈ d ∧
      Draw.curve [(i : K) + 1 - w, (i : K) + 1 + w] [s.median, s.median] "orange" ∈ d ∧
      (b.showbox = true →
        Draw.filled [(i : K) + 1 - w, (i : K) + 1 + w] [s.q1, s.q1] [s.q3, s.q3] b.boxcolor ∈ d ∧
        Draw.curve [(i : K) + 1 - w, (i : K) + 1 + w] [s.q1, s.q1] b.boxcolor ∈ d ∧
        Draw.curve [(i : K) + 1 - w, (i : K) + 1 + w] [s.q3, s.q3] b.boxcolor ∈ d ∧
        Draw.curve [(i : K) + 1 - w, (i : K) + 1 - w] [s.q1, s.q3] b.boxcolor ∈ d ∧
        Draw.curve [(i : K) + 1 + w, (i : K) + 1 + w] [s.q1, s.q3] b.boxcolor ∈ d) ∧
      (b.showcaps = true → ∃ c, b.capwidths[i]? = some c ∧
        Draw.curve [(i : K) + 1 - c, (i : K) + 1 + c] [lo, lo] "black" ∈ d ∧
        Draw.curve [(i : K) + 1 - c, (i : K) + 1 + c] [hi, hi] "black" ∈ d) ∧
      (b.showfliers = true →
        Draw.points (s.fliers.map fun _ => (i : K) + 1) (s.fliers.map Ex.fin) 7 "blue" ∈ d) ∧
      (b.showmeans = true → Draw.points [(i : K) + 1] [s.mean] 13 "red" ∈ d) ∧
      (b.showbox = false → ∀ x y z c, Draw.filled x y z c ∉ d) ∧
      (b.showfliers = false → ∀ x y c, Draw.points x y 7 c ∉ d) ∧
      (b.showmeans = false → ∀ x y c, Draw.points x y 13 c ∉ d) := by
  unfold drawBox at h
  obtain ⟨w, ew, h⟩ := Res.bind_eq_ok.mp h
  have hw : b.widths[i]? = some w := by
    unfold rd at ew
    rw [if_pos (by omega), Int.toNat_natCast] at ew
    cases hg : b.widths[i]? with
    | none => rw [hg] at ew; cases ew
    | some v => rw [hg] at ew; cases ew; rfl
  refine ⟨w, hw, ?_⟩
  obtain ⟨caps, ec, h⟩ := Res.bind_eq_ok.mp h
  have hd := (Res.ok.inj h).symm
  clear h
  have hcaps : (b.showcaps = true → ∃ c, b.capwidths[i]? = some c ∧
      caps = [Draw.curve [(i : K) + 1 - c, (i : K) + 1 + c]
        [s.median - b.whis * s.iqr, s.median - b.whis * s.iqr] "black",
        Draw.curve [(i : K) + 1 - c, (i : K) + 1 + c]
        [s.median + b.whis * s.iqr, s.median + b.whis * s.iqr] "black"]) ∧
      (∀ x y z c, Draw.filled x y z c ∉ caps) ∧ ∀ x y m c, Draw.points x y m c ∉ caps := by
    unfold drawCaps at ec
    by_cases hsc : b.showcaps = true
    · rw [if_pos hsc] at ec
      obtain ⟨c, ecc, ec⟩ := Res.bind_eq_ok.mp ec
      have hc : b.capwidths[i]? = some c := by
        unfold rd at ecc
        rw [if_pos (by omega), Int.toNat_natCast] at ecc
        cases hg : b.capwidths[i]? with
        | none => rw [hg] at ecc; cases ecc
        | some v => rw [hg] at ecc; cases ecc; rfl
      have hcc := (Res.ok.inj ec).symm
      subst hcc
      exact ⟨fun _ => ⟨c, hc, rfl⟩, by simp, by simp⟩
    · rw [if_neg hsc] at ec
      cases ec
      exact ⟨fun h => absurd h hsc, by simp, by simp⟩
  obtain ⟨hcaps, hnf, hnp⟩ := hcaps
  have hm7 : marker 'o' = 7 := by decide
  have hm13 : marker 'D' = 13 := by decide
  rw [hm7, hm13] at hd
  subst hd
  refine ⟨by simp, by simp, ?_, ?_, ?_, ?_, ?_, ?_, ?_⟩
  · intro hb; simp [hb]
  · intro hb
    obtain ⟨c, e, ec'⟩ := hcaps hb
    exact ⟨c, e, by simp [ec'], by simp [ec']⟩
  · intro hb; simp [hb]
  · intro hb; simp [hb]
  · intro hb x y z c
    simp [hb, hnf]
  · intro hb x y c
    simp [hb, hnp]
  · intro hb x y c
    simp [hb, hnp]

theorem drawBoxes_inv (b : Box K) (i : ℕ) (ss : List (BoxStats K)) (d : List (Draw K))
    (h : drawBoxes b i ss = .ok d) (j : ℕ) (s : BoxStats K) (hj : ss[j]? = some s) :
    ∃ d', drawBox b (i + j) s = .ok d' ∧ ∀ x ∈ d', x ∈ d := by
  induction ss generalizing i d j with
  | nil => simp at hj
  | cons s0 ss ih =>
    unfold drawBoxes at h
    obtain ⟨d0, e0, h⟩ := Res.bind_eq_ok.mp h
    obtain ⟨r, er, h⟩ := Res.bind_eq_ok.mp h
    cases h
    cases j with
    | zero =>
      rw [List.getElem?_cons_zero] at hj
      cases hj
      exact ⟨d0, e0, fun x hx => List.mem_append_left _ hx⟩
    | succ j =>
      rw [List.getElem?_cons_succ] at hj
      obtain ⟨d', e', h'⟩ := ih (i + 1) r er j hj
      refine ⟨d', ?_, fun x hx => List.mem_append_right _ (h' x hx)⟩
      rw [← e']; congr 1; omega

theorem mapM_inv {α β : Type} (f : α → Res β) (l : List α) (r : List β) (h : l.mapM f = .ok r) :
    r.length = l.length ∧ ∀ i (h1 : i < l.length) (h2 : i < r.length), f l[i] = .ok r[i] := by
  induction l generalizing r with
  | nil => cases h; exact ⟨rfl, fun i h1 => absurd h1 (by simp)⟩
  | cons a l ih =>
    rw [List.mapM_cons] at h
    obtain ⟨b, eb, h⟩ := Res.bind_eq_ok.mp h
    obtain ⟨r', er, h⟩ := Res.bind_eq_ok.mp h
    cases h
    obtain ⟨e1, e2⟩ := ih r' er
    refine ⟨by simp [e1], fun i h1 h2 => ?_⟩
    cases i with
    | zero => exact eb
    | succ i => exact e2 i (by simpa using h1) (by simpa using h2)

/-- C79: what is drawn after any history of calls.  For the `i`-th data set: the median line, the
whiskers, and — as the options say — the box (filled, with its four sides), caps, fliers and mean, all at abscissa `i + 1` with the
half-widths of the lists; what an option hides is not drawn for it. -/
theorem C79_drawing (nth : NthImpl K) (qnan tol : K) (c : Cont) (data : List (List K)) (b : Box K)
    (h : BoxReach nth qnan tol c data b) (i : ℕ) (hi : i < b.data.length) :
    ∃ s w, boxStats1 nth qnan tol b.whis b.data[i] = .ok s ∧ b.widths[i]? = some w ∧
      Draw.curve [(i : K) + 1 - w, (i : K) + 1 + w] [s.median, s.median] "orange" ∈ b.drawn ∧
      Draw.curve [(i : K) + 1, (i : K) + 1]
        [s.median - b.whis * s.iqr, s.median + b.whis * s.iqr] "black" ∈ b.drawn ∧
      (b.showbox = true → Draw.filled [(i : K) + 1 - w, (i : K) + 1 + w] [s.q1, s.q1] [s.q3, s.q3]
        b.boxcolor ∈ b.drawn ∧
        Draw.curve [(i : K) + 1 - w, (i : K) + 1 + w] [s.q1, s.q1] b.boxcolor ∈ b.drawn ∧
        Draw.curve [(i : K) + 1 - w, (i : K) + 1 + w] [s.q3, s.q3] b.boxcolor ∈ b.drawn ∧
        Draw.curve [(i : K) + 1 - w, (i : K) + 1 - w] [s.q1, s.q3] b.boxcolor ∈ b.drawn ∧
        Draw.curve [(i : K) + 1 + w, (i : K) + 1 + w] [s.q1, s.q3] b.boxcolor ∈ b.drawn) ∧
      (b.showcaps = true → ∃ cw, b.capwidths[i]? = some cw ∧
        Draw.curve [(i : K) + 1 - cw, (i : K) + 1 + cw]
          [s.median - b.whis * s.iqr, s.median - b.whis * s.iqr] "black" ∈ b.drawn ∧
        Draw.curve [(i : K) + 1 - cw, (i : K) + 1 + cw]
          [s.median + b.whis * s.iqr, s.median + b.whis * s.iqr] "black" ∈ b.drawn) ∧
      (b.showfliers = true → Draw.points (s.fliers.map fun _ => (i : K) + 1) (s.fliers.map Ex.fin)
        7 "blue" ∈ b.drawn) ∧
      (b.showmeans = true → Draw.points [(i : K) + 1] [s.mean] 13 "red" ∈ b.drawn) := by
  obtain ⟨hst, hdr⟩ := BoxReach.uptodate nth qnan tol c data b h
  obtain ⟨hl, hs⟩ := mapM_inv _ _ _ hst
  have hi' : i < b.stats.length := by omega
  obtain ⟨d', e', hsub⟩ := drawBoxes_inv b 0 b.stats b.drawn hdr i b.stats[i]
    (List.getElem?_eq_getElem hi')
  rw [Nat.zero_add] at e'
  obtain ⟨w, hw, d1, d2, d3, d4, d5, d6, -⟩ := drawBox_inv b i _ d' e'
  refine ⟨b.stats[i], w, hs i hi hi', hw, hsub _ d2, hsub _ d1, fun hb => ⟨hsub _ (d3 hb).1, hsub _ (d3 hb).2.1,
    hsub _ (d3 hb).2.2.1, hsub _ (d3 hb).2.2.2.1, hsub _ (d3 hb).2.2.2.2⟩, ?_,
    fun hb => hsub _ (d5 hb), fun hb => hsub _ (d6 hb)⟩
  intro hb
  obtain ⟨cw, e, c1, c2⟩ := d4 hb
  exact ⟨cw, e, hsub _ c1, hsub _ c2⟩

theorem drawBoxes_none (b : Box K) (i : ℕ) (ss : List (BoxStats K)) (d : List (Draw K))
    (h : drawBoxes b i ss = .ok d) :
    (b.showbox = false → ∀ x y z c, Draw.filled x y z c ∉ d) ∧
    (b.showfliers = false → ∀ x y c, Draw.points x y 7 c ∉ d) ∧
    (b.showmeans = false → ∀ x y c, Draw.points x y 13 c ∉ d) := by
  induction ss generalizing i d with
  | nil => cases h; simp
  | cons s ss ih =>
    unfold drawBoxes at h
    obtain ⟨d0, e0, h⟩ := Res.bind_eq_ok.mp h
    obtain ⟨r, er, h⟩ := Res.bind_eq_ok.mp h
    cases h
    obtain ⟨i1, i2, i3⟩ := ih (i + 1) r er
    obtain ⟨w, hw, -, -, -, -, -, -, n1, n2, n3⟩ := drawBox_inv b i s d0 e0
    simp only [List.mem_append, not_or]
    exact ⟨fun hb x y z c => ⟨n1 hb x y z c, i1 hb x y z c⟩,
      fun hb x y c => ⟨n2 hb x y c, i2 hb x y c⟩, fun hb x y c => ⟨n3 hb x y c, i3 hb x y c⟩⟩

/-- C79: what an option hides is nowhere in the drawing. -/
theorem C79_hidden (nth : NthImpl K) (qnan tol : K) (c : Cont) (data : List (List K)) (b : Box K)
    (h : BoxReach nth qnan tol c data b) :
    (b.showbox = false → ∀ x y z col, Draw.filled x y z col ∉ b.drawn) ∧
    (b.showfliers = false → ∀ x y col, Draw.points x y 7 col ∉ b.drawn) ∧
    (b.showmeans = false → ∀ x y col, Draw.points x y 13 col ∉ b.drawn) :=
  drawBoxes_none b 0 b.stats b.drawn (BoxReach.uptodate nth qnan tol c data b h).drawn

/-- C79 (negation of "a box plot can be drawn for every data"): data sets held in a vector are
undefined behaviour as soon as there is one, because the width lists are sized before the data are
looked at. -/
theorem C79_vector_false (nth : NthImpl K) (qnan tol : K) (data : List (List K)) (h : data ≠ []) :
    boxplotNew nth qnan tol .vec data = .ub := by
  unfold boxplotNew
  match hd : dataStats nth qnan tol data (3 / 2) with
  | .ub => rfl
  | .ok st =>
    have hl := (mapM_inv _ _ _ hd).1
    match st, hl with
    | [], hl => exact absurd (List.length_eq_zero_iff.mp hl.symm) h
    | s :: ss, _ => rfl

theorem drawBoxes_total (b : Box K) (i : ℕ) (ss : List (BoxStats K))
    (hw : i + ss.length ≤ b.widths.length) (hc : i + ss.length ≤ b.capwidths.length) :
    ∃ d, drawBoxes b i ss = .ok d := by
  induction ss generalizing i with
  | nil => exact ⟨_, rfl⟩
  | cons s ss ih =>
    rw [List.length_cons] at hw hc
    obtain ⟨r, er⟩ := ih (i + 1) (by omega) (by omega)
    have e1 : rd b.widths (i : ℤ) = .ok (b.widths[i]'(by omega)) := by
      unfold rd
      rw [if_pos (by omega), Int.toNat_natCast, List.getElem?_eq_getElem (by omega)]
    have e2 : rd b.capwidths (i : ℤ) = .ok (b.capwidths[i]'(by omega)) := by
      unfold rd
      rw [if_pos (by omega), Int.toNat_natCast, List.getElem?_eq_getElem (by omega)]
    obtain ⟨d, ed⟩ : ∃ d, drawBox b i s = .ok d := by
      unfold drawBox drawCaps
      rw [e1, e2]
      by_cases hs : b.showcaps = true
      · simp only [hs]; exact ⟨_, rfl⟩
      · simp only [Bool.not_eq_true] at hs; simp only [hs]; exact ⟨_, rfl⟩
    refine ⟨d ++ r, ?_⟩
    unfold drawBoxes
    rw [ed, er]; rfl

theorem dataStats_total (nth : NthImpl K) (qnan whis : K) (data : List (List K))
    (h : ∀ f ∈ data, f ≠ []) : ∃ st, dataStats nth qnan 0 data whis = .ok st := by
  unfold dataStats
  induction data with
  | nil => exact ⟨[], rfl⟩
  | cons f fs ih =>
    obtain ⟨s, e, -⟩ := C79_quartiles nth qnan whis f (h f List.mem_cons_self)
    obtain ⟨r, er⟩ := ih fun g hg => h g (List.mem_cons_of_mem _ hg)
    exact ⟨s :: r, by rw [List.mapM_cons, e, er]; rfl⟩

/-- C79: data sets held in an `std::array` can be drawn, and any history of calls whose width lists
are long enough succeeds.  Missing: vectors (`C79_vector_false`). -/
theorem C79_defined_partial (nth : NthImpl K) (qnan : K) (data : List (List K))
    (h : ∀ f ∈ data, f ≠ []) (cs : List (BoxCall K))
    (hcs : ∀ c ∈ cs, ∀ w, (c = .widths w ∨ c = .capwidths w) → data.length ≤ w.length) :
    ∃ b0 b, boxplotNew nth qnan 0 .arr data = .ok b0 ∧ boxRun nth qnan 0 b0 cs = .ok b := by
  obtain ⟨st, es⟩ := dataStats_total nth qnan (3 / 2) data h
  have hsl := (mapM_inv _ _ _ es).1
  have key : ∀ (cs : List (BoxCall K)) (b0 : Box K), b0.data = data → b0.stats.length = data.length →
      data.length ≤ b0.widths.length → data.length ≤ b0.capwidths.length →
      (∀ c ∈ cs, ∀ w, (c = .widths w ∨ c = .capwidths w) → data.length ≤ w.length) →
      ∃ b, boxRun nth qnan 0 b0 cs = .ok b := by
    intro cs
    induction cs with
    | nil => intro b0 _ _ _ _ _; exact ⟨b0, rfl⟩
    | cons c cs ih =>
      intro b0 hd hs hw hc hcs
      have hrd : ∀ b1 : Box K, b1.data = data → b1.stats.length = data.length →
          data.length ≤ b1.widths.length → data.length ≤ b1.capwidths.length →
          ∃ b2, redrawBox b1 = .ok b2 ∧ ∃ b, boxRun nth qnan 0 b2 cs = .ok b := by
        intro b1 h1 h2 h3 h4
        obtain ⟨d, ed⟩ := drawBoxes_total b1 0 b1.stats (by omega) (by omega)
        refine ⟨{ b1 with drawn := d }, by unfold redrawBox; rw [ed]; rfl, ?_⟩
        exact ih _ h1 h2 h3 h4 fun c hc => hcs c (List.mem_cons_of_mem _ hc)
      have fin : ∀ b1 : Box K, boxCall nth qnan 0 b0 c = redrawBox b1 → b1.data = data →
          b1.stats.length = data.length → data.length ≤ b1.widths.length →
          data.length ≤ b1.capwidths.length → ∃ b, boxRun nth qnan 0 b0 (c :: cs) = .ok b := by
        intro b1 e h1 h2 h3 h4
        obtain ⟨b2, e2, b, eb⟩ := hrd b1 h1 h2 h3 h4
        refine ⟨b, ?_⟩
        unfold boxRun
        rw [e, e2]; exact eb
      cases c with
      | whis w =>
        obtain ⟨st', es'⟩ := dataStats_total nth qnan w data h
        refine fin { b0 with whis := w, stats := st' } ?_ hd (mapM_inv _ _ _ es').1 hw hc
        show (dataStats nth qnan 0 b0.data w >>= _) = _
        rw [hd, es']; rfl
      | widths w => exact fin _ rfl hd hs (hcs _ List.mem_cons_self w (Or.inl rfl)) hc
      | capwidths w => exact fin _ rfl hd hs hw (hcs _ List.mem_cons_self w (Or.inr rfl))
      | width w => exact fin _ rfl hd hs (by simpa using hw) hc
      | capwidth w => exact fin _ rfl hd hs (by simpa using hw) hc
      | showcaps v => exact fin _ rfl hd hs hw hc
      | showfliers v => exact fin _ rfl hd hs hw hc
      | showmeans v => exact fin _ rfl hd hs hw hc
      | showbox v => exact fin _ rfl hd hs hw hc
      | boxcolor v => exact fin _ rfl hd hs hw hc
  obtain ⟨d, ed⟩ := drawBoxes_total (boxInit data.length data st) 0 st (by simp [hsl, boxInit])
    (by simp [hsl, boxInit])
  obtain ⟨b, eb⟩ := key cs { boxInit data.length data st with drawn := d } rfl hsl
    (by simp [boxInit]) (by simp [boxInit]) hcs
  refine ⟨_, b, ?_, eb⟩
  unfold boxplotNew
  rw [es]
  show redrawBox (boxInit data.length data st) = _
  unfold redrawBox
  rw [show (boxInit data.length data st).stats = st from rfl, ed]; rfl

/-- C79: the width lists after a call.  `widths(list)` and `capwidths(list)` replace their own list,
`widths(w)` makes every box `w` wide; no other call changes them.  Missing: `capwidths(w)` (below). -/
theorem C79_widths_partial (nth : NthImpl K) (qnan tol : K) (b b' : Box K) (c : BoxCall K)
    (h : boxCall nth qnan tol b c = .ok b') :
    (∀ w, c = .widths w → b'.widths = w ∧ b'.capwidths = b.capwidths) ∧
    (∀ w, c = .capwidths w → b'.capwidths = w ∧ b'.widths = b.widths) ∧
    (∀ w, c = .width w → b'.widths = List.replicate b.widths.length w ∧
      b'.capwidths = b.capwidths) ∧
    ((∀ w, c ≠ .widths w ∧ c ≠ .capwidths w) → (∀ w, c ≠ .width w ∧ c ≠ .capwidth w) →
      b'.widths = b.widths ∧ b'.capwidths = b.capwidths) := by
  cases c with
  | whis w =>
    obtain ⟨st, e, h⟩ := Res.bind_eq_ok.mp h
    obtain ⟨e1, -⟩ := redrawBox_inv _ _ h
    rw [e1]; simp
  | width w =>
    obtain ⟨e1, -⟩ := redrawBox_inv _ _ h
    rw [e1]
    refine ⟨by simp, by simp, ?_, ?_⟩
    · intro w' hw; cases hw; exact ⟨List.map_const' .., rfl⟩
    · intro _ h2; exact absurd rfl (h2 w).1
  | capwidth w =>
    obtain ⟨e1, -⟩ := redrawBox_inv _ _ h
    rw [e1]
    refine ⟨by simp, by simp, by simp, ?_⟩
    intro _ h2; exact absurd rfl (h2 w).2
  | widths w =>
    obtain ⟨e1, -⟩ := redrawBox_inv _ _ h
    rw [e1]
    exact ⟨fun w' hw => by cases hw; exact ⟨rfl, rfl⟩, by simp, by simp,
      fun h1 _ => absurd rfl (h1 w).1⟩
  | capwidths w =>
    obtain ⟨e1, -⟩ := redrawBox_inv _ _ h
    rw [e1]
    exact ⟨by simp, fun w' hw => by cases hw; exact ⟨rfl, rfl⟩, by simp,
      fun h1 _ => absurd rfl (h1 w).2⟩
  | _ =>
    obtain ⟨e1, -⟩ := redrawBox_inv _ _ h
    rw [e1]; simp

/-- C79 (negation of "`capwidths(w)` sets the width of the caps"): it leaves the caps alone and makes
the *boxes* `w` wide. -/
theorem C79_capwidths_false (nth : NthImpl K) (qnan tol : K) (b b' : Box K) (w : K)
    (h : boxCall nth qnan tol b (.capwidth w) = .ok b') :
    b'.capwidths = b.capwidths ∧ b'.widths = List.replicate b.widths.length w := by
  obtain ⟨e1, -⟩ := redrawBox_inv _ _ h
  rw [e1]
  exact ⟨rfl, List.map_const' ..⟩

end Boxplot

-- non-vacuity: the hypotheses of `C79_defined_partial` hold for two data sets and a history
example : (∀ f ∈ ([[1, 2, 100], [3]] : List (List ℚ)), f ≠ []) ∧
    ∀ c ∈ ([.showmeans true, .widths [1, 2], .whis 2, .capwidth 5] : List (BoxCall ℚ)), ∀ w,
      (c = .widths w ∨ c = .capwidths w) → ([[1, 2, 100], [3]] : List (List ℚ)).length ≤ w.length := by
  constructor
  · simp
  · intro c hc w hw
    simp only [List.mem_cons, List.not_mem_nil, or_false] at hc
    rcases hc with rfl | rfl | rfl | rfl <;> rcases hw with h | h <;> simp_all
    rw [← h]; simp

/-! ### C80: curves -/

section Plot
variable {V : Type}

/-- Specification: the curves a plot of ordinates `ys` shows for the given colours and labels. -/
def Spec.curves (x : V) (ys : List V) (color : ℕ → String) (label : ℕ → String) :
    List (PlotCurve V) :=
  ys.mapIdx fun j y => ⟨x, y, color j, if label j = "" then none else some (label j)⟩

theorem getD_replicate_str (n : ℕ) (c : String) (j : ℕ) (h : j < n) :
    (List.replicate n c).getD j "" = c := by
  rw [List.getD_eq_getElem?_getD, List.getElem?_eq_getElem (by simpa using h)]; simp

theorem getD_map_const (l : List String) (c : String) (j : ℕ) (h : j < l.length) :
    (l.map fun _ => c).getD j "" = c := by
  rw [List.getD_eq_getElem?_getD, List.getElem?_map, List.getElem?_eq_getElem h]; rfl

theorem drawCurves_ok (p : Plot V) (ys : List V) (hc : p.color ≠ [])
    (hl : p.labelIdx + ys.length ≤ p.labels.length) :
    drawCurves p ys = .ok { p with
      drawn := p.drawn ++ ys.mapIdx (fun j y => ⟨p.x, y,
        p.color.getD ((p.colorIdx + j) % p.color.length) "",
        if p.labels.getD (p.labelIdx + j) "" = "" then none
          else some (p.labels.getD (p.labelIdx + j) "")⟩),
      colorIdx := p.colorIdx + ys.length, labelIdx := p.labelIdx + ys.length } := by
  induction ys generalizing p with
  | nil => simp [drawCurves]
  | cons y ys ih =>
    rw [List.length_cons] at hl
    have hlen : 0 < p.color.length := List.length_pos_iff.mpr hc
    have hm : p.colorIdx % p.color.length < p.color.length := Nat.mod_lt _ hlen
    have e : drawCurve p y = .ok { p with
        drawn := p.drawn ++ [⟨p.x, y, p.color.getD (p.colorIdx % p.color.length) "",
          if p.labels.getD p.labelIdx "" = "" then none else some (p.labels.getD p.labelIdx "")⟩],
        colorIdx := p.colorIdx + 1, labelIdx := p.labelIdx + 1 } := by
      unfold drawCurve rd
      rw [if_pos (by omega), if_pos (by omega), Int.toNat_natCast, Int.toNat_natCast,
        List.getElem?_eq_getElem hm, List.getElem?_eq_getElem (by omega : p.labelIdx < p.labels.length)]
      have g1 : p.color.getD (p.colorIdx % p.color.length) "" = p.color[p.colorIdx % p.color.length] := by
        simp [List.getD, List.getElem?_eq_getElem hm]
      have g2 : p.labels.getD p.labelIdx "" = p.labels[p.labelIdx]'(by omega) := by
        simp [List.getD, List.getElem?_eq_getElem (by omega : p.labelIdx < p.labels.length)]
      rw [g1, g2]; rfl
    unfold drawCurves
    rw [e, Res.bind_ok, ih]
    rotate_left
    · exact hc
    · simp only; omega
    simp only [List.mapIdx_cons, List.append_assoc, List.singleton_append, List.length_cons,
      Nat.add_zero, Nat.add_assoc, Nat.add_comm 1]

theorem redrawPlot_ok (p : Plot V) (hc : p.color ≠ []) (hl : p.y.length ≤ p.labels.length) :
    ∃ q, redrawPlot p = .ok q ∧ q.x = p.x ∧ q.y = p.y ∧ q.color = p.color ∧ q.labels = p.labels ∧
      q.grid = p.grid ∧ q.gridShown = p.grid ∧
      q.drawn = Spec.curves p.x p.y (fun j => p.color.getD (j % p.color.length) "")
        (fun j => p.labels.getD j "") := by
  unfold redrawPlot
  rw [drawCurves_ok]
  rotate_left
  · exact hc
  · simpa using hl
  refine ⟨_, rfl, rfl, rfl, rfl, rfl, rfl, rfl, ?_⟩
  simp [Spec.curves]

/-- Specification: colour of curve `j`: the colour of the last `color` call, or the default colours
in turn. -/
def Spec.curveColor (cs : List PlotCall) (j : ℕ) : String :=
  Spec.lastOf (fun | .color c => some c | _ => none) (palette.getD (j % 8) "") cs

/-- Specification: label of curve `j`: from the last `labels` or `label` call, or none. -/
def Spec.curveLabel (cs : List PlotCall) (j : ℕ) : String :=
  Spec.lastOf (fun | .labels l => some (l.getD j "") | .label l => some l | _ => none) "" cs

/-- C80: after the construction of a plot and any history of calls, exactly the given curves are
drawn, in order, over the given abscissae; curve `j` has the colour and the label the last calls
say, and the grid is shown as the last call says.  Calls never fail. -/
theorem C80_curves (size : V → ℕ) (x y0 : V) (ys : List V) (h : size x = size y0)
    (cs : List PlotCall) (hcs : ∀ c ∈ cs, ∀ l, c = .labels l → l.length = ys.length + 1) :
    ∃ p0 p, plotNew size x y0 ys = .ok p0 ∧ plotRun p0 cs = .ok p ∧
      p.drawn = Spec.curves x (y0 :: ys) (Spec.curveColor cs) (Spec.curveLabel cs) ∧
      p.gridShown = Spec.lastOf (fun | .displayGrid b => some b | _ => none) true cs := by
  -- invariant: the options are described by functions of the curve number
  have key : ∀ (cs : List PlotCall) (p0 : Plot V) (col lab : ℕ → String),
      (∀ c ∈ cs, ∀ l, c = .labels l → l.length = ys.length + 1) →
      p0.x = x → p0.y = y0 :: ys → p0.color.length = 8 →
      (∀ j, p0.color.getD (j % 8) "" = col j) → p0.labels.length = ys.length + 1 →
      (∀ j < ys.length + 1, p0.labels.getD j "" = lab j) → p0.gridShown = p0.grid →
      p0.drawn = Spec.curves x (y0 :: ys) col lab →
      ∃ p, plotRun p0 cs = .ok p ∧
        p.drawn = Spec.curves x (y0 :: ys)
          (fun j => Spec.lastOf (fun | .color c => some c | _ => none) (col j) cs)
          (fun j => Spec.lastOf (fun | .labels l => some (l.getD j "") | .label l => some l | _ => none)
            (lab j) cs) ∧
        p.gridShown = Spec.lastOf (fun | .displayGrid b => some b | _ => none) p0.gridShown cs := by
    intro cs
    induction cs with
    | nil => intro p0 col lab _ _ _ _ _ _ _ _ hd; exact ⟨p0, rfl, hd, rfl⟩
    | cons c cs ih =>
      intro p0 col lab hcs hx hy hc8 hcol hll hlab hg hd
      have hcs' : ∀ c ∈ cs, ∀ l, c = PlotCall.labels l → l.length = ys.length + 1 :=
        fun c hc => hcs c (List.mem_cons_of_mem _ hc)
      -- every call is a `redraw` of some changed plot
      have fin : ∀ (p1 : Plot V) (col' lab' : ℕ → String), plotCall p0 c = redrawPlot p1 →
          p1.x = x → p1.y = y0 :: ys → p1.color.length = 8 →
          (∀ j, p1.color.getD (j % 8) "" = col' j) → p1.labels.length = ys.length + 1 →
          (∀ j < ys.length + 1, p1.labels.getD j "" = lab' j) →
          ∃ p, plotRun p0 (c :: cs) = .ok p ∧
            p.drawn = Spec.curves x (y0 :: ys)
              (fun j => Spec.lastOf (fun | .color c => some c | _ => none) (col' j) cs)
              (fun j => Spec.lastOf
                (fun | .labels l => some (l.getD j "") | .label l => some l | _ => none) (lab' j) cs) ∧
            p.gridShown = Spec.lastOf (fun | .displayGrid b => some b | _ => none) p1.grid cs := by
        intro p1 col' lab' e h1 h2 h3 h4 h5 h6
        obtain ⟨q, eq, q1, q2, q3, q4, q5, q6, q7⟩ := redrawPlot_ok p1
          (by intro h0; rw [h0] at h3; simp at h3) (by rw [h2, h5]; simp)
        have hdq : q.drawn = Spec.curves x (y0 :: ys) col' lab' := by
          rw [q7, h1, h2]
          unfold Spec.curves
          apply List.ext_getElem (by simp)
          intro j hj1 hj2
          simp only [List.getElem_mapIdx, h3, h4]
          rw [h6 j (by simpa using hj1)]
        obtain ⟨p, ep, ed, eg⟩ := ih q col' lab' hcs' (q1.trans h1) (q2.trans h2) (by rw [q3]; exact h3)
          (by rw [q3]; exact h4) (by rw [q4]; exact h5) (by rw [q4]; exact h6) (by rw [q6, q5]) hdq
        refine ⟨p, ?_, ed, by rw [eg, q6]⟩
        unfold plotRun
        rw [e, eq]; exact ep
      simp only [lastOf_cons]
      cases c with
      | color cc =>
        have := fin { p0 with color := p0.color.map fun _ => cc } (fun _ => cc) lab rfl hx hy
          (by simpa using hc8) (by
            intro j
            have hj : j % 8 < p0.color.length := by rw [hc8]; exact Nat.mod_lt _ (by norm_num)
            exact getD_map_const _ _ _ hj) hll hlab
        simpa [hg] using this
      | displayGrid b =>
        have := fin { p0 with grid := b } col lab rfl hx hy hc8 hcol hll hlab
        simpa using this
      | labels l =>
        have := fin { p0 with labels := l } col (fun j => l.getD j "") rfl hx hy hc8 hcol
          (hcs _ List.mem_cons_self l rfl) (fun _ _ => rfl)
        simpa [hg] using this
      | label l =>
        have := fin { p0 with labels := p0.labels.map fun _ => l } col (fun _ => l) rfl hx hy hc8 hcol
          (by simpa using hll) (by
            intro j hj
            have hj' : j < p0.labels.length := by rw [hll]; exact hj
            exact getD_map_const _ _ _ hj')
        simpa [hg] using this
  obtain ⟨q, eq, q1, q2, q3, q4, q5, q6, q7⟩ := redrawPlot_ok (plotInit x (y0 :: ys))
    (by simp [palette, plotInit]) (by simp [plotInit])
  obtain ⟨p, ep, ed, eg⟩ := key cs q (fun j => palette.getD (j % 8) "") (fun _ => "") hcs q1 q2
    (by rw [q3]; rfl) (by rw [q3]; intro j; rfl) (by rw [q4]; simp [plotInit]) (by
      rw [q4]
      intro j hj
      exact getD_replicate_str _ _ _ (by simpa using hj)) (by rw [q6, q5]) (by
      rw [q7, show (plotInit x (y0 :: ys)).x = x from rfl,
        show (plotInit x (y0 :: ys)).y = y0 :: ys from rfl]
      unfold Spec.curves
      apply List.ext_getElem (by simp)
      intro j hj1 hj2
      have hj : j < ys.length + 1 := by simpa [plotInit] using hj1
      simp only [List.getElem_mapIdx]
      have : (plotInit x (y0 :: ys)).labels.getD j "" = "" := by
        exact getD_replicate_str _ _ _ (by simpa using hj)
      rw [this]; rfl)
  refine ⟨q, p, ?_, ep, ed, by rw [eg, q6]; rfl⟩
  unfold plotNew require
  rw [if_pos (by simpa using h)]
  exact eq

/-- C80: abscissae and first ordinates of different lengths are rejected. -/
theorem C80_first_length (size : V → ℕ) (x y0 : V) (ys : List V) (h : size x ≠ size y0) :
    plotNew size x y0 ys = .ub := by
  unfold plotNew require
  rw [if_neg (by simpa using h)]
  rfl

/-- C80 (negation of "all curves must have the length of the abscissae"): only the first is checked;
a second curve of any other length is handed to the drawing library. -/
theorem C80_second_length_false :
    ∃ (x y0 y1 : List ℚ) (p : Plot (List ℚ)), x.length ≠ y1.length ∧
      plotNew List.length x y0 [y1] = .ok p ∧ ∃ c ∈ p.drawn, c.x.length ≠ c.y.length := by
  obtain ⟨p0, p, e0, e, ed, -⟩ := C80_curves List.length ([1, 2] : List ℚ) [3, 4] [[5]] rfl []
    (by simp)
  cases e
  refine ⟨[1, 2], [3, 4], [5], p0, by simp, e0, ?_⟩
  rw [ed]
  refine ⟨⟨[1, 2], [5], "green", none⟩, ?_, by simp⟩
  simp [Spec.curves, Spec.curveColor, Spec.curveLabel, Spec.lastOf, palette]

-- non-vacuity of the hypotheses of `C80_curves`: ten curves
example : (List.length [1, 2] = List.length [3, 4]) ∧ ∀ c ∈ [PlotCall.color "red",
    PlotCall.labels ["a", "b"]], ∀ l, c = .labels l → l.length = [[5, 6]].length + 1 := by
  refine ⟨rfl, ?_⟩
  intro c hc l hl
  subst hl
  simp only [List.mem_cons, List.not_mem_nil, or_false, PlotCall.labels.injEq, reduceCtorEq,
    false_or] at hc
  subst hc; rfl

end Plot

/-- C80 (negation of "the last call of `log` decides the vertical scale"): once switched on, the
logarithmic scale stays whatever is called afterwards. -/
theorem C80_hist_log_false (h : HistScale) (calls : List Bool) :
    (calls.foldl (fun s b => histRedraw (histLog s b)) (histLog h true)).tics = true := by
  have key : ∀ s : HistScale, s.tics = true →
      (calls.foldl (fun s b => histRedraw (histLog s b)) s).tics = true := by
    induction calls with
    | nil => intro s hs; exact hs
    | cons b bs ih =>
      intro s hs
      apply ih
      cases b <;> simp [histLog, histRedraw, hs]
  exact key _ rfl

/-- C80: without any `log(true)` the scale is linear, after the first one it is logarithmic. -/
theorem C80_hist_log_partial (calls : List Bool) :
    (calls.foldl histLog ⟨false, false⟩).tics = calls.any id ∧
    (calls.foldl histLog ⟨false, false⟩).logscale = calls.getLastD false := by
  have key : ∀ s : HistScale, (calls.foldl histLog s).tics = (s.tics || calls.any id) ∧
      (calls.foldl histLog s).logscale = calls.getLastD s.logscale := by
    induction calls with
    | nil => intro s; simp
    | cons b bs ih =>
      intro s
      obtain ⟨h1, h2⟩ := ih (histLog s b)
      rw [List.foldl_cons]
      refine ⟨?_, ?_⟩
      · rw [h1]; cases b <;> simp [histLog]
      · rw [h2, List.getLastD_cons]; cases b <;> simp [histLog]
  simpa using key ⟨false, false⟩

/-- C80 (negation of "the csd plot of a signal with itself is its psd plot"): for a positive power
`p` (the cross power of a signal with itself is real) the linear csd plot shows `p²` and the decibel
plot twice the decibels of the psd plot. -/
theorem C80_csd_psd_false (p : ℝ) :
    csdOrdinate (Real.logb 10) false p 0 = psdOrdinate (Real.logb 10) false p ^ 2 ∧
    csdOrdinate (Real.logb 10) true p 0 = 2 * psdOrdinate (Real.logb 10) true p := by
  constructor
  · simp [csdOrdinate, psdOrdinate, pow_two]
  · simp only [csdOrdinate, psdOrdinate, mul_zero, add_zero, if_true]
    rw [← pow_two, Real.logb_pow]
    push_cast
    ring

/-- C80: every known marker character has its own gnuplot point type. -/
theorem C80_marker (c d : Char) (hc : c ∈ ['.', '+', 'x', 's', 'o', '^', 'v', 'D'])
    (hd : d ∈ ['.', '+', 'x', 's', 'o', '^', 'v', 'D']) : marker c = marker d ↔ c = d := by
  simp only [List.mem_cons, List.not_mem_nil, or_false] at hc hd
  rcases hc with rfl | rfl | rfl | rfl | rfl | rfl | rfl | rfl <;>
    rcases hd with rfl | rfl | rfl | rfl | rfl | rfl | rfl | rfl <;> decide

/-- C80: the point types are those of gnuplot (0 dot, 1 plus, 2 cross, 5 square, 7 circle, 9 triangle up,
11 triangle down, 13 diamond); every other character draws dots. -/
theorem C80_marker_types :
    ['.', '+', 'x', 's', 'o', '^', 'v', 'D'].map marker = [0, 1, 2, 5, 7, 9, 11, 13] ∧
    ∀ c, c ∉ ['.', '+', 'x', 's', 'o', '^', 'v', 'D'] → marker c = 0 := by
  refine ⟨by decide, fun c hc => ?_⟩
  simp only [List.mem_cons, List.not_mem_nil, or_false, not_or] at hc
  obtain ⟨h1, h2, h3, h4, h5, h6, h7, h8⟩ := hc
  simp only [marker, h1, h2, h3, h4, h5, h6, h7, h8, if_false]

end SciCpp
