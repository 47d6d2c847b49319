import Verif.Model.IntQuant
import Verif.Props.BinWidth
import Verif.Props.IntStats
import Verif.Props.UInt
import Mathlib.Analysis.Real.Pi.Bounds
import Mathlib.Tactic.Linarith
/-
  C138: interpolation, quantiles and automatic bin edges of integers.
-/
namespace SciCpp
open Spec

section
variable {K : Type} [Field K] [LinearOrder K] [IsStrictOrderedRing K]

/-- C138: `lerp` of two representable signed integers (two's complement or symmetric range) never overflows: the difference is taken only when both have the same sign. -/
theorem C138_lerp (lo hi a b : ℤ) (hlo : lo ≤ -hi) (hhi : -hi - 1 ≤ lo) (ha : Repr' lo hi a) (hb : Repr' lo hi b) (t : K) :
    lerpInt lo hi a b t = .ok ((a : K) + t * ((b : K) - a)) := by
  rw [← lerp_eq (a : K) b t]
  unfold lerpInt lerp
  obtain ⟨a1, a2⟩ := ha
  obtain ⟨b1, b2⟩ := hb
  have e1 : ((a : K) ≤ 0 ∧ (b : K) ≥ 0 ∨ (a : K) ≥ 0 ∧ (b : K) ≤ 0) ↔ (a ≤ 0 ∧ b ≥ 0 ∨ a ≥ 0 ∧ b ≤ 0) := by
    simp only [ge_iff_le, Int.cast_nonpos, Int.cast_nonneg_iff]
  by_cases h : a ≤ 0 ∧ b ≥ 0 ∨ a ≥ 0 ∧ b ≤ 0
  · rw [if_pos h, if_pos (e1.mpr h)]
  · rw [if_neg h, if_neg (fun c => h (e1.mp c))]
    by_cases ht : t = 1
    · rw [if_pos ht, if_pos ht]
    · rw [if_neg ht, if_neg ht]
      have hd : chk lo hi (b - a) = .ok (b - a) := by
        unfold chk
        rw [if_pos]
        constructor <;> omega
      rw [hd, Res.bind_ok]
      simp only [Int.cast_sub, gt_iff_lt, Int.cast_lt]
      rfl

variable {N : ℕ} [NeZero N]

omit [NeZero N] in
theorem sub_val_le (a b : Fin N) (h : a ≤ b) : (b - a).val = b.val - a.val := Fin.sub_val_of_le h

omit [NeZero N] in
theorem sub_val_gt (a b : Fin N) (h : b < a) : (b - a).val = N - (a.val - b.val) := by
  have h' : b.val < a.val := h
  have hb := a.isLt
  rw [Fin.sub_def]
  simp only
  rw [Nat.mod_eq_of_lt (by omega)]
  omega

/-- C138: `lerp` of unsigned integers is right when `a ≤ b`, or when one of them is 0. -/
theorem C138_lerp_unsigned (a b : Fin N) (h : a ≤ b ∨ b = 0) (t : K) : lerpU a b t = .ok ((a.val : K) + t * ((b.val : K) - a.val)) := by
  rw [← lerp_eq (a.val : K) b.val t]
  unfold lerpU lerp
  have e1 : ((a.val : K) ≤ 0 ∧ (b.val : K) ≥ 0 ∨ (a.val : K) ≥ 0 ∧ (b.val : K) ≤ 0) ↔ (a ≤ 0 ∧ b ≥ 0 ∨ a ≥ 0 ∧ b ≤ 0) := by
    have z : ∀ x : Fin N, ((x.val : K) ≤ 0) ↔ x ≤ 0 := by
      intro x
      rw [Fin.le_def]
      simp
    have g : ∀ x : Fin N, x ≥ 0 := fun x => Fin.zero_le x
    rw [z, z]
    simp [g]
  by_cases hc : a ≤ 0 ∧ b ≥ 0 ∨ a ≥ 0 ∧ b ≤ 0
  · rw [if_pos hc, if_pos (e1.mpr hc)]
  · rw [if_neg hc, if_neg (fun c => hc (e1.mp c))]
    have hab : a ≤ b := by
      rcases h with h | rfl
      · exact h
      · exact absurd (Or.inr ⟨Fin.zero_le a, le_refl _⟩) hc
    by_cases ht : t = 1
    · rw [if_pos ht, if_pos ht]
    · rw [if_neg ht, if_neg ht]
      have hle : a.val ≤ b.val := hab
      have hgt : (b > a) ↔ ((b.val : K) > a.val) := by
        rw [gt_iff_lt, gt_iff_lt, Nat.cast_lt, Fin.lt_def]
      rw [sub_val_le a b hab, Nat.cast_sub hle]
      simp only [hgt]

/-- C138, false for unsigned integers in decreasing order: for `0 < b < a` and `0 < t < 1` the result of `lerp` is `t·N` too large. -/
theorem C138_lerp_unsigned_decreasing (a b : Fin N) (h0 : 0 < b) (h : b < a) (t : K) (ht0 : 0 < t) (ht1 : t < 1) :
    lerpU a b t = .ok ((a.val : K) + t * ((b.val : K) - a.val) + t * N) := by
  have hb0 : 0 < b.val := h0
  have hba : b.val < a.val := h
  have haN := a.isLt
  have hc : ¬ (a ≤ 0 ∧ b ≥ 0 ∨ a ≥ 0 ∧ b ≤ 0) := by
    rintro (⟨c, -⟩ | ⟨-, c⟩)
    · have : a.val ≤ 0 := c
      omega
    · have : b.val ≤ 0 := c
      omega
  unfold lerpU
  rw [if_neg hc, if_neg ht1.ne]
  simp only
  have hg : ¬ (b > a) := fun c => lt_asymm h c
  have ht : ¬ (t > 1) := not_lt.mpr ht1.le
  rw [if_pos (by simp only [hg, ht])]
  rw [sub_val_gt a b h, Nat.cast_sub (by omega), Nat.cast_sub hba.le]
  have k1 : (b.val : K) < a.val := by exact_mod_cast hba
  have k2 : (a.val : K) < N := by exact_mod_cast haN
  have k3 : (0 : K) < b.val := by exact_mod_cast hb0
  have k4 : 0 < t * ((N : K) - (a.val - b.val)) := mul_pos ht0 (by linarith)
  rw [if_pos (by linarith)]
  congr 1
  ring

end

/-! ### quantiles -/

section
variable {K : Type} [Field K] [LinearOrder K] [IsStrictOrderedRing K] [FloorRing K]

theorem sorted_map {α β : Type} [LinearOrder α] [LinearOrder β] (f : α → β) (hf : StrictMono f) (l : List α) : sorted (l.map f) = (sorted l).map f := by
  unfold sorted
  exact (List.map_insertionSort _ _ f l fun a _ b _ => hf.le_iff_le.symm).symm

theorem orderStat_map {α β : Type} [LinearOrder α] [LinearOrder β] (f : α → β) (hf : StrictMono f) (l : List α) (k : ℕ) (h : k < l.length) :
    orderStat (l.map f) k (by simpa using h) = f (orderStat l k h) := by
  unfold orderStat
  simp only [sorted_map f hf, List.getElem_map]

/-- The quantile of converted elements, whatever the two `nth_element` do. -/
theorem quantileOf_eq {α : Type} [LinearOrder α] (lrp : α → α → K → Res K) (toK : α → K) (hf : StrictMono toK) (nth : NthImpl α) (nth' : NthImpl K) (qnan tol : K)
    (m : QInterp) (l : List α) (q : K) (hl : ∀ a ∈ l, ∀ b ∈ l, a ≤ b → ∀ t, lrp a b t = .ok (lerp (toK a) (toK b) t)) (ht : 0 ≤ tol) :
    quantileOf lrp toK nth qnan tol m l q = quantileInplace nth' qnan tol m (l.map toK) q := by
  unfold quantileOf quantileInplace
  by_cases hq : 0 ≤ q ∧ q ≤ 1
  swap
  · have : decide (0 ≤ q ∧ q ≤ 1) = false := by simpa using hq
    rw [this]; rfl
  have hr : decide (0 ≤ q ∧ q ≤ 1) = true := by simpa using hq
  simp only [hr, require_true, Res.bind_ok]
  rcases l with _ | ⟨x, _ | ⟨y, l⟩⟩
  · rfl
  · rfl
  · simp only [List.map_cons]
    set L := x :: y :: l with hL
    have hLm : toK x :: toK y :: l.map toK = L.map toK := rfl
    rw [hLm, List.length_map]
    have hlen : L.length = l.length + 2 := rfl
    obtain ⟨b0, b1⟩ := quantile_h_bounds q (L.length - 1) hq.1 hq.2
    obtain ⟨c0, c1⟩ := qIndex_bounds m _ (L.length - 1) b0 b1
    set h0 := qInterpIndex m (q * ((L.length - 1 : ℕ) : K)) with hh
    have hfl : 0 ≤ ⌊h0⌋ := Int.floor_nonneg.mpr c0
    have hfz : ⌊h0⌋ ≤ ((L.length - 1 : ℕ) : ℤ) := by
      have := Int.floor_le_floor c1
      rwa [Int.floor_natCast] at this
    have htr : truncK h0 = ⌊h0⌋ := by rw [truncK, if_pos c0]
    rw [htr]
    by_cases ha : almostEqFin tol (nearbyint h0 : K) h0 = true
    · rw [if_pos ha, if_pos ha]
      have hlt : ⌊h0⌋.toNat < L.length := by omega
      have hlt' : ⌊h0⌋.toNat < (L.map toK).length := by rw [List.length_map]; exact hlt
      rw [Nat.min_eq_left hlt.le, nth_eq (nth.correct _ L) hlt, nth_eq (nth'.correct _ (L.map toK)) hlt', Res.bind_ok, orderStat_map toK hf L _ hlt]
      rfl
    · rw [if_neg ha, if_neg ha]
      have hn : ⌊h0⌋.toNat + 1 < L.length := by
        by_contra hc
        have h2 : ((L.length - 1 : ℕ) : ℤ) = ⌊h0⌋ := by omega
        apply ha
        have h3 : h0 = ((⌊h0⌋ : ℤ) : K) := by
          refine le_antisymm (c1.trans ?_) (Int.floor_le h0)
          rw [← h2, Int.cast_natCast]
        rw [h3, nearbyint_int]
        exact almostEqFin_self tol _ ht
      have hn' : ⌊h0⌋.toNat + 1 < (L.map toK).length := by rw [List.length_map]; exact hn
      rw [Nat.min_eq_left hn.le]
      obtain ⟨a, as, e, hm⟩ := max_before (nth.correct (⌊h0⌋.toNat + 1) L) hn (by omega)
      obtain ⟨a', as', e', hm'⟩ := max_before (nth'.correct (⌊h0⌋.toNat + 1) (L.map toK)) hn' (by omega)
      rw [e, e']
      simp only []
      rw [nth_eq (nth.correct _ L) hn, nth_eq (nth'.correct _ (L.map toK)) hn', Res.bind_ok, Res.bind_ok, hm, hm', orderStat_map toK hf L _ hn]
      simp only [Nat.add_sub_cancel]
      rw [orderStat_map toK hf L _ (by omega)]
      exact hl _ (orderStat_mem _ _ _) _ (orderStat_mem _ _ _) (orderStat_mono L (by omega) hn) _

theorem intCast_strictMono' : StrictMono (fun x : ℤ => (x : K)) := fun _ _ h => Int.cast_lt.mpr h

/-- C138: a quantile of representable signed integers never overflows and is the quantile of the converted numbers, for every method and whatever `nth_element` does. -/
theorem C138_quantile (lo hi : ℤ) (hlo : lo ≤ -hi) (hhi : -hi - 1 ≤ lo) (nth : NthImpl ℤ) (nth' : NthImpl K) (qnan tol : K) (ht : 0 ≤ tol) (m : QInterp) (l : List ℤ)
    (hl : ∀ x ∈ l, Repr' lo hi x) (q : K) : quantileInt lo hi nth qnan tol m l q = quantileInplace nth' qnan tol m (l.map fun x : ℤ => (x : K)) q :=
  quantileOf_eq _ _ intCast_strictMono' nth nth' qnan tol m l q
    (fun a ha b hb _ t => by rw [C138_lerp lo hi a b hlo hhi (hl a ha) (hl b hb) t, lerp_eq]) ht

/-- C138: the same of unsigned integers (the interpolation goes upwards). -/
theorem C138_quantile_unsigned {N : ℕ} [NeZero N] (nth : NthImpl (Fin N)) (nth' : NthImpl K) (qnan tol : K) (ht : 0 ≤ tol) (m : QInterp) (l : List (Fin N)) (q : K) :
    quantileU nth qnan tol m l q = quantileInplace nth' qnan tol m (l.map fun x : Fin N => (x.val : K)) q :=
  quantileOf_eq lerpU (fun x : Fin N => (x.val : K)) (fun _ _ h => Nat.cast_lt.mpr h) nth nth' qnan tol m l q
    (fun a _ b _ hab t => by rw [C138_lerp_unsigned a b (Or.inl hab) t, lerp_eq]) ht

/-- C138: interquartile ranges. -/
theorem C138_iqr (lo hi : ℤ) (hlo : lo ≤ -hi) (hhi : -hi - 1 ≤ lo) (nth : NthImpl ℤ) (nth' : NthImpl K) (qnan tol : K) (ht : 0 ≤ tol) (m : QInterp) (l l2 : List ℤ)
    (hl : ∀ x ∈ l, Repr' lo hi x) (hl2 : ∀ x ∈ l2, Repr' lo hi x) (r0 r1 : K) :
    iqrInt lo hi nth qnan tol m l l2 r0 r1 = iqr nth' qnan tol m (l.map fun x : ℤ => (x : K)) (l2.map fun x : ℤ => (x : K)) r0 r1 := by
  unfold iqrInt iqr percentile
  rw [C138_quantile lo hi hlo hhi nth nth' qnan tol ht m l hl, C138_quantile lo hi hlo hhi nth nth' qnan tol ht m l2 hl2]

end

/-! ### bin edges -/

section
variable {lo hi : ℤ}

theorem minElement_map (f : ℤ → ℝ) (hf : StrictMono f) (x : ℤ) (xs : List ℤ) :
    minElement (fun a b : ℝ => decide (a < b)) (f x) (xs.map f) = f (minElement (fun a b => decide (a < b)) x xs) := by
  induction xs generalizing x with
  | nil => rfl
  | cons y ys ih =>
    simp only [List.map_cons, minElement, hf.lt_iff_lt]
    rw [← apply_ite f, ih]

theorem maxElement_map (f : ℤ → ℝ) (hf : StrictMono f) (x : ℤ) (xs : List ℤ) :
    maxElement (fun a b : ℝ => decide (a < b)) (f x) (xs.map f) = f (maxElement (fun a b => decide (a < b)) x xs) := by
  induction xs generalizing x with
  | nil => rfl
  | cons y ys ih =>
    simp only [List.map_cons, maxElement, hf.lt_iff_lt]
    rw [← apply_ite f, ih]

theorem maxElementLast_map (f : ℤ → ℝ) (hf : StrictMono f) (x : ℤ) (xs : List ℤ) :
    maxElementLast (fun a b : ℝ => decide (a < b)) (f x) (xs.map f) = f (maxElementLast (fun a b => decide (a < b)) x xs) := by
  induction xs generalizing x with
  | nil => rfl
  | cons y ys ih =>
    simp only [List.map_cons, maxElementLast, hf.lt_iff_lt]
    rw [← apply_ite f, ih]

/-- The integers converted to floating point. -/
noncomputable def realsOf (xs : List ℤ) : List ℝ := xs.map fun x : ℤ => (x : ℝ)

theorem outerEdgesInt_eq (tol : ℝ) (xs : List ℤ) : outerEdgesInt tol xs = outerEdgesR tol (realsOf xs) := by
  unfold outerEdgesInt outerEdgesR realsOf
  rcases xs with _ | ⟨x, xs⟩
  · rfl
  · simp only [List.map_cons, List.isEmpty_cons, amin, amax]
    rw [minElement_map (fun x : ℤ => (x : ℝ)) intCast_strictMono', maxElement_map (fun x : ℤ => (x : ℝ)) intCast_strictMono']
    rfl

/-- The smallest and the largest element. -/
structure IsRange (xs : List ℤ) (a b : ℤ) : Prop where
  min_mem : a ∈ xs
  max_mem : b ∈ xs
  bounds : ∀ x ∈ xs, a ≤ x ∧ x ≤ b

theorem ptpInt_eq (xs : List ℤ) (a b : ℤ) (h : IsRange xs a b) : ptpInt lo hi xs = chk lo hi (b - a) := by
  rcases xs with _ | ⟨x, xs⟩
  · cases h.min_mem
  · simp only [ptpInt]
    obtain ⟨h1, h2⟩ := maxElementLast_spec x xs
    obtain ⟨h3, h4⟩ := minElement_spec x xs
    rw [le_antisymm (h.bounds _ h1).2 (h2 b h.max_mem), le_antisymm (h4 a h.min_mem) (h.bounds _ h3).1]

theorem isRange_real {xs : List ℤ} {a b : ℤ} (h : IsRange xs a b) :
    (a : ℝ) ∈ realsOf xs ∧ (b : ℝ) ∈ realsOf xs ∧ ∀ x ∈ realsOf xs, (a : ℝ) ≤ x ∧ x ≤ b := by
  refine ⟨List.mem_map.mpr ⟨a, h.min_mem, rfl⟩, List.mem_map.mpr ⟨b, h.max_mem, rfl⟩, fun x hx => ?_⟩
  obtain ⟨y, hy, rfl⟩ := List.mem_map.mp hx
  exact ⟨Int.cast_le.mpr (h.bounds y hy).1, Int.cast_le.mpr (h.bounds y hy).2⟩

/-- The edges for a given width. -/
theorem edgesInt_of_width (nth : NthImpl ℤ) (nth' : NthImpl ℝ) (tol tolq : ℝ) (m m' : BinMethod) (xs : List ℤ) (w : ℝ)
    (h1 : binWidthInt lo hi nth tolq m xs = .ok w) (h2 : binWidth nth' tolq m' (realsOf xs) = .ok (Ex.fin w)) :
    histogramBinEdgesInt lo hi nth tol tolq m xs = histogramBinEdgesR nth' tol tolq m' (realsOf xs) := by
  unfold histogramBinEdgesInt histogramBinEdgesR
  have he : (realsOf xs).isEmpty = xs.isEmpty := by cases xs <;> rfl
  rw [he, h1, h2, outerEdgesInt_eq]
  rfl

/-- C138: with the square-root, Rice, Sturges and AUTO rules the bin edges of integers are undefined when the range of the data is not representable, and otherwise are
those of the converted numbers. -/
theorem C138_edges_range (hlo : lo ≤ -hi) (hhi : -hi - 1 ≤ lo) (nth : NthImpl ℤ) (nth' : NthImpl ℝ) (tol tolq : ℝ) (htq : 0 ≤ tolq) (xs : List ℤ)
    (hx : ∀ x ∈ xs, Repr' lo hi x) (a b : ℤ) (hab : IsRange xs a b) (m : BinMethod) (hm : m = .sqrt ∨ m = .rice ∨ m = .sturges ∨ m = .auto) :
    (hi < b - a → histogramBinEdgesInt lo hi nth tol tolq m xs = .ub) ∧
    (b - a ≤ hi → histogramBinEdgesInt lo hi nth tol tolq m xs = histogramBinEdgesR nth' tol tolq m (realsOf xs)) := by
  have hne : xs ≠ [] := by rintro rfl; cases hab.min_mem
  have hreq : (!xs.isEmpty) = true := by simpa using hne
  have hreq' : (!(realsOf xs).isEmpty) = true := by simpa [realsOf] using hne
  have hlen : (realsOf xs).length = xs.length := by simp [realsOf]
  obtain ⟨r1, r2, r3⟩ := isRange_real hab
  obtain ⟨-, -, e3⟩ := extrema_eq (realsOf xs) a b r1 r2 r3
  have hab' := (hab.bounds a hab.min_mem).2
  have hi0 : 0 ≤ hi := by
    obtain ⟨k1, k2⟩ := hx a hab.min_mem
    omega
  have hiq := C138_iqr lo hi hlo hhi nth nth' (0 : ℝ) tolq htq .linear xs xs hx hx 25 75
  constructor
  · intro h
    have hp : ptpInt lo hi xs = .ub := by
      rw [ptpInt_eq xs a b hab, chk, if_neg (by omega)]
    have hw : binWidthInt lo hi nth tolq m xs = .ub := by
      unfold binWidthInt
      rw [hreq]
      rcases hm with rfl | rfl | rfl | rfl
      · simp only [require_true, Res.bind_ok, hp]; rfl
      · simp only [require_true, Res.bind_ok, hp]; rfl
      · simp only [require_true, Res.bind_ok, hp]; rfl
      · simp only [require_true, Res.bind_ok, hp]
        cases iqrInt lo hi nth (0 : ℝ) tolq .linear xs xs 25 75 <;> rfl
    unfold histogramBinEdgesInt
    rw [if_neg (by simpa using hne), hw]
    rfl
  · intro h
    have hp : ptpInt lo hi xs = .ok (b - a) := by
      rw [ptpInt_eq xs a b hab, chk, if_pos (by omega)]
    have hpr : ptpR (realsOf xs) = ((b - a : ℤ) : ℝ) := by rw [e3, Int.cast_sub]
    rcases hm with rfl | rfl | rfl | rfl
    · refine edgesInt_of_width nth nth' tol tolq .sqrt .sqrt xs ((b - a : ℤ) / Real.sqrt xs.length) ?_ ?_
      · unfold binWidthInt; rw [hreq, hp]; rfl
      · unfold binWidth binWidthRange; rw [hreq', hpr, hlen]; rfl
    · refine edgesInt_of_width nth nth' tol tolq .rice .rice xs ((1 / 2) * (b - a : ℤ) / cbrtR xs.length) ?_ ?_
      · unfold binWidthInt; rw [hreq, hp]; rfl
      · unfold binWidth binWidthRange; rw [hreq', hpr, hlen]; rfl
    · refine edgesInt_of_width nth nth' tol tolq .sturges .sturges xs ((b - a : ℤ) / (Real.logb 2 xs.length + 1)) ?_ ?_
      · unfold binWidthInt; rw [hreq, hp]; rfl
      · unfold binWidth binWidthRange; rw [hreq', hpr, hlen]; rfl
    · cases hq : iqr nth' (0 : ℝ) tolq .linear (realsOf xs) (realsOf xs) 25 75 with
      | ub =>
        have hq' : iqrInt lo hi nth (0 : ℝ) tolq .linear xs xs 25 75 = .ub := hiq.trans hq
        unfold histogramBinEdgesInt histogramBinEdgesR binWidthInt binWidth binWidthFD
        rw [hreq, hreq', hq, hq', show (realsOf xs).isEmpty = xs.isEmpty by cases xs <;> rfl]
        rfl
      | ok d =>
        have hq' : iqrInt lo hi nth (0 : ℝ) tolq .linear xs xs 25 75 = .ok d := hiq.trans hq
        refine edgesInt_of_width nth nth' tol tolq .auto .auto xs
          (if 2 * d / cbrtR xs.length = 0 then ((b - a : ℤ) / (Real.logb 2 xs.length + 1)) else min (2 * d / cbrtR xs.length) ((b - a : ℤ) / (Real.logb 2 xs.length + 1))) ?_ ?_
        · unfold binWidthInt
          rw [hreq, hq', hp]
          simp only [require_true, Res.bind_ok]
          split_ifs <;> rfl
        · unfold binWidth binWidthFD binWidthRange
          rw [hreq', hq, hpr, hlen]
          simp only [require_true, Res.bind_ok, Res.pure_eq]
          split_ifs <;> rfl

/-- C138: the Freedman–Diaconis edges of integers are always those of the converted numbers. -/
theorem C138_edges_fd (hlo : lo ≤ -hi) (hhi : -hi - 1 ≤ lo) (nth : NthImpl ℤ) (nth' : NthImpl ℝ) (tol tolq : ℝ) (htq : 0 ≤ tolq) (xs : List ℤ)
    (hx : ∀ x ∈ xs, Repr' lo hi x) : histogramBinEdgesInt lo hi nth tol tolq .fd xs = histogramBinEdgesR nth' tol tolq .fd (realsOf xs) := by
  have hiq := C138_iqr lo hi hlo hhi nth nth' (0 : ℝ) tolq htq .linear xs xs hx hx 25 75
  have he : (realsOf xs).isEmpty = xs.isEmpty := by cases xs <;> rfl
  have hlen : (realsOf xs).length = xs.length := by simp [realsOf]
  cases hxs : xs.isEmpty with
  | true =>
    unfold histogramBinEdgesInt histogramBinEdgesR
    rw [he, hxs]; rfl
  | false =>
    have hreq : (!xs.isEmpty) = true := by rw [hxs]; rfl
    have hreq' : (!(realsOf xs).isEmpty) = true := by rw [he, hxs]; rfl
    cases hq : iqr nth' (0 : ℝ) tolq .linear (realsOf xs) (realsOf xs) 25 75 with
    | ub =>
      have hq' : iqrInt lo hi nth (0 : ℝ) tolq .linear xs xs 25 75 = .ub := hiq.trans hq
      unfold histogramBinEdgesInt histogramBinEdgesR binWidthInt binWidth binWidthFD
      rw [hreq, hreq', hq, hq', he]
      rfl
    | ok d =>
      have hq' : iqrInt lo hi nth (0 : ℝ) tolq .linear xs xs 25 75 = .ok d := hiq.trans hq
      refine edgesInt_of_width nth nth' tol tolq .fd .fd xs (2 * d / cbrtR xs.length) ?_ ?_
      · unfold binWidthInt; rw [hreq, hq']; rfl
      · unfold binWidth binWidthFD; rw [hreq', hq, hlen]; rfl

/-- C138: two different integers are not "almost equal" when the relative tolerance is less than 1 over their magnitude (`double`: any integers up to 2^50). -/
theorem C138_distinct (a b : ℤ) (hab : a ≠ b) (M : ℕ) (ha : |a| ≤ M) (hb : |b| ≤ M) (tol : ℝ) (ht1 : tol < 1) (ht : tol * M < 1) :
    almostEqFin tol (a : ℝ) (b : ℝ) = false := by
  have h1 : (1 : ℝ) ≤ |(a : ℝ) - b| := by
    have : (1 : ℤ) ≤ |a - b| := Int.one_le_abs (sub_ne_zero.mpr hab)
    have h2 : ((1 : ℤ) : ℝ) ≤ ((|a - b| : ℤ) : ℝ) := Int.cast_le.mpr this
    simpa using h2
  have hM : max |(a : ℝ)| |(b : ℝ)| ≤ M := by
    refine max_le ?_ ?_
    · have : ((|a| : ℤ) : ℝ) ≤ ((M : ℤ) : ℝ) := Int.cast_le.mpr ha
      simpa using this
    · have : ((|b| : ℤ) : ℝ) ≤ ((M : ℤ) : ℝ) := Int.cast_le.mpr hb
      simpa using this
  unfold almostEqFin
  split_ifs with hc
  · simpa using lt_of_lt_of_le ht1 h1
  · have h3 : tol * max |(a : ℝ)| |(b : ℝ)| < 1 := by
      rcases le_or_gt tol 0 with hn | hp
      · have : tol * max |(a : ℝ)| |(b : ℝ)| ≤ 0 := mul_nonpos_of_nonpos_of_nonneg hn (le_max_of_le_left (abs_nonneg _))
        linarith
      · exact lt_of_le_of_lt (mul_le_mul_of_nonneg_left hM hp.le) ht
    simpa using lt_of_lt_of_le h3 h1

theorem edgesInt_bins (nth : NthImpl ℤ) (tol tolq : ℝ) (ht : 0 ≤ tol) (m : BinMethod) (xs : List ℤ) (a b : ℤ) (hab : IsRange xs a b)
    (hne : almostEqFin tol (a : ℝ) (b : ℝ) = false) (w : ℝ) (hw : 0 ≤ w) (hbw : binWidthInt lo hi nth tolq m xs = .ok w) :
    ∃ e, histogramBinEdgesInt lo hi nth tol tolq m xs = .ok e ∧ EqualBins e a b (if w = 0 then 1 else ⌈((b : ℝ) - a) / w⌉₊) := by
  have hx : xs ≠ [] := by rintro rfl; cases hab.min_mem
  obtain ⟨r1, r2, r3⟩ := isRange_real hab
  obtain ⟨e1, e2, -⟩ := extrema_eq (realsOf xs) a b r1 r2 r3
  have hlt := lt_of_not_almostEq (realsOf xs) a b r1 r2 r3 tol ht hne
  have ho : outerEdgesInt tol xs = ((a : ℝ), (b : ℝ)) := by
    rw [outerEdgesInt_eq]
    unfold outerEdgesR
    rw [if_neg (by simpa [realsOf] using hx), e1, e2]
    simp [hne]
  unfold histogramBinEdgesInt
  rw [if_neg (by simpa using hx)]
  simp only [hbw, ho, Res.bind_ok]
  by_cases h0 : w = 0
  · rw [if_pos h0, if_pos h0]
    exact ⟨_, rfl, linspace_equalBins _ _ 1 le_rfl⟩
  · have hw' : 0 < w := lt_of_le_of_ne hw (Ne.symm h0)
    have hpos : 0 < ((b : ℝ) - a) / w := div_pos (by linarith) hw'
    have hc : 0 < ⌈((b : ℝ) - a) / w⌉ := Int.ceil_pos.mpr hpos
    rw [if_neg h0, if_neg h0, if_neg (by omega)]
    refine ⟨_, rfl, ?_⟩
    rw [← Int.ceil_toNat]
    exact linspace_equalBins _ _ _ (by omega)

/-- C138 (partial: the smallest and the largest element are not almost equal, `C138_distinct`, and their difference is representable): the number of bins of integers
for the square-root, Rice and Sturges rules.  The bins are equal and go from the smallest to the largest element. -/
theorem C138_counts_partial (hlo : lo ≤ -hi) (hhi : -hi - 1 ≤ lo) (nth : NthImpl ℤ) (nth' : NthImpl ℝ) (tol tolq : ℝ) (ht : 0 ≤ tol) (htq : 0 ≤ tolq) (xs : List ℤ)
    (hx : ∀ x ∈ xs, Repr' lo hi x) (a b : ℤ) (hab : IsRange xs a b) (hr : b - a ≤ hi) (hne : almostEqFin tol (a : ℝ) (b : ℝ) = false) :
    (∃ e, histogramBinEdgesInt lo hi nth tol tolq .sqrt xs = .ok e ∧ EqualBins e a b ⌈Real.sqrt xs.length⌉₊) ∧
    (∃ e, histogramBinEdgesInt lo hi nth tol tolq .rice xs = .ok e ∧ EqualBins e a b ⌈2 * (xs.length : ℝ) ^ (1 / 3 : ℝ)⌉₊) ∧
    (∃ e, histogramBinEdgesInt lo hi nth tol tolq .sturges xs = .ok e ∧ EqualBins e a b ⌈Real.logb 2 xs.length + 1⌉₊) := by
  obtain ⟨r1, r2, r3⟩ := isRange_real hab
  have hlen : (realsOf xs).length = xs.length := by simp [realsOf]
  have key := C78_counts_range_partial (realsOf xs) a b r1 r2 r3 nth' tol tolq ht hne
  rw [hlen] at key
  have h := fun m hm => (C138_edges_range hlo hhi nth nth' tol tolq htq xs hx a b hab m hm).2 hr
  rw [h .sqrt (by simp), h .rice (by simp), h .sturges (by simp)]
  exact key

/-- C138 (partial, as above, and the variance is defined): Scott's rule uses the truncated variance `v`; when this is 0 there is a single bin. -/
theorem C138_counts_scott_partial (nth : NthImpl ℤ) (tol tolq : ℝ) (ht : 0 ≤ tol) (xs : List ℤ) (a b : ℤ) (hab : IsRange xs a b)
    (hne : almostEqFin tol (a : ℝ) (b : ℝ) = false) (v : ℤ) (c : ℕ) (hv : varInt lo hi 0 xs (fun _ => true) = .ok (v, c)) (hv0 : 0 ≤ v) :
    ∃ e, histogramBinEdgesInt lo hi nth tol tolq .scott xs = .ok e ∧
      EqualBins e a b (if v = 0 then 1 else ⌈((b : ℝ) - a) / ((24 * Real.sqrt Real.pi / xs.length) ^ (1 / 3 : ℝ) * Real.sqrt v)⌉₊) := by
  have hx : xs ≠ [] := by rintro rfl; cases hab.min_mem
  have hn : (0 : ℝ) < xs.length := by exact_mod_cast List.length_pos_iff.mpr hx
  have hreq : (!xs.isEmpty) = true := by simpa using hx
  have hpi : 0 < Real.sqrt Real.pi := Real.sqrt_pos.mpr Real.pi_pos
  have hc : 0 < (24 * Real.sqrt Real.pi / xs.length) ^ (1 / 3 : ℝ) := Real.rpow_pos_of_pos (by positivity) _
  have hbw : binWidthInt lo hi nth tolq .scott xs = .ok ((24 * Real.sqrt Real.pi / xs.length) ^ (1 / 3 : ℝ) * Real.sqrt v) := by
    unfold binWidthInt stdInt
    rw [hreq, hv]
    rfl
  obtain ⟨e, h1, h2⟩ := edgesInt_bins nth tol tolq ht .scott xs a b hab hne _ (mul_nonneg hc.le (Real.sqrt_nonneg _)) hbw
  refine ⟨e, h1, ?_⟩
  have hiff : ((24 * Real.sqrt Real.pi / xs.length) ^ (1 / 3 : ℝ) * Real.sqrt v = 0) ↔ v = 0 := by
    rw [mul_eq_zero, or_iff_right hc.ne', Real.sqrt_eq_zero (by exact_mod_cast hv0), Int.cast_eq_zero]
  simpa only [hiff] using h2

/-- C138: Doane's rule of at least three integers is undefined when the cube of the variance is not representable. -/
theorem C138_doane_overflow (nth : NthImpl ℤ) (tol tolq : ℝ) (xs : List ℤ) (h3 : 3 ≤ xs.length) (v : ℤ) (c : ℕ)
    (hv : varInt lo hi 0 xs (fun _ => true) = .ok (v, c)) (h : hi < v ^ 3) : histogramBinEdgesInt lo hi nth tol tolq .doane xs = .ub := by
  have hx : xs ≠ [] := by rintro rfl; simp at h3
  unfold histogramBinEdgesInt binWidthInt
  rw [if_neg (by simpa using hx), show (!xs.isEmpty) = true by simpa using hx]
  have : binWidthDoaneInt lo hi xs = .ub := by
    unfold binWidthDoaneInt
    rw [if_neg (by omega), C136_skew_overflow xs _ v c hv h]
    rfl
  simp only [require_true, Res.bind_ok, this]
  rfl

/-- C138 (partial, as above): Doane's rule of at least three integers when the skewness is defined: the number of bins is Doane's for the integer skewness `g`
(`none`: the quotient by 0; then there is a single bin). -/
theorem C138_counts_doane_partial (nth : NthImpl ℤ) (tol tolq : ℝ) (ht : 0 ≤ tol) (xs : List ℤ) (a b : ℤ) (hab : IsRange xs a b) (h0 : 0 ≤ hi) (hlo : lo ≤ -hi)
    (hr : b - a ≤ hi) (hne : almostEqFin tol (a : ℝ) (b : ℝ) = false) (g : Option ℝ) (hg : skewInt lo hi xs (fun _ => true) = .ok g) :
    ∃ e, histogramBinEdgesInt lo hi nth tol tolq .doane xs = .ok e ∧
      EqualBins e a b (if xs.length ≤ 2 then 1 else match g with
        | none => 1
        | some g => ⌈1 + Real.logb 2 xs.length + Real.logb 2 (1 + |g| /
            Real.sqrt (6 * ((xs.length : ℝ) - 2) / (((xs.length : ℝ) + 1) * ((xs.length : ℝ) + 3))))⌉₊) := by
  have hx : xs ≠ [] := by rintro rfl; cases hab.min_mem
  have hreq : (!xs.isEmpty) = true := by simpa using hx
  have hn : (1 : ℝ) ≤ xs.length := by exact_mod_cast List.length_pos_iff.mpr hx
  have hab' := (hab.bounds a hab.min_mem).2
  obtain ⟨r1, r2, r3⟩ := isRange_real hab
  have hlt := lt_of_not_almostEq (realsOf xs) a b r1 r2 r3 tol ht hne
  have hp : ptpInt lo hi xs = .ok (b - a) := by
    rw [ptpInt_eq xs a b hab, chk, if_pos (by omega)]
  have zero : binWidthDoaneInt lo hi xs = .ok 0 → ∃ e, histogramBinEdgesInt lo hi nth tol tolq .doane xs = .ok e ∧ EqualBins e a b 1 := by
    intro hz
    have := edgesInt_bins nth tol tolq ht .doane xs a b hab hne 0 le_rfl (by unfold binWidthInt; rw [hreq]; exact hz)
    simpa using this
  by_cases h2 : xs.length ≤ 2
  · rw [if_pos h2]
    exact zero (by unfold binWidthDoaneInt; rw [if_pos h2])
  · rw [if_neg h2]
    cases g with
    | none =>
      refine zero ?_
      unfold binWidthDoaneInt
      rw [if_neg h2, hg, hp]
      have h3 : ∃ m3, momentInt lo hi 3 xs (fun _ => true) = .ok m3 := by
        unfold skewInt at hg
        obtain ⟨m2, -, hg⟩ := Res.bind_eq_ok'.mp hg
        obtain ⟨m3, hm, -⟩ := Res.bind_eq_ok'.mp hg
        exact ⟨m3, hm⟩
      obtain ⟨m3, hm⟩ := h3
      simp only [Res.bind_ok, hm]
      split_ifs <;> rfl
    | some g =>
      simp only
      set sg := Real.sqrt (6 * ((xs.length : ℝ) - 2) / (((xs.length : ℝ) + 1) * ((xs.length : ℝ) + 3))) with hsg
      have hl : 0 ≤ Real.logb 2 xs.length := Real.logb_nonneg (by norm_num) hn
      have hl2 : 0 ≤ Real.logb 2 (1 + |g| / sg) :=
        Real.logb_nonneg (by norm_num) (by
          have : 0 ≤ |g| / sg := div_nonneg (abs_nonneg _) (Real.sqrt_nonneg _)
          linarith)
      have hbp : 0 < (b : ℝ) - a := by linarith
      have hw : 0 < ((b - a : ℤ) : ℝ) / (1 + Real.logb 2 xs.length + Real.logb 2 (1 + |g| / sg)) := by
        rw [Int.cast_sub]
        positivity
      have hbw : binWidthInt lo hi nth tolq .doane xs = .ok (((b - a : ℤ) : ℝ) / (1 + Real.logb 2 xs.length + Real.logb 2 (1 + |g| / sg))) := by
        unfold binWidthInt binWidthDoaneInt
        rw [hreq, if_neg h2, hg, hp]
        rfl
      have := edgesInt_bins nth tol tolq ht .doane xs a b hab hne _ hw.le hbw
      rw [if_neg hw.ne'] at this
      rw [show ((b : ℝ) - a) / (((b - a : ℤ) : ℝ) / (1 + Real.logb 2 xs.length + Real.logb 2 (1 + |g| / sg))) = 1 + Real.logb 2 xs.length + Real.logb 2 (1 + |g| / sg) by
        rw [Int.cast_sub]; field_simp] at this
      exact this

end

/-! ### the English claims that fail, and concrete cases -/

/-- C138, false: with Scott's rule the six `int` `{0, 0, 0, 1, 1, 1}` get one bin (the variance 1/4 is truncated to 0), the same numbers as `double` get two. -/
theorem C138_scott_false (nth : NthImpl ℤ) (nth' : NthImpl ℝ) (tol tolq : ℝ) (ht : 0 ≤ tol) (ht1 : tol < 1) :
    (∃ e, histogramBinEdgesInt (-2147483648) 2147483647 nth tol tolq .scott [0, 0, 0, 1, 1, 1] = .ok e ∧ EqualBins e 0 1 1) ∧
    (∃ e k, histogramBinEdgesR nth' tol tolq .scott [0, 0, 0, 1, 1, 1] = .ok e ∧ EqualBins e 0 1 k ∧ 2 ≤ k) := by
  have hne : almostEqFin tol ((0 : ℤ) : ℝ) ((1 : ℤ) : ℝ) = false := C138_distinct 0 1 (by norm_num) 1 (by norm_num) (by norm_num) tol ht1 (by simpa using ht1)
  have hab : IsRange [0, 0, 0, 1, 1, 1] 0 1 := ⟨by simp, by simp, by decide⟩
  constructor
  · have hv : varInt (-2147483648) 2147483647 0 [0, 0, 0, 1, 1, 1] (fun _ => true) = .ok (0, 6) := by
      rw [var_of_block _ _ _ _ (by decide)]
      decide +kernel
    have := C138_counts_scott_partial nth tol tolq ht [0, 0, 0, 1, 1, 1] 0 1 hab hne 0 6 hv le_rfl
    simpa using this
  · obtain ⟨r1, r2, r3⟩ := isRange_real hab
    obtain ⟨e, h1, h2⟩ := C78_counts_scott_partial (realsOf [0, 0, 0, 1, 1, 1]) _ _ r1 r2 r3 nth' tol tolq ht hne (by simp [realsOf])
    have hl : realsOf [0, 0, 0, 1, 1, 1] = [0, 0, 0, 1, 1, 1] := by simp [realsOf]
    rw [hl] at h1 h2
    simp only [Int.cast_zero, Int.cast_one] at h2
    refine ⟨e, _, h1, h2, ?_⟩
    have hcm : centralMoment 2 ([0, 0, 0, 1, 1, 1] : List ℝ) = 1 / 4 := by
      unfold centralMoment meanL
      norm_num
    rw [hcm]
    have hs : Real.sqrt (1 / 4 : ℝ) = 1 / 2 := by
      rw [show (1 / 4 : ℝ) = (1 / 2) ^ 2 by norm_num, Real.sqrt_sq (by norm_num)]
    have hpi : Real.sqrt Real.pi < 2 := by
      rw [Real.sqrt_lt' (by norm_num)]
      linarith [Real.pi_le_four, Real.pi_lt_d2]
    have hpi0 : 0 < Real.sqrt Real.pi := Real.sqrt_pos.mpr Real.pi_pos
    have hc : (24 * Real.sqrt Real.pi / ((([0, 0, 0, 1, 1, 1] : List ℝ).length : ℕ) : ℝ)) ^ (1 / 3 : ℝ) < 2 := by
      have h8 : (8 : ℝ) ^ (1 / 3 : ℝ) = 2 := by
        rw [show (8 : ℝ) = 2 ^ (3 : ℝ) by norm_num, ← Real.rpow_mul (by norm_num)]
        norm_num
      rw [← h8]
      refine Real.rpow_lt_rpow (by positivity) ?_ (by norm_num)
      simp only [List.length_cons, List.length_nil]
      push_cast
      linarith
    have hc0 : 0 < (24 * Real.sqrt Real.pi / ((([0, 0, 0, 1, 1, 1] : List ℝ).length : ℕ) : ℝ)) ^ (1 / 3 : ℝ) := by
      refine Real.rpow_pos_of_pos ?_ _
      simp only [List.length_cons, List.length_nil]
      positivity
    rw [hs]
    have : (1 : ℝ) < (1 - 0) / ((24 * Real.sqrt Real.pi / ((([0, 0, 0, 1, 1, 1] : List ℝ).length : ℕ) : ℝ)) ^ (1 / 3 : ℝ) * (1 / 2)) := by
      rw [lt_div_iff₀ (by positivity)]
      linarith
    have h3 : 1 < ⌈(1 - 0) / ((24 * Real.sqrt Real.pi / ((([0, 0, 0, 1, 1, 1] : List ℝ).length : ℕ) : ℝ)) ^ (1 / 3 : ℝ) * (1 / 2))⌉₊ := by
      rw [Nat.lt_ceil]
      exact_mod_cast this
    exact h3

/-- C138, false: Doane's rule of the `int` `{0, 100, 200}` is undefined. -/
theorem C138_doane_false (nth : NthImpl ℤ) (tol tolq : ℝ) : histogramBinEdgesInt (-2147483648) 2147483647 nth tol tolq .doane [0, 100, 200] = .ub := by
  refine C138_doane_overflow nth tol tolq [0, 100, 200] (by simp) 6666 3 ?_ (by norm_num)
  rw [var_of_block _ _ _ _ (by decide)]
  decide +kernel

/-- C138, false: `lerp(5u, 3u, 0.5)` is 2147483652 instead of 4. -/
theorem C138_lerp_unsigned_false : lerpU (5 : Fin 4294967296) 3 (1 / 2 : ℚ) = .ok 2147483652 := by
  rw [C138_lerp_unsigned_decreasing (5 : Fin 4294967296) 3 (by decide) (by decide) (1 / 2 : ℚ) (by norm_num) (by norm_num)]
  norm_num

/-- The hypotheses are met: the quartile of the extreme integers is defined although their difference is not representable. -/
example (nth : NthImpl ℤ) (nth' : NthImpl ℚ) : quantileInt (-2147483648) 2147483647 nth 0 0 .linear [2147483647, -2147483648] (1 / 4 : ℚ) = .ok (-1073741824 - 1 / 4) := by
  rw [C138_quantile (-2147483648) 2147483647 (by norm_num) (by norm_num) nth nth' 0 0 le_rfl .linear _ (by decide)]
  rw [C17_quantile_exact_partial nth' 0 .linear _ _ (by norm_num) (by norm_num) (by simp)]
  have hs : sorted (([2147483647, -2147483648] : List ℤ).map fun x : ℤ => (x : ℚ)) = [-2147483648, 2147483647] := by decide +kernel
  simp only [quantileAt, hs]
  norm_num

end SciCpp
