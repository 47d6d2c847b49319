import Verif.Model.HistF
import Verif.Proofs.Histogram
import Verif.Props.Limits
import Verif.Props.Histogram
/-
  Property theorems C111: the index-computing histogram in floating point.
-/
set_option exponentiation.threshold 2000

namespace SciCpp
open Spec

variable {f : Fmt}

/-- The bin the loop selects for `x`. -/
def idxUI (tol : ℚ) (b0 back step : IFl f) (n : ℕ) (x : IFl f) : Option ℕ :=
  let pos : IFl f := (x - b0) / step
  if IFl.le ((n : ℕ) : IFl f) pos then (if fpEqualI tol x back then some (n - 1) else none)
  else match (pos : Fl) with
    | .fin q => if 0 ≤ q then some ⌊q⌋₊ else none
    | _ => none

theorem round_fin {z : Fl} {q : ℚ} (h : f.round z = .fin q) : f.rnd q = q ∧ |q| < (2 : ℚ) ^ f.emax := by
  cases z with
  | nan => simp [Fmt.round] at h
  | inf b => simp [Fmt.round] at h
  | fin p =>
    obtain ⟨h1, h2⟩ := f.ofRat_eq_fin h
    rw [h1]
    exact ⟨f.rnd_idem p, h2⟩

theorem idxUI_lt (tol : ℚ) (b0 back step : IFl f) (n : ℕ) (hn : 1 ≤ n) (x : IFl f) (i : ℕ)
    (h : idxUI tol b0 back step n x = some i) : i < n := by
  unfold idxUI at h
  have hz : ∃ z : Fl, ((x - b0) / step : IFl f) = f.round z := ⟨_, rfl⟩
  obtain ⟨z, hz⟩ := hz
  rw [hz] at h
  simp only at h
  split_ifs at h with h1 h2
  · simp only [Option.some.injEq] at h; omega
  · generalize hp : f.round z = pos at h h1
    cases pos with
    | nan => simp at h
    | inf b => simp at h
    | fin q =>
      simp only at h
      split_ifs at h with hq
      simp only [Option.some.injEq] at h
      subst h
      rw [Nat.floor_lt hq]
      by_contra hc
      rw [not_lt] at hc
      obtain ⟨e1, e2⟩ := round_fin hp
      have h3 : f.rnd n ≤ q := by
        have := f.rnd_mono hc
        rwa [e1] at this
      have h4 : (0 : ℚ) ≤ f.rnd n := f.rnd_nonneg (Nat.cast_nonneg n)
      have h5 : f.ofRat (n : ℚ) = .fin (f.rnd n) := by
        refine f.ofRat_fin ?_
        rw [abs_of_nonneg h4]
        exact h3.trans_lt ((le_abs_self q).trans_lt e2)
      apply h1
      show Fl.le (f.ofRat (n : ℚ)) (.fin q) = true
      rw [h5]
      simp [Fl.le, h3]

theorem histStepUI_eq (tol : ℚ) (b0 back step : IFl f) (n : ℕ) (hist : List ℕ) (x : IFl f)
    (hh : hist.length = n) :
    histStepUI tol b0 back step hist x =
      match idxUI tol b0 back step n x with
      | none => .ok hist
      | some i => incr hist i := by
  unfold histStepUI idxUI
  simp only [hh]
  generalize ((x - b0) / step : IFl f) = pos
  by_cases h1 : IFl.le ((n : ℕ) : IFl f) pos = true
  · simp only [h1, if_true]
    split_ifs <;> rfl
  · simp only [h1, Bool.false_eq_true, if_false]
    cases pos using Fl.casesOn with
    | nan => rfl
    | inf b =>
      cases b
      · exfalso; apply h1
        show Fl.le (f.ofRat (n : ℚ)) (.inf false) = true
        unfold Fmt.ofRat
        split_ifs with h
        · have : ¬ ((n : ℚ) < 0) := not_lt.2 (Nat.cast_nonneg n)
          simp [Fl.le, this]
        · rfl
      · rfl
    | fin q =>
      show (if decide ((0 : ℚ) ≤ q) = true then (IFl.toSize (IFl.fin q : IFl f)).bind _ else Res.ok hist) =
        match (if 0 ≤ q then some ⌊q⌋₊ else none) with
          | none => Res.ok hist
          | some i => incr hist i
      by_cases hq : 0 ≤ q
      · rw [if_pos (by simpa using hq), if_pos hq]
        have : IFl.toSize (IFl.fin q : IFl f) = .ok ⌊q⌋₊ := by
          show (if q ≤ -1 then Res.ub else _) = _
          rw [if_neg (by linarith)]
        rw [this]; rfl
      · rw [if_neg (by simpa using hq), if_neg hq]

/-- The result of the loop. -/
theorem histogramUI_count (tol : ℚ) (b0 b1 : IFl f) (rest xs : List (IFl f))
    (hs : isSortedI (b0 :: b1 :: rest) = true) (hst : IFl.lt (IFl.fin 0) (b1 - b0) = true) :
    ∃ h, histogramUI tol (b0 :: b1 :: rest) xs = .ok h ∧ h.length = rest.length + 1 ∧
      (∀ i, i < rest.length + 1 → h[i]? = some (xs.countP fun x =>
        idxUI tol b0 ((b1 :: rest).getLast (by simp)) (b1 - b0) (rest.length + 1) x == some i)) ∧
      h.sum = xs.countP fun x =>
        (idxUI tol b0 ((b1 :: rest).getLast (by simp)) (b1 - b0) (rest.length + 1) x).isSome := by
  set n := rest.length + 1 with hn
  set back := (b1 :: rest).getLast (by simp) with hback
  obtain ⟨h, e, l, p, q⟩ := histLoop_count n (histStepUI tol b0 back (b1 - b0))
    (idxUI tol b0 back (b1 - b0) n) (fun x i hx => idxUI_lt tol b0 back _ n (by omega) x i hx)
    (fun hist x hh => histStepUI_eq tol b0 back _ n hist x hh) xs (List.replicate n 0) (by simp)
  refine ⟨h, ?_, l, fun i hi => by simpa using p i 0 (by simp [hi]), by simpa using q⟩
  have e0 : rd (b0 :: b1 :: rest) 0 = .ok b0 := by
    exact rd_nat (b0 :: b1 :: rest) 0 (by simp)
  have e1 : rd (b0 :: b1 :: rest) 1 = .ok b1 := by
    exact rd_nat (b0 :: b1 :: rest) 1 (by simp)
  have e2 : rd (b0 :: b1 :: rest) (((b0 :: b1 :: rest).length : ℤ) - 1) = .ok back := by
    have := rd_nat (b0 :: b1 :: rest) n (by simp [hn])
    rw [show ((b0 :: b1 :: rest).length : ℤ) - 1 = (n : ℤ) by simp [hn], this]
    congr 1
    rw [hback, List.getLast_eq_getElem]
    simp [hn]
  unfold histogramUI
  rw [if_neg (by simp), hs]
  simp only [require_true, Res.bind_ok, e0, e1, e2, hst]
  have : (b0 :: b1 :: rest).length - 1 = n := by simp [hn]
  rw [this]
  exact e

/-- C111: for bins of any kind (finite or not) accepted by the requirements of `histogram` — sorted, and the
first step positive — and for any samples, including NaN and infinities, in any format and with any number of
bins, counting with computed indices never accesses memory out of bounds: it returns one count per bin, and
every sample is counted at most once. -/
theorem C111_defined (tol : ℚ) (b0 b1 : IFl f) (rest xs : List (IFl f))
    (hs : isSortedI (b0 :: b1 :: rest) = true) (hst : IFl.lt (IFl.fin 0) (b1 - b0) = true) :
    ∃ h, histogramUI tol (b0 :: b1 :: rest) xs = .ok h ∧ h.length = rest.length + 1 ∧ h.sum ≤ xs.length := by
  obtain ⟨h, e, l, -, q⟩ := histogramUI_count tol b0 b1 rest xs hs hst
  exact ⟨h, e, l, by rw [q]; exact List.countP_le_length⟩

theorem isSortedI_fin (l : List ℚ) (h : l.Pairwise (· ≤ ·)) :
    isSortedI (l.map (IFl.fin (f := f))) = true := by
  induction l with
  | nil => rfl
  | cons a l ih =>
    cases l with
    | nil => rfl
    | cons b l =>
      have h1 := (List.pairwise_cons.1 h).1 b (by simp)
      have h2 := ih (List.pairwise_cons.1 h).2
      show (!Fl.lt (.fin b) (.fin a) && isSortedI ((b :: l).map (IFl.fin (f := f)))) = true
      rw [h2]
      simp [Fl.lt, h1]

theorem Fmt.sub_fin (x y : ℚ) (h : |f.rnd (x - y)| < (2 : ℚ) ^ f.emax) :
    (IFl.fin x - IFl.fin y : IFl f) = IFl.fin (f.rnd (x - y)) := by
  show f.round (Fl.sub (.fin x) (.fin y)) = _
  have : Fl.sub (.fin x) (.fin y) = Fl.fin (x - y) := by
    show Fl.fin (x + -y) = _; rw [sub_eq_add_neg]
  rw [this]
  exact f.ofRat_fin h

/-- The relative position computed for a sample is close to the exact one. -/
theorem pos_err {x b0 s : ℚ} (hx : Finite f x) (hb : Finite f b0) (hs : 0 < s) :
    |f.rnd (f.rnd (x - b0) / s) - (x - b0) / s| ≤ ((1 + f.u) ^ 2 - 1) * |(x - b0) / s| + f.eta := by
  have hg : f.Grid (x - b0) := by
    refine Fmt.Grid.sub ?_ ?_
    · rw [← hx.1]; exact f.rnd_grid x
    · rw [← hb.1]; exact f.rnd_grid b0
  have h1 := f.rnd_err_grid hg
  have h2 := f.rnd_err (f.rnd (x - b0) / s)
  have hu := f.u_nonneg
  set d := x - b0
  set r := f.rnd d
  have h3 : |r / s - d / s| ≤ f.u * |d / s| := by
    rw [← sub_div, abs_div, abs_div, abs_of_pos hs, ← mul_div_assoc]
    exact div_le_div_of_nonneg_right h1 hs.le
  have h4 : |r / s| ≤ (1 + f.u) * |d / s| := by
    have : r / s = (r / s - d / s) + d / s := by ring
    rw [this]
    exact (abs_add_le _ _).trans (by linarith)
  have h5 : f.rnd (r / s) - d / s = (f.rnd (r / s) - r / s) + (r / s - d / s) := by ring
  rw [h5]
  refine (abs_add_le _ _).trans ?_
  have := mul_le_mul_of_nonneg_left h4 hu
  nlinarith

theorem fpEqualI_refl (tol : ℚ) (ht : 0 ≤ tol) (x : ℚ) : fpEqualI tol (IFl.fin x : IFl f) (IFl.fin x) = true := by
  have hz : (IFl.fin x - IFl.fin x : IFl f) = IFl.fin 0 := by
    rw [Fmt.sub_fin x x (by rw [sub_self, f.rnd_zero, abs_zero]; positivity), sub_self, f.rnd_zero]
  unfold fpEqualI
  have h1 : IFl.isNan (IFl.fin x : IFl f) = false := rfl
  have h2 : IFl.isInf (IFl.fin x : IFl f) = false := rfl
  simp only [h1, h2, hz, Bool.false_and, Bool.false_eq_true, if_false]
  have h3 : IFl.max (IFl.abs (IFl.fin x : IFl f)) (IFl.abs (IFl.fin x)) = IFl.fin |x| := by
    unfold IFl.max
    split_ifs <;> rfl
  rw [h3]
  split_ifs
  · show decide (|(0 : ℚ)| ≤ tol) = true
    simpa using ht
  · show Fl.le (.fin |(0 : ℚ)|) (f.ofRat (tol * |x|)) = true
    have hp : 0 ≤ tol * |x| := mul_nonneg ht (abs_nonneg x)
    have hp' := f.rnd_nonneg hp
    unfold Fmt.ofRat
    split_ifs
    · have : ¬ (tol * |x| < 0) := not_lt.2 hp
      simp [Fl.le, this]
    · simp [Fl.le, hp']

theorem Fl.le_of_ofRat {p q : ℚ} (h : p ≤ q) : Fl.le (f.ofRat p) (f.ofRat q) = true := by
  have h1 := f.ofRat_mono h
  unfold Fmt.ofRat at h1 ⊢
  split_ifs at h1 ⊢ with h2 h3 h3
  · by_cases hp : p < 0 <;> by_cases hq : q < 0 <;> simp [Fl.le, Fl.lt, hp, hq] at h1 ⊢
  · by_cases hp : p < 0 <;> simp [Fl.le, Fl.lt, hp] at h1 ⊢
  · by_cases hq : q < 0 <;> simp [Fl.le, Fl.lt, hq] at h1 ⊢
  · simpa [Fl.le, Fl.lt] using h1

theorem Fl.le_div {a b : Fl} (h : Fl.le a b = true) {s : ℚ} (hs : 0 < s) :
    Fl.le (f.round (Fl.div a (.fin s))) (f.round (Fl.div b (.fin s))) = true := by
  have hs' : ¬ (s < 0) := not_lt.2 hs.le
  have hd : ∀ q : ℚ, Fl.div (.fin q) (.fin s) = .fin (q / s) := fun q => Fl.div_fin hs.ne'
  have hi : ∀ c : Bool, Fl.div (.inf c) (.fin s) = .inf c := by
    intro c
    show Fl.inf (c != decide (s < 0)) = _
    simp [hs']
  have hfin : ∀ q : ℚ, Fl.le (.inf true) (f.ofRat q) = true ∧ Fl.le (f.ofRat q) (.inf false) = true := by
    intro q
    unfold Fmt.ofRat
    split_ifs
    · by_cases hq : q < 0 <;> simp [Fl.le, hq]
    · simp [Fl.le]
  cases a with
  | nan => simp [Fl.le] at h
  | inf c =>
    cases b with
    | nan => cases c <;> simp [Fl.le] at h
    | inf d => rw [hi, hi]; exact h
    | fin q =>
      rw [hi, hd]
      cases c
      · simp [Fl.le] at h
      · exact (hfin _).1
  | fin p =>
    cases b with
    | nan => simp [Fl.le] at h
    | inf d =>
      rw [hi, hd]
      cases d
      · exact (hfin _).2
      · simp [Fl.le] at h
    | fin q =>
      rw [hd, hd]
      refine Fl.le_of_ofRat (div_le_div_of_nonneg_right ?_ hs.le)
      simpa [Fl.le] using h

theorem idxUI_mono (tol : ℚ) (b0 s : ℚ) (back : IFl f) (n : ℕ) (hn : 1 ≤ n) (hs : 0 < s) {x y : ℚ} (hxy : x ≤ y)
    {i j : ℕ} (hi : idxUI tol (IFl.fin b0) back (IFl.fin s) n (IFl.fin x) = some i)
    (hj : idxUI tol (IFl.fin b0) back (IFl.fin s) n (IFl.fin y) = some j) : i ≤ j := by
  have hin := idxUI_lt tol _ _ _ n hn _ _ hi
  have hsub : ∀ z : ℚ, (IFl.fin z - IFl.fin b0 : IFl f) = f.ofRat (z - b0) := by
    intro z
    show f.ofRat (z + -b0) = _
    rw [sub_eq_add_neg]
  have hpos : Fl.le ((IFl.fin x - IFl.fin b0) / IFl.fin s : IFl f) ((IFl.fin y - IFl.fin b0) / IFl.fin s : IFl f)
      = true := by
    rw [hsub, hsub]
    exact Fl.le_div (Fl.le_of_ofRat (by linarith)) hs
  unfold idxUI at hi hj
  generalize ((IFl.fin x - IFl.fin b0) / IFl.fin s : IFl f) = px at hpos hi
  generalize ((IFl.fin y - IFl.fin b0) / IFl.fin s : IFl f) = py at hpos hj
  simp only at hi hj
  by_cases h1 : IFl.le ((n : ℕ) : IFl f) px = true
  · have h2 : IFl.le ((n : ℕ) : IFl f) py = true := Fl.le_trans' h1 hpos
    rw [if_pos h1] at hi
    rw [if_pos h2] at hj
    split_ifs at hi hj
    simp only [Option.some.injEq] at hi hj
    omega
  · rw [if_neg h1] at hi
    by_cases h2 : IFl.le ((n : ℕ) : IFl f) py = true
    · rw [if_pos h2] at hj
      split_ifs at hj
      simp only [Option.some.injEq] at hj
      omega
    · rw [if_neg h2] at hj
      cases px using Fl.casesOn with
      | nan => simp at hi
      | inf b => simp at hi
      | fin p =>
        cases py using Fl.casesOn with
        | nan => simp at hj
        | inf b => simp at hj
        | fin q =>
          simp only at hi hj
          split_ifs at hi hj
          simp only [Option.some.injEq] at hi hj
          rw [← hi, ← hj]
          refine Nat.floor_mono ?_
          simpa [Fl.le] using hpos

/-- C111: for finite sorted bins `b0, b1, ...` whose first step `s = fl(b1 - b0)` is positive (fewer than
`2^(p)` bins for a `p`-bit significand), the histogram counts each sample `x` in one place `w x`:
NaN and `-∞` nowhere; a finite `x` whose computed position `p = fl(fl(x - b0) / s)` is smaller than the number
`n` of bins in bin `⌊p⌋` if `p ≥ 0` and nowhere otherwise; one whose position is `n` or more in the last bin or
nowhere, and in the last bin if it is the last edge.
Larger samples are never counted in smaller bins; a sample counted in bin `i` has its exact position
`t = (x - b0) / s` between `i` and `i + 1` up to the relative error `(1+u)^2 - 1` and half the smallest positive
number; a sample of exact position in `[0, n)`, up to that error, is counted. -/
theorem C111_bins_partial (hf : StdFmt f) (tol : ℚ) (ht : 0 ≤ tol) (b0 b1 : ℚ) (rest : List ℚ) (xs : List (IFl f))
    (hb : Finite f b0) (hsort : (b0 :: b1 :: rest).Pairwise (· ≤ ·))
    (hs0 : 0 < f.rnd (b1 - b0)) (hs1 : f.rnd (b1 - b0) < (2 : ℚ) ^ f.emax)
    (hn : rest.length + 1 < 2 ^ (f.frac + 1)) :
    let n := rest.length + 1
    let s := f.rnd (b1 - b0)
    let ε := (1 + f.u) ^ 2 - 1
    ∃ (w : IFl f → Option ℕ) (h : List ℕ),
      histogramUI tol ((b0 :: b1 :: rest).map IFl.fin) xs = .ok h ∧ h.length = n ∧
      (∀ i, i < n → h[i]? = some (xs.countP fun x => w x == some i)) ∧
      w IFl.nan = none ∧ w (IFl.inf true) = none ∧
      (∀ x : ℚ, |f.rnd (x - b0)| < (2 : ℚ) ^ f.emax →
        let p := f.rnd (f.rnd (x - b0) / s)
        (p < n → w (IFl.fin x) = if 0 ≤ p then some ⌊p⌋₊ else none) ∧
        ((n : ℚ) ≤ p → (w (IFl.fin x) = some (n - 1) ∨ w (IFl.fin x) = none) ∧
          ((b1 :: rest).getLast? = some x → w (IFl.fin x) = some (n - 1)))) ∧
      (∀ (x y : ℚ) (i j : ℕ), x ≤ y → w (IFl.fin x) = some i → w (IFl.fin y) = some j → i ≤ j) ∧
      (∀ (x : ℚ) (i : ℕ), Finite f x → |f.rnd (x - b0)| < (2 : ℚ) ^ f.emax → i + 1 < n →
        w (IFl.fin x) = some i →
        (i : ℚ) ≤ (x - b0) / s + ε * |(x - b0) / s| + f.eta ∧
        (x - b0) / s - ε * |(x - b0) / s| - f.eta < i + 1) ∧
      (∀ x : ℚ, Finite f x → |f.rnd (x - b0)| < (2 : ℚ) ^ f.emax → b0 ≤ x →
        (x - b0) / s + ε * |(x - b0) / s| + f.eta < n → (w (IFl.fin x)).isSome) := by
  intro n s ε
  have hnr : f.rnd (n : ℚ) = n := f.rnd_nat n hn (by have := hf.low; omega)
  have hnlt : (n : ℚ) < (2 : ℚ) ^ f.emax := by
    have h1 : (n : ℚ) < (2 : ℚ) ^ (f.frac + 1) := by exact_mod_cast hn
    refine h1.trans_le ?_
    rw [← zpow_natCast]
    refine zpow_le_zpow_right₀ (by norm_num) ?_
    have := hf.high
    push_cast
    exact this
  have hnI : ((n : ℕ) : IFl f) = IFl.fin (n : ℚ) := by
    show f.ofRat (n : ℚ) = _
    rw [f.ofRat_fin (by rw [hnr, abs_of_nonneg (Nat.cast_nonneg n)]; exact hnlt), hnr]
    rfl
  have hstepI : (IFl.fin b1 - IFl.fin b0 : IFl f) = IFl.fin s :=
    Fmt.sub_fin b1 b0 (by rw [abs_of_pos hs0]; exact hs1)
  set back : IFl f := ((b1 :: rest).map (IFl.fin (f := f))).getLast (by simp) with hback
  obtain ⟨h, e, l, p, -⟩ := histogramUI_count tol (IFl.fin b0 : IFl f) (IFl.fin b1) (rest.map IFl.fin) xs
    (by simpa using isSortedI_fin (f := f) _ hsort)
    (by rw [hstepI]; show decide ((0 : ℚ) < s) = true; simpa using hs0)
  rw [hstepI] at p
  simp only [List.length_map] at p l
  have hw : ∀ x : ℚ, |f.rnd (x - b0)| < (2 : ℚ) ^ f.emax →
      ((IFl.fin x - IFl.fin b0) / IFl.fin s : IFl f) = f.ofRat (f.rnd (x - b0) / s) := by
    intro x hx
    rw [Fmt.sub_fin x b0 hx]
    show f.round (Fl.div (.fin _) (.fin s)) = _
    have : Fl.div (.fin (f.rnd (x - b0))) (.fin s) = Fl.fin (f.rnd (x - b0) / s) := Fl.div_fin hs0.ne'
    rw [this]
    rfl
  have hexact : ∀ x : ℚ, |f.rnd (x - b0)| < (2 : ℚ) ^ f.emax →
        let p := f.rnd (f.rnd (x - b0) / s)
        (p < n → idxUI tol (IFl.fin b0) back (IFl.fin s) n (IFl.fin x) =
            if 0 ≤ p then some ⌊p⌋₊ else none) ∧
        ((n : ℚ) ≤ p → (idxUI tol (IFl.fin b0) back (IFl.fin s) n (IFl.fin x) =
            if fpEqualI tol (IFl.fin x) back then some (n - 1) else none)) := by
    intro x hx p
    unfold idxUI
    rw [hw x hx, hnI]
    constructor
    · intro hp
      by_cases hov : (2 : ℚ) ^ f.emax ≤ |p|
      · have hneg : p < 0 := by
          by_contra hc
          rw [abs_of_nonneg (not_lt.1 hc)] at hov
          linarith
        have hq : f.rnd (x - b0) / s < 0 := by
          by_contra hc
          have := f.rnd_nonneg (not_lt.1 hc)
          exact absurd hneg (not_lt.2 this)
        have : f.ofRat (f.rnd (x - b0) / s) = .inf true := by
          unfold Fmt.ofRat
          rw [if_pos hov]
          simp [hq]
        rw [this, if_neg (not_le.2 hneg)]
        rfl
      · have : f.ofRat (f.rnd (x - b0) / s) = .fin p := f.ofRat_fin (not_le.1 hov)
        rw [this]
        have hle : IFl.le (IFl.fin (n : ℚ) : IFl f) (Fl.fin p) = false := by
          show decide ((n : ℚ) ≤ p) = false
          simpa using hp
        simp only [hle, Bool.false_eq_true, if_false]
    · intro hp
      have hle : IFl.le (IFl.fin (n : ℚ) : IFl f) (f.ofRat (f.rnd (x - b0) / s)) = true := by
        show Fl.le (.fin (n : ℚ)) (f.ofRat (f.rnd (x - b0) / s)) = true
        have hpos : 0 ≤ p := (Nat.cast_nonneg n).trans hp
        unfold Fmt.ofRat
        split_ifs with hov
        · have : ¬ (f.rnd (x - b0) / s < 0) := by
            intro hc
            have h2 : f.rnd (f.rnd (x - b0) / s) ≤ 0 := by
              have := f.rnd_mono hc.le
              rwa [f.rnd_zero] at this
            have h3 : p = 0 := le_antisymm h2 hpos
            have h4 : (2 : ℚ) ^ f.emax ≤ |p| := hov
            rw [h3, abs_zero] at h4
            exact absurd h4 (not_le.2 (by positivity))
          simp [Fl.le, this]
        · show decide ((n : ℚ) ≤ p) = true
          simpa using hp
      simp only [hle, if_true]
  refine ⟨idxUI tol (IFl.fin b0) back (IFl.fin s) n, h, by simpa using e, l, p, ?_, ?_, ?_, ?_, ?_, ?_⟩
  · unfold idxUI
    rw [hnI]
    rfl
  · unfold idxUI
    rw [hnI]
    have hs' : ¬ (s < 0) := not_lt.2 hs0.le
    have : ((IFl.inf true - IFl.fin b0) / IFl.fin s : IFl f) = Fl.inf true := by
      show f.round (Fl.inf (true != decide (s < 0))) = _
      simp [hs', Fmt.round]
    rw [this]
    rfl
  · intro x hx p
    obtain ⟨h1, h2⟩ := hexact x hx
    refine ⟨h1, fun hp => ?_⟩
    rw [h2 hp]
    refine ⟨by split_ifs <;> simp, fun hlast => ?_⟩
    have : back = IFl.fin x := by
      rw [hback, List.getLast_map]
      rw [List.getLast?_eq_some_getLast (by simp)] at hlast
      rw [Option.some.injEq] at hlast
      rw [hlast]
    rw [this, fpEqualI_refl tol ht x, if_pos rfl]
  · intro x y i j hxy hi hj
    exact idxUI_mono tol b0 s back n (by omega) hs0 hxy hi hj
  · intro x i hx hov hin hi
    obtain ⟨h1, h2⟩ := hexact x hov
    have herr := abs_le.1 (pos_err hx hb hs0)
    by_cases hp : f.rnd (f.rnd (x - b0) / s) < n
    · rw [h1 hp] at hi
      split_ifs at hi with h0
      simp only [Option.some.injEq] at hi
      have h3 := Nat.floor_le h0
      have h4 := Nat.lt_floor_add_one (f.rnd (f.rnd (x - b0) / s))
      rw [hi] at h3 h4
      exact ⟨by linarith [herr.2], by linarith [herr.1]⟩
    · rw [h2 (not_lt.1 hp)] at hi
      split_ifs at hi
      simp only [Option.some.injEq] at hi
      omega
  · intro x hx hov h0 hlt
    obtain ⟨h1, -⟩ := hexact x hov
    have herr := abs_le.1 (pos_err hx hb hs0)
    have hp : f.rnd (f.rnd (x - b0) / s) < n := by linarith [herr.2]
    have hp0 : 0 ≤ f.rnd (f.rnd (x - b0) / s) :=
      f.rnd_nonneg (div_nonneg (f.rnd_nonneg (by linarith)) hs0.le)
    rw [h1 hp, if_pos hp0]
    rfl

/-- C111 (samples inside the range are lost): `histogram(x, 10)` of the fifteen consecutive numbers
`2^52, 2^52 + 1, ..., 2^52 + 14` counts only eleven of them.  The computed step, the difference of the first two
rounded edges, is 1 instead of 1.4, so that the samples from `2^52 + 10` to `2^52 + 13` get a position of 10 or
more and are not the last edge. -/
theorem C111_lost_false :
    ∃ bins, histogramAutoI (f := binary64) tol64 ((List.range 15).map fun i : ℕ => IFl.fin (2 ^ 52 + i)) 10
      = .ok ([1, 1, 1, 1, 1, 1, 1, 1, 1, 2], bins) ∧
      bins.head? = some (IFl.fin (2 ^ 52)) ∧ bins.getLast? = some (IFl.fin (2 ^ 52 + 14)) :=
  ⟨linspace (IFl.fin (2 ^ 52)) (IFl.fin (2 ^ 52 + 14)) 11, by decide +kernel, by decide +kernel, by decide +kernel⟩

/-- C111 (overflow): with bins `{-M, 0, M}` (`M` the largest `double`) the sample `2^1022` is not counted, because
its distance to the first edge is infinite; `+∞` is counted. -/
theorem C111_overflow_false :
    histogramUI (f := binary64) tol64 [IFl.fin (-(2 ^ 1024 - 2 ^ 971)), IFl.fin 0, IFl.fin (2 ^ 1024 - 2 ^ 971)]
      [IFl.fin (2 ^ 1022)] = .ok [0, 0] ∧
    histogramUI (f := binary64) tol64 [IFl.fin (-(2 ^ 1024 - 2 ^ 971)), IFl.fin 0, IFl.fin (2 ^ 1024 - 2 ^ 971)]
      [IFl.inf false] = .ok [0, 1] := by
  constructor <;> decide +kernel

/-- C111 (underflow): with bins `{0, 2, 4}` the negative sample `-2^-1074` is counted in the first bin. -/
theorem C111_below_false :
    histogramUI (f := binary64) tol64 [IFl.fin 0, IFl.fin 2, IFl.fin 4] [IFl.fin (-(1 / 2 ^ 1074))]
      = .ok [1, 0] := by decide +kernel

/-- The hypotheses of `C111_bins_partial` are met by the `double` edges 1, 1.5, 2, 2.5. -/
example : StdFmt binary64 ∧ Finite binary64 1 ∧ ([1, 3 / 2, 2, 5 / 2] : List ℚ).Pairwise (· ≤ ·) ∧
    0 < binary64.rnd (3 / 2 - 1) ∧ binary64.rnd (3 / 2 - 1) < (2 : ℚ) ^ binary64.emax ∧
    [2, (5 / 2 : ℚ)].length + 1 < 2 ^ (binary64.frac + 1) := by
  refine ⟨⟨by decide, by decide⟩, ?_, by decide +kernel, by decide +kernel, by decide +kernel, by decide⟩
  unfold Spec.Finite
  decide +kernel

/-! ## Densities -/

/-- One bar of the density. -/
theorem density_bar {rnd : ℚ → ℚ} {u : ℚ} (hu : 0 ≤ u) (hu1 : u < 1) (hr : ∀ x, |rnd x - x| ≤ u * |x|)
    {x N h : ℚ} (hx : 0 < x) (hN : 0 < N) (hh : 0 ≤ h) :
    |rnd (h / rnd (N * rnd x)) * x - h / N| ≤ ((1 + u) / (1 - u) ^ 2 - 1) * (h / N) := by
  have hb : ∀ y, 0 ≤ y → (1 - u) * y ≤ rnd y ∧ rnd y ≤ (1 + u) * y := by
    intro y hy
    have := abs_le.1 (hr y)
    rw [abs_of_nonneg hy] at this
    exact ⟨by linarith [this.1], by linarith [this.2]⟩
  have h1u : 0 < 1 - u := by linarith
  obtain ⟨w1, w2⟩ := hb x hx.le
  set w := rnd x
  have hw : 0 < w := lt_of_lt_of_le (mul_pos h1u hx) w1
  obtain ⟨m1, m2⟩ := hb (N * w) (mul_pos hN hw).le
  set m := rnd (N * w)
  have hm : 0 < m := lt_of_lt_of_le (mul_pos h1u (mul_pos hN hw)) m1
  obtain ⟨d1, d2⟩ := hb (h / m) (div_nonneg hh hm.le)
  set d := rnd (h / m)
  have hNx : 0 < N * x := mul_pos hN hx
  have hm1 : (1 - u) ^ 2 * (N * x) ≤ m := by
    refine le_trans ?_ m1
    have : N * ((1 - u) * x) ≤ N * w := mul_le_mul_of_nonneg_left w1 hN.le
    have := mul_le_mul_of_nonneg_left this h1u.le
    nlinarith
  have hm2 : m ≤ (1 + u) ^ 2 * (N * x) := by
    refine m2.trans ?_
    have : N * w ≤ N * ((1 + u) * x) := mul_le_mul_of_nonneg_left w2 hN.le
    have := mul_le_mul_of_nonneg_left this (show 0 ≤ 1 + u by linarith)
    nlinarith
  have hq : 0 ≤ h / N := div_nonneg hh hN.le
  have up : d * x ≤ (1 + u) / (1 - u) ^ 2 * (h / N) := by
    have h3 : h / m ≤ h / ((1 - u) ^ 2 * (N * x)) :=
      div_le_div_of_nonneg_left hh (mul_pos (pow_pos h1u 2) hNx) hm1
    calc d * x ≤ (1 + u) * (h / ((1 - u) ^ 2 * (N * x))) * x :=
          mul_le_mul_of_nonneg_right (d2.trans (mul_le_mul_of_nonneg_left h3 (by linarith))) hx.le
      _ = (1 + u) / (1 - u) ^ 2 * (h / N) := by field_simp
  have lo : (1 - u) / (1 + u) ^ 2 * (h / N) ≤ d * x := by
    have h3 : h / ((1 + u) ^ 2 * (N * x)) ≤ h / m := div_le_div_of_nonneg_left hh hm hm2
    calc (1 - u) / (1 + u) ^ 2 * (h / N) = (1 - u) * (h / ((1 + u) ^ 2 * (N * x))) * x := by field_simp
      _ ≤ d * x := mul_le_mul_of_nonneg_right ((mul_le_mul_of_nonneg_left h3 h1u.le).trans d1) hx.le
  have hab : 2 ≤ (1 + u) / (1 - u) ^ 2 + (1 - u) / (1 + u) ^ 2 := by
    have h1 : 0 < (1 - u) ^ 2 := pow_pos h1u 2
    have h2 : 0 < (1 + u) ^ 2 := by positivity
    rw [div_add_div _ _ h1.ne' h2.ne', le_div_iff₀ (mul_pos h1 h2)]
    have e : (1 + u) * (1 + u) ^ 2 + (1 - u) ^ 2 * (1 - u) - 2 * ((1 - u) ^ 2 * (1 + u) ^ 2)
        = 10 * u ^ 2 - 2 * u ^ 4 := by ring
    have h4 : u ^ 4 ≤ u ^ 2 := pow_le_pow_of_le_one hu hu1.le (by norm_num)
    nlinarith [sq_nonneg u]
  rw [abs_le]
  constructor
  · have := mul_le_mul_of_nonneg_right hab hq
    linarith
  · linarith

/-- C111: the density bars have the right areas up to a few roundings, and their areas sum to 1 up to the same
relative error: for strictly increasing bins and `N` counted samples (`0 < N < 2^31`, and the counts exactly
representable). -/
theorem C111_density {rnd : ℚ → ℚ} {u : ℚ} (hu : 0 ≤ u) (hu1 : u < 1) (hr : ∀ x, |rnd x - x| ≤ u * |x|)
    (hist : List ℕ) (bins : List ℚ) (hl : bins.length = hist.length + 1) (hb : bins.Pairwise (· < ·))
    (hN : 0 < hist.sum) (hN' : hist.sum < 2 ^ 31) (hint : ∀ k : ℕ, k ≤ hist.sum → rnd k = k) :
    let γ := (1 + u) / (1 - u) ^ 2 - 1
    ∃ d, densityF rnd hist bins = .ok d ∧ d.length = hist.length ∧
      (∀ i, i < hist.length → |d.getD i 0 * (bins.getD (i + 1) 0 - bins.getD i 0) - hist.getD i 0 / hist.sum|
        ≤ γ * (hist.getD i 0 / hist.sum)) ∧
      |∑ i ∈ Finset.range hist.length, d.getD i 0 * (bins.getD (i + 1) 0 - bins.getD i 0) - 1| ≤ γ := by
  intro γ
  have hI : toI32 (hist.sum : ℤ) = hist.sum := by
    unfold toI32
    rw [Int.bmod_eq_of_le] <;> omega
  have hbar : ∀ i, i < hist.length → ∃ q, (List.zipWith (fun (h : ℕ) (d : ℚ) => rnd (rnd h / d)) hist
      ((List.zipWith (fun a b => rnd (b - a)) bins bins.tail).map fun d => rnd (rnd (hist.sum : ℕ) * d)))[i]?
        = some q ∧ |q * (bins.getD (i + 1) 0 - bins.getD i 0) - hist.getD i 0 / hist.sum|
        ≤ γ * (hist.getD i 0 / hist.sum) := by
    intro i hi
    have h1 : i < bins.length := by omega
    have h2 : i + 1 < bins.length := by omega
    have hd : (List.zipWith (fun a b => rnd (b - a)) bins bins.tail)[i]? = some (rnd (bins[i + 1] - bins[i])) := by
      rw [List.getElem?_zipWith, List.getElem?_tail, List.getElem?_eq_getElem h1, List.getElem?_eq_getElem h2]
    refine ⟨rnd (rnd (hist[i] : ℕ) / rnd (rnd (hist.sum : ℕ) * rnd (bins[i + 1] - bins[i]))), ?_, ?_⟩
    · rw [List.getElem?_zipWith, List.getElem?_map, hd, List.getElem?_eq_getElem hi]
      rfl
    · have hle : hist[i] ≤ hist.sum := List.le_sum_of_mem (List.getElem_mem hi)
      rw [hint _ hle, hint _ le_rfl, List.getD_eq_getElem _ _ h1, List.getD_eq_getElem _ _ h2,
        List.getD_eq_getElem _ _ hi]
      refine density_bar hu hu1 hr ?_ (by exact_mod_cast hN) (Nat.cast_nonneg _)
      have := List.pairwise_iff_getElem.1 hb i (i + 1) h1 h2 (by omega)
      linarith
  refine ⟨List.zipWith (fun (h : ℕ) (d : ℚ) => rnd (rnd h / d)) hist
      ((List.zipWith (fun a b => rnd (b - a)) bins bins.tail).map fun d => rnd (rnd (hist.sum : ℕ) * d)),
      ?_, ?_, ?_, ?_⟩
  · unfold densityF
    simp only [hI]
    exact map2_eq _ _ _ (by simp [hl])
  · simp [hl]
  · intro i hi
    obtain ⟨q, h1, h2⟩ := hbar i hi
    rw [show ∀ l : List ℚ, l.getD i 0 = l[i]?.getD 0 from fun l => List.getD_eq_getElem?_getD, h1]
    exact h2
  · have hNq : (0 : ℚ) < hist.sum := by exact_mod_cast hN
    have hsum : ∑ i ∈ Finset.range hist.length, ((hist.getD i 0 : ℕ) : ℚ) / hist.sum = 1 := by
      rw [← Finset.sum_div, ← Nat.cast_sum, sum_range_getD, div_self hNq.ne']
    rw [← hsum, ← Finset.sum_sub_distrib]
    refine (Finset.abs_sum_le_sum_abs _ _).trans ?_
    have : γ = ∑ i ∈ Finset.range hist.length, γ * (((hist.getD i 0 : ℕ) : ℚ) / hist.sum) := by
      rw [← Finset.mul_sum, hsum, mul_one]
    rw [this]
    refine Finset.sum_le_sum fun i hi => ?_
    obtain ⟨q, h1, h2⟩ := hbar i (Finset.mem_range.1 hi)
    rw [show ∀ l : List ℚ, l.getD i 0 = l[i]?.getD 0 from fun l => List.getD_eq_getElem?_getD, h1]
    exact h2

/-- The hypotheses of `C111_density` are met in `double` by the counts 2, 0, 3 over 0, 1/2, 1, 3. -/
example : (∀ x, |rnd64 x - x| ≤ 1 / 2 ^ 53 * |x|) ∧ ([0, 1 / 2, 1, 3] : List ℚ).Pairwise (· < ·) ∧
    0 < [2, 0, 3].sum ∧ ∀ k : ℕ, k ≤ [2, 0, 3].sum → rnd64 k = k := by
  refine ⟨rnd64_err, by decide +kernel, by decide, fun k hk => rnd64_nat k ?_⟩
  simp at hk
  omega

end SciCpp
