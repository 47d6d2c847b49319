import Verif.Model.TrimStats
import Verif.Spec.Blocks
import Verif.Props.Cov
import Verif.Props.Stats
/-
  Property theorems C19 (exact extent) and C87: NaN-ignoring and trimmed statistics.
-/
set_option linter.unusedSectionVars false
namespace SciCpp
open Spec

section exact
variable {K : Type*} [Field K] [StarRing K] [DecidableEq K] [CharZero K]

instance : NeZero (64 : ℕ) := ⟨by decide⟩

/-- Every block of the pairwise recursion contains an accepted element. -/
def blocksHit (p : Ex K → Bool) (l : List (Ex K)) : Prop := ∀ b ∈ blocks 64 l, ∃ x ∈ b, p x = true

theorem blocksHit_short (p : Ex K → Bool) (l : List (Ex K)) (h : l.length ≤ 64) :
    blocksHit p l ↔ ∃ x ∈ l, p x = true := by
  unfold blocksHit blocks
  rw [if_pos h]; simp

theorem blocksHit_long (p : Ex K → Bool) (l : List (Ex K)) (h : 64 < l.length) :
    blocksHit p l ↔ blocksHit p (l.take (l.length / 2)) ∧ blocksHit p (l.drop (l.length / 2)) := by
  unfold blocksHit
  rw [blocks, if_neg (by omega)]
  simp only [List.mem_append, or_imp, forall_and]

theorem blocksHit_exists (p : Ex K → Bool) (l : List (Ex K)) (h : blocksHit p l) :
    ∃ x ∈ l, p x = true := by
  have hne : blocks 64 l ≠ [] := by
    intro he
    have hl := blocks_flatten 64 l
    rw [he] at hl
    have : l = [] := by simpa using hl.symm
    subst this
    unfold blocks at he
    simp at he
  obtain ⟨b, hb⟩ := List.exists_mem_of_ne_nil _ hne
  obtain ⟨x, hx, hp⟩ := h b hb
  exact ⟨x, by rw [← blocks_flatten 64 l]; exact List.mem_flatten.mpr ⟨b, hb, hx⟩, hp⟩

theorem goodPairs_zip_mem {p : Ex K → Bool} {l1 l2 : List (Ex K)} (h : goodPairs p l1 l2)
    {x : Ex K} (hx : x ∈ l1) (hp : p x = true) : pairsOf p l1 l2 ≠ [] := by
  intro he
  have := (acceptedPairs_pairsOf p l1 l2 h).2.1
  rw [he] at this
  have h1 : x ∈ l1.filter p := List.mem_filter.mpr ⟨hx, hp⟩
  rw [this] at h1
  simp at h1

theorem goodPairs_count {p : Ex K → Bool} {l1 l2 : List (Ex K)} (h : goodPairs p l1 l2) :
    ∀ (m1 m2 r : Ex K) (c : ℕ), ∃ r', covLoop p m1 m2 r c l1 l2 = .ok (r', c + (l1.filter p).length) := by
  obtain ⟨hl, h⟩ := h
  induction l1 generalizing l2 with
  | nil => intro m1 m2 r c; exact ⟨r, rfl⟩
  | cons x l1 ih =>
    rcases l2 with _ | ⟨y, l2⟩
    · simp at hl
    · intro m1 m2 r c
      obtain ⟨hxy, -⟩ := h (x, y) (by simp)
      simp only at hxy
      have h' := ih (by simpa using hl)
        (fun xy hz => h xy (by rw [List.zip_cons_cons]; exact List.mem_cons_of_mem _ hz)) m1 m2
      rw [covLoop, ← hxy]
      cases hp : p x
      · simp only [Bool.and_self, Bool.false_eq_true, if_false]
        obtain ⟨r', e⟩ := h' r c
        exact ⟨r', by rw [e, List.filter_cons]; simp [hp]⟩
      · simp only [Bool.and_self, if_true]
        obtain ⟨r', e⟩ := h' (r + (x - m1) * CppNum.conj (y - m2)) (c + 1)
        exact ⟨r', by rw [e, List.filter_cons]; simp [hp]; omega⟩

theorem goodPairs_filter_length {p : Ex K → Bool} {l1 l2 : List (Ex K)} (h : goodPairs p l1 l2) :
    (l1.filter p).length = (pairsOf p l1 l2).length := by
  rw [(acceptedPairs_pairsOf p l1 l2 h).2.1, List.length_map]

/-- The accumulated state of the whole recursion, in every case. -/
theorem cov_pairwise_exact (p : Ex K → Bool) (l1 l2 : List (Ex K)) (h : goodPairs p l1 l2)
    (hlen : (pairsOf p l1 l2).length < 2 ^ 31) :
    (blocksHit p l1 →
      pairwiseAcc2 pwBlock (covBlock p) covCombine l1 l2 = .ok (covAcc (pairsOf p l1 l2))) ∧
    (¬ blocksHit p l1 → ∃ r : Ex K, pairwiseAcc2 pwBlock (covBlock p) covCombine l1 l2
        = .ok (Ex.nan, Ex.nan, r, (pairsOf p l1 l2).length) ∧ (64 < l1.length → r = Ex.nan)) := by
  induction hn : l1.length using Nat.strong_induction_on generalizing l1 l2 with
  | _ n ih =>
    by_cases hc : l1.length ≤ 64
    · have hu : pairwiseAcc2 pwBlock (covBlock p) covCombine l1 l2 = covBlock p l1 l2 := by
        unfold pairwiseAcc2
        rw [if_neg (by simp [h.1]), if_pos hc]
      rw [hu, blocksHit_short p l1 hc]
      constructor
      · rintro ⟨x, hx, hp⟩
        exact covBlock_eq p l1 l2 _ (acceptedPairs_pairsOf p l1 l2 h) (goodPairs_zip_mem h hx hp) hlen
      · intro hno
        have hf : l1.filter p = [] := by
          rw [List.filter_eq_nil_iff]; intro a ha hpa; exact hno ⟨a, ha, hpa⟩
        have hz : pairsOf p l1 l2 = [] := by
          have := goodPairs_filter_length h
          rw [hf] at this
          exact List.length_eq_zero_iff.mp this.symm
        have hf2 : l2.filter p = [] := by
          have := (acceptedPairs_pairsOf p l1 l2 h).2.2.1
          rw [hz] at this; simpa using this
        obtain ⟨r', e⟩ := goodPairs_count h (mean l1 p) (mean l2 p) 0 0
        refine ⟨r', ?_, fun hh => by omega⟩
        rw [mean_ex_empty l1 p hf, mean_ex_empty l2 p hf2] at e
        unfold covBlock
        simp only [mean_ex_empty l1 p hf, mean_ex_empty l2 p hf2, e, Res.bind_ok, Res.pure_eq, hz, hf]
        rfl
    · have hc' : 64 < l1.length := by omega
      have hsplit := pairsOf_split p l1 l2 (l1.length / 2)
      have hll := congrArg List.length hsplit
      rw [List.length_append] at hll
      obtain ⟨g1, b1⟩ := ih _ (by simp; omega) (l1.take (l1.length / 2)) (l2.take (l1.length / 2))
        (goodPairs_take h _) (by omega) rfl
      obtain ⟨g2, b2⟩ := ih _ (by simp; omega) (l1.drop (l1.length / 2)) (l2.drop (l1.length / 2))
        (goodPairs_drop h _) (by omega) rfl
      have hu : pairwiseAcc2 pwBlock (covBlock p) covCombine l1 l2 =
          ((pairwiseAcc2 pwBlock (covBlock p) covCombine (l1.take (l1.length / 2)) (l2.take (l1.length / 2))).bind
            fun r1 => (pairwiseAcc2 pwBlock (covBlock p) covCombine (l1.drop (l1.length / 2))
              (l2.drop (l1.length / 2))).bind fun r2 => .ok (covCombine r1 r2)) := by
        conv_lhs => unfold pairwiseAcc2
        rw [if_neg (by simp [h.1]), if_neg hc]; rfl
      have ne : ∀ m1 m2 : List (Ex K), goodPairs p m1 m2 → blocksHit p m1 → pairsOf p m1 m2 ≠ [] := by
        intro m1 m2 hg hb
        obtain ⟨x, hx, hp⟩ := blocksHit_exists p m1 hb
        exact goodPairs_zip_mem hg hx hp
      rw [hu, blocksHit_long p l1 hc']
      refine ⟨fun ⟨h1, h2⟩ => ?_, fun hb => ?_⟩
      · rw [g1 h1, g2 h2]
        show Res.ok (covCombine _ _) = _
        rw [covCombine_eq _ _ (ne _ _ (goodPairs_take h _) h1) (ne _ _ (goodPairs_drop h _) h2) (by omega),
          ← hsplit]
      · refine ⟨Ex.nan, ?_, fun _ => rfl⟩
        by_cases h1 : blocksHit p (l1.take (l1.length / 2))
        · have h2 : ¬ blocksHit p (l1.drop (l1.length / 2)) := fun h2 => hb ⟨h1, h2⟩
          obtain ⟨r2, e2, -⟩ := b2 h2
          rw [g1 h1, e2]
          show Res.ok (covCombine _ _) = _
          simp only [covCombine, covAcc, Ex.mul_nan, Ex.add_nan, Ex.sub_nan, Ex.conj_nan, hll]
        · obtain ⟨r1, e1, -⟩ := b1 h1
          by_cases h2 : blocksHit p (l1.drop (l1.length / 2))
          · rw [g2 h2, e1]
            show Res.ok (covCombine _ _) = _
            simp only [covCombine, covAcc, Ex.mul_nan, Ex.add_nan, Ex.nan_add, Ex.nan_sub, Ex.conj_nan, hll]
          · obtain ⟨r2, e2, -⟩ := b2 h2
            rw [e2, e1]
            show Res.ok (covCombine _ _) = _
            simp only [covCombine, Ex.mul_nan, Ex.add_nan, Ex.nan_sub, Ex.conj_nan, hll]

/-- C19/C18, exact: two ranges of the same length whose filters agree at every position, the accepted
pairs being the finite pairs `s`.  The filtered covariance is the covariance of the accepted pairs when
every block of the pairwise recursion has an accepted pair, and NaN when some block has none. -/
theorem C19_filtered_covariance_exact (ddof : ℤ) (l1 l2 : List (Ex K)) (p : Ex K → Bool)
    (s : List (K × K)) (hl : l1.length = l2.length) (hp : ∀ xy ∈ l1.zip l2, p xy.1 = p xy.2)
    (hs : (l1.zip l2).filter (fun xy => p xy.1) = s.map fun ab => (Ex.fin ab.1, Ex.fin ab.2))
    (hne : s ≠ []) (hlen : s.length < 2 ^ 31) (hd : ddof < s.length) :
    ((∀ b ∈ blocks 64 l1, ∃ x ∈ b, p x = true) →
      covarianceF ddof l1 l2 p = .ok (Ex.fin (covL ddof s), s.length)) ∧
    ((∃ b ∈ blocks 64 l1, ∀ x ∈ b, p x = false) →
      covarianceF ddof l1 l2 p = .ok (Ex.nan, s.length)) := by
  have hg : goodPairs p l1 l2 := by
    refine ⟨hl, fun xy hxy => ⟨hp xy hxy, fun h => ?_⟩⟩
    have : xy ∈ (l1.zip l2).filter fun xy => p xy.1 := List.mem_filter.mpr ⟨hxy, h⟩
    rw [hs] at this
    obtain ⟨ab, -, rfl⟩ := List.mem_map.mp this
    exact ⟨_, _, rfl⟩
  have hpo : pairsOf p l1 l2 = s := by
    unfold pairsOf
    generalize l1.zip l2 = z at hs hp
    clear hg hl hne hlen hd
    induction z generalizing s with
    | nil => cases s with
      | nil => rfl
      | cons _ _ => simp at hs
    | cons xy z ih =>
      obtain ⟨x, y⟩ := xy
      have hxy := hp (x, y) (by simp)
      simp only at hxy
      rw [List.filter_cons] at hs
      by_cases hpx : p x = true
      · simp only [hpx, if_true] at hs
        rcases s with _ | ⟨⟨a, b⟩, s⟩
        · simp at hs
        · simp only [List.map_cons, List.cons.injEq, Prod.mk.injEq] at hs
          obtain ⟨⟨rfl, rfl⟩, hs⟩ := hs
          rw [List.filterMap_cons]
          simp only [hpx, ← hxy, Bool.and_self, if_true]
          rw [ih s hs (fun xy h => hp xy (List.mem_cons_of_mem _ h))]
      · have hpx' : p x = false := by simpa using hpx
        simp only [hpx', Bool.false_eq_true, if_false] at hs
        rw [List.filterMap_cons]
        have := ih s hs (fun xy h => hp xy (List.mem_cons_of_mem _ h))
        cases x <;> cases y <;> simp only [hpx', Bool.false_and, Bool.false_eq_true, if_false] <;> exact this
  have hz : l1.length ≠ 0 := by
    intro h0
    rw [List.length_eq_zero_iff] at h0
    subst h0
    exact hne hpo.symm
  obtain ⟨h1, h2⟩ := cov_pairwise_exact p l1 l2 hg (by rw [hpo]; exact hlen)
  have hr : (l1.length == l2.length) = true := by simp [hl]
  rw [hpo] at h1 h2
  have hcast : toI32 (s.length : ℤ) = s.length := toI32_of_lt (by omega) (by exact_mod_cast hlen)
  constructor
  · intro hb
    unfold covarianceF
    simp only [hr, require_true, Res.bind_ok, if_neg hz, h1 hb, covAcc]
    rw [if_neg (by omega)]
    simp only [Res.pure_eq, Ex.ofInt_def, hcast]
    have hK : ((s.length - ddof : ℤ) : K) ≠ 0 := by rw [Int.cast_ne_zero]; omega
    rw [Ex.fin_div hK, covL]
    push_cast
    rfl
  · rintro ⟨b, hb, hrej⟩
    have hnot : ¬ blocksHit p l1 := by
      intro hh
      obtain ⟨x, hx, hpx⟩ := hh b hb
      rw [hrej x hx] at hpx; cases hpx
    obtain ⟨r, e, hr'⟩ := h2 hnot
    have hlong : 64 < l1.length := by
      by_contra hc
      apply hnot
      rw [blocksHit_short p l1 (by omega)]
      have hcnt := goodPairs_filter_length hg
      rw [hpo] at hcnt
      have : l1.filter p ≠ [] := by
        intro h0; rw [h0] at hcnt; exact hne (List.length_eq_zero_iff.mp hcnt.symm)
      obtain ⟨x, hx⟩ := List.exists_mem_of_ne_nil _ this
      exact ⟨x, (List.mem_filter.mp hx).1, (List.mem_filter.mp hx).2⟩
    have hrn := hr' hlong
    subst hrn
    unfold covarianceF
    simp only [hr, require_true, Res.bind_ok, if_neg hz, e]
    rw [if_neg (by omega)]
    simp

/-- C19, exact: the filtered variance of an array whose accepted elements are the finite values `s` is
the variance of `s` when every block of the pairwise recursion has an accepted element, NaN otherwise. -/
theorem C19_filtered_var_exact (ddof : ℤ) (l : List (Ex K)) (p : Ex K → Bool) (s : List K)
    (hs : l.filter p = s.map Ex.fin) (hne : s ≠ []) (hlen : s.length < 2 ^ 31) (hd : ddof < s.length) :
    ((∀ b ∈ blocks 64 l, ∃ x ∈ b, p x = true) →
      varF ddof l p = .ok (Ex.fin (covL ddof (s.zip s)), s.length)) ∧
    ((∃ b ∈ blocks 64 l, ∀ x ∈ b, p x = false) →
      varF ddof l p = .ok (Ex.nan, s.length)) := by
  have hz : ∀ l : List (Ex K), l.zip l = l.map fun a => (a, a) := by
    intro l
    induction l with
    | nil => rfl
    | cons a x ih => rw [List.zip_cons_cons, ih]; rfl
  have hzs : ∀ s : List K, s.zip s = s.map fun a => (a, a) := by
    intro l
    induction l with
    | nil => rfl
    | cons a x ih => rw [List.zip_cons_cons, ih]; rfl
  have hl : (s.zip s).length = s.length := by simp
  have := C19_filtered_covariance_exact ddof l l p (s.zip s) rfl
    (by rw [hz]; intro xy h; obtain ⟨a, -, rfl⟩ := List.mem_map.mp h; rfl)
    (by rw [hz, hzs, List.filter_map, List.map_map]
        have h2 : (fun xy : Ex K × Ex K => p xy.1) ∘ (fun a => (a, a)) = p := rfl
        rw [h2, hs, List.map_map]; rfl)
    (by intro h; rw [h] at hl; exact hne (List.length_eq_zero_iff.mp hl.symm))
    (by rw [hl]; exact hlen) (by rw [hl]; exact hd)
  rw [hl] at this
  exact this

end exact

/-! ## C87 — NaN-ignoring and trimmed statistics -/

section lists
variable {K : Type*}

theorem mem_exVals (l : List (Ex K)) (x : K) : x ∈ exVals l ↔ Ex.fin x ∈ l := by
  unfold exVals
  rw [List.mem_filterMap]
  constructor
  · rintro ⟨e, he, h⟩
    cases e <;> simp at h
    subst h; exact he
  · intro h; exact ⟨_, h, rfl⟩

theorem filter_notNan (l : List (Ex K)) (h : Ex.inf ∉ l) : l.filter notNan = (exVals l).map Ex.fin := by
  induction l with
  | nil => rfl
  | cons a l ih =>
    have ih := ih (fun hh => h (List.mem_cons_of_mem _ hh))
    cases a with
    | fin x => simp only [exVals, List.filter_cons, notNan, Ex.isNan, List.filterMap_cons, List.map_cons] at ih ⊢; simp [← ih]
    | inf => simp at h
    | nan => simp only [exVals, List.filter_cons, notNan, Ex.isNan, List.filterMap_cons] at ih ⊢; simp [← ih]

variable [LinearOrder K]

theorem filter_trimEx (l : List (Ex K)) (lo hi : K) (il ih : Bool) :
    l.filter (trimEx lo hi il ih) = ((exVals l).filter (trimFilter lo hi il ih)).map Ex.fin := by
  induction l with
  | nil => rfl
  | cons a l ih =>
    cases a with
    | fin x =>
      simp only [exVals, List.filter_cons, trimEx, List.filterMap_cons] at ih ⊢
      split_ifs with hx <;> simp [hx, ih]
    | inf => simp only [exVals, List.filter_cons, trimEx, List.filterMap_cons] at ih ⊢; simp [ih]
    | nan => simp only [exVals, List.filter_cons, trimEx, List.filterMap_cons] at ih ⊢; simp [ih]

end lists

section trimmed
variable {K : Type*} [Field K] [LinearOrder K] [IsStrictOrderedRing K] [StarRing K]

/-- Specification: `x` lies between the limits, each limit included or not. -/
def inLimits (lo hi : K) (il ih : Bool) (x : K) : Prop :=
  (if il then lo ≤ x else lo < x) ∧ (if ih then x ≤ hi else x < hi)

instance (lo hi : K) (il ih : Bool) (x : K) : Decidable (inLimits lo hi il ih x) := by
  unfold inLimits; infer_instance

theorem trimFilter_inLimits (lo hi : K) (il ih : Bool) (x : K) :
    trimFilter lo hi il ih x = decide (inLimits lo hi il ih x) := by
  unfold trimFilter inLimits
  cases il <;> cases ih <;> simp

/-- Specification: the finite elements of `l` within the limits. -/
def kept (l : List (Ex K)) (lo hi : K) (il ih : Bool) : List K :=
  (exVals l).filter fun x => decide (inLimits lo hi il ih x)

theorem filter_kept (l : List (Ex K)) (lo hi : K) (il ih : Bool) :
    l.filter (trimEx lo hi il ih) = (kept l lo hi il ih).map Ex.fin := by
  rw [filter_trimEx, kept]
  congr 2
  funext x; exact trimFilter_inLimits lo hi il ih x

theorem trimEx_iff (lo hi : K) (il ih : Bool) (e : Ex K) :
    trimEx lo hi il ih e = true ↔ ∃ x, e = Ex.fin x ∧ inLimits lo hi il ih x := by
  cases e <;> simp [trimEx, trimFilter_inLimits]

/-- C87: `tmean` is the mean of the elements within the limits; NaN when there are none. -/
theorem C87_tmean (l : List (Ex K)) (lo hi : K) (il ih : Bool) :
    (kept l lo hi il ih ≠ [] → (kept l lo hi il ih).length < 2 ^ 31 →
      tmean l lo hi il ih = Ex.fin ((kept l lo hi il ih).sum / (kept l lo hi il ih).length)) ∧
    (kept l lo hi il ih = [] → tmean l lo hi il ih = Ex.nan) := by
  refine ⟨fun h0 h1 => C15_mean l _ _ (filter_kept l lo hi il ih) h0 h1, fun h0 => ?_⟩
  exact mean_ex_empty l _ (by rw [filter_kept, h0]; rfl)

/-- C87: the trimmed mean lies between the limits. -/
theorem C87_tmean_bounds (l : List (Ex K)) (lo hi : K) (il ih : Bool) (h0 : kept l lo hi il ih ≠ [])
    (h1 : (kept l lo hi il ih).length < 2 ^ 31) :
    ∃ m, tmean l lo hi il ih = Ex.fin m ∧ lo ≤ m ∧ m ≤ hi := by
  have hb : ∀ x ∈ kept l lo hi il ih, lo ≤ x ∧ x ≤ hi := by
    intro x hx
    have := (List.mem_filter.mp hx).2
    simp only [inLimits] at this
    cases il <;> cases ih <;> simp at this <;> constructor <;> linarith [this.1, this.2]
  exact C15_mean_bounds l _ _ (filter_kept l lo hi il ih) h0 h1 lo hi (fun x hx => (hb x hx).1)
    (fun x hx => (hb x hx).2)

/-- C87: `tvar` is the variance of the elements within the limits when every block of the pairwise
recursion contains one of them, NaN otherwise; `tstd` and `tsem` are obtained from it. -/
theorem C87_tvar_exact (ddof : ℤ) (l : List (Ex K)) (lo hi : K) (il ih : Bool) (sqrt : Ex K → Ex K)
    (h0 : kept l lo hi il ih ≠ []) (h1 : (kept l lo hi il ih).length < 2 ^ 31)
    (hd : ddof < (kept l lo hi il ih).length) :
    let s := kept l lo hi il ih
    ((∀ b ∈ blocks 64 l, ∃ x, Ex.fin x ∈ b ∧ inLimits lo hi il ih x) →
      tvar ddof l lo hi il ih = .ok (Ex.fin (covL ddof (s.zip s))) ∧
      tstd sqrt ddof l lo hi il ih = .ok (sqrt (Ex.fin (covL ddof (s.zip s)))) ∧
      tsem sqrt ddof l lo hi il ih = .ok (sqrt (Ex.fin (covL ddof (s.zip s) / s.length)))) ∧
    ((∃ b ∈ blocks 64 l, ∀ x, Ex.fin x ∈ b → ¬ inLimits lo hi il ih x) →
      tvar ddof l lo hi il ih = .ok Ex.nan ∧ tstd sqrt ddof l lo hi il ih = .ok (sqrt Ex.nan) ∧
      tsem sqrt ddof l lo hi il ih = .ok (sqrt Ex.nan)) := by
  intro s
  obtain ⟨e1, e2⟩ := C19_filtered_var_exact ddof l (trimEx lo hi il ih) s (filter_kept l lo hi il ih) h0 h1 hd
  have hpos : (s.length : K) ≠ 0 := by
    rw [Nat.cast_ne_zero]; exact (List.length_pos_iff.mpr h0).ne'
  constructor
  · intro h
    have e := e1 (fun b hb => by
      obtain ⟨x, hx, hin⟩ := h b hb
      exact ⟨_, hx, (trimEx_iff ..).mpr ⟨x, rfl, hin⟩⟩)
    refine ⟨?_, ?_, ?_⟩
    · simp only [tvar, varP, e, Res.bind_ok, Res.pure_eq]
    · simp only [tstd, tvar, varP, e, Res.bind_ok, Res.pure_eq]
    · simp only [tsem, sem, e, Res.bind_ok, Res.pure_eq, Ex.ofInt_def, Int.cast_natCast, Ex.fin_div hpos]
  · rintro ⟨b, hb, h⟩
    have e := e2 ⟨b, hb, fun x hx => by
      by_contra hh
      obtain ⟨k, rfl, hin⟩ := (trimEx_iff lo hi il ih x).mp (by simpa using hh)
      exact h k hx hin⟩
    refine ⟨?_, ?_, ?_⟩
    · simp only [tvar, varP, e, Res.bind_ok, Res.pure_eq]
    · simp only [tstd, tvar, varP, e, Res.bind_ok, Res.pure_eq]
    · simp only [tsem, sem, e, Res.bind_ok, Res.pure_eq, Ex.nan_div]

end trimmed

section nan
variable {K : Type*} [Field K] [CharZero K] [StarRing K] [DecidableEq K]

/-- C87: `nanmean` is the mean of the elements that are not NaN; NaN when there are none. -/
theorem C87_nanmean (l : List (Ex K)) (hinf : Ex.inf ∉ l) :
    (exVals l ≠ [] → (exVals l).length < 2 ^ 31 →
      nanmean l = Ex.fin ((exVals l).sum / (exVals l).length)) ∧
    ((∀ x ∈ l, x = Ex.nan) → nanmean l = Ex.nan) := by
  refine ⟨fun h0 h1 => C15_mean l _ _ (filter_notNan l hinf) h0 h1, fun h => ?_⟩
  exact C15_mean_nan l _ (fun x hx => by rw [h x hx]; rfl)

/-- C87: `nanvar` is the variance of the elements that are not NaN when no block of the pairwise
recursion consists of NaNs only, NaN otherwise; `nanstd` and `nansem` are obtained from it. -/
theorem C87_nanvar_exact (ddof : ℤ) (l : List (Ex K)) (sqrt : Ex K → Ex K) (hinf : Ex.inf ∉ l)
    (h0 : exVals l ≠ []) (h1 : (exVals l).length < 2 ^ 31) (hd : ddof < (exVals l).length) :
    let s := exVals l
    ((∀ b ∈ blocks 64 l, ∃ x, Ex.fin x ∈ b) →
      nanvar ddof l = .ok (Ex.fin (covL ddof (s.zip s))) ∧
      nanstd sqrt ddof l = .ok (sqrt (Ex.fin (covL ddof (s.zip s)))) ∧
      nansem sqrt ddof l = .ok (sqrt (Ex.fin (covL ddof (s.zip s) / s.length)))) ∧
    ((∃ b ∈ blocks 64 l, ∀ x ∈ b, x = Ex.nan) →
      nanvar ddof l = .ok Ex.nan ∧ nanstd sqrt ddof l = .ok (sqrt Ex.nan) ∧
      nansem sqrt ddof l = .ok (sqrt Ex.nan)) := by
  intro s
  obtain ⟨e1, e2⟩ := C19_filtered_var_exact ddof l notNan s (filter_notNan l hinf) h0 h1 hd
  have hpos : (s.length : K) ≠ 0 := by
    rw [Nat.cast_ne_zero]; exact (List.length_pos_iff.mpr h0).ne'
  constructor
  · intro h
    have e := e1 (fun b hb => by obtain ⟨x, hx⟩ := h b hb; exact ⟨_, hx, rfl⟩)
    refine ⟨?_, ?_, ?_⟩
    · simp only [nanvar, varP, e, Res.bind_ok, Res.pure_eq]
    · simp only [nanstd, nanvar, varP, e, Res.bind_ok, Res.pure_eq]
    · simp only [nansem, sem, e, Res.bind_ok, Res.pure_eq, Ex.ofInt_def, Int.cast_natCast, Ex.fin_div hpos]
  · rintro ⟨b, hb, h⟩
    have e := e2 ⟨b, hb, fun x hx => by rw [h x hx]; rfl⟩
    refine ⟨?_, ?_, ?_⟩
    · simp only [nanvar, varP, e, Res.bind_ok, Res.pure_eq]
    · simp only [nanstd, nanvar, varP, e, Res.bind_ok, Res.pure_eq]
    · simp only [nansem, sem, e, Res.bind_ok, Res.pure_eq, Ex.nan_div]

/-- C87: an array without NaN has the same `nanmean`, `nanvar`, `nanstd` as `mean`, `var`, `std`. -/
theorem C87_nan_free (ddof : ℤ) (l : List K) (sqrt : Ex K → Ex K) :
    nanmean (l.map Ex.fin) = mean (l.map Ex.fin) (fun _ => true) ∧
    (l ≠ [] → l.length < 2 ^ 31 → ddof < l.length →
      nanvar ddof (l.map Ex.fin) = varP ddof (l.map Ex.fin) (fun _ => true) ∧
      nanstd sqrt ddof (l.map Ex.fin) = stdA sqrt ddof (l.map Ex.fin)) := by
  have hm : ∀ l : List K, exVals (l.map Ex.fin) = l := by
    intro l; unfold exVals; rw [List.filterMap_map]; simp
  have hinf : Ex.inf ∉ l.map Ex.fin := by simp
  have hf : (l.map Ex.fin).filter notNan = l.map Ex.fin := by rw [filter_notNan _ hinf, hm]
  have ht : (l.map Ex.fin).filter (fun _ => true) = l.map Ex.fin := by simp
  constructor
  · unfold nanmean mean
    simp only [sumF_ex, hf, ht]
  · intro h0 h1 hd
    have hb : ∀ p : Ex K → Bool, (∀ x ∈ l.map Ex.fin, p x = true) →
        ∀ b ∈ blocks 64 (l.map Ex.fin), ∃ x ∈ b, p x = true := by
      intro p hp b hb
      have hbne : b ≠ [] := by
        by_cases hs : (l.map Ex.fin).length ≤ 64
        · unfold blocks at hb
          rw [if_pos hs] at hb
          have : b = l.map Ex.fin := by simpa using hb
          rw [this]; simpa using h0
        · have := blocks_ge 64 (l.map Ex.fin) (by omega) b hb
          intro he; rw [he] at this; simp at this
      obtain ⟨x, hx⟩ := List.exists_mem_of_ne_nil _ hbne
      refine ⟨x, hx, hp x ?_⟩
      rw [← blocks_flatten 64 (l.map Ex.fin)]
      exact List.mem_flatten.mpr ⟨b, hb, hx⟩
    have e1 := (C19_filtered_var_exact ddof (l.map Ex.fin) notNan l hf h0 h1 hd).1
      (hb _ (fun x hx => by obtain ⟨k, -, rfl⟩ := List.mem_map.mp hx; rfl))
    have e2 := (C19_filtered_var_exact ddof (l.map Ex.fin) (fun _ => true) l ht h0 h1 hd).1
      (hb _ (fun x hx => rfl))
    refine ⟨?_, ?_⟩
    · simp only [nanvar, varP, e1, e2]
    · simp only [nanstd, stdA, stdP, nanvar, varP, e1, e2]

end nan

section order
variable {K : Type*} [Field K] [LinearOrder K] [IsStrictOrderedRing K] [FloorRing K]

/-- C87: `nanquantile`, `nanpercentile`, `naniqr`, `nanmedian` are the quantile, percentile, interquartile
range and median of the elements that are not NaN, and a filtered `quantile`/`percentile` those of the
accepted elements. -/
theorem C87_nan_order_statistics (nth : NthImpl K) (qnan tol : K) (m : QInterp) (l : List (Ex K))
    (hinf : Ex.inf ∉ l) (q r0 r1 : K) :
    nanquantile nth qnan tol m l q = quantileInplace nth qnan tol m (exVals l) q ∧
    nanpercentile nth qnan tol m l q = percentile nth qnan tol m (exVals l) q ∧
    naniqr nth qnan tol m l r0 r1 = iqr nth qnan tol m (exVals l) (exVals l) r0 r1 ∧
    nanmedian nth qnan l = medianInplace nth qnan (fun x => x / 2) (exVals l) := by
  have hv : exVals (filterArr l notNan) = exVals l := by
    rw [filterArr_eq, filter_notNan l hinf]
    unfold exVals; rw [List.filterMap_map]; simp
  refine ⟨?_, ?_, ?_, ?_⟩
  · simp only [nanquantile, quantileP, hv]
  · simp only [nanpercentile, nanquantile, quantileP, hv, percentile]
  · simp only [naniqr, iqr, nanpercentile, nanquantile, quantileP, hv, percentile]
  · simp only [nanmedian, hv]

/-- C87: with exact index comparison, the NaN-ignoring quantile of at least two values is the textbook
interpolated order statistic of the values that are not NaN. -/
theorem C87_nanquantile_partial (nth : NthImpl K) (qnan : K) (m : QInterp) (l : List (Ex K))
    (hinf : Ex.inf ∉ l) (q : K) (hq0 : 0 ≤ q) (hq1 : q ≤ 1) (hl : 2 ≤ (exVals l).length) :
    nanquantile nth qnan 0 m l q
      = .ok (Spec.quantileAt m (exVals l) (q * (((exVals l).length - 1 : ℕ) : K))) := by
  rw [(C87_nan_order_statistics nth qnan 0 m l hinf q 0 0).1]
  exact C17_quantile_exact_partial nth qnan m (exVals l) q hq0 hq1 hl

/-- C87: a filtered quantile is the quantile of the accepted elements. -/
theorem C87_filtered_quantile (nth : NthImpl K) (qnan tol : K) (m : QInterp) (l : List (Ex K))
    (p : Ex K → Bool) (s : List K) (hs : l.filter p = s.map Ex.fin) (q : K) :
    quantileP nth qnan tol m l q p = quantileInplace nth qnan tol m s q ∧
    percentileP nth qnan tol m l q p = percentile nth qnan tol m s q := by
  have hv : exVals (filterArr l p) = s := by
    rw [filterArr_eq, hs]
    unfold exVals; rw [List.filterMap_map]; simp
  exact ⟨by simp only [quantileP, hv], by simp only [percentileP, quantileP, hv, percentile]⟩

end order

/-- C87 is false of the code: 32 values outside the limits followed by 33 equal values inside have a
trimmed variance of NaN instead of 0. -/
theorem C87_tvar_false :
    let l : List (Ex ℚ) := List.replicate 32 (Ex.fin 9) ++ List.replicate 33 (Ex.fin 1)
    tvar 1 l 0 2 true true = .ok Ex.nan ∧ kept l 0 2 true true = List.replicate 33 1 ∧
      covL 1 ((List.replicate 33 (1 : ℚ)).zip (List.replicate 33 1)) = 0 := by
  intro l
  have hk : kept l 0 2 true true = List.replicate 33 1 := by decide +kernel
  refine ⟨?_, hk, by decide +kernel⟩
  refine ((C87_tvar_exact 1 l 0 2 true true (fun x => x) (by rw [hk]; decide) (by rw [hk]; decide)
    (by rw [hk]; decide)).2 ⟨l.take 32, ?_, ?_⟩).1
  · rw [blocks, if_neg (by decide)]
    have : l.length / 2 = 32 := by decide
    rw [this, List.mem_append]
    left
    rw [blocks, if_pos (by decide)]
    simp
  · intro x hx
    have : l.take 32 = List.replicate 32 (Ex.fin 9) := by decide +kernel
    rw [this] at hx
    have := List.eq_of_mem_replicate hx
    injection this with this
    subst this
    decide +kernel

/-- The hypotheses of the C87 theorems are met: values 1, NaN, 3, 50 trimmed to [0, 10). -/
example : let l : List (Ex ℚ) := [Ex.fin 1, Ex.nan, Ex.fin 3, Ex.fin 50]
    kept l 0 10 true false = [1, 3] ∧ exVals l = [1, 3, 50] ∧ Ex.inf ∉ l := by decide +kernel

end SciCpp
