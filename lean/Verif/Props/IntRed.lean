import Verif.Model.IntRed
import Verif.Props.Numeric
import Verif.Props.Stats
/-
  C95: reductions of signed integers.  They are exact whenever they are defined, and they are
  defined exactly when every intermediate value is representable — which depends on the order of
  the elements, and for `median` on the sum of the two middle elements.
-/
namespace SciCpp

/-! ### Specification -/

/-- `n` is a value of the integer type. -/
def Repr' (lo hi n : ℤ) : Prop := lo ≤ n ∧ n ≤ hi

instance (lo hi n : ℤ) : Decidable (Repr' lo hi n) := by unfold Repr'; infer_instance

section
variable {lo hi : ℤ}

theorem Res.bind_eq_ok' {α β : Type} {m : Res α} {f : α → Res β} {b : β} :
    (m >>= f) = .ok b ↔ ∃ a, m = .ok a ∧ f a = .ok b := by
  cases m <;> simp

theorem abs_sum_leZ (l : List ℤ) : |l.sum| ≤ (l.map abs).sum := by
  induction l with
  | nil => simp
  | cons x xs ih =>
    simp only [List.sum_cons, List.map_cons]
    have := abs_add_le x xs.sum
    omega

theorem abs_sum_nonnegZ (l : List ℤ) : 0 ≤ (l.map abs).sum :=
  List.sum_nonneg (by simp)

theorem chk_ok {n s : ℤ} : chk lo hi n = .ok s ↔ Repr' lo hi n ∧ s = n := by
  unfold chk Repr'
  split_ifs with h
  · simp [h, eq_comm]
  · simp [h]

theorem lift_of (f : ℤ → ℤ → ℤ) (a b : ℤ) :
    CInt.lift f (CInt.of a : CInt lo hi) (CInt.of b) = ⟨chk lo hi (f a b)⟩ := rfl

theorem lift_ub (f : ℤ → ℤ → ℤ) (y : CInt lo hi) :
    CInt.lift f (⟨.ub⟩ : CInt lo hi) y = ⟨.ub⟩ := rfl

theorem foldl_ub (f : ℤ → ℤ → ℤ) (l : List (CInt lo hi)) :
    l.foldl (CInt.lift f) (⟨.ub⟩ : CInt lo hi) = ⟨.ub⟩ := by
  induction l with
  | nil => rfl
  | cons x xs ih => rw [List.foldl_cons, lift_ub, ih]

/-- A checked left-to-right accumulation is defined exactly when every intermediate value is
representable. -/
theorem foldl_lift_iff (f : ℤ → ℤ → ℤ) (l : List ℤ) (e s : ℤ) :
    ((ints lo hi l).foldl (CInt.lift f) (CInt.of e)).val = .ok s ↔
      (∀ pre, pre <+: l → pre ≠ [] → Repr' lo hi (pre.foldl f e)) ∧ s = l.foldl f e := by
  induction l generalizing e with
  | nil =>
    simp only [ints, List.map_nil, List.foldl_nil, CInt.of, Res.ok.injEq]
    constructor
    · intro h
      exact ⟨fun pre hp hn => absurd (List.prefix_nil.mp hp) hn, h.symm⟩
    · rintro ⟨-, h⟩; exact h.symm
  | cons x xs ih =>
    simp only [ints, List.map_cons, List.foldl_cons, lift_of] at ih ⊢
    by_cases hr : Repr' lo hi (f e x)
    · have hc : chk lo hi (f e x) = .ok (f e x) := chk_ok.mpr ⟨hr, rfl⟩
      rw [hc]
      have := ih (f e x)
      simp only [CInt.of] at this
      rw [this]
      constructor
      · rintro ⟨h1, h2⟩
        refine ⟨fun pre hp hn => ?_, h2⟩
        cases pre with
        | nil => exact absurd rfl hn
        | cons y ys =>
          obtain ⟨rfl, hp'⟩ := List.cons_prefix_cons.mp hp
          cases ys with
          | nil => simpa using hr
          | cons z zs => simpa using h1 _ hp' (by simp)
      · rintro ⟨h1, h2⟩
        refine ⟨fun pre hp hn => ?_, h2⟩
        have := h1 (x :: pre) (List.cons_prefix_cons.mpr ⟨rfl, hp⟩) (by simp)
        simpa using this
    · have hc : chk lo hi (f e x) = .ub := by unfold chk; rw [if_neg]; exact hr
      rw [hc, foldl_ub]
      constructor
      · intro h; cases h
      · rintro ⟨h1, -⟩
        have := h1 [x] (by simp) (by simp)
        exact absurd (by simpa using this) hr

theorem filter_ints (l : List ℤ) (p : ℤ → Bool) :
    (ints lo hi l).filter (CInt.onVal p) = ints lo hi (l.filter p) := by
  unfold ints
  rw [List.filter_map]
  rfl

/-! ### C95 — sum, prod -/

/-- C95: `sum` of signed integers is defined exactly when the sum of every initial segment of the
accepted elements is representable, and then it is the exact sum, with the exact count. -/
theorem C95_sum (lo hi : ℤ) (l : List ℤ) (p : ℤ → Bool) (s : ℤ) (n : ℕ) :
    sumInt lo hi l p = .ok (s, n) ↔
      (∀ pre, pre <+: l.filter p → pre ≠ [] → Repr' lo hi pre.sum) ∧
      s = (l.filter p).sum ∧ n = (l.filter p).length := by
  have e : sumF true (ints lo hi l) (CInt.onVal p)
      = ((ints lo hi (l.filter p)).foldl (CInt.lift (· + ·)) (CInt.of 0), (l.filter p).length) := by
    unfold sumF filterReduceAssoc
    rw [if_pos rfl, filterReduce_eq, filter_ints]
    simp only [ints, List.length_map]
    rfl
  have key := foldl_lift_iff (lo := lo) (hi := hi) (· + ·) (l.filter p) 0 s
  unfold sumInt
  rw [e]
  simp only []
  simp only [List.sum_eq_foldl] at key ⊢
  constructor
  · intro h
    obtain ⟨a, ha, hb⟩ := Res.bind_eq_ok'.mp h
    simp only [Res.ok.injEq, Prod.mk.injEq] at hb
    obtain ⟨rfl, rfl⟩ := hb
    exact ⟨(key.mp ha).1, (key.mp ha).2, rfl⟩
  · rintro ⟨h1, h2, h3⟩
    rw [key.mpr ⟨h1, h2⟩, Res.bind_ok, h3]

/-- C95: `prod` likewise, with the products of the initial segments. -/
theorem C95_prod (lo hi : ℤ) (l : List ℤ) (p : ℤ → Bool) (s : ℤ) (n : ℕ) :
    prodInt lo hi l p = .ok (s, n) ↔
      (∀ pre, pre <+: l.filter p → pre ≠ [] → Repr' lo hi pre.prod) ∧
      s = (l.filter p).prod ∧ n = (l.filter p).length := by
  have e : prodF true (ints lo hi l) (CInt.onVal p)
      = ((ints lo hi (l.filter p)).foldl (CInt.lift (· * ·)) (CInt.of 1), (l.filter p).length) := by
    unfold prodF filterReduceAssoc
    rw [if_pos rfl, filterReduce_eq, filter_ints]
    simp only [ints, List.length_map]
    rfl
  have key := foldl_lift_iff (lo := lo) (hi := hi) (· * ·) (l.filter p) 1 s
  unfold prodInt
  rw [e]
  simp only []
  simp only [List.prod_eq_foldl] at key ⊢
  constructor
  · intro h
    obtain ⟨a, ha, hb⟩ := Res.bind_eq_ok'.mp h
    simp only [Res.ok.injEq, Prod.mk.injEq] at hb
    obtain ⟨rfl, rfl⟩ := hb
    exact ⟨(key.mp ha).1, (key.mp ha).2, rfl⟩
  · rintro ⟨h1, h2, h3⟩
    rw [key.mpr ⟨h1, h2⟩, Res.bind_ok, h3]

/-- Cases on `int`: three large elements whose sum is fine, in an order in which it is defined. -/
example : sumInt (-2147483648) 2147483647 [2147483647, -1, 5, 1] (fun x => x != 5)
    = .ok (2147483647, 3) ∧
    prodInt (-2147483648) 2147483647 [65536, 0, 65536] (fun _ => true) = .ok (0, 3) := by
  constructor <;> decide +kernel

/-- C95, the full statement "sum is defined whenever the sum is representable" is false of the code:
`sum({INT_MAX, 1, -1})` overflows although `sum({INT_MAX, -1, 1})` does not, so being defined
depends on the order of the elements. -/
theorem C95_sum_order_false :
    sumInt (-2147483648) 2147483647 [2147483647, 1, -1] (fun _ => true) = .ub ∧
    sumInt (-2147483648) 2147483647 [2147483647, -1, 1] (fun _ => true) = .ok (2147483647, 3) ∧
    prodInt (-2147483648) 2147483647 [65536, 65536, 0] (fun _ => true) = .ub ∧
    prodInt (-2147483648) 2147483647 [65536, 0, 65536] (fun _ => true) = .ok (0, 3) := by
  refine ⟨?_, ?_, ?_, ?_⟩ <;> decide +kernel

/-- C95, a condition that does not depend on the order: if the absolute values of the accepted
elements add up to a representable number (and the type is at least as wide below zero as above), the sum is
defined in every order. -/
theorem C95_sum_abs (lo hi : ℤ) (hlo : lo ≤ -hi) (l l' : List ℤ) (p : ℤ → Bool) (hp : l'.Perm l)
    (h : ((l.filter p).map abs).sum ≤ hi) :
    sumInt lo hi l' p = .ok ((l.filter p).sum, (l.filter p).length) := by
  have hperm : (l'.filter p).Perm (l.filter p) := hp.filter p
  refine (C95_sum lo hi l' p _ _).mpr ⟨fun pre hpre _ => ?_, hperm.sum_eq.symm, hperm.length_eq.symm⟩
  obtain ⟨suf, hs⟩ := hpre
  have h1 : ((l'.filter p).map abs).sum ≤ hi := by
    rw [(hperm.map abs).sum_eq]; exact h
  rw [← hs, List.map_append, List.sum_append] at h1
  have h2 := abs_sum_leZ pre
  have h3 := abs_sum_nonnegZ suf
  have h4 : |pre.sum| ≤ hi := by linarith
  rw [abs_le] at h4
  exact ⟨by linarith [h4.1], h4.2⟩

/-! ### C95 — mean -/

/-- C95: `mean` of a non-empty array of signed integers of which at least one and fewer than `2^31`
are accepted is defined exactly when the sums of the initial segments of the accepted elements are
representable, and then it is the exact sum divided by the count, truncated towards zero. -/
theorem C95_mean (lo hi : ℤ) (h0 : Repr' lo hi 0) (l : List ℤ) (p : ℤ → Bool)
    (hne : l.filter p ≠ []) (hn : (l.filter p).length < 2 ^ 31) (m : ℤ) :
    meanIntR lo hi l p = .ok m ↔
      (∀ pre, pre <+: l.filter p → pre ≠ [] → Repr' lo hi pre.sum) ∧
      m = (l.filter p).sum.tdiv (l.filter p).length := by
  have hl : l.length ≠ 0 := by rintro h; rw [List.length_eq_zero_iff] at h; subst h; simp at hne
  have hpos : 0 < (l.filter p).length := List.length_pos_iff.mpr hne
  have ht : toI32 ((l.filter p).length : ℤ) = (l.filter p).length :=
    toI32_of_lt (by omega) (by omega)
  unfold meanIntR
  rw [if_neg hl]
  constructor
  · intro h
    obtain ⟨⟨s, n⟩, h1, h2⟩ := Res.bind_eq_ok'.mp h
    obtain ⟨ha, rfl, rfl⟩ := (C95_sum lo hi l p s n).mp h1
    simp only [ht] at h2
    rw [if_neg (by omega)] at h2
    exact ⟨ha, (chk_ok.mp h2).2⟩
  · rintro ⟨ha, rfl⟩
    rw [(C95_sum lo hi l p _ _).mpr ⟨ha, rfl, rfl⟩, Res.bind_ok]
    simp only [ht]
    rw [if_neg (by omega)]
    refine chk_ok.mpr ⟨?_, rfl⟩
    have hr := ha _ (List.prefix_refl _) hne
    generalize (l.filter p).sum = s at hr
    generalize (l.filter p).length = n at hpos
    unfold Repr' at hr h0 ⊢
    rcases le_or_gt 0 s with hs | hs
    · have h1 := Int.tdiv_nonneg hs (show (0:ℤ) ≤ n by omega)
      have h2 : s.tdiv n ≤ s := Int.tdiv_le_self _ hs
      constructor <;> omega
    · have h1 := Int.tdiv_nonneg (show 0 ≤ -s by omega) (show (0:ℤ) ≤ n by omega)
      have h2 : (-s).tdiv n ≤ -s := Int.tdiv_le_self _ (by omega)
      rw [Int.neg_tdiv] at h1 h2
      constructor <;> omega

example : meanIntR (-2147483648) 2147483647 [2147483647, -7, 5] (fun _ => true) = .ok 715827881 ∧
    meanIntR (-2147483648) 2147483647 [2147483647, 2147483647] (fun _ => true) = .ub := by
  constructor <;> decide +kernel

/-! ### C95 — cumsum, cumprod -/

theorem collect_ub (l : List (CInt lo hi)) (h : (⟨.ub⟩ : CInt lo hi) ∈ l) :
    CInt.collect l = .ub := by
  induction l with
  | nil => cases h
  | cons x xs ih =>
    unfold CInt.collect
    rcases List.mem_cons.mp h with rfl | h
    · rfl
    · rw [ih h]
      cases x.val <;> rfl

theorem collect_ints (l : List ℤ) : CInt.collect (ints lo hi l) = .ok l := by
  induction l with
  | nil => rfl
  | cons x xs ih =>
    simp only [ints, List.map_cons] at ih ⊢
    unfold CInt.collect
    rw [ih]; rfl

theorem partialSumLoop_collect (f : ℤ → ℤ → ℤ) (e : ℤ) (l r : List ℤ) :
    CInt.collect (partialSumLoop (CInt.lift f) (CInt.of e : CInt lo hi) (ints lo hi l)) = .ok r ↔
      (∀ pre, pre <+: l → pre ≠ [] → Repr' lo hi (pre.foldl f e)) ∧ r = partialSumLoop f e l := by
  induction l generalizing e r with
  | nil =>
    simp only [ints, List.map_nil, partialSumLoop, CInt.collect, Res.ok.injEq]
    constructor
    · intro h
      exact ⟨fun pre hp hn => absurd (List.prefix_nil.mp hp) hn, h.symm⟩
    · rintro ⟨-, h⟩; exact h.symm
  | cons x xs ih =>
    simp only [ints, List.map_cons, partialSumLoop, lift_of, CInt.collect] at ih ⊢
    by_cases hr : Repr' lo hi (f e x)
    · have hc : chk lo hi (f e x) = .ok (f e x) := chk_ok.mpr ⟨hr, rfl⟩
      rw [hc]
      simp only [Res.bind_ok]
      have ih' := fun r => ih (f e x) r
      simp only [CInt.of] at ih'
      constructor
      · intro h
        obtain ⟨as, h1, h2⟩ := Res.bind_eq_ok'.mp h
        obtain ⟨g1, g2⟩ := (ih' as).mp h1
        simp only [Res.ok.injEq] at h2
        refine ⟨fun pre hp hn => ?_, by rw [← h2, g2]⟩
        cases pre with
        | nil => exact absurd rfl hn
        | cons y ys =>
          obtain ⟨rfl, hp'⟩ := List.cons_prefix_cons.mp hp
          cases ys with
          | nil => simpa using hr
          | cons z zs => simpa using g1 _ hp' (by simp)
      · rintro ⟨h1, h2⟩
        have := (ih' (partialSumLoop f (f e x) xs)).mpr ⟨fun pre hp hn => by
          have := h1 (x :: pre) (List.cons_prefix_cons.mpr ⟨rfl, hp⟩) (by simp)
          simpa using this, rfl⟩
        rw [this, h2]; rfl
    · have hc : chk lo hi (f e x) = .ub := by unfold chk; rw [if_neg]; exact hr
      rw [hc]
      constructor
      · intro h; cases h
      · rintro ⟨h1, -⟩
        have := h1 [x] (by simp) (by simp)
        exact absurd (by simpa using this) hr

theorem partialSum_collect (f : ℤ → ℤ → ℤ) (e : ℤ) (he : ∀ a, f e a = a) (l r : List ℤ)
    (hl : ∀ x ∈ l, Repr' lo hi x) :
    CInt.collect (partialSum (CInt.lift f) (ints lo hi l)) = .ok r ↔
      (∀ pre, pre <+: l → pre ≠ [] → Repr' lo hi (pre.foldl f e)) ∧ r = partialSum f l := by
  cases l with
  | nil =>
    simp only [ints, List.map_nil, partialSum, CInt.collect, Res.ok.injEq]
    constructor
    · intro h
      exact ⟨fun pre hp hn => absurd (List.prefix_nil.mp hp) hn, h.symm⟩
    · rintro ⟨-, h⟩; exact h.symm
  | cons x xs =>
    simp only [ints, List.map_cons, partialSum, CInt.collect]
    have key := fun r => partialSumLoop_collect (lo := lo) (hi := hi) f x xs r
    simp only [ints] at key
    simp only [CInt.of, Res.bind_ok] at key ⊢
    constructor
    · intro h
      obtain ⟨as, h1, h2⟩ := Res.bind_eq_ok'.mp h
      obtain ⟨g1, g2⟩ := (key as).mp h1
      simp only [Res.ok.injEq] at h2
      refine ⟨fun pre hp hn => ?_, by rw [← h2, g2]⟩
      cases pre with
      | nil => exact absurd rfl hn
      | cons y ys =>
        obtain ⟨rfl, hp'⟩ := List.cons_prefix_cons.mp hp
        cases ys with
        | nil => simpa [he] using hl y (by simp)
        | cons z zs => simpa [he] using g1 _ hp' (by simp)
    · rintro ⟨h1, h2⟩
      have := (key (partialSumLoop f x xs)).mpr ⟨fun pre hp hn => by
        have := h1 (x :: pre) (List.cons_prefix_cons.mpr ⟨rfl, hp⟩) (by simp)
        simpa [he] using this, rfl⟩
      rw [this, h2]; rfl

/-- C95: `cumsum` and `cumprod` of signed integers (whatever the category of the argument and the
container) are defined exactly when the sum (product) of every initial segment is representable, and
then element `i` is the exact sum (product) of the first `i + 1` elements. -/
theorem C95_cum (lo hi : ℤ) (cat : Cat) (c : Cont) (l r : List ℤ) (hl : ∀ x ∈ l, Repr' lo hi x) :
    (cumsumInt lo hi cat c l = .ok r ↔
      (∀ pre, pre <+: l → pre ≠ [] → Repr' lo hi pre.sum) ∧
      r = (List.range l.length).map (fun i : ℕ => (l.take (i + 1)).sum)) ∧
    (cumprodInt lo hi cat c l = .ok r ↔
      (∀ pre, pre <+: l → pre ≠ [] → Repr' lo hi pre.prod) ∧
      r = (List.range l.length).map (fun i : ℕ => (l.take (i + 1)).prod)) := by
  have e1 : (cumOp cat c (· + ·) (ints lo hi l)).1 = partialSum (CInt.lift (· + ·)) (ints lo hi l) := by
    cases cat <;> rfl
  have e2 : (cumOp cat c (· * ·) (ints lo hi l)).1 = partialSum (CInt.lift (· * ·)) (ints lo hi l) := by
    cases cat <;> rfl
  have g1 : partialSum (· + ·) l = (List.range l.length).map (fun i : ℕ => (l.take (i + 1)).sum) := by
    refine List.ext_getElem (by simp [partialSum_length]) fun i h _ => ?_
    rw [partialSum_get (· + ·) 0 (by intro a; ring) l i (by simpa [partialSum_length] using h)]
    simp [List.sum_eq_foldl]
  have g2 : partialSum (· * ·) l = (List.range l.length).map (fun i : ℕ => (l.take (i + 1)).prod) := by
    refine List.ext_getElem (by simp [partialSum_length]) fun i h _ => ?_
    rw [partialSum_get (· * ·) 1 (by intro a; ring) l i (by simpa [partialSum_length] using h)]
    simp [List.prod_eq_foldl]
  unfold cumsumInt cumprodInt
  rw [e1, e2, partialSum_collect (· + ·) 0 (by intro a; ring) l r hl,
    partialSum_collect (· * ·) 1 (by intro a; ring) l r hl, g1, g2]
  simp only [List.sum_eq_foldl, List.prod_eq_foldl, and_self]

example : cumsumInt (-128) 127 .rvalue .vec [100, 27, -128] = .ok [100, 127, -1] ∧
    cumsumInt (-128) 127 .rvalue .vec [100, 28, -128] = .ub := by
  constructor <;> decide +kernel

/-! ### C95 — diff -/

theorem adjDiffLoop_collect (e : ℤ) (l r : List ℤ) :
    CInt.collect (adjDiffLoop (CInt.of e : CInt lo hi) (ints lo hi l)) = .ok r ↔
      (∀ d ∈ adjDiffLoop e l, Repr' lo hi d) ∧ r = adjDiffLoop e l := by
  induction l generalizing e r with
  | nil => simp [ints, adjDiffLoop, CInt.collect, eq_comm]
  | cons x xs ih =>
    have hs : (CInt.of x - CInt.of e : CInt lo hi) = ⟨chk lo hi (x - e)⟩ := rfl
    simp only [ints, List.map_cons, adjDiffLoop, CInt.collect, hs] at ih ⊢
    constructor
    · intro h
      obtain ⟨a, h1, h2⟩ := Res.bind_eq_ok'.mp h
      obtain ⟨as, h3, h4⟩ := Res.bind_eq_ok'.mp h2
      obtain ⟨hr, rfl⟩ := chk_ok.mp h1
      obtain ⟨g1, g2⟩ := (ih x as).mp h3
      simp only [Res.ok.injEq] at h4
      refine ⟨fun d hd => ?_, by rw [← h4, g2]⟩
      rcases List.mem_cons.mp hd with rfl | hd
      · exact hr
      · exact g1 d hd
    · rintro ⟨h1, rfl⟩
      rw [chk_ok.mpr ⟨h1 _ (by simp), rfl⟩, (ih x _).mpr ⟨fun d hd => h1 d (by simp [hd]), rfl⟩]
      rfl

theorem diffInt_iff (lo hi : ℤ) (l r : List ℤ) (n : ℕ) :
    diffInt lo hi l n = .ok r ↔
      (∀ k, 1 ≤ k → k ≤ n → ∀ d ∈ diffArr k l, Repr' lo hi d) ∧ r = diffArr n l := by
  have step : ∀ l r : List ℤ, diffOnceInt lo hi l = .ok r ↔
      (∀ d ∈ diffArr 1 l, Repr' lo hi d) ∧ r = diffArr 1 l := by
    intro l r
    have e1 : diffArr 1 l = (adjDiff l).tail := by
      show diffArr 0 (diffOnceArr l) = _
      rw [diffOnceArr_eq]; rfl
    rw [e1]
    cases l with
    | nil => simp [diffOnceInt, ints, adjDiff, CInt.collect, eq_comm]
    | cons x xs =>
      have := adjDiffLoop_collect (lo := lo) (hi := hi) x xs r
      simpa [diffOnceInt, ints, adjDiff] using this
  have loop : ∀ (n : ℕ) (l : List ℤ), diffIntLoop lo hi n l = .ok r ↔
      (∀ k, 1 ≤ k → k ≤ n → ∀ d ∈ diffArr k l, Repr' lo hi d) ∧ r = diffArr n l := by
    intro n
    induction n with
    | zero =>
      intro l
      simp only [diffIntLoop, Res.ok.injEq, diffArr]
      constructor
      · rintro rfl; exact ⟨fun k h1 h2 => by omega, rfl⟩
      · rintro ⟨-, h⟩; exact h.symm
    | succ n ih =>
      intro l
      unfold diffIntLoop
      by_cases hl : l.isEmpty
      · rw [if_pos hl]
        rw [List.isEmpty_iff] at hl
        subst hl
        simp only [diffArr_nil, Res.ok.injEq, List.not_mem_nil, false_imp_iff, implies_true,
          true_and, eq_comm]
      · rw [if_neg hl]
        constructor
        · intro h
          obtain ⟨a, h1, h2⟩ := Res.bind_eq_ok'.mp h
          obtain ⟨g1, rfl⟩ := (step l a).mp h1
          obtain ⟨g3, g4⟩ := (ih _).mp h2
          refine ⟨fun k h1 h2 d hd => ?_, by rw [g4]; rfl⟩
          match k, h1 with
          | 1, _ => exact g1 d hd
          | k + 2, _ => exact g3 (k + 1) (by omega) (by omega) d hd
        · rintro ⟨h1, h2⟩
          rw [(step l _).mpr ⟨h1 1 (by omega) (by omega), rfl⟩, Res.bind_ok]
          refine (ih _).mpr ⟨fun k g1 g2 d hd => ?_, h2⟩
          exact h1 (k + 1) (by omega) (by omega) d hd
  unfold diffInt
  rw [show decide ((0:ℤ) ≤ (n:ℤ)) = true by simp]
  simpa using loop n l

/-- C95: `diff(a, n)` of signed integers is defined exactly when the forward differences of every
order `1 ≤ k ≤ n` are representable, and then it consists of the `len - n` exact differences of
order `n` (`fwdDiff 1 f i = f (i + 1) - f i`). -/
theorem C95_diff (lo hi : ℤ) (l r : List ℤ) (n : ℕ) :
    diffInt lo hi l n = .ok r ↔
      (∀ k i : ℕ, 1 ≤ k → k ≤ n → i + k < l.length →
        Repr' lo hi ((fwdDiff 1)^[k] (fun j => l.getD j 0) i)) ∧
      r = (List.range (l.length - n)).map (fun i : ℕ => (fwdDiff 1)^[n] (fun j => l.getD j 0) i) := by
  have hf : ∀ (i : ℕ) (h : i < l.length), (fun j : ℕ => l.getD j 0) i = l[i] := by
    intro i h; simp [h]
  have e : ∀ k : ℕ, diffArr k l
      = (List.range (l.length - k)).map (fun i : ℕ => (fwdDiff 1)^[k] (fun j => l.getD j 0) i) := by
    intro k
    refine List.ext_getElem (by simp [diffArr_length]) fun i h _ => ?_
    rw [diffArr_get k l (fun j => l.getD j 0) hf i h]
    simp
  rw [diffInt_iff, e n]
  refine and_congr_left fun _ => ?_
  constructor
  · intro h k i h1 h2 h3
    refine h k h1 h2 _ ?_
    rw [e k]
    exact List.mem_map.mpr ⟨i, List.mem_range.mpr (by omega), rfl⟩
  · intro h k h1 h2 d hd
    rw [e k] at hd
    obtain ⟨i, hi, rfl⟩ := List.mem_map.mp hd
    rw [List.mem_range] at hi
    exact h k i h1 h2 (by omega)

/-- Cases: the last one overflows in a pass whose result is dropped by the next. -/
example : diffInt (-128) 127 [5, 100, -27] 1 = .ok [95, -127] ∧
    diffInt (-128) 127 [5, 100, -28] 1 = .ok [95, -128] ∧
    diffInt (-128) 127 [5, 100, -29] 1 = .ub ∧
    diffInt (-128) 127 [100, -29] 5 = .ub := by
  refine ⟨?_, ?_, ?_, ?_⟩ <;> decide +kernel

/-! ### C95 — inner -/

theorem innerLoop_cint (x : CInt lo hi) (a b : List ℤ) (h : a.length = b.length) (hlo : lo ≤ -hi) :
    ∃ r : CInt lo hi, innerLoop (· * ·) x (ints lo hi a) (ints lo hi b) = .ok r ∧
      (∀ s, r.val = .ok s → ∃ e, x.val = .ok e ∧ s = e + (List.zipWith (· * ·) a b).sum) ∧
      (∀ e, x.val = .ok e → |e| + ((List.zipWith (· * ·) a b).map abs).sum ≤ hi →
        r.val = .ok (e + (List.zipWith (· * ·) a b).sum)) := by
  induction a generalizing b x with
  | nil =>
    refine ⟨x, by simp [ints, innerLoop], fun s hs => ⟨s, hs, by simp⟩, fun e he _ => by simp [he]⟩
  | cons u us ih =>
    cases b with
    | nil => simp at h
    | cons v vs =>
      obtain ⟨r, h1, h2, h3⟩ := ih (x + CInt.of u * CInt.of v) vs (by simpa using h)
      have hm : (CInt.of u * CInt.of v : CInt lo hi) = ⟨chk lo hi (u * v)⟩ := rfl
      have hx : (x + CInt.of u * CInt.of v : CInt lo hi).val
          = x.val >>= fun e => chk lo hi (u * v) >>= fun q => chk lo hi (e + q) := by
        rw [hm]; rfl
      refine ⟨r, h1, fun s hs => ?_, fun e he hb => ?_⟩
      · obtain ⟨e', h4, rfl⟩ := h2 s hs
        rw [hx] at h4
        obtain ⟨e, h5, h6⟩ := Res.bind_eq_ok'.mp h4
        obtain ⟨q, h7, h8⟩ := Res.bind_eq_ok'.mp h6
        obtain ⟨-, rfl⟩ := chk_ok.mp h7
        obtain ⟨-, rfl⟩ := chk_ok.mp h8
        exact ⟨e, h5, by simp [add_assoc]⟩
      · simp only [List.zipWith_cons_cons, List.map_cons, List.sum_cons] at hb ⊢
        have hnn := abs_sum_nonnegZ (List.zipWith (· * ·) us vs)
        have t := abs_add_le e (u * v)
        have e1 : chk lo hi (u * v) = .ok (u * v) := chk_ok.mpr ⟨by
          have h9 : |u * v| ≤ hi := by linarith [abs_nonneg e]
          rw [abs_le] at h9; exact ⟨by linarith [h9.1], h9.2⟩, rfl⟩
        have e2 : chk lo hi (e + u * v) = .ok (e + u * v) := chk_ok.mpr ⟨by
          have h9 : |e + u * v| ≤ hi := by linarith
          rw [abs_le] at h9; exact ⟨by linarith [h9.1], h9.2⟩, rfl⟩
        rw [h3 (e + u * v) (by rw [hx, he, Res.bind_ok, e1, Res.bind_ok, e2]) (by linarith), add_assoc]

theorem zipWith_split (a b : List ℤ) (k : ℕ) :
    List.zipWith (· * ·) a b
      = List.zipWith (· * ·) (a.take k) (b.take k) ++ List.zipWith (· * ·) (a.drop k) (b.drop k) := by
  induction k generalizing a b with
  | zero => simp
  | succ k ih => cases a <;> cases b <;> simp [← ih]

theorem inner_cint (a b : List ℤ) (h : a.length = b.length) (hlo : lo ≤ -hi) :
    ∃ r : CInt lo hi, inner (ints lo hi a) (ints lo hi b) = .ok r ∧
      (∀ s, r.val = .ok s → s = (List.zipWith (· * ·) a b).sum) ∧
      (((List.zipWith (· * ·) a b).map abs).sum ≤ hi →
        r.val = .ok (List.zipWith (· * ·) a b).sum) := by
  unfold inner innerOp
  induction hn : a.length using Nat.strong_induction_on generalizing a b with
  | _ n ih =>
    rw [pairwiseAcc2]
    have la : (ints lo hi a).length = n := by simp [ints, hn]
    have lb : (ints lo hi b).length = n := by simp [ints, ← h, hn]
    rw [if_neg (by rw [la, lb]; simp)]
    by_cases hle : (ints lo hi a).length ≤ pwBlock
    · rw [if_pos hle]
      obtain ⟨r, h1, h2, h3⟩ := innerLoop_cint (0 : CInt lo hi) a b h hlo
      refine ⟨r, h1, fun s hs => ?_, fun hb => ?_⟩
      · obtain ⟨e, he, rfl⟩ := h2 s hs
        have : e = 0 := by
          have he' : (Res.ok (0:ℤ)) = .ok e := he
          simpa using he'.symm
        rw [this, zero_add]
      · have := h3 0 rfl (by simpa using hb)
        simpa using this
    · rw [if_neg hle, la]
      have hgt : 64 < n := by rw [la] at hle; simpa using hle
      have tk : ∀ (l : List ℤ) (k : ℕ), (ints lo hi l).take k = ints lo hi (l.take k) := by
        intro l k; simp [ints, List.map_take]
      have dr : ∀ (l : List ℤ) (k : ℕ), (ints lo hi l).drop k = ints lo hi (l.drop k) := by
        intro l k; simp [ints, List.map_drop]
      rw [tk, tk, dr, dr]
      obtain ⟨r1, f1, f2, f3⟩ := ih (a.take (n / 2)).length (by rw [List.length_take, hn]; omega) (a.take (n / 2)) (b.take (n / 2))
        (by simp [h]) rfl
      obtain ⟨r2, g1, g2, g3⟩ := ih (a.drop (n / 2)).length (by rw [List.length_drop, hn]; omega) (a.drop (n / 2)) (b.drop (n / 2))
        (by simp [h]) rfl
      rw [f1, g1]
      have hx : (r1 + r2).val = r1.val >>= fun x => r2.val >>= fun y => chk lo hi (x + y) := rfl
      have hz := zipWith_split a b (n / 2)
      refine ⟨r1 + r2, rfl, fun s hs => ?_, fun hb => ?_⟩
      · rw [hx] at hs
        obtain ⟨x, h5, h6⟩ := Res.bind_eq_ok'.mp hs
        obtain ⟨y, h7, h8⟩ := Res.bind_eq_ok'.mp h6
        obtain ⟨-, rfl⟩ := chk_ok.mp h8
        rw [hz, List.sum_append, f2 x h5, g2 y h7]
      · rw [hz, List.map_append, List.sum_append] at hb
        have n1 := abs_sum_nonnegZ (List.zipWith (· * ·) (a.take (n / 2)) (b.take (n / 2)))
        have n2 := abs_sum_nonnegZ (List.zipWith (· * ·) (a.drop (n / 2)) (b.drop (n / 2)))
        rw [hx, f3 (by linarith), g3 (by linarith), Res.bind_ok, Res.bind_ok, hz, List.sum_append]
        refine chk_ok.mpr ⟨?_, rfl⟩
        have t1 := abs_sum_leZ (List.zipWith (· * ·) (a.take (n / 2)) (b.take (n / 2)))
        have t2 := abs_sum_leZ (List.zipWith (· * ·) (a.drop (n / 2)) (b.drop (n / 2)))
        have t3 := abs_add_le (List.zipWith (· * ·) (a.take (n / 2)) (b.take (n / 2))).sum
          (List.zipWith (· * ·) (a.drop (n / 2)) (b.drop (n / 2))).sum
        have h9 := t3.trans ((add_le_add t1 t2).trans hb)
        rw [abs_le] at h9
        exact ⟨by linarith [h9.1], h9.2⟩

/-- C95: `inner`/`dot`/`vdot` of signed integers.  When defined, the arrays have the same length and
the result is the exact scalar product; and it is defined, in whatever order the pairs are, when the
absolute values of the products add up to a representable number. -/
theorem C95_inner (lo hi : ℤ) (hlo : lo ≤ -hi) (a b : List ℤ) :
    (∀ s, innerInt lo hi a b = .ok s →
      a.length = b.length ∧ s = (List.zipWith (· * ·) a b).sum) ∧
    (a.length = b.length → ((List.zipWith (· * ·) a b).map abs).sum ≤ hi →
      innerInt lo hi a b = .ok (List.zipWith (· * ·) a b).sum) := by
  by_cases h : a.length = b.length
  · obtain ⟨r, h1, h2, h3⟩ := inner_cint (lo := lo) (hi := hi) a b h hlo
    unfold innerInt
    rw [h1, Res.bind_ok]
    exact ⟨fun s hs => ⟨h, h2 s hs⟩, fun _ hb => h3 hb⟩
  · refine ⟨fun s hs => ?_, fun h' => absurd h' h⟩
    unfold innerInt at hs
    rw [inner, innerOp_ub _ _ _ (by simpa [ints] using h)] at hs
    cases hs

example : innerInt (-128) 127 [100, -5, 3] [1, 4, 9] = .ok 107 ∧
    innerInt (-128) 127 [100, 50, -50] [1, 1, 1] = .ub := by
  constructor <;> decide +kernel

/-! ### C95 — median -/

open Spec

theorem medianInplace_id (nth : NthImpl ℤ) (l : List ℤ) (h : 0 < l.length) :
    medianInplace nth 0 id l =
      if l.length % 2 = 1 then .ok (orderStat l (l.length / 2) (by omega))
      else .ok (orderStat l (l.length / 2 - 1) (by omega) + orderStat l (l.length / 2) (by omega)) := by
  unfold medianInplace
  have hc := nth.correct (l.length / 2) l
  have hlt : l.length / 2 < l.length := by omega
  simp only []
  rw [if_neg (by omega)]
  by_cases hodd : l.length % 2 = 1
  · rw [if_pos (by omega), if_pos hodd, nth_eq hc hlt]
  · rw [if_neg (by omega), if_neg hodd, nth_eq hc hlt]
    obtain ⟨x, xs, e, hm⟩ := max_before hc hlt (by omega)
    rw [e]
    simp only [Res.bind_ok, Res.pure_eq, id_eq]
    rw [hm]

/-- C95: `median` of signed integers, for every correct `nth_element`.  Of an odd number of elements
it is always defined and is the middle order statistic; of an even number it is defined exactly when
the **sum** of the two middle order statistics is representable, and then it is half that sum,
truncated towards zero. -/
theorem C95_median (lo hi : ℤ) (nth : NthImpl ℤ) (l : List ℤ) (h : 0 < l.length) :
    (l.length % 2 = 1 → medianIntR lo hi nth l = .ok (orderStat l (l.length / 2) (by omega))) ∧
    (l.length % 2 = 0 → ∀ m, medianIntR lo hi nth l = .ok m ↔
      Repr' lo hi (orderStat l (l.length / 2 - 1) (by omega) + orderStat l (l.length / 2) (by omega)) ∧
      m = (orderStat l (l.length / 2 - 1) (by omega) + orderStat l (l.length / 2) (by omega)).tdiv 2) := by
  constructor
  · intro ho
    unfold medianIntR
    rw [if_pos (Or.inl (by omega)), medianInplace_id nth l h, if_pos ho]
  · intro he m
    unfold medianIntR
    rw [if_neg (by omega), medianInplace_id nth l h, if_neg (by omega), Res.bind_ok]
    generalize orderStat l (l.length / 2 - 1) _ + orderStat l (l.length / 2) _ = s
    constructor
    · intro hm
      obtain ⟨t, h1, h2⟩ := Res.bind_eq_ok'.mp hm
      obtain ⟨hr, rfl⟩ := chk_ok.mp h1
      simp only [Res.ok.injEq] at h2
      exact ⟨hr, h2.symm⟩
    · rintro ⟨hr, rfl⟩
      rw [chk_ok.mpr ⟨hr, rfl⟩]; rfl

/-- C95, "the median of representable integers is defined" is false of the code:
`median({INT_MAX, INT_MAX})` overflows, for every correct `nth_element`. -/
theorem C95_median_false (nth : NthImpl ℤ) :
    medianIntR (-2147483648) 2147483647 nth [2147483647, 2147483647] = .ub := by
  have hs : orderStat ([2147483647, 2147483647] : List ℤ) 0 (by simp) = 2147483647 ∧
      orderStat ([2147483647, 2147483647] : List ℤ) 1 (by simp) = 2147483647 := by
    constructor <;> decide +kernel
  have h := (C95_median (-2147483648) 2147483647 nth [2147483647, 2147483647] (by simp)).2 rfl
  cases hr : medianIntR (-2147483648) 2147483647 nth [2147483647, 2147483647] with
  | ub => rfl
  | ok m =>
    have := ((h m).mp hr).1
    have e1 := hs.1
    have e2 := hs.2
    simp only [List.length_cons, List.length_nil, Nat.zero_add, Nat.reduceAdd, Nat.reduceDiv,
      Nat.reduceSub, e1, e2] at this
    exact absurd this (by decide)

/-- A case: the median of `{7, -3, 9, 4}` on `int`. -/
example (nth : NthImpl ℤ) : medianIntR (-2147483648) 2147483647 nth [7, -3, 9, 4] = .ok 5 := by
  refine ((C95_median _ _ nth [7, -3, 9, 4] (by simp)).2 rfl 5).mpr ?_
  constructor <;> decide +kernel

end
end SciCpp
