import Verif.Props.FloatSign
/-
  Property theorems C91: how NaN and infinities in the data show in the results of the reductions.

  Arithmetic: `RFl rnd` for every rounding function (in particular binary64, without overflow).
-/
set_option linter.unusedSimpArgs false

namespace SciCpp

/-! ### the primitives of the model -/

/-- An indexed read succeeds exactly inside the array, and gives the element. -/
theorem prim_rd_iff {α : Type} (l : List α) (i : ℤ) (x : α) :
    rd l i = .ok x ↔ 0 ≤ i ∧ l[i.toNat]? = some x := by
  unfold rd
  by_cases h : 0 ≤ i
  · rw [if_pos h]
    cases l[i.toNat]? <;> simp [h]
  · simp [h]

/-- An indexed write succeeds exactly inside the array; it changes that element and no other. -/
theorem prim_wr_iff {α : Type} (l l' : List α) (i : ℤ) (x : α) :
    wr l i x = .ok l' ↔ 0 ≤ i ∧ i < l.length ∧ l'.length = l.length ∧
      ∀ j : ℕ, l'[j]? = if (j : ℤ) = i then some x else l[j]? := by
  unfold wr
  by_cases h : 0 ≤ i ∧ i.toNat < l.length
  · rw [if_pos h]
    constructor
    · intro e
      cases e
      refine ⟨h.1, by omega, by simp, fun j => ?_⟩
      rw [List.getElem?_set]
      by_cases hj : (j : ℤ) = i
      · rw [if_pos hj, if_pos (by omega), if_pos h.2]
      · rw [if_neg hj, if_neg (by omega)]
    · rintro ⟨_, _, h3, h4⟩
      congr 1
      apply List.ext_getElem?
      intro j
      rw [h4 j, List.getElem?_set]
      by_cases hj : (j : ℤ) = i
      · rw [if_pos hj, if_pos (by omega), if_pos h.2]
      · rw [if_neg hj, if_neg (by omega)]
  · rw [if_neg h]
    constructor
    · intro e; cases e
    · rintro ⟨h1, h2, _⟩
      exact absurd ⟨h1, by omega⟩ h

variable {rnd : ℚ → ℚ}

/-! ### sums -/

/-- The class of a floating point value. -/
inductive Cls where
  | fin
  | pos
  | neg
  | nan
deriving DecidableEq

namespace Cls

/-- The class of a sum of two values. -/
def add : Cls → Cls → Cls
  | nan, _ => nan
  | _, nan => nan
  | fin, b => b
  | a, fin => a
  | pos, pos => pos
  | neg, neg => neg
  | pos, neg => nan
  | neg, pos => nan

instance : Add Cls := ⟨add⟩
instance : Zero Cls := ⟨fin⟩

instance : AddMonoid Cls where
  add_assoc a b c := by cases a <;> cases b <;> cases c <;> rfl
  zero_add a := by cases a <;> rfl
  add_zero a := by cases a <;> rfl
  nsmul := nsmulRec

/-- The class of a value. -/
def of : RFl rnd → Cls
  | Fl.nan => nan
  | Fl.inf false => pos
  | Fl.inf true => neg
  | Fl.fin _ => fin

theorem of_add (x y : RFl rnd) : of (x + y) = of x + of y := by
  rcases x with _ | (_ | _) | x <;> rcases y with _ | (_ | _) | y <;> rfl

theorem sum_eq (L : List Cls) :
    (L.sum = nan ↔ nan ∈ L ∨ pos ∈ L ∧ neg ∈ L) ∧
    (L.sum = pos ↔ pos ∈ L ∧ nan ∉ L ∧ neg ∉ L) ∧
    (L.sum = neg ↔ neg ∈ L ∧ nan ∉ L ∧ pos ∉ L) ∧
    (L.sum = fin ↔ ∀ c ∈ L, c = fin) := by
  induction L with
  | nil => decide
  | cons c L ih =>
    obtain ⟨h1, h2, h3, h4⟩ := ih
    have hall : (∀ c ∈ L, c = fin) ↔ nan ∉ L ∧ pos ∉ L ∧ neg ∉ L := by
      constructor
      · intro h
        refine ⟨fun hh => ?_, fun hh => ?_, fun hh => ?_⟩ <;> cases h _ hh
      · rintro ⟨a, b, d⟩ c hc
        cases c with
        | fin => rfl
        | pos => exact absurd hc b
        | neg => exact absurd hc d
        | nan => exact absurd hc a
    rw [hall] at h4
    simp only [List.sum_cons, List.mem_cons, forall_eq_or_imp, hall]
    generalize L.sum = s at *
    have hadd : ∀ a b : Cls, a + b = add a b := fun _ _ => rfl
    by_cases a : nan ∈ L <;> by_cases b : pos ∈ L <;> by_cases d : neg ∈ L <;>
      simp only [a, b, d, true_or, false_or, not_true_eq_false, not_false_eq_true, and_true, and_false,
        true_and, false_and, iff_true, iff_false, or_true, or_false, and_self] at h1 h2 h3 h4 <;>
      (try subst h1) <;> (try subst h2) <;> (try subst h3) <;> (try subst h4) <;>
      (cases c <;> simp [a, b, d, hadd, add])

end Cls

theorem of_nan_iff (x : RFl rnd) : Cls.of x = .nan ↔ x = RFl.nan := by
  rcases x with _ | (_ | _) | x
  · exact ⟨fun _ => rfl, fun _ => rfl⟩
  all_goals exact ⟨(fun h => by cases h), (fun h => by cases h)⟩
theorem of_pos_iff (x : RFl rnd) : Cls.of x = .pos ↔ x = RFl.inf false := by
  rcases x with _ | (_ | _) | x
  rotate_left
  · exact ⟨fun _ => rfl, fun _ => rfl⟩
  all_goals exact ⟨(fun h => by cases h), (fun h => by cases h)⟩
theorem of_neg_iff (x : RFl rnd) : Cls.of x = .neg ↔ x = RFl.inf true := by
  rcases x with _ | (_ | _) | x
  rotate_left 2
  · exact ⟨fun _ => rfl, fun _ => rfl⟩
  all_goals exact ⟨(fun h => by cases h), (fun h => by cases h)⟩
theorem of_fin_iff (x : RFl rnd) : Cls.of x = .fin ↔ ∃ q, x = RFl.fin q := by
  rcases x with _ | (_ | _) | x
  rotate_left 3
  · exact ⟨fun _ => ⟨x, rfl⟩, fun _ => rfl⟩
  all_goals exact ⟨(fun h => by cases h), (fun ⟨q, h⟩ => by cases h)⟩

theorem mem_map_of (L : List (RFl rnd)) :
    (Cls.nan ∈ L.map Cls.of ↔ RFl.nan ∈ L) ∧ (Cls.pos ∈ L.map Cls.of ↔ RFl.inf false ∈ L) ∧
    (Cls.neg ∈ L.map Cls.of ↔ RFl.inf true ∈ L) := by
  simp only [List.mem_map, of_nan_iff, of_pos_iff, of_neg_iff, exists_eq_right, and_self]

theorem sumF_class (i : Bool) (l : List (RFl rnd)) (p : RFl rnd → Bool) :
    Cls.of (sumF i l p).1 = ((l.filter p).map Cls.of).sum := by
  have hfold : ∀ (L : List (RFl rnd)) (a : RFl rnd),
      Cls.of (L.foldl (· + ·) a) = Cls.of a + (L.map Cls.of).sum := by
    intro L
    induction L with
    | nil => intro a; simp
    | cons x L ih => intro a; rw [List.foldl_cons, ih, Cls.of_add, List.map_cons, List.sum_cons, add_assoc]
  have hblock : ∀ l : List (RFl rnd),
      Cls.of (filterReduce l (· + ·) 0 p).1 = ((l.filter p).map Cls.of).sum := by
    intro l
    rw [filterReduce_eq]
    simp only [hfold]
    exact zero_add _
  unfold sumF filterReduceAssoc
  split_ifs
  · exact hblock l
  · induction hn : l.length using Nat.strong_induction_on generalizing l with
    | _ n ih =>
      subst hn
      unfold pairwiseAcc
      split
      · exact hblock l
      · rename_i hc
        simp only [pwBlock, not_le] at hc
        simp only [Cls.of_add, ih _ (show (l.take (l.length / 2)).length < l.length by simp; omega) _ rfl,
          ih _ (show (l.drop (l.length / 2)).length < l.length by simp; omega) _ rfl]
        rw [← List.sum_append, ← List.map_append, ← List.filter_append, List.take_append_drop]

/-- What a sum of the values `L` is by the rules for special values: NaN if there is a NaN or infinities of
both signs, the infinity if there is one (of one sign), finite if all are finite. -/
structure SumSpecial (L : List (RFl rnd)) (v : RFl rnd) : Prop where
  nan : v = RFl.nan ↔ RFl.nan ∈ L ∨ RFl.inf false ∈ L ∧ RFl.inf true ∈ L
  inf : ∀ s, v = RFl.inf s ↔ RFl.inf s ∈ L ∧ RFl.nan ∉ L ∧ RFl.inf (!s) ∉ L
  fin : (∃ q, v = RFl.fin q) ↔ ∀ x ∈ L, ∃ q, x = RFl.fin q

theorem sumSpecial_of (L : List (RFl rnd)) (v : RFl rnd) (h : Cls.of v = (L.map Cls.of).sum) :
    SumSpecial L v := by
  obtain ⟨h1, h2, h3, h4⟩ := Cls.sum_eq (L.map Cls.of)
  obtain ⟨m1, m2, m3⟩ := mem_map_of L
  rw [← h, m1, m2, m3] at h1 h2 h3
  rw [← h] at h4
  refine ⟨by rw [← of_nan_iff, h1], fun s => ?_, ?_⟩
  · cases s
    · rw [← of_pos_iff, h2]; rfl
    · rw [← of_neg_iff, h3]; rfl
  · rw [← of_fin_iff, h4]
    simp only [List.mem_map, forall_exists_index, and_imp, forall_apply_eq_imp_iff₂, of_fin_iff]

/-- C91: the sum of the accepted elements is NaN exactly when one of them is NaN or infinities of both signs
are among them, infinite exactly when infinities of one sign only are among them, and finite exactly when
they are all finite: whatever the rounding, the blocking, the length and the order. -/
theorem C91_sum (i : Bool) (l : List (RFl rnd)) (p : RFl rnd → Bool) :
    SumSpecial (l.filter p) (sumF i l p).1 :=
  sumSpecial_of _ _ (sumF_class i l p)

/-- C91: the same for the mean, when at least one element is accepted (the mean of no element is NaN). -/
theorem C91_mean (hp : ∀ q, 0 < q → 0 < rnd q) (l : List (RFl rnd)) (p : RFl rnd → Bool)
    (hlen : l.length < 2 ^ 31) (hne : l.filter p ≠ []) : SumSpecial (l.filter p) (mean l p) := by
  apply sumSpecial_of
  rw [← sumF_class false l p]
  have hpos : 0 < (l.filter p).length := List.length_pos_iff.mpr hne
  have hle := List.length_filter_le p l
  unfold mean
  rw [if_neg (by omega)]
  simp only [sumF_count, RFl.ofInt_def]
  rw [toI32_of_lt (by omega) (by generalize l.length = L at *; omega)]
  have hq := hp (((l.filter p).length : ℕ) : ℚ) (by exact_mod_cast hpos)
  push_cast
  generalize (sumF false l p).1 = v
  generalize rnd (((l.filter p).length : ℕ) : ℚ) = d at hq ⊢
  rcases v with _ | (_ | _) | v
  · rfl
  · show Cls.of (RFl.inf (false != decide (d < 0))) = _
    rw [decide_eq_false (by linarith)]; rfl
  · show Cls.of (RFl.inf (true != decide (d < 0))) = _
    rw [decide_eq_false (by linarith)]; rfl
  · show Cls.of (RFl.round rnd (if d = 0 then _ else _)) = _
    rw [if_neg hq.ne']; rfl

/-- C91: `nansum` (the sum of the elements that are not NaN) is NaN exactly when infinities of both signs are
present. -/
theorem C91_nansum (i : Bool) (l : List (RFl rnd)) :
    (sumF i l (fun x => !x.isNan)).1 = RFl.nan ↔ RFl.inf false ∈ l ∧ RFl.inf true ∈ l := by
  rw [(C91_sum i l _).nan]
  rw [List.mem_filter, List.mem_filter, List.mem_filter]
  simp only [show (RFl.nan : RFl rnd).isNan = true from rfl, show ∀ s, (RFl.inf s : RFl rnd).isNan = false from
    fun _ => rfl, Bool.not_true, Bool.not_false, and_true, Bool.false_eq_true, and_false, false_or]

example : (sumF false [RFl.inf false, RFl.fin 1, RFl.inf true] (fun _ => true)).1 = (RFl.nan : F64) ∧
    (sumF false [RFl.inf false, RFl.fin 1, RFl.inf false] (fun _ => true)).1 = (RFl.inf false : F64) := by
  constructor
  · rw [(C91_sum false _ _).nan]; decide
  · rw [(C91_sum false _ _).inf]; decide

/-! ### covariance -/

/-- Neither NaN nor infinite. -/
def RFl.Finite (x : RFl rnd) : Prop := ∃ q, x = RFl.fin q

theorem sub_mean_nan (hp : ∀ q, 0 < q → 0 < rnd q) (l : List (RFl rnd)) (p : RFl rnd → Bool)
    (hlen : l.length < 2 ^ 31) (x : RFl rnd) (hx : x ∈ l) (hpx : p x = true) (hf : ¬ x.Finite) :
    x - mean l p = RFl.nan := by
  have hm : x ∈ l.filter p := List.mem_filter.mpr ⟨hx, hpx⟩
  have hS := C91_mean hp l p hlen (List.ne_nil_of_mem hm)
  rcases x with _ | s | q
  · rfl
  · by_cases hn : mean l p = RFl.nan
    · rw [hn]; cases s <;> rfl
    · have h1 : mean l p = RFl.inf s := by
        rw [hS.inf]
        refine ⟨hm, fun h => hn (hS.nan.mpr (Or.inl h)), fun h => hn (hS.nan.mpr (Or.inr ?_))⟩
        cases s
        · exact ⟨hm, h⟩
        · exact ⟨h, hm⟩
      rw [h1]
      have := RFl.inf_sub_inf (rnd := rnd) s s
      rw [if_pos rfl] at this
      exact this
  · exact absurd ⟨q, rfl⟩ hf

theorem covLoop_ok (p : RFl rnd → Bool) (m1 m2 : RFl rnd) (a b : List (RFl rnd)) (h : a.length = b.length)
    (r : RFl rnd) (n : ℕ) : ∃ r', covLoop p m1 m2 r n a b =
      .ok (r', n + ((a.zip b).filter fun z => p z.1 && p z.2).length) ∧ (r = RFl.nan → r' = RFl.nan) := by
  induction a generalizing b r n with
  | nil =>
    have : b = [] := List.length_eq_zero_iff.mp h.symm
    subst this; exact ⟨r, rfl, id⟩
  | cons x a ih =>
    rcases b with _ | ⟨y, b⟩
    · simp at h
    · rw [covLoop]
      by_cases hp : (p x && p y) = true
      · rw [if_pos hp]
        obtain ⟨r', e, hr⟩ := ih b (by simpa using h) (r + (x - m1) * CppNum.conj (y - m2)) (n + 1)
        refine ⟨r', ?_, fun hn => hr (by rw [hn, RFl.nan_add])⟩
        rw [e, List.zip_cons_cons, List.filter_cons, if_pos hp, List.length_cons]
        congr 2; omega
      · rw [if_neg hp]
        obtain ⟨r', e, hr⟩ := ih b (by simpa using h) r n
        exact ⟨r', by rw [e, List.zip_cons_cons, List.filter_cons, if_neg hp], hr⟩

theorem covLoop_nan (p : RFl rnd → Bool) (m1 m2 : RFl rnd) (a b : List (RFl rnd)) (h : a.length = b.length)
    (r : RFl rnd) (n : ℕ) (hz : ∃ z ∈ a.zip b, p z.1 = true ∧ p z.2 = true ∧
      (z.1 - m1 = RFl.nan ∨ z.2 - m2 = RFl.nan)) :
    ∃ c, covLoop p m1 m2 r n a b = .ok (RFl.nan, c) := by
  induction a generalizing b r n with
  | nil => simp at hz
  | cons x a ih =>
    rcases b with _ | ⟨y, b⟩
    · simp at h
    · obtain ⟨z, hz, p1, p2, hn⟩ := hz
      rw [List.zip_cons_cons, List.mem_cons] at hz
      rw [covLoop]
      rcases hz with rfl | hz
      · rw [if_pos (by simp [p1, p2])]
        obtain ⟨r', e, hr⟩ := covLoop_ok p m1 m2 a b (by simpa using h) (r + (x - m1) * CppNum.conj (y - m2)) (n + 1)
        rw [e, hr]
        · exact ⟨_, rfl⟩
        · rw [RFl.conj_def]
          rcases hn with hn | hn <;> simp only [] at hn <;> rw [hn]
          · rw [RFl.nan_mul, RFl.add_nan]
          · rw [RFl.mul_nan, RFl.add_nan]
      · split_ifs
        · exact ih b (by simpa using h) _ _ ⟨z, hz, p1, p2, hn⟩
        · exact ih b (by simpa using h) _ _ ⟨z, hz, p1, p2, hn⟩

/-- Two arrays whose pairs the filter accepts include a NaN or an infinity. -/
def BadPair (p : RFl rnd → Bool) (a b : List (RFl rnd)) : Prop :=
  ∃ z ∈ a.zip b, p z.1 = true ∧ p z.2 = true ∧ (¬ z.1.Finite ∨ ¬ z.2.Finite)

theorem cov_pairwise_nan (hp : ∀ q, 0 < q → 0 < rnd q) (p : RFl rnd → Bool) (a b : List (RFl rnd))
    (h : a.length = b.length) (hlen : a.length < 2 ^ 31) :
    ∃ m1 m2 r, pairwiseAcc2 pwBlock (covBlock p) covCombine a b =
      .ok (m1, m2, r, ((a.zip b).filter fun z => p z.1 && p z.2).length) ∧ (BadPair p a b → r = RFl.nan) := by
  induction hn : a.length using Nat.strong_induction_on generalizing a b with
  | _ n ih =>
    subst hn
    unfold pairwiseAcc2
    rw [if_neg (by simp [h])]
    split
    · obtain ⟨r, e, _⟩ := covLoop_ok p (mean a p) (mean b p) a b h 0 0
      refine ⟨mean a p, mean b p, r, ?_, fun hb => ?_⟩
      · unfold covBlock
        simp only [e, Res.bind_ok, Res.pure_eq, Nat.zero_add]
      · obtain ⟨z, hz, p1, p2, hf⟩ := hb
        have hz' : (z.1, z.2) ∈ a.zip b := hz
        obtain ⟨i1, i2⟩ := List.of_mem_zip hz'
        obtain ⟨c, e'⟩ := covLoop_nan p (mean a p) (mean b p) a b h 0 0 ⟨z, hz, p1, p2, by
          rcases hf with hf | hf
          · exact Or.inl (sub_mean_nan hp a p hlen z.1 i1 p1 hf)
          · exact Or.inr (sub_mean_nan hp b p (by omega) z.2 i2 p2 hf)⟩
        rw [e] at e'
        exact congrArg Prod.fst (Res.ok.inj e')
    · rename_i hgt
      simp only [pwBlock, not_le] at hgt
      have L1 : (a.take (a.length / 2)).length = a.length / 2 := by simp; omega
      have L2 : (a.drop (a.length / 2)).length = a.length - a.length / 2 := by simp
      have M1 : (b.take (a.length / 2)).length = a.length / 2 := by simp; omega
      have M2 : (b.drop (a.length / 2)).length = a.length - a.length / 2 := by simp [h]
      obtain ⟨m1, n1, r1, e1, k1⟩ := ih _ (by omega) (a.take (a.length / 2)) (b.take (a.length / 2))
        (by omega) (by omega) rfl
      obtain ⟨m2, n2, r2, e2, k2⟩ := ih _ (by omega) (a.drop (a.length / 2)) (b.drop (a.length / 2))
        (by omega) (by omega) rfl
      rw [e1, e2]
      have hzip : a.zip b = (a.take (a.length / 2)).zip (b.take (a.length / 2)) ++
          (a.drop (a.length / 2)).zip (b.drop (a.length / 2)) := by
        rw [← List.zip_append (by rw [L1, M1]), List.take_append_drop, List.take_append_drop]
      simp only [Res.bind_ok, Res.pure_eq, covCombine]
      refine ⟨_, _, _, by rw [hzip, List.filter_append, List.length_append], ?_⟩
      · rintro ⟨z, hz, hh⟩
        rw [hzip, List.mem_append] at hz
        rcases hz with hz | hz
        · rw [k1 ⟨z, hz, hh⟩, RFl.nan_add, RFl.nan_add]
        · rw [k2 ⟨z, hz, hh⟩, RFl.add_nan, RFl.nan_add]

/-- C91: if an accepted pair of elements contains a NaN or an infinity, the covariance is NaN (when the number
of accepted pairs exceeds the degrees of freedom): whatever the rounding, the blocking, the length and the
position of the element. -/
theorem C91_covariance (hp : ∀ q, 0 < q → 0 < rnd q) (ddof : ℤ) (p : RFl rnd → Bool) (a b : List (RFl rnd))
    (h : a.length = b.length) (hlen : a.length < 2 ^ 31)
    (hbad : ∃ z ∈ a.zip b, p z.1 = true ∧ p z.2 = true ∧ (¬ z.1.Finite ∨ ¬ z.2.Finite))
    (hd : ddof < ((a.zip b).filter fun z => p z.1 && p z.2).length) :
    ∃ c, covarianceF ddof a b p = .ok (RFl.nan, c) := by
  obtain ⟨m1, m2, r, e, hr⟩ := cov_pairwise_nan hp p a b h hlen
  have hr := hr hbad
  subst hr
  have hne : a.length ≠ 0 := by
    obtain ⟨z, hz, _⟩ := hbad
    intro h0
    rw [List.length_eq_zero_iff.mp h0] at hz
    simp at hz
  unfold covarianceF
  have e1 : (a.length == b.length) = true := by simp [h]
  simp only [e1, require_true, Res.bind_ok, if_neg hne, e, Res.pure_eq]
  rw [if_neg (by omega)]
  exact ⟨_, rfl⟩

/-- C91: the variance of data with an accepted NaN or infinity is NaN. -/
theorem C91_var (hp : ∀ q, 0 < q → 0 < rnd q) (ddof : ℤ) (p : RFl rnd → Bool) (a : List (RFl rnd))
    (hlen : a.length < 2 ^ 31) (hbad : ∃ x ∈ a, p x = true ∧ ¬ x.Finite)
    (hd : ddof < (a.filter p).length) : ∃ c, varF ddof a p = .ok (RFl.nan, c) := by
  have hz : ∀ l : List (RFl rnd), l.zip l = l.map fun x => (x, x) := by
    intro l
    induction l with
    | nil => rfl
    | cons x l ih => rw [List.zip_cons_cons, ih, List.map_cons]
  refine C91_covariance hp ddof p a a rfl hlen ?_ ?_
  · obtain ⟨x, hx, h1, h2⟩ := hbad
    exact ⟨(x, x), by rw [hz]; exact List.mem_map.mpr ⟨x, hx, rfl⟩, h1, h1, Or.inl h2⟩
  · rw [hz, List.filter_map, List.length_map]
    simpa [Function.comp_def] using hd

/-- Binary64 meets the hypothesis on the rounding, and a concrete case. -/
example : ∃ c, varF 0 ([RFl.fin 1, RFl.inf true, RFl.fin 2] : List F64) (fun _ => true) = .ok (RFl.nan, c) :=
  C91_var C89_binary64_rounding.2.2.1 0 _ _ (by norm_num)
    ⟨RFl.inf true, by simp, rfl, by rintro ⟨q, hq⟩; cases hq⟩ (by simp)

/-! ### cumulative sums -/

/-- C91: in a cumulative sum a NaN appears exactly from the first position where the elements so far contain a
NaN or infinities of both signs. -/
theorem C91_cumsum (cat : Cat) (c : Cont) (x : List (RFl rnd)) (i : ℕ) (hi : i < x.length) :
    ∃ v, (cumOp cat c (· + ·) x).1[i]? = some v ∧ SumSpecial (x.take (i + 1)) v := by
  have hval : (cumOp cat c (· + ·) x).1 = partialSum (· + ·) x := by cases cat <;> rfl
  rw [hval]
  have key : ∀ (l : List (RFl rnd)) (acc : RFl rnd) (i : ℕ), i < l.length →
      ∃ v, (partialSumLoop (· + ·) acc l)[i]? = some v ∧
        Cls.of v = Cls.of acc + ((l.take (i + 1)).map Cls.of).sum := by
    intro l
    induction l with
    | nil => intro acc i hi; simp at hi
    | cons y l ih =>
      intro acc i hi
      cases i with
      | zero => exact ⟨acc + y, by rw [partialSumLoop, List.getElem?_cons_zero], by simp [Cls.of_add]⟩
      | succ i =>
        obtain ⟨v, e1, e2⟩ := ih (acc + y) i (by simpa using hi)
        refine ⟨v, by rw [partialSumLoop, List.getElem?_cons_succ]; exact e1, ?_⟩
        rw [e2, Cls.of_add, List.take_succ_cons, List.map_cons, List.sum_cons, add_assoc]
  rcases x with _ | ⟨y, l⟩
  · simp at hi
  · cases i with
    | zero =>
      refine ⟨y, by rw [partialSum, List.getElem?_cons_zero], sumSpecial_of _ _ ?_⟩
      simp
    | succ i =>
      obtain ⟨v, e1, e2⟩ := key l y i (by simpa using hi)
      refine ⟨v, by rw [partialSum, List.getElem?_cons_succ]; exact e1, sumSpecial_of _ _ ?_⟩
      rw [e2, List.take_succ_cons, List.map_cons, List.sum_cons]

end SciCpp
