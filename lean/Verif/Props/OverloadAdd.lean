import Verif.Proofs.OverloadAdd
import Verif.Props.Overload
import Verif.Props.Quantity
import Verif.Props.QSum
/-
  Overload resolution of `+`, `-` and the comparisons (C132).
-/
namespace SciCpp.Ovl

/-- C132: which sums compile and their types, for all operand types, nesting depths and value categories. -/
theorem C132_add (ca cb : Cat) (a b : OT) (n : ℕ) (hn : a.depth + b.depth + 2 ≤ n) : addTy n 3 (ca, a) (cb, b) = Spec.add a b := by
  obtain ⟨m, rfl⟩ : ∃ m, n = m + 1 := ⟨n - 1, by omega⟩
  rcases scalar_or a with ha | ⟨v, rfl⟩ <;> rcases scalar_or b with hb | ⟨w, rfl⟩
  · rw [add_scalar _ _ _ _ ha hb]
    cases a <;> cases b <;> first | rfl | exact ha.elim | exact hb.elim
  · rw [add_over _ _ (by omega) _ _ ha _ (by simp only [OT.depth] at hn ⊢; omega)]
    cases a <;> first | rfl | exact ha.elim
  · rw [addTy_succ _ _ _ _ (builtin_vec_left _ _), arr_left _ _ _ _ _ hb, if_neg (by omega)]
    have hs : Spec.add (.vec v) b = (Spec.scalarSum b v).map .vec := by cases b <;> first | rfl | exact hb.elim
    rw [hs]
    show (addTy m 1 (.constLvalue, b) (.lvalue, v)).map OT.vec = _
    rcases scalar_or v with hv | ⟨v, rfl⟩
    · obtain ⟨k, rfl⟩ : ∃ k, m = k + 1 := ⟨m - 1, by simp only [OT.depth] at hn; omega⟩
      rw [add_scalar _ _ _ _ hb hv]
    · rw [add_right_hidden _ _ _ hb, scalarSum_vec_right]
  · rw [addTy_succ _ _ _ _ (builtin_vec_left _ _), arr_both, if_neg (by omega)]
    show (addTy m 0 (.rvalue, v) (.rvalue, w)).map OT.vec = (Spec.scalarSum v w).map OT.vec
    rcases scalar_or v with hv | ⟨v, rfl⟩ <;> rcases scalar_or w with hw | ⟨w, rfl⟩
    · obtain ⟨k, rfl⟩ : ∃ k, m = k + 1 := ⟨m - 1, by simp only [OT.depth] at hn; omega⟩
      rw [add_scalar _ _ _ _ hv hw]
    · rw [(add_mixed_hidden _ _ _ hv).1, scalarSum_vec_right]
    · rw [(add_mixed_hidden _ _ _ hw).2, scalarSum_vec_left]
    · rw [add_both_hidden _ _ _ _ _ _ (by omega), scalarSum_vec_left]

theorem tyAdd_self_ok (t : QTy) (h : t.dim.Valid ∧ t.scal.Valid) : (ofRes (tyAdd t t)).isSome = true := by
  obtain ⟨s, h1, -⟩ := commonQuantity_ok t t h h rfl
  unfold tyAdd
  rw [if_neg (by simp), h1]; rfl

theorem valid_qty {a : OT} (ha : a.Valid) : ∀ r t, Spec.leaf a = .qty r t → (ofRes (tyAdd t t)).isSome = true := by
  induction a with
  | qty r t => intro r' t' h; cases h; exact tyAdd_self_ok _ ha
  | vec v ih => exact ih ha
  | _ => intro r t h; cases h

/-- C132: which differences compile and their types, for all valid operand types, nesting depths and value categories. -/
theorem C132_sub (ca cb : Cat) (a b : OT) (ha' : a.Valid) (n : ℕ) (hn : a.depth + b.depth + 2 ≤ n) : subTy n 3 (ca, a) (cb, b) = Spec.sub a b := by
  have hc := valid_qty ha'
  obtain ⟨m, rfl⟩ : ∃ m, n = m + 1 := ⟨n - 1, by omega⟩
  rcases scalar_or a with ha | ⟨v, rfl⟩ <;> rcases scalar_or b with hb | ⟨w, rfl⟩
  · rw [sub_scalar _ _ _ _ ha hb (by rwa [leaf_scalar ha] at hc)]
    cases a <;> cases b <;> first | rfl | exact ha.elim | exact hb.elim
  · rw [sub_over _ _ (by omega) _ _ ha (by rwa [leaf_scalar ha] at hc) _ (by simp only [OT.depth] at hn ⊢; omega)]
    cases a <;> first | rfl | exact ha.elim
  · rw [sub_over_left _ _ (by omega) _ _ hb _ hc (by simp only [OT.depth] at hn ⊢; omega)]
    cases b <;> first | rfl | exact hb.elim
  · rw [subTy_succ _ _ _ _ (builtin_vec_left _ _), arr_both, if_neg (by omega)]
    show (subTy m 0 (.rvalue, v) (.rvalue, w)).map OT.vec = (Spec.scalarSum v w).map OT.vec
    rcases scalar_or v with hv | ⟨v, rfl⟩ <;> rcases scalar_or w with hw | ⟨w, rfl⟩
    · obtain ⟨k, rfl⟩ : ∃ k, m = k + 1 := ⟨m - 1, by simp only [OT.depth] at hn; omega⟩
      rw [sub_scalar _ _ _ _ hv hw (by rw [show Spec.leaf (.vec v) = v from leaf_scalar hv] at hc; exact hc)]
    · rw [(sub_mixed_hidden _ _ _ hv).1, scalarSum_vec_right]
    · rw [(sub_mixed_hidden _ _ _ hw).2, scalarSum_vec_left]
    · rw [sub_both_hidden _ _ _ _ _ _ (by omega), scalarSum_vec_left]

/-- C132: the type of a negation. -/
theorem C132_neg (a : OT) : negTy true a = Spec.neg a := by
  cases a with
  | vec v => cases v <;> rfl
  | _ => rfl

/-- C132: which comparisons compile, and how the resulting booleans are nested, for all operand types, nesting depths and value categories. -/
theorem C132_compare (op : Cmp) (ca cb : Cat) (a b : OT) (n : ℕ) (hn : a.depth + b.depth + 5 ≤ n) :
    cmpTy n 12 op (ca, a) (cb, b) = Spec.cmp op a b := by
  obtain ⟨m, rfl⟩ : ∃ m, n = m + 1 := ⟨n - 1, by omega⟩
  rcases scalar_or a with ha | ⟨v, rfl⟩ <;> rcases scalar_or b with hb | ⟨w, rfl⟩
  · rw [cmp_scalar _ _ _ _ _ ha hb]
    cases a <;> cases b <;> first | rfl | exact ha.elim | exact hb.elim
  · have hs : Spec.cmp op a (.vec w) =
        if Spec.scalarCmp op a (Spec.leaf w) = true ∧ (op = .eq ∨ op = .lt ∨ w.depth = 0) then some (w.depth + 1) else none := by
      cases a <;> first | rfl | exact ha.elim
    rw [hs]
    simp only [OT.depth] at hn
    have hd : (OT.vec w).depth = w.depth + 1 := rfl
    cases op with
    | eq =>
      rw [cmpTy_succ _ _ _ _ _ (builtin_vec_right _ _), cmp_right_sel 12 .eq (by simp [cmpDecls]) _ _ _ ha]
      show cmpTy m 2 .eq (.lvalue, .vec w) (.lvalue, a) = _
      rw [eq_over _ _ (by omega) _ _ ha _ (by rw [hd]; omega), scalarCmp_comm]
      simp [Spec.leaf, hd]
    | ne =>
      rw [cmpTy_succ _ _ _ _ _ (builtin_vec_right _ _), cmp_right_sel 12 .ne (by simp [cmpDecls]) _ _ _ ha]
      show (cmpTy m 4 .eq (.lvalue, .vec w) (.lvalue, a)).bind notTy = _
      rw [eq_over _ _ (by omega) _ _ ha _ (by rw [hd]; omega), scalarCmp_comm, scalarCmp_congr .eq .ne rfl, hd, not_ite]
      exact if_congr (by simp [Spec.leaf]) rfl rfl
    | lt =>
      rw [lt_over_right _ _ (by omega) _ _ ha _ (by rw [hd]; omega)]
      simp [Spec.leaf, hd]
    | ge =>
      rw [cmpTy_succ _ _ _ _ _ (builtin_vec_right _ _), cmp_right_sel 12 .ge (by simp [cmpDecls]) _ _ _ ha]
      show (cmpTy m 8 .lt (.lvalue, a) (.lvalue, .vec w)).bind notTy = _
      rw [lt_over_right _ _ (by omega) _ _ ha _ (by rw [hd]; omega), scalarCmp_congr .lt .ge rfl, hd, not_ite]
      exact if_congr (by simp [Spec.leaf]) rfl rfl
    | le =>
      rw [le_right _ _ (by omega) _ _ ha _ (by omega)]
      simp
    | gt =>
      rw [cmpTy_succ _ _ _ _ _ (builtin_vec_right _ _), cmp_right_sel 12 .gt (by simp [cmpDecls]) _ _ _ ha]
      show (cmpTy m 12 .le (.lvalue, a) (.lvalue, .vec w)).bind notTy = _
      rw [le_right _ _ (by omega) _ _ ha _ (by omega), scalarCmp_congr .le .gt rfl, not_ite]
      simp
  · have hs : Spec.cmp op (.vec v) b =
        if Spec.scalarCmp op (Spec.leaf v) b = true ∧ (op = .eq ∨ op = .lt ∨ v.depth = 0) then some (v.depth + 1) else none := by
      cases b <;> first | rfl | exact hb.elim
    rw [hs]
    simp only [OT.depth] at hn
    have hd : (OT.vec v).depth = v.depth + 1 := rfl
    cases op with
    | eq =>
      rw [eq_over _ _ (by omega) _ _ hb _ (by rw [hd]; omega)]
      simp [Spec.leaf, hd]
    | ne =>
      rw [cmpTy_succ _ _ _ _ _ (builtin_vec_left _ _), cmp_left_sel 12 .ne (by simp [cmpDecls]) _ _ _ hb]
      show (cmpTy m 3 .eq (.lvalue, .vec v) (.lvalue, b)).bind notTy = _
      rw [eq_over _ _ (by omega) _ _ hb _ (by rw [hd]; omega), scalarCmp_congr .eq .ne rfl, hd, not_ite]
      exact if_congr (by simp [Spec.leaf]) rfl rfl
    | lt =>
      rw [lt_over _ _ (by omega) _ _ hb _ (by rw [hd]; omega)]
      simp [Spec.leaf, hd]
    | ge =>
      rw [cmpTy_succ _ _ _ _ _ (builtin_vec_left _ _), cmp_left_sel 12 .ge (by simp [cmpDecls]) _ _ _ hb]
      show (cmpTy m 6 .lt (.lvalue, .vec v) (.lvalue, b)).bind notTy = _
      rw [lt_over _ _ (by omega) _ _ hb _ (by rw [hd]; omega), scalarCmp_congr .lt .ge rfl, hd, not_ite]
      exact if_congr (by simp [Spec.leaf]) rfl rfl
    | le =>
      rw [le_left _ _ (by omega) _ _ hb _ (by omega)]
      simp
    | gt =>
      rw [cmpTy_succ _ _ _ _ _ (builtin_vec_left _ _), cmp_left_sel 12 .gt (by simp [cmpDecls]) _ _ _ hb]
      show (cmpTy m 11 .le (.lvalue, .vec v) (.lvalue, b)).bind notTy = _
      rw [le_left _ _ (by omega) _ _ hb _ (by omega), scalarCmp_congr .le .gt rfl, not_ite]
      simp
  · rw [cmpTy_succ _ _ _ _ _ (builtin_vec_left _ _), cmp_both_sel]
    show _ = if v = w ∧ Spec.scalarCmp op (Spec.leaf v) (Spec.leaf v) = true then some 0 else none
    by_cases e : v = w
    · subst e
      rw [if_pos rfl]
      show (match cmpTy m 0 (if op = .eq ∨ op = .ne then Cmp.eq else .lt) (.constLvalue, v) (.constLvalue, v) with
        | some 0 => some 0
        | _ => none) = _
      rw [whole _ _ _ (by split_ifs <;> simp) _ _ _ (by simp only [OT.depth] at hn; omega),
        scalarCmp_congr (if op = .eq ∨ op = .ne then Cmp.eq else .lt) op (by cases op <;> rfl)]
      by_cases h : Spec.scalarCmp op (Spec.leaf v) (Spec.leaf v) = true
      · simp [h]
      · simp [h]
    · rw [if_neg e, if_neg (fun h => e h.1)]; rfl

/-! #### Consequences -/

/-- C132: no sum, difference or comparison is ever ambiguous. -/
theorem C132_unambiguous (op : Cmp) (ca cb : Cat) (a b : OT) :
    resolve (addFns 3 a.ct) ⟨ca, a.ct⟩ ⟨cb, b.ct⟩ ≠ .ambiguous ∧ resolve (cmpFns 12 op a.ct) ⟨ca, a.ct⟩ ⟨cb, b.ct⟩ ≠ .ambiguous := by
  rcases scalar_or a with ha | ⟨v, rfl⟩ <;> rcases scalar_or b with hb | ⟨w, rfl⟩
  · rw [resolve_scalar _ _ _ ha hb, cmp_scalar_sel _ _ _ _ ha hb]
    have h1 : ∀ a b : OT, selScalar a b ≠ .ambiguous := by
      intro a b
      cases a <;> cases b <;> simp only [selScalar] <;> first | (split_ifs <;> simp) | simp
    refine ⟨by rw [sel_scalar _ _ ha hb]; exact h1 _ _, ?_⟩
    split_ifs
    · rw [sel_scalar _ _ ha hb]; exact h1 _ _
    · rw [sel_member _ _ ha hb]
      cases a <;> cases b <;> first | (simp; done) | (simp only []; split_ifs <;> simp)
  · rw [arr_right _ _ _ _ _ ha, cmp_right_sel 12 op (by cases op <;> simp [cmpDecls]) _ _ _ ha, if_neg (by omega)]
    simp
  · rw [arr_left _ _ _ _ _ hb, cmp_left_sel 12 op (by cases op <;> simp [cmpDecls]) _ _ _ hb, if_neg (by omega)]
    simp
  · rw [arr_both, cmp_both_sel, if_neg (by omega)]
    split_ifs <;> simp

/-- C132: value categories (const, lvalue, temporary) never change which sums, differences and comparisons compile, nor their types. -/
theorem C132_category (op : Cmp) (ca cb ca' cb' : Cat) (a b : OT) (ha : a.Valid) (n : ℕ) (hn : a.depth + b.depth + 5 ≤ n) :
    addTy n 3 (ca, a) (cb, b) = addTy n 3 (ca', a) (cb', b) ∧ subTy n 3 (ca, a) (cb, b) = subTy n 3 (ca', a) (cb', b) ∧
    cmpTy n 12 op (ca, a) (cb, b) = cmpTy n 12 op (ca', a) (cb', b) := by
  refine ⟨?_, ?_, ?_⟩
  · rw [C132_add _ _ _ _ _ (by omega), C132_add _ _ _ _ _ (by omega)]
  · rw [C132_sub _ _ _ _ ha _ (by omega), C132_sub _ _ _ _ ha _ (by omega)]
  · rw [C132_compare _ _ _ _ _ _ hn, C132_compare _ _ _ _ _ _ hn]

theorem commonQuantity_comm (t u : QTy) (hd : t.dim = u.dim) : commonQuantity t u = commonQuantity u t := by
  unfold commonQuantity
  by_cases h : t.off = u.off
  · rw [if_neg (by simp [h]), if_neg (by simp [h]), rrCommon_comm, hd, h]
  · rw [if_pos h, if_pos (Ne.symm h)]

/-- C132: the type of a sum of two scalars does not depend on their order. -/
theorem C132_commutes (ca cb ca' cb' : Cat) (a b : OT) (sa : a.Scalar) (sb : b.Scalar) (n : ℕ) :
    addTy (n + 2) 3 (ca, a) (cb, b) = addTy (n + 2) 3 (ca', b) (cb', a) := by
  rw [add_scalar _ _ _ _ sa sb, add_scalar _ _ _ _ sb sa]
  cases a <;> cases b <;> simp only [Spec.scalarSum, OT.Scalar] at sa sb ⊢
  case num.num r s => rw [common_comm]
  case qty.qty r t s u =>
    by_cases h : r = s ∧ t.dim = u.dim ∧ t.off = u.off
    · rw [if_pos h, if_pos ⟨h.1.symm, h.2.1.symm, h.2.2.symm⟩, commonQuantity_comm _ _ h.2.1, h.1]
    · rw [if_neg h, if_neg (fun g => h ⟨g.1.symm, g.2.1.symm, g.2.2.symm⟩)]
  all_goals
    split_ifs with h1 h2 h2
    · simp_all
    · simp_all
    · simp_all
    · rfl

/-- C132: the same for an array with a scalar, unless it is an array of arrays. -/
theorem C132_commutes_array (ca cb ca' cb' : Cat) (a v : OT) (sa : a.Scalar) (sv : v.Scalar) (n : ℕ) :
    addTy (n + 5) 3 (ca, a) (cb, .vec v) = addTy (n + 5) 3 (ca', .vec v) (cb', a) := by
  have h1 : a.depth = 0 := by cases a <;> first | rfl | exact sa.elim
  have h2 : v.depth = 0 := by cases v <;> first | rfl | exact sv.elim
  rw [C132_add _ _ _ _ _ (by simp only [OT.depth]; omega), C132_add _ _ _ _ _ (by simp only [OT.depth]; omega)]
  have h3 : Spec.add a (.vec v) = (Spec.scalarSum a v).map .vec := by
    cases a <;> cases v <;> first | rfl | exact sa.elim | exact sv.elim
  have h4 : Spec.add (.vec v) a = (Spec.scalarSum a v).map .vec := by cases a <;> first | rfl | exact sa.elim
  rw [h3, h4]

/-- The offset of the unit of the elements. -/
def OT.offVal : OT → ℚ
  | .qty _ t => t.off
  | .cqty _ t => t.off
  | .vec v => v.offVal
  | _ => 0

/-- `c` is a unit for both `a` and `b`: dimensions and offsets agree, and some power of the ratio of the scales is a whole number (the ratio itself, for
scales that are not roots). -/
def IsCommon (a b c : OT) : Prop :=
  c.Valid ∧ c.dimVal = a.dimVal ∧ c.dimVal = b.dimVal ∧ c.offVal = a.offVal ∧ c.offVal = b.offVal ∧
    ∃ k : ℕ, 0 < k ∧ (∃ m : ℕ, 0 < m ∧ (a.scaleVal / c.scaleVal) ^ k = m) ∧ ∃ m : ℕ, 0 < m ∧ (b.scaleVal / c.scaleVal) ^ k = m

theorem ofRes_some {α : Type} {x : Res α} {y : α} (h : ofRes x = some y) : x = .ok y := by
  cases x
  · exact congrArg _ (Option.some.inj h)
  · cases h

theorem RootRatio.val_pos' {r : RootRatio} (h : r.Valid) : r.val ≠ 0 := by
  have h1 : (0 : ℝ) < r.num := by exact_mod_cast h.1
  have h2 : (0 : ℝ) < r.den := by exact_mod_cast h.2.1
  exact (Real.rpow_pos_of_pos (div_pos h1 h2) _).ne'

theorem scalarSum_common (a b c : OT) (ha : a.Valid) (hb : b.Valid) (h : Spec.scalarSum a b = some c) : IsCommon a b c := by
  have one : ∃ k : ℕ, 0 < k ∧ (∃ m : ℕ, 0 < m ∧ ((1 : ℝ) / 1) ^ k = m) ∧ ∃ m : ℕ, 0 < m ∧ ((1 : ℝ) / 1) ^ k = m :=
    ⟨1, one_pos, ⟨1, one_pos, by simp⟩, ⟨1, one_pos, by simp⟩⟩
  have self : ∀ t : QTy, t.dim.Valid ∧ t.scal.Valid →
      ∃ k : ℕ, 0 < k ∧ (∃ m : ℕ, 0 < m ∧ (t.scal.val / t.scal.val) ^ k = m) ∧ ∃ m : ℕ, 0 < m ∧ (t.scal.val / t.scal.val) ^ k = m := fun t ht =>
    ⟨1, one_pos, ⟨1, one_pos, by simp [div_self (RootRatio.val_pos' ht.2)]⟩, ⟨1, one_pos, by simp [div_self (RootRatio.val_pos' ht.2)]⟩⟩
  cases a <;> cases b <;> simp only [Spec.scalarSum, reduceCtorEq] at h
  case num.num => cases h; exact ⟨trivial, rfl, rfl, rfl, rfl, one⟩
  case qty.qty r t s u =>
    obtain ⟨⟨h1, h2, h3⟩, h⟩ := ite_some h
    obtain ⟨w, hw, rfl⟩ := map_some h
    have h := ofRes_some hw
    obtain ⟨g, g1, g2, g3, g4⟩ := C34_common t.scal u.scal ha.2 hb.2
    rw [commonQuantity, if_neg (by simp [h3]), g1] at h
    cases h
    exact ⟨⟨ha.1, g2⟩, rfl, congrArg RootRatio.val h2, rfl, h3, _, Nat.mul_pos ha.2.2.2.1 hb.2.2.2.1, g3, g4⟩
  all_goals
    obtain ⟨h1, h⟩ := ite_some h
    cases h
  case num.cnum => exact ⟨trivial, rfl, rfl, rfl, rfl, one⟩
  case cnum.num => exact ⟨trivial, rfl, rfl, rfl, rfl, one⟩
  case cnum.cnum => exact ⟨trivial, rfl, rfl, rfl, rfl, one⟩
  all_goals
    obtain ⟨rfl, rfl⟩ := h1
    exact ⟨ha, rfl, rfl, rfl, rfl, self _ ha⟩

theorem IsCommon.symm {a b c : OT} (h : IsCommon a b c) : IsCommon b a c :=
  ⟨h.1, h.2.2.1, h.2.1, h.2.2.2.2.1, h.2.2.2.1, h.2.2.2.2.2.imp fun _ g => ⟨g.1, g.2.2, g.2.1⟩⟩

/-- C132: a sum that compiles has the dimension and the offset of both operands, and a scale that both operands' scales are whole multiples of. -/
theorem C132_sum_units (ca cb : Cat) (a b c : OT) (n : ℕ) (hn : a.depth + b.depth + 2 ≤ n) (ha : a.Valid) (hb : b.Valid)
    (h : addTy n 3 (ca, a) (cb, b) = some c) : IsCommon a b c := by
  rw [C132_add ca cb a b n hn] at h
  rcases scalar_or a with sa | ⟨v, rfl⟩ <;> rcases scalar_or b with sb | ⟨w, rfl⟩
  · refine scalarSum_common a b c ha hb ?_
    cases a <;> cases b <;> first | exact h | exact sa.elim | exact sb.elim
  · have h' : (Spec.overArray (Spec.scalarSum a) w).map .vec = some c := by cases a <;> first | exact h | exact sa.elim
    obtain ⟨d, hd, rfl⟩ := map_some h'
    exact overArray_inv _ (fun x c => IsCommon a x c) (fun x c hx hc => scalarSum_common _ _ _ ha hx hc) (fun x c hx => hx) w d hb hd
  · have h' : (Spec.scalarSum b v).map .vec = some c := by cases b <;> first | exact h | exact sb.elim
    obtain ⟨d, hd, rfl⟩ := map_some h'
    exact (scalarSum_common b v d hb ha hd).symm
  · obtain ⟨d, hd, rfl⟩ := map_some h
    exact scalarSum_common v w d ha hb hd

/-- C132: the same for a difference (also when the result is a difference of two temperatures: the offset stays). -/
theorem C132_difference_units (ca cb : Cat) (a b c : OT) (n : ℕ) (hn : a.depth + b.depth + 2 ≤ n) (ha : a.Valid) (hb : b.Valid)
    (h : subTy n 3 (ca, a) (cb, b) = some c) : IsCommon a b c := by
  rw [C132_sub ca cb a b ha n hn] at h
  rcases scalar_or a with sa | ⟨v, rfl⟩ <;> rcases scalar_or b with sb | ⟨w, rfl⟩
  · refine scalarSum_common a b c ha hb ?_
    cases a <;> cases b <;> first | exact h | exact sa.elim | exact sb.elim
  · have h' : (Spec.overArray (Spec.scalarSum a) w).map .vec = some c := by cases a <;> first | exact h | exact sa.elim
    obtain ⟨d, hd, rfl⟩ := map_some h'
    exact overArray_inv _ (fun x c => IsCommon a x c) (fun x c hx hc => scalarSum_common _ _ _ ha hx hc) (fun x c hx => hx) w d hb hd
  · have h' : (Spec.overArray (fun x => Spec.scalarSum x b) v).map .vec = some c := by cases b <;> first | exact h | exact sb.elim
    obtain ⟨d, hd, rfl⟩ := map_some h'
    exact overArray_inv _ (fun x c => IsCommon x b c) (fun x c hx hc => scalarSum_common _ _ _ hx hb hc) (fun x c hx => hx) v d ha hd
  · obtain ⟨d, hd, rfl⟩ := map_some h
    exact scalarSum_common v w d ha hb hd

/-- C132: when two scalars can be added, for valid types: numbers and complex numbers, not mixing representation types unless both are real; quantities of one
representation type, dimension and offset, and of the same scale unless both are real. -/
theorem C132_compiles (a b : OT) (sa : a.Scalar) (sb : b.Scalar) (ha : a.Valid) (hb : b.Valid) (ca cb : Cat) (n : ℕ) :
    (addTy (n + 2) 3 (ca, a) (cb, b)).isSome = true ↔
      (a.unit?.isSome = b.unit?.isSome ∧
        (∀ r t s u, a.unit? = some (r, t) → b.unit? = some (s, u) →
          t.dim = u.dim ∧ t.off = u.off ∧ (a.isCplx = true ∨ b.isCplx = true → t.scal = u.scal)) ∧
        (a.rep = b.rep ∨ (∃ r s, a = .num r ∧ b = .num s))) := by
  rw [add_scalar _ _ _ _ sa sb]
  have hq : ∀ t u : QTy, t = u ↔ t.dim = u.dim ∧ t.off = u.off ∧ t.scal = u.scal := by
    intro t u; cases t; cases u; simp; tauto
  cases a <;> cases b <;> simp only [OT.Scalar] at sa sb
  case qty.qty r t s u =>
    simp only [Spec.scalarSum, OT.unit?, OT.rep, OT.isCplx]
    by_cases h : r = s ∧ t.dim = u.dim ∧ t.off = u.off
    · obtain ⟨g, g1, -⟩ := commonQuantity_ok t u ha hb h.2.2
      rw [if_pos h, g1]
      simpa [ofRes] using ⟨fun r' t' s' u' e1 e2 e3 e4 => e2 ▸ e4 ▸ h.2, h.1⟩
    · rw [if_neg h]
      constructor
      · intro h; cases h
      · rintro ⟨-, h1, h2⟩
        have h3 := h1 r t s u rfl rfl
        rcases h2 with h2 | ⟨_, _, h2, _⟩
        · exact (h ⟨h2, h3.1, h3.2.1⟩).elim
        · cases h2
  all_goals simp only [Spec.scalarSum, OT.unit?, OT.rep, OT.isCplx]
  all_goals first
    | (split_ifs <;> simp_all; done)
    | (simp; done)
    | (split_ifs with h <;> simp_all; intro h1 h2; have := h1 _ _ _ _ rfl rfl rfl rfl rfl rfl rfl rfl; exact h h2 this.1 this.2.1 this.2.2)

/-! #### What does not compile -/

theorem depth_iter (x : OT) (k : ℕ) : (OT.vec^[k] x).depth = x.depth + k := by
  induction k with
  | zero => rfl
  | succ k ih => rw [Function.iterate_succ_apply', OT.depth, ih]; rfl

/-- C132: with an array of arrays (of any depth) and a number: number + array, array - number and number - array compile, array + number does not; nor do the
negation, nor the sum or difference of two arrays of arrays. -/
theorem C132_nested_arrays_false (ca cb : Cat) (r : Rep) (k : ℕ) (v w x : OT) (hx : x.Scalar) (n : ℕ) :
    addTy (n + k + 3) 3 (ca, .num r) (cb, OT.vec^[k + 1] (.num r)) = some (OT.vec^[k + 1] (.num r)) ∧
    subTy (n + k + 3) 3 (ca, .num r) (cb, OT.vec^[k + 1] (.num r)) = some (OT.vec^[k + 1] (.num r)) ∧
    subTy (n + k + 3) 3 (ca, OT.vec^[k + 1] (.num r)) (cb, .num r) = some (OT.vec^[k + 1] (.num r)) ∧
    addTy n 3 (ca, .vec (.vec v)) (cb, x) = none ∧
    addTy n 3 (ca, .vec (.vec v)) (cb, .vec (.vec w)) = none ∧ subTy n 3 (ca, .vec (.vec v)) (cb, .vec (.vec w)) = none ∧
    negTy true (.vec (.vec v)) = none := by
  have hc : r.common r = r := by cases r <;> rfl
  have ho : ∀ f : OT → Option OT, f (.num r) = some (.num r) → ∀ k, Spec.overArray f (OT.vec^[k] (.num r)) = some (OT.vec^[k] (.num r)) := by
    intro f hf k
    induction k with
    | zero => exact hf
    | succ k ih => rw [Function.iterate_succ_apply', Spec.overArray, ih]; rfl
  refine ⟨?_, ?_, ?_, ?_, ?_, ?_, rfl⟩
  · rw [C132_add _ _ _ _ _ (by rw [depth_iter]; simp only [OT.depth]; omega), Function.iterate_succ_apply']
    show (Spec.overArray _ _).map _ = _
    rw [ho _ (by simp [Spec.scalarSum, hc])]; rfl
  · rw [C132_sub _ _ (.num r) _ trivial _ (by rw [depth_iter]; simp only [OT.depth]; omega), Function.iterate_succ_apply']
    show (Spec.overArray _ _).map _ = _
    rw [ho _ (by simp [Spec.scalarSum, hc])]; rfl
  · have hv : ∀ k, (OT.vec^[k] (.num r)).Valid := by
      intro k
      induction k with
      | zero => trivial
      | succ k ih => rw [Function.iterate_succ_apply']; exact ih
    rw [C132_sub _ _ _ _ (hv _) _ (by rw [depth_iter]; simp only [OT.depth]; omega), Function.iterate_succ_apply']
    show (Spec.overArray _ _).map _ = _
    rw [ho _ (by simp [Spec.scalarSum, hc])]; rfl
  · cases n with
    | zero => rfl
    | succ n =>
      rw [addTy_succ _ _ _ _ (builtin_vec_left _ _), arr_left _ _ _ _ _ hx, if_neg (by omega)]
      show (addTy n 1 (.constLvalue, x) (.lvalue, .vec v)).map OT.vec = _
      rw [add_right_hidden _ _ _ hx]; rfl
  · cases n with
    | zero => rfl
    | succ n =>
      rw [addTy_succ _ _ _ _ (builtin_vec_left _ _), arr_both, if_neg (by omega)]
      show (addTy n 0 (.rvalue, .vec v) (.rvalue, .vec w)).map OT.vec = _
      rw [add_both_hidden _ _ _ _ _ _ (by omega)]; rfl
  · cases n with
    | zero => rfl
    | succ n =>
      rw [subTy_succ _ _ _ _ (builtin_vec_left _ _), arr_both, if_neg (by omega)]
      show (subTy n 0 (.rvalue, .vec v) (.rvalue, .vec w)).map OT.vec = _
      rw [sub_both_hidden _ _ _ _ _ _ (by omega)]; rfl

/-- C132: an array of arrays of numbers compares element by element with a number through `==` and `<`, and does not compile with the other four. -/
theorem C132_nested_compare_false (op : Cmp) (ca cb : Cat) (r s : Rep) (k n : ℕ) :
    cmpTy (n + k + 7) 12 op (ca, OT.vec^[k + 2] (.num r)) (cb, .num s) = if op = .eq ∨ op = .lt then some (k + 2) else none := by
  have hl : ∀ k, Spec.leaf (OT.vec^[k] (.num r)) = .num r := by
    intro k
    induction k with
    | zero => rfl
    | succ k ih => rw [Function.iterate_succ_apply']; exact ih
  rw [C132_compare _ _ _ _ _ _ (by rw [depth_iter]; simp only [OT.depth]; omega), Function.iterate_succ_apply']
  show (if Spec.scalarCmp op (Spec.leaf _) _ = true ∧ _ then _ else none) = _
  rw [hl, depth_iter]
  refine if_congr ?_ (by simp [OT.depth]) rfl
  simp [Spec.scalarCmp, OT.depth]

/-- C132: two arrays of numbers compared with `==`, `<`, … give one boolean (all elements, lexicographic), not an array of booleans; an array and a number give
an array; arrays of different types do not compare. -/
theorem C132_array_compare (op : Cmp) (ca cb : Cat) (r s : Rep) (n : ℕ) :
    cmpTy (n + 7) 12 op (ca, .vec (.num r)) (cb, .vec (.num r)) = some 0 ∧
    cmpTy (n + 7) 12 op (ca, .vec (.num r)) (cb, .num s) = some 1 ∧
    cmpTy (n + 7) 12 op (ca, .num s) (cb, .vec (.num r)) = some 1 ∧
    (r ≠ s → cmpTy (n + 7) 12 op (ca, .vec (.num r)) (cb, .vec (.num s)) = none) := by
  refine ⟨?_, ?_, ?_, fun h => ?_⟩ <;> rw [C132_compare _ _ _ _ _ _ (by simp [OT.depth])] <;>
    simp [Spec.cmp, Spec.scalarCmp, Spec.leaf, OT.depth, *]

/-- The kilometre and the dimensionless unit. -/
def tyKilometre : QTy := ⟨⟨2, 1, 1⟩, ⟨1000, 1, 1⟩, 0⟩
/-- See `tyKilometre`. -/
def tyOne : QTy := ⟨⟨1, 1, 1⟩, ⟨1, 1, 1⟩, 0⟩
/-- The kelvin. -/
def tyKelvin : QTy := ⟨⟨11, 1, 1⟩, ⟨1, 1, 1⟩, 0⟩

/-- C132: metres and kilometres add as real quantities and not as complex ones, nor do they compare for equality there. -/
theorem C132_complex_units_false (ca cb : Cat) (n : ℕ) :
    addTy (n + 5) 3 (ca, .qty .double tyMetre) (cb, .qty .double tyKilometre) = some (.qty .double tyMetre) ∧
    addTy (n + 5) 3 (ca, .cqty .double tyMetre) (cb, .cqty .double tyKilometre) = none ∧
    addTy (n + 5) 3 (ca, .cqty .double tyMetre) (cb, .qty .double tyKilometre) = none ∧
    cmpTy (n + 5) 12 .eq (ca, .qty .double tyMetre) (cb, .qty .double tyKilometre) = some 0 ∧
    cmpTy (n + 5) 12 .eq (ca, .cqty .double tyMetre) (cb, .cqty .double tyKilometre) = none := by
  have hne : tyMetre ≠ tyKilometre := by decide
  have hc : ofRes (commonQuantity tyMetre tyKilometre) = some tyMetre := by
    rw [commonQuantity, if_neg (by decide), rrCommon_plain _ _ ⟨by decide, by decide, by decide, by decide⟩ ⟨by decide, by decide, by decide, by decide⟩ rfl rfl]
    rfl
  refine ⟨?_, ?_, ?_, ?_, ?_⟩
  · rw [C132_add _ _ _ _ _ (by simp [OT.depth])]
    have h : Rep.double = Rep.double ∧ tyMetre.dim = tyKilometre.dim ∧ tyMetre.off = tyKilometre.off := ⟨rfl, rfl, rfl⟩
    simp only [Spec.add, Spec.scalarSum]
    rw [if_pos ⟨trivial, h.2⟩, hc]; rfl
  · rw [C132_add _ _ _ _ _ (by simp [OT.depth])]; simp [Spec.add, Spec.scalarSum, hne]
  · rw [C132_add _ _ _ _ _ (by simp [OT.depth])]; simp [Spec.add, Spec.scalarSum, hne]
  · rw [C132_compare _ _ _ _ _ _ (by simp [OT.depth])]; simp [Spec.cmp, Spec.scalarCmp, tyMetre, tyKilometre]
  · rw [C132_compare _ _ _ _ _ _ (by simp [OT.depth])]; simp [Spec.cmp, Spec.scalarCmp, hne]

/-- C132: a quantity and a number never add, subtract or compare, dimensionless quantities included; kelvins and degrees Celsius compare and do not add. -/
theorem C132_dimensionless_false (op : Cmp) (ca cb : Cat) (r s : Rep) (t : QTy) (n : ℕ) :
    addTy (n + 5) 3 (ca, .qty r t) (cb, .num s) = none ∧ addTy (n + 5) 3 (ca, .num s) (cb, .qty r t) = none ∧
    cmpTy (n + 5) 12 op (ca, .qty r t) (cb, .num s) = none ∧
    addTy (n + 5) 3 (ca, .qty .double tyKelvin) (cb, .qty .double tyCelsius) = none ∧
    cmpTy (n + 5) 12 op (ca, .qty .double tyKelvin) (cb, .qty .double tyCelsius) = some 0 := by
  refine ⟨?_, ?_, ?_, ?_, ?_⟩
  · rw [C132_add _ _ _ _ _ (by simp [OT.depth])]; rfl
  · rw [C132_add _ _ _ _ _ (by simp [OT.depth])]; rfl
  · rw [C132_compare _ _ _ _ _ _ (by simp [OT.depth])]; simp [Spec.cmp, Spec.scalarCmp]
  · rw [C132_add _ _ _ _ _ (by simp [OT.depth])]
    exact if_neg (fun h => absurd h.2.2 (by norm_num [tyKelvin, tyCelsius]))
  · rw [C132_compare _ _ _ _ _ _ (by simp [OT.depth])]; simp [Spec.cmp, Spec.scalarCmp, tyKelvin, tyCelsius]

/-! #### Concrete cases -/

/-- C132: an array of metres plus 1 km is an array of metres, and comparing it with 1 km gives an array of booleans. -/
example : addTy 7 3 (.lvalue, .vec (.qty .double tyMetre)) (.rvalue, .qty .double tyKilometre) = some (.vec (.qty .double tyMetre)) ∧
    cmpTy 7 12 .le (.lvalue, .vec (.qty .double tyMetre)) (.rvalue, .qty .double tyKilometre) = some 1 := by
  constructor
  · rw [C132_add _ _ _ _ _ (by simp [OT.depth])]
    have := (C132_complex_units_false .lvalue .lvalue 0).1
    rw [C132_commutes .lvalue .lvalue .lvalue .lvalue (.qty .double tyMetre) (.qty .double tyKilometre) trivial trivial 3, C132_add _ _ _ _ _ (by simp [OT.depth])] at this
    show (Spec.scalarSum _ _).map _ = _
    rw [show Spec.scalarSum (.qty .double tyKilometre) (.qty .double tyMetre) = some (.qty .double tyMetre) from this]; rfl
  · rw [C132_compare _ _ _ _ _ _ (by simp [OT.depth])]
    simp [Spec.cmp, Spec.scalarCmp, Spec.leaf, tyMetre, tyKilometre, OT.depth]

end SciCpp.Ovl
