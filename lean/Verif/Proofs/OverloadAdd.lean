import Verif.Spec.OverloadAdd
import Verif.Proofs.Overload
namespace SciCpp.Ovl

set_option linter.unusedSimpArgs false

theorem ct_inj {a b : OT} (h : a.ct = b.ct) : a = b := by
  induction a generalizing b with
  | num r => cases b <;> simp_all [OT.ct, ctQty]
  | cnum r => cases b <;> simp_all [OT.ct, ctQty]
  | qty r t =>
    cases b <;> simp_all [OT.ct, ctQty]
    rename_i s u
    cases t; cases u; simp_all
  | cqty r t =>
    cases b <;> simp_all [OT.ct, ctQty]
    rename_i s u
    cases t; cases u; simp_all
  | vec v ih =>
    cases b with
    | vec w => exact congrArg OT.vec (ih (CT.vec.inj h))
    | _ => simp [OT.ct, ctQty] at h

theorem qty_ne {r s : Rep} {t u : QTy} (h : ¬(r = s ∧ t = u)) : ¬(r = s ∧ t.dim = u.dim ∧ t.scal = u.scal ∧ t.off = u.off) := by
  rintro ⟨h1, h2, h3, h4⟩
  refine h ⟨h1, ?_⟩
  cases t; cases u; simp_all

/-- The operators on arrays are not viable for two operands that are not arrays. -/
theorem arr_filter (k : ℕ) (ca cb) {a b : OT} (ha : a.Scalar) (hb : b.Scalar) :
    (arrFns.take k).filter (fun f => f.viable ⟨ca, a.ct⟩ ⟨cb, b.ct⟩) = [] := by
  rw [List.filter_eq_nil_iff]
  intro f hf
  have hf := List.mem_of_mem_take hf
  simp only [arrFns, List.mem_cons, List.not_mem_nil, or_false] at hf
  rcases hf with rfl | rfl | rfl <;> cases a <;> cases b <;>
    simp_all [Fn.viable, deduce, fwd, byval, guardOn, on, List.lookup, isIterable, isScalar, OT.ct, ctQty, OT.Scalar]

theorem resolve_scalar (k : ℕ) (ca cb) {a b : OT} (ha : a.Scalar) (hb : b.Scalar) :
    resolve (addFns k a.ct) ⟨ca, a.ct⟩ ⟨cb, b.ct⟩ = resolve (memberSame a.ct ++ stdFns) ⟨ca, a.ct⟩ ⟨cb, b.ct⟩ := by
  unfold resolve addFns
  rw [List.filter_append, arr_filter k ca cb ha hb, List.append_nil]

/-- The operator selected for two operands that are not arrays. -/
def selScalar : OT → OT → Outcome Tag
  | .num r, .cnum s => if r = s then .sel .stdNC else .none
  | .cnum r, .num s => if r = s then .sel .stdCN else .none
  | .cnum r, .cnum s => if r = s then .sel .stdCC else .none
  | .qty r t, .qty s u => if r = s ∧ t.dim = u.dim then .sel .member else .none
  | .qty r t, .cqty s u => if r = s ∧ t = u then .sel .stdNC else .none
  | .cqty r t, .qty s u => if r = s ∧ t = u then .sel .stdCN else .none
  | .cqty r t, .cqty s u => if r = s ∧ t = u then .sel .stdCC else .none
  | _, _ => .none

theorem sel_scalar (ca cb) {a b : OT} (ha : a.Scalar) (hb : b.Scalar) :
    resolve (memberSame a.ct ++ stdFns) ⟨ca, a.ct⟩ ⟨cb, b.ct⟩ = selScalar a b := by
  cases a <;> cases b <;> simp only [OT.Scalar] at ha hb <;>
    simp only [resolve, memberSame, stdFns, OT.ct, ctQty, List.cons_append, List.nil_append, List.filter_cons, List.filter_nil]
  case num.num => simp [Fn.viable, deduce, cref, List.lookup, selScalar, pick]
  case num.qty => simp [Fn.viable, deduce, cref, List.lookup, selScalar, pick]
  case num.cnum r s =>
    by_cases h : r = s
    · subst h; simp [Fn.viable, deduce, cref, always, List.lookup, selScalar, pick]
    · simp [Fn.viable, deduce, cref, List.lookup, selScalar, pick, h, Ne.symm h]
  case cnum.num r s =>
    by_cases h : r = s
    · subst h; simp [Fn.viable, deduce, cref, always, List.lookup, selScalar, pick]
    · simp [Fn.viable, deduce, cref, List.lookup, selScalar, pick, h, Ne.symm h]
  case cnum.cnum r s =>
    by_cases h : r = s
    · subst h; simp [Fn.viable, deduce, cref, always, List.lookup, selScalar, pick]
    · simp [Fn.viable, deduce, cref, List.lookup, selScalar, pick, h, Ne.symm h]
  case qty.qty r t s u =>
    by_cases h : r = s ∧ t.dim = u.dim
    · rw [selScalar, if_pos h]
      obtain ⟨rfl, h2⟩ := h
      simp [Fn.viable, deduce, cref, always, List.lookup, pick, h2]
    · rw [selScalar, if_neg h]
      by_cases h1 : r = s
      · have h2 : t.dim ≠ u.dim := fun e => h ⟨h1, e⟩
        simp [Fn.viable, deduce, cref, always, List.lookup, pick, h1, h2, Ne.symm h2]
      · simp [Fn.viable, deduce, cref, always, List.lookup, pick, h1, Ne.symm h1]
  case qty.cqty r t s u =>
    by_cases h : (r, t) = (s, u)
    · cases h
      simp [Fn.viable, deduce, cref, always, List.lookup, selScalar, pick]
    · have hs : selScalar (OT.qty r t) (OT.cqty s u) = .none := if_neg (by simpa using h)
      rw [hs]
      rcases diff_cases h with h1 | ⟨h1, h2⟩ | ⟨h1, h2, h3⟩ | ⟨h1, h2, h3, h4⟩
      · simp [Fn.viable, deduce, cref, always, List.lookup, pick, h1, Ne.symm h1]
      · simp [Fn.viable, deduce, cref, always, List.lookup, pick, h1, h2, Ne.symm h2]
      · simp [Fn.viable, deduce, cref, always, List.lookup, pick, h1, h2, h3, Ne.symm h3]
      · simp [Fn.viable, deduce, cref, always, List.lookup, pick, h1, h2, h3, h4, Ne.symm h4]
  case cqty.qty r t s u =>
    by_cases h : (r, t) = (s, u)
    · cases h
      simp [Fn.viable, deduce, cref, always, List.lookup, selScalar, pick]
    · have hs : selScalar (OT.cqty r t) (OT.qty s u) = .none := if_neg (by simpa using h)
      rw [hs]
      rcases diff_cases h with h1 | ⟨h1, h2⟩ | ⟨h1, h2, h3⟩ | ⟨h1, h2, h3, h4⟩
      · simp [Fn.viable, deduce, cref, always, List.lookup, pick, h1, Ne.symm h1]
      · simp [Fn.viable, deduce, cref, always, List.lookup, pick, h1, h2, Ne.symm h2]
      · simp [Fn.viable, deduce, cref, always, List.lookup, pick, h1, h2, h3, Ne.symm h3]
      · simp [Fn.viable, deduce, cref, always, List.lookup, pick, h1, h2, h3, h4, Ne.symm h4]
  case cqty.cqty r t s u =>
    by_cases h : (r, t) = (s, u)
    · cases h
      simp [Fn.viable, deduce, cref, always, List.lookup, selScalar, pick]
    · have hs : selScalar (OT.cqty r t) (OT.cqty s u) = .none := if_neg (by simpa using h)
      rw [hs]
      rcases diff_cases h with h1 | ⟨h1, h2⟩ | ⟨h1, h2, h3⟩ | ⟨h1, h2, h3, h4⟩
      · simp [Fn.viable, deduce, cref, always, List.lookup, pick, h1, Ne.symm h1]
      · simp [Fn.viable, deduce, cref, always, List.lookup, pick, h1, h2, Ne.symm h2]
      · simp [Fn.viable, deduce, cref, always, List.lookup, pick, h1, h2, h3, Ne.symm h3]
      · simp [Fn.viable, deduce, cref, always, List.lookup, pick, h1, h2, h3, h4, Ne.symm h4]
  all_goals simp [Fn.viable, deduce, cref, List.lookup, selScalar, pick]

/-! ### Arrays -/

theorem std_vec_left (ca cb) (v : OT) (b : OT) (hb : b.Scalar) : stdFns.filter (fun f => f.viable ⟨ca, (OT.vec v).ct⟩ ⟨cb, b.ct⟩) = [] := by
  cases b <;> simp_all [stdFns, Fn.viable, deduce, cref, List.lookup, OT.ct, ctQty, OT.Scalar]

theorem std_vec_right (ca cb) (a : OT) (w : OT) (ha : a.Scalar) : stdFns.filter (fun f => f.viable ⟨ca, a.ct⟩ ⟨cb, (OT.vec w).ct⟩) = [] := by
  cases a <;> simp_all [stdFns, Fn.viable, deduce, cref, List.lookup, OT.ct, ctQty, OT.Scalar]

theorem std_vec_vec (ca cb) (v w : OT) : stdFns.filter (fun f => f.viable ⟨ca, (OT.vec v).ct⟩ ⟨cb, (OT.vec w).ct⟩) = [] := by
  simp [stdFns, Fn.viable, deduce, cref, List.lookup, OT.ct]

theorem member_vec_right (ca cb) (a : OT) (w : OT) : (memberSame a.ct).filter (fun f => f.viable ⟨ca, a.ct⟩ ⟨cb, (OT.vec w).ct⟩) = [] := by
  cases a <;> simp [memberSame, Fn.viable, deduce, cref, List.lookup, OT.ct, ctQty]

/-- The operators on arrays that are viable for an array and a scalar. -/
theorem arr_left (k : ℕ) (ca cb) (v b : OT) (hb : b.Scalar) :
    resolve (addFns k (OT.vec v).ct) ⟨ca, (OT.vec v).ct⟩ ⟨cb, b.ct⟩ = if k = 0 then .none else .sel .arrS := by
  unfold resolve addFns
  rw [List.filter_append, List.filter_append, std_vec_left _ _ _ _ hb]
  have hm : (memberSame (OT.vec v).ct) = [] := rfl
  rw [hm]
  cases b with
  | vec w => exact hb.elim
  | _ => rcases k with _ | _ | _ | k <;> simp [arrFns, List.filter_cons, Fn.viable, deduce, fwd, byval, guardOn, on, List.lookup, isIterable, isScalar, OT.ct, ctQty, pick]

theorem arr_right (k : ℕ) (ca cb) (a w : OT) (ha : a.Scalar) :
    resolve (addFns k a.ct) ⟨ca, a.ct⟩ ⟨cb, (OT.vec w).ct⟩ = if k ≤ 1 then .none else .sel .sArr := by
  unfold resolve addFns
  rw [List.filter_append, List.filter_append, std_vec_right _ _ _ _ ha, member_vec_right]
  cases a with
  | vec w => exact ha.elim
  | _ => rcases k with _ | _ | _ | k <;> simp [arrFns, List.filter_cons, Fn.viable, deduce, fwd, byval, guardOn, on, List.lookup, isIterable, isScalar, OT.ct, ctQty, pick]

theorem arr_both (k : ℕ) (ca cb) (v w : OT) :
    resolve (addFns k (OT.vec v).ct) ⟨ca, (OT.vec v).ct⟩ ⟨cb, (OT.vec w).ct⟩ = if k ≤ 2 then .none else .sel .arrArr := by
  unfold resolve addFns
  rw [List.filter_append, List.filter_append, std_vec_vec, member_vec_right]
  rcases k with _ | _ | _ | k <;> simp [arrFns, List.filter_cons, Fn.viable, deduce, fwd, byval, guardOn, on, List.lookup, isIterable, isScalar, OT.ct, pick]

theorem scalarSum_vec_right (a v : OT) : Spec.scalarSum a (.vec v) = none := by cases a <;> rfl
theorem scalarSum_vec_left (v b : OT) : Spec.scalarSum (.vec v) b = none := by cases b <;> rfl

theorem tyAdd_eq (t u : QTy) : tyAdd t u = if t.dim = u.dim then (if t.off = u.off then commonQuantity t u else .ub) else .ub := by
  unfold tyAdd commonQuantity
  by_cases h : t.dim = u.dim <;> by_cases h' : t.off = u.off <;> simp [h, h']

theorem add_scalar (n vis) (ca cb) {a b : OT} (ha : a.Scalar) (hb : b.Scalar) : addTy (n + 1) vis (ca, a) (cb, b) = Spec.scalarSum a b := by
  have key : builtin a b = none → addTy (n + 1) vis (ca, a) (cb, b) = addBody (addTy n) a b (selScalar a b) := by
    intro h
    rw [addTy, h]
    show addBody _ _ _ _ = _
    rw [resolve_scalar _ _ _ ha hb, sel_scalar _ _ ha hb]
  cases a <;> cases b <;> simp only [OT.Scalar] at ha hb
  case num.num => rfl
  case num.cnum r s =>
    rw [key rfl]; simp only [selScalar, Spec.scalarSum]
    by_cases h : r = s
    · subst h; simp [addBody, stdSum, numOp, OT.unit?]
    · simp [h, addBody]
  case cnum.num r s =>
    rw [key rfl]; simp only [selScalar, Spec.scalarSum]
    by_cases h : r = s
    · subst h; simp [addBody, stdSum, numOp, OT.unit?]
    · simp [h, addBody]
  case cnum.cnum r s =>
    rw [key rfl]; simp only [selScalar, Spec.scalarSum]
    by_cases h : r = s
    · subst h; simp [addBody, stdSum, numOp, OT.unit?]
    · simp [h, addBody]
  case qty.qty r t s u =>
    rw [key rfl]; simp only [selScalar, Spec.scalarSum]
    by_cases h : r = s ∧ t.dim = u.dim
    · rw [if_pos h]
      have e : addBody (addTy n) (.qty r t) (.qty s u) (.sel .member) = (ofRes (tyAdd t u)).map (OT.qty r) := by
        show (ofRes (tyAdd t u)).bind _ = _
        cases ofRes (tyAdd t u) <;> rfl
      rw [e, tyAdd_eq, if_pos h.2]
      by_cases h' : t.off = u.off
      · rw [if_pos h', if_pos ⟨h.1, h.2, h'⟩]
      · rw [if_neg h', if_neg (fun x => h' x.2.2)]; rfl
    · rw [if_neg h, if_neg (fun x => h ⟨x.1, x.2.1⟩)]; rfl
  case qty.cqty r t s u =>
    rw [key rfl]; simp only [selScalar, Spec.scalarSum]
    by_cases h : r = s ∧ t = u
    · rw [if_pos h, if_pos h]
      rfl
    · rw [if_neg h, if_neg h]; rfl
  case cqty.qty r t s u =>
    rw [key rfl]; simp only [selScalar, Spec.scalarSum]
    by_cases h : r = s ∧ t = u
    · rw [if_pos h, if_pos h]
      rfl
    · rw [if_neg h, if_neg h]; rfl
  case cqty.cqty r t s u =>
    rw [key rfl]; simp only [selScalar, Spec.scalarSum]
    by_cases h : r = s ∧ t = u
    · rw [if_pos h, if_pos h]
      rfl
    · rw [if_neg h, if_neg h]; rfl
  all_goals (rw [key rfl]; rfl)

theorem sub_scalar (n vis) (ca cb) {a b : OT} (ha : a.Scalar) (hb : b.Scalar) (hc : ∀ r t, a = .qty r t → (ofRes (tyAdd t t)).isSome = true) :
    subTy (n + 1) vis (ca, a) (cb, b) = Spec.scalarSum a b := by
  have key : builtin a b = none → subTy (n + 1) vis (ca, a) (cb, b) = subBody (subTy n) a b (selScalar a b) := by
    intro h
    rw [subTy, h]
    show subBody _ _ _ _ = _
    rw [resolve_scalar _ _ _ ha hb, sel_scalar _ _ ha hb]
  cases a <;> cases b <;> simp only [OT.Scalar] at ha hb
  case num.num => rfl
  case num.cnum r s =>
    rw [key rfl]; simp only [selScalar, Spec.scalarSum]
    by_cases h : r = s
    · subst h; simp [subBody, stdSum, numOp, OT.unit?]
    · simp [h, subBody]
  case cnum.num r s =>
    rw [key rfl]; simp only [selScalar, Spec.scalarSum]
    by_cases h : r = s
    · subst h; simp [subBody, stdSum, numOp, OT.unit?]
    · simp [h, subBody]
  case cnum.cnum r s =>
    rw [key rfl]; simp only [selScalar, Spec.scalarSum]
    by_cases h : r = s
    · subst h; simp [subBody, stdSum, numOp, OT.unit?]
    · simp [h, subBody]
  case qty.qty r t s u =>
    rw [key rfl]; simp only [selScalar, Spec.scalarSum]
    by_cases h : r = s ∧ t.dim = u.dim
    · rw [if_pos h]
      have e : subBody (subTy n) (.qty r t) (.qty s u) (.sel .member) = (ofRes (tyAdd t u)).map (OT.qty r) := by
        show (ofRes (tyAdd t u)).bind _ = _
        cases ofRes (tyAdd t u) <;> rfl
      rw [e, tyAdd_eq, if_pos h.2]
      by_cases h' : t.off = u.off
      · rw [if_pos h', if_pos ⟨h.1, h.2, h'⟩]
      · rw [if_neg h', if_neg (fun x => h' x.2.2)]; rfl
    · rw [if_neg h, if_neg (fun x => h ⟨x.1, x.2.1⟩)]; rfl
  case qty.cqty r t s u =>
    rw [key rfl]; simp only [selScalar, Spec.scalarSum]
    by_cases h : r = s ∧ t = u
    · rw [if_pos h, if_pos h]
      show (ofRes (tyAdd t t)).map (fun _ => OT.cqty r t) = _
      obtain ⟨w, hw⟩ := Option.isSome_iff_exists.1 (hc r t rfl)
      rw [hw]; rfl
    · rw [if_neg h, if_neg h]; rfl
  case cqty.qty r t s u =>
    rw [key rfl]; simp only [selScalar, Spec.scalarSum]
    by_cases h : r = s ∧ t = u
    · rw [if_pos h, if_pos h]
      rfl
    · rw [if_neg h, if_neg h]; rfl
  case cqty.cqty r t s u =>
    rw [key rfl]; simp only [selScalar, Spec.scalarSum]
    by_cases h : r = s ∧ t = u
    · rw [if_pos h, if_pos h]
      rfl
    · rw [if_neg h, if_neg h]; rfl
  all_goals (rw [key rfl]; rfl)

/-! ### Sums and differences of arrays -/

theorem addTy_succ (n vis) (ca cb) {a b : OT} (h : builtin a b = none) :
    addTy (n + 1) vis (ca, a) (cb, b) = addBody (addTy n) a b (resolve (addFns vis a.ct) ⟨ca, a.ct⟩ ⟨cb, b.ct⟩) := by rw [addTy, h]

theorem subTy_succ (n vis) (ca cb) {a b : OT} (h : builtin a b = none) :
    subTy (n + 1) vis (ca, a) (cb, b) = subBody (subTy n) a b (resolve (addFns vis a.ct) ⟨ca, a.ct⟩ ⟨cb, b.ct⟩) := by rw [subTy, h]

/-- With only the operator for (array, scalar) visible, a scalar plus an array does not compile. -/
theorem add_right_hidden (n) (ca cb) {a w : OT} (ha : a.Scalar) : addTy n 1 (ca, a) (cb, .vec w) = none := by
  cases n with
  | zero => rfl
  | succ n => rw [addTy_succ _ _ _ _ (builtin_vec_right _ _), arr_right _ _ _ _ _ ha]; rfl

theorem add_both_hidden (n) (ca cb) (v w : OT) (k : ℕ) (hk : k ≤ 2) : addTy n k (ca, .vec v) (cb, .vec w) = none := by
  cases n with
  | zero => rfl
  | succ n => rw [addTy_succ _ _ _ _ (builtin_vec_right _ _), arr_both, if_pos hk]; rfl

theorem sub_both_hidden (n) (ca cb) (v w : OT) (k : ℕ) (hk : k ≤ 2) : subTy n k (ca, .vec v) (cb, .vec w) = none := by
  cases n with
  | zero => rfl
  | succ n => rw [subTy_succ _ _ _ _ (builtin_vec_right _ _), arr_both, if_pos hk]; rfl

theorem add_mixed_hidden (n) (ca cb) {a w : OT} (ha : a.Scalar) : addTy n 0 (ca, a) (cb, .vec w) = none ∧ addTy n 0 (ca, .vec w) (cb, a) = none := by
  cases n with
  | zero => exact ⟨rfl, rfl⟩
  | succ n =>
    rw [addTy_succ _ _ _ _ (builtin_vec_right _ _), addTy_succ _ _ _ _ (builtin_vec_left _ _), arr_right _ _ _ _ _ ha, arr_left _ _ _ _ _ ha]
    exact ⟨rfl, rfl⟩

theorem sub_mixed_hidden (n) (ca cb) {a w : OT} (ha : a.Scalar) : subTy n 0 (ca, a) (cb, .vec w) = none ∧ subTy n 0 (ca, .vec w) (cb, a) = none := by
  cases n with
  | zero => exact ⟨rfl, rfl⟩
  | succ n =>
    rw [subTy_succ _ _ _ _ (builtin_vec_right _ _), subTy_succ _ _ _ _ (builtin_vec_left _ _), arr_right _ _ _ _ _ ha, arr_left _ _ _ _ _ ha]
    exact ⟨rfl, rfl⟩

theorem add_over (n vis) (hv : 2 ≤ vis) (ca cb) {a : OT} (ha : a.Scalar) (v : OT) (hn : v.depth + 1 ≤ n) :
    addTy n vis (ca, a) (cb, v) = Spec.overArray (Spec.scalarSum a) v := by
  induction v generalizing n vis ca cb with
  | vec w ih =>
    obtain ⟨m, rfl⟩ : ∃ m, n = m + 1 := ⟨n - 1, by omega⟩
    rw [addTy_succ _ _ _ _ (builtin_vec_right _ _), arr_right _ _ _ _ _ ha, if_neg (by omega)]
    show (addTy m 2 (.constLvalue, a) (.lvalue, w)).map OT.vec = (Spec.overArray _ w).map OT.vec
    rw [ih m 2 le_rfl _ _ (by simp only [OT.depth] at hn; omega)]
  | _ =>
    obtain ⟨m, rfl⟩ : ∃ m, n = m + 1 := ⟨n - 1, by omega⟩
    exact (add_scalar _ _ _ _ ha trivial)

theorem sub_over (n vis) (hv : 2 ≤ vis) (ca cb) {a : OT} (ha : a.Scalar) (hc : ∀ r t, a = .qty r t → (ofRes (tyAdd t t)).isSome = true) (v : OT)
    (hn : v.depth + 1 ≤ n) : subTy n vis (ca, a) (cb, v) = Spec.overArray (Spec.scalarSum a) v := by
  induction v generalizing n vis ca cb with
  | vec w ih =>
    obtain ⟨m, rfl⟩ : ∃ m, n = m + 1 := ⟨n - 1, by omega⟩
    rw [subTy_succ _ _ _ _ (builtin_vec_right _ _), arr_right _ _ _ _ _ ha, if_neg (by omega)]
    show (subTy m 2 (.constLvalue, a) (.lvalue, w)).map OT.vec = (Spec.overArray _ w).map OT.vec
    rw [ih m 2 le_rfl _ _ (by simp only [OT.depth] at hn; omega)]
  | _ =>
    obtain ⟨m, rfl⟩ : ∃ m, n = m + 1 := ⟨n - 1, by omega⟩
    exact (sub_scalar _ _ _ _ ha trivial hc)

theorem sub_over_left (n vis) (hv : 1 ≤ vis) (ca cb) {b : OT} (hb : b.Scalar) (v : OT)
    (hc : ∀ r t, Spec.leaf v = .qty r t → (ofRes (tyAdd t t)).isSome = true) (hn : v.depth + 1 ≤ n) :
    subTy n vis (ca, v) (cb, b) = Spec.overArray (fun x => Spec.scalarSum x b) v := by
  induction v generalizing n vis ca cb with
  | vec w ih =>
    obtain ⟨m, rfl⟩ : ∃ m, n = m + 1 := ⟨n - 1, by omega⟩
    rw [subTy_succ _ _ _ _ (builtin_vec_left _ _), arr_left _ _ _ _ _ hb, if_neg (by omega)]
    show (subTy m 1 (.lvalue, w) (.constLvalue, b)).map OT.vec = (Spec.overArray _ w).map OT.vec
    rw [ih m 1 le_rfl _ _ hc (by simp only [OT.depth] at hn; omega)]
  | _ =>
    obtain ⟨m, rfl⟩ : ∃ m, n = m + 1 := ⟨n - 1, by omega⟩
    exact (sub_scalar _ _ _ _ trivial hb hc)

/-! ### Comparisons -/

/-- Equality and inequality. -/
def Cmp.isEq (op : Cmp) : Bool := decide (op = .eq ∨ op = .ne)

theorem scalarCmp_congr (op op' : Cmp) (h : op.isEq = op'.isEq) (a b : OT) : Spec.scalarCmp op a b = Spec.scalarCmp op' a b := by
  have h' : (op = .eq ∨ op = .ne) ↔ (op' = .eq ∨ op' = .ne) := decide_eq_decide.1 h
  cases a <;> cases b <;> simp only [Spec.scalarCmp, h']

theorem scalarCmp_comm (op : Cmp) (a b : OT) : Spec.scalarCmp op a b = Spec.scalarCmp op b a := by
  cases a <;> cases b <;> simp only [Spec.scalarCmp, eq_comm]

theorem scalarCmp_vec (op : Cmp) (a v : OT) : Spec.scalarCmp op a (.vec v) = false ∧ Spec.scalarCmp op (.vec v) a = false := by
  cases a <;> exact ⟨rfl, rfl⟩

/-- The operators selected for two operands that are not arrays. -/
theorem cmp_scalar_sel (vis : ℕ) (op : Cmp) (ca cb) {a b : OT} (ha : a.Scalar) (hb : b.Scalar) :
    resolve (cmpFns vis op a.ct) ⟨ca, a.ct⟩ ⟨cb, b.ct⟩ =
      resolve (memberSame a.ct ++ if op = .eq ∨ op = .ne then stdFns else []) ⟨ca, a.ct⟩ ⟨cb, b.ct⟩ := by
  have h1 : ∀ l : List (Fn Tag), (∀ f ∈ l, f.viable ⟨ca, a.ct⟩ ⟨cb, b.ct⟩ = false) → l.filter (fun f => f.viable ⟨ca, a.ct⟩ ⟨cb, b.ct⟩) = [] := by
    intro l h; rw [List.filter_eq_nil_iff]; intro f hf; rw [h f hf]; simp
  have e1 : (Fn.mk Tag.arrArr (cref (.vec (.var 0))) (cref (.vec (.var 0))) always).viable ⟨ca, a.ct⟩ ⟨cb, b.ct⟩ = false := by
    cases a <;> simp_all [Fn.viable, deduce, cref, OT.ct, ctQty, OT.Scalar]
  have e2 : (Fn.mk Tag.arrS (fwd (.var 0)) (byval (.var 1)) (guardOn fun σ => on 0 isIterable σ && on 1 isScalar σ)).viable ⟨ca, a.ct⟩ ⟨cb, b.ct⟩ = false := by
    cases a <;> simp_all [Fn.viable, deduce, fwd, byval, guardOn, on, List.lookup, isIterable, OT.ct, ctQty, OT.Scalar]
  have e3 : (Fn.mk Tag.sArr (byval (.var 1)) (fwd (.var 0)) (guardOn fun σ => on 0 isIterable σ && on 1 isScalar σ)).viable ⟨ca, a.ct⟩ ⟨cb, b.ct⟩ = false := by
    cases b <;> simp_all [Fn.viable, deduce, fwd, byval, guardOn, on, List.lookup, isIterable, OT.ct, ctQty, OT.Scalar]
  unfold resolve cmpFns
  rw [List.filter_append, List.filter_append, List.filter_append]
  rw [h1 [_] (by intro f hf; rw [List.mem_singleton] at hf; rw [hf]; exact e1)]
  rw [h1 (if (op, true) ∈ _ then _ else _) (by
    intro f hf; split_ifs at hf
    · rw [List.mem_singleton] at hf; rw [hf]; exact e2
    · cases hf)]
  rw [h1 (if (op, false) ∈ _ then _ else _) (by
    intro f hf; split_ifs at hf
    · rw [List.mem_singleton] at hf; rw [hf]; exact e3
    · cases hf)]
  rw [List.append_nil, List.append_nil, List.append_nil]

theorem cmpTy_succ (n vis) (op : Cmp) (ca cb) {a b : OT} (h : builtin a b = none) :
    cmpTy (n + 1) vis op (ca, a) (cb, b) = cmpBody (cmpTy n) op a b (resolve (cmpFns vis op a.ct) ⟨ca, a.ct⟩ ⟨cb, b.ct⟩) := by rw [cmpTy, h]

theorem sel_member (ca cb) {a b : OT} (ha : a.Scalar) (hb : b.Scalar) :
    resolve (memberSame a.ct ++ []) ⟨ca, a.ct⟩ ⟨cb, b.ct⟩ =
      match a, b with
      | .qty r t, .qty s u => if r = s ∧ t.dim = u.dim then .sel .member else .none
      | _, _ => .none := by
  rw [List.append_nil]
  cases a <;> cases b <;> simp only [OT.Scalar] at ha hb
  case qty.qty r t s u =>
    show _ = if r = s ∧ t.dim = u.dim then Outcome.sel Tag.member else Outcome.none
    by_cases h : r = s ∧ t.dim = u.dim
    · rw [if_pos h]
      obtain ⟨rfl, h2⟩ := h
      simp [resolve, memberSame, OT.ct, ctQty, List.filter_cons, Fn.viable, deduce, cref, always, List.lookup, pick, h2]
    · rw [if_neg h]
      by_cases h1 : r = s
      · have h2 : t.dim ≠ u.dim := fun e => h ⟨h1, e⟩
        simp [resolve, memberSame, OT.ct, ctQty, List.filter_cons, Fn.viable, deduce, cref, always, List.lookup, pick, h1, h2, Ne.symm h2]
      · simp [resolve, memberSame, OT.ct, ctQty, List.filter_cons, Fn.viable, deduce, cref, always, List.lookup, pick, h1, Ne.symm h1]
  all_goals simp [resolve, memberSame, OT.ct, ctQty, List.filter_cons, Fn.viable, deduce, cref, pick]

theorem cmp_scalar (n vis) (op : Cmp) (ca cb) {a b : OT} (ha : a.Scalar) (hb : b.Scalar) :
    cmpTy (n + 1) vis op (ca, a) (cb, b) = if Spec.scalarCmp op a b = true then some 0 else none := by
  by_cases hbi : builtin a b = none
  · rw [cmpTy_succ _ _ _ _ _ hbi, cmp_scalar_sel _ _ _ _ ha hb]
    by_cases ho : op = .eq ∨ op = .ne
    · rw [if_pos ho, sel_scalar _ _ ha hb]
      cases a <;> cases b <;> simp only [OT.Scalar] at ha hb <;> simp only [selScalar, Spec.scalarCmp, ho, true_and, decide_eq_true_eq]
      case num.num => cases hbi
      all_goals first | rfl | (split_ifs <;> rfl)
    · rw [if_neg ho, sel_member _ _ ha hb]
      cases a <;> cases b <;> simp only [OT.Scalar] at ha hb <;> simp only [Spec.scalarCmp, ho, false_and, decide_false, decide_eq_true_eq]
      case num.num => cases hbi
      all_goals first | rfl | (split_ifs <;> rfl)
  · cases a <;> cases b <;> simp only [builtin, not_true_eq_false] at hbi
    rfl

/-- The operators selected for an array and a scalar. -/
theorem cmp_left_sel (vis : ℕ) (op : Cmp) (h : (op, true) ∈ cmpDecls.take vis) (ca cb) (v : OT) {b : OT} (hb : b.Scalar) :
    resolve (cmpFns vis op (OT.vec v).ct) ⟨ca, (OT.vec v).ct⟩ ⟨cb, b.ct⟩ = .sel .arrS := by
  unfold resolve cmpFns
  rw [List.filter_append, List.filter_append, List.filter_append, if_pos h]
  have hm : (memberSame (OT.vec v).ct) = [] := rfl
  have hs : List.filter (fun f => f.viable ⟨ca, (OT.vec v).ct⟩ ⟨cb, b.ct⟩) (memberSame (OT.vec v).ct ++ if op = .eq ∨ op = .ne then stdFns else []) = [] := by
    rw [hm, List.nil_append]; split_ifs
    · exact std_vec_left _ _ _ _ hb
    · rfl
  rw [hs]
  cases b with
  | vec w => exact hb.elim
  | _ => split_ifs <;> simp [List.filter_cons, Fn.viable, deduce, fwd, byval, cref, guardOn, on, List.lookup, isIterable, isScalar, OT.ct, ctQty, pick]

theorem cmp_right_sel (vis : ℕ) (op : Cmp) (h : (op, false) ∈ cmpDecls.take vis) (ca cb) {a : OT} (w : OT) (ha : a.Scalar) :
    resolve (cmpFns vis op a.ct) ⟨ca, a.ct⟩ ⟨cb, (OT.vec w).ct⟩ = .sel .sArr := by
  unfold resolve cmpFns
  rw [List.filter_append, List.filter_append, List.filter_append, if_pos h]
  have hs : List.filter (fun f => f.viable ⟨ca, a.ct⟩ ⟨cb, (OT.vec w).ct⟩) (memberSame a.ct ++ if op = .eq ∨ op = .ne then stdFns else []) = [] := by
    rw [List.filter_append, member_vec_right, List.nil_append]; split_ifs
    · exact std_vec_right _ _ _ _ ha
    · rfl
  rw [hs]
  cases a with
  | vec w => exact ha.elim
  | _ => split_ifs <;> simp [List.filter_cons, Fn.viable, deduce, fwd, byval, cref, guardOn, on, List.lookup, isIterable, isScalar, OT.ct, ctQty, pick]

theorem cmp_both_sel (vis : ℕ) (op : Cmp) (ca cb) (v w : OT) :
    resolve (cmpFns vis op (OT.vec v).ct) ⟨ca, (OT.vec v).ct⟩ ⟨cb, (OT.vec w).ct⟩ = if v = w then .sel .arrArr else .none := by
  unfold resolve cmpFns
  rw [List.filter_append, List.filter_append, List.filter_append]
  have hs : List.filter (fun f => f.viable ⟨ca, (OT.vec v).ct⟩ ⟨cb, (OT.vec w).ct⟩) (memberSame (OT.vec v).ct ++ if op = .eq ∨ op = .ne then stdFns else []) = [] := by
    rw [List.filter_append, member_vec_right, List.nil_append]; split_ifs
    · exact std_vec_vec _ _ _ _
    · rfl
  rw [hs]
  by_cases e : v = w
  · subst e
    rw [if_pos rfl]
    split_ifs <;> simp [List.filter_cons, Fn.viable, deduce, fwd, byval, cref, guardOn, on, List.lookup, isIterable, isScalar, OT.ct, pick, always]
  · have e' : w.ct ≠ v.ct := fun h => e (ct_inj h).symm
    rw [if_neg e]
    split_ifs <;> simp [List.filter_cons, Fn.viable, deduce, fwd, byval, cref, guardOn, on, List.lookup, isIterable, isScalar, OT.ct, pick, always, e']

theorem leaf_scalar {a : OT} (h : a.Scalar) : Spec.leaf a = a := by cases a <;> first | rfl | exact h.elim
theorem scalar_of_depth {a : OT} (h : a.depth = 0) : a.Scalar := by cases a <;> simp_all [OT.depth, OT.Scalar]

theorem map_ite_succ (p : Prop) [Decidable p] (k : ℕ) : ((if p then some k else none : Option ℕ)).map (· + 1) = if p then some (k + 1) else none := by
  split_ifs <;> rfl

theorem eq_over (n vis) (hv : 1 ≤ vis) (ca cb) {b : OT} (hb : b.Scalar) (v : OT) (hn : v.depth + 1 ≤ n) :
    cmpTy n vis .eq (ca, v) (cb, b) = if Spec.scalarCmp .eq (Spec.leaf v) b = true then some v.depth else none := by
  induction v generalizing n vis ca cb with
  | vec w ih =>
    obtain ⟨m, rfl⟩ : ∃ m, n = m + 1 := ⟨n - 1, by omega⟩
    rw [cmpTy_succ _ _ _ _ _ (builtin_vec_left _ _), cmp_left_sel vis .eq (by
      obtain ⟨k, rfl⟩ : ∃ k, vis = k + 1 := ⟨vis - 1, by omega⟩
      simp [cmpDecls]) _ _ _ hb]
    show (cmpTy m 1 .eq (.lvalue, w) (.constLvalue, b)).map (· + 1) = _
    rw [ih m 1 le_rfl _ _ (by simp only [OT.depth] at hn; omega), map_ite_succ]
    rfl
  | _ =>
    obtain ⟨m, rfl⟩ : ∃ m, n = m + 1 := ⟨n - 1, by omega⟩
    exact cmp_scalar _ _ _ _ _ trivial hb

theorem lt_mem {vis : ℕ} (h : 5 ≤ vis) : ((.lt, true) : Cmp × Bool) ∈ cmpDecls.take vis := by
  obtain ⟨k, rfl⟩ : ∃ k, vis = k + 5 := ⟨vis - 5, by omega⟩
  simp [cmpDecls]

theorem lt_mem' {vis : ℕ} (h : 7 ≤ vis) : ((.lt, false) : Cmp × Bool) ∈ cmpDecls.take vis := by
  obtain ⟨k, rfl⟩ : ∃ k, vis = k + 7 := ⟨vis - 7, by omega⟩
  simp [cmpDecls]

theorem le_mem {vis : ℕ} (h : 9 ≤ vis) : ((.le, true) : Cmp × Bool) ∈ cmpDecls.take vis := by
  obtain ⟨k, rfl⟩ : ∃ k, vis = k + 9 := ⟨vis - 9, by omega⟩
  simp [cmpDecls]

theorem le_mem' {vis : ℕ} (h : 10 ≤ vis) : ((.le, false) : Cmp × Bool) ∈ cmpDecls.take vis := by
  obtain ⟨k, rfl⟩ : ∃ k, vis = k + 10 := ⟨vis - 10, by omega⟩
  simp [cmpDecls]

theorem lt_over (n vis) (hv : 5 ≤ vis) (ca cb) {b : OT} (hb : b.Scalar) (v : OT) (hn : v.depth + 1 ≤ n) :
    cmpTy n vis .lt (ca, v) (cb, b) = if Spec.scalarCmp .lt (Spec.leaf v) b = true then some v.depth else none := by
  induction v generalizing n vis ca cb with
  | vec w ih =>
    obtain ⟨m, rfl⟩ : ∃ m, n = m + 1 := ⟨n - 1, by omega⟩
    rw [cmpTy_succ _ _ _ _ _ (builtin_vec_left _ _), cmp_left_sel vis .lt (lt_mem hv) _ _ _ hb]
    show (cmpTy m 5 .lt (.lvalue, w) (.constLvalue, b)).map (· + 1) = _
    rw [ih m 5 le_rfl _ _ (by simp only [OT.depth] at hn; omega), map_ite_succ]
    rfl
  | _ =>
    obtain ⟨m, rfl⟩ : ∃ m, n = m + 1 := ⟨n - 1, by omega⟩
    exact cmp_scalar _ _ _ _ _ trivial hb

theorem lt_over_right (n vis) (hv : 7 ≤ vis) (ca cb) {a : OT} (ha : a.Scalar) (v : OT) (hn : v.depth + 1 ≤ n) :
    cmpTy n vis .lt (ca, a) (cb, v) = if Spec.scalarCmp .lt a (Spec.leaf v) = true then some v.depth else none := by
  induction v generalizing n vis ca cb with
  | vec w ih =>
    obtain ⟨m, rfl⟩ : ∃ m, n = m + 1 := ⟨n - 1, by omega⟩
    rw [cmpTy_succ _ _ _ _ _ (builtin_vec_right _ _), cmp_right_sel vis .lt (lt_mem' hv) _ _ _ ha]
    show (cmpTy m 7 .lt (.constLvalue, a) (.lvalue, w)).map (· + 1) = _
    rw [ih m 7 le_rfl _ _ (by simp only [OT.depth] at hn; omega), map_ite_succ]
    rfl
  | _ =>
    obtain ⟨m, rfl⟩ : ∃ m, n = m + 1 := ⟨n - 1, by omega⟩
    exact cmp_scalar _ _ _ _ _ ha trivial

theorem not_ite (p : Prop) [Decidable p] (d : ℕ) :
    ((if p then some (d + 1) else none : Option ℕ)).bind notTy = if p ∧ d = 0 then some (d + 1) else none := by
  by_cases h : p
  · rcases d with _ | d <;> simp [h, notTy]
  · simp [h]

theorem le_left (n vis) (hv : 9 ≤ vis) (ca cb) {b : OT} (hb : b.Scalar) (v : OT) (hn : v.depth + 3 ≤ n) :
    cmpTy n vis .le (ca, .vec v) (cb, b) = if Spec.scalarCmp .le (Spec.leaf v) b = true ∧ v.depth = 0 then some (v.depth + 1) else none := by
  obtain ⟨m, rfl⟩ : ∃ m, n = m + 1 := ⟨n - 1, by omega⟩
  rw [cmpTy_succ _ _ _ _ _ (builtin_vec_left _ _), cmp_left_sel vis .le (le_mem hv) _ _ _ hb]
  show (cmpTy m 9 .lt (.lvalue, b) (.lvalue, .vec v)).bind notTy = _
  rw [lt_over_right m 9 (by omega) _ _ hb _ (by simp only [OT.depth]; omega), scalarCmp_comm, scalarCmp_congr .lt .le rfl]
  exact not_ite _ _

theorem le_right (n vis) (hv : 10 ≤ vis) (ca cb) {a : OT} (ha : a.Scalar) (v : OT) (hn : v.depth + 3 ≤ n) :
    cmpTy n vis .le (ca, a) (cb, .vec v) = if Spec.scalarCmp .le a (Spec.leaf v) = true ∧ v.depth = 0 then some (v.depth + 1) else none := by
  obtain ⟨m, rfl⟩ : ∃ m, n = m + 1 := ⟨n - 1, by omega⟩
  rw [cmpTy_succ _ _ _ _ _ (builtin_vec_right _ _), cmp_right_sel vis .le (le_mem' hv) _ _ _ ha]
  show (cmpTy m 10 .lt (.lvalue, .vec v) (.lvalue, a)).bind notTy = _
  rw [lt_over m 10 (by omega) _ _ ha _ (by simp only [OT.depth]; omega), scalarCmp_comm, scalarCmp_congr .lt .le rfl]
  exact not_ite _ _

theorem whole (n vis) (op : Cmp) (ho : op = .eq ∨ op = .lt) (ca cb) (v : OT) (hn : v.depth + 1 ≤ n) :
    cmpTy n vis op (ca, v) (cb, v) = if Spec.scalarCmp op (Spec.leaf v) (Spec.leaf v) = true then some 0 else none := by
  induction v generalizing n vis ca cb with
  | vec w ih =>
    obtain ⟨m, rfl⟩ : ∃ m, n = m + 1 := ⟨n - 1, by omega⟩
    rw [cmpTy_succ _ _ _ _ _ (builtin_vec_left _ _), cmp_both_sel, if_pos rfl]
    have hop : (if op = .eq ∨ op = .ne then Cmp.eq else .lt) = op := by rcases ho with rfl | rfl <;> rfl
    show (match cmpTy m 0 (if op = .eq ∨ op = .ne then Cmp.eq else .lt) (.constLvalue, w) (.constLvalue, w) with
      | some 0 => some 0
      | _ => none) = _
    rw [hop, ih m 0 _ _ (by simp only [OT.depth] at hn; omega)]
    show _ = if Spec.scalarCmp op (Spec.leaf w) (Spec.leaf w) = true then some 0 else none
    split_ifs <;> rfl
  | _ =>
    obtain ⟨m, rfl⟩ : ∃ m, n = m + 1 := ⟨n - 1, by omega⟩
    exact cmp_scalar _ _ _ _ _ trivial trivial

end SciCpp.Ovl
