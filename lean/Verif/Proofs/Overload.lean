import Verif.Spec.Overload
namespace SciCpp.Ovl

set_option linter.unusedSimpArgs false
set_option linter.unusedTactic false
set_option linter.unreachableTactic false

/-! ### Overload resolution, shape by shape -/

/-- Resolution when viability depends on equalities of types. -/
macro "sy" "[" hs:term,* "]" : tactic => `(tactic| (
  simp only [resolve, mulFns, divFns, memberFn, OT.ct, ctQty, stdFns, arrFns, List.cons_append, List.nil_append, List.append_nil, List.filter_cons,
    List.filter_nil, if_true, Bool.false_eq_true, if_false]
  simp [Fn.viable, deduce, cref, byval, fwd, always, List.lookup, qp, guardOn, on, isIterable, isComplex, isQuantity, isScalar, $[$hs:term],*]
  try rfl))

theorem diff_cases {r s : Rep} {t u : QTy} (h : (r, t) ≠ (s, u)) : r ≠ s ∨ (r = s ∧ t.dim ≠ u.dim) ∨ (r = s ∧ t.dim = u.dim ∧ t.scal ≠ u.scal) ∨
    (r = s ∧ t.dim = u.dim ∧ t.scal = u.scal ∧ t.off ≠ u.off) := by
  by_cases h1 : r = s <;> by_cases h2 : t.dim = u.dim <;> by_cases h3 : t.scal = u.scal <;> by_cases h4 : t.off = u.off <;> simp_all
  cases t; cases u
  simp_all

section
variable (ops : Bool) (ca cb : Cat) (r s : Rep) (t u : QTy)

theorem mul_num_cnum_same :
    resolve (mulFns ops (OT.num r).ct) ⟨ca, (OT.num r).ct⟩ ⟨cb, (OT.cnum r).ct⟩ = .sel .stdNC := by
  cases ops <;> sy []

theorem mul_num_cnum_diff (h : r ≠ s) :
    resolve (mulFns ops (OT.num r).ct) ⟨ca, (OT.num r).ct⟩ ⟨cb, (OT.cnum s).ct⟩ = .none := by
  cases ops <;> sy [h, Ne.symm h]

theorem mul_cnum_num_same :
    resolve (mulFns ops (OT.cnum r).ct) ⟨ca, (OT.cnum r).ct⟩ ⟨cb, (OT.num r).ct⟩ = .sel .stdCN := by
  cases ops <;> sy []

theorem mul_cnum_num_diff (h : r ≠ s) :
    resolve (mulFns ops (OT.cnum r).ct) ⟨ca, (OT.cnum r).ct⟩ ⟨cb, (OT.num s).ct⟩ = .none := by
  cases ops <;> sy [h, Ne.symm h]

theorem mul_cnum_cnum_same :
    resolve (mulFns ops (OT.cnum r).ct) ⟨ca, (OT.cnum r).ct⟩ ⟨cb, (OT.cnum r).ct⟩ = .sel .stdCC := by
  cases ops <;> sy []

theorem mul_cnum_cnum_diff (h : r ≠ s) :
    resolve (mulFns ops (OT.cnum r).ct) ⟨ca, (OT.cnum r).ct⟩ ⟨cb, (OT.cnum s).ct⟩ = .none := by
  cases ops <;> sy [h, Ne.symm h]

theorem mul_num_qty :
    resolve (mulFns ops (OT.num r).ct) ⟨ca, (OT.num r).ct⟩ ⟨cb, (OT.qty s u).ct⟩ = .sel .left := by
  cases ops <;> rfl

theorem mul_qty_num :
    resolve (mulFns ops (OT.qty r t).ct) ⟨ca, (OT.qty r t).ct⟩ ⟨cb, (OT.num s).ct⟩ = .sel .right := by
  cases ops <;> sy []

theorem mul_num_cqty :
    resolve (mulFns ops (OT.num r).ct) ⟨ca, (OT.num r).ct⟩ ⟨cb, (OT.cqty s u).ct⟩ = .sel .nc := by
  cases ops <;> rfl

theorem mul_cqty_num :
    resolve (mulFns ops (OT.cqty r t).ct) ⟨ca, (OT.cqty r t).ct⟩ ⟨cb, (OT.num s).ct⟩ = .sel .cn := by
  cases ops <;> rfl

theorem mul_cnum_cqty :
    resolve (mulFns ops (OT.cnum r).ct) ⟨ca, (OT.cnum r).ct⟩ ⟨cb, (OT.cqty s u).ct⟩ = .sel .nc := by
  cases ops <;> rfl

theorem mul_cqty_cnum :
    resolve (mulFns ops (OT.cqty r t).ct) ⟨ca, (OT.cqty r t).ct⟩ ⟨cb, (OT.cnum s).ct⟩ = .sel .cn := by
  cases ops <;> rfl

theorem mul_cnum_qty :
    resolve (mulFns ops (OT.cnum r).ct) ⟨ca, (OT.cnum r).ct⟩ ⟨cb, (OT.qty s u).ct⟩ = .none := by
  cases ops <;> rfl

theorem mul_qty_cnum :
    resolve (mulFns ops (OT.qty r t).ct) ⟨ca, (OT.qty r t).ct⟩ ⟨cb, (OT.cnum s).ct⟩ = .none := by
  cases ops <;> sy []

theorem mul_qty_qty_same (h : u.off = 0) :
    resolve (mulFns ops (OT.qty r t).ct) ⟨ca, (OT.qty r t).ct⟩ ⟨cb, (OT.qty r u).ct⟩ = .sel .member := by
  cases ops <;> sy [h]

theorem mul_qty_qty_diff (h : s = r → u.off ≠ 0) :
    resolve (mulFns ops (OT.qty r t).ct) ⟨ca, (OT.qty r t).ct⟩ ⟨cb, (OT.qty s u).ct⟩ = .ambiguous := by
  cases ops <;> by_cases h1 : s = r
  all_goals first | (subst h1; have h2 := h rfl; sy [h2, Ne.symm h2]) | sy [h1, Ne.symm h1]

theorem mul_qty_cqty_same :
    resolve (mulFns ops (OT.qty r t).ct) ⟨ca, (OT.qty r t).ct⟩ ⟨cb, (OT.cqty r t).ct⟩ = .sel .qcSame := by
  cases ops <;> sy []

theorem mul_qty_cqty_diff (h : (r, t) ≠ (s, u)) :
    resolve (mulFns ops (OT.qty r t).ct) ⟨ca, (OT.qty r t).ct⟩ ⟨cb, (OT.cqty s u).ct⟩ = .sel .qc := by
  rcases diff_cases h with h1 | ⟨h1, h2⟩ | ⟨h1, h2, h3⟩ | ⟨h1, h2, h3, h4⟩
  · cases ops <;> sy [h1, Ne.symm h1]
  · cases ops <;> sy [h1, h2, Ne.symm h2]
  · cases ops <;> sy [h1, h2, h3, Ne.symm h3]
  · cases ops <;> sy [h1, h2, h3, h4, Ne.symm h4]

theorem mul_cqty_qty_same :
    resolve (mulFns ops (OT.cqty r t).ct) ⟨ca, (OT.cqty r t).ct⟩ ⟨cb, (OT.qty r t).ct⟩ = .sel .cqSame := by
  cases ops <;> sy []

theorem mul_cqty_qty_diff (h : (r, t) ≠ (s, u)) :
    resolve (mulFns ops (OT.cqty r t).ct) ⟨ca, (OT.cqty r t).ct⟩ ⟨cb, (OT.qty s u).ct⟩ = .sel .cq := by
  rcases diff_cases h with h1 | ⟨h1, h2⟩ | ⟨h1, h2, h3⟩ | ⟨h1, h2, h3, h4⟩
  · cases ops <;> sy [h1, Ne.symm h1]
  · cases ops <;> sy [h1, h2, Ne.symm h2]
  · cases ops <;> sy [h1, h2, h3, Ne.symm h3]
  · cases ops <;> sy [h1, h2, h3, h4, Ne.symm h4]

theorem mul_cqty_cqty_same :
    resolve (mulFns ops (OT.cqty r t).ct) ⟨ca, (OT.cqty r t).ct⟩ ⟨cb, (OT.cqty r t).ct⟩ = .sel .ccSame := by
  cases ops <;> sy []

theorem mul_cqty_cqty_diff (h : (r, t) ≠ (s, u)) :
    resolve (mulFns ops (OT.cqty r t).ct) ⟨ca, (OT.cqty r t).ct⟩ ⟨cb, (OT.cqty s u).ct⟩ = .sel .cc := by
  rcases diff_cases h with h1 | ⟨h1, h2⟩ | ⟨h1, h2, h3⟩ | ⟨h1, h2, h3, h4⟩
  · cases ops <;> sy [h1, Ne.symm h1]
  · cases ops <;> sy [h1, h2, Ne.symm h2]
  · cases ops <;> sy [h1, h2, h3, Ne.symm h3]
  · cases ops <;> sy [h1, h2, h3, h4, Ne.symm h4]

theorem div_num_cnum_same :
    resolve (divFns ops (OT.num r).ct) ⟨ca, (OT.num r).ct⟩ ⟨cb, (OT.cnum r).ct⟩ = .sel .stdNC := by
  cases ops <;> sy []

theorem div_num_cnum_diff (h : r ≠ s) :
    resolve (divFns ops (OT.num r).ct) ⟨ca, (OT.num r).ct⟩ ⟨cb, (OT.cnum s).ct⟩ = .none := by
  cases ops <;> sy [h, Ne.symm h]

theorem div_cnum_num_same :
    resolve (divFns ops (OT.cnum r).ct) ⟨ca, (OT.cnum r).ct⟩ ⟨cb, (OT.num r).ct⟩ = .sel .stdCN := by
  cases ops <;> sy []

theorem div_cnum_num_diff (h : r ≠ s) :
    resolve (divFns ops (OT.cnum r).ct) ⟨ca, (OT.cnum r).ct⟩ ⟨cb, (OT.num s).ct⟩ = .none := by
  cases ops <;> sy [h, Ne.symm h]

theorem div_cnum_cnum_same :
    resolve (divFns ops (OT.cnum r).ct) ⟨ca, (OT.cnum r).ct⟩ ⟨cb, (OT.cnum r).ct⟩ = .sel .stdCC := by
  cases ops <;> sy []

theorem div_cnum_cnum_diff (h : r ≠ s) :
    resolve (divFns ops (OT.cnum r).ct) ⟨ca, (OT.cnum r).ct⟩ ⟨cb, (OT.cnum s).ct⟩ = .none := by
  cases ops <;> sy [h, Ne.symm h]

theorem div_num_qty :
    resolve (divFns ops (OT.num r).ct) ⟨ca, (OT.num r).ct⟩ ⟨cb, (OT.qty s u).ct⟩ = .sel .left := by
  cases ops <;> rfl

theorem div_qty_num :
    resolve (divFns ops (OT.qty r t).ct) ⟨ca, (OT.qty r t).ct⟩ ⟨cb, (OT.num s).ct⟩ = .sel .right := by
  cases ops <;> sy []

theorem div_num_cqty :
    resolve (divFns ops (OT.num r).ct) ⟨ca, (OT.num r).ct⟩ ⟨cb, (OT.cqty s u).ct⟩ = .sel .nc := by
  cases ops <;> rfl

theorem div_cqty_num :
    resolve (divFns ops (OT.cqty r t).ct) ⟨ca, (OT.cqty r t).ct⟩ ⟨cb, (OT.num s).ct⟩ = .sel .cn := by
  cases ops <;> rfl

theorem div_cnum_cqty :
    resolve (divFns ops (OT.cnum r).ct) ⟨ca, (OT.cnum r).ct⟩ ⟨cb, (OT.cqty s u).ct⟩ = .sel .nc := by
  cases ops <;> rfl

theorem div_cqty_cnum :
    resolve (divFns ops (OT.cqty r t).ct) ⟨ca, (OT.cqty r t).ct⟩ ⟨cb, (OT.cnum s).ct⟩ = .sel .cn := by
  cases ops <;> rfl

theorem div_cnum_qty :
    resolve (divFns ops (OT.cnum r).ct) ⟨ca, (OT.cnum r).ct⟩ ⟨cb, (OT.qty s u).ct⟩ = .sel .left := by
  cases ops <;> rfl

theorem div_qty_cnum :
    resolve (divFns ops (OT.qty r t).ct) ⟨ca, (OT.qty r t).ct⟩ ⟨cb, (OT.cnum s).ct⟩ = .none := by
  cases ops <;> sy []

theorem div_qty_qty_same (h : u.off = 0) :
    resolve (divFns ops (OT.qty r t).ct) ⟨ca, (OT.qty r t).ct⟩ ⟨cb, (OT.qty r u).ct⟩ = .sel .member := by
  cases ops <;> sy [h]

theorem div_qty_qty_diff (h : s = r → u.off ≠ 0) :
    resolve (divFns ops (OT.qty r t).ct) ⟨ca, (OT.qty r t).ct⟩ ⟨cb, (OT.qty s u).ct⟩ = .ambiguous := by
  cases ops <;> by_cases h1 : s = r
  all_goals first | (subst h1; have h2 := h rfl; sy [h2, Ne.symm h2]) | sy [h1, Ne.symm h1]

theorem div_qty_cqty_same :
    resolve (divFns ops (OT.qty r t).ct) ⟨ca, (OT.qty r t).ct⟩ ⟨cb, (OT.cqty r t).ct⟩ = .sel .qcSame := by
  cases ops <;> sy []

theorem div_qty_cqty_diff (h : (r, t) ≠ (s, u)) :
    resolve (divFns ops (OT.qty r t).ct) ⟨ca, (OT.qty r t).ct⟩ ⟨cb, (OT.cqty s u).ct⟩ = .sel .qc := by
  rcases diff_cases h with h1 | ⟨h1, h2⟩ | ⟨h1, h2, h3⟩ | ⟨h1, h2, h3, h4⟩
  · cases ops <;> sy [h1, Ne.symm h1]
  · cases ops <;> sy [h1, h2, Ne.symm h2]
  · cases ops <;> sy [h1, h2, h3, Ne.symm h3]
  · cases ops <;> sy [h1, h2, h3, h4, Ne.symm h4]

theorem div_cqty_qty_same :
    resolve (divFns ops (OT.cqty r t).ct) ⟨ca, (OT.cqty r t).ct⟩ ⟨cb, (OT.qty r t).ct⟩ = .sel .cqSame := by
  cases ops <;> sy []

theorem div_cqty_qty_diff (h : (r, t) ≠ (s, u)) :
    resolve (divFns ops (OT.cqty r t).ct) ⟨ca, (OT.cqty r t).ct⟩ ⟨cb, (OT.qty s u).ct⟩ = .sel .left := by
  rcases diff_cases h with h1 | ⟨h1, h2⟩ | ⟨h1, h2, h3⟩ | ⟨h1, h2, h3, h4⟩
  · cases ops <;> sy [h1, Ne.symm h1]
  · cases ops <;> sy [h1, h2, Ne.symm h2]
  · cases ops <;> sy [h1, h2, h3, Ne.symm h3]
  · cases ops <;> sy [h1, h2, h3, h4, Ne.symm h4]

theorem div_cqty_cqty_same :
    resolve (divFns ops (OT.cqty r t).ct) ⟨ca, (OT.cqty r t).ct⟩ ⟨cb, (OT.cqty r t).ct⟩ = .sel .ccSame := by
  cases ops <;> sy []

theorem div_cqty_cqty_diff (h : (r, t) ≠ (s, u)) :
    resolve (divFns ops (OT.cqty r t).ct) ⟨ca, (OT.cqty r t).ct⟩ ⟨cb, (OT.cqty s u).ct⟩ = .sel .cc := by
  rcases diff_cases h with h1 | ⟨h1, h2⟩ | ⟨h1, h2, h3⟩ | ⟨h1, h2, h3, h4⟩
  · cases ops <;> sy [h1, Ne.symm h1]
  · cases ops <;> sy [h1, h2, Ne.symm h2]
  · cases ops <;> sy [h1, h2, h3, Ne.symm h3]
  · cases ops <;> sy [h1, h2, h3, h4, Ne.symm h4]

theorem mul_vec_num (v : OT) :
    resolve (mulFns ops (OT.vec v).ct) ⟨ca, (OT.vec v).ct⟩ ⟨cb, (OT.num r).ct⟩ = (if ops then .sel .arrS else .none) := by
  cases ops <;> sy []

theorem mul_num_vec (v : OT) :
    resolve (mulFns ops (OT.num r).ct) ⟨ca, (OT.num r).ct⟩ ⟨cb, (OT.vec v).ct⟩ = (if ops then .sel .sArr else .none) := by
  cases ops <;> sy []

theorem mul_vec_cnum (v : OT) :
    resolve (mulFns ops (OT.vec v).ct) ⟨ca, (OT.vec v).ct⟩ ⟨cb, (OT.cnum r).ct⟩ = (if ops then .sel .arrS else .none) := by
  cases ops <;> sy []

theorem mul_cnum_vec (v : OT) :
    resolve (mulFns ops (OT.cnum r).ct) ⟨ca, (OT.cnum r).ct⟩ ⟨cb, (OT.vec v).ct⟩ = (if ops then .sel .sArr else .none) := by
  cases ops <;> sy []

theorem mul_vec_qty (v : OT) :
    resolve (mulFns ops (OT.vec v).ct) ⟨ca, (OT.vec v).ct⟩ ⟨cb, (OT.qty r t).ct⟩ = (if ops then .sel .arrS else .none) := by
  cases ops <;> sy []

theorem mul_qty_vec (v : OT) :
    resolve (mulFns ops (OT.qty r t).ct) ⟨ca, (OT.qty r t).ct⟩ ⟨cb, (OT.vec v).ct⟩ = (if ops then .sel .sArr else .none) := by
  cases ops <;> sy []

theorem mul_vec_cqty (v : OT) :
    resolve (mulFns ops (OT.vec v).ct) ⟨ca, (OT.vec v).ct⟩ ⟨cb, (OT.cqty r t).ct⟩ = (if ops = true ∧ ca ≠ .constLvalue then .sel .arrS else .sel .nc) := by
  cases ops <;> cases ca <;> sy []

theorem mul_cqty_vec (v : OT) :
    resolve (mulFns ops (OT.cqty r t).ct) ⟨ca, (OT.cqty r t).ct⟩ ⟨cb, (OT.vec v).ct⟩ = (if ops = true ∧ cb ≠ .constLvalue then .sel .sArr else .sel .cn) := by
  cases ops <;> cases cb <;> sy []

theorem mul_vec_vec (v w : OT) :
    resolve (mulFns ops (OT.vec v).ct) ⟨ca, (OT.vec v).ct⟩ ⟨cb, (OT.vec w).ct⟩ = (if ops then .sel .arrArr else .none) := by
  cases ops <;> sy []

theorem div_vec_num (v : OT) :
    resolve (divFns ops (OT.vec v).ct) ⟨ca, (OT.vec v).ct⟩ ⟨cb, (OT.num r).ct⟩ = (if ops then .sel .arrS else .none) := by
  cases ops <;> sy []

theorem div_num_vec (v : OT) :
    resolve (divFns ops (OT.num r).ct) ⟨ca, (OT.num r).ct⟩ ⟨cb, (OT.vec v).ct⟩ = (if ops then .sel .sArr else .none) := by
  cases ops <;> sy []

theorem div_vec_cnum (v : OT) :
    resolve (divFns ops (OT.vec v).ct) ⟨ca, (OT.vec v).ct⟩ ⟨cb, (OT.cnum r).ct⟩ = (if ops then .sel .arrS else .none) := by
  cases ops <;> sy []

theorem div_cnum_vec (v : OT) :
    resolve (divFns ops (OT.cnum r).ct) ⟨ca, (OT.cnum r).ct⟩ ⟨cb, (OT.vec v).ct⟩ = (if ops then .sel .sArr else .none) := by
  cases ops <;> sy []

theorem div_vec_qty (v : OT) :
    resolve (divFns ops (OT.vec v).ct) ⟨ca, (OT.vec v).ct⟩ ⟨cb, (OT.qty r t).ct⟩ = (if ops then .sel .arrS else .none) := by
  cases ops <;> sy []

theorem div_qty_vec (v : OT) :
    resolve (divFns ops (OT.qty r t).ct) ⟨ca, (OT.qty r t).ct⟩ ⟨cb, (OT.vec v).ct⟩ = (if ops then .sel .sArr else .none) := by
  cases ops <;> sy []

theorem div_vec_cqty (v : OT) :
    resolve (divFns ops (OT.vec v).ct) ⟨ca, (OT.vec v).ct⟩ ⟨cb, (OT.cqty r t).ct⟩ = (if ops = true ∧ ca ≠ .constLvalue then .sel .arrS else .sel .nc) := by
  cases ops <;> cases ca <;> sy []

theorem div_cqty_vec (v : OT) :
    resolve (divFns ops (OT.cqty r t).ct) ⟨ca, (OT.cqty r t).ct⟩ ⟨cb, (OT.vec v).ct⟩ = (if ops = true ∧ cb ≠ .constLvalue then .sel .sArr else .sel .cn) := by
  cases ops <;> cases cb <;> sy []

theorem div_vec_vec (v w : OT) :
    resolve (divFns ops (OT.vec v).ct) ⟨ca, (OT.vec v).ct⟩ ⟨cb, (OT.vec w).ct⟩ = (if ops then .sel .arrArr else .none) := by
  cases ops <;> sy []

end

theorem mulTy_succ (ops n ca cb) (a b : OT) (h : builtin a b = none) :
    mulTy ops (n + 1) (ca, a) (cb, b) = mulBody (fun o => mulTy o n) ops a b (resolve (mulFns ops a.ct) ⟨ca, a.ct⟩ ⟨cb, b.ct⟩) := by
  rw [mulTy, h]

theorem divTy_succ (ops n ca cb) (a b : OT) (h : builtin a b = none) :
    divTy ops (n + 1) (ca, a) (cb, b) =
      divBody (fun o => mulTy o n) (fun o => divTy o n) ops a b (resolve (divFns ops a.ct) ⟨ca, a.ct⟩ ⟨cb, b.ct⟩) := by
  rw [divTy, h]

theorem mulTy_num_num (ops n ca cb r s) : mulTy ops (n + 1) (ca, .num r) (cb, .num s) = some (.num (r.common s)) := rfl

theorem divTy_num_num (ops n ca cb r s) : divTy ops (n + 1) (ca, .num r) (cb, .num s) = some (.num (r.common s)) := rfl

theorem tyMul_off {t u : QTy} (h : u.off ≠ 0) : ofRes (tyMul t u) = none := by rw [tyMul, if_pos h]; rfl

theorem tyDiv_off {t u : QTy} (h : u.off ≠ 0) : ofRes (tyDiv t u) = none := by rw [tyDiv, if_pos h]; rfl

theorem mul_qq (ops n ca cb r s t u) :
    mulTy ops (n + 1) (ca, .qty r t) (cb, .qty s u) = if r = s then (ofRes (tyMul t u)).map (.qty r) else none := by
  rw [mulTy_succ _ _ _ _ _ _ rfl]
  by_cases h : r = s
  · subst h
    by_cases h0 : u.off = 0
    · rw [mul_qty_qty_same _ _ _ _ _ _ h0, if_pos rfl]
      show (ofRes (tyMul t u)).bind (fun w => some (OT.qty r w)) = _
      cases ofRes (tyMul t u) <;> rfl
    · rw [mul_qty_qty_diff _ _ _ _ _ _ _ (fun _ => h0), if_pos rfl, tyMul_off h0]; rfl
  · rw [mul_qty_qty_diff _ _ _ _ _ _ _ (fun e => absurd e.symm h), if_neg h]; rfl

theorem div_qq (ops n ca cb r s t u) :
    divTy ops (n + 1) (ca, .qty r t) (cb, .qty s u) = if r = s then (ofRes (tyDiv t u)).map (.qty r) else none := by
  rw [divTy_succ _ _ _ _ _ _ rfl]
  by_cases h : r = s
  · subst h
    by_cases h0 : u.off = 0
    · rw [div_qty_qty_same _ _ _ _ _ _ h0, if_pos rfl]
      show (ofRes (tyDiv t u)).bind (fun w => some (OT.qty r w)) = _
      cases ofRes (tyDiv t u) <;> rfl
    · rw [div_qty_qty_diff _ _ _ _ _ _ _ (fun _ => h0), if_pos rfl, tyDiv_off h0]; rfl
  · rw [div_qty_qty_diff _ _ _ _ _ _ _ (fun e => absurd e.symm h), if_neg h]; rfl

theorem mul_num_qty' (ops n ca cb r s u) : mulTy ops (n + 2) (ca, .num r) (cb, .qty s u) = some (.qty (r.common s) u) := by
  rw [mulTy_succ _ _ _ _ _ _ rfl, mul_num_qty]
  rfl

theorem mul_qty_num' (ops n ca cb r s t) : mulTy ops (n + 3) (ca, .qty r t) (cb, .num s) = some (.qty (s.common r) t) := by
  rw [mulTy_succ _ _ _ _ _ _ rfl, mul_qty_num]
  exact mul_num_qty' ..

/-- The end of the products and quotients of complex quantities. -/
theorem fin_complex (r s : Rep) (w : Option QTy) (x : Option OT) (hx : r = s → ∃ y, x = some y) :
    ((if r = s then w.map (OT.qty r) else none).bind fun w => x.bind fun _ => toComplex w) = if r = s then w.map (OT.cqty r) else none := by
  by_cases h : r = s
  · obtain ⟨y, hy⟩ := hx h
    rw [if_pos h, if_pos h, hy]
    cases w <;> rfl
  · rw [if_neg h, if_neg h]; rfl

theorem mul_qc (ops n ca cb r s t u) :
    mulTy ops (n + 2) (ca, .qty r t) (cb, .cqty s u) = if r = s then (ofRes (tyMul t u)).map (.cqty r) else none := by
  rw [mulTy_succ _ _ _ _ _ _ rfl]
  have key : ∀ tag, tag = Tag.qc ∨ tag = Tag.qcSame →
      mulBody (fun o => mulTy o (n + 1)) ops (.qty r t) (.cqty s u) (.sel tag) = if r = s then (ofRes (tyMul t u)).map (.cqty r) else none := by
    rintro tag (rfl | rfl) <;>
    · refine Eq.trans ?_ (fin_complex r s _ (numOp (.cnum s) (.num r)) (fun e => ⟨.cnum s, by simp [numOp, e]⟩))
      rw [← mul_qq ops n .rvalue .rvalue]
      rfl
  by_cases h : (r, t) = (s, u)
  · have h1 : r = s := (Prod.mk.inj h).1
    have h2 : t = u := (Prod.mk.inj h).2
    subst h1; subst h2
    rw [mul_qty_cqty_same]; exact key _ (.inr rfl)
  · rw [mul_qty_cqty_diff _ _ _ _ _ _ _ h]; exact key _ (.inl rfl)

theorem mul_cq (ops n ca cb r s t u) :
    mulTy ops (n + 2) (ca, .cqty r t) (cb, .qty s u) = if r = s then (ofRes (tyMul u t)).map (.cqty r) else none := by
  rw [mulTy_succ _ _ _ _ _ _ rfl]
  by_cases h : (r, t) = (s, u)
  · have h1 : r = s := (Prod.mk.inj h).1
    have h2 : t = u := (Prod.mk.inj h).2
    subst h1; subst h2
    rw [mul_cqty_qty_same]
    refine Eq.trans ?_ (fin_complex r r _ (numOp (.num r) (.cnum r)) (fun e => ⟨.cnum r, by simp [numOp]⟩))
    rw [← mul_qq ops n .rvalue .rvalue]
    rfl
  · rw [mul_cqty_qty_diff _ _ _ _ _ _ _ h]
    have := fin_complex s r (ofRes (tyMul u t)) (numOp (.num s) (.cnum r)) (fun e => ⟨.cnum s, by simp [numOp, e]⟩)
    rw [← mul_qq ops n .rvalue .rvalue] at this
    have e : (if r = s then (ofRes (tyMul u t)).map (OT.cqty r) else none) = if s = r then (ofRes (tyMul u t)).map (OT.cqty s) else none := by
      by_cases h : r = s
      · subst h; rfl
      · rw [if_neg h, if_neg (Ne.symm h)]
    rw [e, ← this]
    rfl

theorem mul_cc (ops n ca cb r s t u) :
    mulTy ops (n + 2) (ca, .cqty r t) (cb, .cqty s u) = if r = s then (ofRes (tyMul t u)).map (.cqty r) else none := by
  rw [mulTy_succ _ _ _ _ _ _ rfl]
  have key : ∀ tag, tag = Tag.cc ∨ tag = Tag.ccSame →
      mulBody (fun o => mulTy o (n + 1)) ops (.cqty r t) (.cqty s u) (.sel tag) = if r = s then (ofRes (tyMul t u)).map (.cqty r) else none := by
    rintro tag (rfl | rfl) <;>
    · refine Eq.trans ?_ (fin_complex r s _ (numOp (.cnum s) (.cnum r)) (fun e => ⟨.cnum s, by simp [numOp, e]⟩))
      rw [← mul_qq ops n .rvalue .rvalue]
      rfl
  by_cases h : (r, t) = (s, u)
  · have h1 : r = s := (Prod.mk.inj h).1
    have h2 : t = u := (Prod.mk.inj h).2
    subst h1; subst h2
    rw [mul_cqty_cqty_same]; exact key _ (.inr rfl)
  · rw [mul_cqty_cqty_diff _ _ _ _ _ _ _ h]; exact key _ (.inl rfl)

theorem div_qc (ops n ca cb r s t u) :
    divTy ops (n + 2) (ca, .qty r t) (cb, .cqty s u) = if r = s then (ofRes (tyDiv t u)).map (.cqty r) else none := by
  rw [divTy_succ _ _ _ _ _ _ rfl]
  have key : ∀ tag, tag = Tag.qc ∨ tag = Tag.qcSame →
      divBody (fun o => mulTy o (n + 1)) (fun o => divTy o (n + 1)) ops (.qty r t) (.cqty s u) (.sel tag) =
        if r = s then (ofRes (tyDiv t u)).map (.cqty r) else none := by
    rintro tag (rfl | rfl) <;>
    · refine Eq.trans ?_ (fin_complex r s _ (numOp (.num r) (.cnum s)) (fun e => ⟨.cnum s, by simp [numOp, e]⟩))
      rw [← div_qq ops n .rvalue .rvalue]
      rfl
  by_cases h : (r, t) = (s, u)
  · have h1 : r = s := (Prod.mk.inj h).1
    have h2 : t = u := (Prod.mk.inj h).2
    subst h1; subst h2
    rw [div_qty_cqty_same]; exact key _ (.inr rfl)
  · rw [div_qty_cqty_diff _ _ _ _ _ _ _ h]; exact key _ (.inl rfl)

theorem div_cc (ops n ca cb r s t u) :
    divTy ops (n + 2) (ca, .cqty r t) (cb, .cqty s u) = if r = s then (ofRes (tyDiv t u)).map (.cqty r) else none := by
  rw [divTy_succ _ _ _ _ _ _ rfl]
  have key : ∀ tag, tag = Tag.cc ∨ tag = Tag.ccSame →
      divBody (fun o => mulTy o (n + 1)) (fun o => divTy o (n + 1)) ops (.cqty r t) (.cqty s u) (.sel tag) =
        if r = s then (ofRes (tyDiv t u)).map (.cqty r) else none := by
    rintro tag (rfl | rfl) <;>
    · refine Eq.trans ?_ (fin_complex r s _ (numOp (.cnum r) (.cnum s)) (fun e => ⟨.cnum s, by simp [numOp, e]⟩))
      rw [← div_qq ops n .rvalue .rvalue]
      rfl
  by_cases h : (r, t) = (s, u)
  · have h1 : r = s := (Prod.mk.inj h).1
    have h2 : t = u := (Prod.mk.inj h).2
    subst h1; subst h2
    rw [div_cqty_cqty_same]; exact key _ (.inr rfl)
  · rw [div_cqty_cqty_diff _ _ _ _ _ _ _ h]; exact key _ (.inl rfl)

theorem div_cq (ops n ca cb r s t u) :
    divTy ops (n + 3) (ca, .cqty r t) (cb, .qty s u) = if r = s then
      (if t = u then (ofRes (tyDiv t u)).map (.cqty r) else (ofRes (tyInv u)).bind fun w => (ofRes (tyMul w t)).map (.cqty r)) else none := by
  rw [divTy_succ _ _ _ _ _ _ rfl]
  by_cases h : (r, t) = (s, u)
  · have h1 : r = s := (Prod.mk.inj h).1
    have h2 : t = u := (Prod.mk.inj h).2
    subst h1; subst h2
    rw [div_cqty_qty_same, if_pos rfl, if_pos rfl]
    refine Eq.trans ?_ ((fin_complex r r (ofRes (tyDiv t t)) (numOp (.cnum r) (.num r)) (fun e => ⟨.cnum r, by simp [numOp]⟩)).trans (if_pos rfl))
    rw [← div_qq ops (n + 1) .rvalue .rvalue]
    rfl
  · rw [div_cqty_qty_diff _ _ _ _ _ _ _ h]
    have hb : divBody (fun o => mulTy o (n + 2)) (fun o => divTy o (n + 2)) ops (.cqty r t) (.qty s u) (.sel .left) =
        (ofRes (tyInv u)).bind fun w => mulTy ops (n + 2) (.lvalue, .cqty r t) (.rvalue, .qty s w) := rfl
    rw [hb]
    by_cases h1 : r = s
    · have h2 : t ≠ u := fun e => h (by rw [h1, e])
      rw [if_pos h1, if_neg h2]
      congr 1
      funext w
      rw [mul_cq, if_pos h1]
    · rw [if_neg h1]
      cases ofRes (tyInv u) with
      | none => rfl
      | some w => exact (mul_cq ops n _ _ r s t w).trans (if_neg h1)

/-- Evaluation of the remaining shapes. -/
theorem if_sym {α : Type} (r s : Rep) (x y : α) : (if s = r then x else y) = if r = s then x else y := by
  by_cases h : r = s
  · rw [if_pos h, if_pos h.symm]
  · rw [if_neg h, if_neg (Ne.symm h)]

theorem mul_scalar (ops ca cb) (a b : OT) (ha : a.Scalar) (hb : b.Scalar) (n : ℕ) :
    mulTy ops (n + 3) (ca, a) (cb, b) = Spec.scalarMul a b := by
  cases a with
  | vec v => exact ha.elim
  | num r =>
    cases b with
    | vec v => exact hb.elim
    | num s => rfl
    | cnum s =>
      rw [mulTy_succ _ _ _ _ _ _ rfl]
      by_cases h : r = s
      · subst h; rw [mul_num_cnum_same]; rfl
      · rw [mul_num_cnum_diff _ _ _ _ _ h]; exact (if_neg h).symm
    | qty s u => exact mul_num_qty' ..
    | cqty s u =>
      rw [mulTy_succ _ _ _ _ _ _ rfl, mul_num_cqty]
      by_cases h : r = s
      · subst h; simp [mulBody, OT.unit?, numOp, Spec.scalarMul]
      · simp [mulBody, OT.unit?, numOp, Spec.scalarMul, h, Ne.symm h]
  | cnum r =>
    cases b with
    | vec v => exact hb.elim
    | num s =>
      rw [mulTy_succ _ _ _ _ _ _ rfl]
      by_cases h : r = s
      · subst h; rw [mul_cnum_num_same]; rfl
      · rw [mul_cnum_num_diff _ _ _ _ _ h]; exact (if_neg h).symm
    | cnum s =>
      rw [mulTy_succ _ _ _ _ _ _ rfl]
      by_cases h : r = s
      · subst h; rw [mul_cnum_cnum_same]; rfl
      · rw [mul_cnum_cnum_diff _ _ _ _ _ h]; exact (if_neg h).symm
    | qty s u => rw [mulTy_succ _ _ _ _ _ _ rfl, mul_cnum_qty]; rfl
    | cqty s u =>
      rw [mulTy_succ _ _ _ _ _ _ rfl, mul_cnum_cqty]
      by_cases h : r = s
      · subst h; simp [mulBody, OT.unit?, numOp, Spec.scalarMul]
      · simp [mulBody, OT.unit?, numOp, Spec.scalarMul, h, Ne.symm h]
  | qty r t =>
    cases b with
    | vec v => exact hb.elim
    | num s => exact mul_qty_num' ..
    | cnum s => rw [mulTy_succ _ _ _ _ _ _ rfl, mul_qty_cnum]; rfl
    | qty s u => exact mul_qq ..
    | cqty s u => exact mul_qc ..
  | cqty r t =>
    cases b with
    | vec v => exact hb.elim
    | num s =>
      rw [mulTy_succ _ _ _ _ _ _ rfl, mul_cqty_num]
      by_cases h : r = s
      · subst h; simp [mulBody, OT.unit?, numOp, Spec.scalarMul]
      · simp [mulBody, OT.unit?, numOp, Spec.scalarMul, h]
    | cnum s =>
      rw [mulTy_succ _ _ _ _ _ _ rfl, mul_cqty_cnum]
      by_cases h : r = s
      · subst h; simp [mulBody, OT.unit?, numOp, Spec.scalarMul]
      · simp [mulBody, OT.unit?, numOp, Spec.scalarMul, h]
    | qty s u => exact mul_cq ..
    | cqty s u => exact mul_cc ..

theorem div_scalar (ops ca cb) (a b : OT) (ha : a.Scalar) (hb : b.Scalar) (n : ℕ) :
    divTy ops (n + 4) (ca, a) (cb, b) = Spec.scalarDiv a b := by
  cases a with
  | vec v => exact ha.elim
  | num r =>
    cases b with
    | vec v => exact hb.elim
    | num s => rfl
    | cnum s =>
      rw [divTy_succ _ _ _ _ _ _ rfl]
      by_cases h : r = s
      · subst h; rw [div_num_cnum_same]; rfl
      · rw [div_num_cnum_diff _ _ _ _ _ h]; exact (if_neg h).symm
    | qty s u =>
      rw [divTy_succ _ _ _ _ _ _ rfl, div_num_qty]
      have hb : divBody (fun o => mulTy o (n + 3)) (fun o => divTy o (n + 3)) ops (.num r) (.qty s u) (.sel .left) =
        (ofRes (tyInv u)).bind fun w => mulTy ops (n + 3) (.lvalue, .num r) (.rvalue, .qty s w) := rfl
      rw [hb, Spec.scalarDiv]
      cases ofRes (tyInv u) with
      | none => rfl
      | some w => exact mul_num_qty' ..
    | cqty s u =>
      rw [divTy_succ _ _ _ _ _ _ rfl, div_num_cqty]
      by_cases h : r = s
      · subst h; simp [divBody, OT.unit?, numOp, Spec.scalarDiv]; cases ofRes (tyInv u) <;> rfl
      · simp [divBody, OT.unit?, numOp, Spec.scalarDiv, h]
  | cnum r =>
    cases b with
    | vec v => exact hb.elim
    | num s =>
      rw [divTy_succ _ _ _ _ _ _ rfl]
      by_cases h : r = s
      · subst h; rw [div_cnum_num_same]; rfl
      · rw [div_cnum_num_diff _ _ _ _ _ h]; exact (if_neg h).symm
    | cnum s =>
      rw [divTy_succ _ _ _ _ _ _ rfl]
      by_cases h : r = s
      · subst h; rw [div_cnum_cnum_same]; rfl
      · rw [div_cnum_cnum_diff _ _ _ _ _ h]; exact (if_neg h).symm
    | qty s u =>
      rw [divTy_succ _ _ _ _ _ _ rfl, div_cnum_qty]
      have hb : divBody (fun o => mulTy o (n + 3)) (fun o => divTy o (n + 3)) ops (.cnum r) (.qty s u) (.sel .left) =
        (ofRes (tyInv u)).bind fun w => mulTy ops (n + 3) (.lvalue, .cnum r) (.rvalue, .qty s w) := rfl
      rw [hb, Spec.scalarDiv]
      cases ofRes (tyInv u) with
      | none => rfl
      | some w => exact (mul_scalar ops _ _ (.cnum r) (.qty s w) trivial trivial n)
      all_goals simp
    | cqty s u =>
      rw [divTy_succ _ _ _ _ _ _ rfl, div_cnum_cqty]
      by_cases h : r = s
      · subst h; simp [divBody, OT.unit?, numOp, Spec.scalarDiv]; cases ofRes (tyInv u) <;> rfl
      · simp [divBody, OT.unit?, numOp, Spec.scalarDiv, h]
  | qty r t =>
    cases b with
    | vec v => exact hb.elim
    | num s =>
      rw [divTy_succ _ _ _ _ _ _ rfl, div_qty_num]
      have e : s.common s = s := by cases s <;> rfl
      have hb : divBody (fun o => mulTy o (n + 3)) (fun o => divTy o (n + 3)) ops (.qty r t) (.num s) (.sel .right) =
        mulTy ops (n + 3) (.constLvalue, .qty r t) (.rvalue, .num (s.common s)) := rfl
      rw [hb, e]; exact mul_qty_num' ..
    | cnum s => rw [divTy_succ _ _ _ _ _ _ rfl, div_qty_cnum]; rfl
    | qty s u => exact div_qq ..
    | cqty s u => exact div_qc ..
  | cqty r t =>
    cases b with
    | vec v => exact hb.elim
    | num s =>
      rw [divTy_succ _ _ _ _ _ _ rfl, div_cqty_num]
      by_cases h : r = s
      · subst h; simp [divBody, OT.unit?, numOp, Spec.scalarDiv]
      · simp [divBody, OT.unit?, numOp, Spec.scalarDiv, h]
    | cnum s =>
      rw [divTy_succ _ _ _ _ _ _ rfl, div_cqty_cnum]
      by_cases h : r = s
      · subst h; simp [divBody, OT.unit?, numOp, Spec.scalarDiv]
      · simp [divBody, OT.unit?, numOp, Spec.scalarDiv, h]
    | qty s u => exact div_cq ..
    | cqty s u => exact div_cc ..

/-! ### Arrays -/

theorem builtin_vec_left (v b : OT) : builtin (.vec v) b = none := by cases b <;> rfl
theorem builtin_vec_right (a v : OT) : builtin a (.vec v) = none := by cases a <;> rfl

theorem mul_left_array (ca cb) (v b : OT) (hb : b.Scalar) (n : ℕ) (h : ¬(ca = .constLvalue ∧ Spec.isCqty b = true)) :
    mulTy true (n + 1) (ca, .vec v) (cb, b) = if isIterable v.ct then none else (mulTy true n (.constLvalue, b) (.lvalue, v)).map OT.vec := by
  rw [mulTy_succ _ _ _ _ _ _ (builtin_vec_left _ _)]
  cases b with
  | vec v => exact hb.elim
  | num r => rw [mul_vec_num]; rfl
  | cnum r => rw [mul_vec_cnum]; rfl
  | qty r t => rw [mul_vec_qty]; rfl
  | cqty r t =>
    have hc : ca ≠ .constLvalue := fun e => h ⟨e, rfl⟩
    rw [mul_vec_cqty, if_pos ⟨rfl, hc⟩]; rfl

theorem mul_right_array (ca cb) (a v : OT) (ha : a.Scalar) (n : ℕ) (h : ¬(cb = .constLvalue ∧ Spec.isCqty a = true)) :
    mulTy true (n + 1) (ca, a) (cb, .vec v) = (mulTy true n (.constLvalue, a) (.lvalue, v)).map OT.vec := by
  rw [mulTy_succ _ _ _ _ _ _ (builtin_vec_right _ _)]
  cases a with
  | vec v => exact ha.elim
  | num r => rw [mul_num_vec]; rfl
  | cnum r => rw [mul_cnum_vec]; rfl
  | qty r t => rw [mul_qty_vec]; rfl
  | cqty r t =>
    have hc : cb ≠ .constLvalue := fun e => h ⟨e, rfl⟩
    rw [mul_cqty_vec, if_pos ⟨rfl, hc⟩]; rfl

theorem mul_left_const (cb) (v b : OT) (h : Spec.isCqty b = true) (n : ℕ) : mulTy true (n + 1) (.constLvalue, .vec v) (cb, b) = none := by
  cases b with
  | cqty r t => rw [mulTy_succ _ _ _ _ _ _ rfl, mul_vec_cqty]; rfl
  | _ => cases h

theorem mul_right_const (ca) (a v : OT) (h : Spec.isCqty a = true) (n : ℕ) : mulTy true (n + 1) (ca, a) (.constLvalue, .vec v) = none := by
  cases a with
  | cqty r t => rw [mulTy_succ _ _ _ _ _ _ rfl, mul_cqty_vec]; rfl
  | _ => cases h

theorem mul_array_array (ca cb) (v w : OT) (n : ℕ) :
    mulTy true (n + 1) (ca, .vec v) (cb, .vec w) = (mulTy false n (.rvalue, v) (.rvalue, w)).map OT.vec := by
  rw [mulTy_succ _ _ _ _ _ _ rfl, mul_vec_vec]; rfl

/-- Without the operators on arrays, an array has no product. -/
theorem mul_hidden_left (ca cb) (v b : OT) (n : ℕ) : mulTy false n (ca, .vec v) (cb, b) = none := by
  cases n with
  | zero => rfl
  | succ n =>
    rw [mulTy_succ _ _ _ _ _ _ (builtin_vec_left _ _)]
    cases b with
    | vec w => rw [mul_vec_vec]; rfl
    | num r => rw [mul_vec_num]; rfl
    | cnum r => rw [mul_vec_cnum]; rfl
    | qty r t => rw [mul_vec_qty]; rfl
    | cqty r t => rw [mul_vec_cqty]; rfl

theorem mul_hidden_right (ca cb) (a v : OT) (n : ℕ) : mulTy false n (ca, a) (cb, .vec v) = none := by
  cases n with
  | zero => rfl
  | succ n =>
    rw [mulTy_succ _ _ _ _ _ _ (builtin_vec_right _ _)]
    cases a with
    | vec w => rw [mul_vec_vec]; rfl
    | num r => rw [mul_num_vec]; rfl
    | cnum r => rw [mul_cnum_vec]; rfl
    | qty r t => rw [mul_qty_vec]; rfl
    | cqty r t => rw [mul_cqty_vec]; rfl

theorem scalarMul_vec_left (v b : OT) : Spec.scalarMul (.vec v) b = none := by cases b <;> rfl
theorem scalarMul_vec_right (a v : OT) : Spec.scalarMul a (.vec v) = none := by cases a <;> rfl

theorem div_left_array (ca cb) (v b : OT) (hb : b.Scalar) (n : ℕ) (h : ¬(ca = .constLvalue ∧ Spec.isCqty b = true)) :
    divTy true (n + 1) (ca, .vec v) (cb, b) = (divTy true n (.lvalue, v) (.constLvalue, b)).map OT.vec := by
  rw [divTy_succ _ _ _ _ _ _ (builtin_vec_left _ _)]
  cases b with
  | vec v => exact hb.elim
  | num r => rw [div_vec_num]; rfl
  | cnum r => rw [div_vec_cnum]; rfl
  | qty r t => rw [div_vec_qty]; rfl
  | cqty r t =>
    have hc : ca ≠ .constLvalue := fun e => h ⟨e, rfl⟩
    rw [div_vec_cqty, if_pos ⟨rfl, hc⟩]; rfl

theorem div_right_array (ca cb) (a v : OT) (ha : a.Scalar) (n : ℕ) (h : ¬(cb = .constLvalue ∧ Spec.isCqty a = true)) :
    divTy true (n + 1) (ca, a) (cb, .vec v) = (divTy true n (.constLvalue, a) (.lvalue, v)).map OT.vec := by
  rw [divTy_succ _ _ _ _ _ _ (builtin_vec_right _ _)]
  cases a with
  | vec v => exact ha.elim
  | num r => rw [div_num_vec]; rfl
  | cnum r => rw [div_cnum_vec]; rfl
  | qty r t => rw [div_qty_vec]; rfl
  | cqty r t =>
    have hc : cb ≠ .constLvalue := fun e => h ⟨e, rfl⟩
    rw [div_cqty_vec, if_pos ⟨rfl, hc⟩]; rfl

theorem div_left_const (cb) (v b : OT) (h : Spec.isCqty b = true) (n : ℕ) : divTy true (n + 1) (.constLvalue, .vec v) (cb, b) = none := by
  cases b with
  | cqty r t => rw [divTy_succ _ _ _ _ _ _ rfl, div_vec_cqty]; rfl
  | _ => cases h

theorem div_right_const (ca) (a v : OT) (h : Spec.isCqty a = true) (n : ℕ) : divTy true (n + 1) (ca, a) (.constLvalue, .vec v) = none := by
  cases a with
  | cqty r t => rw [divTy_succ _ _ _ _ _ _ rfl, div_cqty_vec]; rfl
  | _ => cases h

theorem div_array_array (ca cb) (v w : OT) (n : ℕ) :
    divTy true (n + 1) (ca, .vec v) (cb, .vec w) = (divTy false n (.rvalue, v) (.rvalue, w)).map OT.vec := by
  rw [divTy_succ _ _ _ _ _ _ rfl, div_vec_vec]; rfl

/-- Without the operators on arrays, an array has no product. -/
theorem div_hidden_left (ca cb) (v b : OT) (n : ℕ) : divTy false n (ca, .vec v) (cb, b) = none := by
  cases n with
  | zero => rfl
  | succ n =>
    rw [divTy_succ _ _ _ _ _ _ (builtin_vec_left _ _)]
    cases b with
    | vec w => rw [div_vec_vec]; rfl
    | num r => rw [div_vec_num]; rfl
    | cnum r => rw [div_vec_cnum]; rfl
    | qty r t => rw [div_vec_qty]; rfl
    | cqty r t => rw [div_vec_cqty]; rfl

theorem div_hidden_right (ca cb) (a v : OT) (n : ℕ) : divTy false n (ca, a) (cb, .vec v) = none := by
  cases n with
  | zero => rfl
  | succ n =>
    rw [divTy_succ _ _ _ _ _ _ (builtin_vec_right _ _)]
    cases a with
    | vec w => rw [div_vec_vec]; rfl
    | num r => rw [div_num_vec]; rfl
    | cnum r => rw [div_cnum_vec]; rfl
    | qty r t => rw [div_qty_vec]; rfl
    | cqty r t => rw [div_cqty_vec]; rfl

theorem scalarDiv_vec_left (v b : OT) : Spec.scalarDiv (.vec v) b = none := by cases b <;> rfl
theorem scalarDiv_vec_right (a v : OT) : Spec.scalarDiv a (.vec v) = none := by cases a <;> rfl


theorem scalar_or (a : OT) : a.Scalar ∨ ∃ v, a = .vec v := by
  cases a with
  | vec v => exact .inr ⟨v, rfl⟩
  | _ => exact .inl trivial

theorem depth_scalar {a : OT} (h : a.Scalar) : a.depth = 0 := by
  cases a with
  | vec v => exact h.elim
  | _ => rfl

theorem overArray_scalar (f : OT → Option OT) {a : OT} (h : a.Scalar) : Spec.overArray f a = f a := by
  cases a with
  | vec v => exact h.elim
  | _ => rfl

theorem mul_over (a v : OT) (ha : a.Scalar) (n : ℕ) (hn : v.depth + 3 ≤ n) :
    mulTy true n (.constLvalue, a) (.lvalue, v) = Spec.overArray (fun x => Spec.scalarMul a x) v := by
  induction v generalizing n with
  | vec w ih =>
    obtain ⟨m, rfl⟩ : ∃ m, n = m + 1 := ⟨n - 1, by simp only [OT.depth] at hn; omega⟩
    rw [mul_right_array _ _ _ _ ha _ (by simp), ih m (by simp only [OT.depth] at hn; omega)]
    rfl
  | _ =>
    obtain ⟨m, rfl⟩ : ∃ m, n = m + 3 := ⟨n - 3, by omega⟩
    refine (mul_scalar _ _ _ _ _ ha ?_ _).trans (overArray_scalar _ ?_).symm <;> trivial

theorem div_over_right (a v : OT) (ha : a.Scalar) (n : ℕ) (hn : v.depth + 4 ≤ n) :
    divTy true n (.constLvalue, a) (.lvalue, v) = Spec.overArray (fun x => Spec.scalarDiv a x) v := by
  induction v generalizing n with
  | vec w ih =>
    obtain ⟨m, rfl⟩ : ∃ m, n = m + 1 := ⟨n - 1, by simp only [OT.depth] at hn; omega⟩
    rw [div_right_array _ _ _ _ ha _ (by simp), ih m (by simp only [OT.depth] at hn; omega)]
    rfl
  | _ =>
    obtain ⟨m, rfl⟩ : ∃ m, n = m + 4 := ⟨n - 4, by omega⟩
    refine (div_scalar _ _ _ _ _ ha ?_ _).trans (overArray_scalar _ ?_).symm <;> trivial

theorem div_over_left (v b : OT) (hb : b.Scalar) (n : ℕ) (hn : v.depth + 4 ≤ n) :
    divTy true n (.lvalue, v) (.constLvalue, b) = Spec.overArray (fun x => Spec.scalarDiv x b) v := by
  induction v generalizing n with
  | vec w ih =>
    obtain ⟨m, rfl⟩ : ∃ m, n = m + 1 := ⟨n - 1, by simp only [OT.depth] at hn; omega⟩
    rw [div_left_array _ _ _ _ hb _ (by simp), ih m (by simp only [OT.depth] at hn; omega)]
    rfl
  | _ =>
    obtain ⟨m, rfl⟩ : ∃ m, n = m + 4 := ⟨n - 4, by omega⟩
    refine (div_scalar _ _ _ _ _ ?_ hb _).trans (overArray_scalar (fun x => Spec.scalarDiv x b) ?_).symm <;> trivial

end SciCpp.Ovl
