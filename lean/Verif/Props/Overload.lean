import Verif.Proofs.Overload
import Verif.Props.Arith
/-
  Overload resolution of `*`, `/` and `map` (C124).
-/
namespace SciCpp.Ovl

/-! ### C124 -/

/-- C124: which products compile and their types, for all operand types, nesting depths and value categories. -/
theorem C124_mul (ca cb : Cat) (a b : OT) (n : ℕ) (hn : a.depth + b.depth + 4 ≤ n) :
    mulTy true n (ca, a) (cb, b) = Spec.mul ca cb a b := by
  obtain ⟨m, rfl⟩ : ∃ m, n = m + 1 := ⟨n - 1, by omega⟩
  rcases scalar_or a with ha | ⟨v, rfl⟩ <;> rcases scalar_or b with hb | ⟨w, rfl⟩
  · obtain ⟨k, rfl⟩ : ∃ k, m = k + 2 := ⟨m - 2, by omega⟩
    rw [mul_scalar _ _ _ _ _ ha hb]
    cases a <;> cases b <;> first | rfl | exact ha.elim | exact hb.elim
  · have hs : Spec.mul ca cb a (.vec w) =
        if cb = .constLvalue ∧ Spec.isCqty a then none else (Spec.overArray (fun x => Spec.scalarMul a x) w).map .vec := by
      cases a <;> first | rfl | exact ha.elim
    rw [hs]
    by_cases h : cb = .constLvalue ∧ Spec.isCqty a = true
    · rw [if_pos h, h.1, mul_right_const _ _ _ h.2]
    · rw [if_neg h, mul_right_array _ _ _ _ ha _ h, mul_over _ _ ha _ (by simp only [OT.depth] at hn; omega)]
  · have hs : Spec.mul ca cb (.vec v) b =
        if ca = .constLvalue ∧ Spec.isCqty b then none else (Spec.scalarMul b v).map .vec := by
      cases b <;> first | rfl | exact hb.elim
    rw [hs]
    by_cases h : ca = .constLvalue ∧ Spec.isCqty b = true
    · rw [if_pos h, h.1, mul_left_const _ _ _ h.2]
    · rw [if_neg h, mul_left_array _ _ _ _ hb _ h]
      rcases scalar_or v with hv | ⟨v, rfl⟩
      · have : isIterable v.ct = false := by cases v <;> first | rfl | exact hv.elim
        rw [this, mul_over _ _ hb _ (by simp only [OT.depth] at hn; omega), overArray_scalar _ hv]
        rfl
      · rw [scalarMul_vec_right]; rfl
  · rw [mul_array_array]
    show _ = (Spec.scalarMul v w).map OT.vec
    rcases scalar_or v with hv | ⟨v, rfl⟩
    · rcases scalar_or w with hw | ⟨w, rfl⟩
      · obtain ⟨k, rfl⟩ : ∃ k, m = k + 3 := ⟨m - 3, by omega⟩
        rw [mul_scalar _ _ _ _ _ hv hw]
      · rw [mul_hidden_right, scalarMul_vec_right]
    · rw [mul_hidden_left, scalarMul_vec_left]

/-- C124: which quotients compile and their types. -/
theorem C124_div (ca cb : Cat) (a b : OT) (n : ℕ) (hn : a.depth + b.depth + 5 ≤ n) :
    divTy true n (ca, a) (cb, b) = Spec.div ca cb a b := by
  obtain ⟨m, rfl⟩ : ∃ m, n = m + 1 := ⟨n - 1, by omega⟩
  rcases scalar_or a with ha | ⟨v, rfl⟩ <;> rcases scalar_or b with hb | ⟨w, rfl⟩
  · obtain ⟨k, rfl⟩ : ∃ k, m = k + 3 := ⟨m - 3, by omega⟩
    rw [div_scalar _ _ _ _ _ ha hb]
    cases a <;> cases b <;> first | rfl | exact ha.elim | exact hb.elim
  · have hs : Spec.div ca cb a (.vec w) =
        if cb = .constLvalue ∧ Spec.isCqty a then none else (Spec.overArray (fun x => Spec.scalarDiv a x) w).map .vec := by
      cases a <;> first | rfl | exact ha.elim
    rw [hs]
    by_cases h : cb = .constLvalue ∧ Spec.isCqty a = true
    · rw [if_pos h, h.1, div_right_const _ _ _ h.2]
    · rw [if_neg h, div_right_array _ _ _ _ ha _ h, div_over_right _ _ ha _ (by simp only [OT.depth] at hn; omega)]
  · have hs : Spec.div ca cb (.vec v) b =
        if ca = .constLvalue ∧ Spec.isCqty b then none else (Spec.overArray (fun x => Spec.scalarDiv x b) v).map .vec := by
      cases b <;> first | rfl | exact hb.elim
    rw [hs]
    by_cases h : ca = .constLvalue ∧ Spec.isCqty b = true
    · rw [if_pos h, h.1, div_left_const _ _ _ h.2]
    · rw [if_neg h, div_left_array _ _ _ _ hb _ h, div_over_left _ _ hb _ (by simp only [OT.depth] at hn; omega)]
  · rw [div_array_array]
    show _ = (Spec.scalarDiv v w).map OT.vec
    rcases scalar_or v with hv | ⟨v, rfl⟩
    · rcases scalar_or w with hw | ⟨w, rfl⟩
      · obtain ⟨k, rfl⟩ : ∃ k, m = k + 4 := ⟨m - 4, by omega⟩
        rw [div_scalar _ _ _ _ _ hv hw]
      · rw [div_hidden_right, scalarDiv_vec_right]
    · rw [div_hidden_left, scalarDiv_vec_left]

/-! ### Consequences -/

theorem rrMul_comm (a b : RootRatio) : rrMul a b = rrMul b a := by
  unfold rrMul
  by_cases h : a.root = 1 ∧ b.root = 1
  · rw [if_pos h, if_pos h.symm, Nat.mul_comm a.num, Nat.mul_comm a.den]
  · rw [if_neg h, if_neg (fun e => h e.symm)]
    simp only [Nat.gcd_comm a.root]
    rw [Nat.mul_comm (powSq a.num _), Nat.mul_comm (powSq a.den _), Nat.mul_right_comm]

theorem common_comm (r s : Rep) : r.common s = s.common r := by cases r <;> cases s <;> rfl

theorem tyMul_comm (t u : QTy) (h : t.off = 0) (h' : u.off = 0) : tyMul t u = tyMul u t := by
  unfold tyMul
  simp only [h, h', ne_eq, not_true, if_false]
  rw [rrMul_comm t.dim, rrMul_comm t.scal]

/-- The offset of the unit of an operand is zero. -/
def OT.Plain : OT → Prop
  | .qty _ t => t.off = 0
  | .cqty _ t => t.off = 0
  | .vec v => v.Plain
  | _ => True

theorem if_comm' {α : Type} {r s : Rep} {x y z : α} (h : r = s → x = y) : (if r = s then x else z) = if s = r then y else z := by
  by_cases e : r = s
  · rw [if_pos e, if_pos e.symm, h e]
  · rw [if_neg e, if_neg (Ne.symm e)]

/-- C124: without offsets the product of scalars does not depend on the order. -/
theorem C124_commutes (a b : OT) (ha : a.Plain) (hb : b.Plain) : Spec.scalarMul a b = Spec.scalarMul b a := by
  cases a <;> cases b <;> simp only [Spec.scalarMul]
  · rw [common_comm]
  all_goals (refine if_comm' fun e => ?_; subst e; try rfl)
  · rw [tyMul_comm _ _ ha hb]
  · rw [tyMul_comm _ _ ha hb]

/-! #### Units -/

/-- The dimension of the elements of an operand, as the number that encodes it (1 for a number). -/
noncomputable def OT.dimVal : OT → ℝ
  | .qty _ t => t.dim.val
  | .cqty _ t => t.dim.val
  | .vec v => v.dimVal
  | _ => 1

/-- The scale of the elements of an operand (1 for a number). -/
noncomputable def OT.scaleVal : OT → ℝ
  | .qty _ t => t.scal.val
  | .cqty _ t => t.scal.val
  | .vec v => v.scaleVal
  | _ => 1

/-- The type instantiates: the static assertions of `root_ratio` hold. -/
def OT.Valid : OT → Prop
  | .qty _ t => t.dim.Valid ∧ t.scal.Valid
  | .cqty _ t => t.dim.Valid ∧ t.scal.Valid
  | .vec v => v.Valid
  | _ => True

/-- What the product of two units must be. -/
theorem tyMul_units (t u w : QTy) (ht : t.dim.Valid ∧ t.scal.Valid) (hu : u.dim.Valid ∧ u.scal.Valid) (h : ofRes (tyMul t u) = some w) :
    (w.dim.Valid ∧ w.scal.Valid) ∧ w.dim.val = t.dim.val * u.dim.val ∧ w.scal.val = t.scal.val * u.scal.val ∧ w.off = 0 ∧ u.off = 0 := by
  unfold tyMul at h
  by_cases h0 : u.off = 0
  · rw [if_neg (by simpa using h0)] at h
    obtain ⟨d, h1, h2, h3⟩ := C34_multiply t.dim u.dim ht.1 hu.1
    obtain ⟨s, g1, g2, g3⟩ := C34_multiply t.scal u.scal ht.2 hu.2
    rw [h1, g1] at h
    cases h
    exact ⟨⟨h2, g2⟩, h3, g3, rfl, h0⟩
  · rw [if_pos h0] at h; cases h

theorem tyDiv_units (t u w : QTy) (ht : t.dim.Valid ∧ t.scal.Valid) (hu : u.dim.Valid ∧ u.scal.Valid) (h : ofRes (tyDiv t u) = some w) :
    (w.dim.Valid ∧ w.scal.Valid) ∧ w.dim.val = t.dim.val / u.dim.val ∧ w.scal.val = t.scal.val / u.scal.val ∧ w.off = 0 ∧ u.off = 0 := by
  unfold tyDiv at h
  by_cases h0 : u.off = 0
  · rw [if_neg (by simpa using h0)] at h
    obtain ⟨d, h1, h2, h3⟩ := C34_divide t.dim u.dim ht.1 hu.1
    obtain ⟨s, g1, g2, g3⟩ := C34_divide t.scal u.scal ht.2 hu.2
    rw [h1, g1] at h
    cases h
    exact ⟨⟨h2, g2⟩, h3, g3, rfl, h0⟩
  · rw [if_pos h0] at h; cases h

theorem one_valid : (⟨1, 1, 1⟩ : RootRatio).Valid := ⟨by decide, by decide, by decide, by decide⟩
theorem one_val : (⟨1, 1, 1⟩ : RootRatio).val = 1 := by simp [RootRatio.val]

theorem tyInv_units (u : QTy) (hu : u.dim.Valid ∧ u.scal.Valid) :
    ∃ w, ofRes (tyInv u) = some w ∧ (w.dim.Valid ∧ w.scal.Valid) ∧ w.dim.val = 1 / u.dim.val ∧ w.scal.val = 1 / u.scal.val ∧ w.off = 0 := by
  unfold tyInv
  obtain ⟨d, h1, h2, h3⟩ := C34_divide ⟨1, 1, 1⟩ u.dim one_valid hu.1
  obtain ⟨s, g1, g2, g3⟩ := C34_divide ⟨1, 1, 1⟩ u.scal one_valid hu.2
  rw [one_val] at h3 g3
  exact ⟨⟨d, s, 0⟩, by rw [h1, g1]; rfl, ⟨h2, g2⟩, h3, g3, rfl⟩

/-- The unit of `c` is the product of the units of `a` and `b`. -/
def IsProduct (a b c : OT) : Prop := c.Valid ∧ c.dimVal = a.dimVal * b.dimVal ∧ c.scaleVal = a.scaleVal * b.scaleVal

/-- The unit of `c` is the quotient of the units of `a` and `b`. -/
def IsQuotient (a b c : OT) : Prop := c.Valid ∧ c.dimVal = a.dimVal / b.dimVal ∧ c.scaleVal = a.scaleVal / b.scaleVal

theorem map_some {α β : Type} {o : Option α} {f : α → β} {y : β} (h : o.map f = some y) : ∃ x, o = some x ∧ f x = y := by
  cases o with
  | none => cases h
  | some x => exact ⟨x, rfl, Option.some.inj h⟩

theorem ite_some {α : Type} {p : Prop} [Decidable p] {o : Option α} {y : α} (h : (if p then o else none) = some y) : p ∧ o = some y := by
  by_cases hp : p
  · rw [if_pos hp] at h; exact ⟨hp, h⟩
  · rw [if_neg hp] at h; cases h

theorem scalarMul_units (a b c : OT) (ha : a.Valid) (hb : b.Valid) (h : Spec.scalarMul a b = some c) : IsProduct a b c := by
  cases a <;> cases b <;> simp only [Spec.scalarMul] at h
  case cqty.qty r t s u =>
    obtain ⟨-, h⟩ := ite_some h
    obtain ⟨w, hw, rfl⟩ := map_some h
    obtain ⟨h1, h2, h3, -⟩ := tyMul_units _ _ _ hb ha hw
    exact ⟨h1, h2.trans (mul_comm _ _), h3.trans (mul_comm _ _)⟩
  all_goals first
    | (cases h; done)
    | (cases h; exact ⟨trivial, by simp [OT.dimVal], by simp [OT.scaleVal]⟩)
    | (cases h; exact ⟨hb, by simp [OT.dimVal], by simp [OT.scaleVal]⟩)
    | (cases h; exact ⟨ha, by simp [OT.dimVal], by simp [OT.scaleVal]⟩)
    | (obtain ⟨-, h⟩ := ite_some h; cases h; exact ⟨trivial, by simp [OT.dimVal], by simp [OT.scaleVal]⟩)
    | (obtain ⟨-, h⟩ := ite_some h; cases h; exact ⟨hb, by simp [OT.dimVal], by simp [OT.scaleVal]⟩)
    | (obtain ⟨-, h⟩ := ite_some h; cases h; exact ⟨ha, by simp [OT.dimVal], by simp [OT.scaleVal]⟩)
    | (obtain ⟨-, h⟩ := ite_some h
       obtain ⟨w, hw, rfl⟩ := map_some h
       obtain ⟨h1, h2, h3, -⟩ := tyMul_units _ _ _ ha hb hw
       exact ⟨h1, h2, h3⟩)

theorem scalarDiv_units (a b c : OT) (ha : a.Valid) (hb : b.Valid) (h : Spec.scalarDiv a b = some c) : IsQuotient a b c := by
  cases a <;> cases b <;> simp only [Spec.scalarDiv] at h
  case cqty.qty r t s u =>
    obtain ⟨-, h⟩ := ite_some h
    by_cases e : t = u
    · rw [if_pos e] at h
      obtain ⟨w, hw, rfl⟩ := map_some h
      obtain ⟨h1, h2, h3, -⟩ := tyDiv_units _ _ _ ha hb hw
      exact ⟨h1, h2, h3⟩
    · rw [if_neg e] at h
      obtain ⟨v, g1, g2, g3, g4, g5⟩ := tyInv_units u hb
      rw [g1] at h
      obtain ⟨w, hw, rfl⟩ := map_some h
      obtain ⟨h1, h2, h3, -⟩ := tyMul_units _ _ _ g2 ha hw
      refine ⟨h1, ?_, ?_⟩
      · show w.dim.val = t.dim.val / u.dim.val
        rw [h2, g3]; ring
      · show w.scal.val = t.scal.val / u.scal.val
        rw [h3, g4]; ring
  all_goals first
    | (cases h; done)
    | (cases h; exact ⟨trivial, by simp [OT.dimVal], by simp [OT.scaleVal]⟩)
    | (cases h; exact ⟨ha, by simp [OT.dimVal], by simp [OT.scaleVal]⟩)
    | (obtain ⟨-, h⟩ := ite_some h; cases h; exact ⟨trivial, by simp [OT.dimVal], by simp [OT.scaleVal]⟩)
    | (obtain ⟨-, h⟩ := ite_some h; cases h; exact ⟨ha, by simp [OT.dimVal], by simp [OT.scaleVal]⟩)
    | (obtain ⟨-, h⟩ := ite_some h
       obtain ⟨w, hw, rfl⟩ := map_some h
       obtain ⟨h1, h2, h3, -⟩ := tyDiv_units _ _ _ ha hb hw
       exact ⟨h1, h2, h3⟩)
    | (obtain ⟨-, h⟩ := ite_some h
       obtain ⟨w, hw, rfl⟩ := map_some h
       obtain ⟨v, g1, g2, g3, g4, g5⟩ := tyInv_units _ hb
       rw [g1] at hw; cases hw
       exact ⟨g2, g3, g4⟩)
    | (obtain ⟨w, hw, rfl⟩ := map_some h
       obtain ⟨v, g1, g2, g3, g4, g5⟩ := tyInv_units _ hb
       rw [g1] at hw; cases hw
       exact ⟨g2, g3, g4⟩)

theorem overArray_inv (f : OT → Option OT) (P : OT → OT → Prop) (hP : ∀ x c, x.Valid → f x = some c → P x c)
    (hV : ∀ x c, P x c → P (.vec x) (.vec c)) (v c : OT) (hv : v.Valid) (h : Spec.overArray f v = some c) : P v c := by
  induction v generalizing c with
  | vec w ih =>
    obtain ⟨d, hd, rfl⟩ := map_some h
    exact hV _ _ (ih d hv hd)
  | _ => exact hP _ _ hv h

/-- C124: the unit of a product that compiles is the product of the units. -/
theorem C124_product_units (ca cb : Cat) (a b c : OT) (n : ℕ) (hn : a.depth + b.depth + 4 ≤ n) (ha : a.Valid) (hb : b.Valid)
    (h : mulTy true n (ca, a) (cb, b) = some c) : IsProduct a b c := by
  rw [C124_mul ca cb a b n hn] at h
  rcases scalar_or a with sa | ⟨v, rfl⟩ <;> rcases scalar_or b with sb | ⟨w, rfl⟩
  · refine scalarMul_units a b c ha hb ?_
    cases a <;> cases b <;> first | exact h | exact sa.elim | exact sb.elim
  · have h' : (Spec.overArray (fun x => Spec.scalarMul a x) w).map .vec = some c := by
      cases a <;> simp only [Spec.mul] at h <;> first | exact sa.elim | skip
      all_goals split_ifs at h
      all_goals exact h
    obtain ⟨d, hd, rfl⟩ := map_some h'
    exact overArray_inv _ (fun x c => IsProduct a x c) (fun x c hx hc => scalarMul_units _ _ _ ha hx hc) (fun x c hx => hx) w d hb hd
  · have h' : (Spec.scalarMul b v).map .vec = some c := by
      cases b <;> simp only [Spec.mul] at h <;> first | exact sb.elim | skip
      all_goals split_ifs at h
      all_goals exact h
    obtain ⟨d, hd, rfl⟩ := map_some h'
    have := scalarMul_units b v d hb ha hd
    exact ⟨this.1, this.2.1.trans (mul_comm _ _), this.2.2.trans (mul_comm _ _)⟩
  · obtain ⟨d, hd, rfl⟩ := map_some h
    exact scalarMul_units v w d ha hb hd

/-- C124: the unit of a quotient that compiles is the quotient of the units. -/
theorem C124_quotient_units (ca cb : Cat) (a b c : OT) (n : ℕ) (hn : a.depth + b.depth + 5 ≤ n) (ha : a.Valid) (hb : b.Valid)
    (h : divTy true n (ca, a) (cb, b) = some c) : IsQuotient a b c := by
  rw [C124_div ca cb a b n hn] at h
  rcases scalar_or a with sa | ⟨v, rfl⟩ <;> rcases scalar_or b with sb | ⟨w, rfl⟩
  · refine scalarDiv_units a b c ha hb ?_
    cases a <;> cases b <;> first | exact h | exact sa.elim | exact sb.elim
  · have h' : (Spec.overArray (fun x => Spec.scalarDiv a x) w).map .vec = some c := by
      cases a <;> simp only [Spec.div] at h <;> first | exact sa.elim | skip
      all_goals split_ifs at h
      all_goals exact h
    obtain ⟨d, hd, rfl⟩ := map_some h'
    exact overArray_inv _ (fun x c => IsQuotient a x c) (fun x c hx hc => scalarDiv_units _ _ _ ha hx hc) (fun x c hx => hx) w d hb hd
  · have h' : (Spec.overArray (fun x => Spec.scalarDiv x b) v).map .vec = some c := by
      cases b <;> simp only [Spec.div] at h <;> first | exact sb.elim | skip
      all_goals split_ifs at h
      all_goals exact h
    obtain ⟨d, hd, rfl⟩ := map_some h'
    exact overArray_inv _ (fun x c => IsQuotient x b c) (fun x c hx hc => scalarDiv_units _ _ _ hx hb hc) (fun x c hx => hx) v d ha hd
  · obtain ⟨d, hd, rfl⟩ := map_some h
    exact scalarDiv_units v w d ha hb hd

/-! #### What does not compile -/

/-- C124: the only ambiguous calls: two quantities with different representation types, or whose right operand has an offset. -/
theorem C124_ambiguous (ops : Bool) (ca cb : Cat) (a b : OT) :
    (resolve (mulFns ops a.ct) ⟨ca, a.ct⟩ ⟨cb, b.ct⟩ = .ambiguous ↔ ∃ r t s u, a = .qty r t ∧ b = .qty s u ∧ ¬(r = s ∧ u.off = 0)) ∧
    (resolve (divFns ops a.ct) ⟨ca, a.ct⟩ ⟨cb, b.ct⟩ = .ambiguous ↔ ∃ r t s u, a = .qty r t ∧ b = .qty s u ∧ ¬(r = s ∧ u.off = 0)) := by
  cases a with
  | num r =>
    cases b with
    | num s => constructor <;> refine ⟨fun h => ?_, fun ⟨_, _, _, _, h, _⟩ => by cases h⟩ <;> cases ops <;> cases h
    | cnum s =>
      by_cases h : r = s
      · subst h; rw [mul_num_cnum_same, div_num_cnum_same]; simp
      · rw [mul_num_cnum_diff _ _ _ _ _ h, div_num_cnum_diff _ _ _ _ _ h]; simp
    | qty s u => rw [mul_num_qty, div_num_qty]; simp
    | cqty s u => rw [mul_num_cqty, div_num_cqty]; simp
    | vec v => rw [mul_num_vec, div_num_vec]; cases ops <;> simp
  | cnum r =>
    cases b with
    | num s =>
      by_cases h : r = s
      · subst h; rw [mul_cnum_num_same, div_cnum_num_same]; simp
      · rw [mul_cnum_num_diff _ _ _ _ _ h, div_cnum_num_diff _ _ _ _ _ h]; simp
    | cnum s =>
      by_cases h : r = s
      · subst h; rw [mul_cnum_cnum_same, div_cnum_cnum_same]; simp
      · rw [mul_cnum_cnum_diff _ _ _ _ _ h, div_cnum_cnum_diff _ _ _ _ _ h]; simp
    | qty s u => rw [mul_cnum_qty, div_cnum_qty]; simp
    | cqty s u => rw [mul_cnum_cqty, div_cnum_cqty]; simp
    | vec v => rw [mul_cnum_vec, div_cnum_vec]; cases ops <;> simp
  | qty r t =>
    cases b with
    | num s => rw [mul_qty_num, div_qty_num]; simp
    | cnum s => rw [mul_qty_cnum, div_qty_cnum]; simp
    | qty s u =>
      by_cases h : r = s ∧ u.off = 0
      · obtain ⟨rfl, h⟩ := h
        rw [mul_qty_qty_same _ _ _ _ _ _ h, div_qty_qty_same _ _ _ _ _ _ h]
        simp [h]
      · have h' : s = r → u.off ≠ 0 := fun e e' => h ⟨e.symm, e'⟩
        rw [mul_qty_qty_diff _ _ _ _ _ _ _ h', div_qty_qty_diff _ _ _ _ _ _ _ h']
        exact ⟨⟨fun _ => ⟨r, t, s, u, rfl, rfl, h⟩, fun _ => rfl⟩, ⟨fun _ => ⟨r, t, s, u, rfl, rfl, h⟩, fun _ => rfl⟩⟩
    | cqty s u =>
      by_cases h : (r, t) = (s, u)
      · cases h; rw [mul_qty_cqty_same, div_qty_cqty_same]; simp
      · rw [mul_qty_cqty_diff _ _ _ _ _ _ _ h, div_qty_cqty_diff _ _ _ _ _ _ _ h]; simp
    | vec v => rw [mul_qty_vec, div_qty_vec]; cases ops <;> simp
  | cqty r t =>
    cases b with
    | num s => rw [mul_cqty_num, div_cqty_num]; simp
    | cnum s => rw [mul_cqty_cnum, div_cqty_cnum]; simp
    | qty s u =>
      by_cases h : (r, t) = (s, u)
      · cases h; rw [mul_cqty_qty_same, div_cqty_qty_same]; simp
      · rw [mul_cqty_qty_diff _ _ _ _ _ _ _ h, div_cqty_qty_diff _ _ _ _ _ _ _ h]; simp
    | cqty s u =>
      by_cases h : (r, t) = (s, u)
      · cases h; rw [mul_cqty_cqty_same, div_cqty_cqty_same]; simp
      · rw [mul_cqty_cqty_diff _ _ _ _ _ _ _ h, div_cqty_cqty_diff _ _ _ _ _ _ _ h]; simp
    | vec v => rw [mul_cqty_vec, div_cqty_vec]; split_ifs <;> simp
  | vec v =>
    cases b with
    | num s => rw [mul_vec_num, div_vec_num]; cases ops <;> simp
    | cnum s => rw [mul_vec_cnum, div_vec_cnum]; cases ops <;> simp
    | qty s u => rw [mul_vec_qty, div_vec_qty]; cases ops <;> simp
    | cqty s u => rw [mul_vec_cqty, div_vec_cqty]; split_ifs <;> simp
    | vec w => rw [mul_vec_vec, div_vec_vec]; cases ops <;> simp

/-- The representation type of the elements. -/
def OT.rep : OT → Rep
  | .num r => r
  | .cnum r => r
  | .qty r _ => r
  | .cqty r _ => r
  | .vec v => v.rep

/-- Complex elements. -/
def OT.isCplx : OT → Bool
  | .cnum _ => true
  | .cqty _ _ => true
  | _ => false

/-- A complex number and a real quantity. -/
def ComplexTimesQuantity (a b : OT) : Prop := ∃ r s u, a = .cnum r ∧ b = .qty s u

/-- A real number with a real number or a real quantity. -/
def NumberTimesReal (a b : OT) : Prop := (∃ r, a = .num r) ∧ b.isCplx = false

theorem tyMul_ok (t u : QTy) (ht : t.dim.Valid ∧ t.scal.Valid) (hu : u.dim.Valid ∧ u.scal.Valid) (h : u.off = 0) : (ofRes (tyMul t u)).isSome = true := by
  unfold tyMul
  obtain ⟨d, h1, -⟩ := C34_multiply t.dim u.dim ht.1 hu.1
  obtain ⟨s, g1, -⟩ := C34_multiply t.scal u.scal ht.2 hu.2
  rw [if_neg (by simpa using h), h1, g1]; rfl

theorem isSome_ite_map {α β : Type} {p : Prop} [Decidable p] (o : Option α) (f : α → β) (h : o.isSome = true) :
    (if p then o.map f else none).isSome = true ↔ p := by
  by_cases hp : p
  · rw [if_pos hp]; simp [h, hp]
  · rw [if_neg hp]; simp [hp]

/-- C124: which products of scalars without offset compile: not a complex number with a real quantity, and mixed representation types only with a real
number. -/
theorem C124_compiles (a b : OT) (sa : a.Scalar) (sb : b.Scalar) (ha : a.Valid) (hb : b.Valid) (pa : a.Plain) (pb : b.Plain) :
    (Spec.scalarMul a b).isSome = true ↔
      ¬ComplexTimesQuantity a b ∧ ¬ComplexTimesQuantity b a ∧ (a.rep = b.rep ∨ NumberTimesReal a b ∨ NumberTimesReal b a) := by
  unfold ComplexTimesQuantity NumberTimesReal
  cases a <;> cases b
  case vec.vec => exact sa.elim
  case qty.qty => simp only [Spec.scalarMul]; rw [isSome_ite_map _ _ (tyMul_ok _ _ ha hb pb)]; simp [OT.rep]
  case qty.cqty => simp only [Spec.scalarMul]; rw [isSome_ite_map _ _ (tyMul_ok _ _ ha hb pb)]; simp [OT.rep]
  case cqty.qty => simp only [Spec.scalarMul]; rw [isSome_ite_map _ _ (tyMul_ok _ _ hb ha pa)]; simp [OT.rep]
  case cqty.cqty => simp only [Spec.scalarMul]; rw [isSome_ite_map _ _ (tyMul_ok _ _ ha hb pb)]; simp [OT.rep]
  all_goals first
    | exact sa.elim
    | exact sb.elim
    | (simp only [Spec.scalarMul, OT.rep]; split_ifs <;> simp_all [OT.isCplx])
    | simp [Spec.scalarMul, OT.rep, OT.isCplx]

/-- C124: the type of a product does not depend on value categories, unless a complex quantity meets an array. -/
theorem C124_category (ca cb ca' cb' : Cat) (a b : OT)
    (h : ¬((∃ v, a = .vec v) ∧ Spec.isCqty b = true) ∧ ¬((∃ v, b = .vec v) ∧ Spec.isCqty a = true)) (n : ℕ) (hn : a.depth + b.depth + 5 ≤ n) :
    mulTy true n (ca, a) (cb, b) = mulTy true n (ca', a) (cb', b) ∧ divTy true n (ca, a) (cb, b) = divTy true n (ca', a) (cb', b) := by
  rw [C124_mul _ _ _ _ _ (by omega), C124_mul _ _ _ _ _ (by omega), C124_div _ _ _ _ _ hn, C124_div _ _ _ _ _ hn]
  cases a <;> cases b <;> simp_all [Spec.mul, Spec.div, Spec.isCqty]

/-- C124: a complex quantity times a const array does not compile, for every array, while the same product with the array not const does (both orders, and
division). -/
theorem C124_const_array_false (r : Rep) (t : QTy) (v : OT) (c : Cat) (n : ℕ) :
    mulTy true (n + 1) (c, .cqty r t) (.constLvalue, .vec v) = none ∧ mulTy true (n + 1) (.constLvalue, .vec v) (c, .cqty r t) = none ∧
    divTy true (n + 1) (c, .cqty r t) (.constLvalue, .vec v) = none ∧ divTy true (n + 1) (.constLvalue, .vec v) (c, .cqty r t) = none ∧
    mulTy true (n + 5) (c, .cqty r t) (.lvalue, .vec (.num r)) = some (.vec (.cqty r t)) ∧
    mulTy true (n + 5) (.rvalue, .vec (.num r)) (c, .cqty r t) = some (.vec (.cqty r t)) := by
  refine ⟨mul_right_const _ _ _ rfl _, mul_left_const _ _ _ rfl _, div_right_const _ _ _ rfl _, div_left_const _ _ _ rfl _, ?_, ?_⟩
  · rw [C124_mul _ _ _ _ _ (by simp [OT.depth])]; simp [Spec.mul, Spec.overArray, Spec.scalarMul]
  · rw [C124_mul _ _ _ _ _ (by simp [OT.depth])]; simp [Spec.mul, Spec.scalarMul]

/-- The metre and the degree Celsius. -/
def tyMetre : QTy := ⟨⟨2, 1, 1⟩, ⟨1, 1, 1⟩, 0⟩
/-- See `tyMetre`. -/
def tyCelsius : QTy := ⟨⟨11, 1, 1⟩, ⟨1, 1, 1⟩, 5463 / 20⟩

/-- C124: metres times degrees Celsius does not compile, degrees Celsius times metres does, and so does an array of metres times degrees Celsius, because the
scalar goes to the left. -/
theorem C124_offset_order_false (n : ℕ) (ca cb : Cat) :
    mulTy true (n + 5) (ca, .qty .double tyMetre) (cb, .qty .double tyCelsius) = none ∧
    mulTy true (n + 5) (ca, .qty .double tyCelsius) (cb, .qty .double tyMetre) = some (.qty .double ⟨⟨22, 1, 1⟩, ⟨1, 1, 1⟩, 0⟩) ∧
    mulTy true (n + 5) (ca, .vec (.qty .double tyMetre)) (cb, .qty .double tyCelsius) = some (.vec (.qty .double ⟨⟨22, 1, 1⟩, ⟨1, 1, 1⟩, 0⟩)) := by
  have e1 : tyMul tyMetre tyCelsius = .ub := by rw [tyMul, if_pos (by norm_num [tyCelsius])]
  have e2 : tyMul tyCelsius tyMetre = .ok ⟨⟨22, 1, 1⟩, ⟨1, 1, 1⟩, 0⟩ := by decide +kernel
  refine ⟨?_, ?_, ?_⟩
  · rw [C124_mul _ _ _ _ _ (by simp [OT.depth])]; simp [Spec.mul, Spec.scalarMul, e1, ofRes]
  · rw [C124_mul _ _ _ _ _ (by simp [OT.depth])]; simp [Spec.mul, Spec.scalarMul, e2, ofRes]
  · rw [C124_mul _ _ _ _ _ (by simp [OT.depth])]; simp [Spec.mul, Spec.scalarMul, Spec.isCqty, e2, ofRes]

/-- C124: a number times an array of arrays compiles, for every depth, and an array of arrays over a number does; an array of arrays times a scalar on the
right never does (the operator for a scalar on the left, which its elements would need, is declared after it), nor do two arrays of arrays. -/
theorem C124_nested_arrays_false (ca cb : Cat) (r : Rep) (k : ℕ) (v w x : OT) (hx : x.Scalar) (n : ℕ) :
    mulTy true (n + k + 5) (ca, .num r) (cb, OT.vec^[k + 1] (.num r)) = some (OT.vec^[k + 1] (.num r)) ∧
    divTy true (n + k + 6) (ca, OT.vec^[k + 1] (.num r)) (cb, .num r) = some (OT.vec^[k + 1] (.num r)) ∧
    mulTy true n (ca, .vec (.vec v)) (cb, x) = none ∧
    mulTy true n (ca, .vec (.vec v)) (cb, .vec (.vec w)) = none ∧ divTy true n (ca, .vec (.vec v)) (cb, .vec (.vec w)) = none := by
  have hd : ∀ k, (OT.vec^[k] (.num r)).depth = k := by
    intro k
    induction k with
    | zero => rfl
    | succ k ih => rw [Function.iterate_succ_apply', OT.depth, ih]
  have hc : r.common r = r := by cases r <;> rfl
  have ho : ∀ k, Spec.overArray (fun x => Spec.scalarMul (.num r) x) (OT.vec^[k] (.num r)) = some (OT.vec^[k] (.num r)) := by
    intro k
    induction k with
    | zero => simp [Spec.overArray, Spec.scalarMul, hc]
    | succ k ih => rw [Function.iterate_succ_apply', Spec.overArray, ih]; rfl
  have ho' : ∀ k, Spec.overArray (fun x => Spec.scalarDiv x (.num r)) (OT.vec^[k] (.num r)) = some (OT.vec^[k] (.num r)) := by
    intro k
    induction k with
    | zero => simp [Spec.overArray, Spec.scalarDiv, hc]
    | succ k ih => rw [Function.iterate_succ_apply', Spec.overArray, ih]; rfl
  refine ⟨?_, ?_, ?_, ?_, ?_⟩
  · rw [C124_mul _ _ _ _ _ (by rw [hd]; simp only [OT.depth]; omega), Function.iterate_succ_apply']
    have := ho k
    simp [Spec.mul, Spec.isCqty, this]
  · rw [C124_div _ _ _ _ _ (by rw [hd]; simp only [OT.depth]; omega), Function.iterate_succ_apply']
    have := ho' k
    simp [Spec.div, Spec.isCqty, this]
  · cases n with
    | zero => rfl
    | succ n =>
      by_cases h : ca = .constLvalue ∧ Spec.isCqty x = true
      · rw [h.1, mul_left_const _ _ _ h.2]
      · rw [mul_left_array _ _ _ _ hx _ h]; rfl
  · cases n with
    | zero => rfl
    | succ n => rw [mul_array_array, mul_hidden_left]; rfl
  · cases n with
    | zero => rfl
    | succ n => rw [div_array_array, div_hidden_left]; rfl

/-! #### map -/

/-- C124: overload resolution of the binary `map` gives the storage that the model of C04 uses, for all value categories. -/
theorem C124_map_destination (t1 t2 : CT) (c1 c2 : Cat) (same1 same2 : Bool) (n : ℕ) :
    mapDest t1 t2 same1 same2 (n + 2) c1 c2 = some (mapBinaryDest c1 c2 same1 same2) := by
  cases c1 <;> cases c2 <;> cases same1 <;> cases same2 <;> rfl

/-- C124: overload resolution of the unary `map`: only a const lvalue selects the overload that leaves the argument alone. -/
theorem C124_map_unary (t o : CT) (c d : Cat) :
    resolve map1Fns ⟨c, t⟩ ⟨d, o⟩ = if c = .constLvalue then .sel .const else .sel .forward := by
  cases c <;> rfl

/-! #### Concrete cases -/

/-- C124: 3 · (2 m as an array) compiles; a `float` quantity times a `double` quantity is ambiguous. -/
example : mulTy true 5 (.constLvalue, .num .double) (.lvalue, .vec (.qty .float tyMetre)) = some (.vec (.qty .double tyMetre)) := by
  rw [C124_mul _ _ _ _ _ (by simp [OT.depth])]; rfl

example : resolve (mulFns true (OT.qty .float tyMetre).ct) ⟨.lvalue, (OT.qty .float tyMetre).ct⟩ ⟨.lvalue, (OT.qty .double tyMetre).ct⟩ = .ambiguous :=
  (C124_ambiguous true .lvalue .lvalue _ _).1.2 ⟨_, _, _, _, rfl, rfl, by simp⟩

end SciCpp.Ovl
