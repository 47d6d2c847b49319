import Verif.Model.HistTy
import Verif.Props.OverloadAdd
import Verif.Props.QSpectral
/-
  Property theorems C134: which element types `quantile`, `iqr`, `histogram_bin_edges` and `histogram` compile for.
-/
namespace SciCpp
open Spec Ovl

/-- The elements of an array: numbers, and quantities with a floating point representation, valid template arguments and a rational scale. -/
def Elem : OT → Prop
  | .num _ => True
  | .qty r t => r ≠ .int ∧ t.RatScale
  | _ => False

/-- The bin methods that compile: for `int` and `double` all; for `float` not those that use quantiles or Doane's estimator; for quantities without an offset
all with `double`, only Scott's with `float`; for quantities with an offset none. -/
def MethodCompiles : BinMethod → OT → Prop
  | m, .num .float => m ≠ .fd ∧ m ≠ .auto ∧ m ≠ .doane
  | _, .num _ => True
  | _, .qty .double t => t.off = 0
  | m, .qty .float t => t.off = 0 ∧ m = .scott
  | _, _ => False

theorem tyAdd_common (t : QTy) (h : t.RatScale) : commonQuantity t t = .ok t := by
  have := tyAdd_self t h
  rwa [tyAdd, if_neg (by simp)] at this

section ops
variable (a b : OT)

theorem scalar_depth {a : OT} (h : a.Scalar) : a.depth = 0 := by
  cases a <;> first | rfl | exact h.elim

theorem addS_eq (ha : a.Scalar) (hb : b.Scalar) : addS a b = Spec.scalarSum a b := by
  rw [addS, C132_add _ _ _ _ _ (by rw [scalar_depth ha, scalar_depth hb]; omega)]
  cases a <;> cases b <;> first | rfl | exact ha.elim | exact hb.elim

theorem subS_eq (ha : a.Scalar) (hb : b.Scalar) (hv : a.Valid) : subS a b = Spec.scalarSum a b := by
  rw [subS, C132_sub _ _ _ _ hv _ (by rw [scalar_depth ha, scalar_depth hb]; omega)]
  cases a <;> cases b <;> first | rfl | exact ha.elim | exact hb.elim

theorem mulST_eq (ha : a.Scalar) (hb : b.Scalar) : mulST a b = Spec.scalarMul a b := mul_scalar true _ _ a b ha hb 7

theorem divST_eq (ha : a.Scalar) (hb : b.Scalar) : divST a b = Spec.scalarDiv a b := div_scalar true _ _ a b ha hb 6

theorem cmpS_eq (op : Ovl.Cmp) (ha : a.Scalar) (hb : b.Scalar) : cmpS op a b = if Spec.scalarCmp op a b = true then some () else none := by
  rw [cmpS, C132_compare _ _ _ _ _ _ (by rw [scalar_depth ha, scalar_depth hb]; omega)]
  have e : Spec.cmp op a b = if Spec.scalarCmp op a b = true then some 0 else none := by
    cases a <;> cases b <;> first | rfl | exact ha.elim | exact hb.elim
  rw [e]
  by_cases h : Spec.scalarCmp op a b = true
  · rw [if_pos h, if_pos h]; rfl
  · rw [if_neg h, if_neg h]

end ops

/-! ### the operators on numbers and on quantities of one type -/

theorem add_num (r s : Rep) : addS (.num r) (.num s) = some (.num (r.common s)) := addS_eq _ _ trivial trivial
theorem sub_num (r s : Rep) : subS (.num r) (.num s) = some (.num (r.common s)) := subS_eq _ _ trivial trivial trivial
theorem mul_num (r s : Rep) : mulST (.num r) (.num s) = some (.num (r.common s)) := mulST_eq _ _ trivial trivial
theorem div_num (r s : Rep) : divST (.num r) (.num s) = some (.num (r.common s)) := divST_eq _ _ trivial trivial
theorem cmp_num (op) (r s : Rep) : cmpS op (.num r) (.num s) = some () := cmpS_eq _ _ op trivial trivial

theorem add_qty (r s : Rep) (t : QTy) (h : t.RatScale) : addS (.qty r t) (.qty s t) = if r = s then some (.qty r t) else none := by
  rw [addS_eq (.qty r t) (.qty s t) trivial trivial]
  simp [Spec.scalarSum, tyAdd_common t h, ofRes]

theorem sub_qty (r s : Rep) (t : QTy) (h : t.RatScale) : subS (.qty r t) (.qty s t) = if r = s then some (.qty r t) else none := by
  rw [subS_eq (.qty r t) (.qty s t) trivial trivial h.1]
  simp [Spec.scalarSum, tyAdd_common t h, ofRes]

theorem mul_num_qty (r s : Rep) (t : QTy) : mulST (.num r) (.qty s t) = some (.qty (r.common s) t) := mulST_eq _ _ trivial trivial
theorem mul_qty_num (r s : Rep) (t : QTy) : mulST (.qty r t) (.num s) = some (.qty (s.common r) t) := mulST_eq _ _ trivial trivial
theorem div_qty_num (r s : Rep) (t : QTy) : divST (.qty r t) (.num s) = some (.qty (s.common r) t) := divST_eq _ _ trivial trivial
theorem cmp_qty (op) (r s : Rep) (t : QTy) : cmpS op (.qty r t) (.qty s t) = if r = s then some () else none := by
  rw [cmpS_eq (.qty r t) (.qty s t) op trivial trivial]
  simp [Spec.scalarCmp]

theorem lerp_num (r s : Rep) : lerpTy (.num r) (.num s) = some (.num (r.common s)) := by
  unfold lerpTy
  simp only [cmp_num, mul_num, sub_num, add_num, castTy, condTy, Option.bind_eq_bind, Option.bind_some]
  cases r <;> cases s <;> rfl

theorem lerp_qty (r s : Rep) (hr : r ≠ .int) (t : QTy) (h : t.RatScale) :
    lerpTy (.qty r t) (.num s) = if s.common r = r then some (.qty r t) else none := by
  unfold lerpTy
  simp only [cmp_num, cmp_qty, mul_num_qty, mul_qty_num, sub_num, sub_qty _ _ _ h, add_qty _ _ _ h, castTy, Option.bind_eq_bind, Option.bind_some,
    if_true]
  cases r <;> cases s <;> simp [Rep.common, condTy, sameRet] at hr ⊢

/-! ### quantiles -/

/-- C134: `quantile` compiles for integers (the result is a `double`) and for `double` and quantities of `double` (the result has the type of the elements), whatever the
floating point type of `q`; not for `float` and quantities of `float`. -/
theorem C134_quantile_partial (q : Rep) (a : OT) (ha : Elem a) :
    quantileTy q a = if a.rep = .float then none else some (floatTy a) := by
  cases a with
  | num r =>
    unfold quantileTy
    simp only [cmp_num, sub_num, Option.bind_eq_bind, Option.bind_some]
    rw [show q.common .double = .double by cases q <;> rfl, lerp_num]
    cases r <;> rfl
  | qty r t =>
    unfold quantileTy
    simp only [cmp_qty, if_true, sub_num, Option.bind_eq_bind, Option.bind_some]
    rw [show q.common .double = .double by cases q <;> rfl, lerp_qty _ _ ha.1 _ ha.2]
    cases r with
    | int => exact absurd rfl ha.1
    | float => rfl
    | double => simp [Rep.common, OT.rep, floatTy, sameRet]
  | _ => exact ha.elim

/-- C134: `percentile` compiles exactly when `quantile` does. -/
theorem C134_percentile (p q : Rep) (a : OT) (ha : Elem a) : percentileTy p a = quantileTy q a := by
  unfold percentileTy
  rw [div_num]
  show quantileTy _ a = _
  rw [C134_quantile_partial _ a ha, C134_quantile_partial _ a ha]

/-- C134: the interquartile range has the type of the quantiles. -/
theorem C134_iqr_partial (a : OT) (ha : Elem a) : iqrTy a = if a.rep = .float then none else some (floatTy a) := by
  unfold iqrTy
  rw [C134_percentile _ .double a ha, C134_quantile_partial _ a ha]
  by_cases h : a.rep = .float
  · simp only [if_pos h]; rfl
  · simp only [if_neg h]
    show subS (floatTy a) (floatTy a) = _
    cases a with
    | num r => cases r <;> exact sub_num _ _
    | qty r t => exact (sub_qty r r t ha.2).trans (if_pos rfl)
    | _ => exact ha.elim

/-! ### bin edges -/

theorem ptp_num (r : Rep) : ptpOT (.num r) = some (.num r) := by
  unfold ptpOT
  rw [cmp_num, sub_num]
  cases r <;> rfl

theorem ptp_qty (r : Rep) (t : QTy) (h : t.RatScale) : ptpOT (.qty r t) = some (.qty r t) := by
  unfold ptpOT
  rw [cmp_qty, sub_qty _ _ _ h, if_pos rfl, if_pos rfl]
  simp [sameRet]

theorem lin_mul (a : OT) (ha : a.Scalar) (r : Rep) :
    mulTy true 10 (.rvalue, .vec a) (.constLvalue, .num r) = (Spec.scalarMul (.num r) a).map .vec := by
  rw [C124_mul _ _ _ _ _ (by simp [OT.depth, scalar_depth ha])]
  rfl

theorem lin_add (a b : OT) (ha : a.Scalar) (hb : b.Scalar) :
    addTy 10 3 (.lvalue, a) (.rvalue, .vec b) = (Spec.scalarSum a b).map .vec := by
  rw [C132_add _ _ _ _ _ (by simp [OT.depth, scalar_depth ha, scalar_depth hb])]
  cases a <;> cases b <;> first | rfl | exact ha.elim | exact hb.elim

theorem linspace_num (r : Rep) (h : r ≠ .int) : linspaceTy (.num r) = some (.vec (.num r)) := by
  have e : rawTy (.num r) = some r := by cases r <;> first | rfl | exact absurd rfl h
  unfold linspaceTy
  simp only [e, sub_num, Option.bind_eq_bind, Option.bind_some, lin_mul (.num r) trivial, Spec.scalarMul, Option.map_some, common_self,
    lin_add (.num r) (.num r) trivial trivial, Spec.scalarSum]
  simp [sameRet]

theorem linspace_qty (r : Rep) (t : QTy) (h : t.RatScale) : linspaceTy (.qty r t) = some (.vec (.qty r t)) := by
  unfold linspaceTy
  simp only [rawTy, sub_qty _ _ _ h, if_true, Option.bind_eq_bind, Option.bind_some, lin_mul (.qty r t) trivial, Spec.scalarMul, Option.map_some, common_self,
    lin_add (.qty r t) (.qty r t) trivial trivial, Spec.scalarSum, and_self, tyAdd_common t h, ofRes]
  simp [sameRet]

theorem outer_num (r : Rep) : outerEdgesTy (.num r) = some (floatTy (.num r)) := by
  unfold outerEdgesTy
  rw [cmp_num]
  cases r <;> rfl

theorem outer_qty (r : Rep) (t : QTy) : outerEdgesTy (.qty r t) = some (.qty r t) := by
  unfold outerEdgesTy
  rw [cmp_qty, if_pos rfl]
  simp [castTy, floatTy]

theorem edges_tail_num (r s : Rep) (h : r ≠ .int) :
    ((subS (.num r) (.num r)).bind fun d => (divST d (.num s)).bind fun _ => linspaceTy (.num r)) = some (.vec (.num r)) := by
  rw [sub_num, Option.bind_some, div_num]
  exact linspace_num r h

theorem edges_tail_qty (r s : Rep) (t w : QTy) (ht : t.RatScale) (hw : w.RatScale) (hd : w.off = t.off) :
    ((subS (.qty r t) (.qty r t)).bind fun d => (divST d (.qty s w)).bind fun _ => linspaceTy (.qty r t)) =
      if r = s ∧ t.off = 0 then some (.vec (.qty r t)) else none := by
  rw [sub_qty _ _ _ ht, if_pos rfl, Option.bind_some]
  rw [divST_eq (.qty r t) (.qty s w) trivial trivial]
  simp only [Spec.scalarDiv]
  by_cases h1 : r = s
  · by_cases h2 : t.off = 0
    · obtain ⟨q, q1, -⟩ := tyDiv_plain t w ht hw (by rw [hd, h2])
      rw [if_pos h1, if_pos ⟨h1, h2⟩, q1]
      exact linspace_qty r t ht
    · rw [if_pos h1, if_neg (fun h => h2 h.2)]
      have : tyDiv t w = .ub := by rw [tyDiv, if_pos (by rw [hd]; exact h2)]
      rw [this]; rfl
  · rw [if_neg h1, if_neg (fun h => h1 h.1)]; rfl

/-- The unit of the bin width: the elements' own for every method, except that the dimension of Scott's is a quotient of exponents. -/
theorem width_qty (m : BinMethod) (r : Rep) (hr : r ≠ .int) (t : QTy) (h : t.RatScale) :
    (t.off = 0 ∧ (r = .double ∨ m = .scott) ∧ ∃ w, binWidthTy m (.qty r t) = some (.qty r w) ∧ w.RatScale ∧ w.off = t.off) ∨
    (¬ (t.off = 0 ∧ (r = .double ∨ m = .scott)) ∧ (binWidthTy m (.qty r t) = none ∨
      ∃ s w, binWidthTy m (.qty r t) = some (.qty s w) ∧ w.RatScale ∧ w.off = t.off ∧ (s ≠ r ∨ t.off ≠ 0))) := by
  have hi := C134_iqr_partial (.qty r t) ⟨hr, h⟩
  by_cases h0 : t.off = 0
  · obtain ⟨v, v1, v2, v3, -⟩ := stdTy_zero t h h0
    obtain ⟨k, k1, -⟩ := skewTy_zero t h h0
    cases r with
    | int => exact absurd rfl hr
    | float =>
      by_cases hm : m = .scott
      · subst hm
        exact .inl ⟨h0, .inr rfl, v, by simp [binWidthTy, rawTy, stdOT, v1, ofRes, mul_num_qty, common_self], v2, v3.trans h0.symm⟩
      · refine .inr ⟨by simp [hm], ?_⟩
        cases m with
        | scott => exact absurd rfl hm
        | sqrt => exact .inr ⟨.double, t, by simp [binWidthTy, ptp_qty _ _ h, div_qty_num, Rep.common], h, rfl, .inl (by decide)⟩
        | rice => exact .inr ⟨.double, t, by simp [binWidthTy, rawTy, ptp_qty _ _ h, mul_num_qty, div_qty_num, Rep.common], h, rfl, .inl (by decide)⟩
        | sturges => exact .inr ⟨.double, t, by simp [binWidthTy, ptp_qty _ _ h, div_qty_num, Rep.common], h, rfl, .inl (by decide)⟩
        | fd => exact .inl (by simp [binWidthTy, rawTy, hi, OT.rep])
        | doane => exact .inl (by simp [binWidthTy, rawTy, skewOT, k1, ofRes, add_num, ptp_qty _ _ h, div_qty_num, Rep.common, floatTy, sameRet])
        | auto => exact .inl (by simp [binWidthTy, rawTy, hi, OT.rep])
    | double =>
      refine .inl ⟨h0, .inl rfl, ?_⟩
      cases m with
      | scott => exact ⟨v, by simp [binWidthTy, rawTy, stdOT, v1, ofRes, mul_num_qty, common_self], v2, v3.trans h0.symm⟩
      | sqrt => exact ⟨t, by simp [binWidthTy, ptp_qty _ _ h, div_qty_num, Rep.common], h, rfl⟩
      | rice => exact ⟨t, by simp [binWidthTy, rawTy, ptp_qty _ _ h, mul_num_qty, div_qty_num, Rep.common], h, rfl⟩
      | sturges => exact ⟨t, by simp [binWidthTy, ptp_qty _ _ h, div_qty_num, Rep.common], h, rfl⟩
      | fd => exact ⟨t, by simp [binWidthTy, rawTy, hi, OT.rep, floatTy, mul_num_qty, div_qty_num, Rep.common], h, rfl⟩
      | doane =>
        exact ⟨t, by simp [binWidthTy, rawTy, skewOT, k1, ofRes, add_num, ptp_qty _ _ h, div_qty_num, Rep.common, floatTy, sameRet], h, rfl⟩
      | auto =>
        exact ⟨t, by simp [binWidthTy, rawTy, hi, OT.rep, floatTy, mul_num_qty, div_qty_num, Rep.common, ptp_qty _ _ h, sameRet], h, rfl⟩
  · refine .inr ⟨fun e => h0 e.1, ?_⟩
    obtain ⟨-, -, -, -, -, h1, -, h2, -⟩ := C128_compiles t t h h
    have e1 : stdTy t = .ub := by
      cases e : stdTy t with
      | ok w => exact absurd (h1.1 ⟨w, e⟩) h0
      | ub => rfl
    have e2 : skewTy t = .ub := by
      cases e : skewTy t with
      | ok w => exact absurd (h2.1 ⟨w, e⟩) h0
      | ub => rfl
    cases m with
    | scott => exact .inl (by simp [binWidthTy, rawTy, stdOT, e1, ofRes])
    | sqrt => exact .inr ⟨.double, t, by cases r <;> simp [binWidthTy, ptp_qty _ _ h, div_qty_num, Rep.common], h, rfl, .inr h0⟩
    | rice => exact .inr ⟨.double, t, by cases r <;> simp [binWidthTy, rawTy, ptp_qty _ _ h, mul_num_qty, div_qty_num, Rep.common], h, rfl, .inr h0⟩
    | sturges => exact .inr ⟨.double, t, by cases r <;> simp [binWidthTy, ptp_qty _ _ h, div_qty_num, Rep.common], h, rfl, .inr h0⟩
    | fd =>
      cases r with
      | int => exact absurd rfl hr
      | float => exact .inl (by simp [binWidthTy, rawTy, hi, OT.rep])
      | double => exact .inr ⟨.double, t, by simp [binWidthTy, rawTy, hi, OT.rep, floatTy, mul_num_qty, div_qty_num, Rep.common], h, rfl, .inr h0⟩
    | doane => exact .inl (by simp [binWidthTy, rawTy, skewOT, e2, ofRes])
    | auto =>
      cases r with
      | int => exact absurd rfl hr
      | float => exact .inl (by simp [binWidthTy, rawTy, hi, OT.rep])
      | double =>
        exact .inr ⟨.double, t, by simp [binWidthTy, rawTy, hi, OT.rep, floatTy, mul_num_qty, div_qty_num, Rep.common, ptp_qty _ _ h, sameRet], h, rfl, .inr h0⟩

open Classical in
/-- C134: `histogram_bin_edges<method>` compiles exactly for the element types and methods of `MethodCompiles`; the edges have the type of the elements, `double` for
integers. -/
theorem C134_edges_partial (m : BinMethod) (a : OT) (ha : Elem a) :
    edgesTy m a = if MethodCompiles m a then some (.vec (floatTy a)) else none := by
  have hi := C134_iqr_partial a ha
  cases a with
  | num r =>
    unfold edgesTy
    rw [outer_num]
    cases r <;> cases m <;>
      simp [binWidthTy, ptp_num, rawTy, stdOT, skewOT, hi, OT.rep, floatTy, MethodCompiles, mul_num, div_num, add_num, sub_num, Rep.common, sameRet, linspace_num]
  | qty r t =>
    have hM : MethodCompiles m (.qty r t) ↔ t.off = 0 ∧ (r = .double ∨ m = .scott) := by
      cases r with
      | int => exact absurd rfl ha.1
      | _ => simp [MethodCompiles]
    unfold edgesTy
    rw [outer_qty]
    simp only [Option.bind_eq_bind, Option.bind_some, hM]
    rcases width_qty m r ha.1 t ha.2 with ⟨h0, h1, w, e, w1, w2⟩ | ⟨h, e | ⟨s, w, e, w1, w2, w3⟩⟩
    · rw [e, Option.bind_some, edges_tail_qty r r t w ha.2 w1 w2, if_pos ⟨rfl, h0⟩, if_pos ⟨h0, h1⟩]; rfl
    · rw [e, if_neg h]; rfl
    · rw [e, Option.bind_some, edges_tail_qty r s t w ha.2 w1 w2, if_neg (by rintro ⟨rfl, h'⟩; exact w3.elim (fun k => k rfl) (fun k => k h')), if_neg h]
  | _ => exact ha.elim

/-- C134: with a number of bins, the edges compile for all elements, with or without an offset. -/
theorem C134_edges_count (a : OT) (ha : Elem a) : edgesNTy a = some (.vec (floatTy a)) := by
  unfold edgesNTy
  cases a with
  | num r =>
    rw [outer_num]
    cases r with
    | int => exact linspace_num .double (by decide)
    | float => exact linspace_num .float (by decide)
    | double => exact linspace_num .double (by decide)
  | qty r t =>
    rw [outer_qty]
    exact linspace_qty r t ha.2
  | _ => exact ha.elim

/-! ### histograms -/

theorem dens_mul (a : OT) (ha : a.Scalar) : mulTy true 10 (.rvalue, .num .int) (.rvalue, .vec a) = (Spec.scalarMul (.num .int) a).map .vec := by
  rw [C124_mul _ _ _ _ _ (by simp [OT.depth, scalar_depth ha])]
  cases a <;> first | rfl | exact ha.elim

theorem dens_div (a b : OT) (ha : a.Scalar) (hb : b.Scalar) : divTy true 10 (.rvalue, .vec a) (.rvalue, .vec b) = (Spec.scalarDiv a b).map .vec := by
  rw [C124_div _ _ _ _ _ (by simp [OT.depth, scalar_depth ha, scalar_depth hb])]
  cases a <;> cases b <;> rfl

theorem hist_num (density uniform : Bool) (r : Rep) :
    histTy density uniform (.num r) = some (if density then floatTy (.num r) else .num .int) := by
  cases r <;> cases density <;> cases uniform <;>
    simp [histTy, floatTy, cmp_num, sub_num, div_num, dens_mul (.num _) trivial, dens_div (.num _) (.num _) trivial trivial, Spec.scalarMul, Spec.scalarDiv,
      Rep.common, sameRet]

theorem hist_qty (density uniform : Bool) (r : Rep) (hr : r ≠ .int) (t u : QTy) (h : t.RatScale) (hu : tyInv t = .ok u) :
    histTy density uniform (.qty r t) = if uniform = true ∧ t.off ≠ 0 then none else some (if density then .qty r u else .num .int) := by
  have hc : Rep.int.common r = r := by cases r <;> rfl
  have hd : divST (.qty r t) (.qty r t) = (ofRes (tyDiv t t)).map (.qty r) := by
    rw [divST_eq (.qty r t) (.qty r t) trivial trivial]
    simp [Spec.scalarDiv]
  cases uniform with
  | false =>
    cases density <;>
      simp [histTy, floatTy, cmp_qty, sub_qty _ _ _ h, dens_mul (.qty _ _) trivial, dens_div (.num _) (.qty _ _) trivial trivial, Spec.scalarMul, Spec.scalarDiv,
        hu, ofRes, hc, sameRet]
  | true =>
    by_cases h0 : t.off = 0
    · obtain ⟨q, q1, -⟩ := tyDiv_plain t t h h h0
      cases density <;>
        simp [histTy, floatTy, cmp_qty, sub_qty _ _ _ h, dens_mul (.qty _ _) trivial, dens_div (.num _) (.qty _ _) trivial trivial, Spec.scalarMul,
          Spec.scalarDiv, hu, ofRes, hc, sameRet, hd, q1, h0]
    · have q1 : tyDiv t t = .ub := by rw [tyDiv, if_pos h0]
      cases density <;> simp [histTy, floatTy, cmp_qty, sub_qty _ _ _ h, ofRes, hd, q1, h0]

/-- C134: `histogram` over given bins counts in integers; the bins are searched for every element type; computed bin indices (`use_uniform_bins`) need a unit without
an offset; a density of numbers has the type of the bins, a density of quantities is a quantity per unit. -/
theorem C134_histogram (density uniform : Bool) (a : OT) (ha : Elem a) :
    ((∃ w, histTy density uniform a = some w) ↔ (uniform = true → offOf a = 0)) ∧
    (∀ w, histTy density uniform a = some w → density = false → w = .num .int) ∧
    (∀ w r, histTy density uniform a = some w → density = true → a = .num r → w = floatTy a) ∧
    (∀ w r t, histTy density uniform a = some w → density = true → a = .qty r t →
      ∃ u, w = .qty r u ∧ u.RatScale ∧ u.off = 0 ∧ u.dim.val = 1 / t.dim.val ∧ u.scal.val = 1 / t.scal.val) := by
  cases a with
  | num r =>
    rw [hist_num]
    refine ⟨⟨fun _ _ => rfl, fun _ => ⟨_, rfl⟩⟩, ?_, ?_, ?_⟩
    · rintro w h rfl; simpa using h.symm
    · rintro w s h rfl -; simpa using h.symm
    · rintro w s t - - h; cases h
  | qty r t =>
    obtain ⟨u, u1, u2⟩ := tyInv_plain t ha.2
    rw [hist_qty density uniform r ha.1 t u ha.2 u1]
    refine ⟨?_, ?_, ?_, ?_⟩
    · by_cases h : uniform = true ∧ t.off ≠ 0
      · rw [if_pos h]
        exact ⟨fun ⟨w, e⟩ => (by cases e), fun k => absurd (k h.1) h.2⟩
      · rw [if_neg h]
        exact ⟨fun _ k => by_contra fun z => h ⟨k, z⟩, fun _ => ⟨_, rfl⟩⟩
    · rintro w h rfl
      split at h
      · cases h
      · simpa using h.symm
    · rintro w s - - h; cases h
    · rintro w s t' h rfl e
      cases e
      split at h
      · cases h
      · exact ⟨u, by simpa using h.symm, u2⟩
  | _ => exact ha.elim

/-! ### examples -/

/-- The elements of the examples: kilometres and degrees Celsius. -/
def kmT : QTy := ⟨⟨2, 1, 1⟩, ⟨1000, 1, 1⟩, 0⟩

theorem km_eq : tyLength ⟨1000, 1, 1⟩ = kmT := by decide +kernel

theorem elem_km (r : Rep) (h : r ≠ .int) : Elem (.qty r kmT) :=
  ⟨h, ⟨⟨by decide, by decide, by decide, by decide⟩, ⟨by decide, by decide, by decide, by decide⟩⟩, rfl⟩

theorem elem_celsius (r : Rep) (h : r ≠ .int) : Elem (.qty r tyCelsius) :=
  ⟨h, ⟨⟨by decide, by decide, by decide, by decide⟩, ⟨by decide, by decide, by decide, by decide⟩⟩, rfl⟩

/-- C134: medians, percentiles and interquartile ranges of `float` do not compile, nor the default bins of a histogram (`AUTO`); with kilometres of `float` only
Scott's rule does, and with kilometres of `double` every rule does. -/
theorem C134_float_false : (∀ q, quantileTy q (.num .float) = none) ∧ iqrTy (.num .float) = none ∧ edgesTy .auto (.num .float) = none ∧
    edgesTy .sqrt (.num .float) = some (.vec (.num .float)) ∧ edgesTy .sturges (.qty .float kmT) = none ∧
    edgesTy .scott (.qty .float kmT) = some (.vec (.qty .float kmT)) ∧ (∀ m, edgesTy m (.qty .double kmT) = some (.vec (.qty .double kmT))) := by
  refine ⟨fun q => ?_, ?_, ?_, ?_, ?_, ?_, fun m => ?_⟩
  · exact C134_quantile_partial q _ trivial
  · exact C134_iqr_partial _ trivial
  · rw [C134_edges_partial _ (.num .float) trivial, if_neg (by simp [MethodCompiles])]
  · rw [C134_edges_partial _ (.num .float) trivial, if_pos (by simp [MethodCompiles])]; rfl
  · rw [C134_edges_partial _ _ (elem_km _ (by decide)), if_neg (by simp [MethodCompiles])]
  · rw [C134_edges_partial _ _ (elem_km _ (by decide)), if_pos ⟨rfl, rfl⟩]; rfl
  · rw [C134_edges_partial _ _ (elem_km _ (by decide)), if_pos (by exact rfl)]; rfl

/-- C134: with temperatures in degrees Celsius no rule for the bins compiles, a given number of bins does, and so does searching the bins. -/
theorem C134_celsius_false : (∀ m, edgesTy m (.qty .double tyCelsius) = none) ∧ edgesNTy (.qty .double tyCelsius) = some (.vec (.qty .double tyCelsius)) ∧
    quantileTy .double (.qty .double tyCelsius) = some (.qty .double tyCelsius) ∧
    histTy false true (.qty .double tyCelsius) = none ∧ histTy false false (.qty .double tyCelsius) = some (.num .int) := by
  have hc := elem_celsius .double (by decide)
  have ho : tyCelsius.off ≠ 0 := by decide +kernel
  obtain ⟨u, u1, -⟩ := tyInv_plain tyCelsius hc.2
  refine ⟨fun m => ?_, C134_edges_count _ hc, ?_, ?_, ?_⟩
  · rw [C134_edges_partial _ _ hc, if_neg (by exact ho)]
  · rw [C134_quantile_partial _ _ hc]; rfl
  · rw [hist_qty false true .double (by decide) _ u hc.2 u1, if_pos ⟨rfl, ho⟩]
  · rw [hist_qty false false .double (by decide) _ u hc.2 u1, if_neg (by simp)]; rfl

end SciCpp
