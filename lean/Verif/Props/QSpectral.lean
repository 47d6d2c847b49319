import Verif.Model.QSpectral
import Verif.Props.QStats
import Verif.Props.Spectral
import Verif.Props.SpectralF
import Verif.Props.Overload
import Verif.Proofs.ArrExpr
/-
  Property theorems C129: spectra of arrays of quantities.
-/
namespace SciCpp
open Spec Ovl

/-! ### types -/

/-- `frequency<T>`. -/
def freqT : QTy := ⟨⟨1, 3, 1⟩, ⟨1, 1, 1⟩, 0⟩

theorem frequency_eq : qtFrequency one1 = .ok freqT := by decide +kernel

theorem freq_valid : freqT.dim.Valid ∧ freqT.scal.Valid := ⟨⟨by decide, by decide, by decide, by decide⟩, ⟨by decide, by decide, by decide, by decide⟩⟩

theorem mulS (ops ca cb) (a b : OT) (ha : a.Scalar) (hb : b.Scalar) : mulTy ops 8 (ca, a) (cb, b) = Spec.scalarMul a b :=
  mul_scalar ops ca cb a b ha hb 5

theorem divS (ops ca cb) (a b : OT) (ha : a.Scalar) (hb : b.Scalar) : divTy ops 8 (ca, a) (cb, b) = Spec.scalarDiv a b :=
  div_scalar ops ca cb a b ha hb 4

theorem common_self (r : Rep) : r.common r = r := by cases r <;> rfl

theorem scalarMul_scalar (a b m : OT) (h : Spec.scalarMul a b = some m) : m.Scalar := by
  cases m with
  | vec v =>
    exfalso
    cases a <;> cases b <;> simp [Spec.scalarMul] at h
  | _ => exact trivial

theorem retTy_eq (T : Rep) (s : Scaling) (a b : OT) (ha : a.Scalar) (hb : b.Scalar) : retTy T s a b =
    (Spec.scalarMul a b).bind fun m => (Spec.scalarDiv m (.qty T freqT)).bind fun d =>
      some (if isQuantity a.ct || isQuantity b.ct then (if s = .density then d else m) else .num T) := by
  unfold retTy
  rw [frequency_eq, mulS _ _ _ _ _ ha hb]
  show (Spec.scalarMul a b).bind _ = _
  cases h : Spec.scalarMul a b with
  | none => rfl
  | some m =>
    show (divTy false 8 (.rvalue, m) (.rvalue, .qty T freqT)).bind _ = (Spec.scalarDiv m (.qty T freqT)).bind _
    rw [divS _ _ _ m (.qty T freqT) (scalarMul_scalar a b m h) trivial]
    rfl

/-- The dimension of the second. -/
noncomputable def secondDim : ℝ := (tyBase 2 one1).dim.val

theorem secondDim_eq : secondDim = 3 := by
  have : (tyBase 2 one1).dim = ⟨3, 1, 1⟩ := by decide +kernel
  rw [secondDim, this, plain_val _ rfl]; norm_num

theorem freq_rat : freqT.RatScale := ⟨freq_valid, rfl⟩

theorem tyDiv_freq (t : QTy) (ht : t.RatScale) : ∃ w, tyDiv t freqT = .ok w ∧ w.RatScale ∧ w.off = 0 ∧ w.dim.val = t.dim.val * secondDim ∧
    w.scal.val = t.scal.val := by
  obtain ⟨w, h1, h2, h3, h4, h5⟩ := tyDiv_plain t freqT ht freq_rat rfl
  refine ⟨w, h1, h2, h3, ?_, ?_⟩
  · rw [h4, secondDim_eq, plain_val freqT.dim rfl]; norm_num [freqT]; ring
  · rw [h5, plain_val freqT.scal rfl]; norm_num [freqT]

/-- The units of the elements of an array: valid template arguments and rational scales. -/
def Rat : OT → Prop
  | .qty _ t => t.RatScale
  | .cqty _ t => t.RatScale
  | .vec _ => False
  | _ => True

/-- An array of quantities or of complex quantities. -/
def IsQ : OT → Prop
  | .qty _ _ => True
  | .cqty _ _ => True
  | _ => False

/-- The offset of the unit of the elements (0 for numbers). -/
def offOf : OT → ℚ
  | .qty _ t => t.off
  | .cqty _ t => t.off
  | _ => 0

/-- What the unit of a spectrum is: the product of the units of `a` and `b`, per hertz for a density. -/
def SpectrumUnit (s : Scaling) (a b : OT) (w : QTy) : Prop :=
  w.RatScale ∧ w.dim.val = a.dimVal * b.dimVal * (if s = .density then secondDim else 1) ∧ w.scal.val = a.scaleVal * b.scaleVal

theorem ret_both (T : Rep) (s : Scaling) (t u : QTy) (ht : t.RatScale) (hu : u.RatScale) (h0 : u.off = 0) :
    ∃ w, retTy T s (.qty T t) (.qty T u) = some (.qty T w) ∧ SpectrumUnit s (.qty T t) (.qty T u) w ∧ w.off = 0 := by
  obtain ⟨m, m1, m2, m3, m4, m5⟩ := tyMul_plain t u ht hu h0
  obtain ⟨d, d1, d2, d3, d4, d5⟩ := tyDiv_freq m m2
  have e : retTy T s (.qty T t) (.qty T u) = some (if s = .density then .qty T d else .qty T m) := by
    rw [retTy_eq T s (.qty T t) (.qty T u) trivial trivial]
    simp only [Spec.scalarMul, m1, ofRes, if_true, Option.map_some, Option.bind_some, Spec.scalarDiv, d1]
    rfl
  by_cases hs : s = .density
  · refine ⟨d, by rw [e, if_pos hs], ⟨d2, ?_, ?_⟩, d3⟩
    · rw [if_pos hs, d4, m4]; rfl
    · rw [d5, m5]; rfl
  · refine ⟨m, by rw [e, if_neg hs], ⟨m2, ?_, ?_⟩, m3⟩
    · rw [if_neg hs, m4, mul_one]; rfl
    · rw [m5]; rfl

theorem ret_both_off (T : Rep) (s : Scaling) (t u : QTy) (h0 : u.off ≠ 0) : retTy T s (.qty T t) (.qty T u) = none := by
  rw [retTy_eq T s (.qty T t) (.qty T u) trivial trivial]
  have : tyMul t u = .ub := by rw [tyMul, if_pos h0]
  simp [Spec.scalarMul, this, ofRes]

theorem ret_left (T : Rep) (s : Scaling) (t : QTy) (ht : t.RatScale) :
    ∃ w, retTy T s (.qty T t) (.num T) = some (.qty T w) ∧ SpectrumUnit s (.qty T t) (.num T) w ∧ w.off = if s = .density then 0 else t.off := by
  obtain ⟨d, d1, d2, d3, d4, d5⟩ := tyDiv_freq t ht
  have e : retTy T s (.qty T t) (.num T) = some (if s = .density then .qty T d else .qty T t) := by
    rw [retTy_eq T s (.qty T t) (.num T) trivial trivial]
    simp only [Spec.scalarMul, common_self, ofRes, if_true, Option.map_some, Option.bind_some, Spec.scalarDiv, d1]
    rfl
  by_cases hs : s = .density
  · refine ⟨d, by rw [e, if_pos hs], ⟨d2, ?_, ?_⟩, by rw [if_pos hs, d3]⟩
    · rw [if_pos hs, d4]; simp [OT.dimVal]
    · rw [d5]; simp [OT.scaleVal]
  · refine ⟨t, by rw [e, if_neg hs], ⟨ht, ?_, ?_⟩, by rw [if_neg hs]⟩
    · rw [if_neg hs]; simp [OT.dimVal]
    · simp [OT.scaleVal]

theorem ret_right (T : Rep) (s : Scaling) (t : QTy) (ht : t.RatScale) :
    ∃ w, retTy T s (.num T) (.qty T t) = some (.qty T w) ∧ SpectrumUnit s (.num T) (.qty T t) w ∧ w.off = if s = .density then 0 else t.off := by
  obtain ⟨d, d1, d2, d3, d4, d5⟩ := tyDiv_freq t ht
  have e : retTy T s (.num T) (.qty T t) = some (if s = .density then .qty T d else .qty T t) := by
    rw [retTy_eq T s (.num T) (.qty T t) trivial trivial]
    simp only [Spec.scalarMul, common_self, ofRes, if_true, Option.map_some, Option.bind_some, Spec.scalarDiv, d1]
    rfl
  by_cases hs : s = .density
  · refine ⟨d, by rw [e, if_pos hs], ⟨d2, ?_, ?_⟩, by rw [if_pos hs, d3]⟩
    · rw [if_pos hs, d4]; simp [OT.dimVal]
    · rw [d5]; simp [OT.scaleVal]
  · refine ⟨t, by rw [e, if_neg hs], ⟨ht, ?_, ?_⟩, by rw [if_neg hs]⟩
    · rw [if_neg hs]; simp [OT.dimVal]
    · simp [OT.scaleVal]

theorem ret_num (T : Rep) (s : Scaling) : retTy T s (.num T) (.num T) = some (.num T) := by
  rw [retTy_eq T s (.num T) (.num T) trivial trivial]
  have : tyInv freqT = .ok ⟨⟨3, 1, 1⟩, ⟨1, 1, 1⟩, 0⟩ := by decide +kernel
  simp [Spec.scalarMul, Spec.scalarDiv, common_self, this, ofRes, OT.ct, isQuantity]

/-- The assignment `v = 2.0 * std::move(v)` (real signals) compiles for `double` only. -/
theorem normalize_num (T : Rep) (s : Scaling) (one : Bool) :
    normalizeTy T s one (.num T) = if one = true ∧ T ≠ .double then none else some () := by
  unfold normalizeTy
  rw [C124_mul _ _ _ _ _ (by simp [OT.depth]), C124_div _ _ _ _ _ (by simp [OT.depth])]
  cases T <;> cases one <;> cases s <;> rfl

theorem normalize_cnum (T : Rep) (s : Scaling) (one : Bool) :
    normalizeTy T s one (.cnum T) = if one = true ∧ T ≠ .double then none else some () := by
  unfold normalizeTy
  rw [C124_mul _ _ _ _ _ (by simp [OT.depth]), C124_div _ _ _ _ _ (by simp [OT.depth])]
  cases T <;> cases one <;> cases s <;> rfl

theorem elementIs_eq (a : OT) (h : a.Scalar) : elementIs a.rep a = some a.isCplx := by
  cases a with
  | vec v => exact h.elim
  | _ => simp [elementIs, elementTy, OT.rep, OT.isCplx]

theorem elementIs_some (T : Rep) (a : OT) (c : Bool) (h : elementIs T a = some c) : a.Scalar ∧ a.rep = T ∧ c = a.isCplx := by
  cases a with
  | vec v => simp [elementIs, elementTy] at h
  | num r =>
    by_cases e : r = T
    · subst e; exact ⟨trivial, rfl, Option.some.inj (h.symm.trans (elementIs_eq (.num r) trivial))⟩
    · simp [elementIs, elementTy, e] at h
  | cnum r =>
    by_cases e : r = T
    · subst e; exact ⟨trivial, rfl, Option.some.inj (h.symm.trans (elementIs_eq (.cnum r) trivial))⟩
    · simp [elementIs, elementTy, e] at h
  | qty r t =>
    by_cases e : r = T
    · subst e; exact ⟨trivial, rfl, Option.some.inj (h.symm.trans (elementIs_eq (.qty r t) trivial))⟩
    · simp [elementIs, elementTy, e] at h
  | cqty r t =>
    by_cases e : r = T
    · subst e; exact ⟨trivial, rfl, Option.some.inj (h.symm.trans (elementIs_eq (.cqty r t) trivial))⟩
    · simp [elementIs, elementTy, e] at h

theorem welchTy_eq (s : Scaling) (a : OT) (h : a.Scalar) : welchTy a.rep s a =
    if a.isCplx = false ∧ a.rep ≠ .double then none else retTy a.rep s (realTy a) (realTy a) := by
  unfold welchTy
  rw [elementIs_eq a h]
  show (retTy a.rep s (realTy a) (realTy a)).bind (fun r => (normalizeTy a.rep s (!a.isCplx) (.num a.rep)).bind fun _ => some r) = _
  rw [normalize_num]
  by_cases e : a.isCplx = false ∧ a.rep ≠ .double
  · rw [if_pos e, if_pos (by simpa using e)]; cases retTy a.rep s (realTy a) (realTy a) <;> rfl
  · rw [if_neg e, if_neg (by simpa using e)]; cases retTy a.rep s (realTy a) (realTy a) <;> rfl

theorem csdTy_eq (s : Scaling) (a b : OT) (h : a.Scalar) (h' : b.Scalar) (hr : b.rep = a.rep) : csdTy a.rep s a b =
    if a.isCplx = false ∧ b.isCplx = false ∧ a.rep ≠ .double then none else (retTy a.rep s (realTy a) (realTy b)).bind toComplex := by
  unfold csdTy
  have hb := elementIs_eq b h'
  rw [hr] at hb
  rw [elementIs_eq a h, hb]
  show (retTy a.rep s (realTy a) (realTy b)).bind (fun r => (normalizeTy a.rep s (!(a.isCplx || b.isCplx)) (.cnum a.rep)).bind fun _ => toComplex r) = _
  rw [normalize_cnum]
  by_cases e : a.isCplx = false ∧ b.isCplx = false ∧ a.rep ≠ .double
  · rw [if_pos e, if_pos (by simp [e])]; cases retTy a.rep s (realTy a) (realTy b) <;> rfl
  · rw [if_neg e, if_neg (by simpa [and_assoc] using e)]; cases retTy a.rep s (realTy a) (realTy b) <;> rfl

theorem rat_scalar {a : OT} (h : Rat a) : a.Scalar := by
  cases a with
  | vec v => exact h.elim
  | _ => exact trivial

/-- C129: which spectra compile: the elements must be numbers or complex numbers of the representation `T` of the class, or quantities or complex
quantities of them; the unit must not have an offset; real signals need `T = double`. -/
theorem C129_welch_compiles (T : Rep) (s : Scaling) (a : OT) (ha : Rat a) :
    (welchTy T s a).isSome = true ↔ a.rep = T ∧ offOf a = 0 ∧ (a.isCplx = true ∨ T = .double) := by
  by_cases hr : a.rep = T
  · subst hr
    rw [welchTy_eq s a (rat_scalar ha)]
    by_cases e : a.isCplx = false ∧ a.rep ≠ .double
    · rw [if_pos e]; simp [e]
    · rw [if_neg e]
      have e' : a.isCplx = true ∨ a.rep = .double := by
        by_contra h
        push Not at h
        exact e ⟨by simpa using h.1, h.2⟩
      simp only [true_and, e', and_true]
      cases a with
      | vec v => exact ha.elim
      | num r => simp [realTy, OT.rep, ret_num, offOf]
      | cnum r => simp [realTy, OT.rep, ret_num, offOf]
      | qty r t =>
        by_cases h0 : t.off = 0
        · obtain ⟨w, h1, -⟩ := ret_both r s t t ha ha h0
          simp [realTy, OT.rep, h1, offOf, h0]
        · simp [realTy, OT.rep, ret_both_off r s t t h0, offOf, h0]
      | cqty r t =>
        by_cases h0 : t.off = 0
        · obtain ⟨w, h1, -⟩ := ret_both r s t t ha ha h0
          simp [realTy, OT.rep, h1, offOf, h0]
        · simp [realTy, OT.rep, ret_both_off r s t t h0, offOf, h0]
  · have : welchTy T s a = none := by
      unfold welchTy
      cases h : elementIs T a with
      | none => rfl
      | some c => exact absurd (elementIs_some T a c h).2.1 hr
    simp [this, hr]

/-- C129: the elements of the spectrum of an array of (complex) quantities are real quantities of the same representation type, in the square of the
unit (per hertz for a density) and without offset. -/
theorem C129_welch_type (T : Rep) (s : Scaling) (t : QTy) (a w : OT) (ha : a = .qty T t ∨ a = .cqty T t) (ht : t.RatScale)
    (h : welchTy T s a = some w) :
    ∃ v, w = .qty T v ∧ v.RatScale ∧ v.off = 0 ∧ v.dim.val = t.dim.val ^ 2 * (if s = .density then secondDim else 1) ∧
      v.scal.val = t.scal.val ^ 2 := by
  have hra : Rat a := by rcases ha with rfl | rfl <;> exact ht
  have hi : (welchTy T s a).isSome = true := by rw [h]; rfl
  obtain ⟨h1, h2, h3⟩ := (C129_welch_compiles T s a hra).mp hi
  have h0 : t.off = 0 := by rcases ha with rfl | rfl <;> exact h2
  obtain ⟨v, v1, ⟨v2, v3, v4⟩, v5⟩ := ret_both T s t t ht ht h0
  have e : welchTy T s a = some (.qty T v) := by
    have := welchTy_eq s a (rat_scalar hra)
    rw [h1] at this
    rw [this, if_neg (by rcases h3 with h3 | h3 <;> simp [h3])]
    rcases ha with rfl | rfl <;> exact v1
  rw [h] at e
  refine ⟨v, Option.some.inj e, v2, v5, ?_, ?_⟩
  · rw [v3, sq]; rfl
  · rw [v4, sq]; rfl

/-- C129: for arrays of numbers the spectrum has elements `T`. -/
theorem C129_welch_numbers (s : Scaling) : welchTy .double s (.num .double) = some (.num .double) ∧
    welchTy .double s (.cnum .double) = some (.num .double) ∧ welchTy .float s (.cnum .float) = some (.num .float) := by
  refine ⟨?_, ?_, ?_⟩
  · have := welchTy_eq s (.num .double) trivial
    rw [if_neg (by simp [OT.rep])] at this
    exact this.trans (ret_num _ s)
  · have := welchTy_eq s (.cnum .double) trivial
    rw [if_neg (by simp [OT.rep])] at this
    exact this.trans (ret_num _ s)
  · have := welchTy_eq s (.cnum .float) trivial
    rw [if_neg (by simp [OT.isCplx])] at this
    exact this.trans (ret_num _ s)

/-- C129 (negation): `Spectrum<float>` does not compile for real signals, of numbers or quantities: neither `welch`, nor `csd` of two real signals. -/
theorem C129_float_false (s : Scaling) (t u : QTy) (a b : OT) (ha : a = .num .float ∨ a = .qty .float t) (hb : b = .num .float ∨ b = .qty .float u) :
    welchTy .float s a = none ∧ csdTy .float s a b = none := by
  rcases ha with rfl | rfl <;> rcases hb with rfl | rfl <;> constructor
  all_goals first
    | exact (welchTy_eq s (.num .float) trivial).trans (if_pos ⟨rfl, by decide⟩)
    | exact (welchTy_eq s (.qty .float t) trivial).trans (if_pos ⟨rfl, by simp [OT.rep]⟩)
    | exact (csdTy_eq s (.num .float) (.num .float) trivial trivial rfl).trans (if_pos ⟨rfl, rfl, by decide⟩)
    | exact (csdTy_eq s (.num .float) (.qty .float u) trivial trivial rfl).trans (if_pos ⟨rfl, rfl, by decide⟩)
    | exact (csdTy_eq s (.qty .float t) (.num .float) trivial trivial rfl).trans (if_pos ⟨rfl, rfl, by simp [OT.rep]⟩)
    | exact (csdTy_eq s (.qty .float t) (.qty .float u) trivial trivial rfl).trans (if_pos ⟨rfl, rfl, by simp [OT.rep]⟩)

/-- C129: the cross spectrum of two arrays of which at least one has units: complex quantities in the product of the units (per hertz for a density).  The
unit has no offset, except when one array has numbers and no density is asked for: then the offset of the other array's unit stays. -/
theorem C129_csd_type (T : Rep) (s : Scaling) (a b : OT) (ha : Rat a) (hb : Rat b) (ra : a.rep = T) (rb : b.rep = T) (hq : IsQ a ∨ IsQ b)
    (ho : IsQ a → IsQ b → offOf b = 0) (hT : a.isCplx = true ∨ b.isCplx = true ∨ T = .double) :
    ∃ w, csdTy T s a b = some (.cqty T w) ∧ SpectrumUnit s a b w ∧
      (s = .density ∨ (IsQ a ∧ IsQ b) → w.off = 0) ∧ (s ≠ .density → ¬ IsQ b → w.off = offOf a) ∧ (s ≠ .density → ¬ IsQ a → w.off = offOf b) := by
  subst ra
  rw [csdTy_eq s a b (rat_scalar ha) (rat_scalar hb) rb, if_neg (by rcases hT with h | h | h <;> simp [h])]
  have both : ∀ t u, realTy a = .qty a.rep t → realTy b = .qty a.rep u → t.RatScale → u.RatScale → u.off = 0 → a.dimVal = t.dim.val → b.dimVal = u.dim.val →
      a.scaleVal = t.scal.val → b.scaleVal = u.scal.val → IsQ a → IsQ b →
      ∃ w, (retTy a.rep s (realTy a) (realTy b)).bind toComplex = some (.cqty a.rep w) ∧ SpectrumUnit s a b w ∧
      (s = .density ∨ (IsQ a ∧ IsQ b) → w.off = 0) ∧ (s ≠ .density → ¬ IsQ b → w.off = offOf a) ∧ (s ≠ .density → ¬ IsQ a → w.off = offOf b) := by
    intro t u e1 e2 ht hu h0 d1 d2 c1 c2 q1 q2
    obtain ⟨w, w1, ⟨w2, w3, w4⟩, w5⟩ := ret_both a.rep s t u ht hu h0
    rw [e1, e2, w1]
    refine ⟨w, rfl, ⟨w2, ?_, ?_⟩, fun _ => w5, fun _ h => absurd q2 h, fun _ h => absurd q1 h⟩
    · rw [w3, d1, d2]; rfl
    · rw [w4, c1, c2]; rfl
  have left : ∀ t, realTy a = .qty a.rep t → realTy b = .num a.rep → t.RatScale → a.dimVal = t.dim.val → b.dimVal = 1 →
      a.scaleVal = t.scal.val → b.scaleVal = 1 → offOf a = t.off → IsQ a → ¬ IsQ b →
      ∃ w, (retTy a.rep s (realTy a) (realTy b)).bind toComplex = some (.cqty a.rep w) ∧ SpectrumUnit s a b w ∧
      (s = .density ∨ (IsQ a ∧ IsQ b) → w.off = 0) ∧ (s ≠ .density → ¬ IsQ b → w.off = offOf a) ∧ (s ≠ .density → ¬ IsQ a → w.off = offOf b) := by
    intro t e1 e2 ht d1 d2 c1 c2 o1 q1 q2
    obtain ⟨w, w1, ⟨w2, w3, w4⟩, w5⟩ := ret_left a.rep s t ht
    rw [e1, e2, w1]
    refine ⟨w, rfl, ⟨w2, ?_, ?_⟩, ?_, fun h _ => by rw [w5, if_neg h, o1], fun _ h => absurd q1 h⟩
    · rw [w3, d1, d2]; rfl
    · rw [w4, c1, c2]; rfl
    · rintro (h | h)
      · rw [w5, if_pos h]
      · exact absurd h.2 q2
  have right : ∀ t, realTy a = .num a.rep → realTy b = .qty a.rep t → t.RatScale → b.dimVal = t.dim.val → a.dimVal = 1 →
      b.scaleVal = t.scal.val → a.scaleVal = 1 → offOf b = t.off → ¬ IsQ a → IsQ b →
      ∃ w, (retTy a.rep s (realTy a) (realTy b)).bind toComplex = some (.cqty a.rep w) ∧ SpectrumUnit s a b w ∧
      (s = .density ∨ (IsQ a ∧ IsQ b) → w.off = 0) ∧ (s ≠ .density → ¬ IsQ b → w.off = offOf a) ∧ (s ≠ .density → ¬ IsQ a → w.off = offOf b) := by
    intro t e1 e2 ht d1 d2 c1 c2 o1 q1 q2
    obtain ⟨w, w1, ⟨w2, w3, w4⟩, w5⟩ := ret_right a.rep s t ht
    rw [e1, e2, w1]
    refine ⟨w, rfl, ⟨w2, ?_, ?_⟩, ?_, fun _ h => absurd q2 h, fun h _ => by rw [w5, if_neg h, o1]⟩
    · rw [w3, d1, d2]; rfl
    · rw [w4, c1, c2]; rfl
    · rintro (h | h)
      · rw [w5, if_pos h]
      · exact absurd h.1 q1
  cases a <;> cases b <;> (try exact ha.elim) <;> (try exact hb.elim) <;> simp only [OT.rep] at rb <;> subst rb
  all_goals first
    | (exfalso; rcases hq with h | h <;> exact h)
    | exact both _ _ rfl rfl ha hb (ho trivial trivial) rfl rfl rfl rfl trivial trivial
    | exact left _ rfl rfl ha rfl rfl rfl rfl rfl trivial id
    | exact right _ rfl rfl hb rfl rfl rfl rfl rfl id trivial

/-- C129 (negation): the cross spectrum (no density) of temperatures in degrees Celsius with numbers is typed as a temperature in degrees Celsius, with
its offset of 273.15 K, although it is a difference of temperatures. -/
theorem C129_celsius_false : csdTy .double .spectrum (.qty .double tyCelsius) (.num .double) = some (.cqty .double tyCelsius) ∧
    csdTy .double .density (.qty .double tyCelsius) (.num .double) = some (.cqty .double ⟨⟨33, 1, 1⟩, ⟨1, 1, 1⟩, 0⟩) ∧
    welchTy .double .spectrum (.qty .double tyCelsius) = none ∧ welchTy .double .density (.qty .double tyCelsius) = none := by
  have e : tyDiv tyCelsius freqT = .ok ⟨⟨33, 1, 1⟩, ⟨1, 1, 1⟩, 0⟩ := by decide +kernel
  have r : ∀ s, retTy .double s (.qty .double tyCelsius) (.num .double) =
      some (if s = .density then .qty .double ⟨⟨33, 1, 1⟩, ⟨1, 1, 1⟩, 0⟩ else .qty .double tyCelsius) := by
    intro s
    rw [retTy_eq .double s (.qty .double tyCelsius) (.num .double) trivial trivial]
    simp only [Spec.scalarMul, common_self, ofRes, if_true, Option.map_some, Option.bind_some, Spec.scalarDiv, e]
    rfl
  have c : ∀ s, csdTy .double s (.qty .double tyCelsius) (.num .double) = (retTy .double s (.qty .double tyCelsius) (.num .double)).bind toComplex := by
    intro s
    exact (csdTy_eq s (.qty .double tyCelsius) (.num .double) trivial trivial rfl).trans (if_neg (by simp [OT.rep]))
  have w : ∀ s, welchTy .double s (.qty .double tyCelsius) = none := by
    intro s
    refine (welchTy_eq s (.qty .double tyCelsius) trivial).trans ?_
    rw [if_neg (by simp [OT.rep])]
    exact ret_both_off .double s tyCelsius tyCelsius (by norm_num [tyCelsius])
  exact ⟨by rw [c, r]; rfl, by rw [c, r]; rfl, w _, w _⟩

/-! #### coherence and transfer function -/

/-- A real element type of a spectrum: `T`, or a quantity of `T` without offset. -/
def RealOf (T : Rep) (x : OT) : Prop := x = .num T ∨ ∃ v, x = .qty T v ∧ v.RatScale ∧ v.off = 0

theorem welch_real (T : Rep) (s : Scaling) (a : OT) (ha : Rat a) (ra : a.rep = T) (h0 : offOf a = 0) (hT : a.isCplx = true ∨ T = .double) (hs : s ≠ .density) :
    ∃ x, welchTy T s a = some x ∧ RealOf T x ∧ (IsQ x ↔ IsQ a) ∧ x.dimVal = a.dimVal ^ 2 ∧ x.scaleVal = a.scaleVal ^ 2 := by
  obtain ⟨x, hx⟩ := Option.isSome_iff_exists.mp ((C129_welch_compiles T s a ha).mpr ⟨ra, h0, hT⟩)
  refine ⟨x, hx, ?_⟩
  cases a with
  | vec v => exact ha.elim
  | num r =>
    have e := welchTy_eq s (.num r) trivial
    rw [ra, hx] at e
    split_ifs at e
    obtain rfl : r = T := ra
    have : x = .num r := Option.some.inj (e.trans (ret_num r s))
    subst this
    exact ⟨.inl rfl, Iff.rfl, by simp [OT.dimVal], by simp [OT.scaleVal]⟩
  | cnum r =>
    have e := welchTy_eq s (.cnum r) trivial
    rw [ra, hx] at e
    split_ifs at e
    obtain rfl : r = T := ra
    have : x = .num r := Option.some.inj (e.trans (ret_num r s))
    subst this
    exact ⟨.inl rfl, Iff.rfl, by simp [OT.dimVal], by simp [OT.scaleVal]⟩
  | qty r t =>
    obtain rfl : r = T := ra
    obtain ⟨v, rfl, v2, v3, v4, v5⟩ := C129_welch_type r s t _ x (.inl rfl) ha hx
    exact ⟨.inr ⟨v, rfl, v2, v3⟩, Iff.rfl, by simp [OT.dimVal, v4, hs], by simp [OT.scaleVal, v5]⟩
  | cqty r t =>
    obtain rfl : r = T := ra
    obtain ⟨v, rfl, v2, v3, v4, v5⟩ := C129_welch_type r s t _ x (.inr rfl) ha hx
    exact ⟨.inr ⟨v, rfl, v2, v3⟩, Iff.rfl, by simp [OT.dimVal, v4, hs], by simp [OT.scaleVal, v5]⟩

theorem quotTy_eq (a b : OT) (ha : a.Scalar) (hb : b.Scalar) : quotTy a b = Spec.scalarDiv a b := by
  unfold quotTy
  rw [C124_div _ _ _ _ _ (by cases a <;> cases b <;> first | exact ha.elim | exact hb.elim | simp [OT.depth])]
  show ((Spec.scalarDiv a b).map OT.vec).bind _ = _
  cases Spec.scalarDiv a b <;> rfl

theorem quot_real (T : Rep) (n : QTy) (hn : n.RatScale) (n0 : n.off = 0) (x : OT) (hx : RealOf T x) :
    ∃ q, quotTy (.qty T n) x = some (.qty T q) ∧ q.RatScale ∧ q.off = 0 ∧ q.dim.val = n.dim.val / x.dimVal ∧ q.scal.val = n.scal.val / x.scaleVal := by
  rcases hx with rfl | ⟨v, rfl, v1, v2⟩
  · rw [quotTy_eq (.qty T n) (.num T) trivial trivial]
    exact ⟨n, by simp [Spec.scalarDiv, common_self], hn, n0, by simp [OT.dimVal], by simp [OT.scaleVal]⟩
  · obtain ⟨q, q1, q2, q3, q4, q5⟩ := tyDiv_plain n v hn v1 v2
    rw [quotTy_eq (.qty T n) (.qty T v) trivial trivial]
    exact ⟨q, by simp [Spec.scalarDiv, q1, ofRes], q2, q3, q4, q5⟩

theorem tyInv_plain (t : QTy) (ht : t.RatScale) :
    ∃ w, tyInv t = .ok w ∧ w.RatScale ∧ w.off = 0 ∧ w.dim.val = 1 / t.dim.val ∧ w.scal.val = 1 / t.scal.val := by
  obtain ⟨d, d1, d2, d3⟩ := C34_divide ⟨1, 1, 1⟩ t.dim one_valid ht.1.1
  obtain ⟨s, s1, s2, s3⟩ := C34_divide ⟨1, 1, 1⟩ t.scal one_valid ht.1.2
  refine ⟨⟨d, s, 0⟩, ?_, ⟨⟨d2, s2⟩, rrDiv_root _ _ _ rfl ht.2 s1⟩, rfl, ?_, ?_⟩
  · unfold tyInv; rw [d1, s1]; rfl
  · show d.val = _; rw [d3, one_val]
  · show s.val = _; rw [s3, one_val]

theorem quot_complex (T : Rep) (n : QTy) (hn : n.RatScale) (n0 : n.off = 0) (x : OT) (hx : RealOf T x) :
    ∃ q, quotTy (.cqty T n) x = some (.cqty T q) ∧ q.RatScale ∧ q.off = 0 ∧ q.dim.val = n.dim.val / x.dimVal ∧ q.scal.val = n.scal.val / x.scaleVal := by
  rcases hx with rfl | ⟨v, rfl, v1, v2⟩
  · rw [quotTy_eq (.cqty T n) (.num T) trivial trivial]
    exact ⟨n, by simp [Spec.scalarDiv], hn, n0, by simp [OT.dimVal], by simp [OT.scaleVal]⟩
  · rw [quotTy_eq (.cqty T n) (.qty T v) trivial trivial]
    by_cases e : n = v
    · subst e
      obtain ⟨q, q1, q2, q3, q4, q5⟩ := tyDiv_plain n n hn v1 v2
      exact ⟨q, by simp [Spec.scalarDiv, q1, ofRes], q2, q3, q4, q5⟩
    · obtain ⟨i, i1, i2, i3, i4, i5⟩ := tyInv_plain v v1
      obtain ⟨q, q1, q2, q3, q4, q5⟩ := tyMul_plain i n i2 hn n0
      refine ⟨q, by simp [Spec.scalarDiv, e, i1, q1, ofRes], q2, q3, ?_, ?_⟩
      · rw [q4, i4, one_div, mul_comm]; rfl
      · rw [q5, i5, one_div, mul_comm]; rfl

theorem dimVal_pos (a : OT) (ha : Rat a) : 0 < a.dimVal := by
  cases a with
  | vec v => exact ha.elim
  | qty r t => exact rr_val_pos _ ha.1.1
  | cqty r t => exact rr_val_pos _ ha.1.1
  | _ => exact one_pos

theorem scaleVal_pos (a : OT) (ha : Rat a) : 0 < a.scaleVal := by
  cases a with
  | vec v => exact ha.elim
  | qty r t => exact rr_val_pos _ ha.1.2
  | cqty r t => exact rr_val_pos _ ha.1.2
  | _ => exact one_pos

/-- The conditions under which the spectra of both arrays exist. -/
structure SpectrumArgs (T : Rep) (a b : OT) : Prop where
  rat : Rat a ∧ Rat b
  rep : a.rep = T ∧ b.rep = T
  off : offOf a = 0 ∧ offOf b = 0
  dbl : (a.isCplx = true ∧ b.isCplx = true) ∨ T = .double
  units : IsQ a ∨ IsQ b

theorem csd_none (T : Rep) (a b : OT) (h : SpectrumArgs T a b) :
    ∃ w, csdTy T .none a b = some (.cqty T w) ∧ w.RatScale ∧ w.off = 0 ∧ w.dim.val = a.dimVal * b.dimVal ∧ w.scal.val = a.scaleVal * b.scaleVal := by
  obtain ⟨w, w1, ⟨w2, w3, w4⟩, w5, w6, w7⟩ := C129_csd_type T .none a b h.rat.1 h.rat.2 h.rep.1 h.rep.2 h.units (fun _ _ => h.off.2)
    (by rcases h.dbl with g | g; exacts [.inl g.1, .inr (.inr g)])
  refine ⟨w, w1, w2, ?_, by simpa using w3, w4⟩
  by_cases ha : IsQ a
  · by_cases hb : IsQ b
    · exact w5 (.inr ⟨ha, hb⟩)
    · rw [w6 (by decide) hb, h.off.1]
  · rw [w7 (by decide) ha, h.off.2]

/-- C129: the elements of `coherence(x, y)` of arrays with units are dimensionless quantities of scale 1, whatever the units. -/
theorem C129_coherence_type (T : Rep) (a b : OT) (h : SpectrumArgs T a b) : ∃ w, coherenceTy T a b = some (.qty T w) ∧ w.Unity := by
  obtain ⟨w, w1, w2, w3, w4, w5⟩ := csd_none T a b h
  obtain ⟨x, x1, x2, -, x4, x5⟩ := welch_real T .none a h.rat.1 h.rep.1 h.off.1 (by rcases h.dbl with g | g; exacts [.inl g.1, .inr g]) (by decide)
  obtain ⟨y, y1, y2, -, y4, y5⟩ := welch_real T .none b h.rat.2 h.rep.2 h.off.2 (by rcases h.dbl with g | g; exacts [.inl g.2, .inr g]) (by decide)
  obtain ⟨n, n1, n2, n3, n4, n5⟩ := tyMul_plain w w w2 w2 w3
  obtain ⟨q, q1, q2, q3, q4, q5⟩ := quot_real T n n2 n3 x x2
  obtain ⟨r, r1, r2, r3, r4, r5⟩ := quot_real T q q2 q3 y y2
  have hn : normTy (.cqty T w) = some (.qty T n) := by
    unfold normTy
    simp only []
    rw [mulS false .rvalue .rvalue (.qty T w) (.qty T w) trivial trivial]
    simp [Spec.scalarMul, n1, ofRes]
  refine ⟨r, ?_, ?_, ?_, r3⟩
  · unfold coherenceTy
    rw [w1, x1, y1]
    show (normTy (.cqty T w)).bind _ = _
    rw [hn]
    show (quotTy (.qty T n) x).bind _ = _
    rw [q1]
    exact r1
  · have pa := dimVal_pos a h.rat.1
    have pb := dimVal_pos b h.rat.2
    rw [r4, q4, n4, w4, x4, y4]; field_simp
  · have pa := scaleVal_pos a h.rat.1
    have pb := scaleVal_pos b h.rat.2
    refine unity_scal r r2 ?_
    rw [r5, q5, n5, w5, x5, y5]; field_simp

/-- C129: the elements of `tfestimate(x, y)` are complex quantities in the unit of `y` divided by the unit of `x`. -/
theorem C129_tfestimate_type (T : Rep) (a b : OT) (h : SpectrumArgs T a b) :
    ∃ w, tfestimateTy T a b = some (.cqty T w) ∧ w.RatScale ∧ w.off = 0 ∧ w.dim.val = b.dimVal / a.dimVal ∧ w.scal.val = b.scaleVal / a.scaleVal := by
  have h' : SpectrumArgs T b a := ⟨h.rat.symm, h.rep.symm, h.off.symm, h.dbl.imp_left And.symm, h.units.symm⟩
  obtain ⟨w, w1, w2, w3, w4, w5⟩ := csd_none T b a h'
  obtain ⟨x, x1, x2, -, x4, x5⟩ := welch_real T .none a h.rat.1 h.rep.1 h.off.1 (by rcases h.dbl with g | g; exacts [.inl g.1, .inr g]) (by decide)
  obtain ⟨q, q1, q2, q3, q4, q5⟩ := quot_complex T w w2 w3 x x2
  refine ⟨q, ?_, q2, q3, ?_, ?_⟩
  · unfold tfestimateTy
    rw [w1, x1]
    exact q1
  · have pa := dimVal_pos a h.rat.1
    rw [q4, w4, x4]; field_simp
  · have pa := scaleVal_pos a h.rat.1
    rw [q5, w5, x5]; field_simp

/-! ### sampling frequency -/

/-- C129: `fs(q)` accepts real numbers and frequencies of any scale, nothing else. -/
theorem C129_fs_type (a : OT) : fsTy a = some () ↔ (∃ r, a = .num r) ∨ ∃ r t, a = .qty r t ∧ t.dim = freqT.dim := by
  unfold fsTy
  cases a with
  | num r => simp
  | qty r t =>
    simp only [frequency_eq, ofRes]
    show (if t.dim = freqT.dim then some () else none) = some () ↔ _
    constructor
    · intro h
      split_ifs at h with e
      exact .inr ⟨r, t, rfl, e⟩
    · rintro (⟨_, h⟩ | ⟨r', t', h, e⟩)
      · cases h
      · cases h; rw [if_pos e]
  | _ => simp

/-- C129: the stored sampling frequency is the frequency in hertz, so that it does not depend on the unit in which it was given. -/
theorem C129_fs_hertz (r : Rep) (t : QTy) (h0 : t.off = 0) (v : ℝ) : fsValue (.qty r t) v = t.scal.val * v := by
  show evalRR t.scal * v + (t.off.num : ℝ) / (t.off.den : ℝ) = _
  rw [h0, evalRR_eq]; simp

/-! ### values in base units -/

section values
variable {c : SpecCfg}

/-- The same signal in another unit: every value multiplied by `a`. -/
noncomputable def Sig.scaleBy (a : ℝ) : Sig → Sig
  | .real x => .real (x.map fun v => a * v)
  | .cplx x => .cplx (x.map fun v => (a : ℂ) * v)

theorem scaleBy_size (a : ℝ) (x : Sig) : (x.scaleBy a).size = x.size := by cases x <;> simp [Sig.scaleBy, Sig.size]
theorem scaleBy_isC (a : ℝ) (x : Sig) : (x.scaleBy a).isC = x.isC := by cases x <;> rfl
theorem scaleBy_bins (a : ℝ) (x : Sig) (np : ℕ) : (x.scaleBy a).bins np = x.bins np := by rw [Sig.bins, Sig.bins, scaleBy_isC]
theorem scaleBy_factor (a : ℝ) (x : Sig) (np k : ℕ) : (x.scaleBy a).factor np k = x.factor np k := by rw [Sig.factor, Sig.factor, scaleBy_isC]

theorem getD_map_mul (a : ℂ) (l : List ℂ) (m : ℕ) : (l.map fun v => a * v).getD m 0 = a * l.getD m 0 := by
  simp only [List.getD_eq_getElem?_getD, List.getElem?_map]
  cases l[m]? <;> simp

theorem scaleBy_at (a : ℝ) (x : Sig) : (x.scaleBy a).at = fun m => (a : ℂ) * x.at m := by
  funext m
  cases x with
  | cplx x => exact getD_map_mul a x m
  | real x =>
    show ((x.map fun v => a * v).map fun v : ℝ => (v : ℂ)).getD m 0 = (a : ℂ) * (x.map fun v : ℝ => (v : ℂ)).getD m 0
    rw [← getD_map_mul, List.map_map, List.map_map]
    congr 1
    exact List.map_congr_left fun v _ => by simp

theorem power_scale (a : ℝ) (x : ℕ → ℂ) (w : ℕ → ℝ) (np step n k : ℕ) :
    Spec.power (fun m => (a : ℂ) * x m) w np step n k = a ^ 2 * Spec.power x w np step n k := by
  unfold Spec.power
  simp only [C51_scaled_signal, Complex.normSq_mul, Complex.normSq_ofReal]
  rw [← Finset.mul_sum]; ring

theorem cross_scale (a b : ℝ) (x y : ℕ → ℂ) (w : ℕ → ℝ) (np step n k : ℕ) :
    Spec.cross (fun m => (a : ℂ) * x m) (fun m => (b : ℂ) * y m) w np step n k = ((a * b : ℝ) : ℂ) * Spec.cross x y w np step n k := by
  unfold Spec.cross
  simp only [C51_scaled_signal, map_mul, Complex.conj_ofReal]
  rw [show ∀ (p q : ℂ), ∑ i ∈ Finset.range n, p * (starRingEnd ℂ) (segBin x w np step i k) * (q * segBin y w np step i k) =
    p * q * ∑ i ∈ Finset.range n, (starRingEnd ℂ) (segBin x w np step i k) * segBin y w np step i k from
    fun p q => by rw [Finset.mul_sum]; exact Finset.sum_congr rfl fun i _ => by ring]
  push_cast; ring

/-- C129: a spectrum of quantities is right: the numbers returned, in the unit of their type (`w`), are the spectrum of the data in base units. -/
theorem C129_welch_units (hv : c.Valid) (hfs : 0 < c.fs) (s : Scaling) (hs : c.scale s ≠ 0) (x : Sig) (hx : c.len ≤ x.size)
    (t w : QTy) (a : OT) (ha : a = .qty .double t ∨ a = .cqty .double t) (ht : t.RatScale) (hw : welchTy .double s a = some (.qty .double w)) :
    ∃ (f p : List ℝ), welch c s x = .ok (f, p.map .fin) ∧
      welch c s (x.scaleBy t.scal.val) = .ok (f, p.map fun v => .fin (w.scal.val * v)) := by
  obtain ⟨v, e, -, -, -, v5⟩ := C129_welch_type .double s t a _ ha ht hw
  cases e
  obtain ⟨f, h1, h2, h3⟩ := C49_welch hv hfs s hs x hx
  obtain ⟨f', h1', h2', h3'⟩ := C49_welch hv hfs s hs (x.scaleBy t.scal.val) (by rw [scaleBy_size]; exact hx)
  have ef : f' = f := by
    apply List.ext_getElem?
    intro k
    by_cases hk : k < f.length
    · rw [h3 k hk, h3' k (by rw [h2', scaleBy_bins, ← h2]; exact hk), scaleBy_isC]
    · rw [List.getElem?_eq_none (l := f') (by rw [h2', scaleBy_bins, ← h2]; omega), List.getElem?_eq_none (l := f) (by omega)]
  refine ⟨f, _, by rw [h1]; exact congrArg (fun l => Res.ok (f, l)) (List.map_map (f := _) (g := Ex.fin)).symm, ?_⟩
  rw [h1', ef, scaleBy_bins, List.map_map]
  congr 2
  refine List.map_congr_left fun k _ => ?_
  simp only [Function.comp, scaleBy_factor, scaleBy_at, scaleBy_size, power_scale, v5]
  congr 1
  ring

theorem scaleBy_bins2 (a b : ℝ) (x y : Sig) (np : ℕ) : bins2 (x.scaleBy a) (y.scaleBy b) np = bins2 x y np := by
  rw [bins2, bins2, scaleBy_isC, scaleBy_isC]

theorem scaleBy_factor2 (a b : ℝ) (x y : Sig) (np k : ℕ) : factor2 (x.scaleBy a) (y.scaleBy b) np k = factor2 x y np k := by
  rw [factor2, factor2, scaleBy_isC, scaleBy_isC]

/-- C129: the same for the cross spectrum. -/
theorem C129_csd_units (hv : c.Valid) (hfs : 0 < c.fs) (s : Scaling) (hs : c.scale s ≠ 0) (x y : Sig) (hx : x.size ≠ 0) (hy : y.size ≠ 0)
    (h : c.len ≤ max x.size y.size) (a b : OT) (ra : Rat a) (rb : Rat b) (ha : a.rep = .double) (hb : b.rep = .double) (hq : IsQ a ∨ IsQ b)
    (h0 : offOf a = 0 ∧ offOf b = 0) :
    ∃ (w : QTy) (f : List ℝ) (p : List ℂ), csdTy .double s a b = some (.cqty .double w) ∧ csd c s x y = .ok (f, p.map .fin) ∧
      csd c s (x.scaleBy a.scaleVal) (y.scaleBy b.scaleVal) = .ok (f, p.map fun v => .fin ((w.scal.val : ℂ) * v)) := by
  obtain ⟨w, w1, ⟨-, -, w4⟩, -⟩ := C129_csd_type .double s a b ra rb ha hb hq (fun _ _ => h0.2) (.inr (.inr rfl))
  obtain ⟨f, h1, h2, -⟩ := C52_csd hv hfs s hs x y hx hy h
  obtain ⟨f', h1', h2', -⟩ := C52_csd hv hfs s hs (x.scaleBy a.scaleVal) (y.scaleBy b.scaleVal) (by rwa [scaleBy_size]) (by rwa [scaleBy_size])
    (by rwa [scaleBy_size, scaleBy_size])
  rw [scaleBy_isC, scaleBy_isC, h1] at h1'
  have ef : f = f' := by injection h1'
  subst ef
  refine ⟨w, f, _, w1, by rw [h2]; exact congrArg (fun l => Res.ok (f, l)) (List.map_map (f := _) (g := Ex.fin)).symm, ?_⟩
  rw [h2', scaleBy_bins2, List.map_map]
  congr 2
  refine List.map_congr_left fun k _ => ?_
  simp only [Function.comp, scaleBy_factor2, scaleBy_at, scaleBy_size, cross_scale, w4]
  congr 1
  push_cast
  ring

theorem freqs_csd (hv : c.Valid) (hfs : 0 < c.fs) (x y : Sig) (h : c.len ≤ x.size) (hl : x.size = y.size) :
    ∃ f, getFreqs c (x.isC || y.isC) = .ok f ∧ ∃ p, csd c .none x y = .ok (f, p) := by
  have hpos := hv.pos
  have hx : x.size ≠ 0 := by simp only [SpecCfg.len] at h; omega
  obtain ⟨f, h1, h2, -⟩ := C52_csd hv hfs .none scale_none x y hx (hl ▸ hx) (by rw [← hl, max_self]; exact h)
  exact ⟨f, h1, _, h2⟩

theorem coherence_f {x y : Sig} {f f' : List ℝ} {p v} (h : coherence c x y = .ok (f', v)) (hc : csd c .none x y = .ok (f, p)) : f' = f := by
  unfold coherence at h
  obtain ⟨_, -, h⟩ := AEv.Res.bind_eq_ok' h
  rw [hc] at h
  obtain ⟨_, -, h⟩ := AEv.Res.bind_eq_ok' (show (welch c .none x).bind _ = _ from h)
  obtain ⟨_, -, h⟩ := AEv.Res.bind_eq_ok' h
  obtain ⟨_, -, h⟩ := AEv.Res.bind_eq_ok' h
  obtain ⟨_, -, h⟩ := AEv.Res.bind_eq_ok' h
  cases h; rfl

theorem tfestimate_f {x y : Sig} {f f' : List ℝ} {p v} (h : tfestimate c x y = .ok (f', v)) (hc : csd c .none y x = .ok (f, p)) : f' = f := by
  unfold tfestimate at h
  obtain ⟨_, -, h⟩ := AEv.Res.bind_eq_ok' h
  rw [hc] at h
  obtain ⟨_, -, h⟩ := AEv.Res.bind_eq_ok' (show (welchPsd c .none x).bind _ = _ from h)
  obtain ⟨_, -, h⟩ := AEv.Res.bind_eq_ok' h
  cases h; rfl

theorem csd_f_scale (hv : c.Valid) (hfs : 0 < c.fs) (x y : Sig) (h : c.len ≤ x.size) (hl : x.size = y.size) (a b : ℝ) :
    ∃ f p p', csd c .none x y = .ok (f, p) ∧ csd c .none (x.scaleBy a) (y.scaleBy b) = .ok (f, p') := by
  obtain ⟨f, h1, p, h2⟩ := freqs_csd hv hfs x y h hl
  obtain ⟨f', h1', p', h2'⟩ := freqs_csd hv hfs (x.scaleBy a) (y.scaleBy b) (by rwa [scaleBy_size]) (by rwa [scaleBy_size, scaleBy_size])
  rw [scaleBy_isC, scaleBy_isC, h1] at h1'
  cases h1'
  exact ⟨f, p, p', h2, h2'⟩

/-- C129: the coherence does not depend on the units of the signals. -/
theorem C129_coherence_units (hv : c.Valid) (hfs : 0 < c.fs) (x y : Sig) (h : c.len ≤ x.size) (hl : x.size = y.size) (ht : x.isC = y.isC)
    (a b : ℝ) (ha : 0 < a) (hb : 0 < b) : ∃ r, coherence c x y = .ok r ∧ coherence c (x.scaleBy a) (y.scaleBy b) = .ok r := by
  obtain ⟨f, v, h1, h2, h3⟩ := C51_coherence_partial hv hfs x y h hl ht
  obtain ⟨f', v', h1', h2', h3'⟩ := C51_coherence_partial hv hfs (x.scaleBy a) (y.scaleBy b) (by rwa [scaleBy_size]) (by rwa [scaleBy_size, scaleBy_size])
    (by rwa [scaleBy_isC, scaleBy_isC])
  obtain ⟨g, p, p', g1, g2⟩ := csd_f_scale hv hfs x y h hl a b
  obtain rfl := coherence_f h1 g1
  obtain rfl := coherence_f h1' g2
  refine ⟨_, h1, h1'.trans ?_⟩
  congr 2
  apply List.ext_getElem?
  intro k
  rw [scaleBy_bins] at h2' h3'
  by_cases hk : k < x.bins c.len
  · have e := h3 k hk
    have e' := h3' k hk
    simp only [scaleBy_at, scaleBy_size, power_scale, cross_scale] at e e'
    by_cases h0 : Spec.power x.at c.win c.len c.step (Spec.numSegs x.size c.len c.step) k = 0 ∨
        Spec.power y.at c.win c.len c.step (Spec.numSegs x.size c.len c.step) k = 0
    · rw [e.1 h0, e'.1 (h0.imp (fun h => by rw [h, mul_zero]) (fun h => by rw [h, mul_zero]))]
    · push Not at h0
      obtain ⟨r, r1, r2, -⟩ := e.2 h0.1 h0.2
      obtain ⟨r', r1', r2', -⟩ := e'.2 (mul_ne_zero (by positivity) h0.1) (mul_ne_zero (by positivity) h0.2)
      rw [r1, r1', r2, r2', Complex.normSq_mul, Complex.normSq_ofReal]
      congr 2
      have := h0.1
      have := h0.2
      field_simp
  · rw [List.getElem?_eq_none (l := v') (by omega), List.getElem?_eq_none (l := v) (by omega)]

/-- C129: the values of the transfer function in the units `a` of `x` and `b` of `y`, times `b / a`, are the transfer function in base units. -/
theorem C129_tfestimate_units (hv : c.Valid) (hfs : 0 < c.fs) (x y : Sig) (h : c.len ≤ x.size) (hl : x.size = y.size)
    (ht : x.isC = true ∨ y.isC = false) (a b : ℝ) (ha : 0 < a) :
    ∃ f v, tfestimate c x y = .ok (f, v) ∧ tfestimate c (x.scaleBy a) (y.scaleBy b) = .ok (f, v.map fun e => match e with
      | .fin z => .fin (((b / a : ℝ) : ℂ) * z)
      | e => e) := by
  obtain ⟨f, v, h1, h2, h3⟩ := C52_tfestimate_value hv hfs x y h hl ht
  obtain ⟨f', v', h1', h2', h3'⟩ := C52_tfestimate_value hv hfs (x.scaleBy a) (y.scaleBy b) (by rwa [scaleBy_size]) (by rwa [scaleBy_size, scaleBy_size])
    (by rwa [scaleBy_isC, scaleBy_isC])
  obtain ⟨g, p, p', g1, g2⟩ := csd_f_scale hv hfs y x (hl ▸ h) hl.symm b a
  obtain rfl := tfestimate_f h1 g1
  obtain rfl := tfestimate_f h1' g2
  refine ⟨_, v, h1, h1'.trans ?_⟩
  congr 2
  apply List.ext_getElem?
  intro k
  rw [scaleBy_bins] at h2' h3'
  by_cases hk : k < x.bins c.len
  · have e := h3 k hk
    have e' := h3' k hk
    simp only [scaleBy_at, scaleBy_size, power_scale, cross_scale] at e e'
    rw [e', List.getElem?_map, e]
    have hiff : a ^ 2 * Spec.power x.at c.win c.len c.step (Spec.numSegs x.size c.len c.step) k = 0 ↔
        Spec.power x.at c.win c.len c.step (Spec.numSegs x.size c.len c.step) k = 0 := by
      rw [mul_eq_zero]; exact or_iff_right (by positivity)
    by_cases h0 : Spec.power x.at c.win c.len c.step (Spec.numSegs x.size c.len c.step) k = 0
    · rw [if_pos (hiff.2 h0), if_pos h0]; rfl
    · rw [if_neg (mt hiff.1 h0), if_neg h0]
      simp only [Option.map_some]
      congr 2
      have h0' : ((Spec.power x.at c.win c.len c.step (Spec.numSegs x.size c.len c.step) k : ℝ) : ℂ) ≠ 0 := by exact_mod_cast h0
      have ha' : (a : ℂ) ≠ 0 := by exact_mod_cast ha.ne'
      push_cast
      field_simp
  · rw [List.getElem?_eq_none (l := v') (by omega), List.getElem?_eq_none (by rw [List.length_map]; omega)]

end values

/-! ### the divisions in `coherence` and `tfestimate` -/

section operators
variable {K : Type} [CppNum K]

theorem quotVal_both (t u : QTy) (h : u.off = 0) : (quotVal (.qty .double t) (.qty .double u) : K → K → K) = (· / ·) := by
  funext x y
  unfold quotVal
  rw [show builtin (.qty .double t) (.qty .double u) = none from rfl]
  rw [div_qty_qty_same (h := h)]

theorem quotVal_num (t : QTy) (r : Rep) : (quotVal (.qty .double t) (.num r) : K → K → K) = divRecip := by
  funext x y
  unfold quotVal
  rw [show builtin (.qty .double t) (.num r) = none from rfl]
  rw [div_qty_num]

theorem quotValC_num (t : QTy) (r : Rep) : (quotValC (.cqty .double t) (.num r) : CK K → K → CK K) = CK.divR := by
  funext x y
  unfold quotValC
  rw [div_cqty_num]

theorem quotValC_same (t : QTy) : (quotValC (.cqty .double t) (.qty .double t) : CK K → K → CK K) = CK.divR := by
  funext x y
  unfold quotValC
  rw [div_cqty_qty_same]

theorem quotValC_diff (t u : QTy) (h : t ≠ u) :
    (quotValC (.cqty .double t) (.qty .double u) : CK K → K → CK K) = fun z y => CK.mulR z (CppNum.ofInt 1 / y) := by
  funext x y
  unfold quotValC
  rw [div_cqty_qty_diff (h := show (Rep.double, t) ≠ (Rep.double, u) by simpa using h)]

theorem quotVal_real (t : QTy) (x a : OT) (h : RealOf .double x) (hq : IsQ x ↔ IsQ a) [Decidable (IsQ a)] :
    (quotVal (.qty .double t) x : K → K → K) = if IsQ a then (· / ·) else divRecip := by
  rcases h with rfl | ⟨v, rfl, -, v2⟩
  · rw [quotVal_num, if_neg (fun h => (hq.2 h).elim)]
  · rw [quotVal_both t v v2, if_pos (hq.1 trivial)]

variable [Neg K]

open Classical in
/-- C129: `coherence` divides by the spectrum of a signal with units, and multiplies by the reciprocal of the spectrum of a signal without units. -/
theorem C129_coherence_operators (lib : SpecLib K) (c : SpecCfgK K) (o1 o2 o3 : List ℕ) (x y : SigK K) (a b : OT) (h : SpectrumArgs .double a b) :
    coherenceQ a b lib c o1 o2 o3 x y = (do
      require (x.size == y.size)
      let pxy ← csdK lib c o1 .none x y
      let pxx ← welchK lib c o2 .none x
      let pyy ← welchK lib c o3 .none y
      require (pxy.length == pxx.length)
      require (pxy.length == pyy.length)
      pure (List.zipWith (if IsQ b then (· / ·) else fun q r => (CppNum.ofInt 1 / r) * q)
        (List.zipWith (if IsQ a then (· / ·) else fun q r => (CppNum.ofInt 1 / r) * q) (pxy.map CK.norm) pxx) pyy)) := by
  obtain ⟨w, w1, w2, w3, -, -⟩ := csd_none .double a b h
  obtain ⟨tx, x1, x2, x3, -, -⟩ := welch_real .double .none a h.rat.1 h.rep.1 h.off.1 (.inr rfl) (by decide)
  obtain ⟨ty, y1, y2, y3, -, -⟩ := welch_real .double .none b h.rat.2 h.rep.2 h.off.2 (.inr rfl) (by decide)
  obtain ⟨n, n1, n2, n3, -, -⟩ := tyMul_plain w w w2 w2 w3
  obtain ⟨q, q1, q2, q3, -, -⟩ := quot_real .double n n2 n3 tx x2
  have hn : normTy (.cqty .double w) = some (.qty .double n) := by
    unfold normTy
    simp only []
    rw [mulS false .rvalue .rvalue (.qty .double w) (.qty .double w) trivial trivial]
    simp [Spec.scalarMul, n1, ofRes]
  unfold coherenceQ
  rw [w1, x1, y1]
  simp only [Option.bind_some, hn, compiled, Res.bind_ok, q1]
  rw [quotVal_real n tx a x2 x3, quotVal_real q ty b y2 y3]
  rfl

/-- C129: the coherence of two signals with units has the values of the coherence of the numbers. -/
theorem C129_coherence_values (lib : SpecLib K) (c : SpecCfgK K) (o1 o2 o3 : List ℕ) (x y : SigK K) (a b : OT) (h : SpectrumArgs .double a b)
    (ha : IsQ a) (hb : IsQ b) : coherenceQ a b lib c o1 o2 o3 x y = coherenceK lib c o1 o2 o3 x y := by
  rw [C129_coherence_operators lib c o1 o2 o3 x y a b h, if_pos ha, if_pos hb]
  rfl

theorem tfestimateQ_eq (lib : SpecLib K) (c : SpecCfgK K) (o1 o2 : List ℕ) (x y : SigK K) (a b tx ty : OT) (f : CK K → K → CK K)
    (h1 : csdTy .double .none b a = some ty) (h2 : welchTy .double .none a = some tx) (hf : quotValC ty tx = f) :
    tfestimateQ a b lib c o1 o2 x y = (do
      require (x.size == y.size)
      let pyx ← csdK lib c o1 .none y x
      let pxx ← welchK lib c o2 .none x
      require (pyx.length == pxx.length)
      pure (List.zipWith f pyx pxx)) := by
  unfold tfestimateQ
  rw [h1, h2, ← hf]
  rfl

theorem ret_welch (T : Rep) (a b : OT) (ra : a.rep = T) (ha : a.Scalar) (hb : b.Scalar) (hab : realTy a = realTy b) (w v : QTy) (rb : b.rep = a.rep)
    (h1 : csdTy T .none b a = some (.cqty T w)) (h2 : welchTy T .none a = some (.qty T v)) : w = v := by
  subst ra
  rw [← rb] at h1
  rw [csdTy_eq .none b a hb ha rb.symm, rb, ← hab] at h1
  rw [welchTy_eq .none a ha] at h2
  split_ifs at h1 h2
  rw [h2] at h1
  cases h1
  rfl

/-- C129: the transfer function of two signals in the same unit, or of a signal with units from a signal without, has the values of the transfer function
of the numbers. -/
theorem C129_tfestimate_same (lib : SpecLib K) (c : SpecCfgK K) (o1 o2 : List ℕ) (x y : SigK K) (a b : OT) (h : SpectrumArgs .double a b)
    (hs : realTy a = realTy b ∨ ¬ IsQ a) : tfestimateQ a b lib c o1 o2 x y = tfestimateK lib c o1 o2 x y := by
  have h' : SpectrumArgs .double b a := ⟨h.rat.symm, h.rep.symm, h.off.symm, h.dbl.imp_left And.symm, h.units.symm⟩
  obtain ⟨w, w1, w2, w3, -, -⟩ := csd_none .double b a h'
  obtain ⟨tx, x1, x2, x3, -, -⟩ := welch_real .double .none a h.rat.1 h.rep.1 h.off.1 (.inr rfl) (by decide)
  rw [tfestimateQ_eq lib c o1 o2 x y a b tx (.cqty .double w) CK.divR w1 x1]
  · rfl
  · rcases x2 with rfl | ⟨v, rfl, -, -⟩
    · exact quotValC_num w .double
    · have hs := hs.resolve_right (fun g => g (x3.1 trivial))
      obtain rfl := ret_welch .double a b h.rep.1 (rat_scalar h.rat.1) (rat_scalar h.rat.2) hs w v (h.rep.2.trans h.rep.1.symm) w1 x1
      exact quotValC_same w

/-- C129: the transfer function from a signal with units to a signal of another unit multiplies the cross spectrum by the reciprocal of the spectrum. -/
theorem C129_tfestimate_different (lib : SpecLib K) (c : SpecCfgK K) (o1 o2 : List ℕ) (x y : SigK K) (a b : OT) (h : SpectrumArgs .double a b)
    (ha : IsQ a) (hs : a.dimVal ≠ b.dimVal ∨ a.scaleVal ≠ b.scaleVal) : tfestimateQ a b lib c o1 o2 x y = (do
      require (x.size == y.size)
      let pyx ← csdK lib c o1 .none y x
      let pxx ← welchK lib c o2 .none x
      require (pyx.length == pxx.length)
      pure (List.zipWith (fun z r => CK.mulR z (CppNum.ofInt 1 / r)) pyx pxx)) := by
  have h' : SpectrumArgs .double b a := ⟨h.rat.symm, h.rep.symm, h.off.symm, h.dbl.imp_left And.symm, h.units.symm⟩
  obtain ⟨w, w1, w2, w3, w4, w5⟩ := csd_none .double b a h'
  obtain ⟨tx, x1, x2, x3, x4, x5⟩ := welch_real .double .none a h.rat.1 h.rep.1 h.off.1 (.inr rfl) (by decide)
  refine tfestimateQ_eq lib c o1 o2 x y a b tx (.cqty .double w) _ w1 x1 ?_
  rcases x2 with rfl | ⟨v, rfl, -, -⟩
  · exact (x3.2 ha).elim
  · refine quotValC_diff w v ?_
    rintro rfl
    simp only [OT.dimVal, OT.scaleVal] at x4 x5
    have pa := dimVal_pos a h.rat.1
    have pa' := scaleVal_pos a h.rat.1
    rw [x4, sq] at w4
    rw [x5, sq] at w5
    rcases hs with hs | hs
    · exact hs (mul_right_cancel₀ pa.ne' w4)
    · exact hs (mul_right_cancel₀ pa'.ne' w5)

end operators

/-! ### floating point -/

section err
variable {rnd : ℚ → ℚ} {u : ℚ} (hu : 0 ≤ u) (hu1 : u < 1) (hr : ∀ x, |rnd x - x| ≤ u * |x|)
include hu hu1 hr

theorem Dev.mulRel {k l : ℕ} {e A g : ℚ} (hg : g ≠ 0) {x z : RFl rnd} (hx : Dev u k e A x) (hz : Rel u l g z) :
    Dev u (k + l + 1) (e * g) (A * |g|) (x * z) := by
  obtain ⟨θ, rfl, t1, t2⟩ := hz
  have p : 0 < 1 - u := by linarith
  have pl : 0 < (1 - u) ^ l := pow_pos p l
  have hθ : 0 < θ := lt_of_lt_of_le pl t1
  have h := Dev.divRel (l := l) hu hu1 hr (inv_ne_zero hg) hx (y := RFl.fin (g⁻¹ * θ⁻¹)) ⟨θ⁻¹, rfl, by
    rw [← one_div, le_div_iff₀ hθ, mul_comm]; exact t2, by
    rw [inv_mul_le_iff₀ hθ, mul_one]; exact t1⟩
  obtain ⟨q, rfl, -⟩ := hx
  rw [RFl.mul_fin]
  rw [RFl.div_fin (mul_ne_zero (inv_ne_zero hg) (inv_ne_zero hθ.ne')), ← mul_inv, div_inv_eq_mul, div_inv_eq_mul, abs_inv, div_inv_eq_mul] at h
  exact h

omit hu hu1 hr in
theorem recip_zero (h1 : rnd 1 = 1) : (CppNum.ofInt 1 : RFl rnd) / RFl.fin 0 = RFl.inf false := by
  rw [RFl.ofInt_def]
  rw [show rnd ((1 : ℤ) : ℚ) = 1 by simpa using h1, RFl.div_zero', if_neg one_ne_zero]
  rfl

/-- One bin of the transfer function between different units. -/
theorem tf_bin_recip (h1 : rnd 1 = 1) {n : ℕ} {s R I A B Px Py : ℚ} (hs : 0 < s) (hPx : 0 < Px) (hA : A ^ 2 ≤ Py * Px) (hB : B ^ 2 ≤ Py * Px)
    {w : CK (RFl rnd)} {px : RFl rnd} (ha : Dev u (n + 5) (s * R) (s * A) w.re) (hb : Dev u (n + 5) (s * I) (s * B) w.im)
    (hx : Rel u (n + 5) (s * Px) px) :
    ∃ a b, w.mulR (CppNum.ofInt 1 / px) = ⟨RFl.fin a, RFl.fin b⟩ ∧
      (a - R / Px) ^ 2 ≤ (1 / (1 - u) ^ (2 * n + 12) - 1) ^ 2 * (Py / Px) ∧
      (b - I / Px) ^ 2 ≤ (1 / (1 - u) ^ (2 * n + 12) - 1) ^ 2 * (Py / Px) := by
  have hp : 0 < s * Px := by positivity
  have hi : Rel u (0 + (n + 5) + 1) (1 / (s * Px)) ((CppNum.ofInt 1 : RFl rnd) / px) := by
    rw [RFl.ofInt_def, show rnd ((1 : ℤ) : ℚ) = 1 by simpa using h1]
    exact Rel.div hu1 hr hp.ne' (Rel.exact 1) hx
  have comp : ∀ (E A : ℚ) (v : RFl rnd), A ^ 2 ≤ Py * Px → Dev u (n + 5) (s * E) (s * A) v →
      ∃ q, v * (CppNum.ofInt 1 / px) = RFl.fin q ∧ (q - E / Px) ^ 2 ≤ (1 / (1 - u) ^ (2 * n + 12) - 1) ^ 2 * (Py / Px) := by
    intro E A v hA h
    have h1 := (Dev.mulRel hu hu1 hr (by positivity) h hi).mono hu hu1 (show n + 5 + (0 + (n + 5) + 1) + 1 ≤ 2 * n + 12 by omega)
    rw [abs_of_pos (by positivity), mul_one_div, mul_one_div, mul_div_mul_left _ _ hs.ne', mul_div_mul_left _ _ hs.ne'] at h1
    refine dev_sq h1 ?_
    rw [div_pow, div_le_iff₀ (by positivity)]
    calc A ^ 2 ≤ Py * Px := hA
      _ = Py / Px * Px ^ 2 := by field_simp
  obtain ⟨a, a1, a2⟩ := comp R A _ hA ha
  obtain ⟨b, b1, b2⟩ := comp I B _ hB hb
  exact ⟨a, b, by rw [CK.mulR, a1, b1], a2, b2⟩

omit hu hu1 hr in
theorem tf_bin_recip_nan (h1 : rnd 1 = 1) {k : ℕ} {s R I A B Px Py : ℚ} (hP : Px = 0) (hA : A ^ 2 ≤ Py * Px) (hB : B ^ 2 ≤ Py * Px)
    {w : CK (RFl rnd)} {px : RFl rnd} (ha : Dev u k (s * R) (s * A) w.re) (hb : Dev u k (s * I) (s * B) w.im)
    (hx : Rel u k (s * Px) px) : w.mulR (CppNum.ofInt 1 / px) = ⟨RFl.nan, RFl.nan⟩ := by
  rw [hP, mul_zero] at hA hB
  obtain ⟨θ, rfl, _⟩ := hx
  have nz : (RFl.fin 0 * RFl.inf false : RFl rnd) = RFl.nan := by
    rfl
  rw [CK.mulR, dev_zero R A _ hA ha, dev_zero I B _ hB hb, hP, mul_zero, zero_mul, recip_zero h1, nz]

/-- C129: the error of `tfestimate` from a signal with units to a signal of another unit: one rounding more than for numbers (C118); NaN where the power
of `x` is zero. -/
theorem C129_tfestimate_error (lib : SpecLib (RFl rnd)) (c : SpecCfgK (RFl rnd)) {np step : ℕ} (hc : CfgOk c np step)
    (x y : SigK (RFl rnd)) (hx : np ≤ x.size) (hl : x.size = y.size) (ht : x.isReal = y.isReal) {n : ℕ}
    (hn : n = Spec.numSegs x.size np step) (hE : Exact rnd n) (X Y : ℕ → ℕ → ℚ × ℚ) (hX : Transforms lib c x np n X)
    (hY : Transforms lib c y np n Y) (o1 o2 : List ℕ) (ho1 : o1.Perm (List.range n)) (ho2 : o2.Perm (List.range n))
    (a b : OT) (h : SpectrumArgs .double a b) (ha : IsQ a) (hs : a.dimVal ≠ b.dimVal ∨ a.scaleVal ≠ b.scaleVal) :
    ∃ p, tfestimateQ a b lib c o1 o2 x y = .ok p ∧ Bins p (nbins x.isReal np) fun k v =>
      (psd X n k = 0 → v = ⟨RFl.nan, RFl.nan⟩) ∧
      (psd X n k ≠ 0 → ∃ a b, v = ⟨RFl.fin a, RFl.fin b⟩ ∧
        (a - csdRe Y X n k / psd X n k) ^ 2 ≤ (1 / (1 - u) ^ (2 * n + 12) - 1) ^ 2 * (psd Y n k / psd X n k) ∧
        (b - csdIm Y X n k / psd X n k) ^ 2 ≤ (1 / (1 - u) ^ (2 * n + 12) - 1) ^ 2 * (psd Y n k / psd X n k)) := by
  rw [C129_tfestimate_different lib c o1 o2 x y a b h ha hs]
  have h1 := hE.one
  have hn1 : 1 ≤ n := by rw [hn]; unfold Spec.numSegs; generalize (x.size - np) / step = t; omega
  subst hn
  have mem : ∀ o : List ℕ, o.Perm (List.range (Spec.numSegs x.size np step)) → ∀ i ∈ o, i < Spec.numSegs x.size np step :=
    fun o ho i hi => List.mem_range.1 (ho.mem_iff.1 hi)
  have hX' := hX
  rw [welchK_eq lib c hc x hx X hX o2 (mem o2 ho2) .none]
  rw [hl] at hY hX' ho1 mem
  rw [csdSameK_eq lib c hc y x (hl ▸ hx) hl.symm ht.symm Y X hY hX' o1 (mem o1 ho1) .none]
  simp only [Res.bind_ok, hl, beq_self_eq_true, require_true, scaleSpecK, List.length_map, List.length_range, ← ht,
    zipWith_map_range, Res.pure_eq]
  refine ⟨_, rfl, ?_⟩
  rw [hl] at hE hn1 ho2
  obtain ⟨n, hnd⟩ : ∃ n, n = Spec.numSegs y.size np step := ⟨_, rfl⟩
  rw [← hnd] at hE hn1 ho1 ho2 ⊢
  refine bins_map _ _ _ fun k _ => ?_
  obtain ⟨da, db⟩ := csd_dev hu hu1 hr hn1 hE ho1 Y X x.isReal np k _ _ rfl rfl
  have dx := psd_rel hu hu1 hr hn1 hE ho2 X x.isReal np k
  obtain ⟨c1, c2, -⟩ := cross_mean_sq Y X (n := n) k
  refine ⟨fun h => ?_, fun h => ?_⟩
  · exact tf_bin_recip_nan h1 h c1 c2 da db dx
  · exact tf_bin_recip hu hu1 hr h1 (side_pos x.isReal np k) (lt_of_le_of_ne (psd_nonneg X n k) (Ne.symm h)) c1 c2 da db dx

end err

/-- Volts. -/
def volts : QTy := ⟨⟨20, 189, 1⟩, ⟨1, 1, 1⟩, 0⟩

/-- Amperes. -/
def amperes : QTy := ⟨⟨7, 1, 1⟩, ⟨1, 1, 1⟩, 0⟩

theorem volts_eq : qtElectricPotential one1 = .ok volts ∧ tyBase 4 one1 = amperes := by decide +kernel

theorem volts_rat : volts.RatScale := ⟨⟨⟨by decide, by decide, by decide, by decide⟩, ⟨by decide, by decide, by decide, by decide⟩⟩, rfl⟩
theorem amperes_rat : amperes.RatScale := ⟨⟨⟨by decide, by decide, by decide, by decide⟩, ⟨by decide, by decide, by decide, by decide⟩⟩, rfl⟩

/-- The hypotheses of the theorems above hold for a voltage and a current. -/
theorem volts_amperes : SpectrumArgs .double (.qty .double volts) (.qty .double amperes) where
  rat := ⟨volts_rat, amperes_rat⟩
  rep := ⟨rfl, rfl⟩
  off := ⟨rfl, rfl⟩
  dbl := .inr rfl
  units := .inl trivial

theorem volts_ne_amperes : (OT.qty .double volts).dimVal ≠ (OT.qty .double amperes).dimVal := by
  show volts.dim.val ≠ amperes.dim.val
  rw [plain_val _ rfl, plain_val _ rfl]
  norm_num [volts, amperes]

/-- C129: the transfer function of a voltage to a current of the same values is not 1, although it is for numbers. -/
theorem C129_tfestimate_rounding :
    tfestimateK dft2 cfg2 [0] [0] (alt 7) (alt 7) = .ok [⟨RFl.nan, RFl.nan⟩, ⟨RFl.fin 1, RFl.fin 0⟩] ∧
    tfestimateQ (.qty .double volts) (.qty .double amperes) dft2 cfg2 [0] [0] (alt 7) (alt 7) =
      .ok [⟨RFl.nan, RFl.nan⟩, ⟨RFl.fin (1 - 1 / 2 ^ 53), RFl.fin 0⟩] := by
  refine ⟨by decide +kernel, ?_⟩
  rw [C129_tfestimate_different dft2 cfg2 [0] [0] (alt 7) (alt 7) _ _ volts_amperes trivial (.inl volts_ne_amperes)]
  decide +kernel

/-- C129: the coherence of a voltage with numbers of the same values is not 1, although it is for numbers and for two voltages. -/
theorem C129_coherence_rounding :
    coherenceK dft2 cfg2 [0] [0] [0] (alt 7) (alt 7) = .ok [RFl.nan, RFl.fin 1] ∧
    coherenceQ (.qty .double volts) (.num .double) dft2 cfg2 [0] [0] [0] (alt 7) (alt 7) = .ok [RFl.nan, RFl.fin (1 - 1 / 2 ^ 53)] := by
  refine ⟨by decide +kernel, ?_⟩
  rw [C129_coherence_operators dft2 cfg2 [0] [0] [0] (alt 7) (alt 7) (.qty .double volts) (.num .double) ⟨⟨volts_rat, trivial⟩, ⟨rfl, rfl⟩, ⟨rfl, rfl⟩, .inr rfl, .inl trivial⟩,
    if_pos (show IsQ (.qty .double volts) from trivial), if_neg (show ¬ IsQ (.num .double) from id)]
  decide +kernel

/-- The power spectral density of a voltage is in V²·s. -/
example : ∃ w, welchTy .double .density (.qty .double volts) = some (.qty .double w) ∧ w.dim.val = volts.dim.val ^ 2 * 3 ∧ w.scal.val = 1 := by
  obtain ⟨x, hx⟩ := Option.isSome_iff_exists.mp ((C129_welch_compiles .double .density (.qty .double volts) volts_rat).mpr ⟨rfl, rfl, .inr rfl⟩)
  obtain ⟨w, rfl, -, -, w4, w5⟩ := C129_welch_type .double .density volts _ x (.inl rfl) volts_rat hx
  refine ⟨w, hx, ?_, ?_⟩
  · rw [w4]; simp [secondDim_eq]
  · rw [w5, plain_val _ rfl]; simp [volts]

end SciCpp
