import Verif.Spec.Quantity
import Verif.Props.Arith
import Mathlib.Tactic
/-
  Property theorems C35–C39: physical quantities.
-/
set_option linter.unusedSectionVars false
namespace SciCpp

variable {K : Type} [RCLike K]

theorem evalRR_eq (r : RootRatio) : (evalRR r : K) = ((r.val : ℝ) : K) := by
  unfold evalRR RootRatio.val
  split_ifs with h
  · rw [h]; simp
  · rfl

theorem rat_num_den (d : ℚ) : ((d.num : K) / (d.den : K)) = (d : K) := by
  exact (Rat.cast_def d).symm

theorem val_ne (r : RootRatio) (h : r.Valid) : ((r.val : ℝ) : K) ≠ 0 := by
  exact_mod_cast (RootRatio.val_pos r h).ne'

/-- `quantity::eval()` computes the denoted base-unit value. -/
theorem C38_eval (q : Qty K) : qEval q = q.denote := by
  unfold qEval Qty.denote
  rw [evalRR_eq, rat_num_den]

/-! ## C38 — unit conversion -/

/-- The value computed by `quantity_cast`. -/
theorem quantityCast_eq (dst : QTy) (q : Qty K) (hq : q.ty.Valid) (ht : dst.Valid)
    (hd : q.ty.dim = dst.dim) :
    ∃ v : K, quantityCast dst q = .ok ⟨dst, v⟩ ∧
      v = ((q.ty.scal.val : ℝ) : K) / ((dst.scal.val : ℝ) : K) * q.val
        + ((q.ty.off : K) - (dst.off : K)) := by
  obtain ⟨s, h1, _, h3⟩ := C34_divide q.ty.scal dst.scal hq.2 ht.2
  unfold quantityCast
  rw [if_neg (by simp [hd]), h1]
  simp only [Res.bind_ok, Res.pure_eq]
  refine ⟨_, rfl, ?_⟩
  rw [evalRR_eq, rat_num_den, h3]
  push_cast
  rfl

/-- C38 (exactly when the code is right): converting a quantity to another unit of the same dimension
preserves the denoted value **if and only if** the offsets agree or the target scale is 1.  (The code
adds the offset difference without dividing it by the target scale.) -/
theorem C38_cast_iff (dst : QTy) (q : Qty K) (hq : q.ty.Valid) (ht : dst.Valid)
    (hd : q.ty.dim = dst.dim) :
    ∃ r : Qty K, quantityCast dst q = .ok r ∧ r.ty = dst ∧
      (r.denote = q.denote ↔ q.ty.off = dst.off ∨ dst.scal.val = 1) := by
  obtain ⟨v, h1, h2⟩ := quantityCast_eq dst q hq ht hd
  refine ⟨_, h1, rfl, ?_⟩
  have hne := val_ne (K := K) dst.scal ht.2
  unfold Qty.denote
  simp only [h2]
  have e : ((dst.scal.val : ℝ) : K) * (((q.ty.scal.val : ℝ) : K) / ((dst.scal.val : ℝ) : K) * q.val
        + ((q.ty.off : K) - (dst.off : K))) + (dst.off : K)
      = ((q.ty.scal.val : ℝ) : K) * q.val + (q.ty.off : K)
        + (((dst.scal.val : ℝ) : K) - 1) * ((q.ty.off : K) - (dst.off : K)) := by
    field_simp
    ring
  rw [e, add_eq_left, mul_eq_zero, sub_eq_zero, sub_eq_zero, or_comm]
  constructor
  · rintro (h | h)
    · left; exact_mod_cast h
    · right; exact_mod_cast h
  · rintro (h | h)
    · left; exact_mod_cast h
    · right; exact_mod_cast h

/-- C38 (units without offset, or with the same offset): conversion preserves the denoted value, and
converting back restores the original quantity (value and type).  Missing: differing offsets, where
the property is false (`C38_offset_false`); the exact condition is `C38_cast_iff`. -/
theorem C38_cast_partial (dst : QTy) (q : Qty K) (hq : q.ty.Valid) (ht : dst.Valid)
    (hd : q.ty.dim = dst.dim) (ho : q.ty.off = dst.off) :
    ∃ r : Qty K, quantityCast dst q = .ok r ∧ r.ty = dst ∧ r.denote = q.denote ∧
      quantityCast q.ty r = .ok q := by
  obtain ⟨v, h1, h2⟩ := quantityCast_eq dst q hq ht hd
  have hne := val_ne (K := K) dst.scal ht.2
  have hne' := val_ne (K := K) q.ty.scal hq.2
  refine ⟨_, h1, rfl, ?_, ?_⟩
  · unfold Qty.denote
    simp only [h2, ho]
    field_simp
    ring
  · obtain ⟨w, g1, g2⟩ := quantityCast_eq q.ty (⟨dst, v⟩ : Qty K) ht hq hd.symm
    rw [g1]
    have : w = q.val := by
      rw [g2]; simp only [h2, ho]; field_simp; ring
    rw [this]

/-- C38 (round trip, exact condition): converting to another unit and back restores the value if and
only if the offsets agree or the scales denote the same number. -/
theorem C38_roundtrip_iff (dst : QTy) (q : Qty K) (hq : q.ty.Valid) (ht : dst.Valid)
    (hd : q.ty.dim = dst.dim) :
    ∃ r s : Qty K, quantityCast dst q = .ok r ∧ quantityCast q.ty r = .ok s ∧ s.ty = q.ty ∧
      (s.val = q.val ↔ q.ty.off = dst.off ∨ q.ty.scal.val = dst.scal.val) := by
  obtain ⟨v, h1, h2⟩ := quantityCast_eq dst q hq ht hd
  have hne := val_ne (K := K) dst.scal ht.2
  have hne' := val_ne (K := K) q.ty.scal hq.2
  obtain ⟨w, g1, g2⟩ := quantityCast_eq q.ty (⟨dst, v⟩ : Qty K) ht hq hd.symm
  refine ⟨_, _, h1, g1, rfl, ?_⟩
  simp only [g2, h2]
  have e : ((dst.scal.val : ℝ) : K) / ((q.ty.scal.val : ℝ) : K) *
        (((q.ty.scal.val : ℝ) : K) / ((dst.scal.val : ℝ) : K) * q.val
          + ((q.ty.off : K) - (dst.off : K))) + ((dst.off : K) - (q.ty.off : K))
      = q.val + (((dst.scal.val : ℝ) : K) / ((q.ty.scal.val : ℝ) : K) - 1)
          * ((q.ty.off : K) - (dst.off : K)) := by
    field_simp
    ring
  rw [e, add_eq_left, mul_eq_zero, sub_eq_zero, sub_eq_zero, or_comm, div_eq_one_iff_eq hne']
  constructor
  · rintro (h | h)
    · left; exact_mod_cast h
    · right; exact_mod_cast h.symm
  · rintro (h | h)
    · left; exact_mod_cast h
    · right; exact_mod_cast h.symm

/-- The unit `celsius` (scicpp/core/units/units.hpp:435-436); `d` is the temperature dimension. -/
def celsiusTy (d : RootRatio) : QTy := ⟨d, ⟨1, 1, 1⟩, 27315 / 100⟩
/-- The unit `fahrhenheit` (scicpp/core/units/units.hpp:438-440). -/
def fahrenheitTy (d : RootRatio) : QTy := ⟨d, ⟨5, 9, 1⟩, 45967 / 180⟩
/-- The unit `kelvin` (scicpp/core/units/units.hpp:433). -/
def kelvinTy (d : RootRatio) : QTy := ⟨d, ⟨1, 1, 1⟩, 0⟩

theorem val_one : (⟨1, 1, 1⟩ : RootRatio).val = 1 := by simp [RootRatio.val]
theorem valid_one : (⟨1, 1, 1⟩ : RootRatio).Valid := ⟨by decide, by decide, by decide, by decide⟩
theorem valid_59 : (⟨5, 9, 1⟩ : RootRatio).Valid := ⟨by decide, by decide, by decide, by decide⟩
theorem val_59 : (⟨5, 9, 1⟩ : RootRatio).val = 5 / 9 := by simp [RootRatio.val]

/-- C38 is false of the code for units with offsets: the conversion of `0 °C` to degrees Fahrenheit
gives `320/18 = 17.77…` instead of `32`, which denotes a different temperature. -/
theorem C38_offset_false (d : RootRatio) (hd : d.Valid) :
    quantityCast (fahrenheitTy d) (⟨celsiusTy d, 0⟩ : Qty ℝ) = .ok ⟨fahrenheitTy d, 160 / 9⟩ ∧
    (⟨fahrenheitTy d, 32⟩ : Qty ℝ).denote = (⟨celsiusTy d, 0⟩ : Qty ℝ).denote ∧
    (⟨fahrenheitTy d, 160 / 9⟩ : Qty ℝ).denote ≠ (⟨celsiusTy d, 0⟩ : Qty ℝ).denote := by
  obtain ⟨v, h1, h2⟩ := quantityCast_eq (fahrenheitTy d) (⟨celsiusTy d, 0⟩ : Qty ℝ)
    ⟨hd, valid_one⟩ ⟨hd, valid_59⟩ rfl
  refine ⟨?_, ?_, ?_⟩
  · rw [h1, h2]
    simp only [fahrenheitTy, celsiusTy, mul_zero, zero_add]
    norm_num
  · simp only [Qty.denote, fahrenheitTy, celsiusTy, val_one, val_59]
    norm_num
  · simp only [Qty.denote, fahrenheitTy, celsiusTy, val_one, val_59]
    norm_num

/-- The conversions that do work with offsets: to a unit of scale 1 (kelvin, celsius). -/
example (d : RootRatio) (hd : d.Valid) (v : ℝ) : ∃ r : Qty ℝ,
    quantityCast (kelvinTy d) (⟨fahrenheitTy d, v⟩ : Qty ℝ) = .ok r ∧
      r.denote = (⟨fahrenheitTy d, v⟩ : Qty ℝ).denote := by
  obtain ⟨r, h1, _, h3⟩ := C38_cast_iff (kelvinTy d) (⟨fahrenheitTy d, v⟩ : Qty ℝ)
    ⟨hd, valid_59⟩ ⟨hd, valid_one⟩ rfl
  exact ⟨r, h1, h3.mpr (Or.inr val_one)⟩

/-! ### integral representations -/

theorem rrDiv_plain (a b : RootRatio) (ha : a.root = 1) (hb : b.root = 1) :
    rrDiv a b = .ok (rrMk (a.num * (rrMk b.den b.num 1).num) (a.den * (rrMk b.den b.num 1).den) 1) := by
  unfold rrDiv rrMul
  rw [hb, if_pos ⟨ha, rfl⟩]

theorem rrMk_den_num (b : RootRatio) (h : b.Valid) (k : ℕ) : rrMk b.den b.num k = ⟨b.den, b.num, k⟩ := by
  unfold rrMk
  rw [Nat.gcd_comm, h.2.2.2.gcd_eq_one, Nat.div_one, Nat.div_one]

/-- C38 (integral representation): an implicit conversion that compiles is exact, for units without
offset difference and plain scales. -/
theorem C38_implicit_int (dst : QTy) (q : Qty ℤ) (hq : q.ty.Valid) (ht : dst.Valid)
    (hd : q.ty.dim = dst.dim) (ho : q.ty.off = dst.off)
    (hr : q.ty.scal.root = 1) (hr' : dst.scal.root = 1)
    (hh : isHarmonic q.ty.scal dst.scal = true) :
    ∃ r : Qty ℤ, implicitConvInt dst q = .ok r ∧ r.ty = dst ∧ r.denoteZ = q.denoteZ := by
  have hs := rrDiv_plain q.ty.scal dst.scal hr hr'
  rw [rrMk_den_num dst.scal ht.2] at hs
  obtain ⟨s, h1, h2, h3⟩ := C34_divide q.ty.scal dst.scal hq.2 ht.2
  have hse : s = rrMk (q.ty.scal.num * dst.scal.den) (q.ty.scal.den * dst.scal.num) 1 := by
    rw [h1] at hs; injection hs
  have hden : s.den = 1 := by
    rw [hse]; simpa [isHarmonic] using hh
  have hroot : s.root = 1 := by rw [hse]; rfl
  unfold implicitConvInt quantityCastInt evalInt
  rw [if_pos hh, if_neg (by simp [hd]), h1]
  simp only [Res.bind_ok, Res.pure_eq, hroot, if_true]
  refine ⟨_, rfl, rfl, ?_⟩
  unfold Qty.denoteZ
  simp only [hden, Nat.cast_one, Int.tdiv_one, ho, sub_self, Rat.num_ofNat, Int.zero_tdiv, add_zero]
  have hv : s.val = (s.num : ℝ) := by
    unfold RootRatio.val; rw [hden, hroot]; simp
  have hpos := RootRatio.val_pos dst.scal ht.2
  rw [hv, eq_div_iff hpos.ne'] at h3
  push_cast
  rw [← h3]
  ring

/-- C38 is false of the code for explicit integer casts that are not harmonic: every value in
millimetres is cast to `0` metres. -/
theorem C38_int_false (d : RootRatio) (v : ℤ) :
    quantityCastInt ⟨d, ⟨1, 1, 1⟩, 0⟩ (⟨⟨d, ⟨1, 1000, 1⟩, 0⟩, v⟩ : Qty ℤ) =
      .ok ⟨⟨d, ⟨1, 1, 1⟩, 0⟩, 0⟩ := by
  have h : rrDiv ⟨1, 1000, 1⟩ ⟨1, 1, 1⟩ = .ok ⟨1, 1000, 1⟩ := by decide
  unfold quantityCastInt
  simp [h, evalInt]

/-- The whole part of a rational number, towards zero. -/
def wholePart (d : ℚ) : ℤ := if 0 ≤ d then ⌊d⌋ else ⌈d⌉

theorem wholePart_eq (d : ℚ) : d.num.tdiv (d.den : ℤ) = wholePart d := by
  unfold wholePart
  have hd : (0 : ℤ) < d.den := by exact_mod_cast d.den_pos
  split
  · rename_i h
    rw [Int.tdiv_eq_ediv_of_nonneg (Rat.num_nonneg.mpr h), Rat.floor_def']
  · rename_i h
    have h' : 0 ≤ -d := by linarith
    rw [show ⌈d⌉ = -⌊-d⌋ by rw [Int.floor_neg, neg_neg], Rat.floor_def', Rat.neg_den, Rat.neg_num,
      ← Int.tdiv_eq_ediv_of_nonneg, Int.neg_tdiv, neg_neg]
    have := Rat.num_nonneg.mpr h'
    rwa [Rat.neg_num] at this

/-- C38 (integral representation): between two units of one plain scale that differ by an offset, the
cast adds the whole part of the difference of the offsets. -/
theorem C38_int_offset (dst : QTy) (q : Qty ℤ) (hq : q.ty.Valid) (hd : q.ty.dim = dst.dim)
    (hs : dst.scal = q.ty.scal) (hr : q.ty.scal.root = 1) :
    quantityCastInt dst q = .ok ⟨dst, q.val + wholePart (q.ty.off - dst.off)⟩ := by
  have h1 : rrDiv q.ty.scal q.ty.scal = .ok ⟨1, 1, 1⟩ := by
    rw [rrDiv_plain _ _ hr hr, rrMk_den_num _ hq.2]
    unfold rrMk
    simp only []
    rw [Nat.mul_comm q.ty.scal.den, Nat.gcd_self, Nat.div_self (Nat.mul_pos hq.2.1 hq.2.2.1)]
  unfold quantityCastInt evalInt
  rw [if_neg (by simp [hd]), hs, h1]
  simp only [Res.bind_ok, Res.pure_eq, if_true, wholePart_eq]
  norm_num

/-- C38 (integral representation): between units of scale one the cast denotes the same physical value
if and only if the offsets differ by an integer: from degrees Celsius to kelvins (273.15) it never does. -/
theorem C38_int_offset_iff (dst : QTy) (q : Qty ℤ) (hq : q.ty.Valid) (hd : q.ty.dim = dst.dim)
    (h1 : q.ty.scal = ⟨1, 1, 1⟩) (h2 : dst.scal = ⟨1, 1, 1⟩) :
    ∃ r : Qty ℤ, quantityCastInt dst q = .ok r ∧
      (r.denoteZ = q.denoteZ ↔ ∃ z : ℤ, q.ty.off - dst.off = z) := by
  refine ⟨_, C38_int_offset dst q hq hd (by rw [h1, h2]) (by rw [h1]), ?_⟩
  unfold Qty.denoteZ
  simp only [h1, h2, val_one]
  have hw : ∀ d : ℚ, ((wholePart d : ℤ) : ℚ) = d ↔ ∃ z : ℤ, d = z := by
    intro d
    refine ⟨fun h => ⟨_, h.symm⟩, ?_⟩
    rintro ⟨z, rfl⟩
    unfold wholePart
    split <;> simp
  rw [← hw]
  constructor
  · intro h
    have : ((wholePart (q.ty.off - dst.off) : ℤ) : ℝ) = ((q.ty.off - dst.off : ℚ) : ℝ) := by
      push_cast at h ⊢; linarith
    exact_mod_cast this
  · intro h
    have : ((wholePart (q.ty.off - dst.off) : ℤ) : ℝ) = ((q.ty.off - dst.off : ℚ) : ℝ) := by
      exact_mod_cast h
    push_cast at this ⊢
    linarith

/-- Satisfiable, and an inexact case: 20 °C as integral kelvins is 293. -/
example (d : RootRatio) (hd : d.Valid) :
    quantityCastInt ⟨d, ⟨1, 1, 1⟩, 0⟩ (⟨⟨d, ⟨1, 1, 1⟩, 5463 / 20⟩, 20⟩ : Qty ℤ) =
      .ok ⟨⟨d, ⟨1, 1, 1⟩, 0⟩, 293⟩ := by
  rw [C38_int_offset ⟨d, ⟨1, 1, 1⟩, 0⟩ (⟨⟨d, ⟨1, 1, 1⟩, 5463 / 20⟩, 20⟩ : Qty ℤ) ⟨hd, valid_one⟩ rfl rfl rfl]
  have : wholePart (5463 / 20 - 0) = 273 := by unfold wholePart; norm_num
  simp only [this]; rfl

/-! ## C35 — addition and subtraction -/

theorem rrCommon_comm (a b : RootRatio) : rrCommon a b = rrCommon b a := by
  unfold rrCommon
  simp only [C69_power_nonneg_partial]
  have h : ∀ p1 p2 : ℕ, p1 / Nat.gcd p1 p2 * p2 = Nat.lcm p1 p2 := by
    intro p1 p2
    rw [Nat.lcm, Nat.div_mul_right_comm (Nat.gcd_dvd_left _ _)]
  rw [h, h, Nat.lcm_comm, Nat.gcd_comm, Nat.mul_comm a.root]

theorem commonQuantity_ok (a b : QTy) (ha : a.Valid) (hb : b.Valid) (ho : a.off = b.off) :
    ∃ s, commonQuantity a b = .ok ⟨a.dim, s, a.off⟩ ∧ s.Valid := by
  obtain ⟨s, h1, h2, _⟩ := C34_common a.scal b.scal ha.2 hb.2
  refine ⟨s, ?_, h2⟩
  unfold commonQuantity
  rw [if_neg (by simp [ho]), h1]
  rfl

/-- C35: for quantities of one dimension, in any two scales and with the same offset, `a + b` and
`a - b` are quantities of that dimension; what is added or subtracted are the values above the offset.
For units without offset (`off = 0`) this is: the result denotes the sum / difference of the denoted
values. -/
theorem C35_add_sub (a b : Qty K) (ha : a.ty.Valid) (hb : b.ty.Valid)
    (hd : a.ty.dim = b.ty.dim) (ho : a.ty.off = b.ty.off) :
    (∃ r : Qty K, qAdd a b = .ok r ∧ r.ty.Valid ∧ r.ty.dim = a.ty.dim ∧ r.ty.off = a.ty.off ∧
      r.denote - (r.ty.off : K) = (a.denote - (a.ty.off : K)) + (b.denote - (b.ty.off : K)) ∧
      (a.ty.off = 0 → r.denote = a.denote + b.denote)) ∧
    (∃ r : Qty K, qSub a b = .ok r ∧ r.ty.Valid ∧ r.ty.dim = a.ty.dim ∧ r.ty.off = a.ty.off ∧
      r.denote - (r.ty.off : K) = (a.denote - (a.ty.off : K)) - (b.denote - (b.ty.off : K)) ∧
      (a.ty.off = 0 → r.denote = a.denote - b.denote)) := by
  obtain ⟨s, h1, h2⟩ := commonQuantity_ok a.ty b.ty ha hb ho
  have hv : (⟨a.ty.dim, s, a.ty.off⟩ : QTy).Valid := ⟨ha.1, h2⟩
  obtain ⟨x, e1, e2⟩ := quantityCast_eq ⟨a.ty.dim, s, a.ty.off⟩ a ha hv rfl
  obtain ⟨y, f1, f2⟩ := quantityCast_eq ⟨a.ty.dim, s, a.ty.off⟩ b hb hv hd.symm
  have hne := val_ne (K := K) s h2
  constructor
  · unfold qAdd
    rw [if_neg (by simp [hd]), h1]
    simp only [Res.bind_ok, Res.pure_eq, e1, f1]
    refine ⟨_, rfl, hv, rfl, rfl, ?_, fun h0 => ?_⟩
    · simp only [Qty.denote, e2, f2, ho]; field_simp; ring
    · simp only [Qty.denote, e2, f2, ← ho, h0]; push_cast; field_simp; ring
  · unfold qSub
    rw [if_neg (by simp [hd]), h1]
    simp only [Res.bind_ok, Res.pure_eq, e1, f1]
    refine ⟨_, rfl, hv, rfl, rfl, ?_, fun h0 => ?_⟩
    · simp only [Qty.denote, e2, f2, ho]; field_simp; ring
    · simp only [Qty.denote, e2, f2, ← ho, h0]; push_cast; field_simp; ring

/-- C35: `-a` has the type of `a`; it denotes minus the value above the offset, and `a + (-a)` denotes the
offset (zero for units without one). -/
theorem C35_neg (a : Qty K) (ha : a.ty.Valid) :
    (qNeg a).ty = a.ty ∧ (qNeg a).denote - (a.ty.off : K) = -(a.denote - (a.ty.off : K)) ∧
    ∃ r : Qty K, qAdd a (qNeg a) = .ok r ∧ r.ty.dim = a.ty.dim ∧ r.denote = (a.ty.off : K) := by
  have hden : (qNeg a).denote - (a.ty.off : K) = -(a.denote - (a.ty.off : K)) := by
    simp only [qNeg, Qty.denote]; ring
  obtain ⟨⟨r, h1, _, h3, h4, h5, _⟩, _⟩ := C35_add_sub a (qNeg a) ha ha rfl rfl
  refine ⟨rfl, hden, r, h1, h3, ?_⟩
  rw [h4, show (qNeg a).ty.off = a.ty.off from rfl, hden, add_neg_cancel] at h5
  exact sub_eq_zero.mp h5

/-- C35: `a - b` and `a + (-b)` denote the same value. -/
theorem C35_sub_eq_add_neg (a b : Qty K) (ha : a.ty.Valid) (hb : b.ty.Valid)
    (hd : a.ty.dim = b.ty.dim) (ho : a.ty.off = b.ty.off) :
    ∃ r r' : Qty K, qSub a b = .ok r ∧ qAdd a (qNeg b) = .ok r' ∧ r.ty.dim = r'.ty.dim ∧
      r.denote = r'.denote := by
  obtain ⟨_, ⟨r, h1, _, h3, h4, h5, _⟩⟩ := C35_add_sub a b ha hb hd ho
  obtain ⟨⟨r', g1, _, g3, g4, g5, _⟩, _⟩ := C35_add_sub a (qNeg b) ha hb hd ho
  refine ⟨r, r', h1, g1, by rw [h3, g3], ?_⟩
  have hn := (C35_neg b hb).2.1
  rw [g4, show (qNeg b).ty.off = b.ty.off from rfl, hn] at g5
  rw [h4] at h5
  linear_combination h5 - g5

/-- C35: addition is commutative: same type and same value. -/
theorem C35_comm (a b : Qty K) : qAdd a b = qAdd b a := by
  unfold qAdd commonQuantity
  by_cases hd : a.ty.dim = b.ty.dim
  · rw [if_neg (not_not.mpr hd), if_neg (not_not.mpr hd.symm)]
    by_cases ho : a.ty.off = b.ty.off
    · rw [if_neg (not_not.mpr ho), if_neg (not_not.mpr ho.symm), rrCommon_comm b.ty.scal, hd, ho]
      cases h : rrCommon a.ty.scal b.ty.scal with
      | ub => rfl
      | ok s =>
        simp only [Res.bind_ok, Res.pure_eq]
        cases h1 : quantityCast ⟨b.ty.dim, s, b.ty.off⟩ a with
        | ub => cases quantityCast ⟨b.ty.dim, s, b.ty.off⟩ b <;> rfl
        | ok x =>
          cases h2 : quantityCast ⟨b.ty.dim, s, b.ty.off⟩ b with
          | ub => rfl
          | ok y => simp only [Res.bind_ok, add_comm]
    · rw [if_pos ho, if_pos (fun h => ho h.symm)]
      rfl
  · rw [if_pos hd, if_pos (fun h => hd h.symm)]

/-- C35: addition is associative on the denoted values (any three scales). -/
theorem C35_assoc (a b c : Qty K) (ha : a.ty.Valid) (hb : b.ty.Valid) (hc : c.ty.Valid)
    (hd : a.ty.dim = b.ty.dim) (hd' : b.ty.dim = c.ty.dim)
    (ho : a.ty.off = b.ty.off) (ho' : b.ty.off = c.ty.off) :
    ∃ ab bc r r' : Qty K, qAdd a b = .ok ab ∧ qAdd ab c = .ok r ∧ qAdd b c = .ok bc ∧
      qAdd a bc = .ok r' ∧ r.denote = r'.denote ∧ r.ty.dim = r'.ty.dim := by
  obtain ⟨⟨ab, h1, h2, h3, h4, h5, _⟩, _⟩ := C35_add_sub a b ha hb hd ho
  obtain ⟨⟨bc, g1, g2, g3, g4, g5, _⟩, _⟩ := C35_add_sub b c hb hc hd' ho'
  obtain ⟨⟨r, k1, k2, k3, k4, k5, _⟩, _⟩ :=
    C35_add_sub ab c h2 hc (by rw [h3, hd, hd']) (by rw [h4, ho, ho'])
  obtain ⟨⟨r', l1, l2, l3, l4, l5, _⟩, _⟩ :=
    C35_add_sub a bc ha g2 (by rw [hd, g3]) (by rw [ho, g4])
  refine ⟨ab, bc, r, r', h1, k1, g1, l1, ?_, by rw [k3, l3, h3]⟩
  rw [h5] at k5
  rw [g5] at l5
  have : (r.ty.off : K) = (r'.ty.off : K) := by rw [k4, l4, h4]
  rw [this] at k5
  linear_combination k5 - l5

/-- C35: subtraction undoes addition on the denoted values. -/
theorem C35_add_sub_cancel (a b : Qty K) (ha : a.ty.Valid) (hb : b.ty.Valid)
    (hd : a.ty.dim = b.ty.dim) (ho : a.ty.off = b.ty.off) :
    ∃ s r : Qty K, qAdd a b = .ok s ∧ qSub s b = .ok r ∧ r.denote = a.denote := by
  obtain ⟨⟨s, h1, h2, h3, h4, h5, _⟩, _⟩ := C35_add_sub a b ha hb hd ho
  obtain ⟨_, ⟨r, g1, _, _, g4, g5, _⟩⟩ := C35_add_sub s b h2 hb (by rw [h3, hd]) (by rw [h4, ho])
  refine ⟨s, r, h1, g1, ?_⟩
  rw [h5] at g5
  have : (r.ty.off : K) = (a.ty.off : K) := by rw [g4, h4]
  rw [this] at g5
  linear_combination g5

/-- With an offset the *denoted* values do not add (two temperatures in °C): `10 °C - 4 °C` is `6 °C`,
which denotes `279.15 K`, not `6 K`. -/
theorem C35_offset_not_additive (d : RootRatio) (hd : d.Valid) :
    ∃ r : Qty ℝ, qSub (⟨celsiusTy d, 10⟩ : Qty ℝ) ⟨celsiusTy d, 4⟩ = .ok r ∧
      r.denote = 27915 / 100 ∧
      r.denote ≠ (⟨celsiusTy d, 10⟩ : Qty ℝ).denote - (⟨celsiusTy d, 4⟩ : Qty ℝ).denote := by
  obtain ⟨_, ⟨r, h1, _, _, h4, h5, _⟩⟩ := C35_add_sub (⟨celsiusTy d, 10⟩ : Qty ℝ) ⟨celsiusTy d, 4⟩
    ⟨hd, valid_one⟩ ⟨hd, valid_one⟩ rfl rfl
  rw [h4] at h5
  simp only [Qty.denote, celsiusTy, val_one] at h5 ⊢
  refine ⟨r, h1, ?_, ?_⟩
  · push_cast at h5
    simp only [RCLike.ofReal_real_eq_id, id_eq] at h5 ⊢
    linarith
  · push_cast at h5 ⊢
    simp only [RCLike.ofReal_real_eq_id, id_eq] at h5 ⊢
    intro h
    linarith

/-- C35 (integral representation): for plain scales the operands are always implicitly convertible to
the common unit and the integer sum is exact. -/
theorem C35_int (a b : Qty ℤ) (ha : a.ty.Valid) (hb : b.ty.Valid) (hd : a.ty.dim = b.ty.dim)
    (ho : a.ty.off = b.ty.off) (hr : a.ty.scal.root = 1) (hr' : b.ty.scal.root = 1) :
    ∃ r : Qty ℤ, qAddInt a b = .ok r ∧ r.ty.dim = a.ty.dim ∧
      r.denoteZ - a.ty.off = (a.denoteZ - a.ty.off) + (b.denoteZ - b.ty.off) := by
  obtain ⟨s, h1, h2, ⟨m, hm, hm'⟩, ⟨m', hn, hn'⟩⟩ := C34_common a.ty.scal b.ty.scal ha.2 hb.2
  rw [hr, hr'] at hm' hn'
  simp only [mul_one, pow_one] at hm' hn'
  have hsp := RootRatio.val_pos s h2
  -- the common scale is a plain ratio
  have hsr : s.root = 1 := by
    have hq := h1
    unfold rrCommon at hq
    simp only [C69_power_nonneg_partial, hr, hr', pow_one, mul_one] at hq
    have hQ : 0 < Nat.gcd a.ty.scal.num b.ty.scal.num := Nat.gcd_pos_of_pos_left _ ha.2.1
    have hP : 0 < a.ty.scal.den / Nat.gcd a.ty.scal.den b.ty.scal.den * b.ty.scal.den :=
      Nat.mul_pos (Nat.div_pos (Nat.le_of_dvd ha.2.2.1 (Nat.gcd_dvd_left _ _))
        (Nat.gcd_pos_of_pos_left _ ha.2.2.1)) hb.2.2.1
    set Q := Nat.gcd a.ty.scal.num b.ty.scal.num with hQd
    set P := a.ty.scal.den / Nat.gcd a.ty.scal.den b.ty.scal.den * b.ty.scal.den with hPd
    have hmk := rrMk_valid Q P 1 hQ hP Nat.one_pos
    obtain ⟨r', e1, _, e3⟩ := C34_root (rrMk Q P 1) 1 hmk Nat.one_pos
    rw [hq] at e1
    injection e1 with e1
    have hv : s.val = ((rrMk Q P 1).num : ℝ) / (rrMk Q P 1).den := by
      rw [e1, e3, RootRatio.val]
      have : (rrMk Q P 1).root = 1 := rfl
      rw [this]; simp
    have := C34_root_rational (rrMk Q P 1) s 1 _ _ hmk Nat.one_pos hmk.1 hmk.2.1 hmk.2.2.2 hq hv
    rw [this]
  have harm : ∀ (x : RootRatio) (k : ℕ), x.Valid → x.root = 1 → x.val / s.val = k →
      isHarmonic x s = true := by
    intro x k hx hxr hk
    unfold isHarmonic
    have e1 : x.val = (x.num : ℝ) / x.den := by unfold RootRatio.val; rw [hxr]; simp
    have e2 : s.val = (s.num : ℝ) / s.den := by unfold RootRatio.val; rw [hsr]; simp
    have a1 : (x.den : ℝ) ≠ 0 := by exact_mod_cast hx.2.1.ne'
    have a2 : (s.den : ℝ) ≠ 0 := by exact_mod_cast h2.2.1.ne'
    have a3 : (s.num : ℝ) ≠ 0 := by exact_mod_cast h2.1.ne'
    rw [e1, e2] at hk
    field_simp at hk
    have hk' : x.num * s.den = (x.den * s.num) * k := by
      have : (x.num : ℝ) * s.den = (x.den * s.num) * k := by linear_combination hk
      exact_mod_cast this
    have hg : Nat.gcd (x.num * s.den) (x.den * s.num) = x.den * s.num := by
      rw [hk']; exact Nat.gcd_mul_right_left k (x.den * s.num)
    show (rrMk (x.num * s.den) (x.den * s.num) 1).den == 1
    unfold rrMk
    simp only [hg]
    rw [Nat.div_self (Nat.mul_pos hx.2.1 h2.1)]
    rfl
  have hv : (⟨a.ty.dim, s, a.ty.off⟩ : QTy).Valid := ⟨ha.1, h2⟩
  obtain ⟨x, e1, e2, e3⟩ := C38_implicit_int ⟨a.ty.dim, s, a.ty.off⟩ a ha hv rfl rfl hr hsr
    (harm _ m ha.2 hr hm')
  obtain ⟨y, f1, f2, f3⟩ := C38_implicit_int ⟨a.ty.dim, s, a.ty.off⟩ b hb hv hd.symm ho.symm hr' hsr
    (harm _ m' hb.2 hr' hn')
  unfold qAddInt commonQuantity
  rw [if_neg (by simp [hd]), if_neg (by simp [ho]), h1]
  simp only [Res.bind_ok, Res.pure_eq, e1, f1]
  refine ⟨_, rfl, rfl, ?_⟩
  rw [← e3, ← f3]
  unfold Qty.denoteZ
  rw [e2, f2, ho]
  push_cast
  ring

/-! ## C36 — multiplication and division -/

/-- C36: `a * b` denotes the product of the denoted values and its dimension is the product of the
dimensions (units without offset). -/
theorem C36_mul_partial (a b : Qty K) (ha : a.ty.Valid) (hb : b.ty.Valid) (h0 : a.ty.off = 0)
    (h0' : b.ty.off = 0) :
    ∃ r : Qty K, qMul a b = .ok r ∧ r.ty.Valid ∧ r.denote = a.denote * b.denote ∧
      r.ty.dim.val = a.ty.dim.val * b.ty.dim.val ∧ r.ty.off = 0 := by
  obtain ⟨d, h1, h2, h3⟩ := C34_multiply a.ty.dim b.ty.dim ha.1 hb.1
  obtain ⟨s, g1, g2, g3⟩ := C34_multiply a.ty.scal b.ty.scal ha.2 hb.2
  unfold qMul
  rw [if_neg (by simp [h0']), h1, g1]
  simp only [Res.bind_ok, Res.pure_eq]
  refine ⟨_, rfl, ⟨h2, g2⟩, ?_, h3, rfl⟩
  simp only [Qty.denote, g3, h0, h0']
  push_cast
  ring

/-- C36: `a / b` denotes the quotient of the denoted values and its dimension is the quotient of the
dimensions (units without offset). -/
theorem C36_div_partial (a b : Qty K) (ha : a.ty.Valid) (hb : b.ty.Valid) (h0 : a.ty.off = 0)
    (h0' : b.ty.off = 0) :
    ∃ r : Qty K, qDiv a b = .ok r ∧ r.ty.Valid ∧ r.denote = a.denote / b.denote ∧
      r.ty.dim.val = a.ty.dim.val / b.ty.dim.val ∧ r.ty.off = 0 := by
  obtain ⟨d, h1, h2, h3⟩ := C34_divide a.ty.dim b.ty.dim ha.1 hb.1
  obtain ⟨s, g1, g2, g3⟩ := C34_divide a.ty.scal b.ty.scal ha.2 hb.2
  unfold qDiv
  rw [if_neg (by simp [h0']), h1, g1]
  simp only [Res.bind_ok, Res.pure_eq]
  refine ⟨_, rfl, ⟨h2, g2⟩, ?_, h3, rfl⟩
  simp only [Qty.denote, g3, h0, h0']
  push_cast
  rw [add_zero, add_zero, add_zero, mul_div_mul_comm]

/-- C36: `q.inv()` and `factor / q` denote `1/q` and `factor/q`. -/
theorem C36_inv (a : Qty K) (ha : a.ty.Valid) (h0 : a.ty.off = 0) (k : K) :
    (∃ r : Qty K, qInv a = .ok r ∧ r.ty.Valid ∧ r.denote = 1 / a.denote ∧
      r.ty.dim.val = 1 / a.ty.dim.val) ∧
    (∃ r : Qty K, qScalarDiv k a = .ok r ∧ r.ty.Valid ∧ r.denote = k / a.denote ∧
      r.ty.dim.val = 1 / a.ty.dim.val) := by
  obtain ⟨d, h1, h2, h3⟩ := C34_divide ⟨1, 1, 1⟩ a.ty.dim valid_one ha.1
  obtain ⟨s, g1, g2, g3⟩ := C34_divide ⟨1, 1, 1⟩ a.ty.scal valid_one ha.2
  rw [val_one] at h3 g3
  have hi : qInv a = .ok ⟨⟨d, s, 0⟩, 1 / a.val⟩ := by
    unfold qInv; rw [h1, g1]; rfl
  constructor
  · refine ⟨_, hi, ⟨h2, g2⟩, ?_, h3⟩
    simp only [Qty.denote, g3, h0]
    push_cast
    rw [add_zero, add_zero, div_mul_div_comm, one_mul]
  · unfold qScalarDiv
    rw [hi]
    refine ⟨_, rfl, ⟨h2, g2⟩, ?_, h3⟩
    simp only [Qty.denote, qScale, g3, h0]
    push_cast
    rw [add_zero, add_zero, div_mul_eq_mul_div, one_mul, mul_one_div, div_div, mul_comm a.val]

theorem plain_val (r : RootRatio) (h : r.root = 1) : r.val = (r.num : ℝ) / r.den := by
  unfold RootRatio.val; rw [h]; simp

/-- A product that denotes the same number as a plain ratio *is* that ratio. -/
theorem mul_canonical (a b c r : RootRatio) (ha : a.Valid) (hb : b.Valid) (hc : c.Valid)
    (h1 : c.root = 1) (hr : rrMul a b = .ok r) (hv : r.val = c.val) : r = c := by
  rw [plain_val c h1] at hv
  have := C34_multiply_rational a b r c.num c.den ha hb hc.1 hc.2.1 hc.2.2.2 hr hv
  rw [this, ← h1]

theorem div_canonical (a b c r : RootRatio) (ha : a.Valid) (hb : b.Valid) (hc : c.Valid)
    (h1 : c.root = 1) (hr : rrDiv a b = .ok r) (hv : r.val = c.val) : r = c :=
  mul_canonical a _ c r ha (inv_valid b hb).1 hc h1 hr hv

/-- C36: `(a * b) / b` is exactly `a`: the same type (dimension, scale) and the same value, for every
`a` with a plain dimension and scale and every `b` (whatever its roots) with non-zero value. -/
theorem C36_mul_div_cancel (a b : Qty K) (ha : a.ty.Valid) (hb : b.ty.Valid) (h0 : a.ty.off = 0)
    (h0' : b.ty.off = 0) (hr : a.ty.dim.root = 1) (hr' : a.ty.scal.root = 1) (hv : b.val ≠ 0) :
    ∃ p : Qty K, qMul a b = .ok p ∧ qDiv p b = .ok a := by
  obtain ⟨d, h1, h2, h3⟩ := C34_multiply a.ty.dim b.ty.dim ha.1 hb.1
  obtain ⟨s, g1, g2, g3⟩ := C34_multiply a.ty.scal b.ty.scal ha.2 hb.2
  obtain ⟨d', k1, k2, k3⟩ := C34_divide d b.ty.dim h2 hb.1
  obtain ⟨s', l1, l2, l3⟩ := C34_divide s b.ty.scal g2 hb.2
  have hdv := (RootRatio.val_pos b.ty.dim hb.1).ne'
  have hsv := (RootRatio.val_pos b.ty.scal hb.2).ne'
  have e1 : d' = a.ty.dim := div_canonical d b.ty.dim a.ty.dim d' h2 hb.1 ha.1 hr k1
    (by rw [k3, h3, mul_div_assoc, div_self hdv, mul_one])
  have e2 : s' = a.ty.scal := div_canonical s b.ty.scal a.ty.scal s' g2 hb.2 ha.2 hr' l1
    (by rw [l3, g3, mul_div_assoc, div_self hsv, mul_one])
  have hp : qMul a b = .ok ⟨⟨d, s, 0⟩, a.val * b.val⟩ := by
    unfold qMul; rw [if_neg (by simp [h0']), h1, g1]; rfl
  refine ⟨_, hp, ?_⟩
  unfold qDiv
  rw [if_neg (by simp [h0'])]
  simp only [k1, l1, e1, e2, Res.bind_ok, Res.pure_eq]
  rw [mul_div_assoc, div_self hv, mul_one, ← h0]

/-- C36: multiplication is commutative. -/
theorem C36_mul_comm (a b : Qty K) (h0 : a.ty.off = 0) (h0' : b.ty.off = 0) : qMul a b = qMul b a := by
  have hc : ∀ x y : RootRatio, rrMul x y = rrMul y x := by
    intro x y
    unfold rrMul
    by_cases h : x.root = 1 ∧ y.root = 1
    · rw [if_pos h, if_pos h.symm, Nat.mul_comm x.num, Nat.mul_comm x.den]
    · rw [if_neg h, if_neg (fun h' => h h'.symm)]
      simp only [C69_power_nonneg_partial]
      rw [Nat.gcd_comm x.root, mul_comm (x.num ^ _), mul_comm (x.den ^ _),
        mul_right_comm (Nat.gcd y.root x.root)]
  unfold qMul
  rw [if_neg (by simp [h0']), if_neg (by simp [h0]), hc b.ty.dim, hc b.ty.scal, mul_comm b.val]

/-- C36: `pow<n>(root<n>(q))` (in particular `pow<2>(sqrt(q))`, `pow<3>(cbrt(q))`) restores `q`: the
same type and value, for a plain dimension and scale and a non-negative value. -/
theorem C36_root_pow (a : Qty ℝ) (ha : a.ty.Valid) (h0 : a.ty.off = 0) (hr : a.ty.dim.root = 1)
    (hr' : a.ty.scal.root = 1) (hv : 0 ≤ a.val) (n : ℕ) (hn : 0 < n) :
    ∃ r : Qty ℝ, qRoot n a = .ok r ∧ qPow n r = .ok a := by
  obtain ⟨d, h1, h2⟩ := C34_root_power a.ty.dim ha.1 hr n hn
  obtain ⟨s, g1, g2⟩ := C34_root_power a.ty.scal ha.2 hr' n hn
  have hq : qRoot n a = .ok ⟨⟨d, s, 0⟩, a.val ^ ((1 : ℝ) / n)⟩ := by
    unfold qRoot; rw [h1, g1]; rfl
  refine ⟨_, hq, ?_⟩
  unfold qPow
  rw [h2, g2]
  simp only [Res.bind_ok, Res.pure_eq, C69_power_nonneg_partial]
  rw [one_div, Real.rpow_inv_natCast_pow hv (by omega), ← h0]

/-- C36: `root<n>(q)` denotes the `n`-th root of the denoted (non-negative) value. -/
theorem C36_root (a : Qty ℝ) (ha : a.ty.Valid) (h0 : a.ty.off = 0) (hv : 0 ≤ a.val) (n : ℕ)
    (hn : 0 < n) :
    ∃ r : Qty ℝ, qRoot n a = .ok r ∧ r.ty.Valid ∧ r.denote = a.denote ^ ((1 : ℝ) / n) ∧
      r.ty.dim.val = a.ty.dim.val ^ ((1 : ℝ) / n) := by
  obtain ⟨d, h1, h2, h3⟩ := C34_root a.ty.dim n ha.1 hn
  obtain ⟨s, g1, g2, g3⟩ := C34_root a.ty.scal n ha.2 hn
  have hq : qRoot n a = .ok ⟨⟨d, s, 0⟩, a.val ^ ((1 : ℝ) / n)⟩ := by
    unfold qRoot; rw [h1, g1]; rfl
  refine ⟨_, hq, ⟨h2, g2⟩, ?_, h3⟩
  simp only [Qty.denote, g3, h0]
  simp only [RCLike.ofReal_real_eq_id, id_eq, Rat.cast_zero, add_zero]
  rw [Real.mul_rpow (RootRatio.val_pos _ ha.2).le hv]

/-- C36: `pow<n>(q)` denotes the `n`-th power. -/
theorem C36_pow (a : Qty K) (ha : a.ty.Valid) (h0 : a.ty.off = 0) (n : ℕ) :
    ∃ r : Qty K, qPow n a = .ok r ∧ r.ty.Valid ∧ r.denote = a.denote ^ n ∧
      r.ty.dim.val = a.ty.dim.val ^ n := by
  obtain ⟨d, h1, h2, h3⟩ := C34_power a.ty.dim ha.1 n
  obtain ⟨s, g1, g2, g3⟩ := C34_power a.ty.scal ha.2 n
  have hq : qPow n a = .ok ⟨⟨d, s, 0⟩, powSq a.val n⟩ := by
    unfold qPow; rw [h1, g1]; rfl
  refine ⟨_, hq, ⟨h2, g2⟩, ?_, h3⟩
  simp only [Qty.denote, g3, h0, C69_power_nonneg_partial]
  push_cast
  rw [add_zero, add_zero, mul_pow]

/-- C36: `norm(z)` of a (complex) quantity denotes the squared modulus. -/
theorem C36_norm (a : Qty K) (ha : a.ty.Valid) (h0 : a.ty.off = 0) :
    ∃ r : Qty ℝ, qNorm a = .ok r ∧ r.denote = RCLike.normSq a.denote := by
  obtain ⟨d, h1, h2, h3⟩ := C34_multiply a.ty.dim a.ty.dim ha.1 ha.1
  obtain ⟨s, g1, g2, g3⟩ := C34_multiply a.ty.scal a.ty.scal ha.2 ha.2
  have hp : qMul a a = .ok ⟨⟨d, s, 0⟩, a.val * a.val⟩ := by
    unfold qMul; rw [if_neg (by simp [h0]), h1, g1]; rfl
  unfold qNorm
  rw [hp]
  refine ⟨_, rfl, ?_⟩
  simp only [Qty.denote, g3, h0, Rat.cast_zero, add_zero, map_mul, RCLike.normSq_apply,
    RCLike.ofReal_real_eq_id, id_eq, RCLike.ofReal_re, RCLike.ofReal_im]
  ring

/-- C36 is false of the code when the left operand has an offset: it is silently dropped, so
`5 °C * 1 m²` denotes `5`, not `278.15`.  (The operands in the other order do not compile.) -/
theorem C36_offset_false (d e : RootRatio) (hd : d.Valid) (he : e.Valid) :
    ∃ r : Qty ℝ, qMul (⟨celsiusTy d, 5⟩ : Qty ℝ) ⟨⟨e, ⟨1, 1, 1⟩, 0⟩, 1⟩ = .ok r ∧ r.denote = 5 ∧
      (⟨celsiusTy d, 5⟩ : Qty ℝ).denote * (⟨⟨e, ⟨1, 1, 1⟩, 0⟩, 1⟩ : Qty ℝ).denote = 27815 / 100 ∧
      qMul (⟨⟨e, ⟨1, 1, 1⟩, 0⟩, 1⟩ : Qty ℝ) ⟨celsiusTy d, 5⟩ = .ub := by
  obtain ⟨d', h1, h2, h3⟩ := C34_multiply d e hd he
  obtain ⟨s, g1, g2, g3⟩ := C34_multiply ⟨1, 1, 1⟩ ⟨1, 1, 1⟩ valid_one valid_one
  rw [val_one, mul_one] at g3
  refine ⟨⟨⟨d', s, 0⟩, 5 * 1⟩, ?_, ?_, ?_, ?_⟩
  · unfold qMul celsiusTy
    rw [if_neg (by simp), h1, g1]; rfl
  · simp only [Qty.denote, g3]; simp
  · simp only [Qty.denote, celsiusTy, val_one]; norm_num
  · unfold qMul celsiusTy
    rw [if_pos (by norm_num)]

/-! ## C37 — comparisons -/

/-- C37: for plain scales (no root) and arbitrary offsets, every comparison operator compares the
denoted values.  `φ` embeds the representation type in the reals (identity for floating point, the
integer cast for integers). -/
theorem C37_compare_partial {T : Type} [Ring T] [LinearOrder T] (φ : T →+* ℝ) (hφ : StrictMono φ)
    (a b : Qty T) (ha : a.ty.Valid) (hb : b.ty.Valid) (hr : a.ty.scal.root = 1)
    (hr' : b.ty.scal.root = 1) :
    let da : ℝ := a.ty.scal.val * φ a.val + a.ty.off
    let db : ℝ := b.ty.scal.val * φ b.val + b.ty.off
    (qEq a b = true ↔ da = db) ∧ (qNe a b = true ↔ da ≠ db) ∧ (qLt a b = true ↔ da < db) ∧
      (qLe a b = true ↔ da ≤ db) ∧ (qGt a b = true ↔ da > db) ∧ (qGe a b = true ↔ da ≥ db) := by
  intro da db
  -- both sides are multiplied by the positive number den·den'·offden·offden'
  have key : ∀ x y : Qty T, x.ty.Valid → y.ty.Valid → x.ty.scal.root = 1 → 
      φ (((x.ty.scal.num * y.ty.scal.den * x.ty.off.den * y.ty.off.den : ℤ) : T) * x.val
        + ((x.ty.off.num * y.ty.scal.den * x.ty.scal.den * y.ty.off.den : ℤ) : T))
      = ((x.ty.scal.den : ℝ) * y.ty.scal.den * x.ty.off.den * y.ty.off.den)
        * (x.ty.scal.val * φ x.val + x.ty.off) := by
    intro x y hx hy hxr
    rw [map_add, map_mul, map_intCast, map_intCast, plain_val _ hxr]
    have e : (x.ty.off : ℝ) = (x.ty.off.num : ℝ) / x.ty.off.den := Rat.cast_def _
    have a1 : (x.ty.scal.den : ℝ) ≠ 0 := by exact_mod_cast hx.2.2.1.ne'
    have a2 : (x.ty.off.den : ℝ) ≠ 0 := by exact_mod_cast x.ty.off.den_nz
    rw [e]
    push_cast
    field_simp
  have pos : ∀ x y : Qty T, x.ty.Valid → y.ty.Valid →
      0 < ((x.ty.scal.den : ℝ) * y.ty.scal.den * x.ty.off.den * y.ty.off.den) := by
    intro x y hx hy
    have a1 : (0 : ℝ) < x.ty.scal.den := by exact_mod_cast hx.2.2.1
    have a2 : (0 : ℝ) < y.ty.scal.den := by exact_mod_cast hy.2.2.1
    have a3 : (0 : ℝ) < x.ty.off.den := by exact_mod_cast x.ty.off.den_pos
    have a4 : (0 : ℝ) < y.ty.off.den := by exact_mod_cast y.ty.off.den_pos
    positivity
  have lt : ∀ x y : Qty T, x.ty.Valid → y.ty.Valid → x.ty.scal.root = 1 → y.ty.scal.root = 1 →
      (qLt x y = true ↔ x.ty.scal.val * φ x.val + x.ty.off < y.ty.scal.val * φ y.val + y.ty.off) := by
    intro x y hx hy hxr hyr
    unfold qLt
    simp only [decide_eq_true_eq]
    rw [← hφ.lt_iff_lt, key x y hx hy hxr, key y x hy hx hyr]
    have e : ((y.ty.scal.den : ℝ) * x.ty.scal.den * y.ty.off.den * x.ty.off.den)
        = ((x.ty.scal.den : ℝ) * y.ty.scal.den * x.ty.off.den * y.ty.off.den) := by ring
    rw [e, mul_lt_mul_iff_right₀ (pos x y hx hy)]
  have eq : qEq a b = true ↔ da = db := by
    unfold qEq
    simp only [decide_eq_true_eq]
    rw [← hφ.injective.eq_iff, key a b ha hb hr, key b a hb ha hr']
    have e : ((b.ty.scal.den : ℝ) * a.ty.scal.den * b.ty.off.den * a.ty.off.den)
        = ((a.ty.scal.den : ℝ) * b.ty.scal.den * a.ty.off.den * b.ty.off.den) := by ring
    rw [e, mul_right_inj' (pos a b ha hb).ne']
  have l1 := lt a b ha hb hr hr'
  have l2 := lt b a hb ha hr' hr
  refine ⟨eq, ?_, l1, ?_, l2, ?_⟩
  · unfold qNe
    rw [Bool.not_eq_true', ← Bool.not_eq_true, eq]
  · unfold qLe
    rw [Bool.not_eq_true', ← Bool.not_eq_true, l2, not_lt]
  · unfold qGe
    rw [Bool.not_eq_true', ← Bool.not_eq_true, l1, ge_iff_le, not_lt]

/-- The two representation types of the library meet the hypotheses of `C37_compare_partial`. -/
example : StrictMono (RingHom.id ℝ) ∧ StrictMono (Int.castRingHom ℝ) :=
  ⟨strictMono_id, Int.cast_strictMono⟩

/-- C37 (and C38): `32 °F` equals `0 °C`; `31 °F < 0 °C`. -/
example (d : RootRatio) (hd : d.Valid) :
    qEq (⟨fahrenheitTy d, 32⟩ : Qty ℝ) ⟨celsiusTy d, 0⟩ = true ∧
    qLt (⟨fahrenheitTy d, 31⟩ : Qty ℝ) ⟨celsiusTy d, 0⟩ = true := by
  obtain ⟨h1, _⟩ := C37_compare_partial (RingHom.id ℝ) strictMono_id (⟨fahrenheitTy d, 32⟩ : Qty ℝ)
    ⟨celsiusTy d, 0⟩ ⟨hd, valid_59⟩ ⟨hd, valid_one⟩ rfl rfl
  obtain ⟨_, _, h2, _⟩ := C37_compare_partial (RingHom.id ℝ) strictMono_id
    (⟨fahrenheitTy d, 31⟩ : Qty ℝ) ⟨celsiusTy d, 0⟩ ⟨hd, valid_59⟩ ⟨hd, valid_one⟩ rfl rfl
  refine ⟨h1.mpr ?_, h2.mpr ?_⟩
  · simp only [fahrenheitTy, celsiusTy, val_one, val_59, RingHom.id_apply]; norm_num
  · simp only [fahrenheitTy, celsiusTy, val_one, val_59, RingHom.id_apply]; norm_num

/-- C37 is false of the code for scales with a root: the comparisons ignore the root, so one unit of
scale `√2` "equals" one unit of scale `2` (e.g. `sqrt` of a quantity of scale 2 against the square of
a quantity of scale `√2`), and is "less" than one of scale `9^(1/4)·… `: here `√3 < 2` is decided as
`3 < 2`. -/
theorem C37_root_false (d : RootRatio) :
    qEq (⟨⟨d, ⟨2, 1, 2⟩, 0⟩, 1⟩ : Qty ℝ) ⟨⟨d, ⟨2, 1, 1⟩, 0⟩, 1⟩ = true ∧
    (⟨⟨d, ⟨2, 1, 2⟩, 0⟩, 1⟩ : Qty ℝ).denote ≠ (⟨⟨d, ⟨2, 1, 1⟩, 0⟩, 1⟩ : Qty ℝ).denote ∧
    qLt (⟨⟨d, ⟨3, 1, 2⟩, 0⟩, 1⟩ : Qty ℝ) ⟨⟨d, ⟨2, 1, 1⟩, 0⟩, 1⟩ = false ∧
    (⟨⟨d, ⟨3, 1, 2⟩, 0⟩, 1⟩ : Qty ℝ).denote < (⟨⟨d, ⟨2, 1, 1⟩, 0⟩, 1⟩ : Qty ℝ).denote := by
  have s2 : (⟨2, 1, 2⟩ : RootRatio).val = Real.sqrt 2 := by
    simp [RootRatio.val, Real.sqrt_eq_rpow]
  have s3 : (⟨3, 1, 2⟩ : RootRatio).val = Real.sqrt 3 := by
    simp [RootRatio.val, Real.sqrt_eq_rpow]
  have t2 : (⟨2, 1, 1⟩ : RootRatio).val = 2 := by simp [RootRatio.val]
  refine ⟨?_, ?_, ?_, ?_⟩
  · unfold qEq; simp
  · simp only [Qty.denote, s2, t2]
    simp only [RCLike.ofReal_real_eq_id, id_eq, mul_one, Rat.cast_zero, add_zero]
    intro h
    have := Real.sq_sqrt (show (0 : ℝ) ≤ 2 by norm_num)
    rw [h] at this; norm_num at this
  · unfold qLt; norm_num
  · simp only [Qty.denote, s3, t2]
    simp only [RCLike.ofReal_real_eq_id, id_eq, mul_one, Rat.cast_zero, add_zero]
    rw [Real.sqrt_lt' (by norm_num)]; norm_num

/-- C37: `<` is a strict total order across plain units (with `==` as its equality). -/
theorem C37_strict_total_partial {T : Type} [Ring T] [LinearOrder T] (φ : T →+* ℝ) (hφ : StrictMono φ)
    (a b c : Qty T) (ha : a.ty.Valid) (hb : b.ty.Valid) (hc : c.ty.Valid) (hr : a.ty.scal.root = 1)
    (hr' : b.ty.scal.root = 1) (hr'' : c.ty.scal.root = 1) :
    qLt a a = false ∧ (qLt a b = true → qLt b c = true → qLt a c = true) ∧
      (qLt a b = true ∨ qEq a b = true ∨ qLt b a = true) := by
  obtain ⟨e1, _, l1, _⟩ := C37_compare_partial φ hφ a b ha hb hr hr'
  obtain ⟨_, _, l2, _⟩ := C37_compare_partial φ hφ b c hb hc hr' hr''
  obtain ⟨_, _, l3, _⟩ := C37_compare_partial φ hφ a c ha hc hr hr''
  obtain ⟨_, _, l4, _⟩ := C37_compare_partial φ hφ b a hb ha hr' hr
  obtain ⟨_, _, l5, _⟩ := C37_compare_partial φ hφ a a ha ha hr hr
  refine ⟨?_, ?_, ?_⟩
  · rw [← Bool.not_eq_true, l5]; exact lt_irrefl _
  · rw [l1, l2, l3]; exact lt_trans
  · rw [l1, e1, l4]; exact lt_trichotomy _ _

/-! ## C39 — scalar multiplication and division -/

/-- C39 (floating point factor): `q / k` denotes the value divided by `k`, `k * q` the product, and
`(q * k) / k = q` (units without offset; with an offset the value above it is scaled). -/
theorem C39_scalar (q : Qty K) (k : K) :
    (qScale k q).denote - q.ty.off = k * (q.denote - q.ty.off) ∧
    (qDivScalar q k).denote - q.ty.off = (q.denote - q.ty.off) / k ∧
    (q.ty.off = 0 → (qScale k q).denote = k * q.denote ∧ (qDivScalar q k).denote = q.denote / k) ∧
    (k ≠ 0 → qDivScalar (qScale k q) k = q) ∧ qDivAssign q k = qDivScalar q k := by
  refine ⟨?_, ?_, fun h0 => ⟨?_, ?_⟩, fun hk => ?_, ?_⟩
  · simp only [qScale, Qty.denote]; ring
  · simp only [qDivScalar, qScale, Qty.denote, one_div]; ring
  · simp only [qScale, Qty.denote, h0]; push_cast; ring
  · simp only [qDivScalar, qScale, Qty.denote, h0, one_div]; push_cast; ring
  · simp only [qDivScalar, qScale]
    rw [← mul_assoc, one_div, inv_mul_cancel₀ hk, one_mul]
  · simp only [qDivScalar, qScale, qDivAssign]
    rw [one_div, div_eq_inv_mul]

theorem one_tdiv (k : ℤ) (hk : 2 ≤ |k|) : (1 : ℤ).tdiv k = 0 := by
  rcases le_abs.mp hk with h | h
  · exact Int.tdiv_eq_zero_of_lt (by omega) (by omega)
  · obtain ⟨m, rfl⟩ : ∃ m, k = -m := ⟨-k, by omega⟩
    rw [Int.tdiv_neg, Int.tdiv_eq_zero_of_lt (by omega) (by omega), neg_zero]

/-- C39 is false of the code for an integral factor: `q / k` with `|k| ≥ 2` is `0` whatever `q` is
(`1/k` is an integer division), although `q /= k` computes the quotient. -/
theorem C39_int_factor_false (q : Qty K) (k : ℤ) (hk : 2 ≤ |k|) :
    qDivInt q k = .ok ⟨q.ty, 0⟩ ∧ (qDivAssign q (k : K)).val = q.val / k := by
  have h0 : k ≠ 0 := by rintro rfl; simp at hk
  refine ⟨?_, rfl⟩
  unfold qDivInt qScale
  rw [if_neg h0]
  have := one_tdiv k hk
  rw [this]; simp

/-- C39 (integral factor, partial): only the factors `±1` are handled correctly. Missing: all other
integral factors, where the property is false. -/
theorem C39_int_factor_partial (q : Qty K) (k : ℤ) (hk : k = 1 ∨ k = -1) :
    ∃ r : Qty K, qDivInt q k = .ok r ∧ r.ty = q.ty ∧ r.val = q.val / k := by
  rcases hk with rfl | rfl
  · exact ⟨⟨q.ty, q.val⟩, by simp [qDivInt, qScale], rfl, by simp⟩
  · refine ⟨⟨q.ty, -q.val⟩, ?_, rfl, ?_⟩
    · simp [qDivInt, qScale]
    · simp [div_neg]

/-- C39 is false of the code for integral quantities: `meter<int>(10) / 2` is `0 m`. -/
theorem C39_int_quantity_false (q : Qty ℤ) (k : ℤ) (hk : 2 ≤ |k|) :
    qDivIntInt q k = .ok ⟨q.ty, 0⟩ := by
  have h0 : k ≠ 0 := by rintro rfl; simp at hk
  unfold qDivIntInt
  have := one_tdiv k hk
  rw [if_neg h0, this, zero_mul]

example : qDivIntInt ⟨⟨⟨2, 1, 1⟩, ⟨1, 1, 1⟩, 0⟩, 10⟩ 2 = .ok ⟨⟨⟨2, 1, 1⟩, ⟨1, 1, 1⟩, 0⟩, 0⟩ :=
  C39_int_quantity_false _ 2 (by decide)

end SciCpp
