import Verif.Model.QFloat
import Verif.Proofs.IeeeIdem
import Verif.Props.Quantity
/-
  C100: comparing quantities in floating point arithmetic.
-/
namespace SciCpp

namespace Spec

/-- A unit without offset whose scale is a plain ratio `num/den` of positive integers. -/
structure PlainUnit (t : QTy) : Prop where
  num_pos : 0 < t.scal.num
  den_pos : 0 < t.scal.den
  root : t.scal.root = 1
  off : t.off = 0

/-- The amount, in base units, that the number `x` of the unit `t` denotes (`t` has a plain scale). -/
def amount (t : QTy) (x : ℚ) : ℚ := (t.scal.num : ℚ) / t.scal.den * x + t.off

/-- The formats of `float` and `double`: the integers of `frac + 1` bits and the quotients of two of them are
neither too large nor too small. -/
structure StdFmt (f : Fmt) : Prop where
  low : f.emin + f.frac + 1 ≤ 0
  high : (f.frac : ℤ) + 1 ≤ f.emax

/-- The four integers multiplied with the values when units `a` and `b` are compared are exactly
representable. -/
def SmallPair (f : Fmt) (a b : QTy) : Prop :=
  a.scal.num * b.scal.den < 2 ^ (f.frac + 1) ∧ b.scal.num * a.scal.den < 2 ^ (f.frac + 1)

end Spec

open Spec

theorem stdFmt_64 : StdFmt binary64 := ⟨by decide, by decide⟩
theorem stdFmt_32 : StdFmt binary32 := ⟨by decide, by decide⟩

variable {f : Fmt}

theorem ofInt_small (hf : StdFmt f) (n : ℕ) (h : n < 2 ^ (f.frac + 1)) :
    (CppNum.ofInt (n : ℤ) : IFl f) = IFl.fin n := by
  have h1 := f.rnd_nat n h (by have := hf.low; omega)
  show f.ofRat ((n : ℤ) : ℚ) = Fl.fin n
  rw [Int.cast_natCast, f.ofRat_fin, h1]
  rw [h1, Nat.abs_cast]
  have h2 : (n : ℚ) < (2 : ℚ) ^ ((f.frac : ℤ) + 1) := by exact_mod_cast h
  exact h2.trans_le (zpow_le_zpow_right₀ (by norm_num) hf.high)

theorem add_fin_zero (w : IFl f) : w + (IFl.fin 0 : IFl f) = f.round w := by
  show f.round (Fl.add w (.fin 0)) = f.round w
  rcases w with _ | s | q
  · rfl
  · rfl
  · show f.ofRat (q + 0) = f.ofRat q
    rw [add_zero]

theorem ofInt_zero : (CppNum.ofInt 0 : IFl f) = IFl.fin 0 := by
  show f.ofRat ((0 : ℤ) : ℚ) = Fl.fin 0
  rw [Int.cast_zero, f.ofRat_fin, f.rnd_zero]
  rw [f.rnd_zero, abs_zero]; positivity

/-- The compared number for a unit without offset. -/
theorem qSide_plain (hf : StdFmt f) (a b : QTy) (ha : a.off = 0) (hb : b.off = 0)
    (h : a.scal.num * b.scal.den < 2 ^ (f.frac + 1)) (x : IFl f) :
    qSide a b x = (IFl.fin ((a.scal.num * b.scal.den : ℕ) : ℚ) : IFl f) * x := by
  unfold qSide
  rw [ha, hb]
  have e : (a.scal.num * b.scal.den * (0 : ℚ).den * (0 : ℚ).den : ℕ) = a.scal.num * b.scal.den := by simp
  have e2 : ((0 : ℚ).num * ((b.scal.den * a.scal.den * (0 : ℚ).den : ℕ) : ℤ)) = 0 := by simp
  rw [e, e2, ofInt_small hf _ h, ofInt_zero, add_fin_zero]
  exact f.round_round _

theorem qSide_fin (hf : StdFmt f) (a b : QTy) (ha : a.off = 0) (hb : b.off = 0)
    (h : a.scal.num * b.scal.den < 2 ^ (f.frac + 1)) (x : ℚ) :
    qSide a b (IFl.fin x : IFl f) = f.ofRat (((a.scal.num * b.scal.den : ℕ) : ℚ) * x) := by
  rw [qSide_plain hf a b ha hb h]; rfl

theorem amount_iff {a b : QTy} (ha : PlainUnit a) (hb : PlainUnit b) (x y : ℚ) :
    (amount a x ≤ amount b y ↔
      ((a.scal.num * b.scal.den : ℕ) : ℚ) * x ≤ ((b.scal.num * a.scal.den : ℕ) : ℚ) * y) := by
  unfold amount
  rw [ha.off, hb.off, add_zero, add_zero]
  have h1 : (0 : ℚ) < a.scal.den := by exact_mod_cast ha.den_pos
  have h2 : (0 : ℚ) < b.scal.den := by exact_mod_cast hb.den_pos
  rw [div_mul_eq_mul_div, div_mul_eq_mul_div, div_le_div_iff₀ h1 h2]
  push_cast
  constructor <;> intro h <;> linarith

theorem Fl.trichotomy (p q : Fl) (hp : p ≠ .nan) (hq : q ≠ .nan) :
    (Fl.lt p q = true ∧ Fl.eqv p q = false ∧ Fl.lt q p = false) ∨
    (Fl.lt p q = false ∧ Fl.eqv p q = true ∧ Fl.lt q p = false) ∨
    (Fl.lt p q = false ∧ Fl.eqv p q = false ∧ Fl.lt q p = true) := by
  rcases p with _ | s | p
  · exact absurd rfl hp
  · rcases q with _ | t | q
    · exact absurd rfl hq
    · cases s <;> cases t <;> simp [Fl.lt, Fl.eqv]
    · cases s <;> simp [Fl.lt, Fl.eqv]
  · rcases q with _ | t | q
    · exact absurd rfl hq
    · cases t <;> simp [Fl.lt, Fl.eqv]
    · simp only [Fl.lt, Fl.eqv, decide_eq_true_eq, decide_eq_false_iff_not]
      rcases lt_trichotomy p q with h | h | h
      · exact Or.inl ⟨h, h.ne, h.le.not_gt⟩
      · exact Or.inr (Or.inl ⟨h.ge.not_gt, h, h.le.not_gt⟩)
      · exact Or.inr (Or.inr ⟨h.le.not_gt, h.ne', h⟩)

theorem ofRat_ne_nan (q : ℚ) : f.ofRat q ≠ .nan := by
  unfold Fmt.ofRat; split_ifs <;> simp

/-- C100: for two units without offset whose products of numerator and denominator are exactly
representable, and all finite values, with the overflow and underflow of the format: what is reported as
smaller is smaller, what is not larger is reported as not larger, equal amounts compare equal, and exactly
one of `<`, `==`, `>` holds. -/
theorem C100_compare (hf : StdFmt f) (a b : QTy) (ha : PlainUnit a) (hb : PlainUnit b)
    (hs : SmallPair f a b) (x y : ℚ) :
    let p : Qty (IFl f) := ⟨a, IFl.fin x⟩
    let q : Qty (IFl f) := ⟨b, IFl.fin y⟩
    (qfLt IFl.lt p q = true → amount a x < amount b y) ∧
    (qfGt IFl.lt p q = true → amount b y < amount a x) ∧
    (amount a x ≤ amount b y → qfLe IFl.lt p q = true) ∧
    (amount b y ≤ amount a x → qfGe IFl.lt p q = true) ∧
    (amount a x = amount b y → qfEq IFl.eqv p q = true) ∧
    (qfNe IFl.eqv p q = true → amount a x ≠ amount b y) ∧
    ((qfLt IFl.lt p q = true ∧ qfEq IFl.eqv p q = false ∧ qfGt IFl.lt p q = false) ∨
      (qfLt IFl.lt p q = false ∧ qfEq IFl.eqv p q = true ∧ qfGt IFl.lt p q = false) ∨
      (qfLt IFl.lt p q = false ∧ qfEq IFl.eqv p q = false ∧ qfGt IFl.lt p q = true)) := by
  intro p q
  have e1 := qSide_fin hf a b ha.off hb.off hs.1 x
  have e2 := qSide_fin hf b a hb.off ha.off hs.2 y
  have lt1 : qfLt IFl.lt p q = Fl.lt (f.ofRat (((a.scal.num * b.scal.den : ℕ) : ℚ) * x))
      (f.ofRat (((b.scal.num * a.scal.den : ℕ) : ℚ) * y)) := by
    rw [← e1, ← e2]; rfl
  have lt2 : qfLt IFl.lt q p = Fl.lt (f.ofRat (((b.scal.num * a.scal.den : ℕ) : ℚ) * y))
      (f.ofRat (((a.scal.num * b.scal.den : ℕ) : ℚ) * x)) := by
    rw [← e1, ← e2]; rfl
  have eq1 : qfEq IFl.eqv p q = Fl.eqv (f.ofRat (((a.scal.num * b.scal.den : ℕ) : ℚ) * x))
      (f.ofRat (((b.scal.num * a.scal.den : ℕ) : ℚ) * y)) := by
    rw [← e1, ← e2]; rfl
  have i1 := amount_iff ha hb x y
  have i2 := amount_iff hb ha y x
  have tri := Fl.trichotomy _ _ (ofRat_ne_nan (f := f) (((a.scal.num * b.scal.den : ℕ) : ℚ) * x))
    (ofRat_ne_nan (f := f) (((b.scal.num * a.scal.den : ℕ) : ℚ) * y))
  have le_of : amount a x ≤ amount b y → qfLt IFl.lt q p = false := fun h => by
    rw [lt2]; exact f.ofRat_mono (i1.mp h)
  have ge_of : amount b y ≤ amount a x → qfLt IFl.lt p q = false := fun h => by
    rw [lt1]; exact f.ofRat_mono (i2.mp h)
  have eq_of : amount a x = amount b y → qfEq IFl.eqv p q = true := fun h => by
    have h1 := le_of h.le
    have h2 := ge_of h.ge
    rw [lt2] at h1
    rw [lt1] at h2
    rw [eq1]
    rcases tri with ⟨t, -⟩ | ⟨-, t, -⟩ | ⟨-, -, t⟩
    · rw [t] at h2; cases h2
    · exact t
    · rw [t] at h1; cases h1
  refine ⟨fun h => ?_, fun h => ?_, fun h => ?_, fun h => ?_, eq_of, fun h he => ?_, ?_⟩
  · by_contra hc
    rw [ge_of (not_lt.mp hc)] at h; cases h
  · by_contra hc
    have := le_of (not_lt.mp hc)
    unfold qfGt at h
    rw [this] at h; cases h
  · unfold qfLe; rw [le_of h]; rfl
  · unfold qfGe; rw [ge_of h]; rfl
  · unfold qfNe at h; rw [eq_of he] at h; cases h
  · unfold qfGt
    rw [lt1, lt2, eq1]
    exact tri

/-- The two compared integers multiples in terms of the amounts. -/
theorem amount_mul {a : QTy} (b : QTy) (ha : PlainUnit a) (x : ℚ) :
    ((a.scal.num * b.scal.den : ℕ) : ℚ) * x = amount a x * (a.scal.den * b.scal.den) := by
  unfold amount
  rw [ha.off, add_zero]
  have h1 : (a.scal.den : ℚ) ≠ 0 := by exact_mod_cast ha.den_pos.ne'
  push_cast
  field_simp

/-- C100: amounts that differ by more than the rounding of two products are compared correctly: `u` is the
unit roundoff, `eta` half the smallest positive number, and nothing overflows. -/
theorem C100_decides (hf : StdFmt f) (a b : QTy) (ha : PlainUnit a) (hb : PlainUnit b)
    (hs : SmallPair f a b) (x y : ℚ)
    (ho : |amount a x| * (a.scal.den * b.scal.den) * (1 + f.u) + f.eta < (2 : ℚ) ^ f.emax)
    (ho' : |amount b y| * (a.scal.den * b.scal.den) * (1 + f.u) + f.eta < (2 : ℚ) ^ f.emax)
    (h : amount a x + (f.u * (|amount a x| + |amount b y|) + 2 * f.eta / (a.scal.den * b.scal.den)) <
      amount b y) :
    let p : Qty (IFl f) := ⟨a, IFl.fin x⟩
    let q : Qty (IFl f) := ⟨b, IFl.fin y⟩
    qfLt IFl.lt p q = true ∧ qfGt IFl.lt q p = true ∧ qfEq IFl.eqv p q = false ∧ qfLt IFl.lt q p = false ∧
      qfLe IFl.lt q p = false ∧ qfLe IFl.lt p q = true := by
  intro p q
  have e1 := qSide_fin hf a b ha.off hb.off hs.1 x
  have e2 := qSide_fin hf b a hb.off ha.off hs.2 y
  rw [amount_mul b ha] at e1
  rw [amount_mul a hb] at e2
  set D : ℚ := (a.scal.den : ℚ) * b.scal.den with hD
  have hD' : (b.scal.den : ℚ) * a.scal.den = D := mul_comm _ _
  rw [hD'] at e2
  have hDp : 0 < D := by
    have h1 : (0 : ℚ) < a.scal.den := by exact_mod_cast ha.den_pos
    have h2 : (0 : ℚ) < b.scal.den := by exact_mod_cast hb.den_pos
    positivity
  have r1 := f.rnd_err (amount a x * D)
  have r2 := f.rnd_err (amount b y * D)
  rw [abs_mul (amount a x), abs_of_pos hDp] at r1
  rw [abs_mul (amount b y), abs_of_pos hDp] at r2
  have fin1 : |f.rnd (amount a x * D)| < (2 : ℚ) ^ f.emax := by
    have h3 : |f.rnd (amount a x * D)| ≤ |f.rnd (amount a x * D) - amount a x * D| + |amount a x * D| := by
      have := abs_add_le (f.rnd (amount a x * D) - amount a x * D) (amount a x * D)
      rwa [sub_add_cancel] at this
    rw [abs_mul (amount a x), abs_of_pos hDp] at h3
    nlinarith
  have fin2 : |f.rnd (amount b y * D)| < (2 : ℚ) ^ f.emax := by
    have h3 : |f.rnd (amount b y * D)| ≤ |f.rnd (amount b y * D) - amount b y * D| + |amount b y * D| := by
      have := abs_add_le (f.rnd (amount b y * D) - amount b y * D) (amount b y * D)
      rwa [sub_add_cancel] at this
    rw [abs_mul (amount b y), abs_of_pos hDp] at h3
    nlinarith
  rw [f.ofRat_fin fin1] at e1
  rw [f.ofRat_fin fin2] at e2
  have hlt : f.rnd (amount a x * D) < f.rnd (amount b y * D) := by
    have h4 := mul_lt_mul_of_pos_right h hDp
    have h5 : (amount a x + (f.u * (|amount a x| + |amount b y|) + 2 * f.eta / D)) * D =
        amount a x * D + f.u * (|amount a x| * D) + f.u * (|amount b y| * D) + 2 * f.eta := by
      field_simp; ring
    rw [h5] at h4
    have h6 := (abs_le.mp r1).2
    have h7 := (abs_le.mp r2).1
    linarith
  have lt1 : qfLt IFl.lt p q = true := by
    have : qfLt IFl.lt p q = IFl.lt (qSide a b (IFl.fin x : IFl f)) (qSide b a (IFl.fin y : IFl f)) := rfl
    rw [this, e1, e2]
    show decide (f.rnd (amount a x * D) < f.rnd (amount b y * D)) = true
    simpa using hlt
  have tri := (C100_compare hf a b ha hb hs x y).2.2.2.2.2.2
  have hh : qfEq IFl.eqv p q = false ∧ qfGt IFl.lt p q = false := by
    rcases tri with ⟨-, t⟩ | ⟨t, -⟩ | ⟨t, -⟩
    · exact t
    · rw [lt1] at t; cases t
    · rw [lt1] at t; cases t
  have hg : qfLt IFl.lt q p = false := hh.2
  refine ⟨lt1, lt1, hh.1, hg, ?_, ?_⟩
  · unfold qfLe; rw [lt1]; rfl
  · unfold qfLe; rw [hg]; rfl

/-- C100: three quantities in three units: the reported orders are never cyclic, and an order reported through
a middle one is never contradicted (`<=` is reported directly). -/
theorem C100_three_units (hf : StdFmt f) (a b c : QTy) (ha : PlainUnit a) (hb : PlainUnit b) (hc : PlainUnit c)
    (hab : SmallPair f a b) (hbc : SmallPair f b c) (hac : SmallPair f a c) (x y z : ℚ)
    (h1 : qfLt IFl.lt (⟨a, IFl.fin x⟩ : Qty (IFl f)) ⟨b, IFl.fin y⟩ = true)
    (h2 : qfLt IFl.lt (⟨b, IFl.fin y⟩ : Qty (IFl f)) ⟨c, IFl.fin z⟩ = true) :
    qfLe IFl.lt (⟨a, IFl.fin x⟩ : Qty (IFl f)) ⟨c, IFl.fin z⟩ = true ∧
      qfLt IFl.lt (⟨c, IFl.fin z⟩ : Qty (IFl f)) ⟨a, IFl.fin x⟩ = false := by
  have l1 := (C100_compare hf a b ha hb hab x y).1 h1
  have l2 := (C100_compare hf b c hb hc hbc y z).1 h2
  have := (C100_compare hf a c ha hc hac x z).2.2.1 (l1.trans l2).le
  refine ⟨this, ?_⟩
  unfold qfLe at this
  simpa using this

/-! ### One unit -/

theorem Fl.lt_trans' {p q r : Fl} (h1 : Fl.lt p q = true) (h2 : Fl.lt q r = true) : Fl.lt p r = true := by
  rcases p with _ | s | p <;> rcases q with _ | t | q <;> rcases r with _ | v | r <;>
    (try cases s) <;> (try cases t) <;> (try cases v) <;> simp_all [Fl.lt]
  exact lt_trans h1 h2

theorem Fl.incomp_trans {p q r : Fl} (hp : p ≠ .nan) (hq : q ≠ .nan) (hr : r ≠ .nan)
    (h1 : Fl.lt p q = false) (h1' : Fl.lt q p = false) (h2 : Fl.lt q r = false) (h2' : Fl.lt r q = false) :
    Fl.lt p r = false ∧ Fl.lt r p = false := by
  rcases p with _ | s | p <;> rcases q with _ | t | q <;> rcases r with _ | v | r <;>
    (try cases s) <;> (try cases t) <;> (try cases v) <;> simp_all [Fl.lt]
  constructor <;> linarith

/-- C100: within one type — any unit, with any offset and any scale — `<` of values without NaN is a strict
weak order, so sorting, `std::max_element`, `std::set` of such quantities are defined. -/
theorem C100_same_type_order (t : QTy) (x y z : IFl f) :
    let Q : IFl f → Qty (IFl f) := fun v => ⟨t, v⟩
    qfLt IFl.lt (Q x) (Q x) = false ∧
    (qfLt IFl.lt (Q x) (Q y) = true → qfLt IFl.lt (Q y) (Q z) = true → qfLt IFl.lt (Q x) (Q z) = true) ∧
    (qfLt IFl.lt (Q x) (Q y) = true → qfLt IFl.lt (Q y) (Q x) = false) ∧
    (qfEq IFl.eqv (Q x) (Q x) = true → qfEq IFl.eqv (Q y) (Q y) = true → qfEq IFl.eqv (Q z) (Q z) = true →
      qfLt IFl.lt (Q x) (Q y) = false → qfLt IFl.lt (Q y) (Q x) = false →
      qfLt IFl.lt (Q y) (Q z) = false → qfLt IFl.lt (Q z) (Q y) = false →
      qfLt IFl.lt (Q x) (Q z) = false ∧ qfLt IFl.lt (Q z) (Q x) = false) := by
  intro Q
  have irr : ∀ p : Fl, Fl.lt p p = false := by
    intro p; rcases p with _ | s | p
    · rfl
    · cases s <;> rfl
    · simp [Fl.lt]
  have nn : ∀ p : Fl, Fl.eqv p p = true → p ≠ .nan := by
    rintro p h rfl; cases h
  refine ⟨irr _, fun h1 h2 => Fl.lt_trans' h1 h2, fun h1 => ?_, fun a b c h1 h2 h3 h4 => ?_⟩
  · by_contra h2
    have h2' : qfLt IFl.lt (Q y) (Q x) = true := by simpa using h2
    have h3 := Fl.lt_trans' h1 h2'
    have := irr (qSide t t x : IFl f)
    exact absurd h3 (by rw [this]; decide)
  · exact Fl.incomp_trans (nn _ a) (nn _ b) (nn _ c) h1 h2 h3 h4

/-- C100: in a base unit (scale one, no offset) quantities of representable values compare as their values
do, infinities and NaN included for `==` and `<`. -/
theorem C100_base_unit (hf : StdFmt f) (t : QTy) (h1 : t.scal = ⟨1, 1, 1⟩) (h0 : t.off = 0) (x y : IFl f)
    (hx : f.round x = x) (hy : f.round y = y) :
    qfLt IFl.lt (⟨t, x⟩ : Qty (IFl f)) ⟨t, y⟩ = IFl.lt x y ∧
    qfEq IFl.eqv (⟨t, x⟩ : Qty (IFl f)) ⟨t, y⟩ = IFl.eqv x y := by
  have side : ∀ v : IFl f, f.round v = v → qSide t t v = v := by
    intro v hv
    rw [qSide_plain hf t t h0 h0 (by rw [h1]; exact Nat.one_lt_two_pow (by omega))]
    rw [h1]
    have : (IFl.fin ((1 * 1 : ℕ) : ℚ) : IFl f) * v = f.round v := by
      rcases v with _ | s | q
      · rfl
      · cases s <;> rfl
      · show f.ofRat (((1 * 1 : ℕ) : ℚ) * q) = f.ofRat q
        simp
    exact this.trans hv
  unfold qfLt qfEq
  simp only [side x hx, side y hy, and_self]

/-! ### Units with an offset -/

namespace Spec

/-- The scale is a plain ratio of positive integers; any offset. -/
structure PlainScale (t : QTy) : Prop where
  num_pos : 0 < t.scal.num
  den_pos : 0 < t.scal.den
  root : t.scal.root = 1

/-- The integers multiplied with or added to a value of unit `a` when it is compared with one of unit `b`. -/
def SmallSide (f : Fmt) (a b : QTy) : Prop :=
  a.scal.num * b.scal.den * a.off.den * b.off.den < 2 ^ (f.frac + 1) ∧
  a.off.num.natAbs * (b.scal.den * a.scal.den * b.off.den) < 2 ^ (f.frac + 1)

/-- The magnitudes that are added when the number `x` of unit `t` is evaluated. -/
def terms (t : QTy) (x : ℚ) : ℚ := |(t.scal.num : ℚ) / t.scal.den * x| + |t.off|

/-- The product of the four denominators. -/
def denoms (a b : QTy) : ℚ := a.scal.den * b.scal.den * a.off.den * b.off.den

end Spec

theorem ofInt_small_int (hf : StdFmt f) (n : ℤ) (h : n.natAbs < 2 ^ (f.frac + 1)) :
    (CppNum.ofInt n : IFl f) = IFl.fin n := by
  rcases Int.natAbs_eq n with e | e
  · rw [e]; simpa using ofInt_small hf n.natAbs h
  · have h1 := f.rnd_nat n.natAbs h (by have := hf.low; omega)
    have e' : (n : ℚ) = -((n.natAbs : ℕ) : ℚ) := by rw [e]; push_cast; simp
    show f.ofRat (n : ℚ) = Fl.fin n
    rw [e', f.ofRat_fin, f.rnd_neg, h1]
    rw [f.rnd_neg, h1, abs_neg, Nat.abs_cast]
    have h2 : ((n.natAbs : ℕ) : ℚ) < (2 : ℚ) ^ ((f.frac : ℤ) + 1) := by exact_mod_cast h
    exact h2.trans_le (zpow_le_zpow_right₀ (by norm_num) hf.high)

theorem grid_int (hf : StdFmt f) (n : ℤ) : f.Grid n := by
  obtain ⟨j, hj⟩ := Int.eq_ofNat_of_zero_le (show 0 ≤ (f.frac : ℤ) - f.emin by have := hf.low; omega)
  refine ⟨n * 2 ^ j, ?_⟩
  push_cast
  rw [mul_assoc, ← zpow_natCast, ← hj, ← zpow_add₀ two_ne_zero]
  have : (f.frac : ℤ) - f.emin + (f.emin - f.frac) = 0 := by ring
  rw [this, zpow_zero, mul_one]

/-- The compared number approximates the amount times the denominators. -/
theorem qSide_approx (hf : StdFmt f) (a b : QTy) (ha : PlainScale a) (h : SmallSide f a b) (x : ℚ) :
    ApproxI f 2 (amount a x * denoms a b) (terms a x * denoms a b) f.eta (terms a x * denoms a b + f.eta)
      (qSide a b (IFl.fin x : IFl f)) := by
  unfold qSide
  have hz : (a.off.num * ((b.scal.den * a.scal.den * b.off.den : ℕ) : ℤ)).natAbs < 2 ^ (f.frac + 1) := by
    rw [Int.natAbs_mul, Int.natAbs_natCast]; exact h.2
  rw [ofInt_small hf _ h.1, ofInt_small_int hf _ hz]
  set L : ℚ := ((a.scal.num * b.scal.den * a.off.den * b.off.den : ℕ) : ℚ) with hL
  set O : ℤ := a.off.num * ((b.scal.den * a.scal.den * b.off.den : ℕ) : ℤ) with hO
  have had : (a.scal.den : ℚ) ≠ 0 := by exact_mod_cast ha.den_pos.ne'
  have hod : (a.off.den : ℚ) ≠ 0 := by exact_mod_cast a.off.den_nz
  have e1 : L * x = (a.scal.num : ℚ) / a.scal.den * x * denoms a b := by
    rw [hL]; unfold denoms; push_cast; field_simp
  have e2 : (O : ℚ) = a.off * denoms a b := by
    rw [hO]; unfold denoms; push_cast
    have h9 : a.off * a.off.den = a.off.num := Rat.mul_den_eq_num _
    calc (a.off.num : ℚ) * (b.scal.den * a.scal.den * b.off.den)
        = a.off * a.off.den * (b.scal.den * a.scal.den * b.off.den) := by rw [h9]
      _ = _ := by ring
  have hDn : 0 ≤ denoms a b := by unfold denoms; positivity
  have m := ApproxI.mul_exact (f := f) L x
  have o := ApproxI.exact (f := f) 1 (grid_int hf O) (le_refl |(O : ℚ)|)
  have r := m.add o
  rw [← abs_mul, e1, e2] at r
  rw [e2]
  have t1 : (a.scal.num : ℚ) / a.scal.den * x * denoms a b + a.off * denoms a b = amount a x * denoms a b := by
    unfold amount; ring
  have t2 : |(a.scal.num : ℚ) / a.scal.den * x * denoms a b| + |a.off * denoms a b| = terms a x * denoms a b := by
    unfold terms; rw [abs_mul _ (denoms a b), abs_mul _ (denoms a b), abs_of_nonneg hDn]; ring
  rw [add_right_comm, t1, t2, add_zero] at r
  exact r

/-- C100: units with an offset (degrees Celsius, Fahrenheit, …): amounts that differ by more than the rounding
errors of two operations, relative to the sum of the magnitudes of the scaled values and of the offsets, are
compared correctly, when nothing overflows. -/
theorem C100_decides_offset (hf : StdFmt f) (a b : QTy) (ha : PlainScale a) (hb : PlainScale b)
    (hs : SmallSide f a b) (hs' : SmallSide f b a) (x y : ℚ)
    (ho : (1 + f.u) ^ 2 * (terms a x * denoms a b + f.eta) < (2 : ℚ) ^ f.emax)
    (ho' : (1 + f.u) ^ 2 * (terms b y * denoms a b + f.eta) < (2 : ℚ) ^ f.emax)
    (h : amount a x + (((1 + f.u) ^ 2 - 1) * (terms a x + terms b y) + 2 * (1 + f.u) ^ 2 * f.eta / denoms a b) <
      amount b y) :
    let p : Qty (IFl f) := ⟨a, IFl.fin x⟩
    let q : Qty (IFl f) := ⟨b, IFl.fin y⟩
    qfLt IFl.lt p q = true ∧ qfEq IFl.eqv p q = false ∧ qfLt IFl.lt q p = false ∧
      qfLe IFl.lt q p = false ∧ qfLe IFl.lt p q = true := by
  intro p q
  have hdd : denoms b a = denoms a b := by unfold denoms; ring
  have A1 := qSide_approx hf a b ha hs x
  have A2 := qSide_approx hf b a hb hs' y
  rw [hdd] at A2
  obtain ⟨v, hv⟩ := A1.finite ho
  obtain ⟨w, hw⟩ := A2.finite ho'
  have hv' := (A1.err v hv).2
  have hw' := (A2.err w hw).2
  have hD : 0 < denoms a b := by
    unfold denoms
    have h1 : (0 : ℚ) < a.scal.den := by exact_mod_cast ha.den_pos
    have h2 : (0 : ℚ) < b.scal.den := by exact_mod_cast hb.den_pos
    have h3 : (0 : ℚ) < a.off.den := by exact_mod_cast a.off.den_pos
    have h4 : (0 : ℚ) < b.off.den := by exact_mod_cast b.off.den_pos
    positivity
  have hlt : v < w := by
    have h4 := mul_lt_mul_of_pos_right h hD
    have h5 : (amount a x + (((1 + f.u) ^ 2 - 1) * (terms a x + terms b y)
        + 2 * (1 + f.u) ^ 2 * f.eta / denoms a b)) * denoms a b =
        amount a x * denoms a b + ((1 + f.u) ^ 2 - 1) * (terms a x * denoms a b)
          + ((1 + f.u) ^ 2 - 1) * (terms b y * denoms a b) + 2 * ((1 + f.u) ^ 2 * f.eta) := by
      field_simp; ring
    rw [h5] at h4
    have h6 := (abs_le.mp hv').2
    have h7 := (abs_le.mp hw').1
    linarith
  have lt1 : qfLt IFl.lt p q = true := by
    show IFl.lt (qSide a b (IFl.fin x : IFl f)) (qSide b a (IFl.fin y : IFl f)) = true
    rw [hv, hw]
    show decide (v < w) = true
    simpa using hlt
  have lt2 : qfLt IFl.lt q p = false := by
    show IFl.lt (qSide b a (IFl.fin y : IFl f)) (qSide a b (IFl.fin x : IFl f)) = false
    rw [hv, hw]
    show decide (w < v) = false
    simpa using hlt.le
  have eq1 : qfEq IFl.eqv p q = false := by
    show IFl.eqv (qSide a b (IFl.fin x : IFl f)) (qSide b a (IFl.fin y : IFl f)) = false
    rw [hv, hw]
    show decide (v = w) = false
    simpa using hlt.ne
  refine ⟨lt1, eq1, lt2, ?_, ?_⟩
  · unfold qfLe; rw [lt1]; rfl
  · unfold qfLe; rw [lt2]; rfl

/-! ### Where the comparison departs from the amounts -/

/-- A length in a unit of `num/den` metres. -/
def lengthIn (num den : ℕ) (x : ℚ) : Qty D64 := ⟨⟨⟨2, 1, 1⟩, ⟨num, den, 1⟩, 0⟩, IFl.fin (binary64.rnd x)⟩

/-- A temperature in degrees Celsius. -/
def celsius64 (x : ℚ) : Qty D64 := ⟨⟨⟨7, 1, 1⟩, ⟨1, 1, 1⟩, 5463 / 20⟩, IFl.fin (binary64.rnd x)⟩

/-- A temperature in kelvins. -/
def kelvin64 (x : ℚ) : Qty D64 := ⟨⟨⟨7, 1, 1⟩, ⟨1, 1, 1⟩, 0⟩, IFl.fin (binary64.rnd x)⟩

/-- C100 is false of the code for quantities of one type: 1.9 inches and the next double compare equal, 1e303
and 2e303 inches compare equal (both products overflow), and so do 0 °C and 1e-14 °C; the values are different
doubles. -/
theorem C100_same_unit_false :
    (qfEq IFl.eqv (lengthIn 127 5000 (19 / 10)) (lengthIn 127 5000 (binary64.rnd (19 / 10) + 1 / 2 ^ 52)) = true ∧
      binary64.rnd (19 / 10) < binary64.rnd (binary64.rnd (19 / 10) + 1 / 2 ^ 52)) ∧
    (qfEq IFl.eqv (lengthIn 127 5000 (10 ^ 303)) (lengthIn 127 5000 (2 * 10 ^ 303)) = true ∧
      binary64.rnd (10 ^ 303) < binary64.rnd (2 * 10 ^ 303)) ∧
    (qfEq IFl.eqv (celsius64 0) (celsius64 (1 / 10 ^ 14)) = true ∧ binary64.rnd 0 < binary64.rnd (1 / 10 ^ 14)) := by
  decide +kernel

/-- C100 is false of the code: `<` is not transitive over three units (yards, centimetres, metres), nor is
`==` (feet, kilometres, inches). -/
theorem C100_transitive_false :
    (qfLt IFl.lt (lengthIn 1143 1250 (6124234470691163 / 10 ^ 17)) (lengthIn 1 100 (56 / 10)) = true ∧
      qfLt IFl.lt (lengthIn 1 100 (56 / 10)) (lengthIn 1 1 (56 / 1000)) = true ∧
      qfLt IFl.lt (lengthIn 1143 1250 (6124234470691163 / 10 ^ 17)) (lengthIn 1 1 (56 / 1000)) = false) ∧
    (qfEq IFl.eqv (lengthIn 381 1250 (583989501312336 / 10 ^ 11)) (lengthIn 1000 1 (178 / 100)) = true ∧
      qfEq IFl.eqv (lengthIn 1000 1 (178 / 100)) (lengthIn 127 5000 (7007874015748031 / 10 ^ 11)) = true ∧
      qfEq IFl.eqv (lengthIn 381 1250 (583989501312336 / 10 ^ 11))
        (lengthIn 127 5000 (7007874015748031 / 10 ^ 11)) = false) := by
  decide +kernel

/-- C100 is false of the code for units with an offset: the double nearest to -273.15, in degrees Celsius, is
reported to be less than 1e-14 kelvins, which it exceeds. -/
theorem C100_offset_false :
    qfLt IFl.lt (celsius64 (-27315 / 100)) (kelvin64 (1 / 10 ^ 14)) = true ∧
    amount (kelvin64 0).ty (binary64.rnd (1 / 10 ^ 14)) <
      amount (celsius64 0).ty (binary64.rnd (-27315 / 100)) := by
  decide +kernel

/-- C100 is false of the code for NaN: unlike for numbers, `<=` and `>=` of a quantity that is NaN are true
(`!=` is true, `==`, `<` and `>` are false). -/
theorem C100_nan_false (a b : QTy) (y : IFl f) :
    let p : Qty (IFl f) := ⟨a, IFl.nan⟩
    let q : Qty (IFl f) := ⟨b, y⟩
    qfLe IFl.lt p q = true ∧ qfGe IFl.lt p q = true ∧ qfNe IFl.eqv p q = true ∧ qfEq IFl.eqv p q = false ∧
      qfLt IFl.lt p q = false ∧ qfGt IFl.lt p q = false := by
  intro p q
  have h : qSide a b (IFl.nan : IFl f) = IFl.nan := by
    unfold qSide
    have h1 : ∀ w : IFl f, w * (IFl.nan : IFl f) = IFl.nan := by
      intro w; rcases w with _ | s | q <;> rfl
    rw [h1]; rfl
  have l : ∀ w : IFl f, IFl.lt IFl.nan w = false := fun w => by rcases w with _ | s | q <;> rfl
  have r : ∀ w : IFl f, IFl.lt w IFl.nan = false := fun w => by
    rcases w with _ | s | q
    · rfl
    · cases s <;> rfl
    · rfl
  have e : ∀ w : IFl f, IFl.eqv IFl.nan w = false := fun w => by rcases w with _ | s | q <;> rfl
  have lt1 : qfLt IFl.lt p q = false := by unfold qfLt; simp only [p, q, h, l]
  have lt2 : qfLt IFl.lt q p = false := by unfold qfLt; simp only [p, q, h, r]
  have eq1 : qfEq IFl.eqv p q = false := by unfold qfEq; simp only [p, q, h, e]
  unfold qfLe qfGe qfNe qfGt
  rw [lt1, lt2, eq1]
  decide

/-! Non-vacuity. -/

/-- Inches, feet and miles are plain units that can be compared. -/
example : PlainUnit (lengthIn 127 5000 0).ty ∧ PlainUnit (lengthIn 201168 125 0).ty ∧
    SmallPair binary64 (lengthIn 127 5000 0).ty (lengthIn 201168 125 0).ty ∧
    SmallPair binary32 (lengthIn 127 5000 0).ty (lengthIn 381 1250 0).ty :=
  ⟨⟨by decide, by decide, rfl, rfl⟩, ⟨by decide, by decide, rfl, rfl⟩, by unfold SmallPair; decide +kernel,
    by unfold SmallPair; decide +kernel⟩

/-- 12 inches are a foot, and less than 31 centimetres. -/
example : qfEq IFl.eqv (lengthIn 127 5000 12) (lengthIn 381 1250 1) = true ∧
    qfLt IFl.lt (lengthIn 127 5000 12) (lengthIn 1 100 31) = true := by decide +kernel

set_option exponentiation.threshold 2000 in
/-- The hypotheses of `C100_decides` hold for 12 inches and 31 centimetres. -/
example : amount (lengthIn 127 5000 0).ty 12 + (binary64.u * (|amount (lengthIn 127 5000 0).ty 12| +
    |amount (lengthIn 1 100 0).ty 31|) + 2 * binary64.eta / (5000 * 100)) < amount (lengthIn 1 100 0).ty 31 := by
  decide +kernel

/-- The hypotheses of `C100_decides_offset` hold for 20 °C and 293.16 K. -/
example : SmallSide binary64 (celsius64 0).ty (kelvin64 0).ty ∧ SmallSide binary64 (kelvin64 0).ty (celsius64 0).ty ∧
    amount (celsius64 0).ty 20 + (((1 + binary64.u) ^ 2 - 1) * (terms (celsius64 0).ty 20 +
      terms (kelvin64 0).ty (29316 / 100)) + 2 * (1 + binary64.u) ^ 2 * binary64.eta /
        denoms (celsius64 0).ty (kelvin64 0).ty) < amount (kelvin64 0).ty (29316 / 100) := by
  unfold SmallSide; decide +kernel

end SciCpp
