import Verif.Model.QExpr
import Verif.Props.Units
/-
  Property theorems C120: expressions of quantities.
-/
set_option linter.unusedSectionVars false
namespace SciCpp

/-! ### Specification -/

/-- Exponents of the base dimensions (index 0, "dimensionless", is always 0). -/
abbrev Exps := Fin 11 → ℚ

/-- The type `t` has the physical exponents `d`. -/
def TyDim (t : QTy) (d : Exps) : Prop := t.dim.val = dimVal d ∧ d 0 = 0

/-- Dimensional analysis: the expression is consistent and has the exponents `d`, when variable `i` has the exponents `E i`. -/
def QEx.HasDim (E : ℕ → Exps) : QEx → Exps → Prop
  | .var i, d => d = E i
  | .lit _, d => d = fun _ => 0
  | .add a b, d => a.HasDim E d ∧ b.HasDim E d
  | .sub a b, d => a.HasDim E d ∧ b.HasDim E d
  | .mul a b, d => ∃ x y, a.HasDim E x ∧ b.HasDim E y ∧ d = fun j => x j + y j
  | .div a b, d => ∃ x y, a.HasDim E x ∧ b.HasDim E y ∧ d = fun j => x j - y j
  | .neg a, d => a.HasDim E d
  | .pow n a, d => ∃ x, a.HasDim E x ∧ d = fun j => (n : ℚ) * x j
  | .root n a, d => ∃ x, a.HasDim E x ∧ d = fun j => x j / ((n : ℚ) + 1)
  | .cast t a, d => a.HasDim E d ∧ TyDim t d
  | .abs a, d => a.HasDim E d
  | .fmax a b, d => a.HasDim E d ∧ b.HasDim E d
  | .fmin a b, d => a.HasDim E d ∧ b.HasDim E d
  | .hypot a b, d => a.HasDim E d ∧ b.HasDim E d

/-- The meaning of the expression on amounts in base units; conversions do nothing. -/
noncomputable def QEx.amount (m : ℕ → ℝ) : QEx → ℝ
  | .var i => m i
  | .lit x => x
  | .add a b => a.amount m + b.amount m
  | .sub a b => a.amount m - b.amount m
  | .mul a b => a.amount m * b.amount m
  | .div a b => a.amount m / b.amount m
  | .neg a => -a.amount m
  | .pow n a => a.amount m ^ n
  | .root n a => a.amount m ^ ((1 : ℝ) / ((n : ℝ) + 1))
  | .cast _ a => a.amount m
  | .abs a => |a.amount m|
  | .fmax a b => max (a.amount m) (b.amount m)
  | .fmin a b => min (a.amount m) (b.amount m)
  | .hypot a b => Real.sqrt (a.amount m ^ 2 + b.amount m ^ 2)

/-- No division by zero and no root of a negative number. -/
def QEx.Defined (m : ℕ → ℝ) : QEx → Prop
  | .var _ => True
  | .lit _ => True
  | .add a b => a.Defined m ∧ b.Defined m
  | .sub a b => a.Defined m ∧ b.Defined m
  | .mul a b => a.Defined m ∧ b.Defined m
  | .div a b => a.Defined m ∧ b.Defined m ∧ b.amount m ≠ 0
  | .neg a => a.Defined m
  | .pow _ a => a.Defined m
  | .root _ a => a.Defined m ∧ 0 ≤ a.amount m
  | .cast _ a => a.Defined m
  | .abs a => a.Defined m
  | .fmax a b => a.Defined m ∧ b.Defined m
  | .fmin a b => a.Defined m ∧ b.Defined m
  | .hypot a b => a.Defined m ∧ b.Defined m

/-- Units without offset: valid template arguments and offset 0. -/
def QTy.Plain (t : QTy) : Prop := t.Valid ∧ t.off = 0

/-- The conversions of an expression go to units without offset. -/
def QEx.CastsPlain : QEx → Prop
  | .var _ => True
  | .lit _ => True
  | .add a b => a.CastsPlain ∧ b.CastsPlain
  | .sub a b => a.CastsPlain ∧ b.CastsPlain
  | .mul a b => a.CastsPlain ∧ b.CastsPlain
  | .div a b => a.CastsPlain ∧ b.CastsPlain
  | .neg a => a.CastsPlain
  | .pow _ a => a.CastsPlain
  | .root _ a => a.CastsPlain
  | .cast t a => t.Plain ∧ a.CastsPlain
  | .abs a => a.CastsPlain
  | .fmax a b => a.CastsPlain ∧ b.CastsPlain
  | .fmin a b => a.CastsPlain ∧ b.CastsPlain
  | .hypot a b => a.CastsPlain ∧ b.CastsPlain

/-- The amount of a value in base units. -/
noncomputable def QVal.amount : QVal → ℝ
  | .num x => x
  | .qty q => q.ty.scal.val * q.val + (q.ty.off : ℝ)

/-- A type is that of a number (no dimension) or of a quantity without offset with the exponents `d`. -/
def QT.Has : QT → Exps → Prop
  | .num, d => d = fun _ => 0
  | .qty t, d => t.Plain ∧ TyDim t d

/-! ### Lemmas -/

theorem QVal.amount_qty (q : Qty ℝ) (h : q.ty.off = 0) : (QVal.qty q).amount = q.ty.scal.val * q.val := by
  simp [QVal.amount, h]

theorem denote_eq_amount (q : Qty ℝ) : q.denote = (QVal.qty q).amount := by
  simp [QVal.amount, Qty.denote]

theorem scal_pos (t : QTy) (h : t.Plain) : 0 < t.scal.val := RootRatio.val_pos _ h.1.2

theorem TyDim.unique {t : QTy} {d e : Exps} (h : TyDim t d) (h' : TyDim t e) : d = e :=
  dimVal_inj d e h.2 h'.2 (h.1.symm.trans h'.1)

theorem qty_amount_zero (q : Qty ℝ) (h : q.ty.Plain) : (QVal.qty q).amount = 0 ↔ q.val = 0 := by
  rw [QVal.amount_qty q h.2, mul_eq_zero]
  exact ⟨fun h' => h'.resolve_left (scal_pos _ h).ne', Or.inr⟩

theorem qty_amount_neg (q : Qty ℝ) (h : q.ty.Plain) : (QVal.qty q).amount < 0 ↔ q.val < 0 := by
  rw [QVal.amount_qty q h.2, mul_neg_iff]
  constructor
  · rintro (⟨_, h'⟩ | ⟨h', _⟩)
    · exact h'
    · exact absurd h' (not_lt.2 (scal_pos _ h).le)
  · exact fun h' => Or.inl ⟨scal_pos _ h, h'⟩

/-- A value of a given type, with value 1. -/
noncomputable def QT.one : QT → QVal
  | .num => .num 1
  | .qty t => .qty ⟨t, 1⟩

theorem QT.one_ty (t : QT) : t.one.ty = t := by cases t <;> rfl

theorem QT.one_ne (t : QT) (d : Exps) (h : t.Has d) : 0 < t.one.amount := by
  cases t with
  | num => exact one_pos
  | qty t => show 0 < _; rw [QT.one, QVal.amount_qty _ h.1.2]; exact mul_pos (scal_pos t h.1) one_pos

/-- The result of the compiler and of the evaluation of one expression: it does not compile, or it has the exponents dimensional analysis gives, and
where it is defined the value has the computed type and the right amount. -/
def Master (tr : Res QT) (er : Res QVal) (HD : Exps → Prop) (Df : Prop) (m : ℝ) : Prop :=
  (tr = .ub ∧ er = .ub) ∨
  ∃ t d, tr = .ok t ∧ HD d ∧ t.Has d ∧ (Df → ∃ v, er = .ok v ∧ v.ty = t ∧ v.amount = m) ∧ (¬ Df → er = .ub)

theorem Master.congr {tr : Res QT} {er : Res QVal} {HD HD' : Exps → Prop} {Df Df' : Prop} {m m' : ℝ}
    (h : Master tr er HD Df m) (h1 : ∀ d, HD d → HD' d) (h2 : Df ↔ Df') (h3 : m = m') : Master tr er HD' Df' m' := by
  rcases h with h | ⟨t, d, a, b, c, e, f⟩
  · exact Or.inl h
  · exact Or.inr ⟨t, d, a, h1 d b, c, by rw [← h2, ← h3]; exact e, by rw [← h2]; exact f⟩

/-- What an operator with two arguments does. -/
def BinOk (f : QVal → QVal → Res QVal) (g : QT → QT → Res QT) (R : Exps → Exps → Exps → Prop) (A : ℝ → ℝ → ℝ) (P : ℝ → Prop) : Prop :=
  ∀ x y d e, x.ty.Has d → y.ty.Has e →
    (g x.ty y.ty = .ub ∧ f x y = .ub) ∨
    ∃ t c, g x.ty y.ty = .ok t ∧ R d e c ∧ t.Has c ∧
      (P y.amount → ∃ v, f x y = .ok v ∧ v.ty = t ∧ v.amount = A x.amount y.amount) ∧ (¬ P y.amount → f x y = .ub)

/-- What an operator with one argument does. -/
def UnOk (f : QVal → Res QVal) (g : QT → Res QT) (R : Exps → Exps → Prop) (A : ℝ → ℝ) (P : ℝ → Prop) : Prop :=
  ∀ x d, x.ty.Has d →
    (g x.ty = .ub ∧ f x = .ub) ∨
    ∃ t c, g x.ty = .ok t ∧ R d c ∧ t.Has c ∧
      (P x.amount → ∃ v, f x = .ok v ∧ v.ty = t ∧ v.amount = A x.amount) ∧ (¬ P x.amount → f x = .ub)

theorem bin_step {f : QVal → QVal → Res QVal} {g : QT → QT → Res QT} {R : Exps → Exps → Exps → Prop} {A : ℝ → ℝ → ℝ} {P : ℝ → Prop}
    (h : BinOk f g R A P) {ta tb : Res QT} {ea eb : Res QVal} {HA HB : Exps → Prop} {DA DB : Prop} {ma mb : ℝ}
    (ha : Master ta ea HA DA ma) (hb : Master tb eb HB DB mb) :
    Master (do let x ← ta; let y ← tb; g x y) (do let x ← ea; let y ← eb; f x y)
      (fun c => ∃ d e, HA d ∧ HB e ∧ R d e c) (DA ∧ DB ∧ P mb) (A ma mb) := by
  have ubr : ∀ r : Res QVal, (r.bind fun _ => (.ub : Res QVal)) = .ub := fun r => by cases r <;> rfl
  rcases ha with ⟨rfl, rfl⟩ | ⟨s, d, rfl, had, hs, a1, a2⟩
  · exact Or.inl ⟨rfl, rfl⟩
  rcases hb with ⟨rfl, rfl⟩ | ⟨t, e, rfl, hbe, ht, b1, b2⟩
  · refine Or.inl ⟨rfl, ubr ea⟩
  have key := h s.one t.one d e (by rw [s.one_ty]; exact hs) (by rw [t.one_ty]; exact ht)
  rw [s.one_ty, t.one_ty] at key
  by_cases hda : DA
  swap
  · rw [a2 hda]
    rcases key with ⟨k, -⟩ | ⟨r, c, k1, k2, k3, -⟩
    · exact Or.inl ⟨k, rfl⟩
    · exact Or.inr ⟨r, c, k1, ⟨d, e, had, hbe, k2⟩, k3, fun h' => absurd h'.1 hda, fun _ => rfl⟩
  obtain ⟨v, rfl, hv, hva⟩ := a1 hda
  by_cases hdb : DB
  swap
  · rw [b2 hdb]
    rcases key with ⟨k, -⟩ | ⟨r, c, k1, k2, k3, -⟩
    · exact Or.inl ⟨k, rfl⟩
    · exact Or.inr ⟨r, c, k1, ⟨d, e, had, hbe, k2⟩, k3, fun h' => absurd h'.2.1 hdb, fun _ => rfl⟩
  obtain ⟨w, rfl, hw, hwa⟩ := b1 hdb
  have key := h v w d e (by rw [hv]; exact hs) (by rw [hw]; exact ht)
  rw [hv, hw, hva, hwa] at key
  rcases key with ⟨k, k'⟩ | ⟨r, c, k1, k2, k3, k4, k5⟩
  · exact Or.inl ⟨k, k'⟩
  · exact Or.inr ⟨r, c, k1, ⟨d, e, had, hbe, k2⟩, k3, fun h' => k4 h'.2.2, fun h' => k5 fun hp => h' ⟨hda, hdb, hp⟩⟩

theorem un_step {f : QVal → Res QVal} {g : QT → Res QT} {R : Exps → Exps → Prop} {A : ℝ → ℝ} {P : ℝ → Prop}
    (h : UnOk f g R A P) {ta : Res QT} {ea : Res QVal} {HA : Exps → Prop} {DA : Prop} {ma : ℝ} (ha : Master ta ea HA DA ma) :
    Master (do let x ← ta; g x) (do let x ← ea; f x) (fun c => ∃ d, HA d ∧ R d c) (DA ∧ P ma) (A ma) := by
  rcases ha with ⟨rfl, rfl⟩ | ⟨s, d, rfl, had, hs, a1, a2⟩
  · exact Or.inl ⟨rfl, rfl⟩
  by_cases hda : DA
  swap
  · rw [a2 hda]
    have key := h s.one d (by rw [s.one_ty]; exact hs)
    rw [s.one_ty] at key
    rcases key with ⟨k, -⟩ | ⟨r, c, k1, k2, k3, -⟩
    · exact Or.inl ⟨k, rfl⟩
    · exact Or.inr ⟨r, c, k1, ⟨d, had, k2⟩, k3, fun h' => absurd h'.1 hda, fun _ => rfl⟩
  obtain ⟨v, rfl, hv, hva⟩ := a1 hda
  have key := h v d (by rw [hv]; exact hs)
  rw [hv, hva] at key
  rcases key with ⟨k, k'⟩ | ⟨r, c, k1, k2, k3, k4, k5⟩
  · exact Or.inl ⟨k, k'⟩
  · exact Or.inr ⟨r, c, k1, ⟨d, had, k2⟩, k3, fun h' => k4 h'.2, fun h' => k5 fun hp => h' ⟨hda, hp⟩⟩

/-! ### The operators -/

/-- Only operands with the same exponents. -/
def sameR (d e c : Exps) : Prop := d = e ∧ c = d

theorem addsub_ok (a b : Qty ℝ) (pa : a.ty.Plain) (pb : b.ty.Plain) (hd : a.ty.dim = b.ty.dim) :
    ∃ t : QTy, t.Plain ∧ t.dim = a.ty.dim ∧ tAdd (.qty a.ty) (.qty b.ty) = .ok (.qty t) ∧
      (∃ v, qAdd a b = .ok ⟨t, v⟩ ∧ t.scal.val * v = a.ty.scal.val * a.val + b.ty.scal.val * b.val) ∧
      (∃ v, qSub a b = .ok ⟨t, v⟩ ∧ t.scal.val * v = a.ty.scal.val * a.val - b.ty.scal.val * b.val) := by
  obtain ⟨s, h1, h2⟩ := commonQuantity_ok a.ty b.ty pa.1 pb.1 (pa.2.trans pb.2.symm)
  have hv : (⟨a.ty.dim, s, a.ty.off⟩ : QTy).Valid := ⟨pa.1.1, h2⟩
  obtain ⟨x, e1, e2⟩ := quantityCast_eq ⟨a.ty.dim, s, a.ty.off⟩ a pa.1 hv rfl
  obtain ⟨y, f1, f2⟩ := quantityCast_eq ⟨a.ty.dim, s, a.ty.off⟩ b pb.1 hv hd.symm
  obtain ⟨u, i1, -⟩ := C34_divide a.ty.scal s pa.1.2 h2
  obtain ⟨w, j1, -⟩ := C34_divide b.ty.scal s pb.1.2 h2
  have hne : s.val ≠ 0 := (RootRatio.val_pos s h2).ne'
  have ex : s.val * x = a.ty.scal.val * a.val := by
    rw [e2]; simp only [RCLike.ofReal_real_eq_id, id_eq, sub_self, add_zero]; field_simp
  have ey : s.val * y = b.ty.scal.val * b.val := by
    rw [f2]; simp only [RCLike.ofReal_real_eq_id, id_eq, pa.2, pb.2, sub_self, add_zero]; field_simp
  refine ⟨⟨a.ty.dim, s, a.ty.off⟩, ⟨hv, pa.2⟩, rfl, ?_, ⟨x + y, ?_, ?_⟩, ⟨x - y, ?_, ?_⟩⟩
  · unfold tAdd
    simp only [ne_eq, hd, not_true_eq_false, if_false]
    rw [h1]
    simp only [Res.bind_ok, i1, j1, Res.pure_eq, hd]
  · unfold qAdd
    rw [if_neg (by simp [hd]), h1]
    simp only [Res.bind_ok, e1, f1, Res.pure_eq]
  · show s.val * (x + y) = _
    rw [mul_add, ex, ey]
  · unfold qSub
    rw [if_neg (by simp [hd]), h1]
    simp only [Res.bind_ok, e1, f1, Res.pure_eq]
  · show s.val * (x - y) = _
    rw [mul_sub, ex, ey]

theorem vAdd_ok : BinOk vAdd tAdd sameR (fun x y => x + y) (fun _ => True) := by
  intro x y d e hx hy
  cases x with
  | num x => cases y with
    | num y =>
      refine Or.inr ⟨_, _, rfl, ⟨?_, rfl⟩, hx, fun _ => ⟨_, rfl, rfl, rfl⟩, fun h => absurd trivial h⟩
      rw [show d = _ from hx, show e = _ from hy]
    | qty b => exact Or.inl ⟨rfl, rfl⟩
  | qty a => cases y with
    | num y => exact Or.inl ⟨rfl, rfl⟩
    | qty b =>
      by_cases hd : a.ty.dim = b.ty.dim
      · right
        obtain ⟨t, k1, k2, k3, ⟨v, k4, k5⟩, -⟩ := addsub_ok a b hx.1 hy.1 hd
        refine ⟨_, d, k3, ⟨dimVal_inj d e hx.2.2 hy.2.2 (by rw [← hx.2.1, ← hy.2.1, hd]), rfl⟩,
          ⟨k1, by rw [k2]; exact hx.2.1, hx.2.2⟩, fun _ => ⟨.qty ⟨t, v⟩, ?_, rfl, ?_⟩, fun h => absurd trivial h⟩
        · simp only [vAdd, k4]; rfl
        · rw [QVal.amount_qty _ k1.2, QVal.amount_qty _ hx.1.2, QVal.amount_qty _ hy.1.2]; exact k5
      · left
        simp only [vAdd, tAdd, QVal.ty, qAdd, hd, ne_eq, not_false_eq_true, if_true]
        exact ⟨trivial, rfl⟩

theorem vSub_ok : BinOk vSub tAdd sameR (fun x y => x - y) (fun _ => True) := by
  intro x y d e hx hy
  cases x with
  | num x => cases y with
    | num y =>
      refine Or.inr ⟨_, _, rfl, ⟨?_, rfl⟩, hx, fun _ => ⟨_, rfl, rfl, rfl⟩, fun h => absurd trivial h⟩
      rw [show d = _ from hx, show e = _ from hy]
    | qty b => exact Or.inl ⟨rfl, rfl⟩
  | qty a => cases y with
    | num y => exact Or.inl ⟨rfl, rfl⟩
    | qty b =>
      by_cases hd : a.ty.dim = b.ty.dim
      · right
        obtain ⟨t, k1, k2, k3, -, ⟨v, k4, k5⟩⟩ := addsub_ok a b hx.1 hy.1 hd
        refine ⟨_, d, k3, ⟨dimVal_inj d e hx.2.2 hy.2.2 (by rw [← hx.2.1, ← hy.2.1, hd]), rfl⟩,
          ⟨k1, by rw [k2]; exact hx.2.1, hx.2.2⟩, fun _ => ⟨.qty ⟨t, v⟩, ?_, rfl, ?_⟩, fun h => absurd trivial h⟩
        · simp only [vSub, k4]; rfl
        · rw [QVal.amount_qty _ k1.2, QVal.amount_qty _ hx.1.2, QVal.amount_qty _ hy.1.2]; exact k5
      · left
        simp only [vSub, tAdd, QVal.ty, qSub, hd, ne_eq, not_false_eq_true, if_true]
        exact ⟨trivial, rfl⟩

theorem vMul_ok : BinOk vMul tMul (fun d e c => c = fun j => d j + e j) (fun x y => x * y) (fun _ => True) := by
  intro x y d e hx hy
  right
  cases x with
  | num x =>
    have hd : d = fun _ => 0 := hx
    subst hd
    cases y with
    | num y =>
      have he : e = fun _ => 0 := hy
      subst he
      exact ⟨_, _, rfl, rfl, by funext j; simp, fun _ => ⟨_, rfl, rfl, rfl⟩, fun h => absurd trivial h⟩
    | qty b =>
      refine ⟨_, _, rfl, rfl, by simp only [zero_add]; exact hy, fun _ => ⟨_, rfl, rfl, ?_⟩, fun h => absurd trivial h⟩
      rw [QVal.amount_qty _ hy.1.2, QVal.amount_qty (qScale x b) hy.1.2]
      show b.ty.scal.val * (x * b.val) = x * _
      ring
  | qty a => cases y with
    | num y =>
      have he : e = fun _ => 0 := hy
      subst he
      refine ⟨_, _, rfl, rfl, by simp only [add_zero]; exact hx, fun _ => ⟨_, rfl, rfl, ?_⟩, fun h => absurd trivial h⟩
      rw [QVal.amount_qty _ hx.1.2, QVal.amount_qty (qScale y a) hx.1.2]
      show a.ty.scal.val * (y * a.val) = _ * y
      ring
    | qty b =>
      obtain ⟨r, h1, h2, h3⟩ := C34_multiply a.ty.dim b.ty.dim hx.1.1.1 hy.1.1.1
      obtain ⟨s, g1, g2, g3⟩ := C34_multiply a.ty.scal b.ty.scal hx.1.1.2 hy.1.1.2
      refine ⟨.qty ⟨r, s, 0⟩, _, ?_, rfl, ⟨⟨⟨h2, g2⟩, rfl⟩, ?_, ?_⟩, fun _ => ⟨.qty ⟨⟨r, s, 0⟩, a.val * b.val⟩, ?_, rfl, ?_⟩,
        fun h => absurd trivial h⟩
      · simp only [tMul, QVal.ty, tyMul, hy.1.2, ne_eq, not_true_eq_false, if_false, h1, g1, Res.bind_ok]; rfl
      · show r.val = _
        rw [h3, hx.2.1, hy.2.1, dimVal_add]
      · show d 0 + e 0 = 0
        rw [hx.2.2, hy.2.2, add_zero]
      · simp only [vMul, qMul, hy.1.2, ne_eq, not_true_eq_false, if_false, h1, g1, Res.bind_ok]; rfl
      · rw [QVal.amount_qty _ rfl, QVal.amount_qty _ hx.1.2, QVal.amount_qty _ hy.1.2]
        show s.val * (a.val * b.val) = _
        rw [g3]; ring

theorem vDiv_ok : BinOk vDiv tDiv (fun d e c => c = fun j => d j - e j) (fun x y => x / y) (fun y => y ≠ 0) := by
  intro x y d e hx hy
  right
  cases x with
  | num x =>
    have hd : d = fun _ => 0 := hx
    subst hd
    cases y with
    | num y =>
      have he : e = fun _ => 0 := hy
      subst he
      refine ⟨_, _, rfl, rfl, by funext j; simp, fun h => ⟨.num (x / y), ?_, rfl, rfl⟩, fun h => ?_⟩
      · exact if_neg h
      · exact if_pos (not_not.1 h)
    | qty b =>
      obtain ⟨r, h1, h2, h3⟩ := C34_divide ⟨1, 1, 1⟩ b.ty.dim valid_one hy.1.1.1
      obtain ⟨s, g1, g2, g3⟩ := C34_divide ⟨1, 1, 1⟩ b.ty.scal valid_one hy.1.1.2
      rw [val_one] at h3 g3
      refine ⟨.qty ⟨r, s, 0⟩, _, ?_, rfl, ⟨⟨⟨h2, g2⟩, rfl⟩, ?_, ?_⟩, fun h => ⟨.qty ⟨⟨r, s, 0⟩, x * (1 / b.val)⟩, ?_, rfl, ?_⟩, fun h => ?_⟩
      · simp only [tDiv, QVal.ty, tyInv, h1, g1, Res.bind_ok]; rfl
      · show r.val = _
        rw [h3, hy.2.1, dimVal_sub]
        congr 1
        unfold dimVal; simp
      · show (0 : ℚ) - e 0 = 0
        rw [hy.2.2, sub_zero]
      · simp only [vDiv]
        rw [if_neg (fun h0 => h ((qty_amount_zero b hy.1).2 h0))]
        simp only [qScalarDiv, qInv, h1, g1, Res.bind_ok, Res.pure_eq, qScale]
      · rw [QVal.amount_qty _ rfl, QVal.amount_qty _ hy.1.2]
        show s.val * (x * (1 / b.val)) = x / _
        rw [g3]; field_simp
      · simp only [vDiv]
        rw [if_pos ((qty_amount_zero b hy.1).1 (not_not.1 h))]
  | qty a => cases y with
    | num y =>
      have he : e = fun _ => 0 := hy
      subst he
      refine ⟨_, _, rfl, rfl, by simp only [sub_zero]; exact hx, fun h => ⟨.qty (qDivScalar a y), ?_, rfl, ?_⟩, fun h => ?_⟩
      · exact if_neg h
      · rw [QVal.amount_qty _ hx.1.2, QVal.amount_qty (qDivScalar a y) hx.1.2]
        show a.ty.scal.val * (1 / y * a.val) = _ / y
        ring
      · exact if_pos (not_not.1 h)
    | qty b =>
      obtain ⟨r, h1, h2, h3⟩ := C34_divide a.ty.dim b.ty.dim hx.1.1.1 hy.1.1.1
      obtain ⟨s, g1, g2, g3⟩ := C34_divide a.ty.scal b.ty.scal hx.1.1.2 hy.1.1.2
      refine ⟨.qty ⟨r, s, 0⟩, _, ?_, rfl, ⟨⟨⟨h2, g2⟩, rfl⟩, ?_, ?_⟩, fun h => ⟨.qty ⟨⟨r, s, 0⟩, a.val / b.val⟩, ?_, rfl, ?_⟩, fun h => ?_⟩
      · simp only [tDiv, QVal.ty, tyDiv, hy.1.2, ne_eq, not_true_eq_false, if_false, h1, g1, Res.bind_ok]; rfl
      · show r.val = _
        rw [h3, hx.2.1, hy.2.1, dimVal_sub]
      · show d 0 - e 0 = 0
        rw [hx.2.2, hy.2.2, sub_zero]
      · simp only [vDiv]
        rw [if_neg (fun h0 => h ((qty_amount_zero b hy.1).2 h0))]
        simp only [qDiv, hy.1.2, ne_eq, not_true_eq_false, if_false, h1, g1, Res.bind_ok]; rfl
      · rw [QVal.amount_qty _ rfl, QVal.amount_qty _ hx.1.2, QVal.amount_qty _ hy.1.2]
        show s.val * (a.val / b.val) = _
        rw [g3]; exact (mul_div_mul_comm _ _ _ _).symm
      · simp only [vDiv]
        rw [if_pos ((qty_amount_zero b hy.1).1 (not_not.1 h))]

theorem vNeg_ok : UnOk (fun x => .ok (vNeg x)) (fun t => .ok t) (fun d c => c = d) (fun x => -x) (fun _ => True) := by
  intro x d hx
  right
  cases x with
  | num x => exact ⟨_, d, rfl, rfl, hx, fun _ => ⟨_, rfl, rfl, rfl⟩, fun h => absurd trivial h⟩
  | qty a =>
    refine ⟨_, d, rfl, rfl, hx, fun _ => ⟨_, rfl, rfl, ?_⟩, fun h => absurd trivial h⟩
    show (QVal.qty (qNeg a)).amount = _
    rw [QVal.amount_qty _ hx.1.2, QVal.amount_qty (qNeg a) hx.1.2]
    show a.ty.scal.val * -a.val = _
    ring

theorem vAbs_ok : UnOk (fun x => .ok (vAbs x)) (fun t => .ok t) (fun d c => c = d) (fun x => |x|) (fun _ => True) := by
  intro x d hx
  right
  cases x with
  | num x => exact ⟨_, d, rfl, rfl, hx, fun _ => ⟨_, rfl, rfl, rfl⟩, fun h => absurd trivial h⟩
  | qty a =>
    refine ⟨_, d, rfl, rfl, hx, fun _ => ⟨_, rfl, rfl, ?_⟩, fun h => absurd trivial h⟩
    show (QVal.qty (qAbs a)).amount = _
    rw [QVal.amount_qty _ hx.1.2, QVal.amount_qty (qAbs a) hx.1.2]
    show a.ty.scal.val * |a.val| = |a.ty.scal.val * a.val|
    rw [abs_mul, abs_of_pos (scal_pos _ hx.1)]

theorem vPow_ok (n : ℕ) : UnOk (vPow n) (tPow n) (fun d c => c = fun j => (n : ℚ) * d j) (fun x => x ^ n) (fun _ => True) := by
  intro x d hx
  right
  cases x with
  | num x =>
    have hd : d = fun _ => 0 := hx
    subst hd
    refine ⟨_, _, rfl, rfl, by funext j; simp, fun _ => ⟨_, rfl, rfl, ?_⟩, fun h => absurd trivial h⟩
    show powSq x n = _
    rw [C69_power_nonneg_partial]; rfl
  | qty a =>
    obtain ⟨r, h1, h2, h3⟩ := C34_power a.ty.dim hx.1.1.1 n
    obtain ⟨s, g1, g2, g3⟩ := C34_power a.ty.scal hx.1.1.2 n
    refine ⟨.qty ⟨r, s, 0⟩, _, ?_, rfl, ⟨⟨⟨h2, g2⟩, rfl⟩, ?_, ?_⟩, fun h => ⟨.qty ⟨⟨r, s, 0⟩, powSq a.val n⟩, ?_, rfl, ?_⟩,
      fun h => absurd trivial h⟩
    · simp only [tPow, QVal.ty, h1, g1, Res.bind_ok]; rfl
    · show r.val = _
      rw [h3, hx.2.1]
      have := dimVal_smul d n
      rw [Rat.cast_natCast, Real.rpow_natCast] at this
      exact this.symm
    · show (n : ℚ) * d 0 = 0
      rw [hx.2.2, mul_zero]
    · simp only [vPow, qPow, h1, g1, Res.bind_ok]; rfl
    · rw [QVal.amount_qty _ rfl, QVal.amount_qty _ hx.1.2]
      show s.val * powSq a.val n = _
      rw [g3, C69_power_nonneg_partial]; exact (mul_pow _ _ _).symm

theorem vRoot_ok (n : ℕ) : UnOk (vRoot n) (tRoot n) (fun d c => c = fun j => d j / ((n : ℚ) + 1))
    (fun x => x ^ ((1 : ℝ) / ((n : ℝ) + 1))) (fun x => 0 ≤ x) := by
  intro x d hx
  right
  cases x with
  | num x =>
    have hd : d = fun _ => 0 := hx
    subst hd
    refine ⟨_, _, rfl, rfl, by funext j; simp, fun h => ⟨.num (x ^ ((1 : ℝ) / ((n + 1 : ℕ) : ℝ))), ?_, rfl, ?_⟩, fun h => ?_⟩
    · exact if_neg (not_lt.2 h)
    · show x ^ ((1 : ℝ) / ((n + 1 : ℕ) : ℝ)) = x ^ _
      push_cast; rfl
    · exact if_pos (not_le.1 h)
  | qty a =>
    obtain ⟨r, h1, h2, h3⟩ := C34_root a.ty.dim (n + 1) hx.1.1.1 (by omega)
    obtain ⟨s, g1, g2, g3⟩ := C34_root a.ty.scal (n + 1) hx.1.1.2 (by omega)
    refine ⟨.qty ⟨r, s, 0⟩, _, ?_, rfl, ⟨⟨⟨h2, g2⟩, rfl⟩, ?_, ?_⟩,
      fun h => ⟨.qty ⟨⟨r, s, 0⟩, a.val ^ ((1 : ℝ) / ((n + 1 : ℕ) : ℝ))⟩, ?_, rfl, ?_⟩, fun h => ?_⟩
    · simp only [tRoot, QVal.ty, h1, g1, Res.bind_ok]; rfl
    · show r.val = _
      rw [h3, hx.2.1]
      have := dimVal_smul d (1 / ((n : ℚ) + 1))
      push_cast at this ⊢
      rw [← this]
      congr 1
      funext j
      rw [one_div, inv_mul_eq_div]
    · show d 0 / ((n : ℚ) + 1) = 0
      rw [hx.2.2, zero_div]
    · have hv : ¬ a.val < 0 := fun h' => absurd ((qty_amount_neg a hx.1).2 h') (not_lt.2 h)
      simp only [vRoot]; rw [if_neg hv]
      simp only [qRoot, h1, g1, Res.bind_ok]; rfl
    · have hv : ¬ a.val < 0 := fun h' => absurd ((qty_amount_neg a hx.1).2 h') (not_lt.2 h)
      rw [QVal.amount_qty _ rfl, QVal.amount_qty _ hx.1.2]
      show s.val * _ = (a.ty.scal.val * a.val) ^ ((1 : ℝ) / ((n : ℝ) + 1))
      rw [g3, Real.mul_rpow (scal_pos _ hx.1).le (not_lt.1 hv)]; push_cast; rfl
    · simp only [vRoot]; rw [if_pos ((qty_amount_neg a hx.1).1 (not_le.1 h))]

theorem vCast_ok (t : QTy) (ht : t.Plain) :
    UnOk (vCast t) (tCast t) (fun d c => c = d ∧ TyDim t c) (fun x => x) (fun _ => True) := by
  intro x d hx
  cases x with
  | num x => exact Or.inl ⟨rfl, rfl⟩
  | qty a =>
    by_cases hd : a.ty.dim = t.dim
    · right
      obtain ⟨v, h1, h2⟩ := quantityCast_eq t a hx.1.1 ht.1 hd
      obtain ⟨u, i1, -⟩ := C34_divide a.ty.scal t.scal hx.1.1.2 ht.1.2
      have hD : TyDim t d := ⟨by rw [← hd]; exact hx.2.1, hx.2.2⟩
      refine ⟨.qty t, d, ?_, ⟨rfl, hD⟩, ⟨ht, hD⟩, fun _ => ⟨.qty ⟨t, v⟩, ?_, rfl, ?_⟩, fun h => absurd trivial h⟩
      · simp only [tCast, QVal.ty, hd, ne_eq, not_true_eq_false, if_false, i1, Res.bind_ok]; rfl
      · simp only [vCast, h1, Res.bind_ok]; rfl
      · rw [QVal.amount_qty _ ht.2, QVal.amount_qty _ hx.1.2, h2]
        have := (scal_pos t ht).ne'
        simp only [RCLike.ofReal_real_eq_id, id_eq, hx.1.2, ht.2, sub_self, add_zero]
        field_simp
    · left
      simp only [vCast, tCast, QVal.ty, quantityCast, hd, ne_eq, not_false_eq_true, if_true]
      exact ⟨trivial, rfl⟩

theorem same_ok (f : QVal → QVal → Res QVal) (F : ℝ → ℝ → ℝ)
    (hF : ∀ c x y : ℝ, 0 < c → c * F x y = F (c * x) (c * y))
    (hn : ∀ x y, f (.num x) (.num y) = .ok (.num (F x y)))
    (hm : ∀ x b, f (.num x) (.qty b) = .ub) (hm' : ∀ a y, f (.qty a) (.num y) = .ub)
    (hq : ∀ a b, f (.qty a) (.qty b) = if a.ty ≠ b.ty then .ub else .ok (.qty ⟨a.ty, F a.val b.val⟩)) :
    BinOk f tSame sameR F (fun _ => True) := by
  intro x y d e hx hy
  cases x with
  | num x => cases y with
    | num y =>
      refine Or.inr ⟨.num, _, by simp [tSame, QVal.ty], ⟨?_, rfl⟩, hx, fun _ => ⟨_, hn x y, rfl, rfl⟩, fun h => absurd trivial h⟩
      rw [show d = _ from hx, show e = _ from hy]
    | qty b => exact Or.inl ⟨by simp [tSame, QVal.ty], hm x b⟩
  | qty a => cases y with
    | num y => exact Or.inl ⟨by simp [tSame, QVal.ty], hm' a y⟩
    | qty b =>
      by_cases h : a.ty = b.ty
      · right
        refine ⟨.qty a.ty, d, by simp [tSame, QVal.ty, h], ⟨?_, rfl⟩, hx, fun _ => ⟨_, by rw [hq, if_neg (not_not.2 h)], rfl, ?_⟩,
          fun h => absurd trivial h⟩
        · exact TyDim.unique hx.2 (by rw [h]; exact hy.2)
        · rw [QVal.amount_qty a hx.1.2, QVal.amount_qty b hy.1.2, QVal.amount_qty _ (show (⟨a.ty, F a.val b.val⟩ : Qty ℝ).ty.off = 0 from hx.1.2), ← h]
          exact hF _ _ _ (scal_pos _ hx.1)
      · left
        exact ⟨by simp [tSame, QVal.ty, h], by rw [hq, if_pos h]⟩

theorem vFmax_ok : BinOk vFmax tSame sameR (fun x y => max x y) (fun _ => True) :=
  same_ok vFmax _ (fun _ x y h => mul_max_of_nonneg x y h.le) (fun _ _ => rfl) (fun _ _ => rfl) (fun _ _ => rfl) (fun _ _ => rfl)

theorem vFmin_ok : BinOk vFmin tSame sameR (fun x y => min x y) (fun _ => True) :=
  same_ok vFmin _ (fun _ x y h => mul_min_of_nonneg x y h.le) (fun _ _ => rfl) (fun _ _ => rfl) (fun _ _ => rfl) (fun _ _ => rfl)

theorem vHypot_ok : BinOk vHypot tSame sameR (fun x y => Real.sqrt (x ^ 2 + y ^ 2)) (fun _ => True) :=
  same_ok vHypot _ (fun c x y h => by
    rw [mul_pow, mul_pow, ← mul_add, Real.sqrt_mul (by positivity), Real.sqrt_sq h.le])
    (fun _ _ => rfl) (fun _ _ => rfl) (fun _ _ => rfl) (fun _ _ => rfl)

/-! ### C120 -/

/-- Every expression: does not compile, or the complete description. -/
theorem master (env : ℕ → QVal) (E : ℕ → Exps) (henv : ∀ i, (env i).ty.Has (E i)) (e : QEx) (hc : e.CastsPlain) :
    Master (e.type fun i => (env i).ty) (e.eval env) (e.HasDim E) (e.Defined fun i => (env i).amount) (e.amount fun i => (env i).amount) := by
  induction e with
  | var i => exact Or.inr ⟨_, E i, rfl, rfl, henv i, fun _ => ⟨_, rfl, rfl, rfl⟩, fun h => absurd trivial h⟩
  | lit x => exact Or.inr ⟨_, _, rfl, rfl, rfl, fun _ => ⟨_, rfl, rfl, rfl⟩, fun h => absurd trivial h⟩
  | add a b iha ihb =>
    refine (bin_step vAdd_ok (iha hc.1) (ihb hc.2)).congr ?_ (by simp [QEx.Defined]) rfl
    rintro c ⟨d, e, h1, h2, rfl, rfl⟩; exact ⟨h1, h2⟩
  | sub a b iha ihb =>
    refine (bin_step vSub_ok (iha hc.1) (ihb hc.2)).congr ?_ (by simp [QEx.Defined]) rfl
    rintro c ⟨d, e, h1, h2, rfl, rfl⟩; exact ⟨h1, h2⟩
  | mul a b iha ihb =>
    exact (bin_step vMul_ok (iha hc.1) (ihb hc.2)).congr (fun c h => h) (by simp [QEx.Defined]) rfl
  | div a b iha ihb =>
    exact (bin_step vDiv_ok (iha hc.1) (ihb hc.2)).congr (fun c h => h) (by simp [QEx.Defined]) rfl
  | neg a ih =>
    have h := (un_step vNeg_ok (ih hc)).congr (HD' := (QEx.neg a).HasDim E) (Df' := (QEx.neg a).Defined fun i => (env i).amount)
      (m' := (QEx.neg a).amount fun i => (env i).amount) (by rintro c ⟨d, h1, rfl⟩; exact h1) (by simp [QEx.Defined]) rfl
    have hb : ∀ r : Res QT, (do let x ← r; Res.ok x) = r := fun r => by cases r <;> rfl
    rw [hb] at h
    exact h
  | pow n a ih => exact (un_step (vPow_ok n) (ih hc)).congr (fun c h => h) (by simp [QEx.Defined]) rfl
  | root n a ih => exact (un_step (vRoot_ok n) (ih hc)).congr (fun c h => h) (by simp [QEx.Defined]) rfl
  | cast t a ih =>
    refine (un_step (vCast_ok t hc.1) (ih hc.2)).congr ?_ (by simp [QEx.Defined]) rfl
    rintro c ⟨d, h1, rfl, h2⟩; exact ⟨h1, h2⟩
  | abs a ih =>
    have h := (un_step vAbs_ok (ih hc)).congr (HD' := (QEx.abs a).HasDim E) (Df' := (QEx.abs a).Defined fun i => (env i).amount)
      (m' := (QEx.abs a).amount fun i => (env i).amount) (by rintro c ⟨d, h1, rfl⟩; exact h1) (by simp [QEx.Defined]) rfl
    have hb : ∀ r : Res QT, (do let x ← r; Res.ok x) = r := fun r => by cases r <;> rfl
    rw [hb] at h
    exact h
  | fmax a b iha ihb =>
    refine (bin_step vFmax_ok (iha hc.1) (ihb hc.2)).congr ?_ (by simp [QEx.Defined]) rfl
    rintro c ⟨d, e, h1, h2, rfl, rfl⟩; exact ⟨h1, h2⟩
  | fmin a b iha ihb =>
    refine (bin_step vFmin_ok (iha hc.1) (ihb hc.2)).congr ?_ (by simp [QEx.Defined]) rfl
    rintro c ⟨d, e, h1, h2, rfl, rfl⟩; exact ⟨h1, h2⟩
  | hypot a b iha ihb =>
    refine (bin_step vHypot_ok (iha hc.1) (ihb hc.2)).congr ?_ (by simp [QEx.Defined]) rfl
    rintro c ⟨d, e, h1, h2, rfl, rfl⟩; exact ⟨h1, h2⟩

/-- C120 (soundness): the value of an expression that compiles and has a value is of the type the compiler computed, that type has the exponents
dimensional analysis gives (in particular sums, differences and conversions only ever combine equal dimensions), and its amount in base units is the
expression evaluated on the amounts, whatever the units of the variables and of the intermediate results. -/
theorem C120_sound (env : ℕ → QVal) (E : ℕ → Exps) (henv : ∀ i, (env i).ty.Has (E i)) (e : QEx) (hc : e.CastsPlain) (v : QVal)
    (h : e.eval env = .ok v) :
    (e.type fun i => (env i).ty) = .ok v.ty ∧ v.amount = e.amount (fun i => (env i).amount) ∧
    ∃ d, e.HasDim E d ∧ v.ty.Has d := by
  rcases master env E henv e hc with ⟨-, h'⟩ | ⟨t, d, h1, h2, h3, h4, h5⟩
  · rw [h] at h'; cases h'
  · by_cases hd : e.Defined fun i => (env i).amount
    · obtain ⟨w, k1, k2, k3⟩ := h4 hd
      rw [h] at k1; injection k1 with k1; subst k1
      exact ⟨by rw [k2]; exact h1, k3, d, h2, by rw [k2]; exact h3⟩
    · rw [h5 hd] at h; cases h

/-- C120: whether an expression compiles depends on the types of the variables only; one that compiles has a value exactly where the amounts allow it
(no division by zero, no root of a negative amount). -/
theorem C120_static (env : ℕ → QVal) (E : ℕ → Exps) (henv : ∀ i, (env i).ty.Has (E i)) (e : QEx) (hc : e.CastsPlain) :
    (∃ v, e.eval env = .ok v) ↔
      (∃ t, (e.type fun i => (env i).ty) = .ok t) ∧ e.Defined (fun i => (env i).amount) := by
  rcases master env E henv e hc with ⟨h1, h2⟩ | ⟨t, d, h1, h2, h3, h4, h5⟩
  · rw [h1, h2]
    constructor
    · rintro ⟨v, hv⟩; cases hv
    · rintro ⟨⟨t, ht⟩, -⟩; cases ht
  · constructor
    · rintro ⟨v, hv⟩
      refine ⟨⟨t, h1⟩, ?_⟩
      by_contra hd
      rw [h5 hd] at hv; cases hv
    · rintro ⟨-, hd⟩
      obtain ⟨v, k, -⟩ := h4 hd
      exact ⟨v, k⟩

/-- Types of variables that dimensional analysis describes have values. -/
theorem one_env (Γ : ℕ → QT) : (fun i => ((Γ i).one).ty) = Γ := funext fun i => (Γ i).one_ty

/-- C120: an expression that is not dimensionally consistent does not compile, and the type of one that does has the exponents of dimensional
analysis. -/
theorem C120_dimensions (Γ : ℕ → QT) (E : ℕ → Exps) (hΓ : ∀ i, (Γ i).Has (E i)) (e : QEx) (hc : e.CastsPlain) :
    ((¬ ∃ d, e.HasDim E d) → e.type Γ = .ub) ∧ (∀ t, e.type Γ = .ok t → ∃ d, e.HasDim E d ∧ t.Has d) := by
  have key := master (fun i => (Γ i).one) E (fun i => by rw [(Γ i).one_ty]; exact hΓ i) e hc
  rw [one_env] at key
  rcases key with ⟨h1, h2⟩ | ⟨t, d, h1, h2, h3, h4, h5⟩
  · rw [h1]; exact ⟨fun _ => rfl, fun t ht => by cases ht⟩
  · rw [h1]
    refine ⟨fun h => absurd ⟨d, h2⟩ h, fun s hs => ?_⟩
    injection hs with hs; subst hs
    exact ⟨d, h2, h3⟩

/-- The exponents of a consistent expression are unique. -/
theorem HasDim.unique (E : ℕ → Exps) (e : QEx) : ∀ d d', e.HasDim E d → e.HasDim E d' → d = d' := by
  induction e with
  | var i => intro d d' h h'; exact h.trans h'.symm
  | lit x => intro d d' h h'; exact h.trans h'.symm
  | add a b iha ihb => intro d d' h h'; exact iha d d' h.1 h'.1
  | sub a b iha ihb => intro d d' h h'; exact iha d d' h.1 h'.1
  | mul a b iha ihb =>
    rintro d d' ⟨x, y, h1, h2, rfl⟩ ⟨x', y', h1', h2', rfl⟩
    rw [iha x x' h1 h1', ihb y y' h2 h2']
  | div a b iha ihb =>
    rintro d d' ⟨x, y, h1, h2, rfl⟩ ⟨x', y', h1', h2', rfl⟩
    rw [iha x x' h1 h1', ihb y y' h2 h2']
  | neg a ih => intro d d' h h'; exact ih d d' h h'
  | pow n a ih => rintro d d' ⟨x, h, rfl⟩ ⟨x', h', rfl⟩; rw [ih x x' h h']
  | root n a ih => rintro d d' ⟨x, h, rfl⟩ ⟨x', h', rfl⟩; rw [ih x x' h h']
  | cast t a ih => intro d d' h h'; exact ih d d' h.1 h'.1
  | abs a ih => intro d d' h h'; exact ih d d' h h'
  | fmax a b iha ihb => intro d d' h h'; exact iha d d' h.1 h'.1
  | fmin a b iha ihb => intro d d' h h'; exact iha d d' h.1 h'.1
  | hypot a b iha ihb => intro d d' h h'; exact iha d d' h.1 h'.1

/-- C120 (choice of units): giving the same amounts in other units does not change the amount of the result. -/
theorem C120_units (env env' : ℕ → QVal) (E : ℕ → Exps) (henv : ∀ i, (env i).ty.Has (E i)) (henv' : ∀ i, (env' i).ty.Has (E i))
    (hm : ∀ i, (env i).amount = (env' i).amount) (e : QEx) (hc : e.CastsPlain) (v v' : QVal)
    (h : e.eval env = .ok v) (h' : e.eval env' = .ok v') : v.amount = v'.amount := by
  rw [(C120_sound env E henv e hc v h).2.1, (C120_sound env' E henv' e hc v' h').2.1, funext hm]

/-! ### Changing the base units -/

/-- The factor by which an amount with exponents `d` changes when base dimension `j` is measured in units `1 / lam j` times as large. -/
noncomputable def rescale (lam : Fin 11 → ℝ) (d : Exps) : ℝ := ∏ j, lam j ^ ((d j : ℚ) : ℝ)

theorem rescale_pos (lam : Fin 11 → ℝ) (hl : ∀ j, 0 < lam j) (d : Exps) : 0 < rescale lam d :=
  Finset.prod_pos fun j _ => Real.rpow_pos_of_pos (hl j) _

theorem rescale_zero (lam : Fin 11 → ℝ) : rescale lam (fun _ => 0) = 1 := by simp [rescale]

theorem rescale_add (lam : Fin 11 → ℝ) (hl : ∀ j, 0 < lam j) (a b : Exps) :
    rescale lam (fun j => a j + b j) = rescale lam a * rescale lam b := by
  unfold rescale
  rw [← Finset.prod_mul_distrib]
  exact Finset.prod_congr rfl fun i _ => by rw [Rat.cast_add, Real.rpow_add (hl i)]

theorem rescale_sub (lam : Fin 11 → ℝ) (hl : ∀ j, 0 < lam j) (a b : Exps) :
    rescale lam (fun j => a j - b j) = rescale lam a / rescale lam b := by
  unfold rescale
  rw [← Finset.prod_div_distrib]
  exact Finset.prod_congr rfl fun i _ => by rw [Rat.cast_sub, Real.rpow_sub (hl i)]

theorem rescale_smul (lam : Fin 11 → ℝ) (hl : ∀ j, 0 < lam j) (a : Exps) (c : ℚ) :
    rescale lam (fun j => c * a j) = rescale lam a ^ (c : ℝ) := by
  unfold rescale
  rw [← Real.finsetProd_rpow _ _ (fun i _ => (Real.rpow_pos_of_pos (hl i) _).le)]
  exact Finset.prod_congr rfl fun i _ => by rw [Rat.cast_mul, mul_comm, Real.rpow_mul (hl i).le]

/-- A dimensionally consistent expression is homogeneous. -/
theorem amount_rescale (lam : Fin 11 → ℝ) (hl : ∀ j, 0 < lam j) (E : ℕ → Exps) (m : ℕ → ℝ) (e : QEx) :
    ∀ d, e.HasDim E d → e.Defined m →
      e.amount (fun i => rescale lam (E i) * m i) = rescale lam d * e.amount m ∧ e.Defined (fun i => rescale lam (E i) * m i) := by
  have hp := rescale_pos lam hl
  induction e with
  | var i => rintro d rfl _; exact ⟨rfl, trivial⟩
  | lit x => rintro d rfl _; exact ⟨by rw [rescale_zero, one_mul]; rfl, trivial⟩
  | add a b iha ihb =>
    rintro d ⟨h1, h2⟩ ⟨k1, k2⟩
    exact ⟨by simp only [QEx.amount]; rw [(iha d h1 k1).1, (ihb d h2 k2).1, mul_add], (iha d h1 k1).2, (ihb d h2 k2).2⟩
  | sub a b iha ihb =>
    rintro d ⟨h1, h2⟩ ⟨k1, k2⟩
    exact ⟨by simp only [QEx.amount]; rw [(iha d h1 k1).1, (ihb d h2 k2).1, mul_sub], (iha d h1 k1).2, (ihb d h2 k2).2⟩
  | mul a b iha ihb =>
    rintro d ⟨x, y, h1, h2, rfl⟩ ⟨k1, k2⟩
    refine ⟨?_, (iha x h1 k1).2, (ihb y h2 k2).2⟩
    simp only [QEx.amount]
    rw [(iha x h1 k1).1, (ihb y h2 k2).1, rescale_add lam hl]; ring
  | div a b iha ihb =>
    rintro d ⟨x, y, h1, h2, rfl⟩ ⟨k1, k2, k3⟩
    refine ⟨?_, (iha x h1 k1).2, (ihb y h2 k2).2, ?_⟩
    · simp only [QEx.amount]
      rw [(iha x h1 k1).1, (ihb y h2 k2).1, rescale_sub lam hl, mul_div_mul_comm]
    · rw [(ihb y h2 k2).1]; exact mul_ne_zero (hp y).ne' k3
  | neg a ih =>
    intro d h k
    exact ⟨by simp only [QEx.amount]; rw [(ih d h k).1, mul_neg], (ih d h k).2⟩
  | pow n a ih =>
    rintro d ⟨x, h, rfl⟩ k
    refine ⟨?_, (ih x h k).2⟩
    simp only [QEx.amount]
    have := rescale_smul lam hl x n
    rw [Rat.cast_natCast, Real.rpow_natCast] at this
    rw [(ih x h k).1, mul_pow, this]
  | root n a ih =>
    rintro d ⟨x, h, rfl⟩ ⟨k1, k2⟩
    refine ⟨?_, (ih x h k1).2, ?_⟩
    · simp only [QEx.amount]
      have := rescale_smul lam hl x (1 / ((n : ℚ) + 1))
      push_cast at this
      rw [(ih x h k1).1, Real.mul_rpow (hp x).le k2, ← this]
      congr 3
      funext j
      rw [one_div, inv_mul_eq_div]
    · rw [(ih x h k1).1]; exact mul_nonneg (hp x).le k2
  | cast t a ih => intro d h k; exact ⟨(ih d h.1 k).1, (ih d h.1 k).2⟩
  | abs a ih =>
    intro d h k
    refine ⟨?_, (ih d h k).2⟩
    simp only [QEx.amount]
    rw [(ih d h k).1, abs_mul, abs_of_pos (hp d)]
  | fmax a b iha ihb =>
    rintro d ⟨h1, h2⟩ ⟨k1, k2⟩
    refine ⟨?_, (iha d h1 k1).2, (ihb d h2 k2).2⟩
    simp only [QEx.amount]
    rw [(iha d h1 k1).1, (ihb d h2 k2).1, mul_max_of_nonneg _ _ (hp d).le]
  | fmin a b iha ihb =>
    rintro d ⟨h1, h2⟩ ⟨k1, k2⟩
    refine ⟨?_, (iha d h1 k1).2, (ihb d h2 k2).2⟩
    simp only [QEx.amount]
    rw [(iha d h1 k1).1, (ihb d h2 k2).1, mul_min_of_nonneg _ _ (hp d).le]
  | hypot a b iha ihb =>
    rintro d ⟨h1, h2⟩ ⟨k1, k2⟩
    refine ⟨?_, (iha d h1 k1).2, (ihb d h2 k2).2⟩
    simp only [QEx.amount]
    rw [(iha d h1 k1).1, (ihb d h2 k2).1, mul_pow, mul_pow, ← mul_add, Real.sqrt_mul (by positivity), Real.sqrt_sq (hp d).le]

/-- C120 (dimensional safety): what compiles is homogeneous.  When every variable is multiplied by the factor its dimension has under a change of the
base units, the expression still has a value, of the same type, and that value is multiplied by the factor of the dimension of the result: no
expression that compiles depends on the choice of base units. -/
theorem C120_homogeneous (lam : Fin 11 → ℝ) (hl : ∀ j, 0 < lam j) (env env' : ℕ → QVal) (E : ℕ → Exps)
    (henv : ∀ i, (env i).ty.Has (E i)) (hty : ∀ i, (env' i).ty = (env i).ty)
    (hm : ∀ i, (env' i).amount = rescale lam (E i) * (env i).amount)
    (e : QEx) (hc : e.CastsPlain) (v : QVal) (h : e.eval env = .ok v) :
    ∃ v' d, e.eval env' = .ok v' ∧ v'.ty = v.ty ∧ v.ty.Has d ∧ v'.amount = rescale lam d * v.amount := by
  obtain ⟨h1, h2, d, h3, h4⟩ := C120_sound env E henv e hc v h
  have hd := ((C120_static env E henv e hc).1 ⟨v, h⟩).2
  obtain ⟨k1, k2⟩ := amount_rescale lam hl E _ e d h3 hd
  have henv' : ∀ i, (env' i).ty.Has (E i) := fun i => by rw [hty i]; exact henv i
  have e1 : (fun i => (env' i).amount) = fun i => rescale lam (E i) * (env i).amount := funext hm
  have e2 : (fun i => (env' i).ty) = fun i => (env i).ty := funext hty
  obtain ⟨v', hv'⟩ := (C120_static env' E henv' e hc).2 ⟨⟨v.ty, by rw [e2]; exact h1⟩, by rw [e1]; exact k2⟩
  obtain ⟨g1, g2, -⟩ := C120_sound env' E henv' e hc v' hv'
  refine ⟨v', d, hv', ?_, h4, ?_⟩
  · rw [e2, h1] at g1; injection g1 with g1; exact g1.symm
  · rw [g2, e1, k1, h2]

/-! ### What compiles -/

/-- Numbers and quantities are not mixed in sums and conversions; no roots; no functions that need one type for both arguments.  The kind of the result:
`true` for a quantity. -/
def QEx.kind (κ : ℕ → Bool) : QEx → Option Bool
  | .var i => some (κ i)
  | .lit _ => some false
  | .add a b => do let x ← a.kind κ; let y ← b.kind κ; if x = y then some x else none
  | .sub a b => do let x ← a.kind κ; let y ← b.kind κ; if x = y then some x else none
  | .mul a b => do let x ← a.kind κ; let y ← b.kind κ; some (x || y)
  | .div a b => do let x ← a.kind κ; let y ← b.kind κ; some (x || y)
  | .neg a => a.kind κ
  | .pow _ a => a.kind κ
  | .root _ _ => none
  | .cast _ a => do let x ← a.kind κ; if x then some true else none
  | .abs a => a.kind κ
  | .fmax _ _ => none
  | .fmin _ _ => none
  | .hypot _ _ => none

/-- Conversions go to types with a plain dimension. -/
def QEx.CastsRatio : QEx → Prop
  | .cast t a => t.dim.root = 1 ∧ a.CastsRatio
  | .add a b => a.CastsRatio ∧ b.CastsRatio
  | .sub a b => a.CastsRatio ∧ b.CastsRatio
  | .mul a b => a.CastsRatio ∧ b.CastsRatio
  | .div a b => a.CastsRatio ∧ b.CastsRatio
  | .neg a => a.CastsRatio
  | .pow _ a => a.CastsRatio
  | .abs a => a.CastsRatio
  | _ => True

/-- The kind of a type. -/
def QT.kind : QT → Bool
  | .num => false
  | .qty _ => true

/-- A plain dimension (no root), as all products, quotients and powers of base dimensions have. -/
def QT.Ratio : QT → Prop
  | .num => True
  | .qty t => t.dim.root = 1

theorem tAdd_complete (s t : QT) (d : Exps) (hs : s.Has d) (ht : t.Has d) (ps : s.Ratio) (pt : t.Ratio) (hk : s.kind = t.kind) :
    ∃ r, tAdd s t = .ok r ∧ r.Has d ∧ r.Ratio ∧ r.kind = s.kind := by
  cases s with
  | num => cases t with
    | num => exact ⟨_, rfl, hs, trivial, rfl⟩
    | qty b => cases hk
  | qty a => cases t with
    | num => cases hk
    | qty b =>
      have hd : a.dim = b.dim := (C34_canonical_partial a.dim b.dim hs.1.1.1 ht.1.1.1 (ps.trans pt.symm)).1 (hs.2.1.trans ht.2.1.symm)
      obtain ⟨r, k1, k2, k3, -⟩ := addsub_ok ⟨a, 1⟩ ⟨b, 1⟩ hs.1 ht.1 hd
      exact ⟨_, k3, ⟨k1, by rw [k2]; exact hs.2.1, hs.2.2⟩, by show r.dim.root = 1; rw [k2]; exact ps, rfl⟩

theorem rrMul_root (a b r : RootRatio) (ha : a.root = 1) (hb : b.root = 1) (h : rrMul a b = .ok r) : r.root = 1 := by
  unfold rrMul at h
  rw [if_pos ⟨ha, hb⟩] at h
  injection h with h
  rw [← h]; rfl

theorem rrDiv_root (a b r : RootRatio) (ha : a.root = 1) (hb : b.root = 1) (h : rrDiv a b = .ok r) : r.root = 1 := by
  rw [rrDiv_plain a b ha hb] at h
  injection h with h
  rw [← h]; rfl

theorem rrPow_root (a : RootRatio) (ha : a.root = 1) (n : ℕ) : ∀ r, rrPow a n = .ok r → r.root = 1 := by
  induction n with
  | zero => intro r h; injection h with h; rw [← h]; rfl
  | succ n ih =>
    intro r h
    rw [rrPow] at h
    cases hp : rrPow a n with
    | ub => rw [hp] at h; cases h
    | ok p => rw [hp] at h; exact rrMul_root a p r ha (ih p hp) h

/-- C120 (completeness): a dimensionally consistent expression without roots, in which sums and conversions do not mix numbers and quantities,
compiles, whatever the scales of the variables; the type of the result has a plain dimension again. -/
theorem C120_complete (Γ : ℕ → QT) (E : ℕ → Exps) (hΓ : ∀ i, (Γ i).Has (E i)) (hr : ∀ i, (Γ i).Ratio) (e : QEx)
    (hc : e.CastsPlain) (hcr : e.CastsRatio) (k : Bool) (hk : e.kind (fun i => (Γ i).kind) = some k) (d : Exps) (hd : e.HasDim E d) :
    ∃ t, e.type Γ = .ok t ∧ t.Has d ∧ t.Ratio ∧ t.kind = k := by
  induction e generalizing k d with
  | var i => injection hk with hk; rw [show d = E i from hd]; exact ⟨_, rfl, hΓ i, hr i, hk⟩
  | lit x => injection hk with hk; exact ⟨_, rfl, hd, trivial, hk⟩
  | add a b iha ihb =>
    simp only [QEx.kind, Option.bind_eq_bind] at hk
    cases ha : a.kind fun i => (Γ i).kind with
    | none => rw [ha] at hk; cases hk
    | some x => cases hb : b.kind fun i => (Γ i).kind with
      | none => rw [ha, hb] at hk; cases hk
      | some y =>
        rw [ha, hb] at hk
        simp only [Option.bind_some] at hk
        split_ifs at hk with hxy
        injection hk with hk
        obtain ⟨s, a1, a2, a3, a4⟩ := iha hc.1 hcr.1 x ha d hd.1
        obtain ⟨t, b1, b2, b3, b4⟩ := ihb hc.2 hcr.2 y hb d hd.2
        obtain ⟨r, r1, r2, r3, r4⟩ := tAdd_complete s t d a2 b2 a3 b3 (by rw [a4, b4, hxy])
        exact ⟨r, by simp only [QEx.type, a1, b1, Res.bind_ok]; exact r1, r2, r3, by rw [r4, a4, hk]⟩
  | sub a b iha ihb =>
    simp only [QEx.kind, Option.bind_eq_bind] at hk
    cases ha : a.kind fun i => (Γ i).kind with
    | none => rw [ha] at hk; cases hk
    | some x => cases hb : b.kind fun i => (Γ i).kind with
      | none => rw [ha, hb] at hk; cases hk
      | some y =>
        rw [ha, hb] at hk
        simp only [Option.bind_some] at hk
        split_ifs at hk with hxy
        injection hk with hk
        obtain ⟨s, a1, a2, a3, a4⟩ := iha hc.1 hcr.1 x ha d hd.1
        obtain ⟨t, b1, b2, b3, b4⟩ := ihb hc.2 hcr.2 y hb d hd.2
        obtain ⟨r, r1, r2, r3, r4⟩ := tAdd_complete s t d a2 b2 a3 b3 (by rw [a4, b4, hxy])
        exact ⟨r, by simp only [QEx.type, a1, b1, Res.bind_ok]; exact r1, r2, r3, by rw [r4, a4, hk]⟩
  | mul a b iha ihb =>
    simp only [QEx.kind, Option.bind_eq_bind] at hk
    cases ha : a.kind fun i => (Γ i).kind with
    | none => rw [ha] at hk; cases hk
    | some x => cases hb : b.kind fun i => (Γ i).kind with
      | none => rw [ha, hb] at hk; cases hk
      | some y =>
        rw [ha, hb] at hk
        simp only [Option.bind_some] at hk
        injection hk with hk
        obtain ⟨p, q, h1, h2, rfl⟩ := hd
        obtain ⟨s, a1, a2, a3, a4⟩ := iha hc.1 hcr.1 x ha p h1
        obtain ⟨t, b1, b2, b3, b4⟩ := ihb hc.2 hcr.2 y hb q h2
        rcases vMul_ok s.one t.one p q (by rw [s.one_ty]; exact a2) (by rw [t.one_ty]; exact b2) with ⟨hu, -⟩ | ⟨r, c, r1, rfl, r3, -⟩
        · exfalso
          rw [s.one_ty, t.one_ty] at hu
          cases s with
          | num => cases t <;> cases hu
          | qty u => cases t with
            | num => cases hu
            | qty w =>
              obtain ⟨z, z1, -⟩ := C34_multiply u.dim w.dim a2.1.1.1 b2.1.1.1
              obtain ⟨z', z1', -⟩ := C34_multiply u.scal w.scal a2.1.1.2 b2.1.1.2
              simp only [tMul, tyMul, b2.1.2, ne_eq, not_true_eq_false, if_false, z1, z1', Res.bind_ok] at hu
              cases hu
        · rw [s.one_ty, t.one_ty] at r1
          refine ⟨r, by simp only [QEx.type, a1, b1, Res.bind_ok]; exact r1, r3, ?_⟩
          rw [← hk, ← a4, ← b4]
          cases s with
          | num => cases t with
            | num => injection r1 with r1; subst r1; exact ⟨trivial, rfl⟩
            | qty w => injection r1 with r1; subst r1; exact ⟨b3, rfl⟩
          | qty u => cases t with
            | num => injection r1 with r1; subst r1; exact ⟨a3, rfl⟩
            | qty w =>
              obtain ⟨z, z1, -⟩ := C34_multiply u.dim w.dim a2.1.1.1 b2.1.1.1
              obtain ⟨z', z1', -⟩ := C34_multiply u.scal w.scal a2.1.1.2 b2.1.1.2
              simp only [tMul, tyMul, b2.1.2, ne_eq, not_true_eq_false, if_false, z1, z1', Res.bind_ok] at r1
              injection r1 with r1; subst r1
              exact ⟨rrMul_root _ _ _ a3 b3 z1, rfl⟩
  | div a b iha ihb =>
    simp only [QEx.kind, Option.bind_eq_bind] at hk
    cases ha : a.kind fun i => (Γ i).kind with
    | none => rw [ha] at hk; cases hk
    | some x => cases hb : b.kind fun i => (Γ i).kind with
      | none => rw [ha, hb] at hk; cases hk
      | some y =>
        rw [ha, hb] at hk
        simp only [Option.bind_some] at hk
        injection hk with hk
        obtain ⟨p, q, h1, h2, rfl⟩ := hd
        obtain ⟨s, a1, a2, a3, a4⟩ := iha hc.1 hcr.1 x ha p h1
        obtain ⟨t, b1, b2, b3, b4⟩ := ihb hc.2 hcr.2 y hb q h2
        have key : ∃ r, tDiv s t = .ok r ∧ r.Ratio ∧ r.kind = (s.kind || t.kind) := by
          cases s with
          | num => cases t with
            | num => exact ⟨_, rfl, trivial, rfl⟩
            | qty w =>
              obtain ⟨z, z1, -⟩ := C34_divide ⟨1, 1, 1⟩ w.dim valid_one b2.1.1.1
              obtain ⟨z', z1', -⟩ := C34_divide ⟨1, 1, 1⟩ w.scal valid_one b2.1.1.2
              refine ⟨.qty ⟨z, z', 0⟩, ?_, rrDiv_root _ _ _ rfl b3 z1, rfl⟩
              simp only [tDiv, tyInv, z1, z1', Res.bind_ok]; rfl
          | qty u => cases t with
            | num => exact ⟨_, rfl, a3, rfl⟩
            | qty w =>
              obtain ⟨z, z1, -⟩ := C34_divide u.dim w.dim a2.1.1.1 b2.1.1.1
              obtain ⟨z', z1', -⟩ := C34_divide u.scal w.scal a2.1.1.2 b2.1.1.2
              refine ⟨.qty ⟨z, z', 0⟩, ?_, rrDiv_root _ _ _ a3 b3 z1, rfl⟩
              simp only [tDiv, tyDiv, b2.1.2, ne_eq, not_true_eq_false, if_false, z1, z1', Res.bind_ok]; rfl
        obtain ⟨r, r1, r2, r3⟩ := key
        have r1' : tDiv s.one.ty t.one.ty = .ok r := by rw [s.one_ty, t.one_ty]; exact r1
        rcases vDiv_ok s.one t.one p q (by rw [s.one_ty]; exact a2) (by rw [t.one_ty]; exact b2) with ⟨hu, -⟩ | ⟨r', c, r1'', rfl, h3, -⟩
        · rw [r1'] at hu; cases hu
        · rw [r1'] at r1''; injection r1'' with r1''; subst r1''
          exact ⟨r, by simp only [QEx.type, a1, b1, Res.bind_ok]; exact r1, h3, r2, by rw [r3, a4, b4, hk]⟩
  | neg a ih => exact ih hc hcr k hk d hd
  | abs a ih => exact ih hc hcr k hk d hd
  | pow n a ih =>
    obtain ⟨x, h, rfl⟩ := hd
    obtain ⟨s, a1, a2, a3, a4⟩ := ih hc hcr k hk x h
    have key : ∃ r, tPow n s = .ok r ∧ r.Ratio ∧ r.kind = s.kind := by
      cases s with
      | num => exact ⟨_, rfl, trivial, rfl⟩
      | qty u =>
        obtain ⟨z, z1, -⟩ := C34_power u.dim a2.1.1.1 n
        obtain ⟨z', z1', -⟩ := C34_power u.scal a2.1.1.2 n
        refine ⟨.qty ⟨z, z', 0⟩, ?_, rrPow_root _ a3 n _ z1, rfl⟩
        simp only [tPow, z1, z1', Res.bind_ok]; rfl
    obtain ⟨r, r1, r2, r3⟩ := key
    have r1' : tPow n s.one.ty = .ok r := by rw [s.one_ty]; exact r1
    rcases vPow_ok n s.one x (by rw [s.one_ty]; exact a2) with ⟨hu, -⟩ | ⟨r', c, r1'', rfl, h3, -⟩
    · rw [r1'] at hu; cases hu
    · rw [r1'] at r1''; injection r1'' with r1''; subst r1''
      exact ⟨r, by simp only [QEx.type, a1, Res.bind_ok]; exact r1, h3, r2, by rw [r3, a4]⟩
  | root n a ih => cases hk
  | cast t a ih =>
    simp only [QEx.kind, Option.bind_eq_bind] at hk
    cases ha : a.kind fun i => (Γ i).kind with
    | none => rw [ha] at hk; cases hk
    | some x =>
      rw [ha] at hk
      cases x with
      | false => cases hk
      | true =>
        injection hk with hk
        obtain ⟨s, a1, a2, a3, a4⟩ := ih hc.2 hcr.2 true ha d hd.1
        cases s with
        | num => cases a4
        | qty u =>
          have hdim : u.dim = t.dim :=
            (C34_canonical_partial u.dim t.dim a2.1.1.1 hc.1.1.1 (Eq.trans a3 hcr.1.symm)).1 (a2.2.1.trans hd.2.1.symm)
          obtain ⟨z, z1, -⟩ := C34_divide u.scal t.scal a2.1.1.2 hc.1.1.2
          refine ⟨.qty t, ?_, ⟨hc.1, hd.2⟩, hcr.1, hk⟩
          simp only [QEx.type, a1, Res.bind_ok, tCast, hdim, ne_eq, not_true_eq_false, if_false, z1]; rfl
  | fmax a b iha ihb => cases hk
  | fmin a b iha ihb => cases hk
  | hypot a b iha ihb => cases hk

/-- C120 is false for fractional exponents: with a length `x`, `root<4>(x) * root<4>(x) + sqrt(x)` is consistent but does not compile. -/
theorem C120_fractional_false (Γ : ℕ → QT) (hΓ : Γ 0 = .qty (tyLength one1)) (E : ℕ → Exps) (h0 : E 0 = fun j => if j = 1 then 1 else 0) :
    (QEx.add (.mul (.root 3 (.var 0)) (.root 3 (.var 0))) (.root 1 (.var 0))).HasDim E (fun j => if j = 1 then 1 / 2 else 0) ∧
    (QEx.add (.mul (.root 3 (.var 0)) (.root 3 (.var 0))) (.root 1 (.var 0))).type Γ = .ub := by
  constructor
  · refine ⟨⟨_, _, ⟨_, rfl, rfl⟩, ⟨_, rfl, rfl⟩, ?_⟩, ⟨_, rfl, ?_⟩⟩ <;>
    · funext j
      rw [h0]
      simp only []
      split_ifs <;> norm_num
  · obtain ⟨h1, h2, h3, -⟩ := C34_canonical_false
    obtain ⟨s, k1, k2, -⟩ := C34_root ⟨1, 1, 1⟩ 4 valid_one (by omega)
    obtain ⟨s', k1', -⟩ := C34_multiply s s k2 k2
    obtain ⟨s2, k3, -⟩ := C34_root ⟨1, 1, 1⟩ 2 valid_one (by omega)
    simp only [QEx.type, hΓ, Res.bind_ok, tRoot, tyLength, baseDim, one1, h1, h3, k1, k3, Res.pure_eq, tMul, tyMul, h2, k1', ne_eq, not_true_eq_false,
      if_false]
    simp [tAdd]

/-- C120: numbers are not dimensionless quantities: for a dimensionless quantity `x`, `x + 1.` is consistent but does not compile; nor does
`fmax` of lengths in metres and kilometres. -/
theorem C120_mixed_false (Γ : ℕ → QT) (E : ℕ → Exps) (hΓ : Γ 0 = .qty (tyDimensionless one1)) (h0 : E 0 = fun _ => 0)
    (h1 : Γ 1 = .qty (tyLength one1)) (h2 : Γ 2 = .qty (tyLength ⟨1000, 1, 1⟩)) (h12 : E 1 = E 2) :
    ((QEx.add (.var 0) (.lit 1)).HasDim E (fun _ => 0) ∧ (QEx.add (.var 0) (.lit 1)).type Γ = .ub) ∧
    ((QEx.fmax (.var 1) (.var 2)).HasDim E (E 1) ∧ (QEx.fmax (.var 1) (.var 2)).type Γ = .ub) := by
  refine ⟨⟨⟨h0.symm, rfl⟩, ?_⟩, ⟨rfl, h12⟩, ?_⟩
  · simp only [QEx.type, hΓ, Res.bind_ok]; rfl
  · simp only [QEx.type, h1, h2, Res.bind_ok, tSame]
    rw [if_neg (by decide)]

/-- C120 (several representation types): `a * b` and `a / b` compile exactly when at least one operand is a number, or both quantities have the same
representation type and the right one no offset; `a + b` of two quantities needs the same representation type.  So `metre<double> * second<float>`,
`metre<int> + metre<double>` and `kelvin * celsius` are errors; the result has the common representation type and the type of the unit rules. -/
theorem C120_overloads (r s : Rep) (t u : QTy) (ht : t.Valid) (hu : u.Valid) :
    oMul (.num r) (.num s) = .ok (.num (r.common s)) ∧ oDiv (.num r) (.num s) = .ok (.num (r.common s)) ∧
    oMul (.num r) (.qty s u) = .ok (.qty (r.common s) u) ∧ oMul (.qty r t) (.num s) = .ok (.qty (s.common r) t) ∧
    oDiv (.qty r t) (.num s) = .ok (.qty (s.common r) t) ∧ (∃ w, oDiv (.num r) (.qty s u) = .ok (.qty (r.common s) w)) ∧
    ((∃ x, oMul (.qty r t) (.qty s u) = .ok x) ↔ r = s ∧ u.off = 0) ∧
    ((∃ x, oDiv (.qty r t) (.qty s u) = .ok x) ↔ r = s ∧ u.off = 0) ∧
    ((∃ x, oAdd (.qty r t) (.qty s u) = .ok x) ↔ r = s ∧ t.dim = u.dim ∧ t.off = u.off) ∧
    oAdd (.num r) (.qty s u) = .ub ∧ oAdd (.qty r t) (.num s) = .ub := by
  have p1 : pickCand (.num r) (.qty s u) = some .left := rfl
  have p2 : pickCand (.qty r t) (.num s) = some .right := rfl
  have p3 : r = s ∧ u.off = 0 → pickCand (.qty r t) (.qty s u) = some .member := by
    intro h
    simp [pickCand, QCand.viable, h, List.filter, QCand.moreSpecial]
  have p4 : ¬ (r = s ∧ u.off = 0) → pickCand (.qty r t) (.qty s u) = none := by
    intro h
    simp [pickCand, QCand.viable, h, List.filter, QCand.moreSpecial]
  obtain ⟨d1, a1, -⟩ := C34_divide ⟨1, 1, 1⟩ u.dim valid_one hu.1
  obtain ⟨d2, a2, -⟩ := C34_divide ⟨1, 1, 1⟩ u.scal valid_one hu.2
  obtain ⟨m1, b1, -⟩ := C34_multiply t.dim u.dim ht.1 hu.1
  obtain ⟨m2, b2, -⟩ := C34_multiply t.scal u.scal ht.2 hu.2
  obtain ⟨q1, c1, -⟩ := C34_divide t.dim u.dim ht.1 hu.1
  obtain ⟨q2, c2, -⟩ := C34_divide t.scal u.scal ht.2 hu.2
  refine ⟨rfl, rfl, by simp only [oMul, p1], by simp only [oMul, p2], ?_, ⟨⟨d1, d2, 0⟩, ?_⟩, ?_, ?_, ?_, rfl, rfl⟩
  · simp only [oDiv, p2, oMul]
  · simp only [oDiv, p1, tyInv, a1, a2, Res.bind_ok, Res.pure_eq, oMul]
    have p5 : pickCand (.num r) (.qty s ⟨d1, d2, 0⟩) = some .left := rfl
    rw [p5]
  · by_cases h : r = s ∧ u.off = 0
    · refine ⟨fun _ => h, fun _ => ⟨.qty r ⟨m1, m2, 0⟩, ?_⟩⟩
      simp only [oMul, p3 h, tyMul, h.2, ne_eq, not_true_eq_false, if_false, b1, b2, Res.bind_ok]; rfl
    · refine ⟨fun ⟨x, hx⟩ => ?_, fun h' => absurd h' h⟩
      simp only [oMul, p4 h] at hx
      cases hx
  · by_cases h : r = s ∧ u.off = 0
    · refine ⟨fun _ => h, fun _ => ⟨.qty r ⟨q1, q2, 0⟩, ?_⟩⟩
      simp only [oDiv, p3 h, tyDiv, h.2, ne_eq, not_true_eq_false, if_false, c1, c2, Res.bind_ok]; rfl
    · refine ⟨fun ⟨x, hx⟩ => ?_, fun h' => absurd h' h⟩
      simp only [oDiv, p4 h] at hx
      cases hx
  · constructor
    · rintro ⟨x, hx⟩
      simp only [oAdd] at hx
      split_ifs at hx with h1
      have h1' : r = s := not_not.1 h1
      by_cases hd : t.dim = u.dim
      · by_cases ho : t.off = u.off
        · exact ⟨h1', hd, ho⟩
        · simp only [tAdd, hd, ne_eq, not_true_eq_false, if_false, commonQuantity, ho, not_false_eq_true, if_true] at hx
          cases hx
      · simp only [tAdd, ne_eq, hd, not_false_eq_true, if_true] at hx
        cases hx
    · rintro ⟨rfl, hd, ho⟩
      obtain ⟨c, k1, k2⟩ := commonQuantity_ok t u ht hu ho
      obtain ⟨i1, j1, -⟩ := C34_divide t.scal c ht.2 k2
      obtain ⟨i2, j2, -⟩ := C34_divide u.scal c hu.2 k2
      refine ⟨.qty r ⟨t.dim, c, t.off⟩, ?_⟩
      simp only [oAdd, ne_eq, not_true_eq_false, if_false, tAdd, hd, k1, j1, j2, Res.bind_ok, Res.pure_eq]

/-! ### The hypotheses are met -/

/-- Variable 0 is a length in kilometres, 1 a time in seconds, 2 a mass in kilograms, the others are numbers. -/
noncomputable def exEnv (x t m : ℝ) : ℕ → QVal
  | 0 => .qty ⟨tyLength ⟨1000, 1, 1⟩, x⟩
  | 1 => .qty ⟨tyTime one1, t⟩
  | 2 => .qty ⟨tyMass one1, m⟩
  | _ => .num 0

/-- The exponents of the variables. -/
def exExps : ℕ → Exps
  | 0 => fun j => if j = 1 then 1 else 0
  | 1 => fun j => if j = 2 then 1 else 0
  | 2 => fun j => if j = 3 then 1 else 0
  | _ => fun _ => 0

theorem exEnv_has (x t m : ℝ) (i : ℕ) : (exEnv x t m i).ty.Has (exExps i) := by
  have hb : ∀ (k : Fin 11) (hk : k ≠ 0), (⟨dimP k, 1, 1⟩ : RootRatio).val = dimVal (fun j => if j = k then (1 : ℚ) else 0) := by
    intro k hk
    have := dimVal_base k
    have e : (DimExpr.base k).exps = fun j => if j = k then (1 : ℚ) else 0 := by
      funext j
      simp only [DimExpr.exps]
      by_cases h : j = k
      · subst h; simp [hk]
      · simp [h]
    rw [e] at this
    rw [this]; simp [RootRatio.val]
  have h1 : (tyLength ⟨1000, 1, 1⟩).Plain := ⟨⟨⟨by decide, by decide, by decide, by decide⟩, ⟨by decide, by decide, by decide, by decide⟩⟩, rfl⟩
  have h2 : (tyTime one1).Plain := ⟨⟨⟨by decide, by decide, by decide, by decide⟩, ⟨by decide, by decide, by decide, by decide⟩⟩, rfl⟩
  have h3 : (tyMass one1).Plain := ⟨⟨⟨by decide, by decide, by decide, by decide⟩, ⟨by decide, by decide, by decide, by decide⟩⟩, rfl⟩
  match i with
  | 0 => exact ⟨h1, hb 1 (by decide), by simp [exExps]⟩
  | 1 => exact ⟨h2, hb 2 (by decide), by simp [exExps]⟩
  | 2 => exact ⟨h3, hb 3 (by decide), by simp [exExps]⟩
  | (n + 3) => rfl

/-- `0.5 * m * pow<2>(x / t) - m * (x / t) * (x / t)`. -/
noncomputable def exE : QEx :=
  .sub (.mul (.mul (.lit (1 / 2)) (.var 2)) (.pow 2 (.div (.var 0) (.var 1))))
    (.mul (.mul (.var 2) (.div (.var 0) (.var 1))) (.div (.var 0) (.var 1)))

example : ∃ v, exE.eval (exEnv 3 2 5) = .ok v ∧ v.amount = -(1 / 2 * 5 * (3000 / 2) ^ 2) := by
  have hD : exE.HasDim exExps (fun j => if j = 1 then 2 else if j = 2 then -2 else if j = 3 then 1 else 0) := by
    refine ⟨⟨_, _, ⟨_, _, rfl, rfl, rfl⟩, ⟨_, ⟨_, _, rfl, rfl, rfl⟩, rfl⟩, ?_⟩, ⟨_, _, ⟨_, _, rfl, ⟨_, _, rfl, rfl, rfl⟩, rfl⟩, ⟨_, _, rfl, rfl, rfl⟩, ?_⟩⟩ <;>
    · funext j
      revert j
      simp only [exExps]
      decide +kernel
  have hc : exE.CastsPlain := by simp [exE, QEx.CastsPlain]
  have hr : ∀ i, ((exEnv 3 2 5) i).ty.Ratio := by
    intro i
    match i with
    | 0 => rfl
    | 1 => rfl
    | 2 => rfl
    | (n + 3) => trivial
  obtain ⟨t, ht, -⟩ := C120_complete (fun i => (exEnv 3 2 5 i).ty) exExps (exEnv_has 3 2 5) hr exE hc (by simp [exE, QEx.CastsRatio]) true rfl _ hD
  have hdef : exE.Defined (fun i => (exEnv 3 2 5 i).amount) := by
    simp [exE, QEx.Defined, QEx.amount, exEnv, QVal.amount, tyTime, one1, RootRatio.val]
  obtain ⟨v, hv⟩ := (C120_static (exEnv 3 2 5) exExps (exEnv_has 3 2 5) exE hc).2 ⟨⟨t, ht⟩, hdef⟩
  refine ⟨v, hv, ?_⟩
  rw [(C120_sound _ exExps (exEnv_has 3 2 5) exE hc v hv).2.1]
  simp [exE, QEx.amount, exEnv, QVal.amount, tyTime, tyLength, tyMass, one1, RootRatio.val]
  norm_num

end SciCpp
