import Verif.Spec.Offset
import Verif.Props.QExpr
/-
  Property theorems C127: units with an offset (absolute temperatures) in expressions.
-/
set_option linter.unusedSectionVars false
namespace SciCpp

/-! ### Lemmas -/

theorem QT.one_valid (t : QT) (h : t.Valid) : t.one.ty.Valid := by rw [t.one_ty]; exact h

theorem qty_scal_pos (q : Qty ℝ) (h : q.ty.Valid) : 0 < q.ty.scal.val := RootRatio.val_pos _ h.2

theorem reading_qty_zero (q : Qty ℝ) (h : q.ty.Valid) : (QVal.qty q).reading = 0 ↔ q.val = 0 := by
  show q.ty.scal.val * q.val = 0 ↔ _
  rw [mul_eq_zero]
  exact ⟨fun h' => h'.resolve_left (qty_scal_pos q h).ne', Or.inr⟩

theorem reading_qty_neg (q : Qty ℝ) (h : q.ty.Valid) : (QVal.qty q).reading < 0 ↔ q.val < 0 := by
  show q.ty.scal.val * q.val < 0 ↔ _
  constructor
  · intro h'; by_contra hc
    exact absurd h' (not_lt.2 (mul_nonneg (qty_scal_pos q h).le (not_lt.1 hc)))
  · exact fun h' => mul_neg_of_pos_of_neg (qty_scal_pos q h) h'

/-- The complete description of one expression: compiler, zero point, evaluation. -/
def MasterO (tr : Res QT) (er : Res QVal) (off : Option (Option ℚ)) (Df : Prop) (m : ℝ) : Prop :=
  (tr = .ub ∧ er = .ub) ∨
  ∃ t, tr = .ok t ∧ off = some t.off ∧ t.Valid ∧ (Df → ∃ v, er = .ok v ∧ v.ty = t ∧ v.reading = m) ∧ (¬ Df → er = .ub)

/-- What an operator with two arguments does. -/
def BinO (f : QVal → QVal → Res QVal) (g : QT → QT → Res QT) (R : Option ℚ → Option ℚ → Option (Option ℚ)) (A : ℝ → ℝ → ℝ) (P : ℝ → Prop) : Prop :=
  ∀ x y, x.ty.Valid → y.ty.Valid →
    (g x.ty y.ty = .ub ∧ f x y = .ub) ∨
    ∃ t, g x.ty y.ty = .ok t ∧ R x.ty.off y.ty.off = some t.off ∧ t.Valid ∧
      (P y.reading → ∃ v, f x y = .ok v ∧ v.ty = t ∧ v.reading = A x.reading y.reading) ∧ (¬ P y.reading → f x y = .ub)

/-- What an operator with one argument does (the effect on the reading may depend on the zero point). -/
def UnO (f : QVal → Res QVal) (g : QT → Res QT) (R : Option ℚ → Option (Option ℚ)) (A : Option ℚ → ℝ → ℝ) (P : ℝ → Prop) : Prop :=
  ∀ x, x.ty.Valid →
    (g x.ty = .ub ∧ f x = .ub) ∨
    ∃ t, g x.ty = .ok t ∧ R x.ty.off = some t.off ∧ t.Valid ∧
      (P x.reading → ∃ v, f x = .ok v ∧ v.ty = t ∧ v.reading = A x.ty.off x.reading) ∧ (¬ P x.reading → f x = .ub)

theorem MasterO.congr {tr : Res QT} {er : Res QVal} {o : Option (Option ℚ)} {Df Df' : Prop} {m m' : ℝ}
    (h : MasterO tr er o Df m) (h2 : Df ↔ Df') (h3 : m = m') : MasterO tr er o Df' m' := by
  rcases h with h | ⟨t, a, b, c, e, f⟩
  · exact Or.inl h
  · exact Or.inr ⟨t, a, b, c, by rw [← h2, ← h3]; exact e, by rw [← h2]; exact f⟩

theorem binO_step {f : QVal → QVal → Res QVal} {g : QT → QT → Res QT} {R : Option ℚ → Option ℚ → Option (Option ℚ)} {A : ℝ → ℝ → ℝ}
    {P : ℝ → Prop} (h : BinO f g R A P) {ta tb : Res QT} {ea eb : Res QVal} {oa ob : Option (Option ℚ)} {DA DB : Prop} {ma mb : ℝ}
    (ha : MasterO ta ea oa DA ma) (hb : MasterO tb eb ob DB mb) :
    MasterO (do let x ← ta; let y ← tb; g x y) (do let x ← ea; let y ← eb; f x y)
      (oa.bind fun x => ob.bind fun y => R x y) (DA ∧ DB ∧ P mb) (A ma mb) := by
  have ubr : ∀ r : Res QVal, (r.bind fun _ => (.ub : Res QVal)) = .ub := fun r => by cases r <;> rfl
  rcases ha with ⟨rfl, rfl⟩ | ⟨s, rfl, rfl, hs, a1, a2⟩
  · exact Or.inl ⟨rfl, rfl⟩
  rcases hb with ⟨rfl, rfl⟩ | ⟨t, rfl, rfl, ht, b1, b2⟩
  · exact Or.inl ⟨rfl, ubr ea⟩
  have key := h s.one t.one (s.one_valid hs) (t.one_valid ht)
  rw [s.one_ty, t.one_ty] at key
  by_cases hda : DA
  swap
  · rw [a2 hda]
    rcases key with ⟨k, -⟩ | ⟨r, k1, k2, k3, -⟩
    · exact Or.inl ⟨k, rfl⟩
    · exact Or.inr ⟨r, k1, k2, k3, fun h' => absurd h'.1 hda, fun _ => rfl⟩
  obtain ⟨v, rfl, hv, hva⟩ := a1 hda
  by_cases hdb : DB
  swap
  · rw [b2 hdb]
    rcases key with ⟨k, -⟩ | ⟨r, k1, k2, k3, -⟩
    · exact Or.inl ⟨k, rfl⟩
    · exact Or.inr ⟨r, k1, k2, k3, fun h' => absurd h'.2.1 hdb, fun _ => rfl⟩
  obtain ⟨w, rfl, hw, hwa⟩ := b1 hdb
  have key := h v w (by rw [hv]; exact hs) (by rw [hw]; exact ht)
  rw [hv, hw, hva, hwa] at key
  rcases key with ⟨k, k'⟩ | ⟨r, k1, k2, k3, k4, k5⟩
  · exact Or.inl ⟨k, k'⟩
  · exact Or.inr ⟨r, k1, k2, k3, fun h' => k4 h'.2.2, fun h' => k5 fun hp => h' ⟨hda, hdb, hp⟩⟩

theorem unO_step {f : QVal → Res QVal} {g : QT → Res QT} {R : Option ℚ → Option (Option ℚ)} {A : Option ℚ → ℝ → ℝ} {P : ℝ → Prop}
    (h : UnO f g R A P) {ta : Res QT} {ea : Res QVal} {oa : Option (Option ℚ)} {DA : Prop} {ma : ℝ} (ha : MasterO ta ea oa DA ma) :
    MasterO (do let x ← ta; g x) (do let x ← ea; f x) (oa.bind R) (DA ∧ P ma) (A (oa.getD none) ma) := by
  rcases ha with ⟨rfl, rfl⟩ | ⟨s, rfl, rfl, hs, a1, a2⟩
  · exact Or.inl ⟨rfl, rfl⟩
  by_cases hda : DA
  swap
  · rw [a2 hda]
    have key := h s.one (s.one_valid hs)
    rw [s.one_ty] at key
    rcases key with ⟨k, -⟩ | ⟨r, k1, k2, k3, -⟩
    · exact Or.inl ⟨k, rfl⟩
    · exact Or.inr ⟨r, k1, k2, k3, fun h' => absurd h'.1 hda, fun _ => rfl⟩
  obtain ⟨v, rfl, hv, hva⟩ := a1 hda
  have key := h v (by rw [hv]; exact hs)
  rw [hv, hva] at key
  rcases key with ⟨k, k'⟩ | ⟨r, k1, k2, k3, k4, k5⟩
  · exact Or.inl ⟨k, k'⟩
  · exact Or.inr ⟨r, k1, k2, k3, fun h' => k4 h'.2, fun h' => k5 fun hp => h' ⟨hda, hp⟩⟩

/-! ### The operators -/

theorem addsub_off (a b : Qty ℝ) (pa : a.ty.Valid) (pb : b.ty.Valid) (hd : a.ty.dim = b.ty.dim) (ho : a.ty.off = b.ty.off) :
    ∃ t : QTy, t.Valid ∧ t.off = a.ty.off ∧ tAdd (.qty a.ty) (.qty b.ty) = .ok (.qty t) ∧
      (∃ v, qAdd a b = .ok ⟨t, v⟩ ∧ t.scal.val * v = a.ty.scal.val * a.val + b.ty.scal.val * b.val) ∧
      (∃ v, qSub a b = .ok ⟨t, v⟩ ∧ t.scal.val * v = a.ty.scal.val * a.val - b.ty.scal.val * b.val) := by
  obtain ⟨s, h1, h2⟩ := commonQuantity_ok a.ty b.ty pa pb ho
  have hv : (⟨a.ty.dim, s, a.ty.off⟩ : QTy).Valid := ⟨pa.1, h2⟩
  obtain ⟨x, e1, e2⟩ := quantityCast_eq ⟨a.ty.dim, s, a.ty.off⟩ a pa hv rfl
  obtain ⟨y, f1, f2⟩ := quantityCast_eq ⟨a.ty.dim, s, a.ty.off⟩ b pb hv hd.symm
  obtain ⟨u, i1, -⟩ := C34_divide a.ty.scal s pa.2 h2
  obtain ⟨w, j1, -⟩ := C34_divide b.ty.scal s pb.2 h2
  have hne : s.val ≠ 0 := (RootRatio.val_pos s h2).ne'
  have ex : s.val * x = a.ty.scal.val * a.val := by
    rw [e2]; simp only [RCLike.ofReal_real_eq_id, id_eq, sub_self, add_zero]; field_simp
  have ey : s.val * y = b.ty.scal.val * b.val := by
    rw [f2]; simp only [RCLike.ofReal_real_eq_id, id_eq, ho, sub_self, add_zero]; field_simp
  refine ⟨⟨a.ty.dim, s, a.ty.off⟩, hv, rfl, ?_, ⟨x + y, ?_, ?_⟩, ⟨x - y, ?_, ?_⟩⟩
  · unfold tAdd
    simp only [ne_eq, hd, not_true_eq_false, if_false]
    rw [h1]
    simp only [Res.bind_ok, i1, j1, Res.pure_eq, hd]
  · unfold qAdd
    rw [if_neg (by simp [hd]), h1]
    simp only [Res.bind_ok, e1, f1, Res.pure_eq]
  · show s.val * (x + y) = _
    rw [mul_add, ex, ey]
  · unfold qSub
    rw [if_neg (by simp [hd]), h1]
    simp only [Res.bind_ok, e1, f1, Res.pure_eq]
  · show s.val * (x - y) = _
    rw [mul_sub, ex, ey]

theorem tAdd_off_ne (a b : QTy) (ho : a.off ≠ b.off) : tAdd (.qty a) (.qty b) = .ub := by
  unfold tAdd
  simp only
  split_ifs
  · rfl
  · unfold commonQuantity; rw [if_pos ho]; rfl

theorem vAdd_off : BinO vAdd tAdd offSame (fun x y => x + y) (fun _ => True) := by
  intro x y hx hy
  cases x with
  | num x => cases y with
    | num y => exact Or.inr ⟨_, rfl, rfl, trivial, fun _ => ⟨_, rfl, rfl, rfl⟩, fun h => absurd trivial h⟩
    | qty b => exact Or.inl ⟨rfl, rfl⟩
  | qty a => cases y with
    | num y => exact Or.inl ⟨rfl, rfl⟩
    | qty b =>
      by_cases hd : a.ty.dim = b.ty.dim
      · by_cases ho : a.ty.off = b.ty.off
        · right
          obtain ⟨t, k1, k2, k3, ⟨v, k4, k5⟩, -⟩ := addsub_off a b hx hy hd ho
          refine ⟨_, k3, ?_, k1, fun _ => ⟨.qty ⟨t, v⟩, ?_, rfl, k5⟩, fun h => absurd trivial h⟩
          · simp [offSame, QVal.ty, QT.off, ho, k2]
          · simp only [vAdd, k4]; rfl
        · left
          refine ⟨tAdd_off_ne _ _ ho, ?_⟩
          simp only [vAdd, qAdd, hd, ne_eq, not_true_eq_false, if_false, commonQuantity, ho, not_false_eq_true, if_true]; rfl
      · left
        simp only [vAdd, tAdd, QVal.ty, qAdd, hd, ne_eq, not_false_eq_true, if_true]
        exact ⟨trivial, rfl⟩

theorem vSub_off : BinO vSub tAdd offSame (fun x y => x - y) (fun _ => True) := by
  intro x y hx hy
  cases x with
  | num x => cases y with
    | num y => exact Or.inr ⟨_, rfl, rfl, trivial, fun _ => ⟨_, rfl, rfl, rfl⟩, fun h => absurd trivial h⟩
    | qty b => exact Or.inl ⟨rfl, rfl⟩
  | qty a => cases y with
    | num y => exact Or.inl ⟨rfl, rfl⟩
    | qty b =>
      by_cases hd : a.ty.dim = b.ty.dim
      · by_cases ho : a.ty.off = b.ty.off
        · right
          obtain ⟨t, k1, k2, k3, -, ⟨v, k4, k5⟩⟩ := addsub_off a b hx hy hd ho
          refine ⟨_, k3, ?_, k1, fun _ => ⟨.qty ⟨t, v⟩, ?_, rfl, k5⟩, fun h => absurd trivial h⟩
          · simp [offSame, QVal.ty, QT.off, ho, k2]
          · simp only [vSub, k4]; rfl
        · left
          refine ⟨tAdd_off_ne _ _ ho, ?_⟩
          simp only [vSub, qSub, hd, ne_eq, not_true_eq_false, if_false, commonQuantity, ho, not_false_eq_true, if_true]; rfl
      · left
        simp only [vSub, tAdd, QVal.ty, qSub, hd, ne_eq, not_false_eq_true, if_true]
        exact ⟨trivial, rfl⟩

theorem vMul_off : BinO vMul tMul offMul (fun x y => x * y) (fun _ => True) := by
  intro x y hx hy
  cases x with
  | num x => cases y with
    | num y => exact Or.inr ⟨_, rfl, rfl, trivial, fun _ => ⟨_, rfl, rfl, rfl⟩, fun h => absurd trivial h⟩
    | qty b =>
      refine Or.inr ⟨_, rfl, rfl, hy, fun _ => ⟨_, rfl, rfl, ?_⟩, fun h => absurd trivial h⟩
      show b.ty.scal.val * (x * b.val) = x * (b.ty.scal.val * b.val)
      ring
  | qty a => cases y with
    | num y =>
      refine Or.inr ⟨_, rfl, rfl, hx, fun _ => ⟨_, rfl, rfl, ?_⟩, fun h => absurd trivial h⟩
      show a.ty.scal.val * (y * a.val) = (a.ty.scal.val * a.val) * y
      ring
    | qty b =>
      by_cases ho : b.ty.off = 0
      · right
        obtain ⟨r, h1, h2, h3⟩ := C34_multiply a.ty.dim b.ty.dim hx.1 hy.1
        obtain ⟨s, g1, g2, g3⟩ := C34_multiply a.ty.scal b.ty.scal hx.2 hy.2
        refine ⟨.qty ⟨r, s, 0⟩, ?_, ?_, ⟨h2, g2⟩, fun _ => ⟨.qty ⟨⟨r, s, 0⟩, a.val * b.val⟩, ?_, rfl, ?_⟩, fun h => absurd trivial h⟩
        · simp only [tMul, QVal.ty, tyMul, ho, ne_eq, not_true_eq_false, if_false, h1, g1, Res.bind_ok]; rfl
        · simp [offMul, QVal.ty, QT.off, ho]
        · simp only [vMul, qMul, ho, ne_eq, not_true_eq_false, if_false, h1, g1, Res.bind_ok]; rfl
        · show s.val * (a.val * b.val) = (a.ty.scal.val * a.val) * (b.ty.scal.val * b.val)
          rw [g3]; ring
      · left
        simp only [vMul, tMul, QVal.ty, qMul, tyMul, ho, ne_eq, not_false_eq_true, if_true]
        exact ⟨rfl, rfl⟩

theorem vDiv_off : BinO vDiv tDiv offDiv (fun x y => x / y) (fun y => y ≠ 0) := by
  intro x y hx hy
  cases x with
  | num x => cases y with
    | num y => exact Or.inr ⟨_, rfl, rfl, trivial, fun h => ⟨.num (x / y), if_neg h, rfl, rfl⟩, fun h => if_pos (not_not.1 h)⟩
    | qty b =>
      right
      obtain ⟨r, h1, h2, h3⟩ := C34_divide ⟨1, 1, 1⟩ b.ty.dim valid_one hy.1
      obtain ⟨s, g1, g2, g3⟩ := C34_divide ⟨1, 1, 1⟩ b.ty.scal valid_one hy.2
      rw [val_one] at g3
      refine ⟨.qty ⟨r, s, 0⟩, ?_, rfl, ⟨h2, g2⟩, fun h => ⟨.qty ⟨⟨r, s, 0⟩, x * (1 / b.val)⟩, ?_, rfl, ?_⟩, fun h => ?_⟩
      · simp only [tDiv, QVal.ty, tyInv, h1, g1, Res.bind_ok]; rfl
      · simp only [vDiv]
        rw [if_neg (fun h0 => h ((reading_qty_zero b hy).2 h0))]
        simp only [qScalarDiv, qInv, h1, g1, Res.bind_ok, Res.pure_eq, qScale]
      · show s.val * (x * (1 / b.val)) = x / (b.ty.scal.val * b.val)
        rw [g3]; field_simp
      · simp only [vDiv]
        rw [if_pos ((reading_qty_zero b hy).1 (not_not.1 h))]
  | qty a => cases y with
    | num y =>
      refine Or.inr ⟨_, rfl, rfl, hx, fun h => ⟨.qty (qDivScalar a y), if_neg h, rfl, ?_⟩, fun h => if_pos (not_not.1 h)⟩
      show a.ty.scal.val * (1 / y * a.val) = (a.ty.scal.val * a.val) / y
      ring
    | qty b =>
      by_cases ho : b.ty.off = 0
      · right
        obtain ⟨r, h1, h2, h3⟩ := C34_divide a.ty.dim b.ty.dim hx.1 hy.1
        obtain ⟨s, g1, g2, g3⟩ := C34_divide a.ty.scal b.ty.scal hx.2 hy.2
        refine ⟨.qty ⟨r, s, 0⟩, ?_, ?_, ⟨h2, g2⟩, fun h => ⟨.qty ⟨⟨r, s, 0⟩, a.val / b.val⟩, ?_, rfl, ?_⟩, fun h => ?_⟩
        · simp only [tDiv, QVal.ty, tyDiv, ho, ne_eq, not_true_eq_false, if_false, h1, g1, Res.bind_ok]; rfl
        · simp [offDiv, QVal.ty, QT.off, ho]
        · simp only [vDiv]
          rw [if_neg (fun h0 => h ((reading_qty_zero b hy).2 h0))]
          simp only [qDiv, ho, ne_eq, not_true_eq_false, if_false, h1, g1, Res.bind_ok]; rfl
        · show s.val * (a.val / b.val) = (a.ty.scal.val * a.val) / (b.ty.scal.val * b.val)
          rw [g3]; exact (mul_div_mul_comm _ _ _ _).symm
        · simp only [vDiv]
          rw [if_pos ((reading_qty_zero b hy).1 (not_not.1 h))]
      · left
        constructor
        · simp only [tDiv, QVal.ty, tyDiv, ho, ne_eq, not_false_eq_true, if_true]; rfl
        · simp only [vDiv, qDiv, ho, ne_eq, not_false_eq_true, if_true]
          split_ifs <;> rfl

theorem vNeg_off : UnO (fun x => .ok (vNeg x)) (fun t => .ok t) some (fun _ x => -x) (fun _ => True) := by
  intro x hx
  right
  cases x with
  | num x => exact ⟨_, rfl, rfl, hx, fun _ => ⟨_, rfl, rfl, rfl⟩, fun h => absurd trivial h⟩
  | qty a =>
    refine ⟨_, rfl, rfl, hx, fun _ => ⟨_, rfl, rfl, ?_⟩, fun h => absurd trivial h⟩
    show a.ty.scal.val * -a.val = -(a.ty.scal.val * a.val)
    ring

theorem vAbs_off : UnO (fun x => .ok (vAbs x)) (fun t => .ok t) some (fun _ x => |x|) (fun _ => True) := by
  intro x hx
  right
  cases x with
  | num x => exact ⟨_, rfl, rfl, hx, fun _ => ⟨_, rfl, rfl, rfl⟩, fun h => absurd trivial h⟩
  | qty a =>
    refine ⟨_, rfl, rfl, hx, fun _ => ⟨_, rfl, rfl, ?_⟩, fun h => absurd trivial h⟩
    show a.ty.scal.val * |a.val| = |a.ty.scal.val * a.val|
    rw [abs_mul, abs_of_pos (qty_scal_pos a hx)]

theorem vPow_off (n : ℕ) : UnO (vPow n) (tPow n) offZero (fun _ x => x ^ n) (fun _ => True) := by
  intro x hx
  right
  cases x with
  | num x =>
    refine ⟨_, rfl, rfl, trivial, fun _ => ⟨_, rfl, rfl, ?_⟩, fun h => absurd trivial h⟩
    show powSq x n = _
    rw [C69_power_nonneg_partial]; rfl
  | qty a =>
    obtain ⟨r, h1, h2, h3⟩ := C34_power a.ty.dim hx.1 n
    obtain ⟨s, g1, g2, g3⟩ := C34_power a.ty.scal hx.2 n
    refine ⟨.qty ⟨r, s, 0⟩, ?_, rfl, ⟨h2, g2⟩, fun h => ⟨.qty ⟨⟨r, s, 0⟩, powSq a.val n⟩, ?_, rfl, ?_⟩, fun h => absurd trivial h⟩
    · simp only [tPow, QVal.ty, h1, g1, Res.bind_ok]; rfl
    · simp only [vPow, qPow, h1, g1, Res.bind_ok]; rfl
    · show s.val * powSq a.val n = (a.ty.scal.val * a.val) ^ n
      rw [g3, C69_power_nonneg_partial]; exact (mul_pow _ _ _).symm

theorem vRoot_off (n : ℕ) : UnO (vRoot n) (tRoot n) offZero (fun _ x => x ^ ((1 : ℝ) / ((n : ℝ) + 1))) (fun x => 0 ≤ x) := by
  intro x hx
  right
  cases x with
  | num x =>
    refine ⟨_, rfl, rfl, trivial, fun h => ⟨.num (x ^ ((1 : ℝ) / ((n + 1 : ℕ) : ℝ))), if_neg (not_lt.2 h), rfl, ?_⟩,
      fun h => if_pos (not_le.1 h)⟩
    show x ^ ((1 : ℝ) / ((n + 1 : ℕ) : ℝ)) = x ^ _
    push_cast; rfl
  | qty a =>
    obtain ⟨r, h1, h2, h3⟩ := C34_root a.ty.dim (n + 1) hx.1 (by omega)
    obtain ⟨s, g1, g2, g3⟩ := C34_root a.ty.scal (n + 1) hx.2 (by omega)
    refine ⟨.qty ⟨r, s, 0⟩, ?_, rfl, ⟨h2, g2⟩,
      fun h => ⟨.qty ⟨⟨r, s, 0⟩, a.val ^ ((1 : ℝ) / ((n + 1 : ℕ) : ℝ))⟩, ?_, rfl, ?_⟩, fun h => ?_⟩
    · simp only [tRoot, QVal.ty, h1, g1, Res.bind_ok]; rfl
    · have hv : ¬ a.val < 0 := fun h' => absurd ((reading_qty_neg a hx).2 h') (not_lt.2 h)
      simp only [vRoot]; rw [if_neg hv]
      simp only [qRoot, h1, g1, Res.bind_ok]; rfl
    · have hv : ¬ a.val < 0 := fun h' => absurd ((reading_qty_neg a hx).2 h') (not_lt.2 h)
      show s.val * _ = (a.ty.scal.val * a.val) ^ ((1 : ℝ) / ((n : ℝ) + 1))
      rw [g3, Real.mul_rpow (qty_scal_pos a hx).le (not_lt.1 hv)]; push_cast; rfl
    · simp only [vRoot]; rw [if_pos ((reading_qty_neg a hx).1 (not_le.1 h))]

theorem vCast_off (t : QTy) (ht : t.Valid) :
    UnO (vCast t) (tCast t) (offCast t) (fun o x => x + t.scal.val * (((o.getD 0 : ℚ) : ℝ) - (t.off : ℝ))) (fun _ => True) := by
  intro x hx
  cases x with
  | num x => exact Or.inl ⟨rfl, rfl⟩
  | qty a =>
    by_cases hd : a.ty.dim = t.dim
    · right
      obtain ⟨v, h1, h2⟩ := quantityCast_eq t a hx ht hd
      obtain ⟨u, i1, -⟩ := C34_divide a.ty.scal t.scal hx.2 ht.2
      refine ⟨.qty t, ?_, rfl, ht, fun _ => ⟨.qty ⟨t, v⟩, ?_, rfl, ?_⟩, fun h => absurd trivial h⟩
      · simp only [tCast, QVal.ty, hd, ne_eq, not_true_eq_false, if_false, i1, Res.bind_ok]; rfl
      · simp only [vCast, h1, Res.bind_ok]; rfl
      · show t.scal.val * v = a.ty.scal.val * a.val + t.scal.val * ((a.ty.off : ℝ) - (t.off : ℝ))
        rw [h2]
        have := (RootRatio.val_pos _ ht.2).ne'
        simp only [RCLike.ofReal_real_eq_id, id_eq]
        field_simp
    · left
      simp only [vCast, tCast, QVal.ty, quantityCast, hd, ne_eq, not_false_eq_true, if_true]
      exact ⟨trivial, rfl⟩

theorem same_off (f : QVal → QVal → Res QVal) (F : ℝ → ℝ → ℝ)
    (hF : ∀ c x y : ℝ, 0 < c → c * F x y = F (c * x) (c * y))
    (hn : ∀ x y, f (.num x) (.num y) = .ok (.num (F x y)))
    (hm : ∀ x b, f (.num x) (.qty b) = .ub) (hm' : ∀ a y, f (.qty a) (.num y) = .ub)
    (hq : ∀ a b, f (.qty a) (.qty b) = if a.ty ≠ b.ty then .ub else .ok (.qty ⟨a.ty, F a.val b.val⟩)) :
    BinO f tSame offSame F (fun _ => True) := by
  intro x y hx hy
  cases x with
  | num x => cases y with
    | num y => exact Or.inr ⟨.num, by simp [tSame, QVal.ty], rfl, trivial, fun _ => ⟨_, hn x y, rfl, rfl⟩, fun h => absurd trivial h⟩
    | qty b => exact Or.inl ⟨by simp [tSame, QVal.ty], hm x b⟩
  | qty a => cases y with
    | num y => exact Or.inl ⟨by simp [tSame, QVal.ty], hm' a y⟩
    | qty b =>
      by_cases h : a.ty = b.ty
      · right
        refine ⟨.qty a.ty, by simp [tSame, QVal.ty, h], by simp [offSame, QVal.ty, QT.off, h], hx,
          fun _ => ⟨_, by rw [hq, if_neg (not_not.2 h)], rfl, ?_⟩, fun h => absurd trivial h⟩
        show a.ty.scal.val * F a.val b.val = F (a.ty.scal.val * a.val) (b.ty.scal.val * b.val)
        rw [← h]
        exact hF _ _ _ (qty_scal_pos a hx)
      · left
        exact ⟨by simp [tSame, QVal.ty, h], by rw [hq, if_pos h]⟩

theorem vFmax_off : BinO vFmax tSame offSame (fun x y => max x y) (fun _ => True) :=
  same_off vFmax _ (fun _ x y h => mul_max_of_nonneg x y h.le) (fun _ _ => rfl) (fun _ _ => rfl) (fun _ _ => rfl) (fun _ _ => rfl)

theorem vFmin_off : BinO vFmin tSame offSame (fun x y => min x y) (fun _ => True) :=
  same_off vFmin _ (fun _ x y h => mul_min_of_nonneg x y h.le) (fun _ _ => rfl) (fun _ _ => rfl) (fun _ _ => rfl) (fun _ _ => rfl)

theorem vHypot_off : BinO vHypot tSame offSame (fun x y => Real.sqrt (x ^ 2 + y ^ 2)) (fun _ => True) :=
  same_off vHypot _ (fun c x y h => by
    rw [mul_pow, mul_pow, ← mul_add, Real.sqrt_mul (by positivity), Real.sqrt_sq h.le])
    (fun _ _ => rfl) (fun _ _ => rfl) (fun _ _ => rfl) (fun _ _ => rfl)

/-- Every expression: does not compile, or the complete description. -/
theorem masterO (env : ℕ → QVal) (henv : ∀ i, (env i).ty.Valid) (e : QEx) (hc : e.CastsValid) :
    MasterO (e.type fun i => (env i).ty) (e.eval env) (e.offs fun i => (env i).ty.off)
      (e.DefinedR (fun i => (env i).ty.off) fun i => (env i).reading) (e.reading (fun i => (env i).ty.off) fun i => (env i).reading) := by
  have hb : ∀ r : Res QT, (do let x ← r; Res.ok x) = r := fun r => by cases r <;> rfl
  have ho : ∀ r : Option (Option ℚ), r.bind some = r := fun r => by cases r <;> rfl
  induction e with
  | var i => exact Or.inr ⟨_, rfl, rfl, henv i, fun _ => ⟨_, rfl, rfl, rfl⟩, fun h => absurd trivial h⟩
  | lit x => exact Or.inr ⟨_, rfl, rfl, trivial, fun _ => ⟨_, rfl, rfl, rfl⟩, fun h => absurd trivial h⟩
  | add a b iha ihb => exact (binO_step vAdd_off (iha hc.1) (ihb hc.2)).congr (by simp [QEx.DefinedR]) rfl
  | sub a b iha ihb => exact (binO_step vSub_off (iha hc.1) (ihb hc.2)).congr (by simp [QEx.DefinedR]) rfl
  | mul a b iha ihb => exact (binO_step vMul_off (iha hc.1) (ihb hc.2)).congr (by simp [QEx.DefinedR]) rfl
  | div a b iha ihb => exact (binO_step vDiv_off (iha hc.1) (ihb hc.2)).congr (by simp [QEx.DefinedR]) rfl
  | neg a ih =>
    have h := unO_step vNeg_off (ih hc)
    rw [hb, ho] at h
    exact h.congr (by simp [QEx.DefinedR]) rfl
  | pow n a ih => exact (unO_step (vPow_off n) (ih hc)).congr (by simp [QEx.DefinedR]) rfl
  | root n a ih => exact (unO_step (vRoot_off n) (ih hc)).congr (by simp [QEx.DefinedR]) rfl
  | cast t a ih => exact (unO_step (vCast_off t hc.1) (ih hc.2)).congr (by simp [QEx.DefinedR]) rfl
  | abs a ih =>
    have h := unO_step vAbs_off (ih hc)
    rw [hb, ho] at h
    exact h.congr (by simp [QEx.DefinedR]) rfl
  | fmax a b iha ihb => exact (binO_step vFmax_off (iha hc.1) (ihb hc.2)).congr (by simp [QEx.DefinedR]) rfl
  | fmin a b iha ihb => exact (binO_step vFmin_off (iha hc.1) (ihb hc.2)).congr (by simp [QEx.DefinedR]) rfl
  | hypot a b iha ihb => exact (binO_step vHypot_off (iha hc.1) (ihb hc.2)).congr (by simp [QEx.DefinedR]) rfl

/-! ### C127 -/

/-- C127 (soundness): whatever the units and zero points of the variables, the value of an expression has the type the compiler computed, the zero
point the rules of `QEx.offs` give, and the reading the expression gives on the readings alone; zero points enter the value only in conversions. -/
theorem C127_sound (env : ℕ → QVal) (henv : ∀ i, (env i).ty.Valid) (e : QEx) (hc : e.CastsValid) (v : QVal) (h : e.eval env = .ok v) :
    (e.type fun i => (env i).ty) = .ok v.ty ∧ v.ty.Valid ∧
    (e.offs fun i => (env i).ty.off) = some v.ty.off ∧
    v.reading = e.reading (fun i => (env i).ty.off) (fun i => (env i).reading) := by
  rcases masterO env henv e hc with ⟨-, h'⟩ | ⟨t, h1, h2, h3, h4, h5⟩
  · rw [h] at h'; cases h'
  · by_cases hd : e.DefinedR (fun i => (env i).ty.off) fun i => (env i).reading
    · obtain ⟨w, k1, rfl, k3⟩ := h4 hd
      rw [h] at k1; injection k1 with k1; subst k1
      exact ⟨h1, h3, h2, k3⟩
    · rw [h5 hd] at h; cases h

/-- C127 (evaluation): an expression has a value exactly when it compiles, divides by no zero reading and takes no root of a negative reading. -/
theorem C127_defined (env : ℕ → QVal) (henv : ∀ i, (env i).ty.Valid) (e : QEx) (hc : e.CastsValid) :
    (∃ v, e.eval env = .ok v) ↔
      (∃ t, (e.type fun i => (env i).ty) = .ok t) ∧ e.DefinedR (fun i => (env i).ty.off) (fun i => (env i).reading) := by
  rcases masterO env henv e hc with ⟨h, h'⟩ | ⟨t, h1, h2, h3, h4, h5⟩
  · rw [h, h']; simp
  · constructor
    · rintro ⟨v, hv⟩
      refine ⟨⟨t, h1⟩, ?_⟩
      by_contra hd
      rw [h5 hd] at hv; cases hv
    · rintro ⟨-, hd⟩
      obtain ⟨v, hv, -⟩ := h4 hd
      exact ⟨v, hv⟩

/-! ### Which expressions compile -/

theorem QT.ext_strip {s t : QT} (h1 : s.strip = t.strip) (h2 : s.off = t.off) : s = t := by
  cases s with
  | num => cases t with
    | num => rfl
    | qty t => cases h1
  | qty s => cases t with
    | num => cases h1
    | qty t =>
      simp only [QT.strip, QT.qty.injEq, QTy.mk.injEq, and_true] at h1
      simp only [QT.off, Option.some.injEq] at h2
      obtain ⟨a, b, c⟩ := s
      obtain ⟨a', b', c'⟩ := t
      simp only at h1 h2
      rw [h1.1, h1.2, h2]

/-- The type with zero points, the type without, and the zero point. -/
def Split (tr sr : Res QT) (off : Option (Option ℚ)) : Prop :=
  (∃ t, tr = .ok t ∧ sr = .ok t.strip ∧ off = some t.off) ∨ (tr = .ub ∧ (sr = .ub ∨ off = none))

theorem split_bin {g : QT → QT → Res QT} {R : Option ℚ → Option ℚ → Option (Option ℚ)}
    (h : ∀ s t, Split (g s t) (g s.strip t.strip) (R s.off t.off)) {ta tb sa sb : Res QT} {oa ob : Option (Option ℚ)}
    (ha : Split ta sa oa) (hb : Split tb sb ob) :
    Split (do let x ← ta; let y ← tb; g x y) (do let x ← sa; let y ← sb; g x y) (oa.bind fun x => ob.bind fun y => R x y) := by
  rcases ha with ⟨s, rfl, rfl, rfl⟩ | ⟨rfl, rfl | rfl⟩
  · rcases hb with ⟨t, rfl, rfl, rfl⟩ | ⟨rfl, rfl | rfl⟩
    · exact h s t
    · exact Or.inr ⟨rfl, Or.inl rfl⟩
    · exact Or.inr ⟨rfl, Or.inr rfl⟩
  · exact Or.inr ⟨rfl, Or.inl rfl⟩
  · exact Or.inr ⟨rfl, Or.inr rfl⟩

theorem split_un {g g' : QT → Res QT} {R : Option ℚ → Option (Option ℚ)}
    (h : ∀ s, Split (g s) (g' s.strip) (R s.off)) {ta sa : Res QT} {oa : Option (Option ℚ)} (ha : Split ta sa oa) :
    Split (do let x ← ta; g x) (do let x ← sa; g' x) (oa.bind R) := by
  rcases ha with ⟨s, rfl, rfl, rfl⟩ | ⟨rfl, rfl | rfl⟩
  · exact h s
  · exact Or.inr ⟨rfl, Or.inl rfl⟩
  · exact Or.inr ⟨rfl, Or.inr rfl⟩

theorem split_add (s t : QT) : Split (tAdd s t) (tAdd s.strip t.strip) (offSame s.off t.off) := by
  cases s with
  | num => cases t with
    | num => exact Or.inl ⟨.num, rfl, rfl, rfl⟩
    | qty t => exact Or.inr ⟨rfl, Or.inl rfl⟩
  | qty s => cases t with
    | num => exact Or.inr ⟨rfl, Or.inl rfl⟩
    | qty t =>
      by_cases ho : s.off = t.off
      swap
      · exact Or.inr ⟨tAdd_off_ne _ _ ho, Or.inr (by simp [offSame, QT.off, ho])⟩
      by_cases hd : s.dim = t.dim
      swap
      · right; simp [tAdd, hd, QT.strip]
      simp only [tAdd, QT.strip, hd, ne_eq, not_true_eq_false, if_false, commonQuantity, ho, offSame, QT.off, if_true]
      cases rrCommon s.scal t.scal with
      | ub => exact Or.inr ⟨rfl, Or.inl rfl⟩
      | ok c =>
        show Split ((rrDiv s.scal c).bind _) ((rrDiv s.scal c).bind _) _
        cases rrDiv s.scal c with
        | ub => exact Or.inr ⟨rfl, Or.inl rfl⟩
        | ok _ =>
          show Split ((rrDiv t.scal c).bind _) ((rrDiv t.scal c).bind _) _
          cases rrDiv t.scal c with
          | ub => exact Or.inr ⟨rfl, Or.inl rfl⟩
          | ok _ => exact Or.inl ⟨.qty ⟨t.dim, c, t.off⟩, rfl, rfl, rfl⟩

theorem split_same (s t : QT) : Split (tSame s t) (tSame s.strip t.strip) (offSame s.off t.off) := by
  unfold tSame offSame
  by_cases h : s = t
  · subst h
    exact Or.inl ⟨s, if_pos rfl, if_pos rfl, if_pos rfl⟩
  · right
    refine ⟨if_neg h, ?_⟩
    by_cases h1 : s.strip = t.strip
    · right
      exact if_neg fun h2 => h (QT.ext_strip h1 h2)
    · left; exact if_neg h1

theorem split_pair (x y : Res RootRatio) : Split (do let d ← x; let s ← y; pure (QT.qty ⟨d, s, 0⟩)) (do let d ← x; let s ← y; pure (QT.qty ⟨d, s, 0⟩))
    (some (some 0)) := by
  cases x with
  | ub => exact Or.inr ⟨rfl, Or.inl rfl⟩
  | ok d => cases y with
    | ub => exact Or.inr ⟨rfl, Or.inl rfl⟩
    | ok s => exact Or.inl ⟨.qty ⟨d, s, 0⟩, rfl, rfl, rfl⟩

theorem split_mul (s t : QT) : Split (tMul s t) (tMul s.strip t.strip) (offMul s.off t.off) := by
  cases s with
  | num => cases t with
    | num => exact Or.inl ⟨.num, rfl, rfl, rfl⟩
    | qty t => exact Or.inl ⟨.qty t, rfl, rfl, rfl⟩
  | qty s => cases t with
    | num => exact Or.inl ⟨.qty s, rfl, rfl, rfl⟩
    | qty t =>
      by_cases ho : t.off = 0
      · have := split_pair (rrMul s.dim t.dim) (rrMul s.scal t.scal)
        simp only [tMul, tyMul, QT.strip, offMul, QT.off, ho, ne_eq, not_true_eq_false, if_false, if_true]
        cases hx : rrMul s.dim t.dim <;> cases hy : rrMul s.scal t.scal <;> rw [hx, hy] at this <;> exact this
      · right
        simp only [tMul, tyMul, offMul, QT.off, ho, ne_eq, not_false_eq_true, if_true, if_false, or_true, and_true]; rfl

theorem split_div (s t : QT) : Split (tDiv s t) (tDiv s.strip t.strip) (offDiv s.off t.off) := by
  cases s with
  | num => cases t with
    | num => exact Or.inl ⟨.num, rfl, rfl, rfl⟩
    | qty t =>
      have := split_pair (rrDiv ⟨1, 1, 1⟩ t.dim) (rrDiv ⟨1, 1, 1⟩ t.scal)
      simp only [tDiv, tyInv, QT.strip, offDiv, QT.off]
      cases hx : rrDiv ⟨1, 1, 1⟩ t.dim <;> cases hy : rrDiv ⟨1, 1, 1⟩ t.scal <;> rw [hx, hy] at this <;> exact this
  | qty s => cases t with
    | num => exact Or.inl ⟨.qty s, rfl, rfl, rfl⟩
    | qty t =>
      by_cases ho : t.off = 0
      · have := split_pair (rrDiv s.dim t.dim) (rrDiv s.scal t.scal)
        simp only [tDiv, tyDiv, QT.strip, offDiv, QT.off, ho, ne_eq, not_true_eq_false, if_false, if_true]
        cases hx : rrDiv s.dim t.dim <;> cases hy : rrDiv s.scal t.scal <;> rw [hx, hy] at this <;> exact this
      · right
        simp only [tDiv, tyDiv, offDiv, QT.off, ho, ne_eq, not_false_eq_true, if_true, if_false, or_true, and_true]; rfl

theorem split_pow (n : ℕ) (s : QT) : Split (tPow n s) (tPow n s.strip) (offZero s.off) := by
  cases s with
  | num => exact Or.inl ⟨.num, rfl, rfl, rfl⟩
  | qty s => exact split_pair (rrPow s.dim n) (rrPow s.scal n)

theorem split_root (n : ℕ) (s : QT) : Split (tRoot n s) (tRoot n s.strip) (offZero s.off) := by
  cases s with
  | num => exact Or.inl ⟨.num, rfl, rfl, rfl⟩
  | qty s => exact split_pair (rrRoot s.dim (n + 1)) (rrRoot s.scal (n + 1))

theorem split_cast (t : QTy) (s : QT) : Split (tCast t s) (tCast ⟨t.dim, t.scal, 0⟩ s.strip) (offCast t s.off) := by
  cases s with
  | num => exact Or.inr ⟨rfl, Or.inl rfl⟩
  | qty s =>
    by_cases hd : s.dim = t.dim
    swap
    · right; simp [tCast, hd, QT.strip]
    simp only [tCast, QT.strip, hd, ne_eq, not_true_eq_false, if_false, offCast, QT.off]
    cases rrDiv s.scal t.scal with
    | ub => exact Or.inr ⟨rfl, Or.inl rfl⟩
    | ok _ => exact Or.inl ⟨.qty t, rfl, rfl, rfl⟩

theorem split_all (Γ : ℕ → QT) (e : QEx) : Split (e.type Γ) (e.strip.type fun i => (Γ i).strip) (e.offs fun i => (Γ i).off) := by
  induction e with
  | var i => exact Or.inl ⟨Γ i, rfl, rfl, rfl⟩
  | lit x => exact Or.inl ⟨.num, rfl, rfl, rfl⟩
  | add a b iha ihb => exact split_bin split_add iha ihb
  | sub a b iha ihb => exact split_bin split_add iha ihb
  | mul a b iha ihb => exact split_bin split_mul iha ihb
  | div a b iha ihb => exact split_bin split_div iha ihb
  | neg a ih => exact ih
  | pow n a ih => exact split_un (split_pow n) ih
  | root n a ih => exact split_un (split_root n) ih
  | cast t a ih => exact split_un (split_cast t) ih
  | abs a ih => exact ih
  | fmax a b iha ihb => exact split_bin split_same iha ihb
  | fmin a b iha ihb => exact split_bin split_same iha ihb
  | hypot a b iha ihb => exact split_bin split_same iha ihb

/-- C127 (compilation): for any types, an expression compiles to the type `t` exactly when the same expression with every zero point replaced by 0 compiles
to `t` without its zero point (which C120 decides) and the zero points obey the rules and give that of `t`. -/
theorem C127_compiles (Γ : ℕ → QT) (e : QEx) (t : QT) :
    e.type Γ = .ok t ↔ (e.strip.type fun i => (Γ i).strip) = .ok t.strip ∧ (e.offs fun i => (Γ i).off) = some t.off := by
  rcases split_all Γ e with ⟨s, h1, h2, h3⟩ | ⟨h1, h2⟩
  · rw [h1, h2, h3]
    constructor
    · intro h; injection h with h; subst h; exact ⟨rfl, rfl⟩
    · rintro ⟨h, h'⟩
      injection h with h; injection h' with h'
      rw [QT.ext_strip h h']
  · rw [h1]
    constructor
    · intro h; cases h
    · rintro ⟨h, h'⟩
      rcases h2 with h2 | h2
      · rw [h2] at h; cases h
      · rw [h2] at h'; cases h'

/-! ### What the operations denote -/

/-- C127 (what each operation denotes): for quantities with the zero points `o` in units of any scale, in terms of the absolute values (`denote`). -/
theorem C127_denotes (a b : Qty ℝ) (ha : a.ty.Valid) (hb : b.ty.Valid) (k : ℝ) (n : ℕ) :
    (a.ty.dim = b.ty.dim → a.ty.off = b.ty.off →
      (∃ r, qAdd a b = .ok r ∧ r.ty.off = a.ty.off ∧ r.denote = a.denote + b.denote - a.ty.off) ∧
      (∃ r, qSub a b = .ok r ∧ r.ty.off = a.ty.off ∧ r.denote = a.denote - b.denote + a.ty.off)) ∧
    (qNeg a).denote = -a.denote + 2 * a.ty.off ∧
    (qScale k a).denote = k * a.denote + (1 - k) * a.ty.off ∧
    (qAbs a).denote = |a.denote - a.ty.off| + a.ty.off ∧
    (b.ty.off = 0 →
      (∃ r, qMul a b = .ok r ∧ r.ty.off = 0 ∧ r.denote = (a.denote - a.ty.off) * b.denote) ∧
      (∃ r, qDiv a b = .ok r ∧ r.ty.off = 0 ∧ r.denote = (a.denote - a.ty.off) / b.denote)) ∧
    (b.ty.off ≠ 0 → qMul a b = .ub ∧ qDiv a b = .ub) ∧
    (∃ r, qScalarDiv k a = .ok r ∧ r.ty.off = 0 ∧ r.denote = k / (a.denote - a.ty.off)) ∧
    (∃ r, qPow n a = .ok r ∧ r.ty.off = 0 ∧ r.denote = (a.denote - a.ty.off) ^ n) ∧
    (0 ≤ a.val → 0 < n → ∃ r, qRoot n a = .ok r ∧ r.ty.off = 0 ∧ r.denote = (a.denote - a.ty.off) ^ ((1 : ℝ) / n)) ∧
    (∀ x y : ℝ, (qFmax a.ty x y).denote = max (⟨a.ty, x⟩ : Qty ℝ).denote (⟨a.ty, y⟩ : Qty ℝ).denote ∧
      (qFmin a.ty x y).denote = min (⟨a.ty, x⟩ : Qty ℝ).denote (⟨a.ty, y⟩ : Qty ℝ).denote) := by
  have den : ∀ q : Qty ℝ, q.denote = q.ty.scal.val * q.val + (q.ty.off : ℝ) := fun q => by simp [Qty.denote]
  have hp := qty_scal_pos a ha
  refine ⟨fun hd ho => ?_, ?_, ?_, ?_, fun hb0 => ?_, fun hb0 => ?_, ?_, ?_, fun hv hn => ?_, fun x y => ⟨?_, ?_⟩⟩
  · obtain ⟨t, -, k2, -, ⟨v, k4, k5⟩, ⟨w, k6, k7⟩⟩ := addsub_off a b ha hb hd ho
    refine ⟨⟨_, k4, k2, ?_⟩, ⟨_, k6, k2, ?_⟩⟩
    · rw [den, den, den]; show t.scal.val * v + (t.off : ℝ) = _; rw [k5, k2, ← ho]; ring
    · rw [den, den, den]; show t.scal.val * w + (t.off : ℝ) = _; rw [k7, k2, ← ho]; ring
  · rw [den, den]; show a.ty.scal.val * -a.val + (a.ty.off : ℝ) = _; ring
  · rw [den, den]; show a.ty.scal.val * (k * a.val) + (a.ty.off : ℝ) = _; ring
  · rw [den, den]; show a.ty.scal.val * |a.val| + (a.ty.off : ℝ) = _
    rw [add_sub_cancel_right, abs_mul, abs_of_pos hp]
  · obtain ⟨d, h1, h2, h3⟩ := C34_multiply a.ty.dim b.ty.dim ha.1 hb.1
    obtain ⟨s, g1, g2, g3⟩ := C34_multiply a.ty.scal b.ty.scal ha.2 hb.2
    obtain ⟨d', h1', h2', h3'⟩ := C34_divide a.ty.dim b.ty.dim ha.1 hb.1
    obtain ⟨s', g1', g2', g3'⟩ := C34_divide a.ty.scal b.ty.scal ha.2 hb.2
    refine ⟨⟨⟨⟨d, s, 0⟩, a.val * b.val⟩, ?_, rfl, ?_⟩, ⟨⟨⟨d', s', 0⟩, a.val / b.val⟩, ?_, rfl, ?_⟩⟩
    · simp only [qMul, hb0, ne_eq, not_true_eq_false, if_false, h1, g1, Res.bind_ok]; rfl
    · rw [den, den, den, hb0]; simp only [Rat.cast_zero, add_zero, g3]; ring
    · simp only [qDiv, hb0, ne_eq, not_true_eq_false, if_false, h1', g1', Res.bind_ok]; rfl
    · rw [den, den, den, hb0]; simp only [Rat.cast_zero, add_zero, g3', add_sub_cancel_right]; exact (mul_div_mul_comm _ _ _ _).symm
  · exact ⟨by rw [qMul, if_pos hb0], by rw [qDiv, if_pos hb0]⟩
  · obtain ⟨d, h1, h2, h3⟩ := C34_divide ⟨1, 1, 1⟩ a.ty.dim valid_one ha.1
    obtain ⟨s, g1, g2, g3⟩ := C34_divide ⟨1, 1, 1⟩ a.ty.scal valid_one ha.2
    rw [val_one] at g3
    refine ⟨⟨⟨d, s, 0⟩, k * (1 / a.val)⟩, ?_, rfl, ?_⟩
    · simp only [qScalarDiv, qInv, h1, g1, Res.bind_ok, Res.pure_eq, qScale]
    · rw [den, den]; simp only [Rat.cast_zero, add_zero, g3, add_sub_cancel_right]; field_simp
  · obtain ⟨d, h1, h2, h3⟩ := C34_power a.ty.dim ha.1 n
    obtain ⟨s, g1, g2, g3⟩ := C34_power a.ty.scal ha.2 n
    refine ⟨⟨⟨d, s, 0⟩, powSq a.val n⟩, ?_, rfl, ?_⟩
    · unfold qPow; rw [h1, g1]; rfl
    · rw [den, den]; simp only [Rat.cast_zero, add_zero, g3, add_sub_cancel_right, C69_power_nonneg_partial]; exact (mul_pow _ _ _).symm
  · obtain ⟨d, h1, h2, h3⟩ := C34_root a.ty.dim n ha.1 hn
    obtain ⟨s, g1, g2, g3⟩ := C34_root a.ty.scal n ha.2 hn
    refine ⟨⟨⟨d, s, 0⟩, a.val ^ ((1 : ℝ) / n)⟩, ?_, rfl, ?_⟩
    · unfold qRoot; rw [h1, g1]; rfl
    · rw [den, den]; simp only [Rat.cast_zero, add_zero, g3, add_sub_cancel_right]
      rw [Real.mul_rpow hp.le hv]
  · rw [den, den, den]
    show a.ty.scal.val * max x y + (a.ty.off : ℝ) = _
    rw [mul_max_of_nonneg _ _ hp.le, max_add_add_right]
  · rw [den, den, den]
    show a.ty.scal.val * min x y + (a.ty.off : ℝ) = _
    rw [mul_min_of_nonneg _ _ hp.le, min_add_add_right]

/-- C127 (when the result is right): `+`, `-`, unary `-`, `k *` with `k ≠ 1`, `*`, `/` and `k /` give the result of the operation on the absolute
values exactly when the zero point of the (left) operand is 0; `abs` exactly when it is 0 or the value is neither negative nor below the zero point. -/
theorem C127_right_iff (a b : Qty ℝ) (ha : a.ty.Valid) (hb : b.ty.Valid) (k : ℝ) :
    (∀ r, qAdd a b = .ok r → (r.denote = a.denote + b.denote ↔ a.ty.off = 0)) ∧
    (∀ r, qSub a b = .ok r → (r.denote = a.denote - b.denote ↔ a.ty.off = 0)) ∧
    ((qNeg a).denote = -a.denote ↔ a.ty.off = 0) ∧
    ((qScale k a).denote = k * a.denote ↔ k = 1 ∨ a.ty.off = 0) ∧
    ((qAbs a).denote = |a.denote| ↔ a.ty.off = 0 ∨ (0 ≤ a.denote ∧ a.ty.off ≤ a.denote)) ∧
    (∀ r, qMul a b = .ok r → (r.denote = a.denote * b.denote ↔ a.ty.off = 0 ∨ b.denote = 0)) ∧
    (∀ r, qDiv a b = .ok r → b.denote ≠ 0 → (r.denote = a.denote / b.denote ↔ a.ty.off = 0)) ∧
    (∀ r, qScalarDiv k a = .ok r → a.val ≠ 0 → a.denote ≠ 0 → (r.denote = k / a.denote ↔ k = 0 ∨ a.ty.off = 0)) := by
  obtain ⟨h1, h2, h3, h4, h5, h6, ⟨w, h7, -, h8⟩, -⟩ := C127_denotes a b ha hb k 0
  have den : a.denote = a.ty.scal.val * a.val + (a.ty.off : ℝ) := by simp [Qty.denote]
  have hc : ((a.ty.off : ℝ) = 0 ↔ a.ty.off = 0) := by exact_mod_cast Iff.rfl
  refine ⟨fun r hr => ?_, fun r hr => ?_, ?_, ?_, ?_, fun r hr => ?_, fun r hr h0 => ?_, fun r hr hv hz => ?_⟩
  · by_cases hd : a.ty.dim = b.ty.dim
    swap
    · simp [qAdd, hd] at hr
    by_cases ho : a.ty.off = b.ty.off
    swap
    · simp only [qAdd, hd, ne_eq, not_true_eq_false, if_false, commonQuantity, ho, not_false_eq_true, if_true] at hr; cases hr
    obtain ⟨⟨s, g1, -, g2⟩, -⟩ := h1 hd ho
    rw [hr] at g1; injection g1 with g1; subst g1
    rw [g2, ← hc, sub_eq_self]
  · by_cases hd : a.ty.dim = b.ty.dim
    swap
    · simp [qSub, hd] at hr
    by_cases ho : a.ty.off = b.ty.off
    swap
    · simp only [qSub, hd, ne_eq, not_true_eq_false, if_false, commonQuantity, ho, not_false_eq_true, if_true] at hr; cases hr
    obtain ⟨-, ⟨s, g1, -, g2⟩⟩ := h1 hd ho
    rw [hr] at g1; injection g1 with g1; subst g1
    rw [g2, ← hc, add_eq_left]
  · rw [h2, ← hc, add_eq_left]; simp
  · rw [h3, ← hc, add_eq_left, mul_eq_zero, sub_eq_zero, eq_comm]
  · rw [h4, ← hc]
    constructor
    · intro h
      by_contra hcon
      rw [not_or, not_and_or, not_le, not_le] at hcon
      obtain ⟨h0, h' | h'⟩ := hcon
      · rw [abs_of_neg h'] at h
        rcases abs_cases (a.denote - (a.ty.off : ℝ)) with ⟨e, g⟩ | ⟨e, g⟩
        · rw [e] at h; linarith
        · rw [e] at h; exact h0 (by linarith)
      · rw [abs_of_neg (by linarith)] at h
        rcases abs_cases a.denote with ⟨e, g⟩ | ⟨e, g⟩
        · rw [e] at h; linarith
        · rw [e] at h; exact h0 (by linarith)
    · rintro (h | ⟨h, h'⟩)
      · rw [h]; simp
      · rw [abs_of_nonneg (by linarith), abs_of_nonneg h]; ring
  · by_cases hb0 : b.ty.off = 0
    swap
    · rw [(h6 hb0).1] at hr; cases hr
    obtain ⟨⟨s, g1, -, g2⟩, -⟩ := h5 hb0
    rw [hr] at g1; injection g1 with g1; subst g1
    rw [g2, ← hc, sub_mul, sub_eq_self, mul_eq_zero]
  · by_cases hb0 : b.ty.off = 0
    swap
    · rw [(h6 hb0).2] at hr; cases hr
    obtain ⟨-, ⟨s, g1, -, g2⟩⟩ := h5 hb0
    rw [hr] at g1; injection g1 with g1; subst g1
    rw [g2, ← hc, div_left_inj' h0, sub_eq_self]
  · rw [hr] at h7; injection h7 with h7; subst h7
    rw [h8, ← hc]
    have hne : a.denote - (a.ty.off : ℝ) ≠ 0 := by
      rw [den, add_sub_cancel_right]; exact mul_ne_zero (qty_scal_pos a ha).ne' hv
    rw [div_eq_div_iff hne hz, mul_sub, eq_comm, sub_eq_self, mul_eq_zero]

/-- C127 (weighted means): `k * a + l * b` of two quantities with the zero point `o` denotes `k` times the one absolute value plus `l` times the other plus
`(1 - k - l) * o`; so weighted means (`k + l = 1`), and in particular `(a + b) / 2`, are right for every zero point. -/
theorem C127_means (env : ℕ → QVal) (a b : Qty ℝ) (ha : a.ty.Valid) (hb : b.ty.Valid) (hd : a.ty.dim = b.ty.dim) (ho : a.ty.off = b.ty.off)
    (h0 : env 0 = .qty a) (h1 : env 1 = .qty b) (k l : ℝ) :
    (∃ r, (QEx.add (.mul (.lit k) (.var 0)) (.mul (.lit l) (.var 1))).eval env = .ok (.qty r) ∧ r.ty.off = a.ty.off ∧
      r.denote = k * a.denote + l * b.denote + (1 - k - l) * a.ty.off ∧
      (r.denote = k * a.denote + l * b.denote ↔ k + l = 1 ∨ a.ty.off = 0)) ∧
    (∃ r, (QEx.div (.add (.var 0) (.var 1)) (.lit 2)).eval env = .ok (.qty r) ∧ r.denote = (a.denote + b.denote) / 2) := by
  have hc : ((a.ty.off : ℝ) = 0 ↔ a.ty.off = 0) := by exact_mod_cast Iff.rfl
  constructor
  · obtain ⟨h, -⟩ := C127_denotes (qScale k a) (qScale l b) ha hb 0 0
    obtain ⟨⟨r, g1, g2, g3⟩, -⟩ := h hd ho
    have ea := (C127_denotes a b ha hb k 0).2.2.1
    have eb := (C127_denotes b a hb ha l 0).2.2.1
    have e : r.denote = k * a.denote + l * b.denote + (1 - k - l) * a.ty.off := by
      rw [g3, ea, eb, ← ho]
      show k * a.denote + (1 - k) * (a.ty.off : ℝ) + (l * b.denote + (1 - l) * (a.ty.off : ℝ)) - (a.ty.off : ℝ) = _
      ring
    refine ⟨r, ?_, g2, e, ?_⟩
    · show ((Res.ok (env 0)).bind fun y => vMul (.num k) y).bind _ = _
      rw [h0]
      show ((Res.ok (env 1)).bind fun y => vMul (.num l) y).bind _ = _
      rw [h1]
      show vAdd (.qty (qScale k a)) (.qty (qScale l b)) = _
      simp only [vAdd, g1]; rfl
    · rw [e, add_eq_left, mul_eq_zero, hc]
      constructor
      · rintro (h | h)
        · left; linarith
        · exact Or.inr h
      · rintro (h | h)
        · left; linarith
        · exact Or.inr h
  · obtain ⟨h, -⟩ := C127_denotes a b ha hb 0 0
    obtain ⟨⟨r, g1, g2, g3⟩, -⟩ := h hd ho
    refine ⟨qScale (1 / 2) r, ?_, ?_⟩
    · show ((Res.ok (env 0)).bind fun x => (Res.ok (env 1)).bind fun y => vAdd x y).bind _ = _
      rw [h0, h1]
      show (vAdd (.qty a) (.qty b)).bind _ = _
      simp only [vAdd, g1]
      show vDiv (.qty r) (.num 2) = _
      simp [vDiv, qDivScalar]
    · have : (qScale (1 / 2) r).denote = 1 / 2 * r.denote + (1 - 1 / 2) * r.ty.off := by
        simp only [Qty.denote, qScale, RCLike.ofReal_real_eq_id, id_eq]; ring
      rw [this, g2, g3]; ring

/-! ### Examples -/

/-- The variables of the examples: `x 0` and `x 1` degrees Celsius, the others metres. -/
noncomputable def tempEnv (x : ℕ → ℝ) : ℕ → QVal
  | 0 => .qty ⟨celsiusTy (tyTemperature one1 0).dim, x 0⟩
  | 1 => .qty ⟨celsiusTy (tyTemperature one1 0).dim, x 1⟩
  | n + 2 => .qty ⟨tyLength one1, x (n + 2)⟩

theorem tempEnv_valid (x : ℕ → ℝ) (i : ℕ) : (tempEnv x i).ty.Valid := by
  have h1 : (tyTemperature one1 0).dim.Valid := by
    refine ⟨by decide, by decide, by decide, by decide⟩
  have h2 : (tyLength one1).Valid := ⟨⟨by decide, by decide, by decide, by decide⟩, valid_one⟩
  match i with
  | 0 => exact ⟨h1, valid_one⟩
  | 1 => exact ⟨h1, valid_one⟩
  | n + 2 => exact h2

/-- C127 (example): `20 °C - 10 °C` compiles to a quantity in degrees Celsius that reads 10, that is 283.15 K, not a difference of 10 K; and
`(20 °C) * (3 m)` compiles and denotes `60`, while `(3 m) * (20 °C)` does not compile. -/
theorem C127_difference_false (x : ℕ → ℝ) (h0 : x 0 = 20) (h1 : x 1 = 10) (h2 : x 2 = 3) :
    (∃ r : Qty ℝ, (QEx.sub (.var 0) (.var 1)).eval (tempEnv x) = .ok (.qty r) ∧ r.ty.off = 27315 / 100 ∧ r.denote = 28315 / 100 ∧
      (tempEnv x 0).amount - (tempEnv x 1).amount = 10) ∧
    (∃ r : Qty ℝ, (QEx.mul (.var 0) (.var 2)).eval (tempEnv x) = .ok (.qty r) ∧ r.denote = 60 ∧
      (tempEnv x 0).amount * (tempEnv x 2).amount = 87945 / 100) ∧
    (QEx.mul (.var 2) (.var 0)).eval (tempEnv x) = .ub := by
  have d0 : (⟨celsiusTy (tyTemperature one1 0).dim, x 0⟩ : Qty ℝ).denote = 29315 / 100 := by
    simp only [Qty.denote, celsiusTy, val_one, h0]; norm_num
  have d1 : (⟨celsiusTy (tyTemperature one1 0).dim, x 1⟩ : Qty ℝ).denote = 28315 / 100 := by
    simp only [Qty.denote, celsiusTy, val_one, h1]; norm_num
  have d2 : (⟨tyLength one1, x 2⟩ : Qty ℝ).denote = 3 := by
    simp only [Qty.denote, tyLength, one1, val_one, h2]; norm_num
  have v0 : (celsiusTy (tyTemperature one1 0).dim).Valid := tempEnv_valid x 0
  have v2 : (tyLength one1).Valid := tempEnv_valid x 2
  refine ⟨?_, ?_, ?_⟩
  · obtain ⟨h, -⟩ := C127_denotes (⟨celsiusTy (tyTemperature one1 0).dim, x 0⟩ : Qty ℝ) ⟨celsiusTy (tyTemperature one1 0).dim, x 1⟩ v0 v0 0 0
    obtain ⟨-, ⟨r, g1, g2, g3⟩⟩ := h rfl rfl
    refine ⟨r, ?_, g2, ?_, ?_⟩
    · show vSub (.qty _) (.qty _) = _
      simp only [vSub, g1]; rfl
    · rw [g3, d0, d1]; simp only [celsiusTy]; norm_num
    · show (QVal.qty ⟨celsiusTy (tyTemperature one1 0).dim, x 0⟩).amount - (QVal.qty ⟨celsiusTy (tyTemperature one1 0).dim, x 1⟩).amount = _
      rw [← denote_eq_amount, ← denote_eq_amount, d0, d1]; norm_num
  · obtain ⟨-, -, -, -, h, -⟩ := C127_denotes (⟨celsiusTy (tyTemperature one1 0).dim, x 0⟩ : Qty ℝ) ⟨tyLength one1, x 2⟩ v0 v2 0 0
    obtain ⟨⟨r, g1, g2, g3⟩, -⟩ := h rfl
    refine ⟨r, ?_, ?_, ?_⟩
    · show vMul (.qty ⟨celsiusTy (tyTemperature one1 0).dim, x 0⟩) (.qty ⟨tyLength one1, x 2⟩) = _
      simp only [vMul, g1]; rfl
    · rw [g3, d0, d2]; simp only [celsiusTy]; norm_num
    · show (QVal.qty ⟨celsiusTy (tyTemperature one1 0).dim, x 0⟩).amount * (QVal.qty ⟨tyLength one1, x 2⟩).amount = _
      rw [← denote_eq_amount, ← denote_eq_amount, d0, d2]; norm_num
  · obtain ⟨-, -, -, -, -, h, -⟩ := C127_denotes (⟨tyLength one1, x 2⟩ : Qty ℝ) ⟨celsiusTy (tyTemperature one1 0).dim, x 0⟩ v2 v0 0 0
    show vMul (.qty ⟨tyLength one1, x 2⟩) (.qty ⟨celsiusTy (tyTemperature one1 0).dim, x 0⟩) = _
    simp only [vMul, (h (by simp only [celsiusTy]; norm_num)).1]; rfl

/-- The hypotheses of `C127_sound`, `C127_defined` and `C127_compiles` are met: a mean temperature converted to Fahrenheit, with a warmer one chosen. -/
example (x : ℕ → ℝ) : (∀ i, (tempEnv x i).ty.Valid) ∧
    (QEx.cast (fahrenheitTy (tyTemperature one1 0).dim) (.fmax (.var 0) (.div (.add (.var 0) (.var 1)) (.lit 2)))).CastsValid ∧
    (QEx.cast (fahrenheitTy (tyTemperature one1 0).dim) (.fmax (.var 0) (.div (.add (.var 0) (.var 1)) (.lit 2)))).offs
      (fun i => (tempEnv x i).ty.off) = some (some (45967 / 180)) := by
  refine ⟨tempEnv_valid x, ⟨⟨⟨by decide, by decide, by decide, by decide⟩, valid_59⟩, ⟨trivial, ⟨trivial, trivial⟩, trivial⟩⟩, ?_⟩
  simp [QEx.offs, tempEnv, QVal.ty, QT.off, offSame, offDiv, offCast, celsiusTy, fahrenheitTy]

end SciCpp
