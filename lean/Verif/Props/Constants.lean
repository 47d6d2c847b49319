import Verif.Spec.Codata
import Verif.Props.UnitTable
import Verif.Props.QMaths
import Mathlib.Analysis.Complex.ExponentialBounds
/-
  Property theorems C85: mathematical and physical constants.
-/
set_option linter.unusedSectionVars false
namespace SciCpp

/-! ### Types -/

section Cm
variable {T : Type} [Mul T] [Div T] [One T]

/-- A constant expression has the dimension of `e`, scale 1, no offset and the value `v`. -/
def Cm (r : Res (Qty T)) (e : DimExpr) (v : T) : Prop :=
  ∃ d, e.toDim = .ok d ∧ r = .ok ⟨⟨d, one1, 0⟩, v⟩

theorem Cm.of {r : Res QTy} {e : DimExpr} (h : Tm r e one1) (v : T) :
    Cm (do let t ← r; pure ⟨t, v⟩) e v := by
  obtain ⟨d, h1, rfl⟩ := h
  exact ⟨d, h1, rfl⟩

theorem Cm.mul {r1 r2 : Res (Qty T)} {e1 e2 : DimExpr} {v1 v2 : T} (h1 : Cm r1 e1 v1)
    (h2 : Cm r2 e2 v2) : Cm (do let a ← r1; let b ← r2; gMul a b) (.mul e1 e2) (v1 * v2) := by
  obtain ⟨d1, a1, rfl⟩ := h1
  obtain ⟨d2, a2, rfl⟩ := h2
  obtain ⟨d, k1, k2⟩ := Tm.mul (s := one1) ⟨d1, a1, rfl⟩ ⟨d2, a2, rfl⟩ ⟨valid_one, rfl⟩
  simp only [Res.bind_ok] at k2
  refine ⟨d, k1, ?_⟩
  simp only [Res.bind_ok, gMul, k2]; rfl

theorem Cm.div {r1 r2 : Res (Qty T)} {e1 e2 : DimExpr} {v1 v2 : T} (h1 : Cm r1 e1 v1)
    (h2 : Cm r2 e2 v2) : Cm (do let a ← r1; let b ← r2; gDiv a b) (.div e1 e2) (v1 / v2) := by
  obtain ⟨d1, a1, rfl⟩ := h1
  obtain ⟨d2, a2, rfl⟩ := h2
  obtain ⟨d, k1, k2⟩ := Tm.div (s := one1) ⟨d1, a1, rfl⟩ ⟨d2, a2, rfl⟩ ⟨valid_one, rfl⟩
  simp only [Res.bind_ok] at k2
  refine ⟨d, k1, ?_⟩
  simp only [Res.bind_ok, gDiv, k2]; rfl

theorem Cm.scale {r : Res (Qty T)} {e : DimExpr} {v : T} (k : T) (h : Cm r e v) :
    Cm (do let a ← r; pure (gScale k a)) e (k * v) := by
  obtain ⟨d, h1, rfl⟩ := h
  exact ⟨d, h1, rfl⟩

theorem Cm.inv {r : Res (Qty T)} {e : DimExpr} {v : T} (k : T) (h : Cm r e v) :
    Cm (do let a ← r; gScalarDiv k a) (.div (.base 0) e) (k * (1 / v)) := by
  obtain ⟨d1, h1, rfl⟩ := h
  obtain ⟨d, k1, k2⟩ := Tm.div (s := one1) (Tm.base 0 one1) ⟨d1, h1, rfl⟩ ⟨valid_one, rfl⟩
  simp only [Res.bind_ok] at k2
  refine ⟨d, k1, ?_⟩
  have k3 : tyInv ⟨d1, one1, 0⟩ = .ok ⟨d, one1, 0⟩ := by
    rw [← k2]; rfl
  simp only [Res.bind_ok, gScalarDiv, k3]; rfl

variable (lit : ℚ → T)

theorem cm_c : Cm (pcC lit) QTmpl.speed.expr (lit 299792458) :=
  Cm.of (tm_all .speed one1 valid_one rfl) _

theorem cm_h : Cm (pcH lit) (.mul QTmpl.energy.expr (.base 2)) (lit 6.62607015E-34) :=
  Cm.of (Tm.mul (tm_all .energy one1 valid_one rfl) (Tm.base 2 one1) ⟨valid_one, rfl⟩) _

theorem cm_e : Cm (pcE lit) QTmpl.electricCharge.expr (lit 1.602176634E-19) :=
  Cm.of (tm_all .electricCharge one1 valid_one rfl) _

theorem gMul_at {e1 e2 : DimExpr} {d1 d2 : RootRatio} (h1 : e1.toDim = .ok d1)
    (h2 : e2.toDim = .ok d2) (v1 v2 : T) : ∃ d, (DimExpr.mul e1 e2).toDim = .ok d ∧
      gMul ⟨⟨d1, one1, 0⟩, v1⟩ ⟨⟨d2, one1, 0⟩, v2⟩ = .ok ⟨⟨d, one1, 0⟩, v1 * v2⟩ :=
  Cm.mul (r1 := .ok _) (r2 := .ok _) ⟨d1, h1, rfl⟩ ⟨d2, h2, rfl⟩

theorem gDiv_at {e1 e2 : DimExpr} {d1 d2 : RootRatio} (h1 : e1.toDim = .ok d1)
    (h2 : e2.toDim = .ok d2) (v1 v2 : T) : ∃ d, (DimExpr.div e1 e2).toDim = .ok d ∧
      gDiv ⟨⟨d1, one1, 0⟩, v1⟩ ⟨⟨d2, one1, 0⟩, v2⟩ = .ok ⟨⟨d, one1, 0⟩, v1 / v2⟩ :=
  Cm.div (r1 := .ok _) (r2 := .ok _) ⟨d1, h1, rfl⟩ ⟨d2, h2, rfl⟩

theorem cm_hbar : Cm (pcHbar lit) (.mul QTmpl.energy.expr (.base 2))
    (1 / (lit 2 * lit litPi) * lit 6.62607015E-34) :=
  Cm.scale _ (cm_h lit)

theorem cm_G : Cm (pcG lit) (.div QTmpl.volume.expr (.mul (.base 3) (.mul (.base 2) (.base 2))))
    (lit 6.67430E-11) := by
  have h2 : Tm (tyMul (tyBase 2 one1) (tyBase 2 one1)) (.mul (.base 2) (.base 2)) one1 :=
    Tm.mul (Tm.base 2 one1) (Tm.base 2 one1) ⟨valid_one, rfl⟩
  have h3 := Tm.mul (Tm.base 3 one1) h2 ⟨valid_one, rfl⟩
  have h4 := Cm.of (Tm.div (tm_all .volume one1 valid_one rfl) h3 ⟨valid_one, rfl⟩) (lit 6.67430E-11)
  obtain ⟨d, h5, h6⟩ := h4
  refine ⟨d, h5, ?_⟩
  rw [← h6]
  obtain ⟨d2, a, b⟩ := h2
  obtain ⟨d1, a1, b1⟩ := tm_all .volume one1 valid_one rfl
  unfold pcG
  rw [b, b1]
  simp only [Res.bind_ok]
  show _ = (do let t ← (do let b ← tyMul (tyBase 3 one1) ⟨d2, one1, 0⟩; tyDiv _ b); pure _)
  generalize tyMul (tyBase 3 one1) ⟨d2, one1, 0⟩ = z
  cases z <;> rfl

theorem cm_mu0 : Cm (pcMu0 lit) (.div (.mul QTmpl.energy.expr (.base 2))
      (.mul (.mul QTmpl.electricCharge.expr QTmpl.electricCharge.expr) QTmpl.speed.expr))
    (lit 2 * pcAlpha lit * lit 6.62607015E-34 /
      (lit 1.602176634E-19 * lit 1.602176634E-19 * lit 299792458)) := by
  obtain ⟨dh, h1, h2⟩ := cm_h lit
  obtain ⟨de, e1, e2⟩ := cm_e lit
  obtain ⟨dc, c1, c2⟩ := cm_c lit
  obtain ⟨da, a1, a2⟩ := gMul_at e1 e1 (lit 1.602176634E-19) (lit 1.602176634E-19)
  obtain ⟨db, b1, b2⟩ := gMul_at a1 c1 (lit 1.602176634E-19 * lit 1.602176634E-19) (lit 299792458)
  obtain ⟨dd, d1, d2⟩ := gDiv_at h1 b1 (lit 2 * pcAlpha lit * lit 6.62607015E-34)
    (lit 1.602176634E-19 * lit 1.602176634E-19 * lit 299792458)
  exact ⟨dd, d1, by simp only [pcMu0, h2, e2, c2, Res.bind_ok, a2, b2, gScale, d2]⟩

theorem cm_eps0 : ∃ e, e.exps = (Codata.dim .epsilon0).exps ∧ Cm (pcEps0 lit) e
    (lit 1 * (1 / (lit 2 * pcAlpha lit * lit 6.62607015E-34 /
      (lit 1.602176634E-19 * lit 1.602176634E-19 * lit 299792458) * lit 299792458 * lit 299792458))) := by
  refine ⟨.div (.base 0) (.mul (.mul (.div (.mul QTmpl.energy.expr (.base 2))
      (.mul (.mul QTmpl.electricCharge.expr QTmpl.electricCharge.expr) QTmpl.speed.expr))
      QTmpl.speed.expr) QTmpl.speed.expr), ?_, ?_⟩
  · funext i; fin_cases i <;> decide +kernel
  · obtain ⟨dm, m1, m2⟩ := cm_mu0 lit
    obtain ⟨dc, c1, c2⟩ := cm_c lit
    obtain ⟨da, a1, a2⟩ := gMul_at m1 c1 (lit 2 * pcAlpha lit * lit 6.62607015E-34 /
      (lit 1.602176634E-19 * lit 1.602176634E-19 * lit 299792458)) (lit 299792458)
    obtain ⟨db, b1, b2⟩ := gMul_at a1 c1 (lit 2 * pcAlpha lit * lit 6.62607015E-34 /
      (lit 1.602176634E-19 * lit 1.602176634E-19 * lit 299792458) * lit 299792458) (lit 299792458)
    obtain ⟨dd, d1, d2⟩ := Cm.inv (r := .ok _) (lit 1) ⟨db, b1, rfl⟩
    exact ⟨dd, d1, by simpa only [pcEps0, m2, c2, Res.bind_ok, a2, b2] using d2⟩

theorem cm_KJ : Cm (pcKJ lit) (.div QTmpl.electricCharge.expr (.mul QTmpl.energy.expr (.base 2)))
    (lit 2 * lit 1.602176634E-19 / lit 6.62607015E-34) := by
  obtain ⟨dh, h1, h2⟩ := cm_h lit
  obtain ⟨de, e1, e2⟩ := cm_e lit
  obtain ⟨dd, d1, d2⟩ := gDiv_at e1 h1 (lit 2 * lit 1.602176634E-19) (lit 6.62607015E-34)
  exact ⟨dd, d1, by simp only [pcKJ, h2, e2, Res.bind_ok, gScale, d2]⟩

theorem cm_RK : Cm (pcRK lit) (.div (.mul QTmpl.energy.expr (.base 2))
      (.mul QTmpl.electricCharge.expr QTmpl.electricCharge.expr))
    (lit 6.62607015E-34 / (lit 1.602176634E-19 * lit 1.602176634E-19)) := by
  obtain ⟨dh, h1, h2⟩ := cm_h lit
  obtain ⟨de, e1, e2⟩ := cm_e lit
  obtain ⟨da, a1, a2⟩ := gMul_at e1 e1 (lit 1.602176634E-19) (lit 1.602176634E-19)
  obtain ⟨dd, d1, d2⟩ := gDiv_at h1 a1 (lit 6.62607015E-34)
    (lit 1.602176634E-19 * lit 1.602176634E-19)
  exact ⟨dd, d1, by simp only [pcRK, h2, e2, Res.bind_ok, a2, d2]⟩

theorem cm_mag (m : ℚ) (r : Res (Qty T)) (hr : r = .ok ⟨tyBase 3 one1, lit m⟩) :
    Cm (do let e ← pcE lit; let hbar ← pcHbar lit; let m ← r
           let x ← gMul (gScale (lit 0.5) e) hbar; gDiv x m)
      (.div (.mul QTmpl.electricCharge.expr (.mul QTmpl.energy.expr (.base 2))) (.base 3))
      (lit 0.5 * lit 1.602176634E-19 * (1 / (lit 2 * lit litPi) * lit 6.62607015E-34) / lit m) := by
  subst hr
  obtain ⟨dh, h1, h2⟩ := cm_hbar lit
  obtain ⟨de, e1, e2⟩ := cm_e lit
  obtain ⟨da, a1, a2⟩ := gMul_at e1 h1 (lit 0.5 * lit 1.602176634E-19)
    (1 / (lit 2 * lit litPi) * lit 6.62607015E-34)
  obtain ⟨dd, d1, d2⟩ := gDiv_at (e2 := .base 3) (d2 := baseDim (dimPrimes.getD 3 1)) a1 rfl
    (lit 0.5 * lit 1.602176634E-19 * (1 / (lit 2 * lit litPi) * lit 6.62607015E-34)) (lit m)
  exact ⟨dd, d1, by simp only [h2, e2, Res.bind_ok, a2, gScale, tyBase]; exact d2⟩

theorem cm_Rinf : Cm (pcRinf lit) (.div (.mul (.base 3) QTmpl.speed.expr)
      (.mul QTmpl.energy.expr (.base 2)))
    (lit 0.5 * pcAlpha lit * pcAlpha lit * lit 9.1093837015E-31 * lit 299792458 /
      lit 6.62607015E-34) := by
  obtain ⟨dh, h1, h2⟩ := cm_h lit
  obtain ⟨dc, c1, c2⟩ := cm_c lit
  obtain ⟨da, a1, a2⟩ := gMul_at (e1 := .base 3) (d1 := baseDim (dimPrimes.getD 3 1)) rfl c1
    (lit 0.5 * pcAlpha lit * pcAlpha lit * lit 9.1093837015E-31) (lit 299792458)
  obtain ⟨dd, d1, d2⟩ := gDiv_at a1 h1 (lit 0.5 * pcAlpha lit * pcAlpha lit * lit 9.1093837015E-31 *
    lit 299792458) (lit 6.62607015E-34)
  refine ⟨dd, d1, ?_⟩
  simp only [pcRinf, pcMe, h2, c2, Res.bind_ok, gScale, tyBase]
  simp only [a2, Res.bind_ok, d2]

theorem cm_a0 : Cm (pcA0 lit) (.div (.mul QTmpl.energy.expr (.base 2))
      (.mul (.base 3) QTmpl.speed.expr))
    (1 / (lit 2 * lit litPi) * lit 6.62607015E-34 /
      (pcAlpha lit * lit 9.1093837015E-31 * lit 299792458)) := by
  obtain ⟨dh, h1, h2⟩ := cm_hbar lit
  obtain ⟨dc, c1, c2⟩ := cm_c lit
  obtain ⟨da, a1, a2⟩ := gMul_at (e1 := .base 3) (d1 := baseDim (dimPrimes.getD 3 1)) rfl c1
    (pcAlpha lit * lit 9.1093837015E-31) (lit 299792458)
  obtain ⟨dd, d1, d2⟩ := gDiv_at h1 a1 (1 / (lit 2 * lit litPi) * lit 6.62607015E-34)
    (pcAlpha lit * lit 9.1093837015E-31 * lit 299792458)
  refine ⟨dd, d1, ?_⟩
  simp only [pcA0, pcMe, h2, c2, Res.bind_ok, gScale, tyBase]
  simp only [a2, Res.bind_ok, d2]

/-- The raw value of every constant in the arithmetic of `T`. -/
def PhysConst.raw : PhysConst → T
  | .c => lit 299792458
  | .G => lit 6.67430E-11
  | .h => lit 6.62607015E-34
  | .hbar => 1 / (lit 2 * lit litPi) * lit 6.62607015E-34
  | .e => lit 1.602176634E-19
  | .m_e => lit 9.1093837015E-31
  | .m_p => lit 1.67262192369E-27
  | .mu0 => lit 2 * pcAlpha lit * lit 6.62607015E-34 /
      (lit 1.602176634E-19 * lit 1.602176634E-19 * lit 299792458)
  | .epsilon0 => lit 1 * (1 / (lit 2 * pcAlpha lit * lit 6.62607015E-34 /
      (lit 1.602176634E-19 * lit 1.602176634E-19 * lit 299792458) * lit 299792458 * lit 299792458))
  | .K_J => lit 2 * lit 1.602176634E-19 / lit 6.62607015E-34
  | .R_K => lit 6.62607015E-34 / (lit 1.602176634E-19 * lit 1.602176634E-19)
  | .Phi0 => lit 1 * (1 / (lit 2 * lit 1.602176634E-19 / lit 6.62607015E-34))
  | .muB => lit 0.5 * lit 1.602176634E-19 * (1 / (lit 2 * lit litPi) * lit 6.62607015E-34) /
      lit 9.1093837015E-31
  | .muN => lit 0.5 * lit 1.602176634E-19 * (1 / (lit 2 * lit litPi) * lit 6.62607015E-34) /
      lit 1.67262192369E-27
  | .Rinf => lit 0.5 * pcAlpha lit * pcAlpha lit * lit 9.1093837015E-31 * lit 299792458 /
      lit 6.62607015E-34
  | .a0 => 1 / (lit 2 * lit litPi) * lit 6.62607015E-34 /
      (pcAlpha lit * lit 9.1093837015E-31 * lit 299792458)
  | .k => lit 1.380649E-23

theorem cm_all (x : PhysConst) :
    ∃ e, e.exps = (Codata.dim x).exps ∧ Cm (x.get lit) e (x.raw lit) := by
  cases x
  case epsilon0 => exact cm_eps0 lit
  case c => exact ⟨_, by funext i; fin_cases i <;> decide +kernel, cm_c lit⟩
  case G => exact ⟨_, by funext i; fin_cases i <;> decide +kernel, cm_G lit⟩
  case h => exact ⟨_, by funext i; fin_cases i <;> decide +kernel, cm_h lit⟩
  case hbar => exact ⟨_, by funext i; fin_cases i <;> decide +kernel, cm_hbar lit⟩
  case e => exact ⟨_, by funext i; fin_cases i <;> decide +kernel, cm_e lit⟩
  case m_e => exact ⟨.base 3, by funext i; fin_cases i <;> decide +kernel, _, rfl, rfl⟩
  case m_p => exact ⟨.base 3, by funext i; fin_cases i <;> decide +kernel, _, rfl, rfl⟩
  case mu0 => exact ⟨_, by funext i; fin_cases i <;> decide +kernel, cm_mu0 lit⟩
  case K_J => exact ⟨_, by funext i; fin_cases i <;> decide +kernel, cm_KJ lit⟩
  case R_K => exact ⟨_, by funext i; fin_cases i <;> decide +kernel, cm_RK lit⟩
  case Phi0 => exact ⟨_, by funext i; fin_cases i <;> decide +kernel, Cm.inv _ (cm_KJ lit)⟩
  case muB => exact ⟨_, by funext i; fin_cases i <;> decide +kernel, cm_mag lit _ _ rfl⟩
  case muN => exact ⟨_, by funext i; fin_cases i <;> decide +kernel, cm_mag lit _ _ rfl⟩
  case Rinf => exact ⟨_, by funext i; fin_cases i <;> decide +kernel, cm_Rinf lit⟩
  case a0 => exact ⟨_, by funext i; fin_cases i <;> decide +kernel, cm_a0 lit⟩
  case k => exact ⟨_, by funext i; fin_cases i <;> decide +kernel,
    Cm.of (Tm.div (tm_all .energy one1 valid_one rfl) (Tm.base 5 one1) ⟨valid_one, rfl⟩) _⟩

end Cm

/-! ### The constants -/

theorem const_get {T : Type} [Mul T] [Div T] [One T] (lit : ℚ → T) (x : PhysConst) :
    ∃ q : Qty T, x.get lit = .ok q ∧ q.ty.dim.val = dimVal (Codata.dim x).exps ∧
      q.ty.scal = one1 ∧ q.ty.off = 0 ∧ q.val = x.raw lit := by
  obtain ⟨e, h1, d, h2, h3⟩ := cm_all lit x
  obtain ⟨r, k1, -, k3⟩ := toDim_ok e
  rw [h2] at k1
  injection k1 with k1
  subst k1
  exact ⟨_, h3, by rw [← h1]; exact k3, rfl, rfl, rfl⟩

/-- C85 (types): for every floating point type, every physical constant has its SI dimension and is
expressed in SI units (scale 1, no offset). -/
theorem C85_dimensions {T : Type} [Mul T] [Div T] [One T] (lit : ℚ → T) (x : PhysConst) :
    ∃ q : Qty T, x.get lit = .ok q ∧ q.ty.dim.val = dimVal (Codata.dim x).exps ∧
      q.ty.scal.val = 1 ∧ q.ty.off = 0 := by
  obtain ⟨q, h1, h2, h3, h4, -⟩ := const_get lit x
  exact ⟨q, h1, h2, by rw [h3]; exact val_one, h4⟩

/-- The value of a constant in exact arithmetic, in SI units. -/
theorem const_exact (x : PhysConst) : ∃ q : Qty ℝ, x.get litR = .ok q ∧ q.denote = x.raw litR := by
  obtain ⟨q, h1, -, h3, h4, h5⟩ := const_get litR x
  refine ⟨q, h1, ?_⟩
  have h6 : one1.val = 1 := val_one
  rw [denote_real, h3, h4, h5, h6]; simp

/-- C85 (values): in exact arithmetic every physical constant denotes the CODATA 2018 recommended value
up to a relative error of `10^-9` (the recommended values are themselves rounded), and the primary ones
denote it exactly. -/
theorem C85_values (x : PhysConst) : ∃ q : Qty ℝ, x.get litR = .ok q ∧
    |q.denote - (Codata.value x : ℝ)| ≤ (1 / 10 ^ 9) * (Codata.value x : ℝ) ∧
    (x ∈ Codata.primary → q.denote = (Codata.value x : ℝ)) := by
  obtain ⟨q, h1, h2⟩ := const_exact x
  refine ⟨q, h1, ?_, ?_⟩
  · rw [h2]
    have key : ∀ r v : ℚ, |r - v| ≤ 1 / 10 ^ 9 * v →
        |(r : ℝ) - (v : ℝ)| ≤ (1 / 10 ^ 9) * (v : ℝ) := fun r v h => by
      have := (Rat.cast_le (K := ℝ)).mpr h
      push_cast at this
      convert this using 2
    have hr : ∀ r : ℚ, x.raw litR = (r : ℝ) → |r - Codata.value x| ≤ 1 / 10 ^ 9 * Codata.value x →
        |x.raw litR - (Codata.value x : ℝ)| ≤ (1 / 10 ^ 9) * (Codata.value x : ℝ) := fun r h hh => by
      rw [h]; exact key r _ hh
    apply hr (x.raw (fun q => q))
    · cases x <;> simp only [PhysConst.raw, litR, pcAlpha] <;> push_cast <;> rfl
    · cases x <;> decide +kernel
  · intro hx
    rw [h2]
    cases x <;> first | rfl | (exfalso; revert hx; decide)

/-- C85 (relations): the defining relations between the constants hold exactly:
`μ₀ ε₀ c² = 1`, `K_J Φ₀ = 1`, `K_J h = 2 e`, `R_K e² = h`, `2 α h = μ₀ e² c`, `μ_B m_e = μ_N m_p`,
`2 h R∞ = α² m_e c`. -/
theorem C85_relations (v : PhysConst → ℝ)
    (hv : ∀ x, ∃ q : Qty ℝ, x.get litR = .ok q ∧ v x = q.denote) (α : ℝ) (hα : α = pcAlpha litR) :
    v .mu0 * v .epsilon0 * v .c ^ 2 = 1 ∧ v .K_J * v .Phi0 = 1 ∧ v .K_J * v .h = 2 * v .e ∧
    v .R_K * v .e ^ 2 = v .h ∧ 2 * α * v .h = v .mu0 * v .e ^ 2 * v .c ∧
    v .muB * v .m_e = v .muN * v .m_p ∧ 2 * v .h * v .Rinf = α ^ 2 * v .m_e * v .c ∧
    v .a0 * (α * v .m_e * v .c) = v .hbar ∧ v .muB * (2 * v .m_e) = v .e * v .hbar := by
  have h : ∀ x, v x = x.raw litR := fun x => by
    obtain ⟨q, h1, h2⟩ := hv x
    obtain ⟨q', h3, h4⟩ := const_exact x
    rw [h1] at h3
    injection h3 with h3
    rw [h2, h3, h4]
  simp only [h, hα, PhysConst.raw, pcAlpha, litR, litPi]
  refine ⟨?_, ?_, ?_, ?_, ?_, ?_, ?_, ?_, ?_⟩ <;> norm_num

/-- The hypothesis of `C85_relations` is met (by the constants themselves). -/
example : ∃ v : PhysConst → ℝ, ∀ x, ∃ q : Qty ℝ, x.get litR = .ok q ∧ v x = q.denote :=
  ⟨fun x => x.raw litR, fun x => (const_exact x).imp fun _ h => ⟨h.1, h.2.symm⟩⟩

/-- C85 (double): computed with `double`, every constant is within a relative error of `10^-9` of the
CODATA value. -/
theorem C85_double (x : PhysConst) : ∃ (q : Qty F64) (r : ℚ), x.get lit64 = .ok q ∧
    q.val = RFl.fin r ∧ |r - Codata.value x| ≤ 1 / 10 ^ 9 * Codata.value x := by
  obtain ⟨q, h1, -, -, -, h5⟩ := const_get lit64 x
  have : ∃ r : ℚ, x.raw lit64 = RFl.fin r ∧ |r - Codata.value x| ≤ 1 / 10 ^ 9 * Codata.value x := by
    have key : ∀ y : F64, (match (y : Fl) with
        | .fin r => decide (|r - Codata.value x| ≤ 1 / 10 ^ 9 * Codata.value x) | _ => false) = true →
        ∃ r : ℚ, y = RFl.fin r ∧ |r - Codata.value x| ≤ 1 / 10 ^ 9 * Codata.value x := by
      intro y h
      cases y with
      | fin r => exact ⟨r, rfl, of_decide_eq_true h⟩
      | nan => exact absurd h (by simp)
      | inf b => exact absurd h (by simp)
    apply key
    cases x <;> decide +kernel
  obtain ⟨r, h6, h7⟩ := this
  exact ⟨q, r, h1, by rw [h5, h6], h7⟩

/-- C85 (float): computed with `float`, every constant except the two magnetons is within a relative
error of `10^-6` of the CODATA value, and is a `float`. -/
theorem C85_float_partial (x : PhysConst) (hB : x ≠ .muB) (hN : x ≠ .muN) :
    ∃ (q : Qty F32) (r : ℚ), x.get lit32 = .ok q ∧
    q.val = RFl.fin r ∧ |r - Codata.value x| ≤ 1 / 10 ^ 6 * Codata.value x ∧ rnd32 r = r := by
  obtain ⟨q, h1, -, -, -, h5⟩ := const_get lit32 x
  have : ∃ r : ℚ, x.raw lit32 = RFl.fin r ∧
      |r - Codata.value x| ≤ 1 / 10 ^ 6 * Codata.value x ∧ rnd32 r = r := by
    have key : ∀ y : F32, (match (y : Fl) with
        | .fin r => decide (|r - Codata.value x| ≤ 1 / 10 ^ 6 * Codata.value x ∧ rnd32 r = r) | _ => false) = true →
        ∃ r : ℚ, y = RFl.fin r ∧ |r - Codata.value x| ≤ 1 / 10 ^ 6 * Codata.value x ∧ rnd32 r = r := by
      intro y h
      cases y with
      | fin r => exact ⟨r, rfl, of_decide_eq_true h⟩
      | nan => exact absurd h (by simp)
      | inf b => exact absurd h (by simp)
    apply key
    cases x <;> first | decide +kernel | exact absurd rfl hB | exact absurd rfl hN
  obtain ⟨r, h6, h7⟩ := this
  exact ⟨q, r, h1, by rw [h5, h6], h7⟩

/-- C85 fails for `float`: `phys_cst_f::muB` and `phys_cst_f::muN` are 0, because `0.5 * e * hbar`
underflows. -/
theorem C85_float_magnetons_false (x : PhysConst) (hx : x = .muB ∨ x = .muN) :
    ∃ q : Qty F32, x.get lit32 = .ok q ∧ q.val = RFl.fin 0 := by
  obtain ⟨q, h1, -, -, -, h5⟩ := const_get lit32 x
  refine ⟨q, h1, ?_⟩
  rw [h5]
  rcases hx with rfl | rfl <;> decide +kernel

/-- C85 (π and e): the literals are within `10^-20` (2·10^-20 for e) of the mathematical constants, and
their `double` roundings within half a unit in the last place (`2^-52`). -/
theorem C85_pi_e : |(litPi : ℝ) - Real.pi| ≤ 1 / 10 ^ 20 ∧ |(litE : ℝ) - Real.exp 1| ≤ 2 / 10 ^ 20 ∧
    |(rnd64 litPi : ℝ) - Real.pi| ≤ 1 / 2 ^ 52 ∧ |(rnd64 litE : ℝ) - Real.exp 1| ≤ 1 / 2 ^ 52 := by
  have h1 := Real.pi_gt_d20
  have h2 := Real.pi_lt_d20
  have h3 := abs_le.mp Real.exp_one_near_20
  have e1 : rnd64 litPi = 884279719003555 / 281474976710656 := by decide +kernel
  have e2 : rnd64 litE = 6121026514868073 / 2251799813685248 := by decide +kernel
  rw [e1, e2]
  unfold litPi litE
  refine ⟨?_, ?_, ?_, ?_⟩ <;> rw [abs_le] <;> constructor <;> norm_num at h1 h2 h3 ⊢ <;> linarith [h3.1, h3.2]

end SciCpp
