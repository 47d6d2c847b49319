import Verif.Spec.SIUnits
import Verif.Model.UnitData
import Verif.Props.Units
import Mathlib.Analysis.Real.Pi.Bounds
/-
  Property theorems C71 (continued): all quantity templates, all unit aliases and all literals.
-/
set_option linter.unusedSectionVars false
set_option linter.unusedVariables false
namespace SciCpp

/-! ### The quantity templates -/

/-- A template expression has the dimension of `e` and the scale `s`. -/
def Tm (r : Res QTy) (e : DimExpr) (s : RootRatio) : Prop :=
  ∃ d, e.toDim = .ok d ∧ r = .ok ⟨d, s, 0⟩

theorem Tm.base (i : Fin 11) (s : RootRatio) : Tm (.ok (tyBase i s)) (.base i) s := ⟨_, rfl, rfl⟩

theorem Tm.mul {r1 r2 : Res QTy} {e1 e2 : DimExpr} {s : RootRatio} (h1 : Tm r1 e1 s)
    (h2 : Tm r2 e2 one1) (hs : s.Valid ∧ s.root = 1) :
    Tm (do let a ← r1; let b ← r2; tyMul a b) (.mul e1 e2) s := by
  obtain ⟨d1, a1, rfl⟩ := h1
  obtain ⟨d2, a2, rfl⟩ := h2
  obtain ⟨d, k, -⟩ := toDim_ok (.mul e1 e2)
  refine ⟨d, k, ?_⟩
  simp only [DimExpr.toDim, a1, a2, Res.bind_ok] at k
  simp only [Res.bind_ok]
  unfold tyMul
  rw [if_neg (by simp), k, rrMul_plain_one s hs.1 hs.2]
  rfl

theorem Tm.div {r1 r2 : Res QTy} {e1 e2 : DimExpr} {s : RootRatio} (h1 : Tm r1 e1 s)
    (h2 : Tm r2 e2 one1) (hs : s.Valid ∧ s.root = 1) :
    Tm (do let a ← r1; let b ← r2; tyDiv a b) (.div e1 e2) s := by
  obtain ⟨d1, a1, rfl⟩ := h1
  obtain ⟨d2, a2, rfl⟩ := h2
  obtain ⟨d, k, -⟩ := toDim_ok (.div e1 e2)
  refine ⟨d, k, ?_⟩
  simp only [DimExpr.toDim, a1, a2, Res.bind_ok] at k
  simp only [Res.bind_ok]
  unfold tyDiv
  rw [if_neg (by simp), k, rrDiv_plain_one s hs.1 hs.2]
  rfl

theorem Tm.root2 {r : Res QTy} {e : DimExpr} (h : Tm r e one1) :
    Tm (do let a ← r; tyRoot 2 a) (.root e 1) one1 := by
  obtain ⟨d1, a1, rfl⟩ := h
  obtain ⟨d, k, -⟩ := toDim_ok (.root e 1)
  refine ⟨d, k, ?_⟩
  simp only [DimExpr.toDim, a1, Res.bind_ok] at k
  simp only [Res.bind_ok]
  unfold tyRoot
  have h1 : rrRoot one1 2 = .ok one1 := by decide +kernel
  rw [k, h1]
  rfl

/-- The inverse of a valid plain scale. -/
def rrInv (s : RootRatio) : RootRatio := ⟨s.den, s.num, s.root⟩

theorem rrInv_valid (s : RootRatio) (h : s.Valid) : (rrInv s).Valid :=
  ⟨h.2.1, h.1, h.2.2.1, h.2.2.2.symm⟩

theorem rrDiv_one (s : RootRatio) (h : s.Valid) (hr : s.root = 1) :
    rrDiv ⟨1, 1, 1⟩ s = .ok (rrInv s) := by
  rw [rrDiv_plain _ _ rfl hr, rrMk_den_num s h 1]
  simp only [one_mul]
  have : rrMk s.den s.num 1 = ⟨s.den, s.num, 1⟩ := rrMk_den_num s h 1
  rw [this]
  unfold rrInv
  rw [hr]

theorem Tm.inv {r : Res QTy} {e : DimExpr} {s : RootRatio} (h : Tm r e s)
    (hs : s.Valid ∧ s.root = 1) : Tm (do let a ← r; tyInv a) (.div (.base 0) e) (rrInv s) := by
  obtain ⟨d1, a1, rfl⟩ := h
  obtain ⟨d, k, -⟩ := toDim_ok (.div (.base 0) e)
  refine ⟨d, k, ?_⟩
  simp only [DimExpr.toDim, a1, Res.bind_ok] at k
  simp only [Res.bind_ok]
  unfold tyInv
  have k' : rrDiv ⟨1, 1, 1⟩ d1 = .ok d := k
  rw [k', rrDiv_one s hs.1 hs.2]
  rfl

def qtSpeedE : DimExpr := .div (.base 1) (.base 2)
theorem tm_qtSpeed (s : RootRatio) (h : s.Valid) (hr : s.root = 1) : Tm (qtSpeed s) qtSpeedE s :=
  (Tm.div (Tm.base 1 s) (Tm.base 2 one1) ⟨h, hr⟩)
def qtAccelerationE : DimExpr := .div qtSpeedE (.base 2)
theorem tm_qtAcceleration (s : RootRatio) (h : s.Valid) (hr : s.root = 1) : Tm (qtAcceleration s) qtAccelerationE s :=
  (Tm.div (tm_qtSpeed s h hr) (Tm.base 2 one1) ⟨h, hr⟩)
def qtAngularVelocityE : DimExpr := .div (.base 8) (.base 2)
theorem tm_qtAngularVelocity (s : RootRatio) (h : s.Valid) (hr : s.root = 1) : Tm (qtAngularVelocity s) qtAngularVelocityE s :=
  (Tm.div (Tm.base 8 s) (Tm.base 2 one1) ⟨h, hr⟩)
def qtMomentumE : DimExpr := .mul (.base 3) qtSpeedE
theorem tm_qtMomentum (s : RootRatio) (h : s.Valid) (hr : s.root = 1) : Tm (qtMomentum s) qtMomentumE s :=
  (Tm.mul (Tm.base 3 s) (tm_qtSpeed one1 valid_one rfl) ⟨h, hr⟩)
def qtAreaE : DimExpr := .mul (.base 1) (.base 1)
theorem tm_qtArea (s : RootRatio) (h : s.Valid) (hr : s.root = 1) : Tm (qtArea s) qtAreaE s :=
  (Tm.mul (Tm.base 1 s) (Tm.base 1 one1) ⟨h, hr⟩)
def qtVolumeE : DimExpr := .mul qtAreaE (.base 1)
theorem tm_qtVolume (s : RootRatio) (h : s.Valid) (hr : s.root = 1) : Tm (qtVolume s) qtVolumeE s :=
  (Tm.mul (tm_qtArea s h hr) (Tm.base 1 one1) ⟨h, hr⟩)
def qtForceE : DimExpr := .mul (.base 3) qtAccelerationE
theorem tm_qtForce (s : RootRatio) (h : s.Valid) (hr : s.root = 1) : Tm (qtForce s) qtForceE s :=
  (Tm.mul (Tm.base 3 s) (tm_qtAcceleration one1 valid_one rfl) ⟨h, hr⟩)
def qtPowerE : DimExpr := .mul qtForceE qtSpeedE
theorem tm_qtPower (s : RootRatio) (h : s.Valid) (hr : s.root = 1) : Tm (qtPower s) qtPowerE s :=
  (Tm.mul (tm_qtForce s h hr) (tm_qtSpeed one1 valid_one rfl) ⟨h, hr⟩)
def qtEnergyE : DimExpr := .mul qtPowerE (.base 2)
theorem tm_qtEnergy (s : RootRatio) (h : s.Valid) (hr : s.root = 1) : Tm (qtEnergy s) qtEnergyE s :=
  (Tm.mul (tm_qtPower s h hr) (Tm.base 2 one1) ⟨h, hr⟩)
def qtWorkE : DimExpr := qtEnergyE
theorem tm_qtWork (s : RootRatio) (h : s.Valid) (hr : s.root = 1) : Tm (qtWork s) qtWorkE s := tm_qtEnergy s h hr
def qtPressureE : DimExpr := .div qtForceE qtAreaE
theorem tm_qtPressure (s : RootRatio) (h : s.Valid) (hr : s.root = 1) : Tm (qtPressure s) qtPressureE s :=
  (Tm.div (tm_qtForce s h hr) (tm_qtArea one1 valid_one rfl) ⟨h, hr⟩)
def qtFrequencyE : DimExpr := .div (.base 0) (.base 2)
theorem tm_qtFrequency (s : RootRatio) (h : s.Valid) (hr : s.root = 1) : Tm (qtFrequency s) qtFrequencyE s :=
  (Tm.div (Tm.base 0 s) (Tm.base 2 one1) ⟨h, hr⟩)
def qtDataRateE : DimExpr := .div (.base 10) (.base 2)
theorem tm_qtDataRate (s : RootRatio) (h : s.Valid) (hr : s.root = 1) : Tm (qtDataRate s) qtDataRateE s :=
  (Tm.div (Tm.base 10 s) (Tm.base 2 one1) ⟨h, hr⟩)
def qtChemicalPotentialE : DimExpr := .div qtEnergyE (.base 6)
theorem tm_qtChemicalPotential (s : RootRatio) (h : s.Valid) (hr : s.root = 1) : Tm (qtChemicalPotential s) qtChemicalPotentialE s :=
  (Tm.div (tm_qtEnergy s h hr) (Tm.base 6 one1) ⟨h, hr⟩)
def qtMolarityE : DimExpr := .div (.base 6) qtVolumeE
theorem tm_qtMolarity (s : RootRatio) (h : s.Valid) (hr : s.root = 1) : Tm (qtMolarity s) qtMolarityE s :=
  (Tm.div (Tm.base 6 s) (tm_qtVolume one1 valid_one rfl) ⟨h, hr⟩)
def qtMolalityE : DimExpr := .div (.base 6) (.base 3)
theorem tm_qtMolality (s : RootRatio) (h : s.Valid) (hr : s.root = 1) : Tm (qtMolality s) qtMolalityE s :=
  (Tm.div (Tm.base 6 s) (Tm.base 3 one1) ⟨h, hr⟩)
def qtCatalyticActivityE : DimExpr := .div (.base 6) (.base 2)
theorem tm_qtCatalyticActivity (s : RootRatio) (h : s.Valid) (hr : s.root = 1) : Tm (qtCatalyticActivity s) qtCatalyticActivityE s :=
  (Tm.div (Tm.base 6 s) (Tm.base 2 one1) ⟨h, hr⟩)
def qtElectricPotentialE : DimExpr := .div qtPowerE (.base 4)
theorem tm_qtElectricPotential (s : RootRatio) (h : s.Valid) (hr : s.root = 1) : Tm (qtElectricPotential s) qtElectricPotentialE s :=
  (Tm.div (tm_qtPower s h hr) (Tm.base 4 one1) ⟨h, hr⟩)
def qtElectricChargeE : DimExpr := .mul (.base 4) (.base 2)
theorem tm_qtElectricCharge (s : RootRatio) (h : s.Valid) (hr : s.root = 1) : Tm (qtElectricCharge s) qtElectricChargeE s :=
  (Tm.mul (Tm.base 4 s) (Tm.base 2 one1) ⟨h, hr⟩)
def qtElectricalResistanceE : DimExpr := .div qtPowerE (.mul (.base 4) (.base 4))
theorem tm_qtElectricalResistance (s : RootRatio) (h : s.Valid) (hr : s.root = 1) : Tm (qtElectricalResistance s) qtElectricalResistanceE s :=
  (Tm.div (tm_qtPower s h hr) (Tm.mul (Tm.base 4 one1) (Tm.base 4 one1) ⟨valid_one, rfl⟩) ⟨h, hr⟩)
def qtElectricalConductivityE : DimExpr := .div (.base 0) qtElectricalResistanceE
theorem tm_qtElectricalConductivity (s : RootRatio) (h : s.Valid) (hr : s.root = 1) : Tm (qtElectricalConductivity s) qtElectricalConductivityE (rrInv s) :=
  Tm.inv (tm_qtElectricalResistance s h hr) ⟨h, hr⟩
def qtElectricalResistivityE : DimExpr := .mul qtElectricalResistanceE (.base 1)
theorem tm_qtElectricalResistivity (s : RootRatio) (h : s.Valid) (hr : s.root = 1) : Tm (qtElectricalResistivity s) qtElectricalResistivityE s :=
  (Tm.mul (tm_qtElectricalResistance s h hr) (Tm.base 1 one1) ⟨h, hr⟩)
def qtCapacitanceE : DimExpr := .div (.base 2) qtElectricalResistanceE
theorem tm_qtCapacitance (s : RootRatio) (h : s.Valid) (hr : s.root = 1) : Tm (qtCapacitance s) qtCapacitanceE s :=
  (Tm.div (Tm.base 2 s) (tm_qtElectricalResistance one1 valid_one rfl) ⟨h, hr⟩)
def qtInductanceE : DimExpr := .div (.mul qtElectricPotentialE (.base 2)) (.base 4)
theorem tm_qtInductance (s : RootRatio) (h : s.Valid) (hr : s.root = 1) : Tm (qtInductance s) qtInductanceE s := by
  have hV := tm_qtElectricPotential s h hr
  have hd := Tm.div (Tm.mul hV (Tm.base 2 one1) ⟨h, hr⟩) (Tm.base 4 one1) ⟨h, hr⟩
  obtain ⟨d, a, b⟩ := hV
  unfold qtInductance
  rw [b] at hd ⊢
  exact hd
def qtMagneticFluxDensityE : DimExpr := .div qtForceE (.mul qtElectricChargeE qtSpeedE)
theorem tm_qtMagneticFluxDensity (s : RootRatio) (h : s.Valid) (hr : s.root = 1) : Tm (qtMagneticFluxDensity s) qtMagneticFluxDensityE s :=
  (Tm.div (tm_qtForce s h hr) (Tm.mul (tm_qtElectricCharge one1 valid_one rfl) (tm_qtSpeed one1 valid_one rfl) ⟨valid_one, rfl⟩) ⟨h, hr⟩)
def qtMagneticFluxE : DimExpr := .mul qtMagneticFluxDensityE qtAreaE
theorem tm_qtMagneticFlux (s : RootRatio) (h : s.Valid) (hr : s.root = 1) : Tm (qtMagneticFlux s) qtMagneticFluxE s :=
  (Tm.mul (tm_qtMagneticFluxDensity s h hr) (tm_qtArea one1 valid_one rfl) ⟨h, hr⟩)
def qtCurrentNoiseDensityE : DimExpr := .div (.base 4) (.root qtFrequencyE 1)
theorem tm_qtCurrentNoiseDensity (s : RootRatio) (h : s.Valid) (hr : s.root = 1) : Tm (qtCurrentNoiseDensity s) qtCurrentNoiseDensityE s :=
  (Tm.div (Tm.base 4 s) (Tm.root2 (tm_qtFrequency one1 valid_one rfl)) ⟨h, hr⟩)
def qtVoltageNoiseDensityE : DimExpr := .div qtElectricPotentialE (.root qtFrequencyE 1)
theorem tm_qtVoltageNoiseDensity (s : RootRatio) (h : s.Valid) (hr : s.root = 1) : Tm (qtVoltageNoiseDensity s) qtVoltageNoiseDensityE s :=
  (Tm.div (tm_qtElectricPotential s h hr) (Tm.root2 (tm_qtFrequency one1 valid_one rfl)) ⟨h, hr⟩)
def qtLuminousFluxE : DimExpr := .mul (.base 7) (.base 9)
theorem tm_qtLuminousFlux (s : RootRatio) (h : s.Valid) (hr : s.root = 1) : Tm (qtLuminousFlux s) qtLuminousFluxE s :=
  (Tm.mul (Tm.base 7 s) (Tm.base 9 one1) ⟨h, hr⟩)
def qtLuminousEnergyE : DimExpr := .mul qtLuminousFluxE (.base 2)
theorem tm_qtLuminousEnergy (s : RootRatio) (h : s.Valid) (hr : s.root = 1) : Tm (qtLuminousEnergy s) qtLuminousEnergyE s :=
  (Tm.mul (tm_qtLuminousFlux s h hr) (Tm.base 2 one1) ⟨h, hr⟩)
def qtLuminanceE : DimExpr := .div (.base 7) qtAreaE
theorem tm_qtLuminance (s : RootRatio) (h : s.Valid) (hr : s.root = 1) : Tm (qtLuminance s) qtLuminanceE s :=
  (Tm.div (Tm.base 7 s) (tm_qtArea one1 valid_one rfl) ⟨h, hr⟩)
def qtIlluminanceE : DimExpr := .div qtLuminousFluxE qtAreaE
theorem tm_qtIlluminance (s : RootRatio) (h : s.Valid) (hr : s.root = 1) : Tm (qtIlluminance s) qtIlluminanceE s :=
  (Tm.div (tm_qtLuminousFlux s h hr) (tm_qtArea one1 valid_one rfl) ⟨h, hr⟩)
def qtLuminousExposureE : DimExpr := .mul qtIlluminanceE (.base 2)
theorem tm_qtLuminousExposure (s : RootRatio) (h : s.Valid) (hr : s.root = 1) : Tm (qtLuminousExposure s) qtLuminousExposureE s :=
  (Tm.mul (tm_qtIlluminance s h hr) (Tm.base 2 one1) ⟨h, hr⟩)
def qtLuminousEnergyDensityE : DimExpr := .div qtLuminousEnergyE qtVolumeE
theorem tm_qtLuminousEnergyDensity (s : RootRatio) (h : s.Valid) (hr : s.root = 1) : Tm (qtLuminousEnergyDensity s) qtLuminousEnergyDensityE s :=
  (Tm.div (tm_qtLuminousEnergy s h hr) (tm_qtVolume one1 valid_one rfl) ⟨h, hr⟩)
def qtLuminousEfficacyE : DimExpr := .div qtLuminousFluxE qtPowerE
theorem tm_qtLuminousEfficacy (s : RootRatio) (h : s.Valid) (hr : s.root = 1) : Tm (qtLuminousEfficacy s) qtLuminousEfficacyE s :=
  (Tm.div (tm_qtLuminousFlux s h hr) (tm_qtPower one1 valid_one rfl) ⟨h, hr⟩)
def qtHeatE : DimExpr := qtEnergyE
theorem tm_qtHeat (s : RootRatio) (h : s.Valid) (hr : s.root = 1) : Tm (qtHeat s) qtHeatE s := tm_qtEnergy s h hr
def qtHeatTransferRateE : DimExpr := qtPowerE
theorem tm_qtHeatTransferRate (s : RootRatio) (h : s.Valid) (hr : s.root = 1) : Tm (qtHeatTransferRate s) qtHeatTransferRateE s := tm_qtPower s h hr
def qtHeatFluxE : DimExpr := .div qtHeatTransferRateE qtAreaE
theorem tm_qtHeatFlux (s : RootRatio) (h : s.Valid) (hr : s.root = 1) : Tm (qtHeatFlux s) qtHeatFluxE s :=
  (Tm.div (tm_qtHeatTransferRate s h hr) (tm_qtArea one1 valid_one rfl) ⟨h, hr⟩)
def qtHeatCapacityE : DimExpr := .div qtHeatE (.base 5)
theorem tm_qtHeatCapacity (s : RootRatio) (h : s.Valid) (hr : s.root = 1) : Tm (qtHeatCapacity s) qtHeatCapacityE s :=
  (Tm.div (tm_qtHeat s h hr) (Tm.base 5 one1) ⟨h, hr⟩)
def qtThermalResistanceE : DimExpr := .div (.base 5) qtHeatTransferRateE
theorem tm_qtThermalResistance (s : RootRatio) (h : s.Valid) (hr : s.root = 1) : Tm (qtThermalResistance s) qtThermalResistanceE s :=
  (Tm.div (Tm.base 5 s) (tm_qtHeatTransferRate one1 valid_one rfl) ⟨h, hr⟩)
def qtThermalResistivityE : DimExpr := .mul qtThermalResistanceE (.base 1)
theorem tm_qtThermalResistivity (s : RootRatio) (h : s.Valid) (hr : s.root = 1) : Tm (qtThermalResistivity s) qtThermalResistivityE s :=
  (Tm.mul (tm_qtThermalResistance s h hr) (Tm.base 1 one1) ⟨h, hr⟩)
def qtThermalConductivityE : DimExpr := .div (.base 0) qtThermalResistivityE
theorem tm_qtThermalConductivity (s : RootRatio) (h : s.Valid) (hr : s.root = 1) : Tm (qtThermalConductivity s) qtThermalConductivityE (rrInv s) :=
  Tm.inv (tm_qtThermalResistivity s h hr) ⟨h, hr⟩
def qtThermalInsulanceE : DimExpr := .mul qtThermalResistanceE qtAreaE
theorem tm_qtThermalInsulance (s : RootRatio) (h : s.Valid) (hr : s.root = 1) : Tm (qtThermalInsulance s) qtThermalInsulanceE s :=
  (Tm.mul (tm_qtThermalResistance s h hr) (tm_qtArea one1 valid_one rfl) ⟨h, hr⟩)

/-- The dimension expression of a template. -/
def QTmpl.expr : QTmpl → DimExpr
  | .dimensionless => .base 0
  | .length => .base 1
  | .time => .base 2
  | .mass => .base 3
  | .electricCurrent => .base 4
  | .temperature => .base 5
  | .amountOfSubstance => .base 6
  | .luminousIntensity => .base 7
  | .planarAngle => .base 8
  | .solidAngle => .base 9
  | .dataQuantity => .base 10
  | .speed => qtSpeedE
  | .acceleration => qtAccelerationE
  | .angularVelocity => qtAngularVelocityE
  | .momentum => qtMomentumE
  | .area => qtAreaE
  | .volume => qtVolumeE
  | .force => qtForceE
  | .power => qtPowerE
  | .energy => qtEnergyE
  | .work => qtWorkE
  | .pressure => qtPressureE
  | .frequency => qtFrequencyE
  | .dataRate => qtDataRateE
  | .chemicalPotential => qtChemicalPotentialE
  | .molarity => qtMolarityE
  | .molality => qtMolalityE
  | .catalyticActivity => qtCatalyticActivityE
  | .electricPotential => qtElectricPotentialE
  | .electricCharge => qtElectricChargeE
  | .electricalResistance => qtElectricalResistanceE
  | .electricalConductivity => qtElectricalConductivityE
  | .electricalResistivity => qtElectricalResistivityE
  | .capacitance => qtCapacitanceE
  | .inductance => qtInductanceE
  | .magneticFluxDensity => qtMagneticFluxDensityE
  | .magneticFlux => qtMagneticFluxE
  | .currentNoiseDensity => qtCurrentNoiseDensityE
  | .voltageNoiseDensity => qtVoltageNoiseDensityE
  | .luminousFlux => qtLuminousFluxE
  | .luminousEnergy => qtLuminousEnergyE
  | .luminance => qtLuminanceE
  | .illuminance => qtIlluminanceE
  | .luminousExposure => qtLuminousExposureE
  | .luminousEnergyDensity => qtLuminousEnergyDensityE
  | .luminousEfficacy => qtLuminousEfficacyE
  | .heat => qtHeatE
  | .heatTransferRate => qtHeatTransferRateE
  | .heatFlux => qtHeatFluxE
  | .heatCapacity => qtHeatCapacityE
  | .thermalResistance => qtThermalResistanceE
  | .thermalResistivity => qtThermalResistivityE
  | .thermalConductivity => qtThermalConductivityE
  | .thermalInsulance => qtThermalInsulanceE

/-- The templates that invert their scale parameter. -/
def inverting : List QTmpl := [.electricalConductivity, .thermalConductivity]

theorem expr_exps (q : QTmpl) : ∀ i, q.expr.exps i = (SI.dim q).exps i := by
  cases q <;> decide +kernel

theorem tm_all (q : QTmpl) (s : RootRatio) (h : s.Valid) (hr : s.root = 1) :
    Tm (q.ty s) q.expr (if q ∈ inverting then rrInv s else s) := by
  cases q
  case dimensionless => exact Tm.base 0 s
  case length => exact Tm.base 1 s
  case time => exact Tm.base 2 s
  case mass => exact Tm.base 3 s
  case electricCurrent => exact Tm.base 4 s
  case temperature => exact Tm.base 5 s
  case amountOfSubstance => exact Tm.base 6 s
  case luminousIntensity => exact Tm.base 7 s
  case planarAngle => exact Tm.base 8 s
  case solidAngle => exact Tm.base 9 s
  case dataQuantity => exact Tm.base 10 s
  case speed => exact tm_qtSpeed s h hr
  case acceleration => exact tm_qtAcceleration s h hr
  case angularVelocity => exact tm_qtAngularVelocity s h hr
  case momentum => exact tm_qtMomentum s h hr
  case area => exact tm_qtArea s h hr
  case volume => exact tm_qtVolume s h hr
  case force => exact tm_qtForce s h hr
  case power => exact tm_qtPower s h hr
  case energy => exact tm_qtEnergy s h hr
  case work => exact tm_qtWork s h hr
  case pressure => exact tm_qtPressure s h hr
  case frequency => exact tm_qtFrequency s h hr
  case dataRate => exact tm_qtDataRate s h hr
  case chemicalPotential => exact tm_qtChemicalPotential s h hr
  case molarity => exact tm_qtMolarity s h hr
  case molality => exact tm_qtMolality s h hr
  case catalyticActivity => exact tm_qtCatalyticActivity s h hr
  case electricPotential => exact tm_qtElectricPotential s h hr
  case electricCharge => exact tm_qtElectricCharge s h hr
  case electricalResistance => exact tm_qtElectricalResistance s h hr
  case electricalConductivity => exact tm_qtElectricalConductivity s h hr
  case electricalResistivity => exact tm_qtElectricalResistivity s h hr
  case capacitance => exact tm_qtCapacitance s h hr
  case inductance => exact tm_qtInductance s h hr
  case magneticFluxDensity => exact tm_qtMagneticFluxDensity s h hr
  case magneticFlux => exact tm_qtMagneticFlux s h hr
  case currentNoiseDensity => exact tm_qtCurrentNoiseDensity s h hr
  case voltageNoiseDensity => exact tm_qtVoltageNoiseDensity s h hr
  case luminousFlux => exact tm_qtLuminousFlux s h hr
  case luminousEnergy => exact tm_qtLuminousEnergy s h hr
  case luminance => exact tm_qtLuminance s h hr
  case illuminance => exact tm_qtIlluminance s h hr
  case luminousExposure => exact tm_qtLuminousExposure s h hr
  case luminousEnergyDensity => exact tm_qtLuminousEnergyDensity s h hr
  case luminousEfficacy => exact tm_qtLuminousEfficacy s h hr
  case heat => exact tm_qtHeat s h hr
  case heatTransferRate => exact tm_qtHeatTransferRate s h hr
  case heatFlux => exact tm_qtHeatFlux s h hr
  case heatCapacity => exact tm_qtHeatCapacity s h hr
  case thermalResistance => exact tm_qtThermalResistance s h hr
  case thermalResistivity => exact tm_qtThermalResistivity s h hr
  case thermalConductivity => exact tm_qtThermalConductivity s h hr
  case thermalInsulance => exact tm_qtThermalInsulance s h hr

theorem Dim_exps_inj (a b : SI.Dim) (h : a.exps = b.exps) : a = b := by
  have g := fun i => congrFun h i
  cases a; cases b
  simp only [SI.Dim.mk.injEq]
  exact ⟨g 1, g 2, g 3, g 4, g 5, g 6, g 7, g 8, g 9, g 10⟩

/-- C71 (quantity templates): for every quantity template and every plain scale parameter, the type
has the dimension of the quantity in the SI and no offset; the scale is the parameter, except for the
two conductivities, where it is its inverse. -/
theorem C71_templates (q : QTmpl) (s : RootRatio) (h : s.Valid) (hr : s.root = 1) :
    ∃ t : QTy, q.ty s = .ok t ∧ t.dim.val = dimVal (SI.dim q).exps ∧ t.off = 0 ∧
      (q ∉ [.electricalConductivity, .thermalConductivity] → t.scal = s) ∧
      (q ∈ [.electricalConductivity, .thermalConductivity] → t.scal.val = 1 / s.val) := by
  obtain ⟨d, hd, ht⟩ := tm_all q s h hr
  obtain ⟨r, h1, h2, h3⟩ := toDim_ok q.expr
  rw [hd] at h1
  injection h1 with h1
  subst h1
  refine ⟨_, ht, ?_, rfl, ?_, ?_⟩
  · show d.val = _
    rw [h3]; congr 1; funext i; exact expr_exps q i
  · intro hq
    have hq : q ∉ inverting := hq
    show (if q ∈ inverting then rrInv s else s) = s
    rw [if_neg hq]
  · intro hq
    have hq : q ∈ inverting := hq
    show (if q ∈ inverting then rrInv s else s).val = _
    rw [if_pos hq]
    unfold RootRatio.val rrInv
    rw [hr]
    simp

/-- C71: two quantities of the library have the same dimension type exactly when the SI gives them the
same dimension. -/
theorem C71_template_dims (q q' : QTmpl) :
    ∃ t t' : QTy, q.ty one1 = .ok t ∧ q'.ty one1 = .ok t' ∧ (t.dim = t'.dim ↔ SI.dim q = SI.dim q') := by
  obtain ⟨d, hd, ht⟩ := tm_all q one1 valid_one rfl
  obtain ⟨d', hd', ht'⟩ := tm_all q' one1 valid_one rfl
  refine ⟨_, _, ht, ht', ?_⟩
  show d = d' ↔ _
  have e1 : q.expr.exps = (SI.dim q).exps := funext (expr_exps q)
  have e2 : q'.expr.exps = (SI.dim q').exps := funext (expr_exps q')
  constructor
  · intro hh
    subst hh
    apply Dim_exps_inj
    rw [← e1, ← e2]
    obtain ⟨r, s, h1, h2, h3⟩ := C72_sound q.expr q'.expr
    rw [hd] at h1; rw [hd'] at h2
    injection h1 with h1; injection h2 with h2
    exact h3 (h1.symm.trans h2)
  · intro hh
    by_cases hq : q ∈ [QTmpl.currentNoiseDensity, QTmpl.voltageNoiseDensity]
    · have : q' = q := by
        revert hh
        rcases List.mem_cons.mp hq with rfl | hq
        · cases q' <;> decide +kernel
        · rw [List.mem_singleton] at hq; subst hq
          cases q' <;> decide +kernel
      subst this
      rw [hd] at hd'
      injection hd'
    · have hint : ∀ i, ((SI.dim q).exps i).den = 1 := by
        revert hq
        cases q <;> decide +kernel
      obtain ⟨r, h1, h2, -⟩ := C72_complete_partial q.expr q'.expr (by rw [e1, e2, hh])
        ⟨fun i => ((SI.dim q).exps i).num, fun i => by
          rw [e1]; exact (Rat.den_eq_one_iff _).mp (hint i) |>.symm⟩
      rw [hd] at h1; rw [hd'] at h2
      injection h1 with h1; injection h2 with h2
      exact h1.trans h2.symm

/-- Energy, work and heat share a type; force and pressure do not. -/
example : ∃ t t' : QTy, QTmpl.energy.ty one1 = .ok t ∧ QTmpl.heat.ty one1 = .ok t' ∧ t.dim = t'.dim := by
  obtain ⟨t, t', h, h', e⟩ := C71_template_dims .energy .heat
  exact ⟨t, t', h, h', e.mpr (by decide +kernel)⟩

/-! ### The units -/

/-- Specification: a unit of the library denotes the SI unit `m`: it has its dimension, and `v` of it
is `m.scale * v + m.offset` in base units, for every value `v`. -/
def Denotes (u : UnitDef) (m : SI.Unit) : Prop :=
  ∃ t : QTy, u.ty = .ok t ∧ t.dim.val = dimVal m.dim.exps ∧
    ∀ v : ℝ, (⟨t, v⟩ : Qty ℝ).denote = (m.scale : ℝ) * v + (m.offset : ℝ)

/-- The check of one unit by computation. -/
def checkUnit (u : UnitDef) (m : SI.Unit) : Bool :=
  decide (SI.dim u.q = m.dim) &&
  decide ((if u.q ∈ inverting then (u.den : ℚ) / u.num else (u.num : ℚ) / u.den) = m.scale) &&
  decide ((u.offNum : ℚ) / u.offDen = m.offset)

/-- The well-formedness of a declaration. -/
def okUnit (u : UnitDef) : Bool :=
  decide (0 < u.num) && decide (0 < u.den) && (decide (u.offNum = 0) || decide (u.q = .temperature))

theorem unit_ty (u : UnitDef) (h : okUnit u = true) : ∃ t : QTy, u.ty = .ok t ∧
    t.dim.val = dimVal (SI.dim u.q).exps ∧ t.off = (u.offNum : ℚ) / u.offDen ∧
    t.scal.val = (((if u.q ∈ inverting then (u.den : ℚ) / u.num else (u.num : ℚ) / u.den) : ℚ) : ℝ) := by
  simp only [okUnit, Bool.and_eq_true, Bool.or_eq_true, decide_eq_true_eq] at h
  obtain ⟨⟨hn, hd⟩, ho⟩ := h
  have hv := plainScale_valid u.num u.den hn hd
  have hval : (plainScale u.num u.den).val = (u.num : ℝ) / u.den := by
    rw [plainScale, rrMk_val _ _ _ hn]; simp
  obtain ⟨t, h1, h2, h3, h4, h5⟩ := C71_templates u.q (plainScale u.num u.den) hv rfl
  have hsc : t.scal.val = (((if u.q ∈ inverting then (u.den : ℚ) / u.num else (u.num : ℚ) / u.den) : ℚ) : ℝ) := by
    by_cases hq : u.q ∈ inverting
    · rw [if_pos hq, h5 hq, hval]; push_cast; rw [one_div_div]
    · rw [if_neg hq, h4 hq, hval]; push_cast; rfl
  by_cases hz : u.offNum = 0
  · refine ⟨t, ?_, h2, ?_, hsc⟩
    · unfold UnitDef.ty; rw [h1]; simp only [Res.bind_ok]; rw [if_pos hz]; rfl
    · rw [h3, hz]; simp
  · have hq : u.q = .temperature := ho.resolve_left hz
    refine ⟨⟨t.dim, t.scal, (u.offNum : ℚ) / u.offDen⟩, ?_, h2, rfl, hsc⟩
    unfold UnitDef.ty; rw [h1]; simp only [Res.bind_ok]; rw [if_neg hz, if_pos hq]; rfl

theorem denotes_iff (u : UnitDef) (m : SI.Unit) (h : okUnit u = true) :
    Denotes u m ↔ checkUnit u m = true := by
  obtain ⟨t, h1, h2, h3, h4⟩ := unit_ty u h
  simp only [checkUnit, Bool.and_eq_true, decide_eq_true_eq]
  generalize hsc : (if u.q ∈ inverting then (u.den : ℚ) / u.num else (u.num : ℚ) / u.den) = sc at h4 ⊢
  constructor
  · rintro ⟨t', k1, k2, k3⟩
    rw [h1] at k1
    injection k1 with k1
    subst k1
    have z := k3 0
    have o := k3 1
    simp only [Qty.denote, h3, h4, RCLike.ofReal_real_eq_id, id_eq, mul_zero, zero_add, mul_one] at z o
    have z' : (u.offNum : ℚ) / u.offDen = m.offset := by exact_mod_cast z
    refine ⟨⟨?_, ?_⟩, z'⟩
    · apply Dim_exps_inj
      refine dimVal_inj _ _ rfl rfl ?_
      rw [← h2, k2]
    · rw [z] at o
      have := add_right_cancel o
      exact_mod_cast this
  · rintro ⟨⟨a, b⟩, c⟩
    refine ⟨t, h1, by rw [h2, a], fun v => ?_⟩
    rw [← b, ← c]
    simp only [Qty.denote, h3, h4, RCLike.ofReal_real_eq_id, id_eq]

/-- A number for a name (to compare names quickly). -/
def nameCode (s : String) : ℕ := s.toList.foldl (fun a c => a * 256 + c.toNat) 1

/-- All numbers are different (a boolean test that evaluates quickly). -/
def allDiff : List ℕ → Bool
  | [] => true
  | a :: l => l.all (fun b => !(Nat.beq a b)) && allDiff l

theorem allDiff_nodup (l : List ℕ) (h : allDiff l = true) : l.Nodup := by
  induction l with
  | nil => exact List.nodup_nil
  | cons a l ih =>
    simp only [allDiff, Bool.and_eq_true, List.all_eq_true, Bool.not_eq_true'] at h
    refine List.nodup_cons.mpr ⟨fun hm => ?_, ih h.2⟩
    have := h.1 a hm
    simp at this

/-- Two tables with the same names, in the same order and without repetition, checked entry by entry. -/
theorem table_check (us : List UnitDef) (ms : List SI.Unit) (bad : List String)
    (hn : us.map (·.name) = ms.map (·.name)) (hd : allDiff (us.map fun u => nameCode u.name) = true)
    (hok : us.all okUnit = true)
    (hc : (us.zip ms).all (fun p => checkUnit p.1 p.2 == !(bad.contains p.1.name)) = true) :
    (∀ u ∈ us, ∃ m ∈ ms, m.name = u.name) ∧ (∀ m ∈ ms, ∃ u ∈ us, u.name = m.name) ∧
    ∀ u ∈ us, ∀ m ∈ ms, u.name = m.name → (Denotes u m ↔ u.name ∉ bad) := by
  have hnd : (us.map (·.name)).Nodup := by
    have : us.map (fun u => nameCode u.name) = (us.map (·.name)).map nameCode := by
      rw [List.map_map]; rfl
    rw [this] at hd
    exact (allDiff_nodup _ hd).of_map _
  refine ⟨fun u hu => ?_, fun m hm => ?_, fun u hu m hm e => ?_⟩
  · have : u.name ∈ ms.map (·.name) := hn ▸ List.mem_map_of_mem hu
    obtain ⟨m, h1, h2⟩ := List.mem_map.mp this
    exact ⟨m, h1, h2⟩
  · have : m.name ∈ us.map (·.name) := hn ▸ List.mem_map_of_mem hm
    obtain ⟨m, h1, h2⟩ := List.mem_map.mp this
    exact ⟨m, h1, h2⟩
  · have hlen : us.length = ms.length := by simpa using congrArg List.length hn
    obtain ⟨i, hi, rfl⟩ := List.getElem_of_mem hu
    obtain ⟨j, hj, rfl⟩ := List.getElem_of_mem hm
    have hij : i = j := by
      have hi' : i < (us.map (·.name)).length := by simpa using hi
      have hj' : j < (us.map (·.name)).length := by simpa [hlen] using hj
      refine (List.Nodup.getElem_inj_iff hnd (hi := hi') (hj := hj')).mp ?_
      have e2 : (us.map (·.name))[j] = (ms.map (·.name))[j]'(by simpa using hj) := by
        simp only [hn]
      rw [e2, List.getElem_map, List.getElem_map]
      exact e
    subst hij
    rw [denotes_iff _ _ (List.all_eq_true.mp hok _ hu)]
    have hz : (us[i], ms[i]) ∈ us.zip ms := by
      rw [List.mem_iff_getElem]
      exact ⟨i, by simp [hi, hj], by simp⟩
    have := List.all_eq_true.mp hc _ hz
    simp only [beq_iff_eq] at this
    rw [this]
    simp

/-- The unit aliases that do not denote the unit they are named after. -/
def wrongAliases : List String :=
  ["teratonne", "kilometer_per_hour", "knot", "pound_force", "poundal", "kilogram_force", "dyne",
   "attosiemens", "femtosiemens", "picosiemens", "nanosiemens", "microsiemens", "millisiemens",
   "centisiemens", "decisiemens", "decasiemens", "hectosiemens", "kilosiemens", "megasiemens",
   "gigasiemens", "terasiemens", "petasiemens", "exasiemens"]

/-- The literals that do not denote the unit of their symbol. -/
def wrongLiterals : List String :=
  ["_Tt", "_km_per_h", "_kn", "_flm", "_flx", "_aS", "_fS", "_pS", "_nS", "_uS", "_mS", "_kS", "_MS",
   "_GS", "_TS", "_PS", "_ES"]

/-- The aliases with a rational value in the SI. -/
def exactAliases : List UnitDef := unitAliases.filter fun u => !(SI.rounded.contains u.name)

/-- The literals with a rational value in the SI. -/
def exactLiterals : List UnitDef := unitLiterals.filter fun u => !(SI.rounded.contains u.name)

set_option maxRecDepth 100000 in
theorem aliases_names : exactAliases.map (·.name) = SI.units.map (·.name) := by decide +kernel

set_option maxRecDepth 100000 in
theorem literals_names : exactLiterals.map (·.name) = SI.literals.map (·.name) := by decide +kernel

set_option maxRecDepth 100000 in
theorem aliases_check : (exactAliases.zip SI.units).all
    (fun p => checkUnit p.1 p.2 == !(wrongAliases.contains p.1.name)) = true := by decide +kernel

set_option maxRecDepth 100000 in
theorem literals_check : (exactLiterals.zip SI.literals).all
    (fun p => checkUnit p.1 p.2 == !(wrongLiterals.contains p.1.name)) = true := by decide +kernel

set_option maxRecDepth 100000 in
theorem aliases_ok : exactAliases.all okUnit = true := by decide +kernel

set_option maxRecDepth 100000 in
theorem literals_ok : exactLiterals.all okUnit = true := by decide +kernel

set_option maxRecDepth 100000 in
theorem aliases_nodup : allDiff (exactAliases.map fun u => nameCode u.name) = true := by decide +kernel

set_option maxRecDepth 100000 in
theorem literals_nodup : allDiff (exactLiterals.map fun u => nameCode u.name) = true := by decide +kernel

/-- C71 (aliases): every unit alias with a rational value is in the SI table and conversely, and it
denotes the unit it is named after exactly when it is not one of the 23 names in `wrongAliases`. -/
theorem C71_aliases :
    (∀ u ∈ unitAliases, u.name ∉ SI.rounded → ∃ m ∈ SI.units, m.name = u.name) ∧
    (∀ m ∈ SI.units, ∃ u ∈ unitAliases, u.name = m.name) ∧
    ∀ u ∈ unitAliases, ∀ m ∈ SI.units, u.name = m.name → u.name ∉ SI.rounded →
      (Denotes u m ↔ u.name ∉ wrongAliases) := by
  obtain ⟨h1, h2, h3⟩ := table_check exactAliases SI.units wrongAliases aliases_names aliases_nodup
    aliases_ok aliases_check
  have mem : ∀ u ∈ unitAliases, u.name ∉ SI.rounded → u ∈ exactAliases := fun u hu hr =>
    List.mem_filter.mpr ⟨hu, by simpa using hr⟩
  exact ⟨fun u hu hr => h1 u (mem u hu hr),
    fun m hm => (h2 m hm).imp fun u hu => ⟨(List.mem_filter.mp hu.1).1, hu.2⟩,
    fun u hu m hm e hr => h3 u (mem u hu hr) m hm e⟩

/-- C71 (literals): every literal whose unit has a rational value is in the SI table and conversely,
and it denotes the unit of its symbol exactly when it is not one of the 17 symbols in
`wrongLiterals`. -/
theorem C71_literals :
    (∀ u ∈ unitLiterals, u.name ∉ SI.rounded → ∃ m ∈ SI.literals, m.name = u.name) ∧
    (∀ m ∈ SI.literals, ∃ u ∈ unitLiterals, u.name = m.name) ∧
    ∀ u ∈ unitLiterals, ∀ m ∈ SI.literals, u.name = m.name → u.name ∉ SI.rounded →
      (Denotes u m ↔ u.name ∉ wrongLiterals) := by
  obtain ⟨h1, h2, h3⟩ := table_check exactLiterals SI.literals wrongLiterals literals_names
    literals_nodup literals_ok literals_check
  have mem : ∀ u ∈ unitLiterals, u.name ∉ SI.rounded → u ∈ exactLiterals := fun u hu hr =>
    List.mem_filter.mpr ⟨hu, by simpa using hr⟩
  exact ⟨fun u hu hr => h1 u (mem u hu hr),
    fun m hm => (h2 m hm).imp fun u hu => ⟨(List.mem_filter.mp hu.1).1, hu.2⟩,
    fun u hu m hm e hr => h3 u (mem u hu hr) m hm e⟩

/-- A literal denotes its value in the unit of its symbol: `x_sym` is `scale * x + offset` in base
units, for every `x` and every literal that is not in `wrongLiterals`. -/
theorem C71_literal_value (u : UnitDef) (hu : u ∈ unitLiterals) (hw : u.name ∉ wrongLiterals)
    (hr : u.name ∉ SI.rounded) (x : ℝ) :
    ∃ m ∈ SI.literals, m.name = u.name ∧ ∃ q, literal u x = .ok q ∧
      q.ty.dim.val = dimVal m.dim.exps ∧ q.denote = (m.scale : ℝ) * x + (m.offset : ℝ) := by
  obtain ⟨h1, -, h3⟩ := C71_literals
  obtain ⟨m, hm, e⟩ := h1 u hu hr
  obtain ⟨t, k1, k2, k3⟩ := (h3 u hu m hm e.symm hr).mpr hw
  refine ⟨m, hm, e, ⟨t, x⟩, ?_, k2, k3 x⟩
  unfold literal; rw [k1]; rfl

/-- A case: 25 degrees Celsius are 298.15 kelvins. -/
example : ∃ q, literal ⟨"_degC", .temperature, 1, 1, 27315, 100⟩ 25 = .ok q ∧ q.denote = 298.15 := by
  obtain ⟨t, h1, h2, h3, h4⟩ := unit_ty ⟨"_degC", .temperature, 1, 1, 27315, 100⟩ (by decide +kernel)
  refine ⟨⟨t, 25⟩, ?_, ?_⟩
  · unfold literal; rw [h1]; rfl
  · have : (QTmpl.temperature ∈ inverting) = False := by simp [inverting]
    simp only [Qty.denote, h3, h4, this, if_false]
    norm_num

/-- Specification: the exact values of the units in `SI.rounded`, and the accepted relative error. -/
noncomputable def roundedUnits : List (String × String × QTmpl × ℝ × ℝ) := [
  -- one parsec is 648000/π astronomical units (IAU 2015)
  ("parsec", "_pc", .length, 648000 / Real.pi * 149597870700, 8 / 10 ^ 12),
  ("degree", "_deg", .planarAngle, Real.pi / 180, 1 / 10 ^ 20),
  ("turn", "_turn", .planarAngle, 2 * Real.pi, 1 / 10 ^ 20),
  -- a column of 1 mm of mercury of density 13595.1 kg/m³ under standard gravity
  ("mmHg", "_mmHg", .pressure, 135951 / 10 * (SI.standardGravity : ℚ) / 1000, 2 / 10 ^ 7),
  ("psi", "_psi", .pressure, ((SI.pound * SI.standardGravity / SI.inch ^ 2 : ℚ) : ℝ), 4 / 10 ^ 7),
  -- one micromole per minute
  ("enzyme_unit", "", .catalyticActivity, 1 / 10 ^ 6 / 60, 21 / 10 ^ 5)]

set_option maxRecDepth 100000 in
theorem rounded_entries : (unitAliases ++ unitLiterals).filter (fun u => SI.rounded.contains u.name) =
    [⟨"parsec", .length, 30856775814671900, 1, 0, 1⟩,
     ⟨"degree", .planarAngle, 21053343141, 6701487259 * 180, 0, 1⟩,
     ⟨"turn", .planarAngle, 2 * 21053343141, 6701487259, 0, 1⟩,
     ⟨"mmHg", .pressure, 101325, 760, 0, 1⟩, ⟨"psi", .pressure, 689476, 100, 0, 1⟩,
     ⟨"enzyme_unit", .catalyticActivity, 1667, 100000000000, 0, 1⟩,
     ⟨"_pc", .length, 30856775814671900, 1, 0, 1⟩,
     ⟨"_deg", .planarAngle, 21053343141, 6701487259 * 180, 0, 1⟩,
     ⟨"_turn", .planarAngle, 2 * 21053343141, 6701487259, 0, 1⟩,
     ⟨"_mmHg", .pressure, 101325, 760, 0, 1⟩, ⟨"_psi", .pressure, 689476, 100, 0, 1⟩] := by
  decide +kernel

/-- C71 (rounded units): the remaining aliases and literals have the right dimension and the right
value up to the listed relative error (degree and turn within `10⁻²⁰`, the parsec within `8·10⁻¹²`,
mmHg and psi within `4·10⁻⁷`, the enzyme unit within `2.1·10⁻⁴`). -/
theorem C71_rounded_units (u : UnitDef) (hu : u ∈ unitAliases ++ unitLiterals)
    (hr : u.name ∈ SI.rounded) : ∃ r ∈ roundedUnits, (u.name = r.1 ∨ u.name = r.2.1) ∧
      ∃ t : QTy, u.ty = .ok t ∧ t.dim.val = dimVal (SI.dim r.2.2.1).exps ∧ t.off = 0 ∧
        |t.scal.val - r.2.2.2.1| ≤ r.2.2.2.2 * r.2.2.2.1 := by
  have hm : u ∈ (unitAliases ++ unitLiterals).filter (fun u => SI.rounded.contains u.name) :=
    List.mem_filter.mpr ⟨hu, by simpa using hr⟩
  rw [rounded_entries] at hm
  have hp := Real.pi_gt_d20
  have hq := Real.pi_lt_d20
  have h0 := Real.pi_pos
  have key : ∀ u : UnitDef, okUnit u = true → u.q ∉ inverting → u.offNum = 0 → ∀ x ε : ℝ,
      |(u.num : ℝ) / u.den - x| ≤ ε * x → ∃ t : QTy, u.ty = .ok t ∧
        t.dim.val = dimVal (SI.dim u.q).exps ∧ t.off = 0 ∧ |t.scal.val - x| ≤ ε * x := by
    intro u h1 h2 h3 x ε hx
    obtain ⟨t, k1, k2, k3, k4⟩ := unit_ty u h1
    refine ⟨t, k1, k2, by rw [k3, h3]; simp, ?_⟩
    rw [k4, if_neg h2]
    push_cast
    exact hx
  have pc : |((30856775814671900 : ℕ) : ℝ) / (1 : ℕ) - 648000 / Real.pi * 149597870700| ≤
      8 / 10 ^ 12 * (648000 / Real.pi * 149597870700) := by
    have e : (648000 / Real.pi * 149597870700 : ℝ) = 96939420213600000 / Real.pi := by
      rw [div_mul_eq_mul_div]; norm_num
    rw [e, abs_le]
    push_cast
    rw [div_one]
    have b : (96939420213600000 : ℝ) / Real.pi ≤ 96939420213600000 / 3.14159265358979323846 :=
      div_le_div_of_nonneg_left (by norm_num) (by norm_num) hp.le
    have c : (96939420213600000 : ℝ) / 3.14159265358979323847 ≤ 96939420213600000 / Real.pi :=
      div_le_div_of_nonneg_left (by norm_num) h0 hq.le
    generalize (96939420213600000 : ℝ) / Real.pi = y at b c ⊢
    norm_num at b c ⊢
    constructor <;> linarith
  have dg : |((21053343141 : ℕ) : ℝ) / ((6701487259 * 180 : ℕ) : ℝ) - Real.pi / 180| ≤
      1 / 10 ^ 20 * (Real.pi / 180) := by
    rw [abs_le]; push_cast; norm_num at hp hq ⊢; constructor <;> linarith
  have tn : |((2 * 21053343141 : ℕ) : ℝ) / ((6701487259 : ℕ) : ℝ) - 2 * Real.pi| ≤
      1 / 10 ^ 20 * (2 * Real.pi) := by
    rw [abs_le]; push_cast; norm_num at hp hq ⊢; constructor <;> linarith
  have mm : |((101325 : ℕ) : ℝ) / ((760 : ℕ) : ℝ) - 135951 / 10 * (SI.standardGravity : ℚ) / 1000| ≤
      2 / 10 ^ 7 * (135951 / 10 * (SI.standardGravity : ℚ) / 1000) := by
    rw [abs_le]; unfold SI.standardGravity; norm_num
  have ps : |((689476 : ℕ) : ℝ) / ((100 : ℕ) : ℝ) -
      ((SI.pound * SI.standardGravity / SI.inch ^ 2 : ℚ) : ℝ)| ≤
      4 / 10 ^ 7 * ((SI.pound * SI.standardGravity / SI.inch ^ 2 : ℚ) : ℝ) := by
    rw [abs_le]; unfold SI.standardGravity SI.pound SI.inch; norm_num
  have ez : |((1667 : ℕ) : ℝ) / ((100000000000 : ℕ) : ℝ) - 1 / 10 ^ 6 / 60| ≤
      21 / 10 ^ 5 * (1 / 10 ^ 6 / 60) := by
    rw [abs_le]; norm_num
  simp only [List.mem_cons, List.not_mem_nil, or_false] at hm
  simp only [roundedUnits, List.mem_cons, List.not_mem_nil, or_false]
  rcases hm with rfl | rfl | rfl | rfl | rfl | rfl | rfl | rfl | rfl | rfl | rfl
  · exact ⟨_, .inl rfl, .inl rfl, key _ (by decide +kernel) (by decide) rfl _ _ pc⟩
  · exact ⟨_, .inr (.inl rfl), .inl rfl, key _ (by decide +kernel) (by decide) rfl _ _ dg⟩
  · exact ⟨_, .inr (.inr (.inl rfl)), .inl rfl, key _ (by decide +kernel) (by decide) rfl _ _ tn⟩
  · exact ⟨_, .inr (.inr (.inr (.inl rfl))), .inl rfl, key _ (by decide +kernel) (by decide) rfl _ _ mm⟩
  · exact ⟨_, .inr (.inr (.inr (.inr (.inl rfl)))), .inl rfl, key _ (by decide +kernel) (by decide) rfl _ _ ps⟩
  · exact ⟨_, .inr (.inr (.inr (.inr (.inr rfl)))), .inl rfl, key _ (by decide +kernel) (by decide) rfl _ _ ez⟩
  · exact ⟨_, .inl rfl, .inr rfl, key _ (by decide +kernel) (by decide) rfl _ _ pc⟩
  · exact ⟨_, .inr (.inl rfl), .inr rfl, key _ (by decide +kernel) (by decide) rfl _ _ dg⟩
  · exact ⟨_, .inr (.inr (.inl rfl)), .inr rfl, key _ (by decide +kernel) (by decide) rfl _ _ tn⟩
  · exact ⟨_, .inr (.inr (.inr (.inl rfl))), .inr rfl, key _ (by decide +kernel) (by decide) rfl _ _ mm⟩
  · exact ⟨_, .inr (.inr (.inr (.inr (.inl rfl)))), .inr rfl, key _ (by decide +kernel) (by decide) rfl _ _ ps⟩

end SciCpp
