import Verif.Model.Traits
import Verif.Props.UnitTable
/-
  Property theorems C106: the quantity traits.
-/
set_option linter.unusedSectionVars false
set_option linter.unusedVariables false
namespace SciCpp
open Spec

/-! ### The dimension of a template with any scale, also a root -/

/-- A template expression is defined and has the dimension of `e`. -/
def Td (r : Res QTy) (e : DimExpr) : Prop :=
  ∃ d t, e.toDim = .ok d ∧ r = .ok t ∧ t.dim = d ∧ t.scal.Valid ∧ t.off = 0

theorem Td.base (i : Fin 11) (s : RootRatio) (h : s.Valid) : Td (.ok (tyBase i s)) (.base i) :=
  ⟨_, _, rfl, rfl, rfl, h, rfl⟩

theorem Td.mul {r1 r2 : Res QTy} {e1 e2 : DimExpr} (h1 : Td r1 e1) (h2 : Td r2 e2) :
    Td (do let a ← r1; let b ← r2; tyMul a b) (.mul e1 e2) := by
  obtain ⟨d1, t1, a1, rfl, rfl, v1, o1⟩ := h1
  obtain ⟨d2, t2, a2, rfl, rfl, v2, o2⟩ := h2
  obtain ⟨d, k, -⟩ := toDim_ok (.mul e1 e2)
  obtain ⟨s, hs, vs, -⟩ := C34_multiply _ _ v1 v2
  refine ⟨d, ⟨d, s, 0⟩, k, ?_, rfl, vs, rfl⟩
  simp only [DimExpr.toDim, a1, a2, Res.bind_ok] at k
  simp only [Res.bind_ok]
  unfold tyMul
  rw [if_neg (by simp [o2]), k, hs]
  rfl

theorem Td.div {r1 r2 : Res QTy} {e1 e2 : DimExpr} (h1 : Td r1 e1) (h2 : Td r2 e2) :
    Td (do let a ← r1; let b ← r2; tyDiv a b) (.div e1 e2) := by
  obtain ⟨d1, t1, a1, rfl, rfl, v1, o1⟩ := h1
  obtain ⟨d2, t2, a2, rfl, rfl, v2, o2⟩ := h2
  obtain ⟨d, k, -⟩ := toDim_ok (.div e1 e2)
  obtain ⟨s, hs, vs, -⟩ := C34_divide _ _ v1 v2
  refine ⟨d, ⟨d, s, 0⟩, k, ?_, rfl, vs, rfl⟩
  simp only [DimExpr.toDim, a1, a2, Res.bind_ok] at k
  simp only [Res.bind_ok]
  unfold tyDiv
  rw [if_neg (by simp [o2]), k, hs]
  rfl

theorem Td.root2 {r : Res QTy} {e : DimExpr} (h : Td r e) :
    Td (do let a ← r; tyRoot 2 a) (.root e 1) := by
  obtain ⟨d1, t1, a1, rfl, rfl, v1, o1⟩ := h
  obtain ⟨d, k, -⟩ := toDim_ok (.root e 1)
  obtain ⟨s, hs, vs, -⟩ := C34_root _ 2 v1 (by omega)
  refine ⟨d, ⟨d, s, 0⟩, k, ?_, rfl, vs, rfl⟩
  simp only [DimExpr.toDim, a1, Res.bind_ok] at k
  simp only [Res.bind_ok]
  unfold tyRoot
  rw [k, hs]
  rfl

theorem Td.inv {r : Res QTy} {e : DimExpr} (h : Td r e) :
    Td (do let a ← r; tyInv a) (.div (.base 0) e) := by
  obtain ⟨d1, t1, a1, rfl, rfl, v1, o1⟩ := h
  obtain ⟨d, k, -⟩ := toDim_ok (.div (.base 0) e)
  obtain ⟨s, hs, vs, -⟩ := C34_divide one1 _ valid_one v1
  refine ⟨d, ⟨d, s, 0⟩, k, ?_, rfl, vs, rfl⟩
  simp only [DimExpr.toDim, a1, Res.bind_ok] at k
  simp only [Res.bind_ok]
  unfold tyInv
  have k' : rrDiv ⟨1, 1, 1⟩ t1.dim = .ok d := k
  have hs' : rrDiv ⟨1, 1, 1⟩ t1.scal = .ok s := hs
  rw [k', hs']
  rfl

theorem td_qtSpeed (s : RootRatio) (h : s.Valid) : Td (qtSpeed s) qtSpeedE :=
  (Td.div (Td.base 1 s h) (Td.base 2 one1 valid_one))
theorem td_qtAcceleration (s : RootRatio) (h : s.Valid) : Td (qtAcceleration s) qtAccelerationE :=
  (Td.div (td_qtSpeed s h) (Td.base 2 one1 valid_one))
theorem td_qtAngularVelocity (s : RootRatio) (h : s.Valid) : Td (qtAngularVelocity s) qtAngularVelocityE :=
  (Td.div (Td.base 8 s h) (Td.base 2 one1 valid_one))
theorem td_qtMomentum (s : RootRatio) (h : s.Valid) : Td (qtMomentum s) qtMomentumE :=
  (Td.mul (Td.base 3 s h) (td_qtSpeed one1 valid_one))
theorem td_qtArea (s : RootRatio) (h : s.Valid) : Td (qtArea s) qtAreaE :=
  (Td.mul (Td.base 1 s h) (Td.base 1 one1 valid_one))
theorem td_qtVolume (s : RootRatio) (h : s.Valid) : Td (qtVolume s) qtVolumeE :=
  (Td.mul (td_qtArea s h) (Td.base 1 one1 valid_one))
theorem td_qtForce (s : RootRatio) (h : s.Valid) : Td (qtForce s) qtForceE :=
  (Td.mul (Td.base 3 s h) (td_qtAcceleration one1 valid_one))
theorem td_qtPower (s : RootRatio) (h : s.Valid) : Td (qtPower s) qtPowerE :=
  (Td.mul (td_qtForce s h) (td_qtSpeed one1 valid_one))
theorem td_qtEnergy (s : RootRatio) (h : s.Valid) : Td (qtEnergy s) qtEnergyE :=
  (Td.mul (td_qtPower s h) (Td.base 2 one1 valid_one))
theorem td_qtWork (s : RootRatio) (h : s.Valid) : Td (qtWork s) qtWorkE := td_qtEnergy s h
theorem td_qtPressure (s : RootRatio) (h : s.Valid) : Td (qtPressure s) qtPressureE :=
  (Td.div (td_qtForce s h) (td_qtArea one1 valid_one))
theorem td_qtFrequency (s : RootRatio) (h : s.Valid) : Td (qtFrequency s) qtFrequencyE :=
  (Td.div (Td.base 0 s h) (Td.base 2 one1 valid_one))
theorem td_qtDataRate (s : RootRatio) (h : s.Valid) : Td (qtDataRate s) qtDataRateE :=
  (Td.div (Td.base 10 s h) (Td.base 2 one1 valid_one))
theorem td_qtChemicalPotential (s : RootRatio) (h : s.Valid) : Td (qtChemicalPotential s) qtChemicalPotentialE :=
  (Td.div (td_qtEnergy s h) (Td.base 6 one1 valid_one))
theorem td_qtMolarity (s : RootRatio) (h : s.Valid) : Td (qtMolarity s) qtMolarityE :=
  (Td.div (Td.base 6 s h) (td_qtVolume one1 valid_one))
theorem td_qtMolality (s : RootRatio) (h : s.Valid) : Td (qtMolality s) qtMolalityE :=
  (Td.div (Td.base 6 s h) (Td.base 3 one1 valid_one))
theorem td_qtCatalyticActivity (s : RootRatio) (h : s.Valid) : Td (qtCatalyticActivity s) qtCatalyticActivityE :=
  (Td.div (Td.base 6 s h) (Td.base 2 one1 valid_one))
theorem td_qtElectricPotential (s : RootRatio) (h : s.Valid) : Td (qtElectricPotential s) qtElectricPotentialE :=
  (Td.div (td_qtPower s h) (Td.base 4 one1 valid_one))
theorem td_qtElectricCharge (s : RootRatio) (h : s.Valid) : Td (qtElectricCharge s) qtElectricChargeE :=
  (Td.mul (Td.base 4 s h) (Td.base 2 one1 valid_one))
theorem td_qtElectricalResistance (s : RootRatio) (h : s.Valid) : Td (qtElectricalResistance s) qtElectricalResistanceE :=
  (Td.div (td_qtPower s h) (Td.mul (Td.base 4 one1 valid_one) (Td.base 4 one1 valid_one)))
theorem td_qtElectricalConductivity (s : RootRatio) (h : s.Valid) : Td (qtElectricalConductivity s) qtElectricalConductivityE :=
  Td.inv (td_qtElectricalResistance s h)
theorem td_qtElectricalResistivity (s : RootRatio) (h : s.Valid) : Td (qtElectricalResistivity s) qtElectricalResistivityE :=
  (Td.mul (td_qtElectricalResistance s h) (Td.base 1 one1 valid_one))
theorem td_qtCapacitance (s : RootRatio) (h : s.Valid) : Td (qtCapacitance s) qtCapacitanceE :=
  (Td.div (Td.base 2 s h) (td_qtElectricalResistance one1 valid_one))
theorem td_qtInductance (s : RootRatio) (h : s.Valid) : Td (qtInductance s) qtInductanceE := by
  have hV := td_qtElectricPotential s h
  have hd := Td.div (Td.mul hV (Td.base 2 one1 valid_one)) (Td.base 4 one1 valid_one)
  obtain ⟨d, t, -, b, -⟩ := hV
  unfold qtInductance
  rw [b] at hd ⊢
  exact hd
theorem td_qtMagneticFluxDensity (s : RootRatio) (h : s.Valid) : Td (qtMagneticFluxDensity s) qtMagneticFluxDensityE :=
  (Td.div (td_qtForce s h) (Td.mul (td_qtElectricCharge one1 valid_one) (td_qtSpeed one1 valid_one)))
theorem td_qtMagneticFlux (s : RootRatio) (h : s.Valid) : Td (qtMagneticFlux s) qtMagneticFluxE :=
  (Td.mul (td_qtMagneticFluxDensity s h) (td_qtArea one1 valid_one))
theorem td_qtCurrentNoiseDensity (s : RootRatio) (h : s.Valid) : Td (qtCurrentNoiseDensity s) qtCurrentNoiseDensityE :=
  (Td.div (Td.base 4 s h) (Td.root2 (td_qtFrequency one1 valid_one)))
theorem td_qtVoltageNoiseDensity (s : RootRatio) (h : s.Valid) : Td (qtVoltageNoiseDensity s) qtVoltageNoiseDensityE :=
  (Td.div (td_qtElectricPotential s h) (Td.root2 (td_qtFrequency one1 valid_one)))
theorem td_qtLuminousFlux (s : RootRatio) (h : s.Valid) : Td (qtLuminousFlux s) qtLuminousFluxE :=
  (Td.mul (Td.base 7 s h) (Td.base 9 one1 valid_one))
theorem td_qtLuminousEnergy (s : RootRatio) (h : s.Valid) : Td (qtLuminousEnergy s) qtLuminousEnergyE :=
  (Td.mul (td_qtLuminousFlux s h) (Td.base 2 one1 valid_one))
theorem td_qtLuminance (s : RootRatio) (h : s.Valid) : Td (qtLuminance s) qtLuminanceE :=
  (Td.div (Td.base 7 s h) (td_qtArea one1 valid_one))
theorem td_qtIlluminance (s : RootRatio) (h : s.Valid) : Td (qtIlluminance s) qtIlluminanceE :=
  (Td.div (td_qtLuminousFlux s h) (td_qtArea one1 valid_one))
theorem td_qtLuminousExposure (s : RootRatio) (h : s.Valid) : Td (qtLuminousExposure s) qtLuminousExposureE :=
  (Td.mul (td_qtIlluminance s h) (Td.base 2 one1 valid_one))
theorem td_qtLuminousEnergyDensity (s : RootRatio) (h : s.Valid) : Td (qtLuminousEnergyDensity s) qtLuminousEnergyDensityE :=
  (Td.div (td_qtLuminousEnergy s h) (td_qtVolume one1 valid_one))
theorem td_qtLuminousEfficacy (s : RootRatio) (h : s.Valid) : Td (qtLuminousEfficacy s) qtLuminousEfficacyE :=
  (Td.div (td_qtLuminousFlux s h) (td_qtPower one1 valid_one))
theorem td_qtHeat (s : RootRatio) (h : s.Valid) : Td (qtHeat s) qtHeatE := td_qtEnergy s h
theorem td_qtHeatTransferRate (s : RootRatio) (h : s.Valid) : Td (qtHeatTransferRate s) qtHeatTransferRateE := td_qtPower s h
theorem td_qtHeatFlux (s : RootRatio) (h : s.Valid) : Td (qtHeatFlux s) qtHeatFluxE :=
  (Td.div (td_qtHeatTransferRate s h) (td_qtArea one1 valid_one))
theorem td_qtHeatCapacity (s : RootRatio) (h : s.Valid) : Td (qtHeatCapacity s) qtHeatCapacityE :=
  (Td.div (td_qtHeat s h) (Td.base 5 one1 valid_one))
theorem td_qtThermalResistance (s : RootRatio) (h : s.Valid) : Td (qtThermalResistance s) qtThermalResistanceE :=
  (Td.div (Td.base 5 s h) (td_qtHeatTransferRate one1 valid_one))
theorem td_qtThermalResistivity (s : RootRatio) (h : s.Valid) : Td (qtThermalResistivity s) qtThermalResistivityE :=
  (Td.mul (td_qtThermalResistance s h) (Td.base 1 one1 valid_one))
theorem td_qtThermalConductivity (s : RootRatio) (h : s.Valid) : Td (qtThermalConductivity s) qtThermalConductivityE :=
  Td.inv (td_qtThermalResistivity s h)
theorem td_qtThermalInsulance (s : RootRatio) (h : s.Valid) : Td (qtThermalInsulance s) qtThermalInsulanceE :=
  (Td.mul (td_qtThermalResistance s h) (td_qtArea one1 valid_one))

theorem td_all (q : QTmpl) (s : RootRatio) (h : s.Valid) : Td (q.ty s) q.expr := by
  cases q
  case dimensionless => exact Td.base 0 s h
  case length => exact Td.base 1 s h
  case time => exact Td.base 2 s h
  case mass => exact Td.base 3 s h
  case electricCurrent => exact Td.base 4 s h
  case temperature => exact Td.base 5 s h
  case amountOfSubstance => exact Td.base 6 s h
  case luminousIntensity => exact Td.base 7 s h
  case planarAngle => exact Td.base 8 s h
  case solidAngle => exact Td.base 9 s h
  case dataQuantity => exact Td.base 10 s h
  case speed => exact td_qtSpeed s h
  case acceleration => exact td_qtAcceleration s h
  case angularVelocity => exact td_qtAngularVelocity s h
  case momentum => exact td_qtMomentum s h
  case area => exact td_qtArea s h
  case volume => exact td_qtVolume s h
  case force => exact td_qtForce s h
  case power => exact td_qtPower s h
  case energy => exact td_qtEnergy s h
  case work => exact td_qtWork s h
  case pressure => exact td_qtPressure s h
  case frequency => exact td_qtFrequency s h
  case dataRate => exact td_qtDataRate s h
  case chemicalPotential => exact td_qtChemicalPotential s h
  case molarity => exact td_qtMolarity s h
  case molality => exact td_qtMolality s h
  case catalyticActivity => exact td_qtCatalyticActivity s h
  case electricPotential => exact td_qtElectricPotential s h
  case electricCharge => exact td_qtElectricCharge s h
  case electricalResistance => exact td_qtElectricalResistance s h
  case electricalConductivity => exact td_qtElectricalConductivity s h
  case electricalResistivity => exact td_qtElectricalResistivity s h
  case capacitance => exact td_qtCapacitance s h
  case inductance => exact td_qtInductance s h
  case magneticFluxDensity => exact td_qtMagneticFluxDensity s h
  case magneticFlux => exact td_qtMagneticFlux s h
  case currentNoiseDensity => exact td_qtCurrentNoiseDensity s h
  case voltageNoiseDensity => exact td_qtVoltageNoiseDensity s h
  case luminousFlux => exact td_qtLuminousFlux s h
  case luminousEnergy => exact td_qtLuminousEnergy s h
  case luminance => exact td_qtLuminance s h
  case illuminance => exact td_qtIlluminance s h
  case luminousExposure => exact td_qtLuminousExposure s h
  case luminousEnergyDensity => exact td_qtLuminousEnergyDensity s h
  case luminousEfficacy => exact td_qtLuminousEfficacy s h
  case heat => exact td_qtHeat s h
  case heatTransferRate => exact td_qtHeatTransferRate s h
  case heatFlux => exact td_qtHeatFlux s h
  case heatCapacity => exact td_qtHeatCapacity s h
  case thermalResistance => exact td_qtThermalResistance s h
  case thermalResistivity => exact td_qtThermalResistivity s h
  case thermalConductivity => exact td_qtThermalConductivity s h
  case thermalInsulance => exact td_qtThermalInsulance s h


/-! ### The traits -/

/-- The two quantities whose dimension has half-integer exponents. -/
def Spec.noise : List QTmpl := [.currentNoiseDensity, .voltageNoiseDensity]

theorem noise_or_int (q : QTmpl) : q ∈ noise ∨ ∃ n : Fin 11 → ℤ, ∀ i, (SI.dim q).exps i = n i := by
  by_cases h : q ∈ noise
  · exact Or.inl h
  · refine Or.inr ⟨fun i => ((SI.dim q).exps i).num, ?_⟩
    cases q <;> first | (exact absurd (by decide) h) | decide +kernel

theorem rrRoot_root {a r : RootRatio} {n : ℕ} (h : rrRoot a n = .ok r) : r.root = 1 ∨ r.root = a.root * n := by
  unfold rrRoot at h
  cases h1 : factorsOf a.num with
  | ub => rw [h1] at h; cases h
  | ok qf =>
    cases h2 : factorsOf a.den with
    | ub => rw [h1, h2] at h; cases h
    | ok pf =>
      rw [h1, h2] at h
      simp only [Res.bind_ok] at h
      split_ifs at h
      · injection h with h; rw [← h]; left; rfl
      · injection h with h; rw [← h]; right; rfl

/-- C106: for every quantity `q`, every type of quantity whose dimension is formed by products, quotients,
powers and roots of base dimensions, every scale (also a root) and offset: the trait is defined, and it holds
only if the physical exponents of the dimension are those of `q` in the SI. -/
theorem C106_sound (q : QTmpl) (e : DimExpr) (s : RootRatio) (hs : s.Valid) (off : ℚ) :
    ∃ d b, e.toDim = .ok d ∧ isTrait q (.quantity ⟨d, s, off⟩) = .ok b ∧
      (b = true → e.exps = (SI.dim q).exps) := by
  obtain ⟨d, t, h1, h2, rfl, -⟩ := td_all q s hs
  obtain ⟨d', g1, -⟩ := toDim_ok e
  refine ⟨d', decide (d' = t.dim), g1, ?_, ?_⟩
  · unfold isTrait; rw [h2]; rfl
  · intro hb
    have hd : d' = t.dim := of_decide_eq_true hb
    obtain ⟨r, r', k1, k2, k3⟩ := C72_sound e q.expr
    rw [g1] at k1; rw [h1] at k2
    injection k1 with k1; injection k2 with k2
    rw [k3 (by rw [← k1, ← k2, hd])]
    exact funext (expr_exps q)

/-- C106: for every quantity with integer exponents — all but the two noise densities — the trait holds
exactly for the types with these exponents, however the dimension was formed. -/
theorem C106_exact (q : QTmpl) (hq : q ∉ noise) (e : DimExpr) (s : RootRatio) (hs : s.Valid) (off : ℚ) :
    ∃ d b, e.toDim = .ok d ∧ isTrait q (.quantity ⟨d, s, off⟩) = .ok b ∧
      (b = true ↔ e.exps = (SI.dim q).exps) := by
  obtain ⟨d, b, h1, h2, h3⟩ := C106_sound q e s hs off
  refine ⟨d, b, h1, h2, h3, fun he => ?_⟩
  obtain ⟨n, hn⟩ := (noise_or_int q).resolve_left hq
  have hex : q.expr.exps = e.exps := by rw [he]; exact funext (expr_exps q)
  obtain ⟨r, k1, k2, -⟩ := C72_complete_partial q.expr e hex ⟨n, fun i => by rw [hex, he]; exact hn i⟩
  obtain ⟨d0, t, g1, g2, g3, -⟩ := td_all q s hs
  have : isTrait q (.quantity ⟨d, s, off⟩) = .ok (decide (d = t.dim)) := by
    unfold isTrait; rw [g2]; rfl
  rw [this] at h2
  injection h2 with h2
  rw [← h2, decide_eq_true_eq]
  rw [h1] at k2; rw [g1] at k1
  injection k1 with k1; injection k2 with k2
  rw [g3, k1, k2]

theorem factors_noise :
    factorsOf 1 = .ok [(0, 0)] ∧ factorsOf 3 = .ok [(3, 1), (0, 0)] ∧
    (∃ l, factorsOf 147 = .ok l ∧ isExactRoot l 2 = false) ∧
    (∃ l, factorsOf 400 = .ok l ∧ isExactRoot l 2 = true) ∧
    (∃ l, factorsOf 11907 = .ok l ∧ isExactRoot l 2 = false) := by
  have l3 : ctLog2 3 = 2 := by simp [ctLog2]
  have l147 : ctLog2 147 = 8 := by simp [ctLog2]
  have l400 : ctLog2 400 = 9 := by simp [ctLog2]
  have l11907 : ctLog2 11907 = 14 := by simp [ctLog2]
  refine ⟨by simp [factorsOf, primeFactorsOf, factorLoop, ctLog2], ?_,
    ⟨[(3, 1), (7, 2), (0, 0), (0, 0), (0, 0), (0, 0), (0, 0), (0, 0)], ?_, by decide⟩,
    ⟨[(2, 4), (5, 2), (0, 0), (0, 0), (0, 0), (0, 0), (0, 0), (0, 0), (0, 0)], ?_, by decide⟩,
    ⟨[(3, 5), (7, 2), (0, 0), (0, 0), (0, 0), (0, 0), (0, 0), (0, 0), (0, 0), (0, 0), (0, 0), (0, 0), (0, 0),
      (0, 0)], ?_, by decide⟩⟩
  · simp only [factorsOf, primeFactorsOf, Nat.cast_ofNat, l3]; decide +kernel
  · simp only [factorsOf, primeFactorsOf, Nat.cast_ofNat, l147]; decide +kernel
  · simp only [factorsOf, primeFactorsOf, Nat.cast_ofNat, l400]; decide +kernel
  · simp only [factorsOf, primeFactorsOf, Nat.cast_ofNat, l11907]; decide +kernel

theorem noise_dims : qtCurrentNoiseDensityE.toDim = .ok ⟨147, 1, 2⟩ ∧
    qtVoltageNoiseDensityE.toDim = .ok ⟨400, 11907, 2⟩ := by
  obtain ⟨f1, f3, ⟨l1, g1, g1'⟩, ⟨l2, g2, g2'⟩, ⟨l3, g3, g3'⟩⟩ := factors_noise
  have hf : (DimExpr.root qtFrequencyE 1).toDim = .ok ⟨1, 3, 2⟩ := by
    have : qtFrequencyE.toDim = .ok ⟨1, 3, 1⟩ := by decide +kernel
    show (do rrRoot (← qtFrequencyE.toDim) 2) = _
    rw [this]
    simp [rrRoot, f1, f3, isExactRoot, rrMk]
  have hV : qtElectricPotentialE.toDim = .ok ⟨20, 189, 1⟩ := by decide +kernel
  constructor
  · show (do rrDiv (← (DimExpr.base 4).toDim) (← (DimExpr.root qtFrequencyE 1).toDim)) = _
    rw [hf, show (DimExpr.base 4).toDim = .ok ⟨7, 1, 1⟩ by decide +kernel]
    simp [rrDiv, rrMul, C69_power, rrRoot, f1, g1, g1', rrMk]
  · show (do rrDiv (← qtElectricPotentialE.toDim) (← (DimExpr.root qtFrequencyE 1).toDim)) = _
    rw [hf, hV]
    simp [rrDiv, rrMul, C69_power, rrRoot, g2, g3, g3', rrMk]

theorem noise_root (q : QTmpl) (hq : q ∈ noise) : ∃ d, q.expr.toDim = .ok d ∧ d.Valid ∧ d.root = 2 := by
  obtain ⟨d, h1, h2, h3⟩ := toDim_ok q.expr
  refine ⟨d, h1, h2, ?_⟩
  rcases List.mem_cons.1 hq with rfl | hq
  · have : d = ⟨147, 1, 2⟩ := by
      have := h1.symm.trans noise_dims.1
      injection this
    rw [this]
  · rcases List.mem_cons.1 hq with rfl | hq
    · have : d = ⟨400, 11907, 2⟩ := by
        have := h1.symm.trans noise_dims.2
        injection this
      rw [this]
    · cases hq

/-- C106, noise densities (per square root of a frequency): the trait holds exactly for the types with the
exponents of the quantity whose dimension is stored as a square root.  Missing from the full claim: types with
the same exponents whose dimension is stored as a higher root (`C106_noise_false`). -/
theorem C106_noise_partial (q : QTmpl) (hq : q ∈ noise) (e : DimExpr) (s : RootRatio) (hs : s.Valid) (off : ℚ) :
    ∃ d b, e.toDim = .ok d ∧ isTrait q (.quantity ⟨d, s, off⟩) = .ok b ∧
      (b = true ↔ e.exps = (SI.dim q).exps ∧ d.root = 2) := by
  obtain ⟨d, b, h1, h2, h3⟩ := C106_sound q e s hs off
  obtain ⟨d0, t, g1, g2, g3, -⟩ := td_all q s hs
  obtain ⟨d1, k1, k2, k3⟩ := noise_root q hq
  have e1 : d0 = d1 := by have := g1.symm.trans k1; injection this
  subst e1
  have : isTrait q (.quantity ⟨d, s, off⟩) = .ok (decide (d = t.dim)) := by
    unfold isTrait; rw [g2]; rfl
  rw [this] at h2
  injection h2 with h2
  refine ⟨d, b, h1, this.trans (by rw [h2]), fun hb => ⟨h3 hb, ?_⟩, fun ⟨he, hr⟩ => ?_⟩
  · rw [← h2, decide_eq_true_eq] at hb
    rw [hb, g3, k3]
  · rw [← h2, decide_eq_true_eq, g3]
    obtain ⟨r, m1, m2, m3⟩ := toDim_ok e
    obtain ⟨r', n1, n2, n3⟩ := toDim_ok q.expr
    have e1 : d = r := by have := h1.symm.trans m1; injection this
    have e2 : d0 = r' := by have := k1.symm.trans n1; injection this
    subst e1 e2
    refine (C34_canonical_partial d d0 m2 n2 (by rw [hr, k3])).1 ?_
    rw [m3, n3, he]
    congr 1
    exact (funext (expr_exps q)).symm

/-- C106: complex numbers of quantities are classified by the quantity, everything that is not a quantity is
rejected. -/
theorem C106_complex (q : QTmpl) (t : CppTy) :
    isTrait q (.complex t) = isTrait q t ∧ isTrait q .other = .ok false := ⟨rfl, rfl⟩

/-- C106: every alias passes its own trait, whatever the scale (millimetres and kilometres are lengths). -/
theorem C106_own (q : QTmpl) (s : RootRatio) (hs : s.Valid) (hr : s.root = 1) :
    ∃ t, q.ty s = .ok t ∧ isTrait q (.quantity t) = .ok true ∧ isTrait q (.complex (.quantity t)) = .ok true := by
  obtain ⟨t, h1, h2, -⟩ := C71_templates q s hs hr
  obtain ⟨d0, t', g1, g2, g3, g4, -⟩ := td_all q s hs
  have e : t' = t := by have := g2.symm.trans h1; injection this
  subst e
  obtain ⟨d1, t1, k1, k2, k3, -⟩ := td_all q t'.scal g4
  have e1 : d0 = d1 := by have := g1.symm.trans k1; injection this
  have : isTrait q (.quantity t') = .ok true := by
    unfold isTrait
    rw [k2]
    show Res.ok (decide (t'.dim = t1.dim)) = .ok true
    rw [decide_eq_true (by rw [g3, k3, e1])]
  exact ⟨t', h1, this, this⟩

/-- Satisfiable: `is_energy` accepts newton metres (a force times a length, in kilo-units) and rejects watts. -/
example : isTrait .energy (.quantity ⟨⟨20, 9, 1⟩, ⟨1000, 1, 1⟩, 0⟩) = .ok true ∧
    isTrait .energy (.quantity ⟨⟨20, 27, 1⟩, ⟨1, 1, 1⟩, 0⟩) = .ok false ∧
    isTrait .frequency (.quantity ⟨⟨19, 3, 1⟩, ⟨1, 1, 1⟩, 0⟩) = .ok false := by decide +kernel

/-- C106 (negation): an ampere times the fourth root of a second times the fourth root of a second has the
dimension of a current noise density, but `is_current_noise_density` rejects it. -/
theorem C106_noise_false :
    let e := DimExpr.mul (.mul (.root (.base 2) 3) (.root (.base 2) 3)) (.base 4)
    e.exps = (SI.dim .currentNoiseDensity).exps ∧
    ∃ d, e.toDim = .ok d ∧ isTrait .currentNoiseDensity (.quantity ⟨d, one1, 0⟩) = .ok false := by
  intro e
  have hex : e.exps = (SI.dim .currentNoiseDensity).exps := by
    funext i
    revert i
    decide +kernel
  refine ⟨hex, ?_⟩
  obtain ⟨d, b, h1, h2, h3⟩ := C106_noise_partial .currentNoiseDensity (by decide) e one1 valid_one 0
  refine ⟨d, h1, ?_⟩
  rw [h2]
  have hr : d.root ≠ 2 := by
    obtain ⟨f1, f3, -⟩ := factors_noise
    have l9 : ctLog2 9 = 4 := by simp [ctLog2]
    have f9 : factorsOf 9 = .ok [(3, 2), (0, 0), (0, 0), (0, 0)] := by
      simp only [factorsOf, primeFactorsOf, Nat.cast_ofNat, l9]; decide +kernel
    have r4 : (DimExpr.root (.base 2) 3).toDim = .ok ⟨3, 1, 4⟩ := by
      show rrRoot ⟨3, 1, 1⟩ 4 = _
      simp [rrRoot, f1, f3, isExactRoot, rrMk]
    have r9 : (DimExpr.mul (.root (.base 2) 3) (.root (.base 2) 3)).toDim = .ok ⟨9, 1, 4⟩ := by
      show (do rrMul (← (DimExpr.root (.base 2) 3).toDim) (← (DimExpr.root (.base 2) 3).toDim)) = _
      rw [r4]
      simp [rrMul, C69_power, rrRoot, f1, f9, isExactRoot, rrMk]
    have : e.toDim = rrMul ⟨9, 1, 4⟩ ⟨7, 1, 1⟩ := by
      show (do rrMul (← (DimExpr.mul (.root (.base 2) 3) (.root (.base 2) 3)).toDim) (← (DimExpr.base 4).toDim)) = _
      rw [r9]
      rfl
    rw [this] at h1
    unfold rrMul at h1
    rw [if_neg (by decide)] at h1
    rcases rrRoot_root h1 with h | h
    · rw [h]; decide
    · rw [h]; simp [rrMk]
  have : b = false := by
    cases b
    · rfl
    · exact absurd (h3.1 rfl).2 hr
  rw [this]

end SciCpp
