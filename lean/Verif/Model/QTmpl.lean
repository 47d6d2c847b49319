import Verif.Model.UnitTable
/-
  Model of the quantity templates of scicpp/core/units/{units,chemical,electromagnetism,photometry,
  thermal}.hpp as functions from the scale parameter to the quantity type, and of the macros that
  declare units and literals.
-/
namespace SciCpp

/-- The names of the quantity templates (scicpp/core/units/units.hpp:24-111, electromagnetism.hpp:5-77,
photometry.hpp:7-46, chemical.hpp:5-26, thermal.hpp:4-47). -/
inductive QTmpl where
  | dimensionless | length | time | mass | electricCurrent | temperature | amountOfSubstance |
  luminousIntensity | planarAngle | solidAngle | dataQuantity | speed | acceleration |
  angularVelocity | momentum | area | volume | force | power | energy | work | pressure |
  frequency | dataRate | chemicalPotential | molarity | molality | catalyticActivity |
  electricPotential | electricCharge | electricalResistance | electricalConductivity |
  electricalResistivity | capacitance | inductance | magneticFluxDensity | magneticFlux |
  currentNoiseDensity | voltageNoiseDensity | luminousFlux | luminousEnergy | luminance |
  illuminance | luminousExposure | luminousEnergyDensity | luminousEfficacy | heat |
  heatTransferRate | heatFlux | heatCapacity | thermalResistance | thermalResistivity |
  thermalConductivity | thermalInsulance
deriving DecidableEq, Repr

/-- `get_base_quantity<I, DimSystem, T, Scale>` (scicpp/core/units/units.hpp:24-57,
quantity.hpp:524-537): the dimension is the I-th prime of the system. -/
def tyBase (i : ℕ) (s : RootRatio) : QTy := ⟨baseDim (dimPrimes.getD i 1), s, 0⟩

/-- `quantity_root<N, Quantity>` on types (scicpp/core/units/quantity.hpp:414-428, 486-487). -/
def tyRoot (n : ℕ) (a : QTy) : Res QTy := do
  let d ← rrRoot a.dim n
  let s ← rrRoot a.scal n
  pure ⟨d, s, 0⟩

/-- `speed<T, Scale>` (scicpp/core/units/units.hpp:62-63). -/
def qtSpeed (s : RootRatio) : Res QTy := tyDiv (tyBase 1 s) (tyBase 2 one1)
/-- `acceleration<T, Scale>` (scicpp/core/units/units.hpp:66-67). -/
def qtAcceleration (s : RootRatio) : Res QTy := do tyDiv (← qtSpeed s) (tyBase 2 one1)
/-- `angular_velocity<T, Scale>` (scicpp/core/units/units.hpp:70-71). -/
def qtAngularVelocity (s : RootRatio) : Res QTy := tyDiv (tyBase 8 s) (tyBase 2 one1)
/-- `momentum<T, Scale>` (scicpp/core/units/units.hpp:74-75). -/
def qtMomentum (s : RootRatio) : Res QTy := do tyMul (tyBase 3 s) (← qtSpeed one1)
/-- `area<T, Scale>` (scicpp/core/units/units.hpp:78-79). -/
def qtArea (s : RootRatio) : Res QTy := tyMul (tyBase 1 s) (tyBase 1 one1)
/-- `volume<T, Scale>` (scicpp/core/units/units.hpp:82-83). -/
def qtVolume (s : RootRatio) : Res QTy := do tyMul (← qtArea s) (tyBase 1 one1)
/-- `force<T, Scale>` (scicpp/core/units/units.hpp:86-87). -/
def qtForce (s : RootRatio) : Res QTy := do tyMul (tyBase 3 s) (← qtAcceleration one1)
/-- `power<T, Scale>` (scicpp/core/units/units.hpp:90-91). -/
def qtPower (s : RootRatio) : Res QTy := do tyMul (← qtForce s) (← qtSpeed one1)
/-- `energy<T, Scale>` (scicpp/core/units/units.hpp:94-95). -/
def qtEnergy (s : RootRatio) : Res QTy := do tyMul (← qtPower s) (tyBase 2 one1)
/-- `work<T, Scale>` (scicpp/core/units/units.hpp:97-98). -/
def qtWork (s : RootRatio) : Res QTy := qtEnergy s
/-- `pressure<T, Scale>` (scicpp/core/units/units.hpp:101-102). -/
def qtPressure (s : RootRatio) : Res QTy := do tyDiv (← qtForce s) (← qtArea one1)
/-- `frequency<T, Scale>` (scicpp/core/units/units.hpp:105-106). -/
def qtFrequency (s : RootRatio) : Res QTy := tyDiv (tyBase 0 s) (tyBase 2 one1)
/-- `data_rate<T, Scale>` (scicpp/core/units/units.hpp:109-110). -/
def qtDataRate (s : RootRatio) : Res QTy := tyDiv (tyBase 10 s) (tyBase 2 one1)
/-- `chemical_potential<T, Scale>` (scicpp/core/units/chemical.hpp:5-7). -/
def qtChemicalPotential (s : RootRatio) : Res QTy := do tyDiv (← qtEnergy s) (tyBase 6 one1)
/-- `molarity<T, Scale>` (scicpp/core/units/chemical.hpp:12-13). -/
def qtMolarity (s : RootRatio) : Res QTy := do tyDiv (tyBase 6 s) (← qtVolume one1)
/-- `molality<T, Scale>` (scicpp/core/units/chemical.hpp:18-19). -/
def qtMolality (s : RootRatio) : Res QTy := tyDiv (tyBase 6 s) (tyBase 3 one1)
/-- `catalytic_activity<T, Scale>` (scicpp/core/units/chemical.hpp:24-26). -/
def qtCatalyticActivity (s : RootRatio) : Res QTy := tyDiv (tyBase 6 s) (tyBase 2 one1)
/-- `electric_potential<T, Scale>` (scicpp/core/units/electromagnetism.hpp:5-7). -/
def qtElectricPotential (s : RootRatio) : Res QTy := do tyDiv (← qtPower s) (tyBase 4 one1)
/-- `electric_charge<T, Scale>` (scicpp/core/units/electromagnetism.hpp:12-13). -/
def qtElectricCharge (s : RootRatio) : Res QTy := tyMul (tyBase 4 s) (tyBase 2 one1)
/-- `electrical_resistance<T, Scale>` (scicpp/core/units/electromagnetism.hpp:18-21). -/
def qtElectricalResistance (s : RootRatio) : Res QTy := do tyDiv (← qtPower s) (← tyMul (tyBase 4 one1) (tyBase 4 one1))
/-- `electrical_conductivity<T, Scale>` (scicpp/core/units/electromagnetism.hpp:26-28). -/
def qtElectricalConductivity (s : RootRatio) : Res QTy := do tyInv (← qtElectricalResistance s)
/-- `electrical_resistivity<T, Scale>` (scicpp/core/units/electromagnetism.hpp:33-35). -/
def qtElectricalResistivity (s : RootRatio) : Res QTy := do tyMul (← qtElectricalResistance s) (tyBase 1 one1)
/-- `capacitance<T, Scale>` (scicpp/core/units/electromagnetism.hpp:40-41). -/
def qtCapacitance (s : RootRatio) : Res QTy := do tyDiv (tyBase 2 s) (← qtElectricalResistance one1)
/-- `inductance<T, Scale>` (scicpp/core/units/electromagnetism.hpp:46-49). -/
def qtInductance (s : RootRatio) : Res QTy := do
  tyDiv (← tyMul (← qtElectricPotential s) (tyBase 2 one1)) (tyBase 4 one1)
/-- `magnetic_flux_density<T, Scale>` (scicpp/core/units/electromagnetism.hpp:54-57). -/
def qtMagneticFluxDensity (s : RootRatio) : Res QTy := do
  tyDiv (← qtForce s) (← tyMul (← qtElectricCharge one1) (← qtSpeed one1))
/-- `magnetic_flux<T, Scale>` (scicpp/core/units/electromagnetism.hpp:62-64). -/
def qtMagneticFlux (s : RootRatio) : Res QTy := do tyMul (← qtMagneticFluxDensity s) (← qtArea one1)
/-- `current_noise_density<T, Scale>` (scicpp/core/units/electromagnetism.hpp:68-70). -/
def qtCurrentNoiseDensity (s : RootRatio) : Res QTy := do tyDiv (tyBase 4 s) (← tyRoot 2 (← qtFrequency one1))
/-- `voltage_noise_density<T, Scale>` (scicpp/core/units/electromagnetism.hpp:74-76). -/
def qtVoltageNoiseDensity (s : RootRatio) : Res QTy := do
  tyDiv (← qtElectricPotential s) (← tyRoot 2 (← qtFrequency one1))
/-- `luminous_flux<T, Scale>` (scicpp/core/units/photometry.hpp:7-9). -/
def qtLuminousFlux (s : RootRatio) : Res QTy := tyMul (tyBase 7 s) (tyBase 9 one1)
/-- `luminous_energy<T, Scale>` (scicpp/core/units/photometry.hpp:14-15). -/
def qtLuminousEnergy (s : RootRatio) : Res QTy := do tyMul (← qtLuminousFlux s) (tyBase 2 one1)
/-- `luminance<T, Scale>` (scicpp/core/units/photometry.hpp:20-21). -/
def qtLuminance (s : RootRatio) : Res QTy := do tyDiv (tyBase 7 s) (← qtArea one1)
/-- `illuminance<T, Scale>` (scicpp/core/units/photometry.hpp:26-27). -/
def qtIlluminance (s : RootRatio) : Res QTy := do tyDiv (← qtLuminousFlux s) (← qtArea one1)
/-- `luminous_exposure<T, Scale>` (scicpp/core/units/photometry.hpp:32-33). -/
def qtLuminousExposure (s : RootRatio) : Res QTy := do tyMul (← qtIlluminance s) (tyBase 2 one1)
/-- `luminous_energy_density<T, Scale>` (scicpp/core/units/photometry.hpp:38-40). -/
def qtLuminousEnergyDensity (s : RootRatio) : Res QTy := do tyDiv (← qtLuminousEnergy s) (← qtVolume one1)
/-- `luminous_efficacy<T, Scale>` (scicpp/core/units/photometry.hpp:45-46). -/
def qtLuminousEfficacy (s : RootRatio) : Res QTy := do tyDiv (← qtLuminousFlux s) (← qtPower one1)
/-- `heat<T, Scale>` (scicpp/core/units/thermal.hpp:4-5). -/
def qtHeat (s : RootRatio) : Res QTy := qtEnergy s
/-- `heat_transfer_rate<T, Scale>` (scicpp/core/units/thermal.hpp:9-10). -/
def qtHeatTransferRate (s : RootRatio) : Res QTy := qtPower s
/-- `heat_flux<T, Scale>` (scicpp/core/units/thermal.hpp:14-15). -/
def qtHeatFlux (s : RootRatio) : Res QTy := do tyDiv (← qtHeatTransferRate s) (← qtArea one1)
/-- `heat_capacity<T, Scale>` (scicpp/core/units/thermal.hpp:19-20). -/
def qtHeatCapacity (s : RootRatio) : Res QTy := do tyDiv (← qtHeat s) (tyBase 5 one1)
/-- `thermal_resistance<T, Scale>` (scicpp/core/units/thermal.hpp:25-27). -/
def qtThermalResistance (s : RootRatio) : Res QTy := do tyDiv (tyBase 5 s) (← qtHeatTransferRate one1)
/-- `thermal_resistivity<T, Scale>` (scicpp/core/units/thermal.hpp:32-34). -/
def qtThermalResistivity (s : RootRatio) : Res QTy := do tyMul (← qtThermalResistance s) (tyBase 1 one1)
/-- `thermal_conductivity<T, Scale>` (scicpp/core/units/thermal.hpp:39-40). -/
def qtThermalConductivity (s : RootRatio) : Res QTy := do tyInv (← qtThermalResistivity s)
/-- `thermal_insulance<T, Scale>` (scicpp/core/units/thermal.hpp:45-47). -/
def qtThermalInsulance (s : RootRatio) : Res QTy := do tyMul (← qtThermalResistance s) (← qtArea one1)

/-- The quantity type a template gives for a scale parameter (citations at the definitions above and
scicpp/core/units/units.hpp:24-57 for the base quantities; offset 0). -/
def QTmpl.ty : QTmpl → RootRatio → Res QTy
  | .dimensionless, s => .ok (tyBase 0 s)
  | .length, s => .ok (tyBase 1 s)
  | .time, s => .ok (tyBase 2 s)
  | .mass, s => .ok (tyBase 3 s)
  | .electricCurrent, s => .ok (tyBase 4 s)
  | .temperature, s => .ok (tyBase 5 s)
  | .amountOfSubstance, s => .ok (tyBase 6 s)
  | .luminousIntensity, s => .ok (tyBase 7 s)
  | .planarAngle, s => .ok (tyBase 8 s)
  | .solidAngle, s => .ok (tyBase 9 s)
  | .dataQuantity, s => .ok (tyBase 10 s)
  | .speed, s => qtSpeed s
  | .acceleration, s => qtAcceleration s
  | .angularVelocity, s => qtAngularVelocity s
  | .momentum, s => qtMomentum s
  | .area, s => qtArea s
  | .volume, s => qtVolume s
  | .force, s => qtForce s
  | .power, s => qtPower s
  | .energy, s => qtEnergy s
  | .work, s => qtWork s
  | .pressure, s => qtPressure s
  | .frequency, s => qtFrequency s
  | .dataRate, s => qtDataRate s
  | .chemicalPotential, s => qtChemicalPotential s
  | .molarity, s => qtMolarity s
  | .molality, s => qtMolality s
  | .catalyticActivity, s => qtCatalyticActivity s
  | .electricPotential, s => qtElectricPotential s
  | .electricCharge, s => qtElectricCharge s
  | .electricalResistance, s => qtElectricalResistance s
  | .electricalConductivity, s => qtElectricalConductivity s
  | .electricalResistivity, s => qtElectricalResistivity s
  | .capacitance, s => qtCapacitance s
  | .inductance, s => qtInductance s
  | .magneticFluxDensity, s => qtMagneticFluxDensity s
  | .magneticFlux, s => qtMagneticFlux s
  | .currentNoiseDensity, s => qtCurrentNoiseDensity s
  | .voltageNoiseDensity, s => qtVoltageNoiseDensity s
  | .luminousFlux, s => qtLuminousFlux s
  | .luminousEnergy, s => qtLuminousEnergy s
  | .luminance, s => qtLuminance s
  | .illuminance, s => qtIlluminance s
  | .luminousExposure, s => qtLuminousExposure s
  | .luminousEnergyDensity, s => qtLuminousEnergyDensity s
  | .luminousEfficacy, s => qtLuminousEfficacy s
  | .heat, s => qtHeat s
  | .heatTransferRate, s => qtHeatTransferRate s
  | .heatFlux, s => qtHeatFlux s
  | .heatCapacity, s => qtHeatCapacity s
  | .thermalResistance, s => qtThermalResistance s
  | .thermalResistivity, s => qtThermalResistivity s
  | .thermalConductivity, s => qtThermalConductivity s
  | .thermalInsulance, s => qtThermalInsulance s

/-- A unit alias or a literal operator: its name, the quantity template, `std::ratio<num, den>` of the
scale and `std::ratio<offNum, offDen>` of the offset
(scicpp/core/units/units.hpp:167-200). -/
structure UnitDef where
  name : String
  q : QTmpl
  num : ℕ
  den : ℕ
  offNum : ℕ
  offDen : ℕ
deriving DecidableEq

/-- The quantity type of a unit (scicpp/core/units/units.hpp:167-200): only `temperature` takes an
offset argument. -/
def UnitDef.ty (u : UnitDef) : Res QTy := do
  let t ← u.q.ty (plainScale u.num u.den)
  if u.offNum = 0 then pure t
  else if u.q = .temperature then pure ⟨t.dim, t.scal, (u.offNum : ℚ) / u.offDen⟩
  else .ub

/-- `SCICPP_CORE_UNITS_DEFINE_PREFIXES_ALIAS(quantity, base_unit)` (scicpp/core/units/units.hpp:202-235);
the values of `std::atto`, … are those of the C++ standard. -/
def prefixed (q : QTmpl) (base : String) : List UnitDef := [
  ⟨"atto" ++ base, q, 1, 1000000000000000000, 0, 1⟩,
  ⟨"femto" ++ base, q, 1, 1000000000000000, 0, 1⟩,
  ⟨"pico" ++ base, q, 1, 1000000000000, 0, 1⟩,
  ⟨"nano" ++ base, q, 1, 1000000000, 0, 1⟩,
  ⟨"micro" ++ base, q, 1, 1000000, 0, 1⟩,
  ⟨"milli" ++ base, q, 1, 1000, 0, 1⟩,
  ⟨"centi" ++ base, q, 1, 100, 0, 1⟩,
  ⟨"deci" ++ base, q, 1, 10, 0, 1⟩,
  ⟨"" ++ base, q, 1, 1, 0, 1⟩,
  ⟨"deca" ++ base, q, 10, 1, 0, 1⟩,
  ⟨"hecto" ++ base, q, 100, 1, 0, 1⟩,
  ⟨"kilo" ++ base, q, 1000, 1, 0, 1⟩,
  ⟨"mega" ++ base, q, 1000000, 1, 0, 1⟩,
  ⟨"giga" ++ base, q, 1000000000, 1, 0, 1⟩,
  ⟨"tera" ++ base, q, 1000000000000, 1, 0, 1⟩,
  ⟨"peta" ++ base, q, 1000000000000000, 1, 0, 1⟩,
  ⟨"exa" ++ base, q, 1000000000000000000, 1, 0, 1⟩]

/-- A literal `x_sym` (scicpp/core/units/units.hpp:167-200): the value converted to double (exact here)
in the unit of the literal. -/
def literal (u : UnitDef) (x : ℝ) : Res (Qty ℝ) := do
  let t ← u.ty
  pure ⟨t, x⟩

end SciCpp
