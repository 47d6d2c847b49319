import Verif.Model.Quantity
/-
  Model of scicpp/core/units/units.hpp, electromagnetism.hpp, thermal.hpp, chemical.hpp: the base
  dimensions and the alias templates for quantities and units, as types (`QTy`).
-/
namespace SciCpp

/-- A plain `scale<std::ratio<n, d>>` (`std::ratio` reduces). -/
def plainScale (n d : ℕ) : RootRatio := rrMk n d 1

/-- `base_dimension<p>` (scicpp/core/units/quantity.hpp:493-494). -/
def baseDim (p : ℕ) : RootRatio := ⟨p, 1, 1⟩

/-- The prime numbers of `DimSystem = dimensional_system<11>`
(scicpp/core/units/units.hpp:16, quantity.hpp:498-517); `C72_base_primes` shows that they are the
values of `prime_list<11>`. -/
def dimPrimes : List ℕ := [1, 2, 3, 5, 7, 11, 13, 17, 19, 23, 29]

/-- `quantity_multiply` on types (scicpp/core/units/quantity.hpp:475-477 through operator*, 322-327). -/
def tyMul (a b : QTy) : Res QTy :=
  if b.off ≠ 0 then .ub
  else do
    let d ← rrMul a.dim b.dim
    let s ← rrMul a.scal b.scal
    pure ⟨d, s, 0⟩

/-- `quantity_divide` on types (scicpp/core/units/quantity.hpp:479-481 through operator/, 329-334). -/
def tyDiv (a b : QTy) : Res QTy :=
  if b.off ≠ 0 then .ub
  else do
    let d ← rrDiv a.dim b.dim
    let s ← rrDiv a.scal b.scal
    pure ⟨d, s, 0⟩

/-- `quantity_invert` on types (scicpp/core/units/quantity.hpp:483-484 through inv(), 336-340). -/
def tyInv (a : QTy) : Res QTy := do
  let d ← rrDiv ⟨1, 1, 1⟩ a.dim
  let s ← rrDiv ⟨1, 1, 1⟩ a.scal
  pure ⟨d, s, 0⟩

/-- The scale 1. -/
def one1 : RootRatio := ⟨1, 1, 1⟩

/-- `dimensionless<T, Scale>` (units.hpp:24-25). -/
def tyDimensionless (s : RootRatio) : QTy := ⟨baseDim 1, s, 0⟩
/-- `length<T, Scale>` (scicpp/core/units/units.hpp:27-28). -/
def tyLength (s : RootRatio) : QTy := ⟨baseDim 2, s, 0⟩
/-- `time<T, Scale>` (scicpp/core/units/units.hpp:30-31). -/
def tyTime (s : RootRatio) : QTy := ⟨baseDim 3, s, 0⟩
/-- `mass<T, Scale>` (scicpp/core/units/units.hpp:33-34). -/
def tyMass (s : RootRatio) : QTy := ⟨baseDim 5, s, 0⟩
/-- `electric_current<T, Scale>` (scicpp/core/units/units.hpp:36-37). -/
def tyCurrent (s : RootRatio) : QTy := ⟨baseDim 7, s, 0⟩
/-- `temperature<T, Scale, Offset>` (scicpp/core/units/units.hpp:39-42). -/
def tyTemperature (s : RootRatio) (off : ℚ) : QTy := ⟨baseDim 11, s, off⟩
/-- `planar_angle<T, Scale>` (scicpp/core/units/units.hpp:50-51). -/
def tyAngle (s : RootRatio) : QTy := ⟨baseDim 19, s, 0⟩

/-- `speed<T, Scale>` (scicpp/core/units/units.hpp:62-63). -/
def tySpeed (s : RootRatio) : Res QTy := tyDiv (tyLength s) (tyTime one1)
/-- `acceleration<T, Scale>` (scicpp/core/units/units.hpp:66-67). -/
def tyAcceleration (s : RootRatio) : Res QTy := do tyDiv (← tySpeed s) (tyTime one1)
/-- `area<T, Scale>` (scicpp/core/units/units.hpp:78-79). -/
def tyArea (s : RootRatio) : Res QTy := tyMul (tyLength s) (tyLength one1)
/-- `volume<T, Scale>` (scicpp/core/units/units.hpp:82-83). -/
def tyVolume (s : RootRatio) : Res QTy := do tyMul (← tyArea s) (tyLength one1)
/-- `force<T, Scale>` (scicpp/core/units/units.hpp:86-87). -/
def tyForce (s : RootRatio) : Res QTy := do tyMul (tyMass s) (← tyAcceleration one1)
/-- `power<T, Scale>` (scicpp/core/units/units.hpp:90-91). -/
def tyPower (s : RootRatio) : Res QTy := do tyMul (← tyForce s) (← tySpeed one1)
/-- `energy<T, Scale>` (scicpp/core/units/units.hpp:94-95). -/
def tyEnergy (s : RootRatio) : Res QTy := do tyMul (← tyPower s) (tyTime one1)
/-- `pressure<T, Scale>` (scicpp/core/units/units.hpp:101-102). -/
def tyPressure (s : RootRatio) : Res QTy := do tyDiv (← tyForce s) (← tyArea one1)
/-- `frequency<T, Scale>` (scicpp/core/units/units.hpp:105-106). -/
def tyFrequency (s : RootRatio) : Res QTy := tyDiv (tyDimensionless s) (tyTime one1)
/-- `electric_potential<T, Scale>` (scicpp/core/units/electromagnetism.hpp:5-7). -/
def tyVoltage (s : RootRatio) : Res QTy := do tyDiv (← tyPower s) (tyCurrent one1)
/-- `electric_charge<T, Scale>` (scicpp/core/units/electromagnetism.hpp:12-13). -/
def tyCharge (s : RootRatio) : Res QTy := tyMul (tyCurrent s) (tyTime one1)
/-- `electrical_resistance<T, Scale>` (scicpp/core/units/electromagnetism.hpp:18-21). -/
def tyResistance (s : RootRatio) : Res QTy := do
  tyDiv (← tyPower s) (← tyMul (tyCurrent one1) (tyCurrent one1))
/-- `electrical_conductivity<T, Scale>` (scicpp/core/units/electromagnetism.hpp:26-28): the scale is
passed to the resistance and inverted with it. -/
def tyConductivity (s : RootRatio) : Res QTy := do tyInv (← tyResistance s)
/-- `capacitance<T, Scale>` (scicpp/core/units/electromagnetism.hpp:40-41). -/
def tyCapacitance (s : RootRatio) : Res QTy := do tyDiv (tyTime s) (← tyResistance one1)
/-- `thermal_resistance<T, Scale>` (scicpp/core/units/thermal.hpp:25-27). -/
def tyThermalResistance (s : RootRatio) : Res QTy := do
  tyDiv (tyTemperature s 0) (← tyPower one1)
/-- `thermal_resistivity<T, Scale>` (scicpp/core/units/thermal.hpp:32-34). -/
def tyThermalResistivity (s : RootRatio) : Res QTy := do
  tyMul (← tyThermalResistance s) (tyLength one1)
/-- `thermal_conductivity<T, Scale>` (scicpp/core/units/thermal.hpp:39-40). -/
def tyThermalConductivity (s : RootRatio) : Res QTy := do tyInv (← tyThermalResistivity s)

/-! Units (the scales as written in the source). -/

/-- `kilometer` (scicpp/core/units/units.hpp:224, 242). -/
def uKilometer : QTy := tyLength (plainScale 1000 1)
/-- `inch` (scicpp/core/units/units.hpp:250). -/
def uInch : QTy := tyLength (plainScale 254 10000)
/-- `foot` (scicpp/core/units/units.hpp:253). -/
def uFoot : QTy := tyLength (plainScale 3048 10000)
/-- `yard` (scicpp/core/units/units.hpp:256). -/
def uYard : QTy := tyLength (plainScale 9144 10000)
/-- `mile` (scicpp/core/units/units.hpp:259). -/
def uMile : QTy := tyLength (plainScale 25146000 15625)
/-- `nautical_mile` (scicpp/core/units/units.hpp:264). -/
def uNauticalMile : QTy := tyLength (plainScale 1852 1)
/-- `second`, `minute`, `hour` (scicpp/core/units/units.hpp:311-317). -/
def uHour : QTy := tyTime (plainScale 3600 1)
/-- `kilometer_per_hour` (scicpp/core/units/units.hpp:636-637). -/
def uKmPerHour : Res QTy := tySpeed (plainScale 3600 1000)
/-- `knot` (scicpp/core/units/units.hpp:639-640). -/
def uKnot : Res QTy := tySpeed (plainScale 66672 10000)
/-- `mile_per_hour` (scicpp/core/units/units.hpp:642-643). -/
def uMilePerHour : Res QTy := tySpeed (plainScale 44704 100000)
/-- `square_inch`, `square_foot`, `square_yard`, `square_mile` (scicpp/core/units/units.hpp:734-744). -/
def uSquareInch : Res QTy := tyArea (plainScale 64516 100000000)
/-- `square_foot` (scicpp/core/units/units.hpp:738). -/
def uSquareFoot : Res QTy := tyArea (plainScale 9290304 100000000)
/-- `square_yard` (scicpp/core/units/units.hpp:741). -/
def uSquareYard : Res QTy := tyArea (plainScale 83612736 100000000)
/-- `square_mile` (scicpp/core/units/units.hpp:744). -/
def uSquareMile : Res QTy := tyArea (plainScale 2589988110336 1000000)
/-- `cubic_inch` (scicpp/core/units/units.hpp:808). -/
def uCubicInch : Res QTy := tyVolume (plainScale 16387064 1000000000000)
/-- `cubic_foot` (scicpp/core/units/units.hpp:811). -/
def uCubicFoot : Res QTy := tyVolume (plainScale 28316846592 1000000000000)
/-- `cubic_yard` (scicpp/core/units/units.hpp:814). -/
def uCubicYard : Res QTy := tyVolume (plainScale 764554857984 1000000000000)
/-- `cubic_mile` (scicpp/core/units/units.hpp:817-818). -/
def uCubicMile : Res QTy := tyVolume (plainScale 4168181825440579584 1000000000)
/-- `kilowatt` (scicpp/core/units/units.hpp:224, 892). -/
def uKilowatt : Res QTy := tyPower (plainScale 1000 1)
/-- `kilowatt_hour` (scicpp/core/units/units.hpp:922). -/
def uKilowattHour : Res QTy := tyEnergy (plainScale 3600000 1)
/-- `tonne` (scicpp/core/units/units.hpp:374). -/
def uTonne : QTy := tyMass (plainScale 1000 1)
/-- `gigatonne` (scicpp/core/units/units.hpp:383). -/
def uGigatonne : QTy := tyMass (plainScale (10 ^ 12) 1)
/-- `teratonne` (scicpp/core/units/units.hpp:386): declared with `std::exa`. -/
def uTeratonne : QTy := tyMass (plainScale (10 ^ 18) 1)
/-- `pound_force`, `poundal`, `kilogram_force`, `dyne` (scicpp/core/units/units.hpp:850-863): declared
as `volume`. -/
def uDyne : Res QTy := tyVolume (plainScale 1 100000)
/-- `kilosiemens` (scicpp/core/units/electromagnetism.hpp:156 with units.hpp:224). -/
def uKilosiemens : Res QTy := tyConductivity (plainScale 1000 1)
/-- `degree` (scicpp/core/units/units.hpp:517-523): the ratio used for π is 21053343141/6701487259. -/
def uDegree : QTy := tyAngle (plainScale 21053343141 (6701487259 * 180))
/-- `turn` (scicpp/core/units/units.hpp:520, 525-526). -/
def uTurn : QTy := tyAngle (plainScale (2 * 21053343141) 6701487259)

/-! Dimension expressions: every dimension that a program can form from the base dimensions. -/

/-- Products, quotients, powers and roots of base dimensions `i = 0 … 10`. -/
inductive DimExpr where
  | base (i : Fin 11)
  | mul (a b : DimExpr)
  | div (a b : DimExpr)
  | pow (a : DimExpr) (n : ℕ)
  | root (a : DimExpr) (n : ℕ)   -- `n + 1`-th root

/-- The dimension type the library computes (scicpp/core/units/quantity.hpp:36-49). -/
def DimExpr.toDim : DimExpr → Res RootRatio
  | base i => .ok (baseDim (dimPrimes.getD i 1))
  | mul a b => do rrMul (← a.toDim) (← b.toDim)
  | div a b => do rrDiv (← a.toDim) (← b.toDim)
  | pow a n => do rrPow (← a.toDim) n
  | root a n => do rrRoot (← a.toDim) (n + 1)

end SciCpp
