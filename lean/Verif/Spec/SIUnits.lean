import Verif.Model.QTmpl
/-
  Specification: the International System of Units.  Dimensions as exponents of the base quantities
  (with angles and data as extra base quantities, as the library documents), the SI prefixes, and for
  every unit name / symbol its dimension and its value in SI base units.  Written from the SI brochure
  and the usual definitions (NIST SP 811), not from the library; the units are listed in the order of
  the headers only to ease the comparison.
-/
namespace SciCpp.SI

/-- The exponents of a dimension: length, time, mass, electric current, temperature, amount of
substance, luminous intensity, plane angle, solid angle, data. -/
structure Dim where
  L : ℚ := 0
  T : ℚ := 0
  M : ℚ := 0
  I : ℚ := 0
  Θ : ℚ := 0
  N : ℚ := 0
  J : ℚ := 0
  A : ℚ := 0
  Ω : ℚ := 0
  B : ℚ := 0
deriving DecidableEq

/-- The exponents as a vector indexed like the base quantities of the library (0 is dimensionless). -/
def Dim.exps (d : Dim) : Fin 11 → ℚ := ![0, d.L, d.T, d.M, d.I, d.Θ, d.N, d.J, d.A, d.Ω, d.B]

/-- The dimension of every named quantity (SI brochure, tables 2, 4-6). -/
def dim : QTmpl → Dim
  | .dimensionless => {}
  | .length => { L := 1 }
  | .time => { T := 1 }
  | .mass => { M := 1 }
  | .electricCurrent => { I := 1 }
  | .temperature => { Θ := 1 }
  | .amountOfSubstance => { N := 1 }
  | .luminousIntensity => { J := 1 }
  | .planarAngle => { A := 1 }
  | .solidAngle => { Ω := 1 }
  | .dataQuantity => { B := 1 }
  | .speed => { L := 1, T := -1 }
  | .acceleration => { L := 1, T := -2 }
  | .angularVelocity => { A := 1, T := -1 }
  | .momentum => { M := 1, L := 1, T := -1 }
  | .area => { L := 2 }
  | .volume => { L := 3 }
  | .force => { M := 1, L := 1, T := -2 }
  | .power => { M := 1, L := 2, T := -3 }
  | .energy | .work | .heat => { M := 1, L := 2, T := -2 }
  | .pressure => { M := 1, L := -1, T := -2 }
  | .frequency => { T := -1 }
  | .dataRate => { B := 1, T := -1 }
  | .chemicalPotential => { M := 1, L := 2, T := -2, N := -1 }
  | .molarity => { N := 1, L := -3 }
  | .molality => { N := 1, M := -1 }
  | .catalyticActivity => { N := 1, T := -1 }
  | .electricPotential => { M := 1, L := 2, T := -3, I := -1 }
  | .electricCharge => { T := 1, I := 1 }
  | .electricalResistance => { M := 1, L := 2, T := -3, I := -2 }
  | .electricalConductivity => { M := -1, L := -2, T := 3, I := 2 }
  | .electricalResistivity => { M := 1, L := 3, T := -3, I := -2 }
  | .capacitance => { M := -1, L := -2, T := 4, I := 2 }
  | .inductance => { M := 1, L := 2, T := -2, I := -2 }
  | .magneticFluxDensity => { M := 1, T := -2, I := -1 }
  | .magneticFlux => { M := 1, L := 2, T := -2, I := -1 }
  | .currentNoiseDensity => { I := 1, T := 1 / 2 }
  | .voltageNoiseDensity => { M := 1, L := 2, T := -5 / 2, I := -1 }
  | .luminousFlux => { J := 1, Ω := 1 }
  | .luminousEnergy => { J := 1, Ω := 1, T := 1 }
  | .luminance => { J := 1, L := -2 }
  | .illuminance => { J := 1, Ω := 1, L := -2 }
  | .luminousExposure => { J := 1, Ω := 1, L := -2, T := 1 }
  | .luminousEnergyDensity => { J := 1, Ω := 1, T := 1, L := -3 }
  | .luminousEfficacy => { J := 1, Ω := 1, M := -1, L := -2, T := 3 }
  | .heatTransferRate => { M := 1, L := 2, T := -3 }
  | .heatFlux => { M := 1, T := -3 }
  | .heatCapacity => { M := 1, L := 2, T := -2, Θ := -1 }
  | .thermalResistance => { Θ := 1, M := -1, L := -2, T := 3 }
  | .thermalResistivity => { Θ := 1, M := -1, L := -1, T := 3 }
  | .thermalConductivity => { M := 1, L := 1, T := -3, Θ := -1 }
  | .thermalInsulance => { Θ := 1, M := -1, T := 3 }

/-- A unit: `v` of it is `scale * v + offset` in SI base units of dimension `dim`. -/
structure Unit where
  name : String
  dim : Dim
  scale : ℚ
  offset : ℚ := 0

/-- The SI prefixes of the library's range (SI brochure, table 7). -/
def prefixes : List (String × String × ℚ) := [
  ("atto", "a", 1 / 10 ^ 18), ("femto", "f", 1 / 10 ^ 15), ("pico", "p", 1 / 10 ^ 12),
  ("nano", "n", 1 / 10 ^ 9), ("micro", "u", 1 / 10 ^ 6), ("milli", "m", 1 / 10 ^ 3),
  ("centi", "c", 1 / 10 ^ 2), ("deci", "d", 1 / 10), ("", "", 1), ("deca", "da", 10),
  ("hecto", "h", 10 ^ 2), ("kilo", "k", 10 ^ 3), ("mega", "M", 10 ^ 6), ("giga", "G", 10 ^ 9),
  ("tera", "T", 10 ^ 12), ("peta", "P", 10 ^ 15), ("exa", "E", 10 ^ 18)]

/-- All prefixed forms of a coherent SI unit. -/
def named (unit : String) (q : QTmpl) : List Unit :=
  prefixes.map fun p => { name := p.1 ++ unit, dim := dim q, scale := p.2.2 }

/-- Prefixed symbols, for the prefixes whose symbols are listed. -/
def symbols (ps : List String) (unit : String) (q : QTmpl) (coherent : ℚ := 1) : List Unit :=
  (prefixes.filter fun p => ps.contains p.2.1).map fun p =>
    { name := "_" ++ p.2.1 ++ unit, dim := dim q, scale := p.2.2 * coherent }

/-- The prefix symbols of most literals. -/
def usual : List String := ["a", "f", "p", "n", "u", "m", "", "k", "M", "G", "T", "P", "E"]

/-- A non-SI or irregular unit. -/
def unit (name : String) (q : QTmpl) (scale : ℚ) : List Unit := [{ name, dim := dim q, scale }]

def inch : ℚ := 254 / 10000
def foot : ℚ := 12 * inch
def yard : ℚ := 3 * foot
def mile : ℚ := 1760 * yard
def nauticalMile : ℚ := 1852
def gram : ℚ := 1 / 1000
def tonne : ℚ := 1000
def minute : ℚ := 60
def hour : ℚ := 60 * minute
def day : ℚ := 24 * hour
/-- Speed of light times one Julian year (IAU). -/
def lightYear : ℚ := 299792458 * (36525 / 100) * day
def standardGravity : ℚ := 980665 / 100000
def pound : ℚ := 45359237 / 100000000
def litre : ℚ := 1 / 1000
/-- Standard atmosphere. -/
def atmosphere : ℚ := 101325
/-- Thermochemical calorie. -/
def calorie : ℚ := 4184 / 1000
def byte : ℚ := 8

/-- The unit names whose value is a rational number, except those of `rounded`. -/
def units : List Unit :=
  named "meter" .length ++
  unit "angstrom" .length (1 / 10 ^ 10) ++ unit "inch" .length inch ++ unit "foot" .length foot ++
  unit "yard" .length yard ++ unit "mile" .length mile ++
  unit "nautical_mile" .length nauticalMile ++
  unit "astronomical_unit" .length 149597870700 ++ unit "light_year" .length lightYear ++
  named "second" .time ++
  unit "minute" .time minute ++ unit "hour" .time hour ++ unit "day" .time day ++
  unit "week" .time (7 * day) ++
  unit "femtogram" .mass (gram / 10 ^ 15) ++ unit "picogram" .mass (gram / 10 ^ 12) ++
  unit "nanogram" .mass (gram / 10 ^ 9) ++ unit "microgram" .mass (gram / 10 ^ 6) ++
  unit "milligram" .mass (gram / 10 ^ 3) ++ unit "gram" .mass gram ++ unit "kilogram" .mass 1 ++
  unit "tonne" .mass tonne ++ unit "kilotonne" .mass (10 ^ 3 * tonne) ++
  unit "megatonne" .mass (10 ^ 6 * tonne) ++ unit "gigatonne" .mass (10 ^ 9 * tonne) ++
  unit "teratonne" .mass (10 ^ 12 * tonne) ++
  named "ampere" .electricCurrent ++
  named "kelvin" .temperature ++
  [{ name := "celsius", dim := dim .temperature, scale := 1, offset := 27315 / 100 }] ++
  -- T(K) = (T(°F) + 459.67) · 5/9
  [{ name := "fahrhenheit", dim := dim .temperature, scale := 5 / 9, offset := 45967 / 100 * (5 / 9) }] ++
  named "mole" .amountOfSubstance ++
  named "candela" .luminousIntensity ++
  named "radian" .planarAngle ++
  named "steradian" .solidAngle ++
  unit "bit" .dataQuantity 1 ++ unit "shannon" .dataQuantity 1 ++ unit "nibble" .dataQuantity 4 ++
  unit "byte" .dataQuantity byte ++ unit "kibibyte" .dataQuantity (2 ^ 10 * byte) ++
  unit "mebibyte" .dataQuantity (2 ^ 20 * byte) ++ unit "gibibyte" .dataQuantity (2 ^ 30 * byte) ++
  unit "tebibyte" .dataQuantity (2 ^ 40 * byte) ++ unit "pebibyte" .dataQuantity (2 ^ 50 * byte) ++
  named "meter_per_second" .speed ++
  unit "kilometer_per_hour" .speed (1000 / hour) ++ unit "knot" .speed (nauticalMile / hour) ++
  unit "mile_per_hour" .speed (mile / hour) ++
  named "meter_per_second_squared" .acceleration ++
  unit "galileo" .acceleration (1 / 100) ++ unit "milligalileo" .acceleration (1 / 100 / 10 ^ 3) ++
  unit "microgalileo" .acceleration (1 / 100 / 10 ^ 6) ++
  unit "nanogalileo" .acceleration (1 / 100 / 10 ^ 9) ++
  unit "square_micrometer" .area ((1 / 10 ^ 6) ^ 2) ++
  unit "square_millimeter" .area ((1 / 10 ^ 3) ^ 2) ++
  unit "square_centimeter" .area ((1 / 100) ^ 2) ++ unit "square_meter" .area 1 ++
  unit "square_kilometer" .area ((10 ^ 3) ^ 2) ++ unit "square_megameter" .area ((10 ^ 6) ^ 2) ++
  unit "square_inch" .area (inch ^ 2) ++ unit "square_foot" .area (foot ^ 2) ++
  unit "square_yard" .area (yard ^ 2) ++ unit "square_mile" .area (mile ^ 2) ++
  unit "are" .area 100 ++ unit "hectare" .area (100 * 100) ++
  unit "cubic_millimeter" .volume ((1 / 10 ^ 3) ^ 3) ++
  unit "cubic_centimeter" .volume ((1 / 100) ^ 3) ++ unit "cubic_meter" .volume 1 ++
  unit "cubic_kilometer" .volume ((10 ^ 3) ^ 3) ++
  unit "microliter" .volume (litre / 10 ^ 6) ++ unit "milliliter" .volume (litre / 10 ^ 3) ++
  unit "liter" .volume litre ++ unit "hectoliter" .volume (100 * litre) ++
  unit "cubic_inch" .volume (inch ^ 3) ++ unit "cubic_foot" .volume (foot ^ 3) ++
  unit "cubic_yard" .volume (yard ^ 3) ++ unit "cubic_mile" .volume (mile ^ 3) ++
  named "newton" .force ++
  unit "pound_force" .force (pound * standardGravity) ++ unit "poundal" .force (pound * foot) ++
  unit "kilogram_force" .force standardGravity ++ unit "dyne" .force (1 / 10 ^ 5) ++
  named "watt" .power ++
  named "joule" .energy ++
  unit "watt_hour" .energy hour ++ unit "kilowatt_hour" .energy (10 ^ 3 * hour) ++
  unit "megawatt_hour" .energy (10 ^ 6 * hour) ++ unit "gigawatt_hour" .energy (10 ^ 9 * hour) ++
  unit "terawatt_hour" .energy (10 ^ 12 * hour) ++ unit "petawatt_hour" .energy (10 ^ 15 * hour) ++
  unit "calorie" .energy calorie ++ unit "kilocalorie" .energy (10 ^ 3 * calorie) ++
  named "pascal" .pressure ++
  unit "millibar" .pressure (10 ^ 5 / 10 ^ 3) ++ unit "bar" .pressure (10 ^ 5) ++
  unit "kilobar" .pressure (10 ^ 3 * 10 ^ 5) ++
  unit "torr" .pressure (atmosphere / 760) ++ unit "atm" .pressure atmosphere ++
  named "hertz" .frequency ++
  unit "bit_per_second" .dataRate 1 ++ unit "kilobit_per_second" .dataRate (10 ^ 3) ++
  unit "megabit_per_second" .dataRate (10 ^ 6) ++ unit "gigabit_per_second" .dataRate (10 ^ 9) ++
  unit "terabit_per_second" .dataRate (10 ^ 12) ++ unit "petabit_per_second" .dataRate (10 ^ 15) ++
  unit "exabit_per_second" .dataRate (10 ^ 18) ++
  named "katal" .catalyticActivity ++
  named "volt" .electricPotential ++
  named "coulomb" .electricCharge ++
  named "ohm" .electricalResistance ++
  named "siemens" .electricalConductivity ++
  named "farad" .capacitance ++
  named "henry" .inductance ++
  named "tesla" .magneticFluxDensity ++
  unit "gauss" .magneticFluxDensity (1 / 10 ^ 4) ++
  named "weber" .magneticFlux ++
  named "ampere_per_root_hertz" .currentNoiseDensity ++
  named "volt_per_root_hertz" .voltageNoiseDensity ++
  named "lumen" .luminousFlux ++
  named "lux" .illuminance

/-- The symbols of the literals, except those of `rounded`. -/
def literals : List Unit :=
  symbols ["a", "f", "p", "n", "u", "m", "c", "", "k", "M", "G", "T", "P", "E"] "m" .length ++
  unit "_angstrom" .length (1 / 10 ^ 10) ++ unit "_mi" .length mile ++ unit "_in" .length inch ++
  unit "_ft" .length foot ++ unit "_yd" .length yard ++ unit "_nmi" .length nauticalMile ++
  unit "_au" .length 149597870700 ++ unit "_ly" .length lightYear ++
  symbols usual "s" .time ++
  unit "_min" .time minute ++ unit "_h" .time hour ++ unit "_day" .time day ++
  unit "_week" .time (7 * day) ++
  symbols ["f", "p", "n", "u", "m", "", "k"] "g" .mass gram ++
  symbols ["", "k", "M", "G", "T"] "t" .mass tonne ++
  symbols usual "A" .electricCurrent ++
  symbols usual "K" .temperature ++
  [{ name := "_degC", dim := dim .temperature, scale := 1, offset := 27315 / 100 }] ++
  [{ name := "_degF", dim := dim .temperature, scale := 5 / 9, offset := 45967 / 100 * (5 / 9) }] ++
  symbols usual "mol" .amountOfSubstance ++
  symbols usual "Cd" .luminousIntensity ++
  symbols usual "rad" .planarAngle ++
  symbols usual "sr" .solidAngle ++
  unit "_Sh" .dataQuantity 1 ++ unit "_b" .dataQuantity 1 ++ unit "_B" .dataQuantity byte ++
  unit "_kiB" .dataQuantity (2 ^ 10 * byte) ++ unit "_MiB" .dataQuantity (2 ^ 20 * byte) ++
  unit "_GiB" .dataQuantity (2 ^ 30 * byte) ++ unit "_TiB" .dataQuantity (2 ^ 40 * byte) ++
  unit "_PiB" .dataQuantity (2 ^ 50 * byte) ++
  symbols usual "m_per_s" .speed ++
  unit "_km_per_h" .speed (1000 / hour) ++ unit "_kn" .speed (nauticalMile / hour) ++
  unit "_mph" .speed (mile / hour) ++
  symbols usual "m_per_s2" .acceleration ++
  unit "_Gal" .acceleration (1 / 100) ++ unit "_mGal" .acceleration (1 / 100 / 10 ^ 3) ++
  unit "_uGal" .acceleration (1 / 100 / 10 ^ 6) ++ unit "_nGal" .acceleration (1 / 100 / 10 ^ 9) ++
  unit "_um2" .area ((1 / 10 ^ 6) ^ 2) ++ unit "_mm2" .area ((1 / 10 ^ 3) ^ 2) ++
  unit "_cm2" .area ((1 / 100) ^ 2) ++ unit "_m2" .area 1 ++ unit "_km2" .area ((10 ^ 3) ^ 2) ++
  unit "_Mm2" .area ((10 ^ 6) ^ 2) ++ unit "_in2" .area (inch ^ 2) ++ unit "_ft2" .area (foot ^ 2) ++
  unit "_yd2" .area (yard ^ 2) ++ unit "_mi2" .area (mile ^ 2) ++ unit "_a" .area 100 ++
  unit "_ha" .area (100 * 100) ++
  unit "_mm3" .volume ((1 / 10 ^ 3) ^ 3) ++ unit "_cm3" .volume ((1 / 100) ^ 3) ++
  unit "_m3" .volume 1 ++ unit "_km3" .volume ((10 ^ 3) ^ 3) ++
  unit "_uL" .volume (litre / 10 ^ 6) ++ unit "_mL" .volume (litre / 10 ^ 3) ++
  unit "_L" .volume litre ++ unit "_hL" .volume (100 * litre) ++
  unit "_in3" .volume (inch ^ 3) ++ unit "_ft3" .volume (foot ^ 3) ++
  unit "_yd3" .volume (yard ^ 3) ++ unit "_mi3" .volume (mile ^ 3) ++
  symbols usual "N" .force ++
  unit "_lbf" .force (pound * standardGravity) ++ unit "_pdl" .force (pound * foot) ++
  unit "_kgf" .force standardGravity ++ unit "_dyn" .force (1 / 10 ^ 5) ++
  symbols usual "W" .power ++
  symbols usual "J" .energy ++
  symbols ["", "k", "M", "G", "T", "P"] "Wh" .energy hour ++
  unit "_cal" .energy calorie ++ unit "_kcal" .energy (10 ^ 3 * calorie) ++
  symbols ("h" :: usual) "Pa" .pressure ++
  unit "_mbar" .pressure (10 ^ 5 / 10 ^ 3) ++ unit "_bar" .pressure (10 ^ 5) ++
  unit "_kbar" .pressure (10 ^ 3 * 10 ^ 5) ++
  unit "_torr" .pressure (atmosphere / 760) ++ unit "_atm" .pressure atmosphere ++
  symbols usual "Hz" .frequency ++
  symbols ["", "k", "M", "G", "T", "P", "E"] "bps" .dataRate ++
  symbols usual "kat" .catalyticActivity ++
  symbols usual "V" .electricPotential ++
  symbols usual "C" .electricCharge ++
  symbols usual "Ohm" .electricalResistance ++
  symbols usual "S" .electricalConductivity ++
  symbols usual "F" .capacitance ++
  symbols usual "H" .inductance ++
  symbols usual "T" .magneticFluxDensity ++
  unit "_G" .magneticFluxDensity (1 / 10 ^ 4) ++
  symbols usual "Wb" .magneticFlux ++
  symbols usual "A_per_rtHz" .currentNoiseDensity ++
  symbols usual "V_per_rtHz" .voltageNoiseDensity ++
  symbols ["a", "f", "n", "u", "m", "", "k", "M", "G", "T", "P", "E"] "lm" .luminousFlux ++
  symbols ["a", "f", "n", "u", "m", "", "k", "M", "G", "T", "P", "E"] "lx" .illuminance

/-- The names whose exact value is irrational or which the library gives to a few digits only. -/
def rounded : List String :=
  ["parsec", "degree", "turn", "mmHg", "psi", "enzyme_unit", "_pc", "_deg", "_turn", "_mmHg", "_psi"]

end SciCpp.SI
