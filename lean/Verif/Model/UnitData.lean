import Verif.Model.QTmpl
/-
  GENERATED by tools/gen_units.py from scicpp/core/units/{units,chemical,electromagnetism,photometry,
  thermal}.hpp: every unit alias and every literal, with the scale and offset as written there
  (`std::kilo` etc. replaced by their standard values).
-/
namespace SciCpp

/-- The unit aliases (scicpp/core/units/units.hpp:242, 244-245, 249-250, 252-253, 255-256, 258-259, 263-264, 268-269, 271-272, 274-275, 311, 313-314, 316-317, 319-320, 322-323, 352-353, 355-356, 358-359, 361-362, 364-365, 367-368, 370-371, 373-374, 376-377, 379-380, 382-383, 385-386, 409, 433, 435-436, 438-440, 467, 491, 515, 522-523, 525-526, 560, 584-585, 587-588, 590-591). -/
def unitAliases0 : List UnitDef :=
  prefixed .length "meter" ++
  [⟨"angstrom", .length, 1, 10000000000, 0, 1⟩,
    ⟨"inch", .length, 254, 10000, 0, 1⟩,
    ⟨"foot", .length, 3048, 10000, 0, 1⟩,
    ⟨"yard", .length, 9144, 10000, 0, 1⟩,
    ⟨"mile", .length, 25146000, 15625, 0, 1⟩,
    ⟨"nautical_mile", .length, 1852, 1, 0, 1⟩,
    ⟨"astronomical_unit", .length, 149597870700, 1, 0, 1⟩,
    ⟨"light_year", .length, 9460730472580800, 1, 0, 1⟩,
    ⟨"parsec", .length, 30856775814671900, 1, 0, 1⟩] ++
  prefixed .time "second" ++
  [⟨"minute", .time, 60, 1, 0, 1⟩,
    ⟨"hour", .time, 3600, 1, 0, 1⟩,
    ⟨"day", .time, 86400, 1, 0, 1⟩,
    ⟨"week", .time, 604800, 1, 0, 1⟩,
    ⟨"femtogram", .mass, 1, 1000000000000000000, 0, 1⟩,
    ⟨"picogram", .mass, 1, 1000000000000000, 0, 1⟩,
    ⟨"nanogram", .mass, 1, 1000000000000, 0, 1⟩,
    ⟨"microgram", .mass, 1, 1000000000, 0, 1⟩,
    ⟨"milligram", .mass, 1, 1000000, 0, 1⟩,
    ⟨"gram", .mass, 1, 1000, 0, 1⟩,
    ⟨"kilogram", .mass, 1, 1, 0, 1⟩,
    ⟨"tonne", .mass, 1000, 1, 0, 1⟩,
    ⟨"kilotonne", .mass, 1000000, 1, 0, 1⟩,
    ⟨"megatonne", .mass, 1000000000, 1, 0, 1⟩,
    ⟨"gigatonne", .mass, 1000000000000, 1, 0, 1⟩,
    ⟨"teratonne", .mass, 1000000000000000000, 1, 0, 1⟩] ++
  prefixed .electricCurrent "ampere" ++
  prefixed .temperature "kelvin" ++
  [⟨"celsius", .temperature, 1, 1, 27315, 100⟩,
    ⟨"fahrhenheit", .temperature, 5, 9, 45967, 180⟩] ++
  prefixed .amountOfSubstance "mole" ++
  prefixed .luminousIntensity "candela" ++
  prefixed .planarAngle "radian" ++
  [⟨"degree", .planarAngle, 21053343141, (6701487259 * 180), 0, 1⟩,
    ⟨"turn", .planarAngle, (2 * 21053343141), 6701487259, 0, 1⟩] ++
  prefixed .solidAngle "steradian" ++
  [⟨"bit", .dataQuantity, 1, 1, 0, 1⟩,
    ⟨"shannon", .dataQuantity, 1, 1, 0, 1⟩,
    ⟨"nibble", .dataQuantity, 4, 1, 0, 1⟩]

/-- The unit aliases (scicpp/core/units/units.hpp:593-594, 596-597, 599-600, 602-603, 605-606, 608-609, 634, 636-637, 639-640, 642-643, 671, 673-674, 676-677, 679-680, 682-683, 714-715, 717-718, 720-721, 723-724, 726-727, 729-730, 734-735, 737-738, 740-741, 743-744, 748-749, 751-752, 779-780, 782-783, 785-786, 788-789, 793-794, 796-797, 799-800, 802-803, 807-808, 810-811, 813-814, 816-818, 846). -/
def unitAliases1 : List UnitDef :=
  [⟨"byte", .dataQuantity, 8, 1, 0, 1⟩,
    ⟨"kibibyte", .dataQuantity, 8*1024, 1, 0, 1⟩,
    ⟨"mebibyte", .dataQuantity, 8*1048576, 1, 0, 1⟩,
    ⟨"gibibyte", .dataQuantity, 8*1073741824, 1, 0, 1⟩,
    ⟨"tebibyte", .dataQuantity, 8*1099511627776, 1, 0, 1⟩,
    ⟨"pebibyte", .dataQuantity, 8*1125899906842624, 1, 0, 1⟩] ++
  prefixed .speed "meter_per_second" ++
  [⟨"kilometer_per_hour", .speed, 3600, 1000, 0, 1⟩,
    ⟨"knot", .speed, 66672, 10000, 0, 1⟩,
    ⟨"mile_per_hour", .speed, 44704, 100000, 0, 1⟩] ++
  prefixed .acceleration "meter_per_second_squared" ++
  [⟨"galileo", .acceleration, 1, 100, 0, 1⟩,
    ⟨"milligalileo", .acceleration, 1, 100000, 0, 1⟩,
    ⟨"microgalileo", .acceleration, 1, 100000000, 0, 1⟩,
    ⟨"nanogalileo", .acceleration, 1, 100000000000, 0, 1⟩,
    ⟨"square_micrometer", .area, 1, 1000000000000, 0, 1⟩,
    ⟨"square_millimeter", .area, 1, 1000000, 0, 1⟩,
    ⟨"square_centimeter", .area, 1, 10000, 0, 1⟩,
    ⟨"square_meter", .area, 1, 1, 0, 1⟩,
    ⟨"square_kilometer", .area, 1000000, 1, 0, 1⟩,
    ⟨"square_megameter", .area, 1000000000000, 1, 0, 1⟩,
    ⟨"square_inch", .area, 64516, 100000000, 0, 1⟩,
    ⟨"square_foot", .area, 9290304, 100000000, 0, 1⟩,
    ⟨"square_yard", .area, 83612736, 100000000, 0, 1⟩,
    ⟨"square_mile", .area, 2589988110336, 1000000, 0, 1⟩,
    ⟨"are", .area, 100, 1, 0, 1⟩,
    ⟨"hectare", .area, 10000, 1, 0, 1⟩,
    ⟨"cubic_millimeter", .volume, 1, 1000000000, 0, 1⟩,
    ⟨"cubic_centimeter", .volume, 1, 1000000, 0, 1⟩,
    ⟨"cubic_meter", .volume, 1, 1, 0, 1⟩,
    ⟨"cubic_kilometer", .volume, 1000000000, 1, 0, 1⟩,
    ⟨"microliter", .volume, 1, 1000000000, 0, 1⟩,
    ⟨"milliliter", .volume, 1, 1000000, 0, 1⟩,
    ⟨"liter", .volume, 1, 1000, 0, 1⟩,
    ⟨"hectoliter", .volume, 1, 10, 0, 1⟩,
    ⟨"cubic_inch", .volume, 16387064, 1000000000000, 0, 1⟩,
    ⟨"cubic_foot", .volume, 28316846592, 1000000000000, 0, 1⟩,
    ⟨"cubic_yard", .volume, 764554857984, 1000000000000, 0, 1⟩,
    ⟨"cubic_mile", .volume, 4168181825440579584, 1000000000, 0, 1⟩] ++
  prefixed .force "newton"

/-- The unit aliases (scicpp/core/units/units.hpp:850-852, 854-855, 859-860, 862-863, 892, 916, 918-919, 921-922, 924-925, 927-928, 930-931, 933-934, 936-937, 939-940, 974, 976-977, 979-980, 982-983, 985-986, 988-989, 991-992, 994-995, 1028, 1052-1053, 1055-1056, 1058-1059, 1061-1062, 1064-1065, 1067-1068, 1070-1071; scicpp/core/units/chemical.hpp:34, 36-38; scicpp/core/units/electromagnetism.hpp:84, 108, 132, 156, 180, 204, 228, 230-231). -/
def unitAliases2 : List UnitDef :=
  [⟨"pound_force", .volume, 44482216152605, 10000000000000, 0, 1⟩,
    ⟨"poundal", .volume, 138254954376, 1000000000000, 0, 1⟩,
    ⟨"kilogram_force", .volume, 980665, 100000, 0, 1⟩,
    ⟨"dyne", .volume, 1, 100000, 0, 1⟩] ++
  prefixed .power "watt" ++
  prefixed .energy "joule" ++
  [⟨"watt_hour", .energy, 3600, 1, 0, 1⟩,
    ⟨"kilowatt_hour", .energy, 3600000, 1, 0, 1⟩,
    ⟨"megawatt_hour", .energy, 3600000000, 1, 0, 1⟩,
    ⟨"gigawatt_hour", .energy, 3600000000000, 1, 0, 1⟩,
    ⟨"terawatt_hour", .energy, 3600000000000000, 1, 0, 1⟩,
    ⟨"petawatt_hour", .energy, 3600000000000000000, 1, 0, 1⟩,
    ⟨"calorie", .energy, 4184, 1000, 0, 1⟩,
    ⟨"kilocalorie", .energy, 4184, 1, 0, 1⟩] ++
  prefixed .pressure "pascal" ++
  [⟨"millibar", .pressure, 100, 1, 0, 1⟩,
    ⟨"bar", .pressure, 100000, 1, 0, 1⟩,
    ⟨"kilobar", .pressure, 100000000, 1, 0, 1⟩,
    ⟨"mmHg", .pressure, 101325, 760, 0, 1⟩,
    ⟨"torr", .pressure, 101325, 760, 0, 1⟩,
    ⟨"psi", .pressure, 689476, 100, 0, 1⟩,
    ⟨"atm", .pressure, 101325, 1, 0, 1⟩] ++
  prefixed .frequency "hertz" ++
  [⟨"bit_per_second", .dataRate, 1, 1, 0, 1⟩,
    ⟨"kilobit_per_second", .dataRate, 1000, 1, 0, 1⟩,
    ⟨"megabit_per_second", .dataRate, 1000000, 1, 0, 1⟩,
    ⟨"gigabit_per_second", .dataRate, 1000000000, 1, 0, 1⟩,
    ⟨"terabit_per_second", .dataRate, 1000000000000, 1, 0, 1⟩,
    ⟨"petabit_per_second", .dataRate, 1000000000000000, 1, 0, 1⟩,
    ⟨"exabit_per_second", .dataRate, 1000000000000000000, 1, 0, 1⟩] ++
  prefixed .catalyticActivity "katal" ++
  [⟨"enzyme_unit", .catalyticActivity, 1667, 100000000000, 0, 1⟩] ++
  prefixed .electricPotential "volt" ++
  prefixed .electricCharge "coulomb" ++
  prefixed .electricalResistance "ohm" ++
  prefixed .electricalConductivity "siemens" ++
  prefixed .capacitance "farad" ++
  prefixed .inductance "henry" ++
  prefixed .magneticFluxDensity "tesla" ++
  [⟨"gauss", .magneticFluxDensity, 1, 10000, 0, 1⟩]

/-- The unit aliases (scicpp/core/units/electromagnetism.hpp:257, 281-282, 306-307; scicpp/core/units/photometry.hpp:54, 77). -/
def unitAliases3 : List UnitDef :=
  prefixed .magneticFlux "weber" ++
  prefixed .currentNoiseDensity "ampere_per_root_hertz" ++
  prefixed .voltageNoiseDensity "volt_per_root_hertz" ++
  prefixed .luminousFlux "lumen" ++
  prefixed .illuminance "lux"

/-- The unit aliases, all of them (scicpp/core/units/units.hpp:237-1080 and the four headers it includes). -/
def unitAliases : List UnitDef :=
  unitAliases0 ++ unitAliases1 ++ unitAliases2 ++ unitAliases3

/-- The literal operators (scicpp/core/units/units.hpp:279-292, 294-299, 301-303, 327-339, 341-344). -/
def unitLiterals0 : List UnitDef :=
  [⟨"_am", .length, 1, 1000000000000000000, 0, 1⟩,
    ⟨"_fm", .length, 1, 1000000000000000, 0, 1⟩,
    ⟨"_pm", .length, 1, 1000000000000, 0, 1⟩,
    ⟨"_nm", .length, 1, 1000000000, 0, 1⟩,
    ⟨"_um", .length, 1, 1000000, 0, 1⟩,
    ⟨"_mm", .length, 1, 1000, 0, 1⟩,
    ⟨"_cm", .length, 1, 100, 0, 1⟩,
    ⟨"_m", .length, 1, 1, 0, 1⟩,
    ⟨"_km", .length, 1000, 1, 0, 1⟩,
    ⟨"_Mm", .length, 1000000, 1, 0, 1⟩,
    ⟨"_Gm", .length, 1000000000, 1, 0, 1⟩,
    ⟨"_Tm", .length, 1000000000000, 1, 0, 1⟩,
    ⟨"_Pm", .length, 1000000000000000, 1, 0, 1⟩,
    ⟨"_Em", .length, 1000000000000000000, 1, 0, 1⟩,
    ⟨"_angstrom", .length, 1, 10000000000, 0, 1⟩,
    ⟨"_mi", .length, 25146000, 15625, 0, 1⟩,
    ⟨"_in", .length, 254, 10000, 0, 1⟩,
    ⟨"_ft", .length, 3048, 10000, 0, 1⟩,
    ⟨"_yd", .length, 9144, 10000, 0, 1⟩,
    ⟨"_nmi", .length, 1852, 1, 0, 1⟩,
    ⟨"_au", .length, 149597870700, 1, 0, 1⟩,
    ⟨"_ly", .length, 9460730472580800, 1, 0, 1⟩,
    ⟨"_pc", .length, 30856775814671900, 1, 0, 1⟩,
    ⟨"_as", .time, 1, 1000000000000000000, 0, 1⟩,
    ⟨"_fs", .time, 1, 1000000000000000, 0, 1⟩,
    ⟨"_ps", .time, 1, 1000000000000, 0, 1⟩,
    ⟨"_ns", .time, 1, 1000000000, 0, 1⟩,
    ⟨"_us", .time, 1, 1000000, 0, 1⟩,
    ⟨"_ms", .time, 1, 1000, 0, 1⟩,
    ⟨"_s", .time, 1, 1, 0, 1⟩,
    ⟨"_ks", .time, 1000, 1, 0, 1⟩,
    ⟨"_Ms", .time, 1000000, 1, 0, 1⟩,
    ⟨"_Gs", .time, 1000000000, 1, 0, 1⟩,
    ⟨"_Ts", .time, 1000000000000, 1, 0, 1⟩,
    ⟨"_Ps", .time, 1000000000000000, 1, 0, 1⟩,
    ⟨"_Es", .time, 1000000000000000000, 1, 0, 1⟩,
    ⟨"_min", .time, 60, 1, 0, 1⟩,
    ⟨"_h", .time, 3600, 1, 0, 1⟩,
    ⟨"_day", .time, 86400, 1, 0, 1⟩,
    ⟨"_week", .time, 604800, 1, 0, 1⟩]

/-- The literal operators (scicpp/core/units/units.hpp:390-401, 413-425, 444-456, 458-459). -/
def unitLiterals1 : List UnitDef :=
  [⟨"_fg", .mass, 1, 1000000000000000000, 0, 1⟩,
    ⟨"_pg", .mass, 1, 1000000000000000, 0, 1⟩,
    ⟨"_ng", .mass, 1, 1000000000000, 0, 1⟩,
    ⟨"_ug", .mass, 1, 1000000000, 0, 1⟩,
    ⟨"_mg", .mass, 1, 1000000, 0, 1⟩,
    ⟨"_g", .mass, 1, 1000, 0, 1⟩,
    ⟨"_kg", .mass, 1, 1, 0, 1⟩,
    ⟨"_t", .mass, 1000, 1, 0, 1⟩,
    ⟨"_kt", .mass, 1000000, 1, 0, 1⟩,
    ⟨"_Mt", .mass, 1000000000, 1, 0, 1⟩,
    ⟨"_Gt", .mass, 1000000000000, 1, 0, 1⟩,
    ⟨"_Tt", .mass, 1000000000000000000, 1, 0, 1⟩,
    ⟨"_aA", .electricCurrent, 1, 1000000000000000000, 0, 1⟩,
    ⟨"_fA", .electricCurrent, 1, 1000000000000000, 0, 1⟩,
    ⟨"_pA", .electricCurrent, 1, 1000000000000, 0, 1⟩,
    ⟨"_nA", .electricCurrent, 1, 1000000000, 0, 1⟩,
    ⟨"_uA", .electricCurrent, 1, 1000000, 0, 1⟩,
    ⟨"_mA", .electricCurrent, 1, 1000, 0, 1⟩,
    ⟨"_A", .electricCurrent, 1, 1, 0, 1⟩,
    ⟨"_kA", .electricCurrent, 1000, 1, 0, 1⟩,
    ⟨"_MA", .electricCurrent, 1000000, 1, 0, 1⟩,
    ⟨"_GA", .electricCurrent, 1000000000, 1, 0, 1⟩,
    ⟨"_TA", .electricCurrent, 1000000000000, 1, 0, 1⟩,
    ⟨"_PA", .electricCurrent, 1000000000000000, 1, 0, 1⟩,
    ⟨"_EA", .electricCurrent, 1000000000000000000, 1, 0, 1⟩,
    ⟨"_aK", .temperature, 1, 1000000000000000000, 0, 1⟩,
    ⟨"_fK", .temperature, 1, 1000000000000000, 0, 1⟩,
    ⟨"_pK", .temperature, 1, 1000000000000, 0, 1⟩,
    ⟨"_nK", .temperature, 1, 1000000000, 0, 1⟩,
    ⟨"_uK", .temperature, 1, 1000000, 0, 1⟩,
    ⟨"_mK", .temperature, 1, 1000, 0, 1⟩,
    ⟨"_K", .temperature, 1, 1, 0, 1⟩,
    ⟨"_kK", .temperature, 1000, 1, 0, 1⟩,
    ⟨"_MK", .temperature, 1000000, 1, 0, 1⟩,
    ⟨"_GK", .temperature, 1000000000, 1, 0, 1⟩,
    ⟨"_TK", .temperature, 1000000000000, 1, 0, 1⟩,
    ⟨"_PK", .temperature, 1000000000000000, 1, 0, 1⟩,
    ⟨"_EK", .temperature, 1000000000000000000, 1, 0, 1⟩,
    ⟨"_degC", .temperature, 1, 1, 27315, 100⟩,
    ⟨"_degF", .temperature, 5, 9, 45967, 180⟩]

/-- The literal operators (scicpp/core/units/units.hpp:471-483, 495-507, 530-542, 544-547). -/
def unitLiterals2 : List UnitDef :=
  [⟨"_amol", .amountOfSubstance, 1, 1000000000000000000, 0, 1⟩,
    ⟨"_fmol", .amountOfSubstance, 1, 1000000000000000, 0, 1⟩,
    ⟨"_pmol", .amountOfSubstance, 1, 1000000000000, 0, 1⟩,
    ⟨"_nmol", .amountOfSubstance, 1, 1000000000, 0, 1⟩,
    ⟨"_umol", .amountOfSubstance, 1, 1000000, 0, 1⟩,
    ⟨"_mmol", .amountOfSubstance, 1, 1000, 0, 1⟩,
    ⟨"_mol", .amountOfSubstance, 1, 1, 0, 1⟩,
    ⟨"_kmol", .amountOfSubstance, 1000, 1, 0, 1⟩,
    ⟨"_Mmol", .amountOfSubstance, 1000000, 1, 0, 1⟩,
    ⟨"_Gmol", .amountOfSubstance, 1000000000, 1, 0, 1⟩,
    ⟨"_Tmol", .amountOfSubstance, 1000000000000, 1, 0, 1⟩,
    ⟨"_Pmol", .amountOfSubstance, 1000000000000000, 1, 0, 1⟩,
    ⟨"_Emol", .amountOfSubstance, 1000000000000000000, 1, 0, 1⟩,
    ⟨"_aCd", .luminousIntensity, 1, 1000000000000000000, 0, 1⟩,
    ⟨"_fCd", .luminousIntensity, 1, 1000000000000000, 0, 1⟩,
    ⟨"_pCd", .luminousIntensity, 1, 1000000000000, 0, 1⟩,
    ⟨"_nCd", .luminousIntensity, 1, 1000000000, 0, 1⟩,
    ⟨"_uCd", .luminousIntensity, 1, 1000000, 0, 1⟩,
    ⟨"_mCd", .luminousIntensity, 1, 1000, 0, 1⟩,
    ⟨"_Cd", .luminousIntensity, 1, 1, 0, 1⟩,
    ⟨"_kCd", .luminousIntensity, 1000, 1, 0, 1⟩,
    ⟨"_MCd", .luminousIntensity, 1000000, 1, 0, 1⟩,
    ⟨"_GCd", .luminousIntensity, 1000000000, 1, 0, 1⟩,
    ⟨"_TCd", .luminousIntensity, 1000000000000, 1, 0, 1⟩,
    ⟨"_PCd", .luminousIntensity, 1000000000000000, 1, 0, 1⟩,
    ⟨"_ECd", .luminousIntensity, 1000000000000000000, 1, 0, 1⟩,
    ⟨"_arad", .planarAngle, 1, 1000000000000000000, 0, 1⟩,
    ⟨"_frad", .planarAngle, 1, 1000000000000000, 0, 1⟩,
    ⟨"_prad", .planarAngle, 1, 1000000000000, 0, 1⟩,
    ⟨"_nrad", .planarAngle, 1, 1000000000, 0, 1⟩,
    ⟨"_urad", .planarAngle, 1, 1000000, 0, 1⟩,
    ⟨"_mrad", .planarAngle, 1, 1000, 0, 1⟩,
    ⟨"_rad", .planarAngle, 1, 1, 0, 1⟩,
    ⟨"_krad", .planarAngle, 1000, 1, 0, 1⟩,
    ⟨"_Mrad", .planarAngle, 1000000, 1, 0, 1⟩,
    ⟨"_Grad", .planarAngle, 1000000000, 1, 0, 1⟩,
    ⟨"_Trad", .planarAngle, 1000000000000, 1, 0, 1⟩,
    ⟨"_Prad", .planarAngle, 1000000000000000, 1, 0, 1⟩,
    ⟨"_Erad", .planarAngle, 1000000000000000000, 1, 0, 1⟩,
    ⟨"_deg", .planarAngle, 21053343141, (6701487259 * 180), 0, 1⟩]

/-- The literal operators (scicpp/core/units/units.hpp:549-552, 564-576, 613-626, 647-659, 661-663, 687-688). -/
def unitLiterals3 : List UnitDef :=
  [⟨"_turn", .planarAngle, (2 * 21053343141), 6701487259, 0, 1⟩,
    ⟨"_asr", .solidAngle, 1, 1000000000000000000, 0, 1⟩,
    ⟨"_fsr", .solidAngle, 1, 1000000000000000, 0, 1⟩,
    ⟨"_psr", .solidAngle, 1, 1000000000000, 0, 1⟩,
    ⟨"_nsr", .solidAngle, 1, 1000000000, 0, 1⟩,
    ⟨"_usr", .solidAngle, 1, 1000000, 0, 1⟩,
    ⟨"_msr", .solidAngle, 1, 1000, 0, 1⟩,
    ⟨"_sr", .solidAngle, 1, 1, 0, 1⟩,
    ⟨"_ksr", .solidAngle, 1000, 1, 0, 1⟩,
    ⟨"_Msr", .solidAngle, 1000000, 1, 0, 1⟩,
    ⟨"_Gsr", .solidAngle, 1000000000, 1, 0, 1⟩,
    ⟨"_Tsr", .solidAngle, 1000000000000, 1, 0, 1⟩,
    ⟨"_Psr", .solidAngle, 1000000000000000, 1, 0, 1⟩,
    ⟨"_Esr", .solidAngle, 1000000000000000000, 1, 0, 1⟩,
    ⟨"_Sh", .dataQuantity, 1, 1, 0, 1⟩,
    ⟨"_b", .dataQuantity, 1, 1, 0, 1⟩,
    ⟨"_B", .dataQuantity, 8, 1, 0, 1⟩,
    ⟨"_kiB", .dataQuantity, 8 * 1024, 1, 0, 1⟩,
    ⟨"_MiB", .dataQuantity, 8 * 1048576, 1, 0, 1⟩,
    ⟨"_GiB", .dataQuantity, 8 * 1073741824, 1, 0, 1⟩,
    ⟨"_TiB", .dataQuantity, 8 * 1099511627776, 1, 0, 1⟩,
    ⟨"_PiB", .dataQuantity, 8 * 1125899906842624, 1, 0, 1⟩,
    ⟨"_am_per_s", .speed, 1, 1000000000000000000, 0, 1⟩,
    ⟨"_fm_per_s", .speed, 1, 1000000000000000, 0, 1⟩,
    ⟨"_pm_per_s", .speed, 1, 1000000000000, 0, 1⟩,
    ⟨"_nm_per_s", .speed, 1, 1000000000, 0, 1⟩,
    ⟨"_um_per_s", .speed, 1, 1000000, 0, 1⟩,
    ⟨"_mm_per_s", .speed, 1, 1000, 0, 1⟩,
    ⟨"_m_per_s", .speed, 1, 1, 0, 1⟩,
    ⟨"_km_per_s", .speed, 1000, 1, 0, 1⟩,
    ⟨"_Mm_per_s", .speed, 1000000, 1, 0, 1⟩,
    ⟨"_Gm_per_s", .speed, 1000000000, 1, 0, 1⟩,
    ⟨"_Tm_per_s", .speed, 1000000000000, 1, 0, 1⟩,
    ⟨"_Pm_per_s", .speed, 1000000000000000, 1, 0, 1⟩,
    ⟨"_Em_per_s", .speed, 1000000000000000000, 1, 0, 1⟩,
    ⟨"_km_per_h", .speed, 3600, 1000, 0, 1⟩,
    ⟨"_kn", .speed, 66672, 10000, 0, 1⟩,
    ⟨"_mph", .speed, 44704, 100000, 0, 1⟩,
    ⟨"_am_per_s2", .acceleration, 1, 1000000000000000000, 0, 1⟩,
    ⟨"_fm_per_s2", .acceleration, 1, 1000000000000000, 0, 1⟩]

/-- The literal operators (scicpp/core/units/units.hpp:689-699, 701-704, 756-761, 763-766, 768-769, 822-825, 827-830, 832-838, 867). -/
def unitLiterals4 : List UnitDef :=
  [⟨"_pm_per_s2", .acceleration, 1, 1000000000000, 0, 1⟩,
    ⟨"_nm_per_s2", .acceleration, 1, 1000000000, 0, 1⟩,
    ⟨"_um_per_s2", .acceleration, 1, 1000000, 0, 1⟩,
    ⟨"_mm_per_s2", .acceleration, 1, 1000, 0, 1⟩,
    ⟨"_m_per_s2", .acceleration, 1, 1, 0, 1⟩,
    ⟨"_km_per_s2", .acceleration, 1000, 1, 0, 1⟩,
    ⟨"_Mm_per_s2", .acceleration, 1000000, 1, 0, 1⟩,
    ⟨"_Gm_per_s2", .acceleration, 1000000000, 1, 0, 1⟩,
    ⟨"_Tm_per_s2", .acceleration, 1000000000000, 1, 0, 1⟩,
    ⟨"_Pm_per_s2", .acceleration, 1000000000000000, 1, 0, 1⟩,
    ⟨"_Em_per_s2", .acceleration, 1000000000000000000, 1, 0, 1⟩,
    ⟨"_Gal", .acceleration, 1, 100, 0, 1⟩,
    ⟨"_mGal", .acceleration, 1, 100000, 0, 1⟩,
    ⟨"_uGal", .acceleration, 1, 100000000, 0, 1⟩,
    ⟨"_nGal", .acceleration, 1, 100000000000, 0, 1⟩,
    ⟨"_um2", .area, 1, 1000000000000, 0, 1⟩,
    ⟨"_mm2", .area, 1, 1000000, 0, 1⟩,
    ⟨"_cm2", .area, 1, 10000, 0, 1⟩,
    ⟨"_m2", .area, 1, 1, 0, 1⟩,
    ⟨"_km2", .area, 1000000, 1, 0, 1⟩,
    ⟨"_Mm2", .area, 1000000000000, 1, 0, 1⟩,
    ⟨"_in2", .area, 64516, 100000000, 0, 1⟩,
    ⟨"_ft2", .area, 9290304, 100000000, 0, 1⟩,
    ⟨"_yd2", .area, 83612736, 100000000, 0, 1⟩,
    ⟨"_mi2", .area, 2589988110336, 1000000, 0, 1⟩,
    ⟨"_a", .area, 100, 1, 0, 1⟩,
    ⟨"_ha", .area, 10000, 1, 0, 1⟩,
    ⟨"_mm3", .volume, 1, 1000000000, 0, 1⟩,
    ⟨"_cm3", .volume, 1, 1000000, 0, 1⟩,
    ⟨"_m3", .volume, 1, 1, 0, 1⟩,
    ⟨"_km3", .volume, 1000000000, 1, 0, 1⟩,
    ⟨"_uL", .volume, 1, 1000000000, 0, 1⟩,
    ⟨"_mL", .volume, 1, 1000000, 0, 1⟩,
    ⟨"_L", .volume, 1, 1000, 0, 1⟩,
    ⟨"_hL", .volume, 1, 10, 0, 1⟩,
    ⟨"_in3", .volume, 16387064, 1000000000000, 0, 1⟩,
    ⟨"_ft3", .volume, 28316846592, 1000000000000, 0, 1⟩,
    ⟨"_yd3", .volume, 764554857984, 1000000000000, 0, 1⟩,
    ⟨"_mi3", .volume, 4168181825440579584, 1000000000, 0, 1⟩,
    ⟨"_aN", .force, 1, 1000000000000000000, 0, 1⟩]

/-- The literal operators (scicpp/core/units/units.hpp:868-879, 881-884, 896-908, 944-954). -/
def unitLiterals5 : List UnitDef :=
  [⟨"_fN", .force, 1, 1000000000000000, 0, 1⟩,
    ⟨"_pN", .force, 1, 1000000000000, 0, 1⟩,
    ⟨"_nN", .force, 1, 1000000000, 0, 1⟩,
    ⟨"_uN", .force, 1, 1000000, 0, 1⟩,
    ⟨"_mN", .force, 1, 1000, 0, 1⟩,
    ⟨"_N", .force, 1, 1, 0, 1⟩,
    ⟨"_kN", .force, 1000, 1, 0, 1⟩,
    ⟨"_MN", .force, 1000000, 1, 0, 1⟩,
    ⟨"_GN", .force, 1000000000, 1, 0, 1⟩,
    ⟨"_TN", .force, 1000000000000, 1, 0, 1⟩,
    ⟨"_PN", .force, 1000000000000000, 1, 0, 1⟩,
    ⟨"_EN", .force, 1000000000000000000, 1, 0, 1⟩,
    ⟨"_lbf", .force, 44482216152605, 10000000000000, 0, 1⟩,
    ⟨"_pdl", .force, 138254954376, 1000000000000, 0, 1⟩,
    ⟨"_kgf", .force, 980665, 100000, 0, 1⟩,
    ⟨"_dyn", .force, 1, 100000, 0, 1⟩,
    ⟨"_aW", .power, 1, 1000000000000000000, 0, 1⟩,
    ⟨"_fW", .power, 1, 1000000000000000, 0, 1⟩,
    ⟨"_pW", .power, 1, 1000000000000, 0, 1⟩,
    ⟨"_nW", .power, 1, 1000000000, 0, 1⟩,
    ⟨"_uW", .power, 1, 1000000, 0, 1⟩,
    ⟨"_mW", .power, 1, 1000, 0, 1⟩,
    ⟨"_W", .power, 1, 1, 0, 1⟩,
    ⟨"_kW", .power, 1000, 1, 0, 1⟩,
    ⟨"_MW", .power, 1000000, 1, 0, 1⟩,
    ⟨"_GW", .power, 1000000000, 1, 0, 1⟩,
    ⟨"_TW", .power, 1000000000000, 1, 0, 1⟩,
    ⟨"_PW", .power, 1000000000000000, 1, 0, 1⟩,
    ⟨"_EW", .power, 1000000000000000000, 1, 0, 1⟩,
    ⟨"_aJ", .energy, 1, 1000000000000000000, 0, 1⟩,
    ⟨"_fJ", .energy, 1, 1000000000000000, 0, 1⟩,
    ⟨"_pJ", .energy, 1, 1000000000000, 0, 1⟩,
    ⟨"_nJ", .energy, 1, 1000000000, 0, 1⟩,
    ⟨"_uJ", .energy, 1, 1000000, 0, 1⟩,
    ⟨"_mJ", .energy, 1, 1000, 0, 1⟩,
    ⟨"_J", .energy, 1, 1, 0, 1⟩,
    ⟨"_kJ", .energy, 1000, 1, 0, 1⟩,
    ⟨"_MJ", .energy, 1000000, 1, 0, 1⟩,
    ⟨"_GJ", .energy, 1000000000, 1, 0, 1⟩,
    ⟨"_TJ", .energy, 1000000000000, 1, 0, 1⟩]

/-- The literal operators (scicpp/core/units/units.hpp:955-956, 958-963, 965-966, 999-1012, 1014-1020, 1032-1040). -/
def unitLiterals6 : List UnitDef :=
  [⟨"_PJ", .energy, 1000000000000000, 1, 0, 1⟩,
    ⟨"_EJ", .energy, 1000000000000000000, 1, 0, 1⟩,
    ⟨"_Wh", .energy, 3600, 1, 0, 1⟩,
    ⟨"_kWh", .energy, 3600000, 1, 0, 1⟩,
    ⟨"_MWh", .energy, 3600000000, 1, 0, 1⟩,
    ⟨"_GWh", .energy, 3600000000000, 1, 0, 1⟩,
    ⟨"_TWh", .energy, 3600000000000000, 1, 0, 1⟩,
    ⟨"_PWh", .energy, 3600000000000000000, 1, 0, 1⟩,
    ⟨"_cal", .energy, 4184, 1000, 0, 1⟩,
    ⟨"_kcal", .energy, 4184, 1, 0, 1⟩,
    ⟨"_aPa", .pressure, 1, 1000000000000000000, 0, 1⟩,
    ⟨"_fPa", .pressure, 1, 1000000000000000, 0, 1⟩,
    ⟨"_pPa", .pressure, 1, 1000000000000, 0, 1⟩,
    ⟨"_nPa", .pressure, 1, 1000000000, 0, 1⟩,
    ⟨"_uPa", .pressure, 1, 1000000, 0, 1⟩,
    ⟨"_mPa", .pressure, 1, 1000, 0, 1⟩,
    ⟨"_Pa", .pressure, 1, 1, 0, 1⟩,
    ⟨"_hPa", .pressure, 100, 1, 0, 1⟩,
    ⟨"_kPa", .pressure, 1000, 1, 0, 1⟩,
    ⟨"_MPa", .pressure, 1000000, 1, 0, 1⟩,
    ⟨"_GPa", .pressure, 1000000000, 1, 0, 1⟩,
    ⟨"_TPa", .pressure, 1000000000000, 1, 0, 1⟩,
    ⟨"_PPa", .pressure, 1000000000000000, 1, 0, 1⟩,
    ⟨"_EPa", .pressure, 1000000000000000000, 1, 0, 1⟩,
    ⟨"_mbar", .pressure, 100, 1, 0, 1⟩,
    ⟨"_bar", .pressure, 100000, 1, 0, 1⟩,
    ⟨"_kbar", .pressure, 100000000, 1, 0, 1⟩,
    ⟨"_mmHg", .pressure, 101325, 760, 0, 1⟩,
    ⟨"_torr", .pressure, 101325, 760, 0, 1⟩,
    ⟨"_psi", .pressure, 689476, 100, 0, 1⟩,
    ⟨"_atm", .pressure, 101325, 1, 0, 1⟩,
    ⟨"_aHz", .frequency, 1, 1000000000000000000, 0, 1⟩,
    ⟨"_fHz", .frequency, 1, 1000000000000000, 0, 1⟩,
    ⟨"_pHz", .frequency, 1, 1000000000000, 0, 1⟩,
    ⟨"_nHz", .frequency, 1, 1000000000, 0, 1⟩,
    ⟨"_uHz", .frequency, 1, 1000000, 0, 1⟩,
    ⟨"_mHz", .frequency, 1, 1000, 0, 1⟩,
    ⟨"_Hz", .frequency, 1, 1, 0, 1⟩,
    ⟨"_kHz", .frequency, 1000, 1, 0, 1⟩,
    ⟨"_MHz", .frequency, 1000000, 1, 0, 1⟩]

/-- The literal operators (scicpp/core/units/units.hpp:1041-1044, 1075-1081; scicpp/core/units/chemical.hpp:42-54; scicpp/core/units/electromagnetism.hpp:88-100, 112-114). -/
def unitLiterals7 : List UnitDef :=
  [⟨"_GHz", .frequency, 1000000000, 1, 0, 1⟩,
    ⟨"_THz", .frequency, 1000000000000, 1, 0, 1⟩,
    ⟨"_PHz", .frequency, 1000000000000000, 1, 0, 1⟩,
    ⟨"_EHz", .frequency, 1000000000000000000, 1, 0, 1⟩,
    ⟨"_bps", .dataRate, 1, 1, 0, 1⟩,
    ⟨"_kbps", .dataRate, 1000, 1, 0, 1⟩,
    ⟨"_Mbps", .dataRate, 1000000, 1, 0, 1⟩,
    ⟨"_Gbps", .dataRate, 1000000000, 1, 0, 1⟩,
    ⟨"_Tbps", .dataRate, 1000000000000, 1, 0, 1⟩,
    ⟨"_Pbps", .dataRate, 1000000000000000, 1, 0, 1⟩,
    ⟨"_Ebps", .dataRate, 1000000000000000000, 1, 0, 1⟩,
    ⟨"_akat", .catalyticActivity, 1, 1000000000000000000, 0, 1⟩,
    ⟨"_fkat", .catalyticActivity, 1, 1000000000000000, 0, 1⟩,
    ⟨"_pkat", .catalyticActivity, 1, 1000000000000, 0, 1⟩,
    ⟨"_nkat", .catalyticActivity, 1, 1000000000, 0, 1⟩,
    ⟨"_ukat", .catalyticActivity, 1, 1000000, 0, 1⟩,
    ⟨"_mkat", .catalyticActivity, 1, 1000, 0, 1⟩,
    ⟨"_kat", .catalyticActivity, 1, 1, 0, 1⟩,
    ⟨"_kkat", .catalyticActivity, 1000, 1, 0, 1⟩,
    ⟨"_Mkat", .catalyticActivity, 1000000, 1, 0, 1⟩,
    ⟨"_Gkat", .catalyticActivity, 1000000000, 1, 0, 1⟩,
    ⟨"_Tkat", .catalyticActivity, 1000000000000, 1, 0, 1⟩,
    ⟨"_Pkat", .catalyticActivity, 1000000000000000, 1, 0, 1⟩,
    ⟨"_Ekat", .catalyticActivity, 1000000000000000000, 1, 0, 1⟩,
    ⟨"_aV", .electricPotential, 1, 1000000000000000000, 0, 1⟩,
    ⟨"_fV", .electricPotential, 1, 1000000000000000, 0, 1⟩,
    ⟨"_pV", .electricPotential, 1, 1000000000000, 0, 1⟩,
    ⟨"_nV", .electricPotential, 1, 1000000000, 0, 1⟩,
    ⟨"_uV", .electricPotential, 1, 1000000, 0, 1⟩,
    ⟨"_mV", .electricPotential, 1, 1000, 0, 1⟩,
    ⟨"_V", .electricPotential, 1, 1, 0, 1⟩,
    ⟨"_kV", .electricPotential, 1000, 1, 0, 1⟩,
    ⟨"_MV", .electricPotential, 1000000, 1, 0, 1⟩,
    ⟨"_GV", .electricPotential, 1000000000, 1, 0, 1⟩,
    ⟨"_TV", .electricPotential, 1000000000000, 1, 0, 1⟩,
    ⟨"_PV", .electricPotential, 1000000000000000, 1, 0, 1⟩,
    ⟨"_EV", .electricPotential, 1000000000000000000, 1, 0, 1⟩,
    ⟨"_aC", .electricCharge, 1, 1000000000000000000, 0, 1⟩,
    ⟨"_fC", .electricCharge, 1, 1000000000000000, 0, 1⟩,
    ⟨"_pC", .electricCharge, 1, 1000000000000, 0, 1⟩]

/-- The literal operators (scicpp/core/units/electromagnetism.hpp:115-124, 136-148, 160-172, 184-187). -/
def unitLiterals8 : List UnitDef :=
  [⟨"_nC", .electricCharge, 1, 1000000000, 0, 1⟩,
    ⟨"_uC", .electricCharge, 1, 1000000, 0, 1⟩,
    ⟨"_mC", .electricCharge, 1, 1000, 0, 1⟩,
    ⟨"_C", .electricCharge, 1, 1, 0, 1⟩,
    ⟨"_kC", .electricCharge, 1000, 1, 0, 1⟩,
    ⟨"_MC", .electricCharge, 1000000, 1, 0, 1⟩,
    ⟨"_GC", .electricCharge, 1000000000, 1, 0, 1⟩,
    ⟨"_TC", .electricCharge, 1000000000000, 1, 0, 1⟩,
    ⟨"_PC", .electricCharge, 1000000000000000, 1, 0, 1⟩,
    ⟨"_EC", .electricCharge, 1000000000000000000, 1, 0, 1⟩,
    ⟨"_aOhm", .electricalResistance, 1, 1000000000000000000, 0, 1⟩,
    ⟨"_fOhm", .electricalResistance, 1, 1000000000000000, 0, 1⟩,
    ⟨"_pOhm", .electricalResistance, 1, 1000000000000, 0, 1⟩,
    ⟨"_nOhm", .electricalResistance, 1, 1000000000, 0, 1⟩,
    ⟨"_uOhm", .electricalResistance, 1, 1000000, 0, 1⟩,
    ⟨"_mOhm", .electricalResistance, 1, 1000, 0, 1⟩,
    ⟨"_Ohm", .electricalResistance, 1, 1, 0, 1⟩,
    ⟨"_kOhm", .electricalResistance, 1000, 1, 0, 1⟩,
    ⟨"_MOhm", .electricalResistance, 1000000, 1, 0, 1⟩,
    ⟨"_GOhm", .electricalResistance, 1000000000, 1, 0, 1⟩,
    ⟨"_TOhm", .electricalResistance, 1000000000000, 1, 0, 1⟩,
    ⟨"_POhm", .electricalResistance, 1000000000000000, 1, 0, 1⟩,
    ⟨"_EOhm", .electricalResistance, 1000000000000000000, 1, 0, 1⟩,
    ⟨"_aS", .electricalConductivity, 1, 1000000000000000000, 0, 1⟩,
    ⟨"_fS", .electricalConductivity, 1, 1000000000000000, 0, 1⟩,
    ⟨"_pS", .electricalConductivity, 1, 1000000000000, 0, 1⟩,
    ⟨"_nS", .electricalConductivity, 1, 1000000000, 0, 1⟩,
    ⟨"_uS", .electricalConductivity, 1, 1000000, 0, 1⟩,
    ⟨"_mS", .electricalConductivity, 1, 1000, 0, 1⟩,
    ⟨"_S", .electricalConductivity, 1, 1, 0, 1⟩,
    ⟨"_kS", .electricalConductivity, 1000, 1, 0, 1⟩,
    ⟨"_MS", .electricalConductivity, 1000000, 1, 0, 1⟩,
    ⟨"_GS", .electricalConductivity, 1000000000, 1, 0, 1⟩,
    ⟨"_TS", .electricalConductivity, 1000000000000, 1, 0, 1⟩,
    ⟨"_PS", .electricalConductivity, 1000000000000000, 1, 0, 1⟩,
    ⟨"_ES", .electricalConductivity, 1000000000000000000, 1, 0, 1⟩,
    ⟨"_aF", .capacitance, 1, 1000000000000000000, 0, 1⟩,
    ⟨"_fF", .capacitance, 1, 1000000000000000, 0, 1⟩,
    ⟨"_pF", .capacitance, 1, 1000000000000, 0, 1⟩,
    ⟨"_nF", .capacitance, 1, 1000000000, 0, 1⟩]

/-- The literal operators (scicpp/core/units/electromagnetism.hpp:188-196, 208-220, 235-247, 249, 261-264). -/
def unitLiterals9 : List UnitDef :=
  [⟨"_uF", .capacitance, 1, 1000000, 0, 1⟩,
    ⟨"_mF", .capacitance, 1, 1000, 0, 1⟩,
    ⟨"_F", .capacitance, 1, 1, 0, 1⟩,
    ⟨"_kF", .capacitance, 1000, 1, 0, 1⟩,
    ⟨"_MF", .capacitance, 1000000, 1, 0, 1⟩,
    ⟨"_GF", .capacitance, 1000000000, 1, 0, 1⟩,
    ⟨"_TF", .capacitance, 1000000000000, 1, 0, 1⟩,
    ⟨"_PF", .capacitance, 1000000000000000, 1, 0, 1⟩,
    ⟨"_EF", .capacitance, 1000000000000000000, 1, 0, 1⟩,
    ⟨"_aH", .inductance, 1, 1000000000000000000, 0, 1⟩,
    ⟨"_fH", .inductance, 1, 1000000000000000, 0, 1⟩,
    ⟨"_pH", .inductance, 1, 1000000000000, 0, 1⟩,
    ⟨"_nH", .inductance, 1, 1000000000, 0, 1⟩,
    ⟨"_uH", .inductance, 1, 1000000, 0, 1⟩,
    ⟨"_mH", .inductance, 1, 1000, 0, 1⟩,
    ⟨"_H", .inductance, 1, 1, 0, 1⟩,
    ⟨"_kH", .inductance, 1000, 1, 0, 1⟩,
    ⟨"_MH", .inductance, 1000000, 1, 0, 1⟩,
    ⟨"_GH", .inductance, 1000000000, 1, 0, 1⟩,
    ⟨"_TH", .inductance, 1000000000000, 1, 0, 1⟩,
    ⟨"_PH", .inductance, 1000000000000000, 1, 0, 1⟩,
    ⟨"_EH", .inductance, 1000000000000000000, 1, 0, 1⟩,
    ⟨"_aT", .magneticFluxDensity, 1, 1000000000000000000, 0, 1⟩,
    ⟨"_fT", .magneticFluxDensity, 1, 1000000000000000, 0, 1⟩,
    ⟨"_pT", .magneticFluxDensity, 1, 1000000000000, 0, 1⟩,
    ⟨"_nT", .magneticFluxDensity, 1, 1000000000, 0, 1⟩,
    ⟨"_uT", .magneticFluxDensity, 1, 1000000, 0, 1⟩,
    ⟨"_mT", .magneticFluxDensity, 1, 1000, 0, 1⟩,
    ⟨"_T", .magneticFluxDensity, 1, 1, 0, 1⟩,
    ⟨"_kT", .magneticFluxDensity, 1000, 1, 0, 1⟩,
    ⟨"_MT", .magneticFluxDensity, 1000000, 1, 0, 1⟩,
    ⟨"_GT", .magneticFluxDensity, 1000000000, 1, 0, 1⟩,
    ⟨"_TT", .magneticFluxDensity, 1000000000000, 1, 0, 1⟩,
    ⟨"_PT", .magneticFluxDensity, 1000000000000000, 1, 0, 1⟩,
    ⟨"_ET", .magneticFluxDensity, 1000000000000000000, 1, 0, 1⟩,
    ⟨"_G", .magneticFluxDensity, 1, 10000, 0, 1⟩,
    ⟨"_aWb", .magneticFlux, 1, 1000000000000000000, 0, 1⟩,
    ⟨"_fWb", .magneticFlux, 1, 1000000000000000, 0, 1⟩,
    ⟨"_pWb", .magneticFlux, 1, 1000000000000, 0, 1⟩,
    ⟨"_nWb", .magneticFlux, 1, 1000000000, 0, 1⟩]

/-- The literal operators (scicpp/core/units/electromagnetism.hpp:265-273, 286-298, 311-323; scicpp/core/units/photometry.hpp:58-62). -/
def unitLiterals10 : List UnitDef :=
  [⟨"_uWb", .magneticFlux, 1, 1000000, 0, 1⟩,
    ⟨"_mWb", .magneticFlux, 1, 1000, 0, 1⟩,
    ⟨"_Wb", .magneticFlux, 1, 1, 0, 1⟩,
    ⟨"_kWb", .magneticFlux, 1000, 1, 0, 1⟩,
    ⟨"_MWb", .magneticFlux, 1000000, 1, 0, 1⟩,
    ⟨"_GWb", .magneticFlux, 1000000000, 1, 0, 1⟩,
    ⟨"_TWb", .magneticFlux, 1000000000000, 1, 0, 1⟩,
    ⟨"_PWb", .magneticFlux, 1000000000000000, 1, 0, 1⟩,
    ⟨"_EWb", .magneticFlux, 1000000000000000000, 1, 0, 1⟩,
    ⟨"_aA_per_rtHz", .currentNoiseDensity, 1, 1000000000000000000, 0, 1⟩,
    ⟨"_fA_per_rtHz", .currentNoiseDensity, 1, 1000000000000000, 0, 1⟩,
    ⟨"_pA_per_rtHz", .currentNoiseDensity, 1, 1000000000000, 0, 1⟩,
    ⟨"_nA_per_rtHz", .currentNoiseDensity, 1, 1000000000, 0, 1⟩,
    ⟨"_uA_per_rtHz", .currentNoiseDensity, 1, 1000000, 0, 1⟩,
    ⟨"_mA_per_rtHz", .currentNoiseDensity, 1, 1000, 0, 1⟩,
    ⟨"_A_per_rtHz", .currentNoiseDensity, 1, 1, 0, 1⟩,
    ⟨"_kA_per_rtHz", .currentNoiseDensity, 1000, 1, 0, 1⟩,
    ⟨"_MA_per_rtHz", .currentNoiseDensity, 1000000, 1, 0, 1⟩,
    ⟨"_GA_per_rtHz", .currentNoiseDensity, 1000000000, 1, 0, 1⟩,
    ⟨"_TA_per_rtHz", .currentNoiseDensity, 1000000000000, 1, 0, 1⟩,
    ⟨"_PA_per_rtHz", .currentNoiseDensity, 1000000000000000, 1, 0, 1⟩,
    ⟨"_EA_per_rtHz", .currentNoiseDensity, 1000000000000000000, 1, 0, 1⟩,
    ⟨"_aV_per_rtHz", .voltageNoiseDensity, 1, 1000000000000000000, 0, 1⟩,
    ⟨"_fV_per_rtHz", .voltageNoiseDensity, 1, 1000000000000000, 0, 1⟩,
    ⟨"_pV_per_rtHz", .voltageNoiseDensity, 1, 1000000000000, 0, 1⟩,
    ⟨"_nV_per_rtHz", .voltageNoiseDensity, 1, 1000000000, 0, 1⟩,
    ⟨"_uV_per_rtHz", .voltageNoiseDensity, 1, 1000000, 0, 1⟩,
    ⟨"_mV_per_rtHz", .voltageNoiseDensity, 1, 1000, 0, 1⟩,
    ⟨"_V_per_rtHz", .voltageNoiseDensity, 1, 1, 0, 1⟩,
    ⟨"_kV_per_rtHz", .voltageNoiseDensity, 1000, 1, 0, 1⟩,
    ⟨"_MV_per_rtHz", .voltageNoiseDensity, 1000000, 1, 0, 1⟩,
    ⟨"_GV_per_rtHz", .voltageNoiseDensity, 1000000000, 1, 0, 1⟩,
    ⟨"_TV_per_rtHz", .voltageNoiseDensity, 1000000000000, 1, 0, 1⟩,
    ⟨"_PV_per_rtHz", .voltageNoiseDensity, 1000000000000000, 1, 0, 1⟩,
    ⟨"_EV_per_rtHz", .voltageNoiseDensity, 1000000000000000000, 1, 0, 1⟩,
    ⟨"_alm", .luminousFlux, 1, 1000000000000000000, 0, 1⟩,
    ⟨"_flm", .luminousFlux, 1, 1000000000000, 0, 1⟩,
    ⟨"_nlm", .luminousFlux, 1, 1000000000, 0, 1⟩,
    ⟨"_ulm", .luminousFlux, 1, 1000000, 0, 1⟩,
    ⟨"_mlm", .luminousFlux, 1, 1000, 0, 1⟩]

/-- The literal operators (scicpp/core/units/photometry.hpp:63-69, 81-92). -/
def unitLiterals11 : List UnitDef :=
  [⟨"_lm", .luminousFlux, 1, 1, 0, 1⟩,
    ⟨"_klm", .luminousFlux, 1000, 1, 0, 1⟩,
    ⟨"_Mlm", .luminousFlux, 1000000, 1, 0, 1⟩,
    ⟨"_Glm", .luminousFlux, 1000000000, 1, 0, 1⟩,
    ⟨"_Tlm", .luminousFlux, 1000000000000, 1, 0, 1⟩,
    ⟨"_Plm", .luminousFlux, 1000000000000000, 1, 0, 1⟩,
    ⟨"_Elm", .luminousFlux, 1000000000000000000, 1, 0, 1⟩,
    ⟨"_alx", .illuminance, 1, 1000000000000000000, 0, 1⟩,
    ⟨"_flx", .illuminance, 1, 1000000000000, 0, 1⟩,
    ⟨"_nlx", .illuminance, 1, 1000000000, 0, 1⟩,
    ⟨"_ulx", .illuminance, 1, 1000000, 0, 1⟩,
    ⟨"_mlx", .illuminance, 1, 1000, 0, 1⟩,
    ⟨"_lx", .illuminance, 1, 1, 0, 1⟩,
    ⟨"_klx", .illuminance, 1000, 1, 0, 1⟩,
    ⟨"_Mlx", .illuminance, 1000000, 1, 0, 1⟩,
    ⟨"_Glx", .illuminance, 1000000000, 1, 0, 1⟩,
    ⟨"_Tlx", .illuminance, 1000000000000, 1, 0, 1⟩,
    ⟨"_Plx", .illuminance, 1000000000000000, 1, 0, 1⟩,
    ⟨"_Elx", .illuminance, 1000000000000000000, 1, 0, 1⟩]

/-- The literal operators, all of them (scicpp/core/units/units.hpp:237-1080 and the four headers it includes). -/
def unitLiterals : List UnitDef :=
  unitLiterals0 ++ unitLiterals1 ++ unitLiterals2 ++ unitLiterals3 ++ unitLiterals4 ++ unitLiterals5 ++ unitLiterals6 ++ unitLiterals7 ++ unitLiterals8 ++ unitLiterals9 ++ unitLiterals10 ++ unitLiterals11

end SciCpp
