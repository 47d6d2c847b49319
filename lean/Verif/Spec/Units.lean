import Verif.Model.Arith
import Mathlib.Analysis.SpecialFunctions.Pow.Real
/-
  Specification vocabulary for units: the real number denoted by a scale.
-/
namespace SciCpp

/-- Specification: the real number denoted by `root_ratio<ratio<num, den>, root>`. -/
noncomputable def RootRatio.val (r : RootRatio) : ℝ := ((r.num : ℝ) / r.den) ^ ((1 : ℝ) / r.root)

end SciCpp
