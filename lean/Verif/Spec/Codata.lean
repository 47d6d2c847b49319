import Verif.Model.Constants
import Verif.Spec.SIUnits
/-
  Specification: the 2018 CODATA recommended values (dimension, value in SI units), written from the
  NIST tables, not from the library.
-/
namespace SciCpp.Codata

/-- Dimension of a physical constant. -/
def dim : PhysConst → SI.Dim
  | .c => { L := 1, T := -1 }                              -- m/s
  | .G => { L := 3, M := -1, T := -2 }                     -- m³/(kg s²)
  | .h | .hbar => { M := 1, L := 2, T := -1 }              -- J s
  | .e => { I := 1, T := 1 }                               -- C
  | .m_e | .m_p => { M := 1 }                              -- kg
  | .mu0 => { M := 1, L := 1, T := -2, I := -2 }           -- N/A²
  | .epsilon0 => { M := -1, L := -3, T := 4, I := 2 }      -- F/m
  | .K_J => { M := -1, L := -2, T := 2, I := 1 }           -- Hz/V
  | .R_K => { M := 1, L := 2, T := -3, I := -2 }           -- Ω
  | .Phi0 => { M := 1, L := 2, T := -2, I := -1 }          -- Wb
  | .muB | .muN => { L := 2, I := 1 }                      -- J/T
  | .Rinf => { L := -1 }                                   -- 1/m
  | .a0 => { L := 1 }                                      -- m
  | .k => { M := 1, L := 2, T := -2, Θ := -1 }             -- J/K

/-- Recommended value in SI units (CODATA 2018). -/
def value : PhysConst → ℚ
  | .c => 299792458
  | .G => 6.67430E-11
  | .h => 6.62607015E-34
  | .hbar => 1.054571817E-34
  | .e => 1.602176634E-19
  | .m_e => 9.1093837015E-31
  | .m_p => 1.67262192369E-27
  | .mu0 => 1.25663706212E-6
  | .epsilon0 => 8.8541878128E-12
  | .K_J => 483597.8484E9
  | .R_K => 25812.80745
  | .Phi0 => 2.067833848E-15
  | .muB => 9.2740100783E-24
  | .muN => 5.0507837461E-27
  | .Rinf => 10973731.568160
  | .a0 => 5.29177210903E-11
  | .k => 1.380649E-23

/-- The constants whose value is a literal in CODATA (exact or measured directly). -/
def primary : List PhysConst := [.c, .G, .h, .e, .m_e, .m_p, .k]

end SciCpp.Codata
