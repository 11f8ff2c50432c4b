import Mathlib.Analysis.SpecialFunctions.Gaussian.GaussianIntegral
import Mathlib.MeasureTheory.Integral.IntervalIntegral.Basic

/-!
Specification for the mixed Hermite-Legendre solver, independent of it: moments of a distribution function,
and what a Maxwellian is.
-/
namespace Verif.HermiteLegendre
open MeasureTheory

/-- Density, momentum and kinetic energy of a distribution function of the velocity. -/
noncomputable def densityInt (f : ℝ → ℝ) : ℝ := ∫ v, f v
noncomputable def momentumInt (f : ℝ → ℝ) : ℝ := ∫ v, v * f v
noncomputable def energyInt (f : ℝ → ℝ) : ℝ := 1 / 2 * ∫ v, v ^ 2 * f v

/-- The Maxwellian of density `n`, mean velocity `U` and temperature `T` (unit mass). -/
noncomputable def maxwellian (n U T v : ℝ) : ℝ := n / Real.sqrt (2 * Real.pi * T) * Real.exp (-(v - U) ^ 2 / (2 * T))

end Verif.HermiteLegendre
