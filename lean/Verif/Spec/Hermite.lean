import Mathlib.RingTheory.Polynomial.Hermite.Basic
import Mathlib.Algebra.Polynomial.Taylor
import Mathlib.Analysis.SpecialFunctions.Sqrt
import Mathlib.Analysis.Complex.Basic

/-!
Specification of a Hermite representation, independent of the solver.

A distribution at one position (or one Fourier mode) is a linear functional on polynomials in the
velocity, `p ↦ ∫ p(v) f(v) dv`; it may be complex.
-/
namespace Verif.Hermite
open Polynomial

/-- The normalised Hermite polynomial `H_n / sqrt(2^n n!)` (physicists' `H_n`). -/
noncomputable def hn (n : ℕ) : ℝ[X] :=
  C (1 / Real.sqrt (n.factorial)) * ((hermite n).map (Int.castRingHom ℝ)).comp (C (Real.sqrt 2) * X)

/-- `h_n((v - u) / alpha)`. -/
noncomputable def basis (alpha u : ℝ) (n : ℕ) : ℝ[X] := (hn n).comp (C (1 / alpha) * (X - C u))

/-- Coefficients are those of the distribution: `alpha^3 C_n = ∫ h_n((v-u)/alpha) f dv`. -/
def Represents {n : ℕ} (alpha u : ℝ) (M : ℝ[X] →ₗ[ℝ] ℂ) (c : Fin n → ℂ) : Prop :=
  ∀ i : Fin n, (alpha : ℂ) ^ 3 * c i = M (basis alpha u i)

/-- The distribution with all velocities increased by `d`: `f(v - d)`. -/
noncomputable def moved (d : ℝ) (M : ℝ[X] →ₗ[ℝ] ℂ) : ℝ[X] →ₗ[ℝ] ℂ := M ∘ₗ taylor d

end Verif.Hermite
