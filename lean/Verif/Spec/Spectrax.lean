import Verif.Spec.Hermite

/-!
Specification of a three-dimensional velocity distribution, independent of the solver: at one position (or one
wave vector) it is the map from products `p(vx) q(vy) r(vz)` of polynomials to `∫ p q r f d³v`, linear in each factor.
-/
namespace Verif.Spectrax
open Polynomial

abbrev Dist := ℝ[X] →ₗ[ℝ] ℝ[X] →ₗ[ℝ] ℝ[X] →ₗ[ℝ] ℂ

/-- The distribution whose normalised Hermite coefficients, in the velocities `(v - u)/alpha` of each direction, are the
array `C[p, m, n]`; all higher ones vanish. -/
def Represents {np nm nn : ℕ} (alpha u : Fin 3 → ℝ) (M : Dist) (C : Fin np → Fin nm → Fin nn → ℂ) : Prop :=
  (∀ (p : Fin np) (m : Fin nm) (n : Fin nn),
    M (Hermite.basis (alpha 0) (u 0) n) (Hermite.basis (alpha 1) (u 1) m) (Hermite.basis (alpha 2) (u 2) p) =
      ((alpha 0 * alpha 1 * alpha 2 : ℝ) : ℂ) * C p m n) ∧
  ∀ p m n : ℕ, ¬ (p < np ∧ m < nm ∧ n < nn) →
    M (Hermite.basis (alpha 0) (u 0) n) (Hermite.basis (alpha 1) (u 1) m) (Hermite.basis (alpha 2) (u 2) p) = 0

/-- `∫ (E + v × B) · ∇_v (p q r) f d³v`: the rate of the moment with `p q r` under the force `E + v × B`. -/
noncomputable def forceRate (M : Dist) (E B : Fin 3 → ℂ) (p q r : ℝ[X]) : ℂ :=
  (E 0 * M (derivative p) q r + (B 2 * M (derivative p) (X * q) r - B 1 * M (derivative p) q (X * r))) +
  (E 1 * M p (derivative q) r + (B 0 * M p (derivative q) (X * r) - B 2 * M (X * p) (derivative q) r)) +
  (E 2 * M p q (derivative r) + (B 1 * M (X * p) q (derivative r) - B 0 * M p (X * q) (derivative r)))

/-- `-i k · ∫ v p q r f d³v`: the rate of the moment of the Fourier mode `k` under `-v · ∇f`. -/
noncomputable def streamRate (M : Dist) (k : Fin 3 → ℝ) (p q r : ℝ[X]) : ℂ :=
  -Complex.I * ((k 0 : ℂ) * M (X * p) q r + (k 1 : ℂ) * M p (X * q) r + (k 2 : ℂ) * M p q (X * r))

/-- Number, flow and second moments. -/
noncomputable def number (M : Dist) : ℂ := M 1 1 1
noncomputable def flow (M : Dist) : Fin 3 → ℂ := ![M X 1 1, M 1 X 1, M 1 1 X]
noncomputable def square (M : Dist) : Fin 3 → ℂ := ![M (X ^ 2) 1 1, M 1 (X ^ 2) 1, M 1 1 (X ^ 2)]

end Verif.Spectrax
