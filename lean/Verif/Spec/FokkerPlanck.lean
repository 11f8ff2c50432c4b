import Verif.Model.FokkerPlanck

/-! Specification vocabulary for C31-C35: finite volume steps with closed ends. -/
namespace Verif.FP
open Finset

/-- Flux through edge `e` with drift `C`, diffusion `D` and weight `θ` on the left cell:
`F = C f + D ∂f/∂v`. -/
noncomputable def flux (C D θ : ℕ → ℝ) (dv : ℝ) (f : ℕ → ℝ) (e : ℕ) : ℝ :=
  C e * (θ e * f e + (1 - θ e) * f (e + 1)) + D e * (f (e + 1) - f e) / dv

/-- `F_right - F_left` at cell `i`; no flux through the two ends of the grid. -/
def netFlux (n : ℕ) (F : ℕ → ℝ) (i : ℕ) : ℝ := (if i + 1 < n then F i else 0) - (if 0 < i then F (i - 1) else 0)

/-- `f'` is an implicit (backward Euler) step of `∂f/∂t = nu ∂F/∂v` from `f`. -/
def ImplicitStep (n : ℕ) (nu : ℕ → ℝ) (dt dv : ℝ) (F : (ℕ → ℝ) → ℕ → ℝ) (f f' : ℕ → ℝ) : Prop :=
  ∀ i < n, f' i = f i + dt * nu i * (netFlux n (F f') i / dv)

end Verif.FP
