import Verif.Model.FokkerPlanck
import Mathlib.Analysis.Calculus.Deriv.Basic
import Mathlib.Analysis.SpecialFunctions.Gamma.Basic

/-!
Model of the self-consistent inverse temperature (adept/driftdiffusion.py:106-279) and of
the super-Gaussian closure (adept/_vlasov1d/solvers/pushers/fokker_planck.py:131-255).
One spatial point at a time, as in the code.  Velocity arrays are functions of the index,
cells `i < n`.  Exact real arithmetic.  The Newton solver (optimistix) is external: the
value it returns is the Newton iterate after some number of steps, at least one and at most
`max_steps` (its tolerances decide which), with the exact derivative (automatic
differentiation); `throw=False`, so an unconverged iterate is returned without an error.
-/
namespace Verif.Beta
open Finset

/-- The velocity array: number of cells, velocities, spacings (a scalar spacing is a constant
function), `spherical` flag (driftdiffusion.py:106-125). -/
structure VGrid where
  n : ℕ
  v : ℕ → ℝ
  dv : ℕ → ℝ
  spherical : Bool

/-- `v_shifted` (driftdiffusion.py:125, 215). -/
def shifted (g : VGrid) (vbar : Option ℝ) (i : ℕ) : ℝ :=
  match vbar with
  | none => g.v i
  | some u => g.v i - u

/-- `discrete_temperature` (driftdiffusion.py:106-138). -/
noncomputable def temperature (g : VGrid) (vbar : Option ℝ) (f : ℕ → ℝ) : ℝ :=
  let vsq := fun i => shifted g vbar i ^ 2
  if g.spherical then
    (∑ i ∈ range g.n, f i * vsq i ^ 2 * g.dv i) / (3 * ∑ i ∈ range g.n, f i * vsq i * g.dv i)
  else (∑ i ∈ range g.n, f i * vsq i * g.dv i) / ∑ i ∈ range g.n, f i * g.dv i

/-- `analytic_supergaussian_temperature_ratio` (driftdiffusion.py:140-159); `gammaln` is the
logarithm of the absolute value of the Gamma function, as `Real.log` of it is. -/
noncomputable def ratio (m : ℝ) (spherical : Bool) : ℝ :=
  if spherical then Real.exp (Real.log (Real.Gamma (5 / m)) - Real.log (Real.Gamma (3 / m))) / 3
  else Real.exp (Real.log (Real.Gamma (3 / m)) - Real.log (Real.Gamma (1 / m)))

/-- `beta_init` (driftdiffusion.py:199-206). -/
noncomputable def init (m : ℝ) (spherical : Bool) (T : ℝ) : ℝ :=
  if m = 2 then 1 / (2 * T) else (T / ratio m spherical) ^ (-m / 2)

/-- `f_model` (driftdiffusion.py:214-219). -/
noncomputable def model (g : VGrid) (vbar : Option ℝ) (m beta : ℝ) (i : ℕ) : ℝ :=
  if m = 2 then Real.exp (-beta * shifted g vbar i ^ 2) else Real.exp (-beta * |shifted g vbar i| ^ m)

/-- `residual` (driftdiffusion.py:212-221). -/
noncomputable def residual (g : VGrid) (vbar : Option ℝ) (m T beta : ℝ) : ℝ :=
  temperature g vbar (model g vbar m beta) - T

/-- One Newton step for the function `r`. -/
noncomputable def newtonStep (r : ℝ → ℝ) (y : ℝ) : ℝ := y - r y / deriv r y

/-- The value returned by `optx.root_find` for the function `r` and the initial guess `y0`
(driftdiffusion.py:223-232, fokker_planck.py:205-207), a relation: see the file comment. -/
def RootFind (r : ℝ → ℝ) (y0 : ℝ) (maxSteps : ℕ) (y : ℝ) : Prop :=
  ∃ k, 1 ≤ k ∧ k ≤ maxSteps ∧ y = (newtonStep r)^[k] y0

/-- `_find_self_consistent_beta_single` (driftdiffusion.py:161-232), a relation. -/
def Find (g : VGrid) (f : ℕ → ℝ) (vbar : Option ℝ) (maxSteps : ℕ) (m : ℝ) (beta : ℝ) : Prop :=
  let T := temperature g vbar f
  if maxSteps = 0 then beta = init m g.spherical T
  else RootFind (residual g vbar m T) (init m g.spherical T) maxSteps beta

/-- `self_consistent_beta` of the deck: `(enabled, max_steps)`, each possibly absent. -/
structure ScCfg where
  enabled : Option Bool
  maxSteps : Option ℕ

/-- `_sc_max_steps` (fokker_planck.py:296-299; _vlasov1d2v fokker_planck.py:73-75). -/
def scSteps (c : Option ScCfg) : ℕ :=
  let c := c.getD ⟨none, none⟩
  if c.enabled.getD false then c.maxSteps.getD 3 else 0

/-! ### Super-Gaussian closure -/

/-- `psi` (fokker_planck.py:188-189). -/
noncomputable def psi (v : ℕ → ℝ) (vbar m : ℝ) (i : ℕ) : ℝ := |v i - vbar| ^ m

/-- `beta_init` of `compute_beta` (fokker_planck.py:191). -/
noncomputable def closure (n : ℕ) (v : ℕ → ℝ) (m : ℝ) (f : ℕ → ℝ) : ℝ :=
  (∑ i ∈ range n, f i) / (m * ∑ i ∈ range n, f i * psi v (FP.vbarOf n v f) m i)

/-- `SuperGaussianDougherty.compute_beta` (fokker_planck.py:139-209), a relation; the residual
is `FP.betaResidual`. -/
def ComputeBeta (n : ℕ) (v : ℕ → ℝ) (m : ℝ) (f : ℕ → ℝ) (maxSteps : ℕ) (beta : ℝ) : Prop :=
  if maxSteps = 0 then beta = closure n v m f
  else RootFind (FP.betaResidual n v (FP.vbarOf n v f) m f) (closure n v m f) maxSteps beta

/-- `SuperGaussianDougherty.compute_D` (fokker_planck.py:211-225). -/
noncomputable def diffusion (m beta : ℝ) : ℝ := beta ^ (-2 / m) * ratio m false

end Verif.Beta
