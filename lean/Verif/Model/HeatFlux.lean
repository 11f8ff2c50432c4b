import Verif.Model.FokkerPlanck
import Verif.Model.PicLoad
import Mathlib.Analysis.SpecialFunctions.Exp

/-!
Model of the reduced heat-flux diagnostics of VFP-1D: Spitzer-Härm and multigroup SNB
(adept/vfp1d/heat_flux.py:34-205) and the transport coefficient behind them
(adept/vfp1d/storage.py:13-85).

Arrays are functions of the index: cells `i < nx`, edges `e ≤ nx`.  Exact real arithmetic.
`scipy.linalg.solve_banded` is external: any solution of the system it is given.
-/
namespace Verif.HeatFlux
open Finset

/-- The columns `Z`, `g0p`, `c0p` of the table in `calc_EH` (storage.py:22, 26, 28). -/
noncomputable def tableZ : List ℝ := [1, 2, 3, 4, 5, 6, 7, 8, 10, 12, 14, 20, 30, 60, 1000001]
noncomputable def tableG : List ℝ := [6.18, 9.3, 10.2, 9.14, 8.6, 8.57, 8.84, 7.93, 7.44, 7.32, 7.08, 6.79, 6.74, 6.36, 6.21]
noncomputable def tableC : List ℝ :=
  [1.93, 1.89, 1.66, 1.31, 1.12, 1.04, 1.02, 0.875, 0.77, 0.722, 0.674, 0.605, 0.566, 0.502, 0.457]

/-- `calc_EH` (storage.py:13-85); the magnetisation argument is not used by the code. -/
noncomputable def calcEH (Z : ℝ) : ℝ :=
  PicLoad.interp Z (tableZ.zip tableG) / PicLoad.interp Z (tableZ.zip tableC)

/-- What `snb_heat_flux` is given (heat_flux.py:97-107, 142-148): the profiles and the numbers it
takes from the configuration. -/
structure Plasma where
  nx : ℕ
  x : ℕ → ℝ
  dx : ℝ
  spherical : Bool
  n : ℕ → ℝ
  T : ℕ → ℝ
  Z : ℕ → ℝ
  ni : ℕ → ℝ
  nRef : ℝ
  TRef : ℝ
  ZRef : ℝ
  nueiRef : ℝ
  nuee : ℝ
  logRatio : ℝ
  ngroups : ℕ
  betaMax : ℝ
  r : ℝ

variable (p : Plasma)

/-- `_interp_c2e` (heat_flux.py:46-48). -/
noncomputable def Plasma.c2e (f : ℕ → ℝ) (e : ℕ) : ℝ :=
  if e = 0 then f 0 else if e < p.nx then 0.5 * (f e + f (e - 1)) else f (p.nx - 1)

/-- `_ddx_c2e` (heat_flux.py:51-53). -/
noncomputable def Plasma.ddx (f : ℕ → ℝ) (e : ℕ) : ℝ :=
  if e = 0 then 0 else if e < p.nx then (f e - f (e - 1)) / p.dx else 0

/-- `x_edge`, `area`, `vol` (heat_flux.py:34-43). -/
noncomputable def Plasma.xEdge (e : ℕ) : ℝ :=
  if e = 0 then p.x 0 - p.dx / 2 else if e < p.nx then 0.5 * (p.x e + p.x (e - 1)) else p.x (p.nx - 1) + p.dx / 2
noncomputable def Plasma.area (e : ℕ) : ℝ := if p.spherical then p.xEdge e ^ 2 else 1
noncomputable def Plasma.vol (i : ℕ) : ℝ :=
  if p.spherical then (p.xEdge (i + 1) ^ 3 - p.xEdge i ^ 3) / 3 else p.dx

/-- `local_transport_coefficients` (heat_flux.py:56-77). -/
noncomputable def Plasma.nuEi (i : ℕ) : ℝ :=
  p.nueiRef * (p.Z i / p.ZRef) * (p.n i / p.nRef) * (p.T i / p.TRef) ^ (-1.5 : ℝ)

/-- `spitzer_harm_heat_flux` (heat_flux.py:80-91). -/
noncomputable def Plasma.qSH (e : ℕ) : ℝ :=
  -p.c2e (fun i => calcEH (p.Z i) * p.n i * p.T i / p.nuEi i) e * p.ddx p.T e

/-- `np.max(T)` (heat_flux.py:158). -/
noncomputable def Plasma.TMax : ℝ := (List.range p.nx).foldl (fun a i => max a (p.T i)) (p.T 0)

/-- `eps_edges`, `eps_c` (heat_flux.py:158-159). -/
noncomputable def Plasma.epsEdge (g : ℕ) : ℝ := g * (p.betaMax * p.TMax / p.ngroups)
noncomputable def Plasma.epsC (g : ℕ) : ℝ := 0.5 * (p.epsEdge (g + 1) + p.epsEdge g)

/-- `_cdf` (heat_flux.py:161-163). -/
noncomputable def cdf (b : ℝ) : ℝ := 1 - Real.exp (-b) * (1 + b + b ^ 2 / 2 + b ^ 3 / 6 + b ^ 4 / 24)

/-- `lam_ee_c`, `lam_ei_e`, `D_e` of one group (heat_flux.py:165, 167, 173-176). -/
noncomputable def Plasma.lamEe (g i : ℕ) : ℝ := (2 * p.epsC g) ^ 2 / (p.nuee * p.n i)
noncomputable def Plasma.lamEi (g e : ℕ) : ℝ :=
  (2 * p.epsC g) ^ 2 / (p.nuee * p.logRatio * p.c2e (fun i => p.Z i ^ 2 * p.ni i) e)
noncomputable def Plasma.D (g e : ℕ) : ℝ := p.c2e (fun i => (p.Z i + 0.24) / (p.Z i + 4.2)) e * p.lamEi g e / 3

/-- `w_e`, `q_g`, `src` (heat_flux.py:166, 181-185). -/
noncomputable def Plasma.weight (g e : ℕ) : ℝ :=
  cdf (p.epsEdge (g + 1) / p.c2e p.T e) - cdf (p.epsEdge g / p.c2e p.T e)
noncomputable def Plasma.src (g i : ℕ) : ℝ :=
  -(p.area (i + 1) * (p.weight g (i + 1) * p.qSH (i + 1)) - p.area i * (p.weight g i * p.qSH i)) / p.vol i

/-- The face conductances and the banded matrix (heat_flux.py:188-198).  Face `i` of `w` is edge
`i + 1`, between the cells `i` and `i + 1`. -/
noncomputable def Plasma.w (g i : ℕ) : ℝ := p.area (i + 1) * p.D g (i + 1) / p.dx
noncomputable def Plasma.matrix (g : ℕ) : FP.Tri where
  diag i := p.r / p.lamEe g i + (if i + 1 < p.nx then p.w g i / p.vol i else 0)
    + (if 0 < i then p.w g (i - 1) / p.vol i else 0)
  upper i := -p.w g i / p.vol i
  lower i := -p.w g i / p.vol (i + 1)

/-- `H_g = solve_banded(...)` for every group (heat_flux.py:199-200). -/
def Plasma.Solved (H : ℕ → ℕ → ℝ) : Prop :=
  ∀ g < p.ngroups, ∀ i < p.nx, (p.matrix g).mv p.nx (H g) i = p.src g i

/-- `q_snb` (heat_flux.py:169, 202-205). -/
noncomputable def Plasma.qSNB (H : ℕ → ℕ → ℝ) (e : ℕ) : ℝ :=
  p.qSH e - ∑ g ∈ range p.ngroups, p.D g e * p.ddx (H g) e

end Verif.HeatFlux
