import Verif.Model.Py
import Mathlib.Analysis.SpecialFunctions.Log.Basic
import Mathlib.Analysis.SpecialFunctions.Pow.Real
import Mathlib.Algebra.BigOperators.Group.Finset.Basic

/-!
Model of the drift-diffusion operators (adept/driftdiffusion.py) and of the Vlasov-1D
collision operators (adept/_vlasov1d/solvers/pushers/fokker_planck.py).

Arrays are functions of the index; with `n` velocity cells only the cells `i < n` and
the edges `e + 1 < n` (between cells `e` and `e + 1`) are meaningful.  A scalar
coefficient is a constant function (numpy broadcasting).  Exact real arithmetic.
`jax.lax.linalg.tridiagonal_solve` is external: any solution of the linear system it is
given.  The Newton iteration for `beta` is external: `beta` is a parameter.
-/
namespace Verif.FP
open Finset

/-- `lx.TridiagonalLinearOperator`. -/
structure Tri where
  diag : ℕ → ℝ
  upper : ℕ → ℝ
  lower : ℕ → ℝ

/-- `op.mv(f)`. -/
def Tri.mv (n : ℕ) (op : Tri) (f : ℕ → ℝ) (i : ℕ) : ℝ :=
  op.diag i * f i + (if i + 1 < n then op.upper i * f (i + 1) else 0) + (if 0 < i then op.lower (i - 1) * f (i - 1) else 0)

/-- `jnp.zeros(nv).at[:-1].add(p).at[1:].add(q)` for edge arrays `p`, `q`
(driftdiffusion.py:586-588, 644-646, 718-720). -/
def addEdges (n : ℕ) (p q : ℕ → ℝ) (i : ℕ) : ℝ := (if i + 1 < n then p i else 0) + (if 0 < i then q (i - 1) else 0)

/-- `chang_cooper_delta` (driftdiffusion.py:77-104). -/
noncomputable def ccDelta (w : ℝ) : ℝ :=
  if |w| < 1 / 10 ^ 8 then 1 / 2 - w / 12 + w ^ 3 / 720 else 1 / w - 1 / (Real.exp w - 1)

/-- Rows of the operator from the bare ones (driftdiffusion.py:592-594, 650-652, 724-726). -/
noncomputable def assemble (nu : ℕ → ℝ) (dt : ℝ) (bareDiag bareUpper bareLower : ℕ → ℝ) : Tri where
  diag i := 1 - dt * nu i * bareDiag i
  upper i := -dt * nu i * bareUpper i
  lower i := -dt * nu (i + 1) * bareLower i

/-- `CentralDifferencing.get_operator` (driftdiffusion.py:563-600). -/
noncomputable def central (n : ℕ) (dv : ℝ) (C D nu : ℕ → ℝ) (dt : ℝ) : Tri :=
  assemble nu dt
    (addEdges n (fun e => (C e / 2 - D e / dv) / dv) (fun e => -(C e / 2 + D e / dv) / dv))
    (fun e => (C e / 2 + D e / dv) / dv)
    (fun e => (-C e / 2 + D e / dv) / dv)

/-- `safe_D` (driftdiffusion.py:637, 714). -/
noncomputable def safeD (D : ℕ → ℝ) (e : ℕ) : ℝ := max (D e) (1 / 10 ^ 30)

/-- The common part of the two weighted schemes (driftdiffusion.py:641-658, 715-732). -/
noncomputable def weighted (n : ℕ) (dv : ℝ) (C D nu : ℕ → ℝ) (dt : ℝ) (delta : ℕ → ℝ) : Tri :=
  let alpha := fun e => -C e * delta e + safeD D e / dv
  let beta := fun e => -C e * (1 - delta e) - safeD D e / dv
  assemble nu dt (addEdges n (fun e => -alpha e / dv) (fun e => beta e / dv))
    (fun e => -beta e / dv) (fun e => alpha e / dv)

/-- `ChangCooper.get_operator` (driftdiffusion.py:614-658). -/
noncomputable def changCooper (n : ℕ) (dv : ℝ) (C D nu : ℕ → ℝ) (dt : ℝ) : Tri :=
  weighted n dv C D nu dt fun e => ccDelta (C e * dv / safeD D e)

/-- `LogMeanFlux.get_operator` (driftdiffusion.py:681-732). -/
noncomputable def logMean (n : ℕ) (dv : ℝ) (C D nu : ℕ → ℝ) (dt : ℝ) (f : ℕ → ℝ) : Tri :=
  weighted n dv C D nu dt fun e =>
    ccDelta (-Real.log (max (f (e + 1)) (1 / 10 ^ 200) / max (f e) (1 / 10 ^ 200)))

/-- `_solve_one_x` (fokker_planck.py:368-376) as a relation: `f'` is `f` plus a solution
of the tridiagonal system for the increment. -/
def SolveOneX (n : ℕ) (op : Tri) (f f' : ℕ → ℝ) : Prop :=
  ∃ d : ℕ → ℝ, (∀ i < n, op.mv n d i = f i - op.mv n f i) ∧ ∀ i < n, f' i = f i + d i

/-- `compute_C_and_D` of the Lenard-Bernstein and Dougherty models, edge velocities from
the cell velocities; `vbar = 0` for Lenard-Bernstein (driftdiffusion.py:359-378,
fokker_planck.py:45-58, 78-103). -/
noncomputable def betaModel (v : ℕ → ℝ) (vbar beta : ℝ) : (ℕ → ℝ) × ℝ :=
  let D := 1 / (2 * beta)
  (fun e => 2 * beta * D * ((1 / 2) * (v (e + 1) + v e) - vbar), D)

/-- `SuperGaussianDougherty.compute_C_and_D` (fokker_planck.py:227-255); `D` of
`compute_D` is a parameter. -/
noncomputable def superGaussianModel (v : ℕ → ℝ) (dv vbar beta m D : ℝ) : ℕ → ℝ := fun e =>
  let phi := fun i => beta * |v i - vbar| ^ m
  D * (phi (e + 1) - phi e) / dv

/-- The residual of `compute_beta` (fokker_planck.py:188-203). -/
noncomputable def betaResidual (n : ℕ) (v : ℕ → ℝ) (vbar m : ℝ) (f : ℕ → ℝ) (beta : ℝ) : ℝ :=
  let psi := fun i => |v i - vbar| ^ m
  ∑ e ∈ range (n - 1),
    let w := beta * (psi (e + 1) - psi e)
    let delta := ccDelta w
    let ft := delta * f e + (1 - delta) * f (e + 1)
    (1 / 2) * (v (e + 1) + v e) * (w * ft + (f (e + 1) - f e))

/-- `compute_vbar` (fokker_planck.py:78-88). -/
noncomputable def vbarOf (n : ℕ) (v f : ℕ → ℝ) : ℝ := (∑ i ∈ range n, f i * v i) / ∑ i ∈ range n, f i

/-- `discrete_temperature`, not spherical (driftdiffusion.py:106-138). -/
noncomputable def discreteT (n : ℕ) (v : ℕ → ℝ) (dv vbar : ℝ) (f : ℕ → ℝ) : ℝ :=
  (∑ i ∈ range n, f i * (v i - vbar) ^ 2 * dv) / ∑ i ∈ range n, f i * dv

/-- `find_self_consistent_beta` with `m = 2` and `max_steps = 0`, the default of the
collision operator (driftdiffusion.py:203-214, fokker_planck.py:296-299). -/
noncomputable def betaInit (n : ℕ) (v : ℕ → ℝ) (dv vbar : ℝ) (f : ℕ → ℝ) : ℝ := 1 / (2 * discreteT n v dv vbar f)

/-- The function whose root `find_self_consistent_beta` looks for, `m = 2`
(driftdiffusion.py:216-226). -/
noncomputable def selfConsistentResidual (n : ℕ) (v : ℕ → ℝ) (dv vbar : ℝ) (f : ℕ → ℝ) (beta : ℝ) : ℝ :=
  discreteT n v dv vbar (fun i => Real.exp (-beta * (v i - vbar) ^ 2)) - discreteT n v dv vbar f

/-- The explicit Maxwellian diffusion of the type `dougherty_nodrag`
(fokker_planck.py:422-426). -/
noncomputable def nodragLap (n : ℕ) (dv D : ℝ) (fmx : ℕ → ℝ) (i : ℕ) : ℝ :=
  let g := fun j => D * fmx j
  if i = n - 1 then (g (n - 2) - g (n - 1)) / dv ^ 2
  else if i = 0 then (g 1 - g 0) / dv ^ 2
  else (g (i + 1) - 2 * g i + g (i - 1)) / dv ^ 2

/-- `f_mx` (fokker_planck.py:419-421). -/
noncomputable def nodragMaxwellian (n : ℕ) (v : ℕ → ℝ) (dv vbar beta : ℝ) (f : ℕ → ℝ) (i : ℕ) : ℝ :=
  let e := fun j => Real.exp (-beta * (v j - vbar) ^ 2)
  e i * (((∑ j ∈ range n, f j) * dv) / ((∑ j ∈ range n, e j) * dv))

/-- The collision step of the type `dougherty_nodrag` (fokker_planck.py:410-428), as a
relation. -/
def NodragStep (n : ℕ) (v : ℕ → ℝ) (dv vbar beta nu dt : ℝ) (f f' : ℕ → ℝ) : Prop :=
  ∃ g, SolveOneX n (central n dv (fun _ => 0) (fun _ => (betaModel v vbar beta).2) (fun _ => nu) dt) f g ∧
    ∀ i < n, f' i = g i - dt * nu * nodragLap n dv (betaModel v vbar beta).2 (nodragMaxwellian n v dv vbar beta f) i

/-- `Krook.__init__` at one position (fokker_planck.py:449-465). -/
noncomputable def krookMaxwellian (n : ℕ) (v : ℕ → ℝ) (dv T0 mass : ℝ) (i : ℕ) : ℝ :=
  let e := fun j => Real.exp (-(v j ^ 2) / (2 * T0 / mass))
  e i / (∑ j ∈ range n, e j) / dv

/-- `Krook.__call__` at one position (fokker_planck.py:471-484). -/
noncomputable def krook (n : ℕ) (dv : ℝ) (fmx : ℕ → ℝ) (nuK : ℝ) (f : ℕ → ℝ) (dt : ℝ) (i : ℕ) : ℝ :=
  let ex := Real.exp (-(dt * nuK))
  let nProf := (∑ j ∈ range n, f j) * dv
  f i * ex + nProf * fmx i * (1 - ex)

/-- The differencing scheme and drift of each configured type. -/
inductive Kind
  | lenardBernsteinCentral | lenardBernsteinCC | doughertyCC | doughertyCentral | superGaussian | nodrag
deriving DecidableEq

/-- `__init_fp_operator__` (fokker_planck.py:303-342) on the case-folded type; `none` is
`NotImplementedError`. -/
def fpKind (t : String) : Option Kind :=
  if t = "lenard_bernstein" then some .lenardBernsteinCentral
  else if t = "chang_cooper" ∨ t = "lenard_bernstein_chang_cooper" then some .lenardBernsteinCC
  else if t = "chang_cooper_dougherty" ∨ t = "dougherty_chang_cooper" then some .doughertyCC
  else if t = "dougherty" then some .doughertyCentral
  else if t = "super_gaussian" ∨ t = "super_gaussian_chang_cooper" then some .superGaussian
  else if t = "dougherty_nodrag" then some .nodrag
  else none

/-- `_collision_species` (fokker_planck.py:258-269); `none` is `StopIteration`. -/
def collisionSpecies {α : Type} (grids : Dict String α) : Option String :=
  if "electron" ∈ dictKeys grids then some "electron" else (dictKeys grids).head?

/-- `_collide` (fokker_planck.py:389-434) for abstract operators: the switches decide
what is applied, Fokker-Planck first. -/
def collide {α : Type} (fpOn krookOn : Bool) (fp krook : α → α) (f : α) : α :=
  let f := if fpOn then fp f else f
  if krookOn then krook f else f

/-- `Collisions.__call__` on a dictionary of species (fokker_planck.py:344-366). -/
def collisions {α : Type} (ref : String) (apply : α → α) (f : Dict String α) : Dict String α :=
  f.map fun p => if p.1 = ref then (p.1, apply p.2) else p

end Verif.FP
