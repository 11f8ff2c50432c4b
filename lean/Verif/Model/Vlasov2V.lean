import Verif.Model.Integrator
import Verif.Model.FokkerPlanck
import Verif.Model.Wave
import Mathlib.MeasureTheory.Integral.IntervalIntegral.Basic
import Mathlib.Analysis.SpecialFunctions.Gaussian.GaussianIntegral

/-!
Model of the Vlasov-1D2V solver (adept/_vlasov1d2v): perpendicular grid and initial state (helpers.py), pushers
(solvers/pushers/vlasov.py), collisions (solvers/pushers/fokker_planck.py), time step (solvers/vector_field.py)
and saved scalars (storage.py).

A distribution `f[nx, nv, nvperp]` is a function of two cyclic indices and of a perpendicular index `p < np`.
`jax.lax.linalg.tridiagonal_solve` is external: any solution of its system.  `find_self_consistent_beta` is an
arbitrary function of the marginal and the mean velocity.  Exact real arithmetic.
-/
namespace Verif.Vlasov2V
open Finset Verif.Spectral Verif.FP

/-! ### Grid and initial state -/

/-- `dvperp` (helpers.py:26). -/
noncomputable def dvperp (np : ℕ) (vmax : ℝ) : ℝ := vmax / np

/-- `vperp` (helpers.py:27). -/
noncomputable def vperp (np : ℕ) (vmax : ℝ) (p : ℕ) : ℝ :=
  Grid.linspaceAt (dvperp np vmax / 2) (vmax - dvperp np vmax / 2) np p

/-- `wperp` (helpers.py:28). -/
noncomputable def wperp (np : ℕ) (vmax : ℝ) (p : ℕ) : ℝ := 2 * Real.pi * vperp np vmax p * dvperp np vmax

/-- `m_perp` (helpers.py:81-82). -/
noncomputable def mPerp (np : ℕ) (vmax T0 mass : ℝ) (p : ℕ) : ℝ :=
  let e := fun p => Real.exp (-(vperp np vmax p ^ 2) / (2 * T0 / mass))
  e p / ∑ q ∈ range np, e q * wperp np vmax q

/-- `f_species` (helpers.py:63-84) from the components: the array of the 1D initialiser, and the temperature. -/
noncomputable def initial {X V : Type} (np : ℕ) (vmax mass : ℝ) (comps : List ((X → V → ℝ) × ℝ)) (x : X) (v : V) (p : ℕ) : ℝ :=
  comps.foldl (fun acc c => acc + c.1 x v * mPerp np vmax c.2 mass p) 0

/-! ### Species and pushers -/

/-- A species of the state with its entries of `species_grids` and `species_params` (modules.py:74-96). -/
structure Sp2 (nx : ℕ) where
  name : String
  nv : ℕ
  pos : NeZero nv
  charge : ℝ
  mass : ℝ
  dv : ℝ
  v : ZMod nv → ℝ
  np : ℕ
  vperp : ℕ → ℝ
  dvperp : ℝ
  f : ZMod nx → ZMod nv → ℕ → ℝ

instance {nx : ℕ} (s : Sp2 nx) : NeZero s.nv := s.pos

/-- `wperp` of the species (helpers.py:28, modules.py:52, 88). -/
noncomputable def Sp2.w {nx : ℕ} (s : Sp2 nx) (p : ℕ) : ℝ := 2 * Real.pi * s.vperp p * s.dvperp

/-- `marginals` for one species (vector_field.py:33-35). -/
noncomputable def Sp2.marginal {nx : ℕ} (s : Sp2 nx) : Species nx where
  nv := s.nv
  pos := s.pos
  charge := s.charge
  mass := s.mass
  dv := s.dv
  v := s.v
  f x j := ∑ p ∈ range s.np, s.f x j p * s.w p

/-- `VelocityExponential2V.__call__` for one species (vlasov.py:19-34). -/
noncomputable def push2V {nx : ℕ} (e pond : ZMod nx → ℝ) (dt : ℝ) (s : Sp2 nx) : Sp2 nx :=
  { s with f := fun x j p => shift s.dv (dt * accel s.charge s.mass (e x) (pond x)) (fun i => s.f x i p) j }

/-- `SpaceExponential2V.__call__` for one species (vlasov.py:45-56). -/
noncomputable def push2X {nx : ℕ} [NeZero nx] (dx dt : ℝ) (s : Sp2 nx) : Sp2 nx :=
  { s with f := fun x j p => shift dx (s.v j * dt) (fun y => s.f y j p) x }

/-- `LeapfrogIntegrator.__call__` (vector_field.py:47-54). -/
noncomputable def leapfrog2 {nx : ℕ} [NeZero nx] (dx dt : ℝ) (field : FieldKind nx) (a : ℕ → ℝ) (dex : ℕ → ZMod nx → ℝ)
    (prev : ZMod nx → ℝ) (ss : List (Sp2 nx)) : (ZMod nx → ℝ) × List (Sp2 nx) :=
  let fv := ss.map (push2X dx dt)
  let forField := match field with
    | .hampere => ss
    | _ => fv
  let pond := ponderomotive dx a
  let e := solveField dx field (forField.map Sp2.marginal) prev dt
  (e, fv.map (push2V (fun x => e x + dex 0 x) pond dt))

/-- A field solve followed by the velocity push (vector_field.py:98-99, 103-106). -/
noncomputable def kick2 {nx : ℕ} [NeZero nx] (dx : ℝ) (field : FieldKind nx) (pond drv : ZMod nx → ℝ) (c : ℝ) (ss : List (Sp2 nx)) :
    List (Sp2 nx) :=
  let e := solveField dx field (ss.map Sp2.marginal) 0 0
  ss.map (push2V (fun x => drv x + e x) pond c)

/-- `SixthOrderHamIntegrator.__call__` (vector_field.py:93-108). -/
noncomputable def sixth2 {nx : ℕ} [NeZero nx] (dx dt : ℝ) (field : FieldKind nx) (a : ℕ → ℝ) (dex : ℕ → ZMod nx → ℝ)
    (ss : List (Sp2 nx)) : (ZMod nx → ℝ) × List (Sp2 nx) :=
  let pond := ponderomotive dx a
  let s := kick2 dx field pond (dex 0) (D1 dt * dt) ss
  let s := s.map (push2X dx (a1 * dt))
  let s := kick2 dx field pond (dex 1) (D2 dt * dt) s
  let s := s.map (push2X dx (a2 * dt))
  let s := kick2 dx field pond (dex 2) (D3 dt * dt) s
  let s := s.map (push2X dx (a3 * dt))
  let s := kick2 dx field pond (dex 3) (D3 dt * dt) s
  let s := s.map (push2X dx (a2 * dt))
  let s := kick2 dx field pond (dex 4) (D2 dt * dt) s
  let s := s.map (push2X dx (a1 * dt))
  let e := solveField dx field (s.map Sp2.marginal) 0 0
  (e, kick2 dx field pond (dex 5) (D1 dt * dt) s)

/-- The Vlasov-Poisson part of a step (vector_field.py:117-124, 133). -/
noncomputable def vlasov2 {nx : ℕ} [NeZero nx] (time : TimeKind) (dx dt : ℝ) (field : FieldKind nx) (a : ℕ → ℝ)
    (dex : ℕ → ZMod nx → ℝ) (e : ZMod nx → ℝ) (ss : List (Sp2 nx)) : (ZMod nx → ℝ) × List (Sp2 nx) :=
  match time with
  | .leapfrog => leapfrog2 dx dt field a dex e ss
  | .sixth => sixth2 dx dt field a dex ss

/-! ### Collisions along v_par -/

/-- The operators that act along the parallel velocity only (fokker_planck.py:43-48, 67). -/
inductive VparKind | lenardBernstein | dougherty | nodrag
deriving DecidableEq

/-- `compute_vbar` of the model (fokker_planck.py:118; driftdiffusion.py:315-325). -/
noncomputable def vbarFor (kind : VparKind) (n : ℕ) (v F : ℕ → ℝ) : ℝ :=
  match kind with
  | .lenardBernstein => 0
  | _ => vbarOf n v F

/-- `_apply` of the 2V operator at one position (fokker_planck.py:117-152, 83-99), as a relation between `f[i, p]`
and the result. -/
def Vpar2 (kind : VparKind) (n : ℕ) (v : ℕ → ℝ) (dv : ℝ) (np : ℕ) (w : ℕ → ℝ) (beta : (ℕ → ℝ) → ℝ → ℝ) (nu dt : ℝ)
    (f f' : ℕ → ℕ → ℝ) : Prop :=
  let F := fun i => ∑ p ∈ range np, f i p * w p
  let vbar := vbarFor kind n v F
  let b := beta F vbar
  let C := (betaModel v vbar b).1
  let D := (betaModel v vbar b).2
  match kind with
  | .nodrag => ∀ p < np, ∃ g, SolveOneX n (central n dv (fun _ => 0) (fun _ => D) (fun _ => nu) dt) (fun i => f i p) g ∧
      ∀ i < n, f' i p = g i - dt * nu * nodragLap n dv D (nodragMaxwellian n v dv vbar b fun i => f i p) i
  | _ => ∀ p < np, SolveOneX n (central n dv C (fun _ => D) (fun _ => nu) dt) (fun i => f i p) fun i => f' i p

/-- The 1D operator with the same type at one position (adept/_vlasov1d/solvers/pushers/fokker_planck.py:368-434). -/
def Vpar1 (kind : VparKind) (n : ℕ) (v : ℕ → ℝ) (dv : ℝ) (beta : (ℕ → ℝ) → ℝ → ℝ) (nu dt : ℝ) (F F' : ℕ → ℝ) : Prop :=
  let vbar := vbarFor kind n v F
  let b := beta F vbar
  match kind with
  | .nodrag => NodragStep n v dv vbar b nu dt F F'
  | _ => SolveOneX n (central n dv (betaModel v vbar b).1 (fun _ => (betaModel v vbar b).2) (fun _ => nu) dt) F F'

/-! ### The cylindrical operator -/

/-- `jax.scipy.special.erf`. -/
noncomputable def erf (y : ℝ) : ℝ := 2 / Real.sqrt Real.pi * ∫ t in (0 : ℝ)..y, Real.exp (-t ^ 2)

/-- `_psi` (fokker_planck.py:225-227). -/
noncomputable def psi (x : ℝ) : ℝ := erf (Real.sqrt x) - 2 * Real.sqrt (x / Real.pi) * Real.exp (-x)

/-- `_dhat_par` (fokker_planck.py:229-239). -/
noncomputable def dhatPar (s : ℝ) : ℝ :=
  let s := max s 1e-6
  psi (s ^ 2 / 2) / s ^ 3

/-- `_dhat_perp` (fokker_planck.py:241-248). -/
noncomputable def dhatPerp (s : ℝ) : ℝ :=
  let s := max s 1e-6
  let x := s ^ 2 / 2
  let psip := Real.sqrt (2 / Real.pi) * s * Real.exp (-x)
  ((1 - 1 / s ^ 2) * psi x + psip) / (2 * s)

/-- `CylindricalLandau.__init__` (fokker_planck.py:196-222). -/
structure Cyl where
  nv : ℕ
  v : ℕ → ℝ
  dv : ℝ
  np : ℕ
  vperp : ℕ → ℝ
  dvperp : ℝ
  alphaSpeed : ℝ
  alphaLorentz : ℝ
  restore : Bool
  substeps : ℤ

namespace Cyl

/-- `v_edge`, `vperp_edge` (fokker_planck.py:219-220). -/
noncomputable def vEdge (c : Cyl) (e : ℕ) : ℝ := 0.5 * (c.v (e + 1) + c.v e)
noncomputable def vperpEdge (c : Cyl) (e : ℕ) : ℝ := 0.5 * (c.vperp (e + 1) + c.vperp e)

/-- `self.w` (fokker_planck.py:222) with `wperp` of helpers.py:28. -/
noncomputable def w (c : Cyl) (j : ℕ) : ℝ := c.dv * (2 * Real.pi * c.vperp j * c.dvperp)

/-- `n_sub` (fokker_planck.py:217). -/
def nSub (c : Cyl) : ℕ := (max c.substeps 1).toNat

/-- `_tensor` (fokker_planck.py:250-264). -/
noncomputable def tensor (c : Cyl) (wpar vperp T : ℝ) : ℝ × ℝ × ℝ :=
  let s2 := wpar ^ 2 + vperp ^ 2
  let s := Real.sqrt (s2 + 1e-30)
  let shat := s / Real.sqrt T
  let dpar := c.alphaSpeed * dhatPar shat
  let dperp := c.alphaLorentz * dhatPerp shat
  ((dpar * wpar ^ 2 + dperp * vperp ^ 2) / s2, (dpar - dperp) * wpar * vperp / s2, (dpar * vperp ^ 2 + dperp * wpar ^ 2) / s2)

/-- `einsum("xvp,vp->x", f, g * w)`. -/
noncomputable def total (c : Cyl) (f : ℕ → ℕ → ℝ) : ℝ := ∑ i ∈ range c.nv, ∑ j ∈ range c.np, f i j * c.w j

/-- `_moments` (fokker_planck.py:266-272). -/
noncomputable def moments (c : Cyl) (f : ℕ → ℕ → ℝ) : ℝ × ℝ × ℝ :=
  let n := c.total f
  let u := c.total (fun i j => f i j * c.v i) / n
  let T := c.total (fun i j => f i j * ((c.v i - u) ^ 2 + c.vperp j ^ 2)) / (3 * n)
  (n, u, T)

/-- `M` (fokker_planck.py:290). -/
noncomputable def maxwellian (c : Cyl) (u T : ℝ) (i j : ℕ) : ℝ := Real.exp (-((c.v i - u) ^ 2 + c.vperp j ^ 2) / (2 * T))

/-- `c_e` (fokker_planck.py:294-297). -/
noncomputable def cPar (c : Cyl) (n u T : ℝ) (e j : ℕ) : ℝ :=
  n * Real.sqrt T * (c.tensor (c.vEdge e - u) (c.vperp j) T).1 *
    Real.sqrt (c.maxwellian u T (e + 1) j * c.maxwellian u T e j) / c.dv ^ 2

/-- `diag`, `lower`, `upper` of the parallel sweep (fokker_planck.py:305-311). -/
noncomputable def triPar (c : Cyl) (nudt n u T : ℝ) (j : ℕ) : Tri where
  diag i := 1 + nudt * ((if 0 < i then c.cPar n u T (i - 1) j else 0) + (if i + 1 < c.nv then c.cPar n u T i j else 0)) / c.maxwellian u T i j
  lower e := -nudt * c.cPar n u T e j / c.maxwellian u T e j
  upper e := -nudt * c.cPar n u T e j / c.maxwellian u T (e + 1) j

/-- `vcq` (fokker_planck.py:321-325). -/
noncomputable def cPerp (c : Cyl) (n u T : ℝ) (i e : ℕ) : ℝ :=
  c.vperpEdge e * (n * Real.sqrt T) * (c.tensor (c.v i - u) (c.vperpEdge e) T).2.2 *
    Real.sqrt (c.maxwellian u T i (e + 1) * c.maxwellian u T i e) / c.dvperp ^ 2

/-- `diag_q`, `lower_q`, `upper_q` (fokker_planck.py:327-333). -/
noncomputable def triPerp (c : Cyl) (nudt n u T : ℝ) (i : ℕ) : Tri where
  diag j := 1 + nudt * ((if 0 < j then c.cPerp n u T i (j - 1) else 0) + (if j + 1 < c.np then c.cPerp n u T i j else 0)) /
    (c.vperp j * c.maxwellian u T i j)
  lower e := -nudt * c.cPerp n u T i e / (c.vperp (e + 1) * c.maxwellian u T i e)
  upper e := -nudt * c.cPerp n u T i e / (c.vperp e * c.maxwellian u T i (e + 1))

/-- `_dperp_g` (fokker_planck.py:274-277): `gpad[j + 2]` and `gpad[j]` with replicated ends. -/
noncomputable def dperpG (c : Cyl) (g : ℕ → ℕ → ℝ) (i j : ℕ) : ℝ :=
  (g i (min (j + 1) (c.np - 1)) - g i (j - 1)) / (2 * c.dvperp)

/-- `dpar_g` (fokker_planck.py:351-352). -/
noncomputable def dparG (c : Cyl) (g : ℕ → ℕ → ℝ) (i j : ℕ) : ℝ :=
  (g (min (i + 1) (c.nv - 1)) j - g (i - 1) j) / (2 * c.dv)

/-- `gam_par` (fokker_planck.py:344-345). -/
noncomputable def gamPar (c : Cyl) (n u T : ℝ) (g : ℕ → ℕ → ℝ) (e j : ℕ) : ℝ :=
  n * Real.sqrt T * (c.tensor (c.vEdge e - u) (c.vperp j) T).2.1 *
    Real.sqrt (c.maxwellian u T (e + 1) j * c.maxwellian u T e j) * (0.5 * (c.dperpG g (e + 1) j + c.dperpG g e j))

/-- `gam_perp` (fokker_planck.py:353-354). -/
noncomputable def gamPerp (c : Cyl) (n u T : ℝ) (g : ℕ → ℕ → ℝ) (i e : ℕ) : ℝ :=
  n * Real.sqrt T * (c.tensor (c.v i - u) (c.vperpEdge e) T).2.1 * (0.5 * (c.dparG g i (e + 1) + c.dparG g i e)) *
    Real.sqrt (c.maxwellian u T i (e + 1) * c.maxwellian u T i e)

/-- `explicit_step` (fokker_planck.py:339-362). -/
noncomputable def explicitStep (c : Cyl) (nudt n u T : ℝ) (f : ℕ → ℕ → ℝ) (i j : ℕ) : ℝ :=
  let g := fun i j => f i j / c.maxwellian u T i j
  let gp := c.gamPar n u T g
  let gq := c.gamPerp n u T g
  let divPar := ((if i + 1 < c.nv then gp i j else 0) - (if 0 < i then gp (i - 1) j else 0)) / c.dv
  let divPerp := ((if j + 1 < c.np then c.vperpEdge j * gq i j else 0) - (if 0 < j then c.vperpEdge (j - 1) * gq i (j - 1) else 0)) /
    (c.vperp j * c.dvperp)
  f i j + nudt / c.nSub * (divPar + divPerp)

/-- `CylindricalLandau.__call__` at one position (fokker_planck.py:279-366), as a relation. -/
def Advance (c : Cyl) (nu dt : ℝ) (f f' : ℕ → ℕ → ℝ) : Prop :=
  let n := (c.moments f).1
  let u := (c.moments f).2.1
  let T := (c.moments f).2.2
  let nudt := dt * nu
  ∃ f1 f2 : ℕ → ℕ → ℝ,
    (∀ j < c.np, ∀ i < c.nv, (c.triPar nudt n u T j).mv c.nv (fun i => f1 i j) i = f i j) ∧
    (∀ i < c.nv, ∀ j < c.np, (c.triPerp nudt n u T i).mv c.np (fun j => f2 i j) j = f1 i j) ∧
    ∀ i < c.nv, ∀ j < c.np, f' i j = (c.explicitStep nudt n u T)^[c.nSub] f2 i j

/-- `Mhat`, `phi1`, `phi2` (fokker_planck.py:379-387). -/
noncomputable def mHat (c : Cyl) (u T : ℝ) (i j : ℕ) : ℝ := c.maxwellian u T i j / c.total (c.maxwellian u T)
noncomputable def phi1 (c : Cyl) (u T : ℝ) (i j : ℕ) : ℝ :=
  let p := fun i j => (c.v i - u) * c.mHat u T i j
  p i j - c.total p * c.mHat u T i j
noncomputable def phi2 (c : Cyl) (u T : ℝ) (i j : ℕ) : ℝ :=
  let s2 := fun i j => (c.v i - u) ^ 2 + c.vperp j ^ 2
  (s2 i j - c.total fun i j => s2 i j * c.mHat u T i j) * c.mHat u T i j

/-- `apply_with_restoration` after the step that gave `g` (fokker_planck.py:368-403). -/
noncomputable def restored (c : Cyl) (f g : ℕ → ℕ → ℝ) (i j : ℕ) : ℝ :=
  if c.restore then
    let u := (c.moments f).2.1
    let T := (c.moments f).2.2
    let mv := fun h : ℕ → ℕ → ℝ => c.total fun i j => h i j * c.v i
    let me := fun h : ℕ → ℕ → ℝ => c.total fun i j => h i j * (c.v i ^ 2 + c.vperp j ^ 2)
    let df := fun i j => g i j - f i j
    let dj := mv df
    let de := me df
    let a11 := mv (c.phi1 u T)
    let a12 := mv (c.phi2 u T)
    let a21 := me (c.phi1 u T)
    let a22 := me (c.phi2 u T)
    let det := a11 * a22 - a12 * a21
    let b := (-dj * a22 + de * a12) / det
    let cc := (-de * a11 + dj * a21) / det
    g i j + b * c.phi1 u T i j + cc * c.phi2 u T i j
  else g i j

/-- `apply_with_restoration` (fokker_planck.py:368-403), as a relation. -/
def Apply (c : Cyl) (nu dt : ℝ) (f f' : ℕ → ℕ → ℝ) : Prop :=
  ∃ g, c.Advance nu dt f g ∧ ∀ i < c.nv, ∀ j < c.np, f' i j = c.restored f g i j

end Cyl

/-! ### The complete step -/

/-- `terms.fokker_planck`: off, one of the operators along `v_par`, or `cylindrical_landau` with its options
(fokker_planck.py:43-64, 109-115). -/
inductive Coll
  | off
  | vpar (kind : VparKind)
  | cyl (alphaSpeed alphaLorentz : ℝ) (restore : Bool) (substeps : ℤ)

/-- The operator built on the grids of a species (fokker_planck.py:38-62). -/
noncomputable def Sp2.cyl {nx : ℕ} (s : Sp2 nx) (alphaSpeed alphaLorentz : ℝ) (restore : Bool) (substeps : ℤ) : Cyl where
  nv := s.nv
  v i := s.v i
  dv := s.dv
  np := s.np
  vperp := s.vperp
  dvperp := s.dvperp
  alphaSpeed := alphaSpeed
  alphaLorentz := alphaLorentz
  restore := restore
  substeps := substeps

/-- The configuration of a run. -/
structure Cfg (nx : ℕ) where
  time : TimeKind
  dx : ℝ
  dt : ℝ
  field : FieldKind nx
  wave : Wave.Solver
  fp : Coll
  beta : (ℕ → ℝ) → ℝ → ℝ

/-- What the drivers and profiles give for one step (vector_field.py:206-210). -/
structure Drive (nx : ℕ) where
  dex : ℕ → ZMod nx → ℝ
  djy : ℕ → ℝ
  nu : ZMod nx → ℝ

/-- The state (modules.py:121-138), the accumulators apart. -/
structure St2 (nx : ℕ) where
  e : ZMod nx → ℝ
  a : ℕ → ℝ
  prev : ℕ → ℝ
  de : ZMod nx → ℝ
  sp : List (Sp2 nx)

/-- The state of the 1D solver, species by name. -/
structure St1 (nx : ℕ) where
  e : ZMod nx → ℝ
  a : ℕ → ℝ
  prev : ℕ → ℝ
  de : ZMod nx → ℝ
  sp : List (String × Species nx)

/-- `dex_save` (vector_field.py:119, 122). -/
def dexSave : TimeKind → ℕ
  | .leapfrog => 0
  | .sixth => 3

/-- `Collisions.__call__` on one species (fokker_planck.py:101-115). -/
def Collide2 {nx : ℕ} (c : Cfg nx) (nu : ZMod nx → ℝ) (s s' : Sp2 nx) : Prop :=
  if s.name = "electron" then
    match c.fp with
    | .off => s' = s
    | .vpar kind => ∃ f', s' = { s with f := f' } ∧
        ∀ x, Vpar2 kind s.nv (fun i => s.v i) s.dv s.np s.w c.beta (nu x) c.dt (fun i p => s.f x i p) fun i p => f' x i p
    | .cyl as al r n => ∃ f', s' = { s with f := f' } ∧
        ∀ x, (s.cyl as al r n).Apply (nu x) c.dt (fun i p => s.f x i p) fun i p => f' x i p
  else s' = s

/-- `Collisions.__call__` of the 1D solver on one species, a species called `electron` being there; the
cylindrical type does not exist there (adept/_vlasov1d/solvers/pushers/fokker_planck.py:344-366). -/
def Collide1 {nx : ℕ} (c : Cfg nx) (nu : ZMod nx → ℝ) (s s' : String × Species nx) : Prop :=
  if s.1 = "electron" then
    match c.fp with
    | .off => s' = s
    | .vpar kind => ∃ f', s' = (s.1, { s.2 with f := f' }) ∧
        ∀ x, Vpar1 kind s.2.nv (fun i => s.2.v i) s.2.dv c.beta (nu x) c.dt (fun i => s.2.f x i) fun i => f' x i
    | .cyl .. => False
  else s' = s

/-- `compute_electron_charge_density` (vector_field.py:194-202). -/
noncomputable def electronCharge2 {nx : ℕ} (ss : List (Sp2 nx)) (x : ZMod nx) : ℝ :=
  match ss.find? fun s => s.name == "electron" with
  | some s => s.charge * s.marginal.density x
  | none => 0

/-- The same in 1D (adept/_vlasov1d/solvers/vector_field.py:297-307). -/
noncomputable def electronCharge1 {nx : ℕ} (ss : List (String × Species nx)) (x : ZMod nx) : ℝ :=
  match ss.find? fun s => s.1 == "electron" with
  | some s => s.2.charge * s.2.density x
  | none => 0

/-- `VlasovMaxwell2V.__call__` (vector_field.py:204-234), as a relation. -/
def Step2 {nx : ℕ} [NeZero nx] (c : Cfg nx) (d : Drive nx) (y y' : St2 nx) : Prop :=
  let r := vlasov2 c.time c.dx c.dt c.field y.a d.dex y.e y.sp
  y'.e = r.1 ∧ List.Forall₂ (Collide2 c d.nu) r.2 y'.sp ∧ y'.de = d.dex (dexSave c.time) ∧
    (y'.a, y'.prev) = c.wave.step nx y.a y.prev d.djy fun i => -0.5 * (electronCharge2 y.sp i + electronCharge2 y'.sp i)

/-- `VlasovMaxwell.__call__` of the 1D solver without filter, Krook term and stochastic driver
(adept/_vlasov1d/solvers/vector_field.py:309-365). -/
def Step1 {nx : ℕ} [NeZero nx] (c : Cfg nx) (d : Drive nx) (y y' : St1 nx) : Prop :=
  let r := vlasovStep c.time c.dx c.dt c.field y.a d.dex (y.e, y.sp.map Prod.snd)
  y'.e = r.1 ∧ List.Forall₂ (Collide1 c d.nu) ((y.sp.map Prod.fst).zip r.2) y'.sp ∧ y'.de = d.dex (dexSave c.time) ∧
    (y'.a, y'.prev) = c.wave.step nx y.a y.prev d.djy fun i => -0.5 * (electronCharge1 y.sp i + electronCharge1 y'.sp i)

/-- Consecutive steps. -/
inductive Run {S D : Type} (step : D → S → S → Prop) : S → List D → S → Prop
  | nil (y : S) : Run step y [] y
  | cons {y y' y'' : S} {d : D} {ds : List D} : step d y y' → Run step y' ds y'' → Run step y (d :: ds) y''

/-- The marginals of a state. -/
noncomputable def St2.marginal {nx : ℕ} (y : St2 nx) : St1 nx :=
  ⟨y.e, y.a, y.prev, y.de, y.sp.map fun s => (s.name, s.marginal)⟩

/-! ### Cumulative diagnostics -/

/-- `marg({ref_species: …})` (vector_field.py:152, 33-35), entry `[x, i]`: the marginal of the species called `electron`
if there is one, of the first species otherwise. -/
noncomputable def refMarginal {nx : ℕ} (ss : List (Sp2 nx)) (x : ZMod nx) (i : ℕ) : ℝ :=
  match (ss.find? fun s => s.name == "electron").or ss.head? with
  | some s => s.marginal.f x i
  | none => 0

/-- The state with `diag-vlasov-cumulative` and `diag-fp-cumulative`, both switched on. -/
structure StD (nx : ℕ) where
  y : St2 nx
  vlasov : ZMod nx → ℕ → ℝ
  fp : ZMod nx → ℕ → ℝ

/-- The step with the increments (vector_field.py:152-166, 236-237). -/
def StepD {nx : ℕ} [NeZero nx] (c : Cfg nx) (d : Drive nx) (s s' : StD nx) : Prop :=
  let fv := (vlasov2 c.time c.dx c.dt c.field s.y.a d.dex s.y.e s.y.sp).2
  Step2 c d s.y s'.y ∧ (s'.vlasov = fun x i => s.vlasov x i + (refMarginal fv x i - refMarginal s.y.sp x i)) ∧
    s'.fp = fun x i => s.fp x i + (refMarginal s'.y.sp x i - refMarginal fv x i)

/-- The accumulators start at zero (modules.py:136-138). -/
def StD.start {nx : ℕ} (y : St2 nx) : StD nx := ⟨y, fun _ _ => 0, fun _ _ => 0⟩

/-! ### Options -/

/-- What the construction of the solver does with the options (vector_field.py:28-29, 117-125; fokker_planck.py:38-70). -/
inductive Built
  | keyError
  | notImplemented
  | built
deriving DecidableEq

/-- `TimeIntegrator.__init__`, `VlasovPoissonFokkerPlanck.__init__` and `Collisions.__init__`, the field solver apart. -/
def build (species : List String) (edfdv time fpType : String) (krookOn : Bool) : Built :=
  if time ≠ "sixth" ∧ time ≠ "leapfrog" then .notImplemented
  else if edfdv ≠ "exponential" then .notImplemented
  else if "electron" ∉ species then .keyError
  else if fpType ∉ ["dougherty", "dougherty_nodrag", "lenard_bernstein", "cylindrical_landau"] then .notImplemented
  else if krookOn then .notImplemented
  else .built

/-- The options of the shared deck that add to the external field and filter the result
(adept/_vlasov1d/datamodel.py:197, 276). -/
structure Extras (nx : ℕ) where
  stochastic : Option (ℝ → ZMod nx → ℝ)
  houLi : Option (ℝ × ℕ)

/-- The external field of the 1D solver (adept/_vlasov1d/solvers/vector_field.py:290-295) and of the 2V solver
(vector_field.py:206), `ex` being the configured pulses. -/
def external1 {nx : ℕ} (d : Extras nx) (ex : ℝ → ZMod nx → ℝ) (t : ℝ) (x : ZMod nx) : ℝ :=
  ex t x + (match d.stochastic with
    | some s => s t x
    | none => 0)
def external2 {nx : ℕ} (_ : Extras nx) (ex : ℝ → ZMod nx → ℝ) (t : ℝ) (x : ZMod nx) : ℝ := ex t x

/-- What happens after the collisions in the 1D solver (adept/_vlasov1d/solvers/vector_field.py:220-230, 240-241) and in
the 2V solver (vector_field.py:135-166). -/
noncomputable def after1 {nx nv : ℕ} [NeZero nx] (d : Extras nx) (f : ZMod nx → ZMod nv → ℝ) : ZMod nx → ZMod nv → ℝ :=
  match d.houLi with
  | some (alpha, order) => houLiFilter alpha order f
  | none => f
def after2 {nx nv : ℕ} (_ : Extras nx) (f : ZMod nx → ZMod nv → ℝ) : ZMod nx → ZMod nv → ℝ := f

/-! ### Saved scalars -/

/-- `mean_n`, `mean_j`, `mean_P`, `mean_Pperp` (storage.py:130-138), `g` being 1, `v`, `v²` and `vperp²`. -/
noncomputable def meanMoment {nx : ℕ} [NeZero nx] (s : Sp2 nx) (g : ZMod s.nv → ℕ → ℝ) : ℝ :=
  (∑ x, ∑ j, ∑ p ∈ range s.np, s.f x j p * s.w p * g j p * s.dv) / nx

end Verif.Vlasov2V
