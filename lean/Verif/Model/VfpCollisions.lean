import Verif.Model.FokkerPlanck
import Verif.Model.Vfp

/-!
Model of the VFP-1D collision operators (adept/vfp1d/fokker_planck.py), the kernel models
(adept/driftdiffusion.py:381-510) and the Coulomb logarithm (adept/vfp1d/helpers.py:42-110).

Cells `j < nv`, edges `e + 1 < nv` between cells `e` and `e + 1`.  Exact real arithmetic; the
tridiagonal solve is any solution of its system (`FP.SolveOneX`), `beta` is a parameter.
-/
namespace Verif.Vfp
open Finset

/-! ### Isotropic collisions: models -/

/-- `v_edge`, `sqrt_eps_edge`, `d_eps_edge` (driftdiffusion.py:402-412). -/
noncomputable def Grid.vEdge (g : Grid) (e : ℕ) : ℝ := 0.5 * (g.v (e + 1) + g.v e)
noncomputable def Grid.sqrtEps (g : Grid) (e : ℕ) : ℝ := Real.sqrt (0.5 * (g.v (e + 1) ^ 2 + g.v e ^ 2))
noncomputable def Grid.dEps (g : Grid) (e : ℕ) : ℝ := (g.v (e + 1) + g.v e) * g.dv

/-- `_log_mean_interp` (driftdiffusion.py:484-506). -/
noncomputable def logMeanInterp (f : ℕ → ℝ) (e : ℕ) : ℝ :=
  let floor := 1 / 10 ^ 300
  let logDiff := Real.log (max (f (e + 1)) floor / max (f e) floor)
  if |logDiff| < 1 / 10 ^ 8 ∨ f e < floor ∨ f (e + 1) < floor then 0.5 * (f e + f (e + 1))
  else (f (e + 1) - f e) / logDiff

/-- `AsymptoticLocal.apply_kernel` (fokker_planck.py:144-159). -/
noncomputable def Grid.asymptoticKernel (g : Grid) (val : ℕ → ℝ) (e : ℕ) : ℝ :=
  g.sqrtEps e * (4 * Real.pi * ∑ j ∈ range (g.nv - 1), g.sqrtEps j * val j * g.dEps j)

/-- `CoulombianKernel.apply_kernel` (fokker_planck.py:176-211): exclusive sum from below, inclusive
sum from above. -/
noncomputable def Grid.coulombianKernel (g : Grid) (val : ℕ → ℝ) (e : ℕ) : ℝ :=
  let lower := ∑ j ∈ range e, g.sqrtEps j ^ 3 * val j * g.dEps j
  let upper := ∑ j ∈ Ico e (g.nv - 1), val j * g.dEps j
  4 * Real.pi * (lower + g.sqrtEps e ^ 3 * upper) / 3

/-- The models of `get_model`. -/
inductive Model
  | coulombian | asymptotic | fast | null
deriving DecidableEq, Repr

/-- `get_model` on the case-folded name (fokker_planck.py:230-257). -/
def Model.ofName (s : String) : Except String Model :=
  if s ∈ ["coulombian", "coulombiankernel", "coulombian_kernel", "coulombian-kernel", "landau"] then .ok .coulombian
  else if s ∈ ["asymptoticlocal", "asymptotic_local", "asymptotic-local", "sqrt"] then .ok .asymptotic
  else if s ∈ ["fastvfp", "fast_vfp", "fast-vfp"] then .ok .fast
  else if s ∈ ["null", "none", "collisionless"] then .ok .null
  else .error "ValueError"

/-- The differencing schemes. -/
inductive Scheme
  | central | changCooper | logMean
deriving DecidableEq, Repr

/-- `get_scheme` on the case-folded name (fokker_planck.py:260-281). -/
def Scheme.ofName (s : String) : Except String Scheme :=
  if s ∈ ["central", "central_differencing", "central-differencing"] then .ok .central
  else if s ∈ ["chang_cooper", "chang-cooper", "cc"] then .ok .changCooper
  else if s ∈ ["log_mean", "log-mean", "log_mean_flux", "logmean", "buet"] then .ok .logMean
  else .error "ValueError"

/-- The defaults of the vector field (vector_field.py:32-33), case-folded. -/
def modelName (o : Option String) : String := o.getD "coulombiankernel"
def schemeName (o : Option String) : String := o.getD "central"

/-- `AbstractKernelBasedModel.compute_C_and_D` (driftdiffusion.py:433-467). -/
noncomputable def Grid.kernelCD (g : Grid) (K : (ℕ → ℝ) → ℕ → ℝ) (f : ℕ → ℝ) : (ℕ → ℝ) × (ℕ → ℝ) :=
  (fun e => -K (fun j => (f (j + 1) - f j) / g.dEps j) e,
   fun e => K (logMeanInterp f) e / (2 * g.vEdge e))

/-- `compute_C_and_D` of the four models (driftdiffusion.py:433-467, fokker_planck.py:98-127,
214-227). -/
noncomputable def Grid.coeffs (g : Grid) (m : Model) (f : ℕ → ℝ) (beta : ℝ) : (ℕ → ℝ) × (ℕ → ℝ) :=
  match m with
  | .coulombian => g.kernelCD g.coulombianKernel f
  | .asymptotic => g.kernelCD g.asymptoticKernel f
  | .fast => (fun _ => 1, fun e => 1 / (2 * beta * g.vEdge e))
  | .null => (fun _ => 0, fun _ => 0)

/-- The heating drivers at one position (fokker_planck.py:354-363): Maxwellian heating rate `D0`,
quiver velocity squared with the coefficient of `ν_ei / ω0`. -/
structure Heating where
  D0 : Option ℝ
  vosc2 : Option ℝ
  ratio : ℝ

noncomputable def Grid.heat (g : Grid) (h : Heating) (D : ℕ → ℝ) (e : ℕ) : ℝ :=
  let D := match h.D0 with
    | none => D e
    | some d => D e + d * g.vEdge e ^ 2
  match h.vosc2 with
  | none => D
  | some v2 => D + v2 / (6 * g.vEdge e) / (1 + (h.ratio / g.vEdge e ^ 3) ^ 2)

/-- What `F0Collisions.__call__` passes on (fokker_planck.py:398-407): with either driver on, the
other is replaced by zero rather than skipped. -/
def Heating.passed (D0 vosc2 ratio : Option ℝ) : Heating :=
  if D0 = none ∧ vosc2 = none then ⟨none, none, 0⟩ else ⟨some (D0.getD 0), some (vosc2.getD 0), ratio.getD 0⟩

/-- The operator of `_solve_one_vslice_` (fokker_planck.py:325-371). -/
noncomputable def Grid.f0Operator (g : Grid) (m : Model) (s : Scheme) (nuee beta : ℝ) (h : Heating) (f : ℕ → ℝ) (dt : ℝ) : FP.Tri :=
  let C := (g.coeffs m f beta).1
  let D := g.heat h (g.coeffs m f beta).2
  let nu := fun j => nuee / g.v j ^ 2
  match s with
  | .central => FP.central g.nv g.dv C D nu dt
  | .changCooper => FP.changCooper g.nv g.dv C D nu dt
  | .logMean => FP.logMean g.nv g.dv C D nu dt f

/-- `F0Collisions._solve_one_vslice_` as a relation (fokker_planck.py:371-377). -/
def Grid.F0Step (g : Grid) (m : Model) (s : Scheme) (nuee beta : ℝ) (h : Heating) (dt : ℝ) (f f' : ℕ → ℝ) : Prop :=
  FP.SolveOneX g.nv (g.f0Operator m s nuee beta h f dt) f f'

/-- `discrete_temperature`, spherical (driftdiffusion.py:126-131). -/
noncomputable def Grid.temperature (g : Grid) (f : ℕ → ℝ) : ℝ :=
  (∑ j ∈ range g.nv, f j * (g.v j ^ 2) ^ 2 * g.dv) / (3 * ∑ j ∈ range g.nv, f j * g.v j ^ 2 * g.dv)

/-- `beta` without iterations, and the residual of the iterations (driftdiffusion.py:196-226). -/
noncomputable def Grid.betaInit (g : Grid) (f : ℕ → ℝ) : ℝ := 1 / (2 * g.temperature f)
noncomputable def Grid.betaResidual (g : Grid) (f : ℕ → ℝ) (beta : ℝ) : ℝ :=
  g.temperature (fun j => Real.exp (-beta * g.v j ^ 2)) - g.temperature f

/-! ### Anisotropic collisions -/

/-- `FLMCollisions.__init__` (fokker_planck.py:419-429). -/
structure Flm where
  Z : ℝ
  nuee : ℝ
  logLam : ℝ
  nl : ℕ
  full : Bool

noncomputable def Flm.nuei (c : Flm) : ℝ := c.nuee * c.Z ^ 2 * c.logLam
noncomputable def Flm.scaling (c : Flm) : ℝ := (c.Z + 4.2) / (c.Z + 0.24)

/-- `ei_diag` (fokker_planck.py:597). -/
noncomputable def Grid.eiDiag (g : Grid) (il : ℕ) (Z ni : ℝ) (j : ℕ) : ℝ := -(il * (il + 1) : ℝ) / 2 * Z ^ 2 * ni / g.v j ^ 3

/-- `calc_ros_i`, `calc_ros_j` with the integer power `p` (fokker_planck.py:447-482). -/
noncomputable def Grid.rosI (g : Grid) (f : ℕ → ℝ) (p : ℤ) (j : ℕ) : ℝ :=
  4 * Real.pi * g.v j ^ (-p) * (∑ k ∈ range (j + 1), g.v k ^ (2 + p) * f k) * g.dv
noncomputable def Grid.rosJ (g : Grid) (f : ℕ → ℝ) (p : ℤ) (j : ℕ) : ℝ :=
  4 * Real.pi * g.v j ^ (-p) * (∑ k ∈ Ico j g.nv, g.v k ^ (2 + p) * f k) * g.dv

/-- `get_ee_diagonal_contrib` (fokker_planck.py:508-563): rows of the operator, indexed by row. -/
noncomputable def Grid.eeRows (g : Grid) (f0 : ℕ → ℝ) (il : ℕ) : (ℕ → ℝ) × (ℕ → ℝ) × (ℕ → ℝ) :=
  let d2 := fun j => (g.rosI f0 2 j + g.rosJ f0 (-1) j) / (3 * g.v j) / g.dv ^ 2
  let tri := fun j => (-g.rosI f0 2 j + 2 * g.rosJ f0 (-1) j + 3 * g.rosI f0 0 j) / 3
  let dd := fun j => tri j / g.v j ^ 2 / 2 / g.dv
  let lower := fun j => d2 j - dd j
  let ang := fun j => -((il * (il + 1) : ℝ) / 2) * tri j / g.v j ^ 3
  let diag := fun j => 8 * Real.pi * f0 j - 2 * d2 j + ang j
  (fun j => if j = 0 then diag 0 + (if il % 2 = 1 then -1 else 1) * lower 0 else diag j, lower, fun j => d2 j + dd j)

/-- The implicit operator of `solve_harmonic` with electron-electron terms
(fokker_planck.py:599-608). -/
noncomputable def Grid.flmOperator (g : Grid) (c : Flm) (il : ℕ) (Z ni : ℝ) (f0 : ℕ → ℝ) (dt : ℝ) : FP.Tri where
  diag j := 1 - dt * (c.nuei * g.eiDiag il Z ni j + c.nuee * (g.eeRows f0 il).1 j)
  lower j := -dt * c.nuee * (g.eeRows f0 il).2.1 (j + 1)
  upper j := -dt * c.nuee * (g.eeRows f0 il).2.2 j

/-- `solve_harmonic` (fokker_planck.py:578-622) at one position.  `explicit` is `dt nuee` times
`get_ee_offdiagonal_contrib` or zero, a parameter; the result is a relation because of the linear solve.
`error` is the `ValueError` of the order check. -/
inductive Grid.Harmonic (g : Grid) (c : Flm) (il : ℕ) (Z ni : ℝ) (f0 flm : ℕ → ℝ) (dt : ℝ) (explicit : ℕ → ℝ) : Except String (ℕ → ℝ) → Prop
  | order (h : ¬ (1 ≤ il ∧ il ≤ c.nl)) : Harmonic g c il Z ni f0 flm dt explicit (.error "ValueError")
  | full (h : 1 ≤ il ∧ il ≤ c.nl) (hf : c.full = true) (x : ℕ → ℝ)
      (hx : ∀ j < g.nv, (g.flmOperator c il Z ni f0 dt).mv g.nv x j = flm j) :
      Harmonic g c il Z ni f0 flm dt explicit (.ok fun j => x j + explicit j)
  | scaled (h : 1 ≤ il ∧ il ≤ c.nl) (hf : c.full = false) :
      Harmonic g c il Z ni f0 flm dt explicit
        (.ok fun j => flm j / (1 - dt * c.nuei * c.scaling * g.eiDiag il Z ni j))

/-! ### Rates -/

/-- `inverse_bremsstrahlung_resonance_ratio` (fokker_planck.py:59-81). -/
noncomputable def ibRatio (Z ni nuee logLam w0 : ℝ) : ℝ := nuee * logLam * Z ^ 2 * ni / w0

/-- The configured logarithm: a case-folded string, a number, or anything else. -/
inductive LogLambdaCfg
  | name (s : String)
  | number (x : ℝ)
  | other

/-- `calc_logLambda` (helpers.py:42-110): `(ei, ee)`.  `ne` in 1/cc, temperatures in eV. -/
noncomputable def logLambda (cfg : LogLambdaCfg) (ne Te Ti Z : ℝ) (force : Bool) : Except String (ℝ × ℝ) :=
  let finish := fun (p : ℝ × ℝ) => (if force then (p.1, p.1) else p : ℝ × ℝ)
  match cfg with
  | .name s =>
    if s ∈ ["lee-more", "lee_more", "leemore"] then
      let ni := ne / Z
      let e2 := 1.44e-7
      let invLD2 := 4 * Real.pi * e2 * (ne / Te + Z ^ 2 * ni / Ti)
      let R0 := (3 / (4 * Real.pi * ni)) ^ ((1 : ℝ) / 3)
      let bMax := max (invLD2 ^ (-(1 : ℝ) / 2)) R0
      let bMin := max (Z * e2 / (3 * Te)) (1.9732697e-5 / (2 * Real.sqrt (3 * Te * 510998.95)))
      let ei := max 2 (0.5 * Real.log (1 + (bMax / bMin) ^ 2))
      .ok (finish (ei, ei))
    else if s = "nrl" then
      let lne := Real.log ne
      let lTe := Real.log Te
      let ee := max 2 (23.5 - 0.5 * lne + 1.25 * lTe - Real.sqrt (1e-5 + 0.0625 * (lTe - 2) ^ 2))
      let ei := if Te > 10 * Z ^ 2 then max 2 (24 - 0.5 * lne + lTe) else max 2 (23 - 0.5 * lne + 1.5 * lTe - Real.log Z)
      .ok (finish (ei, ee))
    else .error "NotImplementedError"
  | .number x => .ok (finish (x, x))
  | .other => .error "UnboundLocalError"

end Verif.Vfp
