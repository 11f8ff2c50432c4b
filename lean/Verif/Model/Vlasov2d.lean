import Verif.Model.Spectral
import Verif.Model.Vfp2dStep
import Verif.Model.FokkerPlanck
import Mathlib.Analysis.SpecialFunctions.Trigonometric.Basic

/-!
Model of the Vlasov-2D solver (adept/_vlasov2d): pushers, Maxwell solver, collisions, one
time step, initial state, distributed initialization.

Arrays are functions of `ZMod n` indices, exact real arithmetic.  External and therefore
parameters: `interpax.interp2d` (`Interp`), `jax.lax.linalg.tridiagonal_solve` (`Solve`),
the envelope functions and noise.  A dictionary of species is a list in insertion order
(the names play no role in the step).
-/
namespace Verif.Vlasov2d
open Finset Complex Verif.Spectral
open Verif.Vfp2d (Deriv Scal ddx ddy)

variable {nx ny : ℕ} [NeZero nx] [NeZero ny]

/-- One kinetic species: `species_grids[name]`, `species_params[name]` and its distribution
(modules.py:154-191). -/
structure Sp (nx ny : ℕ) where
  nvx : ℕ
  nvy : ℕ
  posx : NeZero nvx
  posy : NeZero nvy
  charge : ℝ
  mass : ℝ
  dvx : ℝ
  dvy : ℝ
  vx : ZMod nvx → ℝ
  vy : ZMod nvy → ℝ
  f : ZMod nx → ZMod ny → ZMod nvx → ZMod nvy → ℝ

instance (s : Sp nx ny) : NeZero s.nvx := s.posx
instance (s : Sp nx ny) : NeZero s.nvy := s.posy

/-- `interp2d(xq, yq, x, y, f, method="cubic", extrap=0.0)` at one query point. -/
abbrev Interp := ∀ nvx nvy : ℕ, (ZMod nvx → ℝ) → (ZMod nvy → ℝ) → (ZMod nvx → ZMod nvy → ℝ) → ℝ → ℝ → ℝ

/-! ### Pushers -/

/-- `SpaceExponentialX.__call__` (pushers/vlasov.py:14-35). -/
noncomputable def streamX (dx dt : ℝ) (s : Sp nx ny) : Sp nx ny :=
  { s with f := fun x y i j => shift dx (s.vx i * dt) (fun x' => s.f x' y i j) x }

/-- `SpaceExponentialY.__call__` (pushers/vlasov.py:38-52). -/
noncomputable def streamY (dy dt : ℝ) (s : Sp nx ny) : Sp nx ny :=
  { s with f := fun x y i j => shift dy (s.vy j * dt) (fun y' => s.f x y' i j) y }

/-- `edfdv` of the configuration (datamodel.py: TermsConfig). -/
inductive EPush
  | exponential
  | sl
deriving DecidableEq

/-- `push_vx` of `VelocityExponentialE` and `VelocitySL2DE` (pushers/vlasov.py:66-76, 97-119). -/
noncomputable def pushVx (kind : EPush) (ip : Interp) (ex : Scal nx ny) (dt : ℝ) (s : Sp nx ny) : Sp nx ny :=
  match kind with
  | .exponential => { s with f := fun x y i j => shift s.dvx (s.charge / s.mass * ex x y * dt) (fun i' => s.f x y i' j) i }
  | .sl => { s with f := fun x y i j => ip s.nvx s.nvy s.vx s.vy (s.f x y) (s.vx i - s.charge / s.mass * ex x y * dt) (s.vy j) }

/-- `push_vy` of `VelocityExponentialE` and `VelocitySL2DE` (pushers/vlasov.py:78-87, 121-132). -/
noncomputable def pushVy (kind : EPush) (ip : Interp) (ey : Scal nx ny) (dt : ℝ) (s : Sp nx ny) : Sp nx ny :=
  match kind with
  | .exponential => { s with f := fun x y i j => shift s.dvy (s.charge / s.mass * ey x y * dt) (fun j' => s.f x y i j') j }
  | .sl => { s with f := fun x y i j => ip s.nvx s.nvy s.vx s.vy (s.f x y) (s.vx i) (s.vy j - s.charge / s.mass * ey x y * dt) }

/-- `theta`, `vx_q`, `vy_q` of `VelocityRotateB.__call__` (pushers/vlasov.py:156-167). -/
noncomputable def theta (charge mass bz dt : ℝ) : ℝ := -(charge / mass) * bz * dt
noncomputable def queryX (th vx vy : ℝ) : ℝ := Real.cos th * vx + Real.sin th * vy
noncomputable def queryY (th vx vy : ℝ) : ℝ := -Real.sin th * vx + Real.cos th * vy

/-- `VelocityRotateB.__call__` (pushers/vlasov.py:148-173). -/
noncomputable def rotated (ip : Interp) (charge mass : ℝ) {nvx nvy : ℕ} (vx : ZMod nvx → ℝ) (vy : ZMod nvy → ℝ) (bz dt : ℝ)
    (g : ZMod nvx → ZMod nvy → ℝ) (i : ZMod nvx) (j : ZMod nvy) : ℝ :=
  ip nvx nvy vx vy g (queryX (theta charge mass bz dt) (vx i) (vy j)) (queryY (theta charge mass bz dt) (vx i) (vy j))
noncomputable def rotateB (ip : Interp) (bz : Scal nx ny) (dt : ℝ) (s : Sp nx ny) : Sp nx ny :=
  { s with f := fun x y => rotated ip s.charge s.mass s.vx s.vy (bz x y) dt (s.f x y) }

/-- `TimeIntegrator.kinetic_substep` for one species (vector_field.py:81-96). -/
noncomputable def kinetic (kind : EPush) (ip : Interp) (dx dy dt : ℝ) (ex ey bz : Scal nx ny) (s : Sp nx ny) : Sp nx ny :=
  let s := streamX dx (0.5 * dt) s
  let s := streamY dy (0.5 * dt) s
  let s := pushVx kind ip ex (0.5 * dt) s
  let s := pushVy kind ip ey (0.5 * dt) s
  let s := rotateB ip bz dt s
  let s := pushVy kind ip ey (0.5 * dt) s
  let s := pushVx kind ip ex (0.5 * dt) s
  let s := streamY dy (0.5 * dt) s
  streamX dx (0.5 * dt) s

/-! ### Fields -/

/-- The electromagnetic field of the state. -/
@[ext] structure Fields (nx ny : ℕ) where
  ex : Scal nx ny
  ey : Scal nx ny
  bz : Scal nx ny

/-- `MaxwellSpectral.b_half_step` (pushers/field.py:42-45). -/
noncomputable def bHalf (dx dy dt : ℝ) (a : Fields nx ny) : Fields nx ny :=
  { a with bz := fun x y => a.bz x y - 0.5 * dt * (ddx (.spectral dx) a.ey x y - ddy (.spectral dy) a.ex x y) }

/-- `MaxwellSpectral.e_full_step` (pushers/field.py:47-52). -/
noncomputable def eFull (dx dy c2 dt : ℝ) (jx jy : Scal nx ny) (a : Fields nx ny) : Fields nx ny where
  ex := fun x y => a.ex x y + dt * (c2 * ddy (.spectral dy) a.bz x y - jx x y)
  ey := fun x y => a.ey x y + dt * (-c2 * ddx (.spectral dx) a.bz x y - jy x y)
  bz := a.bz

/-- `MaxwellSpectral.__call__` (pushers/field.py:54-58). -/
noncomputable def maxwell (dx dy c2 dt : ℝ) (jx jy : Scal nx ny) (a : Fields nx ny) : Fields nx ny :=
  bHalf dx dy dt (eFull dx dy c2 dt jx jy (bHalf dx dy dt a))

/-- `sum(f, axis=(2, 3)) * (dvx * dvy)` (pushers/field.py:75; modules.py:225). -/
noncomputable def Sp.density (s : Sp nx ny) (x : ZMod nx) (y : ZMod ny) : ℝ := (∑ i, ∑ j, s.f x y i j) * (s.dvx * s.dvy)

/-- `jx_s`, `jy_s` of `CurrentMoments` (pushers/field.py:98-99). -/
noncomputable def Sp.jx (s : Sp nx ny) (x : ZMod nx) (y : ZMod ny) : ℝ :=
  s.charge * (∑ i, ∑ j, s.vx i * s.f x y i j) * (s.dvx * s.dvy)
noncomputable def Sp.jy (s : Sp nx ny) (x : ZMod nx) (y : ZMod ny) : ℝ :=
  s.charge * (∑ i, ∑ j, s.vy j * s.f x y i j) * (s.dvx * s.dvy)

/-- `CurrentMoments.__call__` (pushers/field.py:89-102); there is at least one species. -/
noncomputable def currentX (ss : List (Sp nx ny)) : Scal nx ny := fun x y => (ss.map fun s => s.jx x y).sum
noncomputable def currentY (ss : List (Sp nx ny)) : Scal nx ny := fun x y => (ss.map fun s => s.jy x y).sum

/-- `ChargeMoment.__call__` (pushers/field.py:69-80), the static part zero when absent. -/
noncomputable def charge (ss : List (Sp nx ny)) (static : Scal nx ny) : Scal nx ny := fun x y =>
  (ss.map fun s => s.charge * s.density x y).sum + static x y

/-- `EMDriver` (simulation.py:20-60); `env` the separable envelope on the grid. -/
structure Driver (nx ny : ℕ) where
  a0 : ℝ
  k0x : ℝ
  k0y : ℝ
  w0 : ℝ
  dw0 : ℝ
  env : ZMod nx → ZMod ny → ℝ → ℝ

/-- `EMDriverFieldSource.__call__` (pushers/field.py:143-150). -/
noncomputable def driverJ (xs : ZMod nx → ℝ) (ys : ZMod ny → ℝ) (ds : List (Driver nx ny)) (t : ℝ) : Scal nx ny := fun x y =>
  ds.foldl (fun out d => out + -((d.w0 + d.dw0) ^ 2) * d.a0 * d.env x y t *
    Real.sin (d.k0x * xs x + d.k0y * ys y - (d.w0 + d.dw0) * t)) 0

/-! ### Collisions and filter -/

/-- `jax.lax.linalg.tridiagonal_solve`. -/
abbrev Solve := ℕ → FP.Tri → (ℕ → ℝ) → ℕ → ℝ

/-- `n`, `vbar`, `T` of `_dougherty_step_1d` (pushers/fokker_planck.py:30-34). -/
noncomputable def colN (n : ℕ) (dv : ℝ) (f : ℕ → ℝ) : ℝ := (∑ i ∈ range n, f i) * dv
noncomputable def safeN (x : ℝ) : ℝ := if 0 < x then x else 1
noncomputable def colV (n : ℕ) (v : ℕ → ℝ) (dv : ℝ) (f : ℕ → ℝ) : ℝ := (∑ i ∈ range n, f i * v i) * dv / safeN (colN n dv f)
noncomputable def colT (n : ℕ) (v : ℕ → ℝ) (dv : ℝ) (f : ℕ → ℝ) : ℝ :=
  max ((∑ i ∈ range n, f i * (v i - colV n v dv f) ^ 2) * dv / safeN (colN n dv f)) (1 / 10 ^ 12)

/-- The system `_dougherty_step_1d` solves (pushers/fokker_planck.py:36-56). -/
noncomputable def colOp (n : ℕ) (v : ℕ → ℝ) (dv nu dt : ℝ) (f : ℕ → ℝ) : FP.Tri where
  diag i := 1 - dt * nu * FP.addEdges n
    (fun e => ((0.5 * (v (e + 1) + v e) - colV n v dv f) / 2 - colT n v dv f / dv) / dv)
    (fun e => -((0.5 * (v (e + 1) + v e) - colV n v dv f) / 2 + colT n v dv f / dv) / dv) i
  upper e := -dt * nu * (((0.5 * (v (e + 1) + v e) - colV n v dv f) / 2 + colT n v dv f / dv) / dv)
  lower e := -dt * nu * ((-(0.5 * (v (e + 1) + v e) - colV n v dv f) / 2 + colT n v dv f / dv) / dv)

/-- `_dougherty_step_1d` (pushers/fokker_planck.py:25-59). -/
noncomputable def doughertyCol (solve : Solve) (n : ℕ) (v : ℕ → ℝ) (dv nu dt : ℝ) (f : ℕ → ℝ) : ℕ → ℝ :=
  solve n (colOp n v dv nu dt f) f

/-- The column as an array indexed from zero. -/
def flat {n : ℕ} (a : ZMod n → ℝ) : ℕ → ℝ := fun i => a (i : ZMod n)

/-- The vx step, then the vy step of `DoughertyFP.__call__` (pushers/fokker_planck.py:69-103). -/
noncomputable def doughertyX (solve : Solve) (nu : Scal nx ny) (dt : ℝ) (s : Sp nx ny) : Sp nx ny :=
  { s with f := fun x y i j => doughertyCol solve s.nvx (flat s.vx) s.dvx (nu x y) dt (flat fun i' => s.f x y i' j) i.val }
noncomputable def doughertyY (solve : Solve) (nu : Scal nx ny) (dt : ℝ) (s : Sp nx ny) : Sp nx ny :=
  { s with f := fun x y i j => doughertyCol solve s.nvy (flat s.vy) s.dvy (nu x y) dt (flat fun j' => s.f x y i j') j.val }
noncomputable def dougherty (solve : Solve) (nu : Scal nx ny) (dt : ℝ) (s : Sp nx ny) : Sp nx ny :=
  doughertyY solve nu dt (doughertyX solve nu dt s)

/-- `mx`, `my` of `Krook2D.__call__` (pushers/fokker_planck.py:127-130). -/
noncomputable def unitMaxwellian {n : ℕ} [NeZero n] (v : ZMod n → ℝ) (dv : ℝ) (i : ZMod n) : ℝ :=
  Real.exp (-0.5 * v i ^ 2) / ((∑ i', Real.exp (-0.5 * v i' ^ 2)) * dv)

/-- `Krook2D.__call__` for one species (pushers/fokker_planck.py:117-137). -/
noncomputable def krook (nu : Scal nx ny) (dt : ℝ) (s : Sp nx ny) : Sp nx ny :=
  { s with f := fun x y i j => s.f x y i j * Real.exp (-(nu x y * dt)) +
      s.density x y * (unitMaxwellian s.vx s.dvx i * unitMaxwellian s.vy s.dvy j) * (1 - Real.exp (-(nu x y * dt))) }

/-- `Collisions.__init__` (pushers/fokker_planck.py:143-155): the type, already case-folded, is
looked at only when the operator is on. -/
def collisionsOk (fpOn : Bool) (type : String) : Except String Unit :=
  if fpOn && type != "dougherty" then .error "NotImplementedError" else .ok ()

/-- `Collisions.__call__` for one species (pushers/fokker_planck.py:157-162); `none` when the
operator is off or has no frequency profile (vector_field.py:123-126). -/
noncomputable def collide (solve : Solve) (nuFP nuK : Option (Scal nx ny)) (dt : ℝ) (s : Sp nx ny) : Sp nx ny :=
  let s := match nuFP with
    | some nu => dougherty solve nu dt s
    | none => s
  match nuK with
  | some nu => krook nu dt s
  | none => s

/-- `HouLiFilter` (pushers/vlasov.py:176-210): the dimensions given, for one species; at least two
cells along a filtered axis. -/
structure Filter where
  alpha : ℝ
  order : ℕ
  x : Bool
  y : Bool

noncomputable def Filter.apply (h : Filter) (s : Sp nx ny) : Sp nx ny :=
  let s : Sp nx ny := if h.x then { s with f := fun x y i j => filterRow (fun k => (houLi nx h.alpha h.order k : ℂ)) (fun x' => s.f x' y i j) x } else s
  if h.y then { s with f := fun x y i j => filterRow (fun k => (houLi ny h.alpha h.order k : ℂ)) (fun y' => s.f x y' i j) y } else s

/-! ### The step -/

/-- What `VlasovMaxwell` holds (vector_field.py:36-79, 102-121); `c2` is `1/beta` squared. -/
structure Setup (nx ny : ℕ) where
  kind : EPush
  ip : Interp
  solve : Solve
  dx : ℝ
  dy : ℝ
  dt : ℝ
  c2 : ℝ
  xs : ZMod nx → ℝ
  ys : ZMod ny → ℝ
  exDrivers : List (Driver nx ny)
  eyDrivers : List (Driver nx ny)
  nuFP : Option (ℝ → Scal nx ny)
  nuK : Option (ℝ → Scal nx ny)
  filter : Option Filter
  skipMaxwell : Bool

/-- The state dictionary (modules.py:202-235). -/
structure State (nx ny : ℕ) where
  species : List (Sp nx ny)
  em : Fields nx ny
  jxDriver : Scal nx ny
  jyDriver : Scal nx ny

/-- `VlasovMaxwell.__call__` (vector_field.py:128-156). -/
noncomputable def step (p : Setup nx ny) (t : ℝ) (y : State nx ny) : State nx ny :=
  let fs := y.species.map (kinetic p.kind p.ip p.dx p.dy p.dt y.em.ex y.em.ey y.em.bz)
  let tMid := t + 0.5 * p.dt
  let jxd := driverJ p.xs p.ys p.exDrivers tMid
  let jyd := driverJ p.xs p.ys p.eyDrivers tMid
  let em := if p.skipMaxwell then y.em else
    maxwell p.dx p.dy p.c2 p.dt (fun a b => currentX fs a b + jxd a b) (fun a b => currentY fs a b + jyd a b) y.em
  let fs := fs.map (collide p.solve (p.nuFP.map fun g => g t) (p.nuK.map fun g => g t) p.dt)
  let fs := match p.filter with
    | some h => fs.map h.apply
    | none => fs
  ⟨fs, em, jxd, jyd⟩

/-- `diffeqsolve` with `Stepper` and the constant step `dt` from `t0` (modules.py:237-265). -/
noncomputable def run (p : Setup nx ny) (t0 : ℝ) (y : State nx ny) : ℕ → State nx ny
  | 0 => y
  | n + 1 => step p (t0 + n * p.dt) (run p t0 y n)

/-! ### Initial state -/

/-- The velocity axis (helpers.py:41-45, 102-111). -/
noncomputable def axis (vmax : ℝ) (n : ℕ) (i : ZMod n) : ℝ := Grid.linspaceAt (-vmax + 2 * vmax / n / 2) (vmax - 2 * vmax / n / 2) n i.val

/-- One factor of `_evaluate_bi_supergaussian_on_axes` (helpers.py:61-78): `shape` stands for
`exp(-|((v - v0) / scale)|^m)`; `n` velocities (`vxax.size`), so `dv = 2 vmax / n`. -/
noncomputable def normalised {n : ℕ} [NeZero n] (vmax : ℝ) (shape : ZMod n → ℝ) (i : ZMod n) : ℝ :=
  shape i / ((∑ i', shape i') * (2 * vmax / n))

/-- The unnormalised factor (helpers.py:66-71); `scale` is `alpha * sqrt(T0 / mass)`. -/
noncomputable def superGaussian (v0 scale m v : ℝ) : ℝ := Real.exp (-(|(v - v0) / scale|) ^ m)

/-- `SubspeciesDistributionSpec` with its density profile evaluated on the grid, noise included
(simulation.py:96-164). -/
structure Component (nx ny : ℕ) where
  density : Scal nx ny
  v0x : ℝ
  v0y : ℝ
  scale : ℝ
  m : ℝ

/-- `_initialize_bi_supergaussian` (helpers.py:27-47). -/
noncomputable def Component.f {nvx nvy : ℕ} [NeZero nvx] [NeZero nvy] (c : Component nx ny) (vmax : ℝ)
    (x : ZMod nx) (y : ZMod ny) (i : ZMod nvx) (j : ZMod nvy) : ℝ :=
  c.density x y * (normalised vmax (fun i => superGaussian c.v0x c.scale c.m (axis vmax nvx i)) i *
    normalised vmax (fun j => superGaussian c.v0y c.scale c.m (axis vmax nvy j)) j)

/-- `f_species` without sharding (helpers.py:168-185). -/
noncomputable def initialF {nvx nvy : ℕ} [NeZero nvx] [NeZero nvy] (cs : List (Component nx ny)) (vmax : ℝ)
    (x : ZMod nx) (y : ZMod ny) (i : ZMod nvx) (j : ZMod nvy) : ℝ := (cs.map fun c => c.f vmax x y i j).sum

/-- `n_prof_species` (helpers.py:153-167). -/
noncomputable def profile (cs : List (Component nx ny)) : Scal nx ny := fun x y => (cs.map fun c => c.density x y).sum

/-- The shards of an axis of `p * b` velocities divided over `p` devices: the piece of `b` values
starting at `q * b` (helpers.py:114-135), each piece normalised on its own with
`dv = 2 vmax / b`. -/
noncomputable def normalisedShards {p b : ℕ} [NeZero b] (vmax : ℝ) (shape : ZMod (p * b) → ℝ) (q : ℕ) (i : ZMod b) : ℝ :=
  normalised vmax (fun i : ZMod b => shape ((q * b + i.val : ℕ) : ZMod (p * b))) i

/-- The charge density the initial Poisson solve uses (modules.py:193-198, 213-223): the ion
background is the total profile when there is one species, zero otherwise. -/
noncomputable def ionCharge (count : ℕ) (total : Scal nx ny) : Scal nx ny := fun x y => if 1 < count then 0 else total x y

/-- `init_state_and_args` (modules.py:202-235): `profiles` the density profiles of the species. -/
noncomputable def initialState (dx dy : ℝ) (ss : List (Sp nx ny)) (profiles : List (Scal nx ny)) : State nx ny :=
  let total : Scal nx ny := fun x y => (profiles.map fun n => n x y).sum
  let e := Vfp2d.poisson dx dy (charge ss (ionCharge ss.length total))
  ⟨ss, ⟨fun x y => (e x y).x, fun x y => (e x y).y, fun _ _ => 0⟩, fun _ _ => 0, fun _ _ => 0⟩

/-! ### Distributed initialization -/

/-- The options of `create_distribution_sharding` after defaults (distributed.py:57-63). -/
structure Sharding where
  meshAxes : List String
  meshShape : Option (List ℤ)
  partition : List (Option String)

/-- `create_distribution_sharding` up to the mesh it builds (distributed.py:40-82): the mesh shape
used, or the `ValueError`. -/
def meshFor (c : Sharding) (devices : ℕ) : Except String (List ℤ) :=
  if c.partition.length ≠ 4 then .error "ValueError"
  else if (c.partition.filterMap id).any (fun a => !c.meshAxes.contains a) then .error "ValueError"
  else if devices = 0 then .error "ValueError"
  else
    let shape := c.meshShape.getD ((devices : ℤ) :: List.replicate (c.meshAxes.length - 1) 1)
    if shape.length ≠ c.meshAxes.length then .error "ValueError"
    else if shape.prod ≠ (devices : ℤ) then .error "ValueError"
    else .ok shape

/-- The check of `_initialize_sharded_species_distribution` (helpers.py:94-100); noise types
already case-folded. -/
noncomputable def shardedOk (noise : List (String × ℝ)) : Except String Unit :=
  if noise.any (fun n => n.1 != "none" && decide (n.2 ≠ 0)) then .error "NotImplementedError" else .ok ()

/-! ### Diagnostics -/

/-- The moments of `fields_save_func` (storage.py:88-109). -/
structure Moments where
  n : ℝ
  ux : ℝ
  uy : ℝ
  Txx : ℝ
  Tyy : ℝ
  T : ℝ

noncomputable def Sp.moments (s : Sp nx ny) (x : ZMod nx) (y : ZMod ny) : Moments :=
  let n := s.density x y
  let ux := (∑ i, ∑ j, s.vx i * s.f x y i j) * (s.dvx * s.dvy) / safeN n
  let uy := (∑ i, ∑ j, s.vy j * s.f x y i j) * (s.dvx * s.dvy) / safeN n
  let Txx := (∑ i, ∑ j, (s.vx i - ux) ^ 2 * s.f x y i j) * (s.dvx * s.dvy)
  let Tyy := (∑ i, ∑ j, (s.vy j - uy) ^ 2 * s.f x y i j) * (s.dvx * s.dvy)
  ⟨n, ux, uy, Txx, Tyy, 0.5 * (Txx + Tyy) / safeN n⟩

/-- `mean_n`, `mean_KE`, `mean_f2` of the default save (storage.py:232-252). -/
noncomputable def Sp.meanN (s : Sp nx ny) : ℝ := (∑ x, ∑ y, s.density x y) / (nx * ny)
noncomputable def Sp.meanKE (s : Sp nx ny) : ℝ :=
  (∑ x, ∑ y, (∑ i, ∑ j, 0.5 * (s.vx i ^ 2 + s.vy j ^ 2) * s.f x y i j) * (s.dvx * s.dvy)) / (nx * ny)
noncomputable def Sp.meanF2 (s : Sp nx ny) : ℝ :=
  (∑ x, ∑ y, (∑ i, ∑ j, s.f x y i j * s.f x y i j) * (s.dvx * s.dvy)) / (nx * ny)

end Verif.Vlasov2d
