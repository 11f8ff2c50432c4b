import Verif.Model.Integrator
import Verif.Model.CubicSpline
import Verif.Model.Beta

/-!
Model of `grid.parallel` of the Vlasov-1D solver: the pushers and the collision operator divided
over the devices with `jax.shard_map` (adept/_vlasov1d/solvers/pushers/vlasov.py:63-104, 151-186,
223-251, fokker_planck.py:275-303, 378-444, vector_field.py:12-56).

`shard_map` (JAX, external) over a mesh with the one axis `device` gives device `r` the rows
`r*M … r*M + M - 1` of every array whose specification names the axis, with `M` the length
divided by the number of devices, runs the function on the shorter arrays and joins the results
in the order of the devices; a length that is no multiple of the number of devices is an error.
The functions run on a device are the models of the undivided operators at the shorter length.
Exact arithmetic, so that the order of additions is of no importance.
-/
namespace Verif.VlasovShard
open Verif.Spectral

/-- The part of an array that `shard_map` hands to device `r`, `M` rows per device. -/
def block {α : Type} {n : ℕ} (M r : ℕ) (a : ZMod n → α) : ZMod M → α := fun i => a ((r * M + i.val : ℕ) : ZMod n)

/-- The results of the devices joined along the divided axis. -/
def gather {β : Type} {n : ℕ} (M : ℕ) (b : ℕ → ZMod M → β) : ZMod n → β :=
  fun x => b (x.val / M) ((x.val % M : ℕ) : ZMod M)

/-- The size check of `shard_map`. -/
def fits (devices n : ℕ) : Bool := n % devices == 0

/-- One species as device `r` sees it when the rows of `f` are divided. -/
def speciesBlock {nx : ℕ} (M r : ℕ) (s : Species nx) : Species M :=
  ⟨s.nv, s.pos, s.charge, s.mass, s.dv, s.v, block M r s.f⟩

/-- `VelocityExponential.__call__` with `parallel` (vlasov.py:93-104): `f`, `e` and `pond` divided
along x. -/
noncomputable def exponentialX {nx : ℕ} (devices : ℕ) (e pond : ZMod nx → ℝ) (dt : ℝ) (ss : List (Species nx)) :
    Except String (List (Species nx)) :=
  if fits devices nx then
    let M := nx / devices
    .ok (ss.map fun s => ⟨s.nv, s.pos, s.charge, s.mass, s.dv, s.v,
      gather M fun r => (pushV (block M r e) (block M r pond) dt (speciesBlock M r s)).f⟩)
  else .error "ValueError"

/-- `VelocityCubicSpline.push` for one species (vlasov.py:162-172, 106-148), on any number of rows. -/
noncomputable def splineRows {nx : ℕ} (e pond : ZMod nx → ℝ) (dt : ℝ) (s : Species nx) : ZMod nx → ZMod s.nv → ℝ :=
  fun x j => CubicSpline.shiftRow s.nv (fun k => s.f x (k : ZMod s.nv)) (accel s.charge s.mass (e x) (pond x) * dt) s.dv j.val

/-- The check of the number of velocity cells (vlasov.py:115-116). -/
def splineOk {nx : ℕ} (ss : List (Species nx)) : Bool := ss.all fun s => 2 ≤ s.nv

/-- `VelocityCubicSpline.__call__` without `parallel` (vlasov.py:174-186). -/
noncomputable def spline {nx : ℕ} (e pond : ZMod nx → ℝ) (dt : ℝ) (ss : List (Species nx)) :
    Except String (List (Species nx)) :=
  if splineOk ss then .ok (ss.map fun s => ⟨s.nv, s.pos, s.charge, s.mass, s.dv, s.v, splineRows e pond dt s⟩)
  else .error "ValueError"

/-- `VelocityCubicSpline.__call__` with `parallel` (vlasov.py:174-186); both checks raise the same
exception. -/
noncomputable def splineX {nx : ℕ} (devices : ℕ) (e pond : ZMod nx → ℝ) (dt : ℝ) (ss : List (Species nx)) :
    Except String (List (Species nx)) :=
  if fits devices nx && splineOk ss then
    let M := nx / devices
    .ok (ss.map fun s => ⟨s.nv, s.pos, s.charge, s.mass, s.dv, s.v,
      gather M fun r => splineRows (block M r e) (block M r pond) dt (speciesBlock M r s)⟩)
  else .error "ValueError"

/-- `SpaceExponential.__call__` with `parallel` (vlasov.py:240-251): one species after the other,
`f` and `v` divided along v. -/
noncomputable def streamV {nx : ℕ} [NeZero nx] (devices : ℕ) (dx dt : ℝ) : List (Species nx) → Except String (List (Species nx))
  | [] => .ok []
  | s :: ss =>
    if fits devices s.nv then
      let M := s.nv / devices
      match streamV devices dx dt ss with
      | .error e => .error e
      | .ok rest => .ok (⟨s.nv, s.pos, s.charge, s.mass, s.dv, s.v,
          fun x => gather M fun r => vdfdx dx (block M r s.v) dt (fun y => block M r (s.f y)) x⟩ :: rest)
    else .error "ValueError"

/-- `grid.parallel`: `none` is `False`, otherwise the tuple of axes (datamodel.py:91-105). -/
abbrev Parallel := Option (List String)

/-- `_is_parallel` (vector_field.py:12-16). -/
def isParallel (p : Parallel) (axis : String) : Bool :=
  match p with
  | none => false
  | some axes => axes.contains axis

/-- `terms.edfdv` (vector_field.py:41-54). -/
inductive Push
  | exponential | cubicSpline

/-- `self.edfdv` (vector_field.py:38, 41-54). -/
noncomputable def velocityPush {nx : ℕ} (k : Push) (p : Parallel) (devices : ℕ) (e pond : ZMod nx → ℝ) (dt : ℝ)
    (ss : List (Species nx)) : Except String (List (Species nx)) :=
  match k, isParallel p "x" with
  | .exponential, true => exponentialX devices e pond dt ss
  | .exponential, false => .ok (ss.map (pushV e pond dt))
  | .cubicSpline, true => splineX devices e pond dt ss
  | .cubicSpline, false => spline e pond dt ss

/-- `self.vdfdx` (vector_field.py:39). -/
noncomputable def spacePush {nx : ℕ} [NeZero nx] (p : Parallel) (devices : ℕ) (dx dt : ℝ) (ss : List (Species nx)) :
    Except String (List (Species nx)) :=
  if isParallel p "v" then streamV devices dx dt ss else .ok (ss.map (pushX dx dt))

/-- `LeapfrogIntegrator.__call__` (vector_field.py:75-95) over the configured pushers. -/
noncomputable def leapfrogP {nx : ℕ} [NeZero nx] (k : Push) (p : Parallel) (devices : ℕ) (dx dt : ℝ) (field : FieldKind nx)
    (a : ℕ → ℝ) (dex : ℕ → ZMod nx → ℝ) (prev : ZMod nx → ℝ) (ss : List (Species nx)) :
    Except String ((ZMod nx → ℝ) × List (Species nx)) :=
  match spacePush p devices dx dt ss with
  | .error err => .error err
  | .ok fv =>
    let forField := match field with
      | .hampere => ss
      | _ => fv
    let e := solveField dx field forField prev dt
    match velocityPush k p devices (fun x => e x + dex 0 x) (ponderomotive dx a) dt fv with
    | .error err => .error err
    | .ok out => .ok (e, out)

/-- A field solve and a velocity push of the sixth-order scheme (vector_field.py:158-184). -/
noncomputable def kickP {nx : ℕ} [NeZero nx] (k : Push) (p : Parallel) (devices : ℕ) (dx : ℝ) (field : FieldKind nx)
    (pond drv : ZMod nx → ℝ) (c : ℝ) (ss : List (Species nx)) : Except String (List (Species nx)) :=
  velocityPush k p devices (fun x => drv x + solveField dx field ss 0 0 x) pond c ss

/-- `SixthOrderHamIntegrator.__call__` (vector_field.py:146-186) over the configured pushers. -/
noncomputable def sixthP {nx : ℕ} [NeZero nx] (k : Push) (p : Parallel) (devices : ℕ) (dx dt : ℝ) (field : FieldKind nx)
    (a : ℕ → ℝ) (dex : ℕ → ZMod nx → ℝ) (ss : List (Species nx)) :
    Except String ((ZMod nx → ℝ) × List (Species nx)) :=
  let pond := ponderomotive dx a
  (kickP k p devices dx field pond (dex 0) (D1 dt * dt) ss).bind fun s =>
  (spacePush p devices dx (a1 * dt) s).bind fun s =>
  (kickP k p devices dx field pond (dex 1) (D2 dt * dt) s).bind fun s =>
  (spacePush p devices dx (a2 * dt) s).bind fun s =>
  (kickP k p devices dx field pond (dex 2) (D3 dt * dt) s).bind fun s =>
  (spacePush p devices dx (a3 * dt) s).bind fun s =>
  (kickP k p devices dx field pond (dex 3) (D3 dt * dt) s).bind fun s =>
  (spacePush p devices dx (a2 * dt) s).bind fun s =>
  (kickP k p devices dx field pond (dex 4) (D2 dt * dt) s).bind fun s =>
  (spacePush p devices dx (a1 * dt) s).bind fun s =>
  (kickP k p devices dx field pond (dex 5) (D1 dt * dt) s).bind fun t =>
  .ok (solveField dx field s 0 0, t)

/-- One step of the chosen integrator (vector_field.py:206-215, 236). -/
noncomputable def integratorP {nx : ℕ} [NeZero nx] (time : TimeKind) (k : Push) (p : Parallel) (devices : ℕ) (dx dt : ℝ)
    (field : FieldKind nx) (a : ℕ → ℝ) (dex : ℕ → ZMod nx → ℝ) (prev : ZMod nx → ℝ) (ss : List (Species nx)) :
    Except String ((ZMod nx → ℝ) × List (Species nx)) :=
  match time with
  | .leapfrog => leapfrogP k p devices dx dt field a dex prev ss
  | .sixth => sixthP k p devices dx dt field a dex ss

/-! ### Collisions -/

/-- The collision options of the reference species (fokker_planck.py:275-342, 449-465). -/
structure CollCfg where
  fpOn : Bool
  krookOn : Bool
  kind : FP.Kind
  m : ℝ
  steps : ℕ
  T0 : ℝ

/-- `compute_vbar`: only the Dougherty models have a mean velocity (fokker_planck.py:78-88). -/
noncomputable def vbar (kind : FP.Kind) (n : ℕ) (v f : ℕ → ℝ) : Option ℝ :=
  match kind with
  | .lenardBernsteinCentral => none
  | .lenardBernsteinCC => none
  | _ => some (FP.vbarOf n v f)

/-- `beta` of `_collide` (fokker_planck.py:391-411), a relation. -/
def BetaOf (c : CollCfg) (n : ℕ) (v : ℕ → ℝ) (dv : ℝ) (f : ℕ → ℝ) (beta : ℝ) : Prop :=
  match c.kind with
  | .superGaussian => Beta.ComputeBeta n v c.m f c.steps beta
  | k => Beta.Find ⟨n, v, fun _ => dv, false⟩ f (vbar k n v f) c.steps 2 beta

/-- The Fokker-Planck part of `_collide` in one cell (fokker_planck.py:390-430), a relation. -/
def FpRow (c : CollCfg) (n : ℕ) (v : ℕ → ℝ) (dv nu dt : ℝ) (f f' : ℕ → ℝ) : Prop :=
  ∃ beta, BetaOf c n v dv f beta ∧
    let u := (vbar c.kind n v f).getD 0
    let cd := FP.betaModel v u beta
    match c.kind with
    | .lenardBernsteinCentral => FP.SolveOneX n (FP.central n dv cd.1 (fun _ => cd.2) (fun _ => nu) dt) f f'
    | .doughertyCentral => FP.SolveOneX n (FP.central n dv cd.1 (fun _ => cd.2) (fun _ => nu) dt) f f'
    | .lenardBernsteinCC => FP.SolveOneX n (FP.changCooper n dv cd.1 (fun _ => cd.2) (fun _ => nu) dt) f f'
    | .doughertyCC => FP.SolveOneX n (FP.changCooper n dv cd.1 (fun _ => cd.2) (fun _ => nu) dt) f f'
    | .superGaussian => FP.SolveOneX n (FP.changCooper n dv (FP.superGaussianModel v dv u beta c.m (Beta.diffusion c.m beta))
        (fun _ => Beta.diffusion c.m beta) (fun _ => nu) dt) f f'
    | .nodrag => FP.NodragStep n v dv u beta nu dt f f'

/-- `_collide` in one cell (fokker_planck.py:389-434), a relation. -/
def CollideRow (c : CollCfg) (n : ℕ) (v : ℕ → ℝ) (dv mass nuFp nuK dt : ℝ) (f f' : ℕ → ℝ) : Prop :=
  ∃ g, (if c.fpOn then FpRow c n v dv nuFp dt f g else ∀ i < n, g i = f i) ∧
    ∀ i < n, f' i = if c.krookOn then FP.krook n dv (FP.krookMaxwellian n v dv c.T0 mass) nuK g dt i else g i

/-- A row of a distribution as a function of the velocity index. -/
def row {n : ℕ} (f : ZMod n → ℝ) (i : ℕ) : ℝ := f (i : ZMod n)

/-- `_collide` on an array of any number of cells (fokker_planck.py:389-434): every operation is
along the velocity or `vmap`ped over the cells. -/
def Collide {nx : ℕ} (c : CollCfg) (nuFp nuK : ZMod nx → ℝ) (dt : ℝ) (s : Species nx) (g : ZMod nx → ZMod s.nv → ℝ) : Prop :=
  ∀ x, CollideRow c s.nv (row s.v) s.dv s.mass (nuFp x) (nuK x) dt (row (s.f x)) (row (g x))

/-- `_apply_collisions` (fokker_planck.py:378-444): `nu` of an operator that is off is an array of
zeros; with `x` among the parallel axes `_collide` runs on the blocks. `none` is the error of
`shard_map`. -/
def Applied {nx : ℕ} (c : CollCfg) (p : Parallel) (devices : ℕ) (nuFp nuK : Option (ZMod nx → ℝ)) (dt : ℝ) (s : Species nx)
    (g : Option (ZMod nx → ZMod s.nv → ℝ)) : Prop :=
  if isParallel p "x" then
    if fits devices nx then
      let M := nx / devices
      ∃ parts : ℕ → ZMod M → ZMod s.nv → ℝ, (∀ r < devices,
        Collide c (block M r (nuFp.getD 0)) (block M r (nuK.getD 0)) dt (speciesBlock M r s) (parts r)) ∧
        g = some (gather M parts)
    else g = none
  else ∃ h, Collide c (nuFp.getD 0) (nuK.getD 0) dt s h ∧ g = some h

/-- `Collisions.__call__` (fokker_planck.py:344-366) on the species in their order, `ref` the
position of the collision species: a relation; `none` is an error. -/
def Collided {nx : ℕ} (c : CollCfg) (p : Parallel) (devices : ℕ) (ref : ℕ) (nuFp nuK : Option (ZMod nx → ℝ)) (dt : ℝ)
    (ss : List (Species nx)) (out : Option (List (Species nx))) : Prop :=
  match ss[ref]? with
  | none => out = some ss
  | some s => ∃ g, Applied c p devices nuFp nuK dt s g ∧
      out = g.map fun h => ss.set ref ⟨s.nv, s.pos, s.charge, s.mass, s.dv, s.v, h⟩

/-- The options of a run that a step reads. -/
structure Cfg (nx : ℕ) where
  time : TimeKind
  push : Push
  parallel : Parallel
  dx : ℝ
  dt : ℝ
  field : FieldKind nx
  coll : CollCfg
  ref : ℕ
  houLi : Option (ℝ × ℕ)

/-- What a step sees from outside: vector potential, external fields at the substeps, collision
frequencies (vector_field.py:308-330). -/
structure Drive (nx : ℕ) where
  a : ℕ → ℝ
  dex : ℕ → ZMod nx → ℝ
  nuFp : Option (ZMod nx → ℝ)
  nuK : Option (ZMod nx → ℝ)

/-- The Hou-Li filter of every species (vector_field.py:240-241, vlasov.py:215-220). -/
noncomputable def filtered {nx : ℕ} [NeZero nx] (h : Option (ℝ × ℕ)) (ss : List (Species nx)) : List (Species nx) :=
  match h with
  | none => ss
  | some (alpha, order) => ss.map fun s => ⟨s.nv, s.pos, s.charge, s.mass, s.dv, s.v, houLiFilter alpha order s.f⟩

/-- `VlasovPoissonFokkerPlanck.__call__` (vector_field.py:232-254) without the diagnostics, a
relation; `none` is an error. -/
def Step {nx : ℕ} [NeZero nx] (c : Cfg nx) (devices : ℕ) (d : Drive nx) (y : (ZMod nx → ℝ) × List (Species nx))
    (out : Option ((ZMod nx → ℝ) × List (Species nx))) : Prop :=
  match integratorP c.time c.push c.parallel devices c.dx c.dt c.field d.a d.dex y.1 y.2 with
  | .error _ => out = none
  | .ok (e, ss) => ∃ cs, Collided c.coll c.parallel devices c.ref d.nuFp d.nuK c.dt ss cs ∧
      out = cs.map fun ts => (e, filtered c.houLi ts)

/-- Any number of steps, a relation; an error ends the run. -/
def Run {nx : ℕ} [NeZero nx] (c : Cfg nx) (devices : ℕ) : List (Drive nx) → (ZMod nx → ℝ) × List (Species nx) →
    Option ((ZMod nx → ℝ) × List (Species nx)) → Prop
  | [], y, out => out = some y
  | d :: ds, y, out => ∃ mid, Step c devices d y mid ∧
      match mid with
      | none => out = none
      | some z => Run c devices ds z out

end Verif.VlasovShard
