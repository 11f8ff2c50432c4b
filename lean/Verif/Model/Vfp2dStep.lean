import Verif.Model.Vfp2d
import Mathlib.Analysis.Complex.Trigonometric

/-!
Model of the VFP-2D fields and time steps: Maxwell curl, Poisson solve, Vlasov-Maxwell rates, the
two steps and the heating gates (adept/vfp2d/vector_field.py), kinetic Ohm law (ohm.py), filters and
partitioned stencils (harmonics.py:77-141, 372-432), device choice (distributed.py), collision
adapter (collisions.py) and the run set-up (base.py).

The collision operators are parameters (they are those of Model/VfpCollisions.lean), so is
`jnp.finfo(...).tiny` (any number; the theorems ask that it be positive).  `real_storage` only
repacks the array (`complexToReal`) and is left out.  A sharded array is the global array; each
device sees its block and the halo it receives.
-/
namespace Verif.Vfp2d
open Finset Complex Verif.Spectral

variable {nx ny : ℕ} [NeZero nx] [NeZero ny]

/-- Scalar and vector fields on the grid. -/
abbrev Scal (nx ny : ℕ) := ZMod nx → ZMod ny → ℝ
abbrev Field (nx ny : ℕ) := ZMod nx → ZMod ny → Vec

/-- `ddx`, `ddy` of a real array (vector_field.py:65-73; ohm.py:52-62). -/
noncomputable def ddx (D : Deriv) (a : Scal nx ny) : Scal nx ny := fun x y => D.applyR (fun x' => a x' y) x
noncomputable def ddy (D : Deriv) (a : Scal nx ny) : Scal nx ny := fun x y => D.applyR (fun y' => a x y') y

/-- `curl` (vector_field.py:75-77). -/
noncomputable def curl (dX dY : Deriv) (a : Field nx ny) : Field nx ny := fun x y =>
  ⟨ddy dY (fun x y => (a x y).z) x y, -ddx dX (fun x y => (a x y).z) x y,
    ddx dX (fun x y => (a x y).y) x y - ddy dY (fun x y => (a x y).x) x y⟩

/-- Componentwise arithmetic of vectors. -/
def Vec.add (a b : Vec) : Vec := ⟨a.x + b.x, a.y + b.y, a.z + b.z⟩
def Vec.smul (c : ℝ) (a : Vec) : Vec := ⟨c * a.x, c * a.y, c * a.z⟩

/-- `Maxwell2D.__call__` (vector_field.py:79-82): `dedt`, `dbdt`. -/
noncomputable def dedt (dX dY : Deriv) (c2 : ℝ) (b j : Field nx ny) : Field nx ny := fun x y =>
  ((curl dX dY b x y).smul c2).add ((j x y).smul (-1))
noncomputable def dbdt (dX dY : Deriv) (e : Field nx ny) : Field nx ny := fun x y => (curl dX dY e x y).smul (-1)

/-- `numpy.fft.fft2`, `ifft2`. -/
noncomputable def fft2 (a : ZMod nx → ZMod ny → ℂ) : ZMod nx → ZMod ny → ℂ := fun k l => fft (fun x => fft (a x) l) k
noncomputable def ifft2 (a : ZMod nx → ZMod ny → ℂ) : ZMod nx → ZMod ny → ℂ := fun x y => ifft (fun k => ifft (a k) y) x

/-- `inv_k2` (vector_field.py:91-92). -/
noncomputable def invK2 (dx dy : ℝ) (k : ZMod nx) (l : ZMod ny) : ℝ :=
  if kfull dx k ^ 2 + kfull dy l ^ 2 > 0 then 1 / (kfull dx k ^ 2 + kfull dy l ^ 2) else 0

/-- `SpectralPoisson2D.__call__` (vector_field.py:94-99). -/
noncomputable def poisson (dx dy : ℝ) (rho : Scal nx ny) : Field nx ny := fun x y =>
  let phi := fun k l => (invK2 dx dy k l : ℂ) * fft2 (fun x y => (rho x y : ℂ)) k l
  ⟨(ifft2 (fun k l => -I * (kfull dx k : ℂ) * phi k l) x y).re,
    (ifft2 (fun k l => -I * (kfull dy l : ℂ) * phi k l) x y).re, 0⟩

/-- The state of a run. -/
structure State (nx ny : ℕ) where
  f : Flm nx ny
  e : Field nx ny
  b : Field nx ny

/-- The optional drivers of the Maxwell mode (vector_field.py:130-135): arrays or functions of time. -/
structure Drivers (nx ny : ℕ) where
  externalE : Option (ℝ → Field nx ny)
  externalB : Option (ℝ → Field nx ny)
  current : Option (ℝ → Field nx ny)

/-- `_arg` (vector_field.py:130-135). -/
def driverAt (a : Option (ℝ → Field nx ny)) (t : ℝ) : Field nx ny :=
  match a with
  | some g => g t
  | none => fun _ _ => ⟨0, 0, 0⟩

/-- `VlasovMaxwell.__call__` (vector_field.py:137-155). -/
noncomputable def maxwellRates (o : Op) (c2 charge : ℝ) (d : Drivers nx ny) (t : ℝ) (s : State nx ny) : State nx ny where
  f := o.rate s.f (fun x y => (s.e x y).add (driverAt d.externalE t x y)) (fun x y => (s.b x y).add (driverAt d.externalB t x y))
    fun _ _ _ _ => 0
  e := dedt o.dX o.dY c2 s.b fun x y => (o.current charge o.speed (s.f x y)).add (driverAt d.current t x y)
  b := dbdt o.dX o.dY s.e

/-- `tree_map(lambda value, slope: value + h * slope, state, rate)` (vector_field.py:195-197). -/
def State.advance (s r : State nx ny) (h : ℝ) : State nx ny where
  f := fun x y i j => s.f x y i j + (h : ℂ) * r.f x y i j
  e := fun x y => (s.e x y).add ((r.e x y).smul h)
  b := fun x y => (s.b x y).add ((r.b x y).smul h)

/-- `_ib_gate` (vector_field.py:25-42). -/
noncomputable def ibGate (tOn tOff : Option ℝ) (width t : ℝ) : ℝ :=
  (match tOn with
    | some a => if width > 0 then 0.5 * (1 + Real.tanh ((t - a) / max width 1e-30)) else if t ≥ a then 1 else 0
    | none => 1) *
  (match tOff with
    | some a => if width > 0 then 0.5 * (1 - Real.tanh ((t - a) / max width 1e-30)) else if t < a then 1 else 0
    | none => 1)

/-- What the collision step is given (vector_field.py:176-187, 251-262). -/
structure CollArgs (nx ny : ℕ) where
  Z : Scal nx ny
  ni : Scal nx ny
  d0 : Option (Scal nx ny)
  ibVosc2 : Option (Scal nx ny)
  ibRatio : Option (Scal nx ny)

/-- The run's arguments for collisions and heating (base.py:305-352). -/
structure RunArgs (nx ny : ℕ) extends CollArgs nx ny where
  ibOn : Option ℝ
  ibOff : Option ℝ
  ibWidth : ℝ
  hidden : Option (Scal nx ny)
  hiddenOff : Option ℝ
  hiddenWidth : ℝ

/-- The arguments of one collision call: the laser intensity is gated (vector_field.py:176-187). -/
noncomputable def collArgs (a : RunArgs nx ny) (t : ℝ) : CollArgs nx ny :=
  { a.toCollArgs with ibVosc2 := a.ibVosc2.map fun g x y => g x y * ibGate a.ibOn a.ibOff a.ibWidth t }

/-- A collision operator. -/
abbrev Collide (nx ny : ℕ) := CollArgs nx ny → ℝ → Flm nx ny → Flm nx ny

/-- `_collide` (vector_field.py:173-191, 248-262). -/
noncomputable def collideAt (c : Option (Collide nx ny)) (a : RunArgs nx ny) (t dt : ℝ) (f : Flm nx ny) : Flm nx ny :=
  match c with
  | none => f
  | some g => g (collArgs a t) dt f

/-- `SplitStepVFP2D.__call__` (vector_field.py:193-199). -/
noncomputable def splitStep (o : Op) (c2 charge dt : ℝ) (c : Option (Collide nx ny)) (d : Drivers nx ny) (a : RunArgs nx ny) (t : ℝ)
    (s : State nx ny) : State nx ny :=
  let s1 : State nx ny := { s with f := collideAt c a t (0.5 * dt) s.f }
  let mid := s1.advance (maxwellRates o c2 charge d t s1) (0.5 * dt)
  let s2 := s1.advance (maxwellRates o c2 charge d (t + 0.5 * dt) mid) dt
  { s2 with f := collideAt c a (t + dt) (0.5 * dt) s2.f }

/-! ### Collision adapter -/

/-- The two collision operators `CollisionStep` is built from (collisions.py:49-62): the isotropic
one takes the optional heating and `f00`, the anisotropic one `Z`, `ni`, `f00`, `l` and the mode. -/
structure CollOps where
  iso : Option (Option ℝ → Option (ℝ × ℝ) → ℝ → (ℕ → ℝ) → ℕ → ℝ)
  aniso : Option (ℝ → ℝ → (ℕ → ℝ) → ℕ → ℝ → (ℕ → ℂ) → ℕ → ℂ)

/-- The heating pair of `_local_step` (collisions.py:79-86). -/
def ibPair (ib ratio : Option ℝ) : Except String (Option (ℝ × ℝ)) :=
  match ib, ratio with
  | none, _ => .ok none
  | some _, none => .error "ValueError"
  | some a, some r => .ok (some (a, r))

/-- `AnisotropicCollisions.__call__` at one position (collisions.py:33-47). -/
noncomputable def anisotropic (L : Layout) (op : ℝ → ℝ → (ℕ → ℝ) → ℕ → ℝ → (ℕ → ℂ) → ℕ → ℂ) (Z ni dt : ℝ) (f : Local) : Local := fun i =>
  if (L.pairs.getD i (0, 0)).1 = 0 then f i
  else op Z ni (fun j => (f (L.index 0 0).toNat j).re) (L.pairs.getD i (0, 0)).1 dt (f i)

/-- The isotropic part of `CollisionStep._local_step` at one position (collisions.py:77-89).  With no
isotropic operator the heating is not even looked at. -/
noncomputable def isoStep (L : Layout) (c : CollOps) (dt : ℝ) (d0 ib ratio : Option ℝ) (f : Local) : Except String Local :=
  match c.iso with
  | none => .ok f
  | some op => match ibPair ib ratio with
    | .error e => .error e
    | .ok pair => .ok fun i j =>
        if i = (L.index 0 0).toNat then (op d0 pair dt (fun j => (f (L.index 0 0).toNat j).re) j : ℂ) else f i j

/-- `CollisionStep._local_step` at one position (collisions.py:64-92). -/
noncomputable def collisionStep (L : Layout) (c : CollOps) (Z ni dt : ℝ) (d0 ib ratio : Option ℝ) (f : Local) : Except String Local :=
  match isoStep L c dt d0 ib ratio f with
  | .error e => .error e
  | .ok f' => match c.aniso with
    | none => .ok f'
    | some op => .ok (anisotropic L op Z ni dt f')

/-- `AnisotropicCollisions.__init__` (collisions.py:23-27). -/
def anisoOk (nl : ℕ) (L : Layout) : Except String Unit := if nl < L.lMax then .error "ValueError" else .ok ()

/-! ### Kinetic Ohm law -/

/-- The five terms of `KineticOhm2D.__call__` (ohm.py:112-118). -/
structure OhmTerms (nx ny : ℕ) where
  resistive : Field nx ny
  hall : Field nx ny
  nernst : Field nx ny
  scalar : Field nx ny
  tensor : Field nx ny

/-- `KineticOhm2D.__call__` (ohm.py:64-120), `j` the current it is given. -/
noncomputable def ohmTerms (o : Op) (tiny eta : ℝ) (f : Flm nx ny) (b j : Field nx ny) (hidden : Scal nx ny) : OhmTerms nx ny :=
  let ne := fun x y => o.density (f x y)
  let safeNe := fun x y => max (ne x y) tiny
  let v5 := fun x y => o.scalarMoment tiny 5 (f x y)
  let safeV3 := fun x y => max (o.scalarMoment tiny 3 (f x y)) tiny
  let t3 := fun x y => o.tensorMoment tiny 3 (f x y)
  let div := fun r x y => ddx o.dX (fun x y => ne x y * t3 x y r 0) x y + ddy o.dY (fun x y => ne x y * t3 x y r 1) x y
    + hidden x y * t3 x y r 2
  { resistive := fun x y => (j x y).smul (eta / safeV3 x y)
    hall := fun x y => ((j x y).cross (b x y)).smul (1 / safeNe x y)
    nernst := fun x y => ((o.nernst tiny (f x y) (j x y)).cross (b x y)).smul (-1)
    scalar := fun x y => Vec.smul (-1 / (6 * safeNe x y * safeV3 x y))
      ⟨ddx o.dX (fun x y => ne x y * v5 x y) x y, ddy o.dY (fun x y => ne x y * v5 x y) x y, hidden x y * v5 x y⟩
    tensor := fun x y => Vec.smul (-1 / (2 * safeNe x y * safeV3 x y)) ⟨div 0 x y, div 1 x y, div 2 x y⟩ }

/-- `electric_field` (ohm.py:119). -/
noncomputable def OhmTerms.total (t : OhmTerms nx ny) : Field nx ny := fun x y =>
  ((((t.resistive x y).add (t.hall x y)).add (t.nernst x y)).add (t.scalar x y)).add (t.tensor x y)

/-- `_hidden_dndz` (vector_field.py:276-287). -/
noncomputable def hiddenAt (a : RunArgs nx ny) (t : ℝ) : Scal nx ny :=
  match a.hidden with
  | none => fun _ _ => 0
  | some g => match a.hiddenOff with
    | none => g
    | some off => fun x y => g x y *
        (if a.hiddenWidth > 0 then 0.5 * (1 - Real.tanh ((t - off) / max a.hiddenWidth 1e-30)) else if t < off then 1 else 0)

/-! ### Filters -/

/-- `HouLiFilter2D.__init__` checks (harmonics.py:389-392, 400-402); `dims` the names given. -/
noncomputable def houLiOk (alpha : ℝ) (order : ℤ) (dims : List String) : Except String Unit :=
  if alpha ≤ 0 then .error "ValueError"
  else if order < 1 then .error "ValueError"
  else if dims.all (fun d => d = "x" ∨ d = "y") then .ok () else .error "ValueError"

/-- `_kernel` (harmonics.py:394-397). -/
noncomputable def houLiKernel {N : ℕ} (alpha : ℝ) (order : ℕ) (k : ZMod N) : ℝ :=
  Real.exp (-alpha * |2 * Grid.fftfreqAt N 1 k.val| ^ (2 * order))

/-- `_apply` along one axis (harmonics.py:407-411). -/
noncomputable def houLiRow {N : ℕ} [NeZero N] (alpha : ℝ) (order : ℕ) (a : ZMod N → ℂ) : ZMod N → ℂ :=
  ifft fun k => fft a k * (houLiKernel alpha order k : ℂ)

/-- The block of device `r` and its halo of `h` cells from the two neighbours
(harmonics.py:88-95, 124-133): entry `p` of `padded`, blocks of `M` cells on `P` devices. -/
def shard {n : ℕ} (a : ZMod n → ℂ) (M r i : ℕ) : ℂ := a ((r * M + i : ℕ) : ZMod n)
def padded {n : ℕ} (a : ZMod n → ℂ) (P M h r p : ℕ) : ℂ :=
  if p < h then shard a M ((r + P - 1) % P) (M - h + p)
  else if p < h + M then shard a M r (p - h)
  else shard a M ((r + 1) % P) (p - h - M)

/-- The partitioned derivative of entry `i` of block `r` (harmonics.py:86-105). -/
noncomputable def partDeriv {n : ℕ} (spacing : ℝ) (a : ZMod n → ℂ) (P : ℕ) (r i : ℕ) : ℂ :=
  let M := n / P
  let h := if M ≥ 2 ∧ n ≥ 5 then 2 else 1
  if h = 1 then (padded a P M h r (i + 2) - padded a P M h r i) / (2 * (spacing : ℂ))
  else (padded a P M h r i - 8 * padded a P M h r (i + 1) + 8 * padded a P M h r (i + 3) - padded a P M h r (i + 4)) / (12 * (spacing : ℂ))

/-- `coefficients` (harmonics.py:136). -/
def filterCoeff : List ℤ := [1, -8, 28, -56, 70, -56, 28, -8, 1]

/-- `partitioned_high_order_filter` (harmonics.py:121-141), entry `i` of block `r`. -/
noncomputable def partFilter {n : ℕ} (a : ZMod n → ℂ) (P : ℕ) (r i : ℕ) : ℂ :=
  let M := n / P
  let h := if M ≥ 4 then 4 else 1
  if h = 1 then 0.25 * padded a P M h r i + 0.5 * padded a P M h r (i + 1) + 0.25 * padded a P M h r (i + 2)
  else shard a M r i - (∑ off ∈ range 9, (filterCoeff.getD off 0 : ℂ) * padded a P M h r (i + off)) / 256

/-- `create_spatial_sharding` (distributed.py:42-60): number of devices of the mesh. -/
def createSharding (enabled : Bool) (axis : String) (nx devices : ℕ) : Except String (Option ℕ) :=
  if enabled = false then .ok none
  else if axis ≠ "x" then .error "ValueError"
  else if devices = 0 then .error "ValueError"
  else if nx % devices ≠ 0 then .error "ValueError"
  else .ok (some devices)

/-- `HouLiFilter2D.__call__` on one array (harmonics.py:413-432), not partitioned. -/
noncomputable def houLi2D (alpha : ℝ) (order : ℕ) (dims : List String) (a : ZMod nx → ZMod ny → ℂ) : ZMod nx → ZMod ny → ℂ :=
  let a1 := if "x" ∈ dims then fun x y => houLiRow alpha order (fun x' => a x' y) x else a
  if "y" ∈ dims then fun x y => houLiRow alpha order (a1 x) y else a1

/-! ### The kinetic-Ohm step -/

/-- `conservative_f00_positivity` when asked for (vector_field.py:240-243). -/
noncomputable def Op.positive? (o : Op) (tiny : ℝ) (on : Bool) (f : Flm nx ny) : Flm nx ny :=
  if on then fun x y => o.positive tiny (f x y) else f

/-- `_project` (vector_field.py:267-274). -/
noncomputable def Op.projectTo (o : Op) (tiny c2 : ℝ) (f : Flm nx ny) (b : Field nx ny) : Flm nx ny := fun x y =>
  o.projectCore tiny (f x y) ((curl o.dX o.dY b x y).smul c2)

/-- What the step is built from (vector_field.py:212-238). -/
structure OhmStep (nx ny : ℕ) where
  o : Op
  tiny : ℝ
  c2 : ℝ
  eta : ℝ
  dt : ℝ
  collide : Option (Collide nx ny)
  positivity : Bool
  filter : Option ((ZMod nx → ZMod ny → ℂ) → ZMod nx → ZMod ny → ℂ)

/-- The field of the Ohm law for a state with the Ampère current (vector_field.py:291-297, 327-334). -/
noncomputable def OhmStep.field (S : OhmStep nx ny) (a : RunArgs nx ny) (t : ℝ) (f : Flm nx ny) (b : Field nx ny) : Field nx ny :=
  (ohmTerms S.o S.tiny S.eta f b (fun x y => (curl S.o.dX S.o.dY b x y).smul S.c2) (hiddenAt a t)).total

/-- `_rates` (vector_field.py:289-305). -/
noncomputable def OhmStep.rates (S : OhmStep nx ny) (a : RunArgs nx ny) (t : ℝ) (f : Flm nx ny) (b : Field nx ny) :
    Flm nx ny × Field nx ny :=
  let g := S.o.projectTo S.tiny S.c2 f b
  let e := S.field a t g b
  (S.o.rate g e b fun x y i j => ((hiddenAt a t x y : ℝ) : ℂ) * g x y i j / (max (S.o.density (g x y)) S.tiny : ℝ),
    dbdt S.o.dX S.o.dY e)

/-- One stage: advance, project, make positive (vector_field.py:313-324). -/
noncomputable def OhmStep.stage (S : OhmStep nx ny) (f : Flm nx ny) (b : Field nx ny) (r : Flm nx ny × Field nx ny) (h : ℝ) :
    Flm nx ny × Field nx ny :=
  let b' : Field nx ny := fun x y => (b x y).add ((r.2 x y).smul h)
  (S.o.positive? S.tiny S.positivity (S.o.projectTo S.tiny S.c2 (fun x y i j => f x y i j + (h : ℂ) * r.1 x y i j) b'), b')

/-- The Runge-Kutta combination (vector_field.py:326-327). -/
noncomputable def combine (r1 r2 r3 r4 : Flm nx ny × Field nx ny) : Flm nx ny × Field nx ny :=
  (fun x y i j => r1.1 x y i j + 2 * r2.1 x y i j + 2 * r3.1 x y i j + r4.1 x y i j,
    fun x y => (((r1.2 x y).add ((r2.2 x y).smul 2)).add ((r3.2 x y).smul 2)).add (r4.2 x y))

/-- `_filter` on the distribution and on the magnetic field (vector_field.py:245-246, 332-333). -/
noncomputable def OhmStep.filterF (S : OhmStep nx ny) (f : Flm nx ny) : Flm nx ny :=
  match S.filter with
  | none => f
  | some F => fun x y i j => F (fun x y => f x y i j) x y
noncomputable def OhmStep.filterB (S : OhmStep nx ny) (b : Field nx ny) : Field nx ny :=
  match S.filter with
  | none => b
  | some F => fun x y => ⟨(F (fun x y => ((b x y).x : ℂ)) x y).re, (F (fun x y => ((b x y).y : ℂ)) x y).re,
      (F (fun x y => ((b x y).z : ℂ)) x y).re⟩

/-- `KineticOhmStep.__call__` (vector_field.py:307-337). -/
noncomputable def OhmStep.run (S : OhmStep nx ny) (a : RunArgs nx ny) (t : ℝ) (s : State nx ny) : Except String (State nx ny) :=
  if S.o.layout.index 1 0 < 0 then .error "ValueError"
  else
    let f := S.o.projectTo S.tiny S.c2 (S.o.positive? S.tiny S.positivity (collideAt S.collide a t (0.5 * S.dt) s.f)) s.b
    let r1 := S.rates a t f s.b
    let s2 := S.stage f s.b r1 (0.5 * S.dt)
    let r2 := S.rates a (t + 0.5 * S.dt) s2.1 s2.2
    let s3 := S.stage f s.b r2 (0.5 * S.dt)
    let r3 := S.rates a (t + 0.5 * S.dt) s3.1 s3.2
    let s4 := S.stage f s.b r3 S.dt
    let r4 := S.rates a (t + S.dt) s4.1 s4.2
    let s5 := S.stage f s.b (combine r1 r2 r3 r4) (S.dt / 6)
    let f6 := S.o.positive? S.tiny S.positivity (collideAt S.collide a (t + S.dt) (0.5 * S.dt) s5.1)
    let b7 := S.filterB s5.2
    let f7 := S.o.projectTo S.tiny S.c2 (S.o.positive? S.tiny S.positivity (S.filterF f6)) b7
    .ok ⟨f7, S.field a (t + S.dt) f7 b7, b7⟩

/-! ### Run set-up -/

/-- `nt`, `tmax` (base.py:152-154). -/
noncomputable def runSteps (tmin tmax dt : ℝ) : ℤ := ⌈(tmax - tmin) / dt⌉
noncomputable def runEnd (tmin tmax dt : ℝ) : ℝ := tmin + runSteps tmin tmax dt * dt

/-- The field mode (base.py:157-158, 384-456): what is built. -/
def fieldMode (mode : String) : Except String Bool :=
  if mode = "maxwell" then .ok false else if mode = "kinetic-ohm" then .ok true else .error "ValueError"

/-- `_initial state` (base.py:284-303): `f00` the sum over the species in units of the reference
density, `n` the sum of the density profiles, `ratio` the reference density over the critical one. -/
noncomputable def initialState (o : Op) (dx dy ratio : ℝ) (quasineutral : Bool) (n : Scal nx ny) (f00 : ZMod nx → ZMod ny → ℕ → ℝ) : State nx ny :=
  let f : Flm nx ny := fun x y i j => if i = (o.layout.index 0 0).toNat then ((f00 x y j * ratio : ℝ) : ℂ) else 0
  let ion : Scal nx ny := fun x y =>
    if quasineutral then n x y * ratio else (∑ x', ∑ y', n x' y' * ratio) / (nx * ny)
  { f := f
    e := poisson dx dy fun x y => ion x y - o.density (f x y)
    b := fun _ _ => ⟨0, 0, 0⟩ }

end Verif.Vfp2d
