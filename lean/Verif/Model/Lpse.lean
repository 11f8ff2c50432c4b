import Verif.Model.Spectral
import Verif.Model.Driver
import Verif.Model.Pic

/-!
Model of the 2-D envelope solver for laser-plasma instabilities (adept/_lpse2d): plasma-wave solver
`SpectralEPWSolver`, pump laser, speckled beam, driver modules, density profile, filters, boundaries, units and
saved quantities.

An array `a[nx, ny]` is a function on `ZMod nx × ZMod ny` (curried); complex numbers stored as pairs of floats are
complex numbers.  Exact arithmetic.  External and therefore parameters: random numbers, the parsed units of the deck.
Not modelled: `SpectralPotential` (never constructed; its options are the subject of C171), the
trapping model (never constructed), plotting, the interpolation library.
-/
namespace Verif.Lpse
open Finset Complex Verif.Spectral

abbrev Arr (nx ny : ℕ) (A : Type) := ZMod nx → ZMod ny → A

variable {nx ny : ℕ} [NeZero nx] [NeZero ny]

/-- `jnp.fft.fft2`, `jnp.fft.ifft2`. -/
noncomputable def fft2 (f : Arr nx ny ℂ) : Arr nx ny ℂ := fun a b => fft (fun y => fft (fun x => f x y) a) b
noncomputable def ifft2 (F : Arr nx ny ℂ) : Arr nx ny ℂ := fun x y => ifft (fun b => ifft (fun a => F a b) x) y

/-- `kx`, `ky` (helpers.py:348, 350). -/
noncomputable def kax {N : ℕ} (d : ℝ) (k : ZMod N) : ℝ := Grid.fftfreqAt N (d / 2 / Real.pi) k.val

/-! ### Plasma waves -/

/-- What `SpectralEPWSolver` holds (epw.py:298-358).  `phases`: the random phases drawn for time `t`. -/
structure Epw (nx ny : ℕ) where
  dx : ℝ
  dy : ℝ
  dt : ℝ
  wp0 : ℝ
  w0 : ℝ
  vteSq : ℝ
  e : ℝ
  me : ℝ
  nuColl : ℝ
  envelopeDensity : ℝ
  density : Arr nx ny ℝ
  boundary : Arr nx ny ℝ
  lowPass : Arr nx ny ℝ
  tpd : Bool
  noise : Bool
  densityGradient : Bool
  phases : ℝ → Arr nx ny ℝ

/-- `k_sq` (epw.py:319). -/
noncomputable def Epw.ksq (p : Epw nx ny) (a : ZMod nx) (b : ZMod ny) : ℝ := kax p.dx a ^ 2 + kax p.dy b ^ 2
/-- `one_over_k_sq`, `zero_mask` (epw.py:322-323). -/
noncomputable def Epw.invKsq (p : Epw nx ny) (a : ZMod nx) (b : ZMod ny) : ℝ := if 0 < p.ksq a b then 1 / p.ksq a b else 0
noncomputable def Epw.zeroMask (p : Epw nx ny) (a : ZMod nx) (b : ZMod ny) : ℝ := if 0 < p.ksq a b then 1 else 0

/-- `calc_landau_damping_rate` (epw.py:360-384). -/
noncomputable def Epw.landau (p : Epw nx ny) (a : ZMod nx) (b : ZMod ny) : ℝ :=
  let safe := if 0 < p.ksq a b then p.ksq a b else 1
  (Real.sqrt (Real.pi / 8) * (1 + 1.5 * p.ksq a b * p.vteSq / p.wp0 ^ 2) * p.wp0 ^ 4 /
    (safe ^ (1.5 : ℝ) * p.vteSq ^ (1.5 : ℝ)) * Real.exp (-(1.5 + 0.5 * p.wp0 ^ 2 / (safe * p.vteSq)))) * p.zeroMask a b

/-- `phi_k_to_e_fields` (epw.py:386-420). -/
noncomputable def Epw.exOf (p : Epw nx ny) (phi : Arr nx ny ℂ) : Arr nx ny ℂ := ifft2 fun a b => -I * (kax p.dx a : ℂ) * phi a b
noncomputable def Epw.eyOf (p : Epw nx ny) (phi : Arr nx ny ℂ) : Arr nx ny ℂ := ifft2 fun a b => -I * (kax p.dy b : ℂ) * phi a b

/-- `e_fields_to_phi_k` (epw.py:422-459). -/
noncomputable def Epw.phiOf (p : Epw nx ny) (ex ey : Arr nx ny ℂ) : Arr nx ny ℂ := fun a b =>
  I * ((kax p.dx a : ℂ) * fft2 ex a b + (kax p.dy b : ℂ) * fft2 ey a b) * (p.lowPass a b : ℂ) * (p.invKsq a b : ℂ) * (p.zeroMask a b : ℂ)

/-- `calc_tpd_source` (epw.py:461-505), with `tpd_prefactor` (:347). -/
noncomputable def Epw.tpdSource (p : Epw nx ny) (t : ℝ) (phi ey E0y : Arr nx ny ℂ) : Arr nx ny ℂ :=
  let tpd1 := fft2 fun x y => E0y x y * (starRingEnd ℂ) (ey x y)
  let divE := ifft2 fun a b => (p.ksq a b : ℂ) * phi a b
  let product2 := fft2 fun x y => E0y x y * (starRingEnd ℂ) (divE x y)
  fun a b =>
    let tpd2 := I * (kax p.dy b : ℂ) * (p.invKsq a b : ℂ) * product2 a b
    I * (p.e : ℂ) / (8 * (p.wp0 : ℂ) * (p.me : ℂ)) * cexp (-I * (((p.w0 - 2 * p.wp0) * t : ℝ) : ℂ)) * (tpd1 a b + tpd2) *
      (p.lowPass a b : ℂ) * (p.zeroMask a b : ℂ)

/-- `get_noise` (epw.py:507-533, 351). -/
noncomputable def Epw.noiseAt (p : Epw nx ny) (t : ℝ) : Arr nx ny ℂ := fun a b =>
  ((1e-10 : ℝ) : ℂ) * cexp (I * ((2 * Real.pi * p.phases t a b : ℝ) : ℂ)) * (p.lowPass a b : ℂ) * (p.zeroMask a b : ℂ)

/-- Thermal dispersion, damping, filter and noise (epw.py:569-592). -/
noncomputable def Epw.linear (p : Epw nx ny) (t : ℝ) (phi : Arr nx ny ℂ) : Arr nx ny ℂ := fun a b =>
  phi a b * cexp (-I * ((1.5 * p.vteSq / p.wp0 * p.ksq a b * p.dt : ℝ) : ℂ)) *
    ((Real.exp (-(p.landau a b + p.nuColl) * p.dt) : ℝ) : ℂ) * (p.lowPass a b : ℂ) +
    if p.noise then (p.dt : ℂ) * p.noiseAt t a b else 0

/-- Density gradient and absorbing boundaries (epw.py:609-628). -/
noncomputable def Epw.local (p : Epw nx ny) (E : Arr nx ny ℂ) : Arr nx ny ℂ := fun x y =>
  (if p.densityGradient then
    E x y * cexp (-I * ((p.wp0 / 2 * (p.density x y / p.envelopeDensity - 1) * p.dt : ℝ) : ℂ)) else E x y) * (p.boundary x y : ℂ)

/-- `SpectralEPWSolver.__call__` (epw.py:535-644). -/
noncomputable def Epw.step (p : Epw nx ny) (t : ℝ) (phi : Arr nx ny ℂ) (E0y : Arr nx ny ℂ) : Arr nx ny ℂ :=
  let phi1 := p.linear t phi
  let ex := p.exOf phi1
  let ey := p.eyOf phi1
  fun a b => p.phiOf (p.local ex) (p.local ey) a b + if p.tpd then (p.dt : ℂ) * p.tpdSource t phi1 ey E0y a b else 0

/-- The `terms` section of a deck (datamodel.py:129-160). -/
structure Terms where
  tpd : Bool
  srs : Bool
  noise : Bool
  densityGradient : Bool
  linear : Bool
  landau : Bool
  zeroMask : Bool
  hyperviscosity : ℝ
/-- What the solver takes from it (epw.py:345, 350, 355): nothing else is read. -/
def Epw.configure (p : Epw nx ny) (o : Terms) : Epw nx ny :=
  { p with tpd := o.tpd, noise := o.noise, densityGradient := o.densityGradient }

/-! ### Pump laser -/

/-- One colour: `delta_omega[i]`, `intensities[i, :]`, `phases[i, :]` (laser.py:67-70). -/
structure Colour (ny : ℕ) where
  deltaOmega : ℝ
  intensity : ZMod ny → ℝ
  phase : ZMod ny → ℝ

/-- What `Light` holds (laser.py:6-49).  `speckle t y`: the speckle envelope divided by its normalisation, if any. -/
structure Light (nx ny : ℕ) where
  E0 : ℝ
  c : ℝ
  w0 : ℝ
  wp0 : ℝ
  dx : ℝ
  density : Arr nx ny ℝ
  speckle : Option (ℝ → ZMod ny → ℂ)

/-- `dk`, `Lx` (laser.py:15-16). -/
noncomputable def Light.dk (l : Light nx ny) : ℝ := 2 * Real.pi / ((nx : ℝ) * l.dx)
noncomputable def Light.Lx (l : Light nx ny) : ℝ := (nx : ℝ) * l.dx

/-- `k0` (laser.py:73). -/
noncomputable def Light.k0 (l : Light nx ny) (dw : ℝ) : ℝ := l.w0 / l.c * Real.sqrt ((1 + dw) ^ 2 - l.wp0 ^ 2 / l.w0 ^ 2)
/-- `jnp.round(k0 / self.dk).astype(int)` (laser.py:74). -/
noncomputable def Light.modeOf (l : Light nx ny) (dw : ℝ) : ℤ := Pic.roundEven (l.k0 dw / l.dk)
/-- `k_index` (laser.py:74). -/
noncomputable def Light.index (l : Light nx ny) (dw : ℝ) : ZMod nx := ((l.modeOf dw + ((nx / 2 : ℕ) : ℤ) : ℤ) : ZMod nx)
/-- `amp` (laser.py:75-82). -/
noncomputable def Light.amp (l : Light nx ny) (t : ℝ) (q : Colour ny) (y : ZMod ny) : ℂ :=
  (l.E0 : ℂ) * ((Real.sqrt (q.intensity y) : ℝ) : ℂ) *
    cexp (-I * ((q.deltaOmega * l.w0 * t - (q.phase y - l.Lx / 2 * l.k0 q.deltaOmega) : ℝ) : ℂ))

/-- `E0y_k` (laser.py:66-83). -/
noncomputable def Light.spectrum (l : Light nx ny) (t : ℝ) (qs : List (Colour ny)) : Arr nx ny ℂ :=
  qs.foldl (fun E q => fun a y => if a = l.index q.deltaOmega then E a y + l.amp t q y else E a y) (fun _ _ => 0)

/-- `ifftshift(., axes=0)`. -/
def ifftshift (E : Arr nx ny ℂ) : Arr nx ny ℂ := fun a y => E (a + ((nx / 2 : ℕ) : ZMod nx)) y

/-- `laser_update`, the y component (laser.py:51-100); the x component is zero. -/
noncomputable def Light.update (l : Light nx ny) (t : ℝ) (qs : List (Colour ny)) : Arr nx ny ℂ := fun x y =>
  (nx : ℂ) * ifft (fun a => ifftshift (l.spectrum t qs) a y) x *
    (((1 - (l.w0 * Real.sqrt (l.density x y)) ^ 2 / l.w0 ^ 2) ^ (-(0.25 : ℝ)) : ℝ) : ℂ) *
    (match l.speckle with
     | some s => s t y
     | none => 1)

/-! ### The step -/

/-- The state (base.py:98-100): `E0` and `E1` have two components. -/
structure State (nx ny : ℕ) where
  epw : Arr nx ny ℂ
  E0 : Fin 2 → Arr nx ny ℂ
  E1 : Fin 2 → Arr nx ny ℂ

/-- `drivers.E0` in the arguments: colours and temporal envelope (vector_field.py:67-70). -/
structure Pump (ny : ℕ) where
  colours : List (Colour ny)
  tc : ℝ
  tw : ℝ
  tr : ℝ

/-- `get_envelope_coefficient` (vector_field.py:58-65). -/
noncomputable def Pump.envelope (q : Pump ny) (t : ℝ) : ℝ := Driver.getEnvelope q.tr q.tr (q.tc - q.tw / 2) (q.tc + q.tw / 2) t

/-- `SplitStep.__call__` (vector_field.py:67-91) without an `E2` driver, for which `self.epw.driver` raises. -/
noncomputable def split (p : Epw nx ny) (l : Light nx ny) (pump : Option (Pump ny)) (t : ℝ) (s : State nx ny) : State nx ny :=
  let E0 : Fin 2 → Arr nx ny ℂ := match pump with
    | some q => fun i x y => (q.envelope t : ℂ) * if i = 1 then l.update t q.colours x y else 0
    | none => s.E0
  { epw := p.step t s.epw (E0 1)
    E0 := E0
    E1 := fun i x y => s.E1 i x y * (p.boundary x y : ℂ) }

/-- `Stepper` over the time loop (_base_.py:30-57, base.py:123-134): the state after `n` steps. -/
noncomputable def run (p : Epw nx ny) (l : Light nx ny) (pump : Option (Pump ny)) (s : State nx ny) : ℕ → State nx ny
  | 0 => s
  | n + 1 => split p l pump ((n : ℝ) * p.dt) (run p l pump s n)

/-- The initial state (base.py:93-102): the noise drawn there is multiplied by zero. -/
def initial : State nx ny := ⟨fun _ _ => 0, fun _ _ _ => 0, fun _ _ _ => 0⟩

/-! ### Filters and boundaries -/

/-- `k_mag` (helpers.py:403), `kmax` (:404). -/
noncomputable def kmag (dx dy : ℝ) (a : ZMod nx) (b : ZMod ny) : ℝ := Real.sqrt (kax dx a ^ 2 + kax dy b ^ 2)
noncomputable def kmax (nx : ℕ) [NeZero nx] (dx : ℝ) : ℝ := univ.sup' univ_nonempty fun a : ZMod nx => kax dx a
noncomputable def nyquist (N : ℕ) [NeZero N] (d : ℝ) : ℝ := univ.sup' univ_nonempty fun a : ZMod N => |kax d a|

/-- The isotropic filter (helpers.py:403-422). -/
noncomputable def isotropic (dx dy lowPass taper : ℝ) (a : ZMod nx) (b : ZMod ny) : ℝ :=
  let cutoff := lowPass * kmax nx dx
  let k := kmag dx dy a b
  if cutoff ≤ 0 then 1
  else if taper ≤ 0 then (if k < cutoff then 1 else 0)
  else
    let start := max (cutoff * (1 - taper)) 0
    if cutoff ≤ k then 0
    else if start ≤ k ∧ start < cutoff then 0.5 * (1 + Real.cos (Real.pi * ((k - start) / (cutoff - start)))) else 1

/-- `_pump_k_support` (helpers.py:280-316); `pump`: `delta_omega_max` if there is an E0 driver, `na`: numerical aperture of
an enabled speckle. -/
noncomputable def pumpSupport (w0 c wp0 : ℝ) (pump : Option (ℝ × Option ℝ)) : ℝ × ℝ :=
  match pump with
  | none => (0, 0)
  | some (dw, na) =>
    let k0 := w0 / c * Real.sqrt ((1 + dw) ^ 2 - (wp0 / w0) ^ 2)
    (k0, match na with
      | some a => k0 * a
      | none => 0)

/-- `low_pass_filter_grid` (helpers.py:424-451). -/
noncomputable def filterGrid (dx dy lowPass taper : ℝ) (dealias : String) (support : ℝ × ℝ) : Except String (Arr nx ny ℝ) :=
  if dealias = "shifted-band" then
    let kxl := nyquist nx dx - support.1
    let kyl := nyquist ny dy - support.2
    if kxl ≤ 0 ∨ kyl ≤ 0 then .error "ValueError"
    else .ok fun a b => isotropic dx dy lowPass taper a b * if |kax dx a| ≤ kxl ∧ |kax dy b| ≤ kyl then 1 else 0
  else if dealias = "isotropic" then .ok fun a b => isotropic dx dy lowPass taper a b
  else .error "ValueError"

/-- One direction of the boundary (helpers.py:375-391); any kind but "absorbing" is periodic. -/
noncomputable def envelopeAxis (kind : String) (width lo hi x : ℝ) : ℝ :=
  if kind = "absorbing" then Driver.getEnvelope (width / 5) (width / 5) (lo + width) (hi - width) x else 1

/-- `absorbing_boundaries` (helpers.py:393-395). -/
noncomputable def absorbing (coeff dt ex ey : ℝ) : ℝ := Real.exp (-coeff * dt * (1 - ex * ey))

/-! ### Density -/

/-- The grid length for a linear profile (helpers.py:220-223). -/
noncomputable def linearLength (L nmin nmax : ℝ) : ℝ := L / 0.25 * (nmax - nmin)

/-- The profiles of `get_density_profile` (helpers.py:504-556): one value for every cell, or one for every `x` only. -/
inductive Profile where
  | full (n : ℝ → ℝ)
  | row (n : ℝ → ℝ)

/-- `get_density_profile` (helpers.py:504-556).  `exponential` asks for a unit that is never defined. -/
noncomputable def profile (basis : String) (nmin nmax xmax baseline amplitude wavenumber height left right rise : ℝ) (trough : Bool) :
    Except String Profile :=
  if basis = "uniform" then .ok (.full fun _ => 1)
  else if basis = "linear" then .ok (.full fun x => nmin + (nmax - nmin) * x / xmax)
  else if basis = "exponential" then .error "KeyError"
  else if basis = "tanh" then .ok (.row fun x =>
    baseline + height * (if trough then 1 - Driver.getEnvelope rise rise left right x else Driver.getEnvelope rise rise left right x))
  else if basis = "sine" then .ok (.row fun x => baseline * (1 + amplitude * Real.sin (wavenumber * x)))
  else .error "NotImplementedError"

/-- The density at cell `(i, j)` as the product with an array of shape `(nx, ny)` uses it (epw.py:616-619): a profile of shape
`(nx,)` is broadcast along the *last* axis, which needs `nx = ny` (or one cell). -/
noncomputable def densityAt (nx ny : ℕ) (xs : ℕ → ℝ) (q : Profile) (i j : ℕ) : Except String ℝ :=
  match q with
  | .full n => .ok (n (xs i))
  | .row n => if nx = ny then .ok (n (xs j)) else if nx = 1 then .ok (n (xs 0)) else .error "TypeError"

/-- The cell centres `x` (helpers.py:337-341). -/
noncomputable def xAt (nx : ℕ) (xmax : ℝ) (i : ℕ) : ℝ := Grid.linspaceAt (xmax / nx / 2) (xmax - xmax / nx / 2) nx i

/-! ### Driver modules -/

/-- `delta_omega` (modules/driver.py:75-77). -/
noncomputable def deltaOmega (a : ℝ) (num : ℕ) (i : ℕ) : ℝ := Grid.linspaceAt (-a) a num i

/-- Unnormalised intensities of `UniformDriver`, `GaussianDriver`, `LorentzianDriver` (modules/driver.py:74, 179-185, 192-194). -/
noncomputable def weight (shape : String) (a dw : ℝ) : ℝ :=
  if shape = "gaussian" then 2 * Real.log 2 / a / Real.sqrt Real.pi * Real.exp (-4 * Real.log 2 * (dw / a) ^ 2)
  else if shape = "lorentzian" then 1 / Real.pi * (a / 2) / (dw ^ 2 + (a / 2) ^ 2)
  else 1

/-- `UniformDriver.__call__`: normalised intensities and phases (modules/driver.py:99-107). -/
noncomputable def normalised (num : ℕ) (w : ℕ → ℝ) (i : ℕ) : ℝ := w i / ∑ j ∈ range num, w j
noncomputable def phaseOf (raw : ℝ) : ℝ := Real.tanh raw * Real.pi

/-- `ArbitraryDriver.scale_intensities` (modules/driver.py:126-140). -/
noncomputable def scaleIntensity (activation : String) (x : ℝ) : Except String ℝ :=
  if activation = "linear" then .ok (0.5 * (Real.tanh x + 1))
  else if activation = "log" then .ok ((10 : ℝ) ^ (3 * (Real.tanh x + 1) - 3))
  else if activation = "log-3wide" then .ok ((10 : ℝ) ^ (-1.5 * (Real.tanh x + 1)))
  else .error "NotImplementedError"

/-- Dimensions of the `intensities` a driver of the given shape hands to `laser_update` (modules/driver.py:47-61, 101-106, 163-172), and the
indexing `[i, :]` there (laser.py:69-70). -/
def intensityDims (shape : String) : Except String ℕ :=
  if shape = "arbitrary" then .ok 1
  else if shape = "uniform" ∨ shape = "gaussian" ∨ shape = "lorentzian" then .ok 2
  else .error "NotImplementedError"
def indexColour (dims : ℕ) : Except String Unit := if 2 ≤ dims then .ok () else .error "IndexError"
/-- The first call of the pump with a driver of the given shape. -/
def pumpRuns (shape : String) : Except String Unit :=
  match intensityDims shape with
  | .ok d => indexColour d
  | .error e => .error e

/-- `hasattr(model_cfg)`: only `ArbitraryDriver` has the attribute `save` writes (modules/driver.py:83-97, 110-116). -/
def saveDriver (shape : String) : Except String Unit := if shape = "arbitrary" then .ok () else .error "AttributeError"

/-- `load` (modules/driver.py:10-44): which reader is used, by substring. -/
def hasSub (s pat : List Char) : Bool := match s with
  | [] => pat.isEmpty
  | c :: cs => pat.isPrefixOf (c :: cs) || hasSub cs pat
def loadKind (filename : String) : Except String String :=
  if hasSub filename.toList "://".toList then .error "ValueError"
  else if hasSub filename.toList "pkl".toList then .ok "pickle"
  else if hasSub filename.toList "eqx".toList then .ok "eqx"
  else .error "NotImplementedError"

/-- Constructing `SplitStep` and its first call, as far as the driver keys decide (vector_field.py:25-26, 83-84; laser.py:26;
epw.py:298-358). -/
def firstStep (drivers : List String) : Except String Unit :=
  if !drivers.contains "E0" then .error "KeyError"
  else if drivers.contains "E2" then .error "AttributeError"
  else .ok ()

/-! ### Units -/

/-- `write_units` (helpers.py:71-174): the derived quantities used by the solver; `cCgs`, `meCgs`, `eCgs` the constants. -/
structure Units where
  c : ℝ
  me : ℝ
  e : ℝ
  w0 : ℝ
  wp0 : ℝ
  vteSq : ℝ
  nc : ℝ
  E0 : ℝ
  timeScale : ℝ
  spatialScale : ℝ
  fieldScale : ℝ
noncomputable def units (cCgs meCgs eCgs TekeV lam0 I0 envDensity : ℝ) : Units :=
  let timeScale : ℝ := 1e-12
  let spatialScale : ℝ := 1e-4
  let velocityScale := spatialScale / timeScale
  let chargeScale := spatialScale ^ (3 / 2 : ℝ) / timeScale
  let fieldScale := 1 / spatialScale ^ (1 / 2 : ℝ) / timeScale
  let c := cCgs / velocityScale
  let e := eCgs / chargeScale
  let w0 := 2 * Real.pi * c / lam0
  let vte := c * Real.sqrt (TekeV / 511)
  { c, me := meCgs, e, w0
    wp0 := w0 * Real.sqrt envDensity
    vteSq := vte ^ 2
    nc := w0 ^ 2 * meCgs / (4 * Real.pi * e ^ 2)
    E0 := Real.sqrt (8 * Real.pi * I0 * 1e7 / cCgs) / fieldScale
    timeScale, spatialScale, fieldScale }

/-- Which branch defines `logLambda_ei` when `collisions` is true (helpers.py:135-138), which one `coulomb_log` (:124-126):
`some true` for the low-temperature formula, `none` when the name stays unbound. -/
noncomputable def logLambdaBranch (TeV Z : ℝ) : Option Bool :=
  if TeV < 0.01 * Z ^ 2 then some true else if 0.01 * Z ^ 2 < TeV then some false else none
noncomputable def coulombBranch (TeV Z : ℝ) : Bool := TeV < 10 * Z ^ 2

/-- A `collisions` value of the deck. -/
inductive Coll where
  | bool (b : Bool)
  | float (x : ℝ)
  | int (n : ℤ)
/-- `nu_coll` (helpers.py:133-150); `formula` is the value of the expression with a bound logarithm. -/
noncomputable def nuColl (v : Coll) (TeV Z : ℝ) (formula : Bool → ℝ) : Except String ℝ :=
  match v with
  | .bool true => match logLambdaBranch TeV Z with
    | some b => .ok (formula b)
    | none => .error "UnboundLocalError"
  | .bool false => .ok 0
  | .float x => .ok x
  | .int n => if n = 0 then .ok 0 else .error "UnboundLocalError"

/-! ### Saved quantities -/

/-- `e_sq` and `max_phi` of the default series (helpers.py:862-873). -/
noncomputable def eSq (dx dy : ℝ) (phi : Arr nx ny ℂ) : ℝ :=
  ∑ x, ∑ y, (‖ifft2 (fun a b => -I * (kax dx a : ℂ) * phi a b) x y‖ ^ 2 + ‖ifft2 (fun a b => -I * (kax dy b : ℂ) * phi a b) x y‖ ^ 2) * dx * dy
noncomputable def maxPhi (phi : Arr nx ny ℂ) : ℝ := univ.sup' univ_nonempty fun k : ZMod nx × ZMod ny => ‖phi k.1 k.2‖

/-- `phi`, `ex`, `ey` of the stored fields (helpers.py:723-742). -/
noncomputable def savedPhi (phi : Arr nx ny ℂ) : Arr nx ny ℂ := ifft2 phi
noncomputable def savedEx (dx : ℝ) (phi : Arr nx ny ℂ) : Arr nx ny ℂ := fun x y =>
  ifft2 (fun a b => -I * (kax dx a : ℂ) * phi a b) x y / (nx : ℂ) / (ny : ℂ) * 4
noncomputable def savedEy (dy : ℝ) (phi : Arr nx ny ℂ) : Arr nx ny ℂ := fun x y =>
  ifft2 (fun a b => -I * (kax dy b : ℂ) * phi a b) x y / (nx : ℂ) / (ny : ℂ) * 4

/-- The axis of the stored fields when `save.fields.x` is given: as many points as the grid whatever `dx` says (helpers.py:799-807). -/
noncomputable def savedAxis (nx : ℕ) (xmax dxSave : ℝ) (i : ℕ) : ℝ := Grid.linspaceAt (dxSave / 2) (xmax - dxSave / 2) nx i
/-- One-dimensional linear interpolation between the nodes `x i`, as used for every stored array, `epw` included
(helpers.py:820-850). -/
noncomputable def savedInterp (n : ℕ) (x : ℕ → ℝ) (f : ℕ → ℂ) (q : ℝ) : ℂ :=
  let i := ((List.range (n - 1)).filter fun i => x i ≤ q).length - 1
  f i + (((q - x i) / (x (i + 1) - x i) : ℝ) : ℂ) * (f (i + 1) - f i)

/-- Columns of a stored array viewed as complex numbers: `_complex` is `complex64` because the stored state is never complex
(helpers.py:717-723); the state has `2 * ny` floats per row (base.py:102), of 8 bytes in a 64-bit process, of 4 otherwise. -/
def viewColumns (x64 : Bool) (ny : ℕ) : ℕ := 2 * ny * (if x64 then 8 else 4) / 8
/-- `make_field_xarrays` as far as the shapes decide: product with `ky` of `ny` entries and coordinates (helpers.py:723-742). -/
def makeFields (x64 : Bool) (ny : ℕ) : Except String Unit := if viewColumns x64 ny = ny then .ok () else .error "ValueError"

end Verif.Lpse
