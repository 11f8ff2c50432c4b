import Mathlib.Analysis.SpecialFunctions.Trigonometric.Basic
import Mathlib.Analysis.SpecialFunctions.Pow.Real
import Mathlib.Algebra.Order.Floor.Ring

/-!
Model of envelopes and drivers: adept/functions.py, adept/_base_.py:21-27,
adept/_vlasov1d/simulation.py (EMDriver, StochasticDriver) and
adept/_vlasov1d/solvers/pushers/field.py:13-91.  Exact real arithmetic; random numbers are
arbitrary.
-/
namespace Verif.Driver

/-- `EnvelopeFunction` (functions.py:47-71). -/
structure Envelope where
  center : ℝ
  width : ℝ
  rise : ℝ
  baseline : ℝ
  height : ℝ
  trough : Bool

/-- `EnvelopeFunction.__call__` (functions.py:73-82). -/
noncomputable def Envelope.eval (e : Envelope) (x : ℝ) : ℝ :=
  let left := e.center - e.width * 0.5
  let right := e.center + e.width * 0.5
  let env := 0.5 * (Real.tanh ((x - left) / e.rise) - Real.tanh ((x - right) / e.rise))
  let env := if e.trough then 1 - env else env
  e.baseline + e.height * env

/-- `get_envelope` (_base_.py:21-27). -/
noncomputable def getEnvelope (wL wR pL pR x : ℝ) : ℝ :=
  0.5 * (Real.tanh ((x - pL) / wL) - Real.tanh ((x - pR) / wR))

/-- `SpaceTimeEnvelopeFunction.__call__` (functions.py:111-117). -/
noncomputable def spaceTime (time space : Envelope) (x t : ℝ) : ℝ := time.eval t * space.eval x

/-- `EMDriver` (simulation.py:36-44). -/
structure EMDriver where
  a0 : ℝ
  k0 : ℝ
  w0 : ℝ
  dw0 : ℝ
  time : Envelope
  space : Envelope
  point : Bool := false

/-- `AKWDriverConfig.check_w_or_k` (datamodel.py:140-145) followed by the wave number and frequency
of `EMDriver.from_config` (simulation.py:54-61): `None` in an arithmetic expression raises
`TypeError`. -/
noncomputable def resolveAKW (c : ℝ) (k0 w0 : Option ℝ) : Except String (ℝ × ℝ) :=
  if k0 = none ∧ w0 = none then .error "ValidationError"
  else match k0, w0 with
    | none, _ => .error "TypeError"        -- w0 = c * params.k0
    | some _, none => .error "TypeError"   -- k0 = params.w0 / c
    | some k, some w => .ok (k, w)

/-- `LongitudinalElectricFieldDriver._single_driver_field` (field.py:21-26). -/
noncomputable def exSingle (d : EMDriver) (x t : ℝ) : ℝ :=
  spaceTime d.time d.space x t * (d.w0 + d.dw0) * d.a0 * Real.sin (d.k0 * x - (d.w0 + d.dw0) * t)

/-- `LongitudinalElectricFieldDriver.__call__` (field.py:28-33). -/
noncomputable def exField (ds : List EMDriver) (x t : ℝ) : ℝ := ds.foldl (fun tot d => tot + exSingle d x t) 0

/-- `jnp.argmin(jnp.abs(xax - center))`: the first point at the smallest distance. -/
noncomputable def nearest (center : ℝ) : List ℝ → ℕ
  | [] => 0
  | [_] => 0
  | x :: y :: l =>
    let i := nearest center (y :: l)
    if |x - center| ≤ |((y :: l).getD i 0) - center| then 0 else i + 1

/-- `TransverseCurrentSourceDriver._single_driver_source` at axis point `i`
(field.py:52-84). -/
noncomputable def eySingle (xax : List ℝ) (c : ℝ) (d : EMDriver) (t : ℝ) (i : ℕ) : ℝ :=
  let dx := xax.getD 1 0 - xax.getD 0 0
  let w := d.w0 + d.dw0
  if d.point then
    let mask : ℝ := if i = nearest d.space.center xax then 1 else 0
    let scale := 2 * w * c * d.a0 / dx
    scale * d.time.eval t * mask * Real.sin (w * t)
  else
    -(spaceTime d.time d.space (xax.getD i 0) t) * w ^ 2 * d.a0 * Real.sin (d.k0 * xax.getD i 0 - w * t)

/-- `TransverseCurrentSourceDriver.__call__` (field.py:86-91). -/
noncomputable def eySource (xax : List ℝ) (c : ℝ) (ds : List EMDriver) (t : ℝ) (i : ℕ) : ℝ :=
  ds.foldl (fun tot d => tot + eySingle xax c d t i) 0

/-! ### Stochastic driver -/

/-- `dt_update` (simulation.py:127-128). -/
noncomputable def dtUpdate (tau : ℝ) (requested : Option ℝ) : ℝ := min (requested.getD (tau / 10)) (tau / 2)

/-- `nt` (simulation.py:129). -/
noncomputable def nUpdates (tmin tmax dt : ℝ) : ℤ := ⌈(tmax - tmin) / dt⌉ + 2

/-- `theta`, `kick` (simulation.py:132-133). -/
noncomputable def theta (tau dt : ℝ) : ℝ := Real.exp (-dt / tau)
noncomputable def kickAmp (amplitude tau dt : ℝ) : ℝ := amplitude * Real.sqrt (1 - theta tau dt ^ 2)

/-- Amplitude of one mode after `n` updates (simulation.py:135-139), real or imaginary part; `xi`
are the random numbers, already divided by `sqrt 2`. -/
noncomputable def ouAmp (amplitude tau dt : ℝ) (xi : ℕ → ℝ) : ℕ → ℝ
  | 0 => amplitude * xi 0
  | n + 1 => theta tau dt * ouAmp amplitude tau dt xi n + kickAmp amplitude tau dt * xi (n + 1)

/-- `StochasticDriver.__call__` at one time (simulation.py:146-151): `modes` are the integer mode
numbers with the amplitudes interpolated to that time. -/
noncomputable def stochField (L : ℝ) (modes : List (ℕ × ℝ × ℝ)) (x : ℝ) : ℝ :=
  (modes.map fun m => m.2.1 * Real.cos (2 * Real.pi * m.1 / L * x) - m.2.2 * Real.sin (2 * Real.pi * m.1 / L * x)).sum

end Verif.Driver
