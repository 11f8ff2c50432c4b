import Verif.Model.Spectral
import Verif.Model.PicLoad
import Verif.Model.Driver
import Mathlib.Analysis.SpecialFunctions.Log.Base

/-!
Model of the two-fluid 1D solver (adept/_tf1d/solvers/pushers.py, solvers/vector_field.py, modules.py) and of
adept/electrostatic.py.

An array of length `N` is a function on `ZMod N`.  The state is a table: species, quantity, cell.  Exact real
arithmetic.  The table of complex frequencies of `get_complex_frequency_table` is data (its rows come out of
`scipy.optimize.newton`); the learned growth rate `args["nu_g"]` is an arbitrary function.  The time integrator
is diffrax's: any explicit Runge-Kutta method (`Tsit5` is one), any sequence of step sizes, and its dense
output, which combines the same stages with other weights.
-/
namespace Verif.TwoFluid
open Finset Complex Verif.Spectral

/-- The keys of the state (modules.py:185-191). -/
inductive Sp | ion | electron
  deriving DecidableEq

/-- The keys of a species (modules.py:186-191). -/
inductive Q | n | u | p | delta
  deriving DecidableEq

/-- The state of modules.py:182-191. -/
abbrev State (N : ℕ) := Sp → Q → ZMod N → ℝ

variable {N : ℕ} [NeZero N]

/-- `gradient` (pushers.py:130-134). -/
noncomputable def gradient (dx : ℝ) (a : ZMod N → ℝ) (x : ZMod N) : ℝ :=
  (ifft (fun k => I * (kfull dx k : ℂ) * fft (fun j => (a j : ℂ)) k) x).re

/-- `PoissonSolver.__call__` (pushers.py:117-118). -/
noncomputable def poissonField (dx : ℝ) (dn : ZMod N → ℝ) (x : ZMod N) : ℝ :=
  (ifft (fun k => I * (oneOverK dx k : ℂ) * fft (fun j => (dn j : ℂ)) k) x).re

/-- `DensityStepper.__call__` (pushers.py:148-149). -/
noncomputable def pushN (dx : ℝ) (n u : ZMod N → ℝ) (x : ZMod N) : ℝ := -u x * gradient dx n x - n x * gradient dx u x

/-- `jnp.interp(x, klds, values, left, right=values[-1])`. -/
noncomputable def interpL (left : ℝ) (rows : List (ℝ × ℝ)) (x : ℝ) : ℝ :=
  match rows with
  | [] => left
  | r :: _ => if x < r.1 then left else PicLoad.interp x rows

/-- The rows `(k λ_D, Re ω, Im ω)` of `get_complex_frequency_table` (electrostatic.py:154-174): the real part is
the given root's or that of the Bohm-Gross formula. -/
noncomputable def table (root : ℝ → ℂ) (kinetic : Bool) (klds : List ℝ) : List (ℝ × ℝ × ℝ) :=
  klds.map fun k => (k, if kinetic then (root k).re else Real.sqrt (1 + 3 * k ^ 2), (root k).im)

/-- The `trapping` section of a species whose `is_on` is set. -/
structure Trapping where
  model : String
  nuee : ℝ
  kld : ℝ

/-- The `physics` section of one species (datamodel.py:68-85); `gamma = none` is the string `kinetic`. -/
structure Physics where
  isOn : Bool
  landau : Bool
  charge : ℝ
  mass : ℝ
  T0 : ℝ
  gamma : Option ℝ
  trapping : Option Trapping

/-- The real frequency at the wave number `k` (pushers.py:178-180). -/
noncomputable def wr (root : ℝ → ℂ) (klds : List ℝ) (ph : Physics) (k : ℝ) : ℝ :=
  interpL 1 ((table root ph.gamma.isNone klds).map fun r => (r.1, r.2.1)) k

/-- `VelocityStepper.wr_corr` (pushers.py:194-197), entry `j`. -/
noncomputable def wrCorr (root : ℝ → ℂ) (klds : List ℝ) (dx : ℝ) (N : ℕ) (ph : Physics) (j : ℕ) : ℝ :=
  match ph.gamma with
  | none => (wr root klds ph (kr N dx j) ^ 2 - 1) * (if j = 0 then 0 else 1 / kr N dx j) ^ 2
  | some _ => 1

/-- `VelocityStepper.wis` (pushers.py:199-202), entry `j`. -/
noncomputable def wi (root : ℝ → ℂ) (klds : List ℝ) (dx : ℝ) (N : ℕ) (ph : Physics) (j : ℕ) : ℝ :=
  if ph.landau then interpL 0 ((table root ph.gamma.isNone klds).map fun r => (r.1, r.2.2)) (kr N dx j) else 0

/-- `trapping_model` (pushers.py:185-189). -/
def trapModel (ph : Physics) : String :=
  match ph.trapping with
  | some t => t.model
  | none => "none"

/-- The factor on the damping term (pushers.py:211-218); `zk_coeff` returns the constant it ends with
(pushers.py:240-242).  The data model admits no other name. -/
noncomputable def coeff (model : String) (delta : ℝ) : ℝ :=
  if model = "zk" then 0.5 else if model = "delta" then 1 / (1 + delta ^ 2) else 1

/-- Whether `landau_damping_term` raises (pushers.py:217-218). -/
def modelKnown (model : String) : Prop := model = "zk" ∨ model = "delta" ∨ model = "none"

/-- `landau_damping_term` (pushers.py:204-220). -/
noncomputable def landauTerm (wis : ℕ → ℝ) (model : String) (u delta : ZMod N → ℝ) (x : ZMod N) : ℝ :=
  2 * filterRow (fun k => (wis k : ℂ)) u x * coeff model (delta x)

/-- `restoring_force_term` (pushers.py:222-223). -/
noncomputable def restoring (corr : ℕ → ℝ) (g : ZMod N → ℝ) : ZMod N → ℝ := filterRow (fun k => (corr k : ℂ)) g

/-- `VelocityStepper.__call__` (pushers.py:244-250). -/
noncomputable def pushU (dx : ℝ) (corr wis : ℕ → ℝ) (model : String) (n u pm qe delta : ZMod N → ℝ) (x : ZMod N) : ℝ :=
  -u x * gradient dx u x - restoring corr (fun y => gradient dx pm y / n y) x - qe x + landauTerm wis model u delta x

/-- `EnergyStepper.gamma` (pushers.py:264-269). -/
def gammaOf (ph : Physics) : ℝ :=
  match ph.gamma with
  | none => 1
  | some g => g

/-- `EnergyStepper.__call__` (pushers.py:271-276). -/
noncomputable def pushE (dx gamma : ℝ) (n u pm qe : ZMod N → ℝ) (x : ZMod N) : ℝ :=
  -u x * gradient dx pm x - gamma * pm x * gradient dx u x - 2 * n x * u x * qe x

/-- `log10`. -/
noncomputable def log10 (x : ℝ) : ℝ := Real.logb 10 x

/-- `ek` (pushers.py:329). -/
noncomputable def ek (e : ZMod N → ℝ) (k : ℕ) : ℂ := rfft e k * 2 / N

/-- `ParticleTrapper.__call__` (pushers.py:328-337); `nuG` is `args["nu_g"]`. -/
noncomputable def trapper (root : ℝ → ℂ) (klds : List ℝ) (dx : ℝ) (ph : Physics) (t : Trapping) (nuG : ℝ → ℝ → ℝ → ℝ)
    (e delta : ZMod N → ℝ) (x : ZMod N) : ℝ :=
  let tab := table root ph.gamma.isNone klds
  let vph := interpL 1 (tab.map fun r => (r.1, r.2.1)) t.kld / t.kld
  let wis : ℕ → ℝ := fun j =>
    if ((klds.getLast?).getD 0) < kr N dx j then 0 else interpL 0 (tab.map fun r => (r.1, r.2.2)) (kr N dx j)
  let amp := PicLoad.interp t.kld ((List.range (N / 2 + 1)).map fun j => (kr N dx j, ‖ek e j‖))
  let normE := (log10 (amp + 1e-10) + 10) / -10
  let normKld := (t.kld - 0.26) / 0.14
  let normNuee := (log10 t.nuee + 7) / -4
  let growth := (10 : ℝ) ^ (3 * nuG normE normKld normNuee)
  let carried := -vph * gradient dx delta x
  carried + growth * abs (irfft N (fun k => ek e k * N / 2 * (wis k : ℂ)) x) / (1 + delta x ^ 2)

/-- One entry of `drivers.ex` (datamodel.py:92-102). -/
structure Pulse where
  k0 : ℝ
  w0 : ℝ
  dw0 : ℝ
  tc : ℝ
  tw : ℝ
  tr : ℝ
  xc : ℝ
  xw : ℝ
  xr : ℝ
  a0 : ℝ

/-- `Driver.__call__` (pushers.py:86-103) at the position `x`. -/
noncomputable def Pulse.field (d : Pulse) (x t : ℝ) : ℝ :=
  Driver.getEnvelope d.tr d.tr (d.tc - d.tw * 0.5) (d.tc + d.tw * 0.5) t *
    Driver.getEnvelope d.xr d.xr (d.xc - d.xw * 0.5) (d.xc + d.xw * 0.5) x * |d.k0| * d.a0 *
    Real.sin (d.k0 * x - (d.w0 + d.dw0) * t)

/-- Everything `VF` holds (vector_field.py:21-44). -/
structure Setup (N : ℕ) where
  dx : ℝ
  x : ZMod N → ℝ
  klds : List ℝ
  root : ℝ → ℂ
  ph : Sp → Physics
  pulses : List Pulse
  nuG : ℝ → ℝ → ℝ → ℝ

namespace Setup

/-- `e` (vector_field.py:55-58). -/
noncomputable def e (s : Setup N) (y : State N) : ZMod N → ℝ :=
  poissonField s.dx fun x => (s.ph .ion).charge * y .ion .n x + (s.ph .electron).charge * y .electron .n x

/-- `ed` (vector_field.py:59-62). -/
noncomputable def ed (s : Setup N) (t : ℝ) (x : ZMod N) : ℝ := s.pulses.foldl (fun acc d => acc + d.field (s.x x) t) 0

/-- `VF.__call__` (vector_field.py:46-99). -/
noncomputable def vf (s : Setup N) (t : ℝ) (y : State N) : State N := fun sp q x =>
  let e := s.e y
  let total : ZMod N → ℝ := fun x => e x + s.ed t x
  let ph := s.ph sp
  let qm := ph.charge / ph.mass
  let pm : ZMod N → ℝ := fun x => y sp .p x / ph.mass
  match q with
  | .n => if ph.isOn then pushN s.dx (y sp .n) (y sp .u) x else 0
  | .u => if ph.isOn then pushU s.dx (wrCorr s.root s.klds s.dx N ph) (wi s.root s.klds s.dx N ph) (trapModel ph)
      (y sp .n) (y sp .u) pm (fun x => qm * total x) (y sp .delta) x else 0
  | .p => if ph.isOn then pushE s.dx (gammaOf ph) (y sp .n) (y sp .u) pm (fun x => qm * e x) x else 0
  | .delta => match ph.trapping with
    | some t => trapper s.root s.klds s.dx ph t s.nuG e (y sp .delta) x
    | none => 0

/-- `init_state_and_args` (modules.py:182-191). -/
def init (s : Setup N) : State N := fun sp q _ =>
  match q with
  | .n => 1
  | .u => 0
  | .p => (s.ph sp).T0
  | .delta => 0

end Setup

/-- An explicit Runge-Kutta method: stage coefficients, nodes and weights. -/
structure Method where
  stages : ℕ
  a : ℕ → ℕ → ℝ
  c : ℕ → ℝ
  b : ℕ → ℝ

/-- Stage `i` of a step of size `h` from `y` at time `t` (diffrax, used at modules.py:250-252). -/
noncomputable def stage {E : Type*} [AddCommGroup E] [Module ℝ E] (m : Method) (F : ℝ → E → E) (t h : ℝ) (y : E) (i : ℕ) : E :=
  F (t + m.c i * h) (y + h • ∑ j : Fin i, m.a i j • stage m F t h y j)
termination_by i
decreasing_by exact j.2

/-- The end of a step; with other weights `b`, the dense output inside it (modules.py:261-271). -/
noncomputable def rkStep {E : Type*} [AddCommGroup E] [Module ℝ E] (m : Method) (b : ℕ → ℝ) (F : ℝ → E → E) (t h : ℝ) (y : E) : E :=
  y + h • ∑ i : Fin m.stages, b i • stage m F t h y i

/-- The time loop of `diffeqsolve` (modules.py:261-271) over the given step sizes: time and state. -/
noncomputable def run {E : Type*} [AddCommGroup E] [Module ℝ E] (m : Method) (F : ℝ → E → E) (t : ℝ) (y : E) : List ℝ → ℝ × E
  | [] => (t, y)
  | h :: hs => run m F (t + h) (rkStep m m.b F t h y) hs

/-- What `saveat` returns at a time inside the step after those of `hs`: `h` is the size of that step, `b` the weights of the
dense output at the time asked for (modules.py:247-252). -/
noncomputable def saved {E : Type*} [AddCommGroup E] [Module ℝ E] (m : Method) (F : ℝ → E → E) (y0 : E) (hs : List ℝ) (h : ℝ) (b : ℕ → ℝ) : E :=
  rkStep m b F (run m F 0 y0 hs).1 h (run m F 0 y0 hs).2

/-- The length of what the two filters of `VelocityStepper.__call__` return for an array of `n` cells: `irfft` is
called without a length (pushers.py:210, 223). -/
def filterLen (n : ℕ) : ℕ := irfftLen (rfftLen n)

/-- Whether `-u * gradient(u) - restoring_force_term(...)` broadcasts (pushers.py:245-250): the lengths agree or one
of them is 1. -/
def broadcasts (n m : ℕ) : Prop := n = m ∨ n = 1 ∨ m = 1

end Verif.TwoFluid
