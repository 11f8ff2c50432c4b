import Verif.Model.Integrator
import Mathlib.Algebra.Order.Floor.Ring

/-!
Model of the particle-in-cell solver (adept/_pic1d): particle shapes, deposition, gather,
drift, kick and the two integrators.  Exact real arithmetic; the driver is an arbitrary
function of time.
-/
namespace Verif.Pic
open Finset Verif.Spectral

/-- One macro-particle. -/
structure Particle where
  x : ℝ
  v : ℝ
  w : ℝ

/-- A species and its particles (modules.py:95-103; `charge_to_mass` is `charge / mass`). -/
structure PSpecies where
  charge : ℝ
  mass : ℝ
  ps : List Particle

/-- `particle_shape` (shape.py:24-51). -/
inductive Shape
  | linear
  | tsc
  | cubic
  deriving DecidableEq

/-- The names the code knows; anything else raises `ValueError` (shape.py:53). -/
def Shape.ofName : String → Except String Shape
  | "linear" => .ok .linear
  | "tsc" => .ok .tsc
  | "cubic" => .ok .cubic
  | _ => .error "ValueError"

/-- `jnp.round`: to the nearest integer, ties to even. -/
noncomputable def roundEven (x : ℝ) : ℤ :=
  if Int.fract x < 1 / 2 then ⌊x⌋ else if 1 / 2 < Int.fract x then ⌊x⌋ + 1 else if ⌊x⌋ % 2 = 0 then ⌊x⌋ else ⌊x⌋ + 1

/-- `s_real` (shape.py:22). -/
noncomputable def gridPos (dx xmin x : ℝ) : ℝ := (x - xmin) / dx - 1 / 2

/-- `_shape_indices_weights` as a function of `s_real`, before the indices are taken modulo
`nx` (shape.py:24-51). -/
noncomputable def stencilAt (shape : Shape) (sr : ℝ) : List (ℤ × ℝ) :=
  match shape with
  | .linear =>
    let ig := ⌊sr⌋
    let s := sr - ig
    [(ig, 1 - s), (ig + 1, s)]
  | .tsc =>
    let ig := roundEven sr
    let s := sr - ig
    [(ig - 1, 1 / 2 * (1 / 2 - s) ^ 2), (ig, 3 / 4 - s ^ 2), (ig + 1, 1 / 2 * (1 / 2 + s) ^ 2)]
  | .cubic =>
    let ig := ⌊sr⌋
    let s := sr - ig
    [(ig - 1, (1 - s) ^ 3 / 6), (ig, 2 / 3 - s ^ 2 + s ^ 3 / 2), (ig + 1, 2 / 3 - (1 - s) ^ 2 + (1 - s) ^ 3 / 2),
      (ig + 2, s ^ 3 / 6)]

/-- The stencil of a particle (shape.py:17-22). -/
noncomputable def stencil (shape : Shape) (dx xmin x : ℝ) : List (ℤ × ℝ) := stencilAt shape (gridPos dx xmin x)

/-- What one particle adds to cell `g`, divided by its weight (shape.py:79-81; scatter-add,
so repeated indices accumulate). -/
noncomputable def share {nx : ℕ} (shape : Shape) (dx xmin x : ℝ) (g : ZMod nx) : ℝ :=
  ((stencil shape dx xmin x).map fun iw => if (iw.1 : ZMod nx) = g then iw.2 else 0).sum

/-- `deposit` (shape.py:56-82). -/
noncomputable def deposit {nx : ℕ} (shape : Shape) (dx xmin : ℝ) (ps : List Particle) (g : ZMod nx) : ℝ :=
  (ps.map fun p => ((stencil shape dx xmin p.x).map fun iw => if (iw.1 : ZMod nx) = g then iw.2 * p.w else 0).sum).sum / dx

/-- `gather` (shape.py:85-98). -/
noncomputable def gather {nx : ℕ} (shape : Shape) (dx xmin : ℝ) (field : ZMod nx → ℝ) (x : ℝ) : ℝ :=
  ((stencil shape dx xmin x).map fun iw => iw.2 * field (iw.1 : ZMod nx)).sum

/-- `ParticleChargeDensity.__call__` (field.py:50-57). -/
noncomputable def chargeOf {nx : ℕ} (shape : Shape) (dx xmin : ℝ) (ss : List PSpecies) (g : ZMod nx) : ℝ :=
  (ss.map fun s => s.charge * deposit shape dx xmin s.ps g).sum

/-- `jnp.mod(y, L)` for positive `L`. -/
noncomputable def modL (y L : ℝ) : ℝ := y - L * ⌊y / L⌋

/-- The periodic wrap of `_drift` (push.py:29). -/
noncomputable def wrap (xmin xmax x : ℝ) : ℝ := modL (x - xmin) (xmax - xmin) + xmin

/-- `_drift` (push.py:22-31). -/
noncomputable def drift (dt xmin xmax : ℝ) (ss : List PSpecies) : List PSpecies :=
  ss.map fun s => { s with ps := s.ps.map fun p => { p with x := wrap xmin xmax (p.x + dt * p.v) } }

/-- Parameters of the kicker (push.py:50-68) and of the box. -/
structure Box (nx : ℕ) where
  shape : Shape
  dx : ℝ
  xmin : ℝ
  xmax : ℝ
  /-- `static_charge_density`; zero when the code has none -/
  static : ZMod nx → ℝ
  /-- the longitudinal driver -/
  driver : ℝ → ZMod nx → ℝ

variable {nx : ℕ} [NeZero nx]

/-- `e_sc` (push.py:70-74, field.py:27-30). -/
noncomputable def selfField (b : Box nx) (ss : List PSpecies) : ZMod nx → ℝ :=
  poisson b.dx fun g => chargeOf b.shape b.dx b.xmin ss g + b.static g

/-- `_Kicker.apply` (push.py:76-96): new particles and the two fields. -/
noncomputable def kick (b : Box nx) (dt t : ℝ) (a : Option (ℕ → ℝ)) (ss : List PSpecies) :
    List PSpecies × (ZMod nx → ℝ) × (ZMod nx → ℝ) :=
  let esc := selfField b ss
  let edrv := b.driver t
  let etot := fun g => esc g + edrv g
  let accel := fun (s : PSpecies) (x : ℝ) =>
    let qm := s.charge / s.mass
    let ep := gather b.shape b.dx b.xmin etot x
    match a with
    | some a => qm * ep + qm * qm * gather b.shape b.dx b.xmin (ponderomotive (nx := nx) b.dx a) x
    | none => qm * ep
  (ss.map fun s => { s with ps := s.ps.map fun p => { p with v := p.v + dt * accel s p.x } }, esc, edrv)

/-- `LeapfrogIntegrator.__call__`, `Yoshida4Integrator._inner_leapfrog` (push.py:115-119,
143-147). -/
noncomputable def kdk (b : Box nx) (dt t : ℝ) (a : Option (ℕ → ℝ)) (ss : List PSpecies) :
    List PSpecies × (ZMod nx → ℝ) × (ZMod nx → ℝ) :=
  kick b (0.5 * dt) (t + dt) a (drift dt b.xmin b.xmax (kick b (0.5 * dt) t a ss).1)

/-- `cbrt2`, `dt1`, `dt2` (push.py:136-138). -/
noncomputable def cbrt2 : ℝ := 2 ^ (1 / 3 : ℝ)
noncomputable def dt1 (dt : ℝ) : ℝ := dt / (2 - cbrt2)
noncomputable def dt2 (dt : ℝ) : ℝ := -cbrt2 * dt1 dt

/-- `Yoshida4Integrator.__call__` (push.py:139-154). -/
noncomputable def yoshida (b : Box nx) (dt t : ℝ) (a : Option (ℕ → ℝ)) (ss : List PSpecies) :
    List PSpecies × (ZMod nx → ℝ) × (ZMod nx → ℝ) :=
  let s1 := (kdk b (dt1 dt) (t + 0) a ss).1
  let s2 := (kdk b (dt2 dt) (t + dt1 dt) a s1).1
  kdk b (dt1 dt) (t + (dt1 dt + dt2 dt)) a s2

/-- `terms.time` (vector_field.py:59-65). -/
inductive Scheme
  | leapfrog
  | yoshida4
  deriving DecidableEq

/-- The names the code knows (vector_field.py:59-65). -/
def Scheme.ofName : String → Except String Scheme
  | "leapfrog" => .ok .leapfrog
  | "yoshida4" => .ok .yoshida4
  | _ => .error "NotImplementedError"

/-- `self.stepper` (vector_field.py:59-63). -/
noncomputable def push (b : Box nx) (sch : Scheme) (dt t : ℝ) (a : Option (ℕ → ℝ)) (ss : List PSpecies) :
    List PSpecies × (ZMod nx → ℝ) × (ZMod nx → ℝ) :=
  match sch with
  | .leapfrog => kdk b dt t a ss
  | .yoshida4 => yoshida b dt t a ss

/-- The particles after `n` steps of a run without light wave, starting at time `t`
(the stepping loop calls `PIC1DVectorField.__call__`, vector_field.py:98-133). -/
noncomputable def pushRun (b : Box nx) (sch : Scheme) (dt t : ℝ) (ss : List PSpecies) : ℕ → List PSpecies
  | 0 => ss
  | n + 1 => (push b sch dt (t + n * dt) none (pushRun b sch dt t ss n)).1

end Verif.Pic
