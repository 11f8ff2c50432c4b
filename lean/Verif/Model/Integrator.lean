import Verif.Model.Spectral
import Mathlib.Tactic.NormNum

/-!
Model of the Vlasov-1D time step (adept/_vlasov1d/solvers/vector_field.py): the leapfrog and
sixth-order integrators over the spectral pushers and the field solvers.  The state is the
list of kinetic species.  The cubic-spline velocity push has its own model.
-/
namespace Verif.Spectral
open Finset

variable {nx : ℕ}

/-- `self.edfdv` for one species (vector_field.py:41-52, vlasov.py:74-92). -/
noncomputable def pushV (e pond : ZMod nx → ℝ) (dt : ℝ) (s : Species nx) : Species nx :=
  { s with f := edfdv s.dv s.charge s.mass e pond dt s.f }

/-- `self.vdfdx` for one species (vector_field.py:39, vlasov.py:240-251). -/
noncomputable def pushX [NeZero nx] (dx dt : ℝ) (s : Species nx) : Species nx :=
  { s with f := vdfdx dx s.v dt s.f }

/-- `terms.field`, with the options of each solver (field.py:429-477). -/
inductive FieldKind (nx : ℕ)
  | poisson (static : ZMod nx → ℝ)
  | boltzmann (Te : ℝ) (lambdaDe : Option ℝ)
  | ampere
  | hampere

/-- `terms.time`. -/
inductive TimeKind
  | leapfrog
  | sixth

/-- Which combinations the constructors accept (field.py:429-477, 381-386): the current-based
solvers only with leapfrog, the spectral one only for a single species. -/
def accepts (time : TimeKind) (field : FieldKind nx) (nspecies : ℕ) : Bool :=
  match field, time with
  | .poisson _, _ => true
  | .boltzmann .., _ => true
  | .ampere, .leapfrog => true
  | .hampere, .leapfrog => nspecies ≤ 1
  | .ampere, .sixth => false
  | .hampere, .sixth => false

/-- The self-consistent field (field.py:210-224, 282-298, 342-354, 395-419). -/
noncomputable def solveField [NeZero nx] (dx : ℝ) (field : FieldKind nx) (ss : List (Species nx)) (prev : ZMod nx → ℝ)
    (dt : ℝ) : ZMod nx → ℝ :=
  match field with
  | .poisson static => poisson dx (chargeDensity ss static)
  | .boltzmann Te l => boltzmann dx Te l (chargeDensity ss 0)
  | .ampere => ampere prev (currentDensity ss) dt
  | .hampere => match ss with
    | [] => prev
    | s :: _ => hampere dx s.charge s.dv s.v s.f prev dt

/-- `-0.5 * jnp.gradient(a**2.0, dx)[1:-1]`: central differences of the interior of
`a[nx + 2]` (field.py:495). -/
noncomputable def ponderomotive (dx : ℝ) (a : ℕ → ℝ) (x : ZMod nx) : ℝ :=
  -0.5 * ((a (x.val + 2) ^ 2 - a x.val ^ 2) / (2 * dx))

/-- `LeapfrogIntegrator.__call__` (vector_field.py:75-95). -/
noncomputable def leapfrog [NeZero nx] (dx dt : ℝ) (field : FieldKind nx) (a : ℕ → ℝ) (dex : ℕ → ZMod nx → ℝ)
    (prev : ZMod nx → ℝ) (ss : List (Species nx)) : (ZMod nx → ℝ) × List (Species nx) :=
  let fv := ss.map (pushX dx dt)
  let forField := match field with
    | .hampere => ss
    | _ => fv
  let pond := ponderomotive dx a
  let e := solveField dx field forField prev dt
  (e, fv.map (pushV (fun x => e x + dex 0 x) pond dt))

/-- `LeapfrogIntegrator.dt_array` (vector_field.py:73). -/
def leapfrogTimes (dt : ℝ) (i : ℕ) : ℝ := dt * (if i = 0 then 0 else 1)

/-- The coefficients of the sixth-order scheme (vector_field.py:118-129). -/
noncomputable def a1 : ℝ := 0.168735950563437422448196
noncomputable def a2 : ℝ := 0.377851589220928303880766
noncomputable def a3 : ℝ := -0.093175079568731452657924
noncomputable def b1 : ℝ := 0.049086460976116245491441
noncomputable def b2 : ℝ := 0.264177609888976700200146
noncomputable def b3 : ℝ := 0.186735929134907054308413
noncomputable def c1 : ℝ := -0.000069728715055305084099
noncomputable def c2 : ℝ := -0.000625704827430047189169
noncomputable def c3 : ℝ := -0.002213085124045325561636
noncomputable def d2 : ℝ := -2.916600457689847816445691e-6
noncomputable def d3 : ℝ := 3.048480261700038788680723e-5
noncomputable def e3 : ℝ := 4.985549387875068121593988e-7

/-- `D1`, `D2`, `D3` (vector_field.py:131-133). -/
noncomputable def D1 (dt : ℝ) : ℝ := b1 + 2 * c1 * dt ^ 2
noncomputable def D2 (dt : ℝ) : ℝ := b2 + 2 * c2 * dt ^ 2 + 4 * d2 * dt ^ 4
noncomputable def D3 (dt : ℝ) : ℝ := b3 + 2 * c3 * dt ^ 2 + 4 * d3 * dt ^ 4 - 8 * e3 * dt ^ 6

/-- `SixthOrderHamIntegrator.dt_array` (vector_field.py:135-144). -/
noncomputable def sixthTimes (dt : ℝ) (i : ℕ) : ℝ := dt * (match i with
  | 0 => 0
  | 1 => a1
  | 2 => a1 + a2
  | 3 => a1 + a2 + a3
  | 4 => a1 + a2 + a3 + a2
  | _ => a1 + a2 + a3 + a2 + a1)

/-- A field solve followed by the velocity push, one line pair of vector_field.py:158-184. -/
noncomputable def kick [NeZero nx] (dx : ℝ) (field : FieldKind nx) (pond drv : ZMod nx → ℝ) (c : ℝ) (ss : List (Species nx)) :
    List (Species nx) :=
  let e := solveField dx field ss 0 0
  ss.map (pushV (fun x => drv x + e x) pond c)

/-- `SixthOrderHamIntegrator.__call__` (vector_field.py:146-186); the returned field is the
one of the last kick. -/
noncomputable def sixth [NeZero nx] (dx dt : ℝ) (field : FieldKind nx) (a : ℕ → ℝ) (dex : ℕ → ZMod nx → ℝ)
    (ss : List (Species nx)) : (ZMod nx → ℝ) × List (Species nx) :=
  let pond := ponderomotive dx a
  let s := kick dx field pond (dex 0) (D1 dt * dt) ss
  let s := s.map (pushX dx (a1 * dt))
  let s := kick dx field pond (dex 1) (D2 dt * dt) s
  let s := s.map (pushX dx (a2 * dt))
  let s := kick dx field pond (dex 2) (D3 dt * dt) s
  let s := s.map (pushX dx (a3 * dt))
  let s := kick dx field pond (dex 3) (D3 dt * dt) s
  let s := s.map (pushX dx (a2 * dt))
  let s := kick dx field pond (dex 4) (D2 dt * dt) s
  let s := s.map (pushX dx (a1 * dt))
  let e := solveField dx field s 0 0
  (e, kick dx field pond (dex 5) (D1 dt * dt) s)

/-- One step of the chosen integrator, without collisions and filters
(vector_field.py:206-215, 236). -/
noncomputable def vlasovStep [NeZero nx] (time : TimeKind) (dx dt : ℝ) (field : FieldKind nx) (a : ℕ → ℝ)
    (dex : ℕ → ZMod nx → ℝ) (y : (ZMod nx → ℝ) × List (Species nx)) : (ZMod nx → ℝ) × List (Species nx) :=
  match time with
  | .leapfrog => leapfrog dx dt field a dex y.1 y.2
  | .sixth => sixth dx dt field a dex y.2

/-- Any number of steps; entry `i` of the list holds the vector potential and the external
fields seen by step `i` (vector_field.py:308-365). -/
noncomputable def vlasovRun [NeZero nx] (time : TimeKind) (dx dt : ℝ) (field : FieldKind nx)
    (y : (ZMod nx → ℝ) × List (Species nx)) (drives : List ((ℕ → ℝ) × (ℕ → ZMod nx → ℝ))) :
    (ZMod nx → ℝ) × List (Species nx) :=
  drives.foldl (fun y d => vlasovStep time dx dt field d.1 d.2 y) y

end Verif.Spectral
