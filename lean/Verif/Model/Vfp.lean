import Mathlib.Algebra.BigOperators.Group.Finset.Basic
import Mathlib.Algebra.Module.Pi
import Mathlib.Algebra.Module.Prod
import Mathlib.Analysis.SpecialFunctions.Trigonometric.Basic

/-!
Model of the VFP-1D solver: grid (adept/vfp1d/grid.py), operators and time step
(adept/vfp1d/vector_field.py), ion state (adept/vfp1d/base.py:152-221) and the flux limit of the
initial condition (adept/vfp1d/helpers.py:288-345).

Arrays are functions of their indices: a centre field has cells `i < nx`, an edge field edges
`i ≤ nx`, a speed axis has `j < nv`.  Exact real arithmetic.  Collisions act on one position at a
time (`vmap`) and enter as parameters here; their own model is in Model/VfpCollisions.lean.
-/
namespace Verif.Vfp
open Finset

/-- `Grid` (grid.py:17-52), as far as the solver uses it. -/
structure Grid where
  xmin : ℝ
  xmax : ℝ
  nx : ℕ
  dt : ℝ
  nv : ℕ
  vmax : ℝ
  boundary : String
  geometry : String

/-- The checks of `Grid.__init__` (grid.py:69-82). -/
noncomputable def Grid.check (g : Grid) : Except String Grid :=
  if g.geometry ≠ "cartesian" ∧ g.geometry ≠ "spherical" then .error "ValueError"
  else if g.geometry = "spherical" ∧ g.xmin < 0 then .error "ValueError"
  else if g.geometry = "spherical" ∧ g.boundary ≠ "reflective" then .error "ValueError"
  else .ok g

/-- The default of `from_config` (grid.py:148). -/
def defaultBoundary (boundary : Option String) (geometry : String) : String :=
  boundary.getD (if geometry = "spherical" then "reflective" else "periodic")

/-- grid.py:87, 90, 95, 97. -/
noncomputable def Grid.dx (g : Grid) : ℝ := (g.xmax - g.xmin) / g.nx
noncomputable def Grid.xEdge (g : Grid) (i : ℕ) : ℝ := g.xmin + i * g.dx
noncomputable def Grid.dv (g : Grid) : ℝ := g.vmax / g.nv
noncomputable def Grid.v (g : Grid) (j : ℕ) : ℝ := g.dv / 2 + j * g.dv

/-! ### Operators -/

/-- A centre field with its two ghost cells (vector_field.py:104-110, 137-143): entry `k` of
`nx + 2`.  Everything but `periodic` takes the reflective ghosts. -/
def Grid.padded (g : Grid) (f : ℕ → ℝ) (k : ℕ) : ℝ :=
  if k = 0 then (if g.boundary = "periodic" then f (g.nx - 1) else f 0)
  else if k ≤ g.nx then f (k - 1)
  else (if g.boundary = "periodic" then f 0 else f (g.nx - 1))

/-- `ddx_c2e` (vector_field.py:102-110). -/
noncomputable def Grid.ddxC2e (g : Grid) (f : ℕ → ℝ) (i : ℕ) : ℝ := (g.padded f (i + 1) - g.padded f i) / g.dx

/-- `interp_c2e` (vector_field.py:135-144). -/
noncomputable def Grid.c2e (g : Grid) (f : ℕ → ℝ) (i : ℕ) : ℝ := 0.5 * (g.padded f i + g.padded f (i + 1))

/-- `interp_e2c` (vector_field.py:131-133). -/
noncomputable def e2c (f : ℕ → ℝ) (i : ℕ) : ℝ := 0.5 * (f i + f (i + 1))

/-- `div_e2c` with `ddx_e2c` (vector_field.py:112-129). -/
noncomputable def Grid.divE2c (g : Grid) (f : ℕ → ℝ) (i : ℕ) : ℝ :=
  if g.geometry = "spherical" then
    let dvol := (g.xEdge (i + 1) ^ 3 - g.xEdge i ^ 3) / 3
    (g.xEdge (i + 1) ^ 2 * f (i + 1) - g.xEdge i ^ 2 * f i) / dvol
  else (f (i + 1) - f i) / g.dx

/-- `jnp.gradient` of a row extended below by the ghost value, without its first entry
(vector_field.py:86-87, 99-100): entry `j` sits at `j + 1` of the extended row. -/
noncomputable def gradRow (ghost : ℝ) (nv : ℕ) (dv : ℝ) (f : ℕ → ℝ) (j : ℕ) : ℝ :=
  let temp := fun k => if k = 0 then ghost else f (k - 1)
  if j + 1 < nv then (temp (j + 2) - temp j) / (2 * dv) else (temp (j + 1) - temp j) / dv

/-- `ddv`, `ddv_f1` (vector_field.py:76-100). -/
noncomputable def Grid.ddv (g : Grid) (f : ℕ → ℝ) (j : ℕ) : ℝ := gradRow (f 0) g.nv g.dv f j
noncomputable def Grid.ddvF1 (g : Grid) (f : ℕ → ℝ) (j : ℕ) : ℝ := gradRow (-f 0) g.nv g.dv f j

/-- `calc_j` at one position (vector_field.py:146-157). -/
noncomputable def Grid.calcJ (g : Grid) (f1 : ℕ → ℝ) : ℝ :=
  -4 * Real.pi / 3 * (∑ j ∈ range g.nv, f1 j * g.v j ^ 3) * g.dv

/-- `.at[0].set(0.0).at[-1].set(0.0)` on an edge field when the boundary is reflective
(vector_field.py:199-200, 297-298, 350-351, 443-444). -/
def Grid.walls (g : Grid) {α : Type} [Zero α] (f : ℕ → α) (i : ℕ) : α :=
  if g.boundary = "reflective" ∧ (i = 0 ∨ i = g.nx) then 0 else f i

/-! ### Right-hand sides -/

/-- What the two explicit pushes advance: `f0` and `f10`, position first. -/
abbrev Dist := (ℕ → ℕ → ℝ) × (ℕ → ℕ → ℝ)

/-- `_vdfdx_` (vector_field.py:325-353). -/
noncomputable def Grid.vdfdx (g : Grid) (y : Dist) : Dist :=
  (fun i j => -g.v j / 3 * g.divE2c (fun k => y.2 k j) i,
   g.walls fun i j => -g.v j * g.ddxC2e (fun k => y.1 k j) i)

/-- `_edfdv_` (vector_field.py:268-300). -/
noncomputable def Grid.edfdv (g : Grid) (e : ℕ → ℝ) (y : Dist) : Dist :=
  (fun i j =>
    let f1 := fun l => e2c (fun k => y.2 k l) i
    e2c e i / 3 * (2 / g.v j * f1 j + g.ddvF1 f1 j),
   g.walls fun i j => e i * g.ddv (fun l => g.c2e (fun k => y.1 k l) i) j)

/-- An explicit Runge-Kutta step of `diffrax` over the whole interval (`dt0 = t1 - t0`,
vector_field.py:314-323, 367-375): `rows` are the rows of the tableau, `b` the weights. The
solver there is `Tsit5`; nothing below depends on its coefficients. -/
def rkStages {V : Type} [AddCommGroup V] [Module ℝ V] (F : V → V) (dt : ℝ) (y : V) (rows : List (List ℝ)) : List V :=
  rows.foldl (fun ks row => ks ++ [F (y + dt • (List.zipWith (fun a k => a • k) row ks).sum)]) []
def rkStep {V : Type} [AddCommGroup V] [Module ℝ V] (F : V → V) (dt : ℝ) (y : V) (rows : List (List ℝ)) (b : List ℝ) : V :=
  y + dt • (List.zipWith (fun a k => a • k) b (rkStages F dt y rows)).sum

/-- The method of the pushes. -/
structure Tableau where
  rows : List (List ℝ)
  b : List ℝ

noncomputable def Grid.pushX (g : Grid) (tab : Tableau) (y : Dist) : Dist := rkStep g.vdfdx g.dt y tab.rows tab.b
noncomputable def Grid.pushE (g : Grid) (tab : Tableau) (e : ℕ → ℝ) (y : Dist) : Dist := rkStep (g.edfdv e) g.dt y tab.rows tab.b

/-! ### The time step -/

/-- Collisions at one position: `cee Z ni f0` is `solve_Cee0` (with the heating drivers, which
depend on the position through `Z` and `ni` only), `aniso Z ni f0 f10` is `solve_aniso`. -/
structure Collide where
  cee : ℝ → ℝ → (ℕ → ℝ) → (ℕ → ℝ)
  aniso : ℝ → ℝ → (ℕ → ℝ) → (ℕ → ℝ) → (ℕ → ℝ)

/-- `solve_aniso` at every edge, with `Z`, `ni`, `f0` interpolated there
(vector_field.py:179-184, 413-415, 423-424, 436-437). -/
noncomputable def Grid.anisoAt (g : Grid) (c : Collide) (Z ni : ℕ → ℝ) (f0 f10 : ℕ → ℕ → ℝ) (i : ℕ) : ℕ → ℝ :=
  c.aniso (g.c2e Z i) (g.c2e ni i) (fun j => g.c2e (fun k => f0 k j) i) (f10 i)

/-- `implicit_e_solve` (vector_field.py:159-202). -/
noncomputable def Grid.implicitE (g : Grid) (tab : Tableau) (c : Collide) (Z ni : ℕ → ℝ) (f0 f10 : ℕ → ℕ → ℝ) (e : ℕ → ℝ) : ℕ → ℝ :=
  let j0 := fun i => g.calcJ (g.anisoAt c Z ni f0 f10 i)
  let de := fun i => |e i| * (1 / 10 ^ 6) + 1 / 10 ^ 12
  let f10d := (g.pushE tab de (f0, f10)).2
  let jd := fun i => g.calcJ (g.anisoAt c Z ni f0 f10d i)
  g.walls fun i => -(j0 i) * de i / (jd i - j0 i)

/-- The state of a run (base.py:161-221). -/
structure State where
  f0 : ℕ → ℕ → ℝ
  f10 : ℕ → ℕ → ℝ
  f11 : ℕ → ℕ → ℝ
  e : ℕ → ℝ
  b : ℕ → ℝ
  Z : ℕ → ℝ
  ni : ℕ → ℝ

/-- `OSHUN1D.__call__` (vector_field.py:377-446).  The coupled minimisation
`edfdv-ampere-implicit` subtracts an `(nx, nv)` array from an `(nx + 1, nv)` one
(vector_field.py:215): it fails unless `nx = 1`, when it is not modelled and its result is the
parameter `coupled`. -/
noncomputable def Grid.step (g : Grid) (tab : Tableau) (c : Collide) (coupled : State → State) (solver : String) (y : State) : Except String State :=
  let s := g.pushX tab (y.f0, y.f10)
  let f0s := fun i => c.cee (y.Z i) (y.ni i) (s.1 i)
  let f10s := s.2
  if solver = "oshun" then
    let e := g.implicitE tab c y.Z y.ni f0s f10s y.e
    let p := g.pushE tab e (f0s, f10s)
    .ok { y with f0 := p.1, f10 := g.walls (g.anisoAt c y.Z y.ni f0s p.2), e := e }
  else if solver = "edfdv-ampere-implicit" then
    if g.nx = 1 then .ok (coupled y) else .error "TypeError"
  else if solver = "ampere" then
    let e := fun i => y.e i + g.dt * (1 / 10 ^ 6) * g.calcJ (f10s i)
    let p := g.pushE tab e (f0s, f10s)
    .ok { y with f0 := p.1, f10 := g.walls (g.anisoAt c y.Z y.ni p.1 p.2), e := e }
  else .error "NotImplementedError"

/-- `n` steps. -/
noncomputable def Grid.run (g : Grid) (tab : Tableau) (c : Collide) (coupled : State → State) (solver : String) (y : State) : ℕ → Except String State
  | 0 => .ok y
  | n + 1 => do g.step tab c coupled solver (← g.run tab c coupled solver y n)

/-! ### Initial state -/

/-- What one species adds to `f10` at the start (helpers.py:297-329) when the total so far is
`f0` with ion density `ni`: the response to the gradient plus the response to the field that cancels
its current.  `aniso` is `solve_aniso` with the big time step and without explicit terms. -/
noncomputable def Grid.initialF10 (g : Grid) (aniso : ℝ → (ℕ → ℝ) → (ℕ → ℝ) → (ℕ → ℝ)) (ni : ℕ → ℝ) (f0 : ℕ → ℕ → ℝ) (i : ℕ) (j : ℕ) : ℝ :=
  let at' := fun l => g.c2e (fun k => f0 k l) i
  let adv := aniso (g.c2e ni i) at' fun l => -10 ^ 12 * g.v l * g.ddxC2e (fun k => f0 k l) i
  let fld := aniso (g.c2e ni i) at' (g.ddv at')
  let e := -g.calcJ adv / g.calcJ fld
  adv j + e * fld j

/-- The loop over the species (helpers.py:236-331): each has a density profile and a distribution; the
totals accumulate, and so does `f10`. -/
noncomputable def Grid.initialSum (g : Grid) (aniso : ℝ → (ℕ → ℝ) → (ℕ → ℝ) → (ℕ → ℝ)) (unitsZ : ℝ)
    (species : List ((ℕ → ℝ) × (ℕ → ℕ → ℝ))) : (ℕ → ℝ) × (ℕ → ℕ → ℝ) × (ℕ → ℕ → ℝ) :=
  species.foldl (fun t s =>
    let n := t.1 + s.1
    let f0 := t.2.1 + s.2
    (n, f0, t.2.2 + g.initialF10 aniso (fun i => n i / unitsZ) f0)) (0, 0, 0)

/-- `np.clip(x, -b, b)`. -/
noncomputable def clip (x b : ℝ) : ℝ := min (max x (-b)) b

/-- `f0_at_edges` of the flux limit (helpers.py:342): one-sided at both ends. -/
noncomputable def edgeOneSided (nx : ℕ) (f : ℕ → ℝ) (i : ℕ) : ℝ :=
  if i = 0 then f 0 else if i < nx then 0.5 * (f i + f (i - 1)) else f (nx - 1)

/-- The flux limit (helpers.py:342-343) followed by the density scaling of
`init_state_and_args` (base.py:155-159), which leaves `f10` alone: `f0` and `f10` of the state. -/
noncomputable def limited (nx : ℕ) (scale : ℝ) (f0 f10 : ℕ → ℕ → ℝ) : Dist :=
  (fun i j => f0 i j * scale, fun i j => clip (f10 i j) (edgeOneSided nx (fun k => f0 k j) i))

/-- One entry of the ion mixture table (base.py:189-194). -/
structure Ion where
  fraction : ℝ
  Z : ℝ

/-- `np.isclose(x, 1.0)` with its default tolerances. -/
def isCloseOne (x : ℝ) : Prop := |x - 1| ≤ 1 / 10 ^ 8 + 1 / 10 ^ 5 * |(1 : ℝ)|

open Classical in
/-- `Z`, `ni` of the state from a mixture (base.py:184-210). -/
noncomputable def mixtureState (unitsZ : ℝ) (mix : List Ion) (ne : ℕ → ℝ) : Except String ((ℕ → ℝ) × (ℕ → ℝ)) :=
  if ¬ isCloseOne (mix.map Ion.fraction).sum then .error "ValueError"
  else
    let zbar := (mix.map fun s => s.fraction * s.Z).sum
    let zeff := (mix.map fun s => s.fraction * s.Z ^ 2).sum / zbar
    .ok (fun _ => zeff / unitsZ, fun i => ne i / zeff)

/-- `Z`, `ni` for a single species with a mass density, and without ion table
(base.py:211-219). -/
noncomputable def singleState (unitsZ : ℝ) (ni ne : ℕ → ℝ) : (ℕ → ℝ) × (ℕ → ℝ) :=
  (fun i => ne i / ni i / unitsZ, ni)
noncomputable def plainState (unitsZ : ℝ) (ne : ℕ → ℝ) : (ℕ → ℝ) × (ℕ → ℝ) := (fun _ => 1, fun i => ne i / unitsZ)

end Verif.Vfp
