import Verif.Model.Pic
import Mathlib.Analysis.SpecialFunctions.Trigonometric.Basic

/-!
Model of the transverse wave solver (adept/_vlasov1d/solvers/pushers/field.py:94-157), of the
forward/backward split of the stored light wave (adept/_vlasov1d/storage.py:50-66,
adept/_pic1d/helpers.py) and of the complete step of the particle solver
(adept/_pic1d/solvers/vector_field.py:98-133).

The vector potential has `nx + 2` points `0 … nx + 1`, of which the first and last are the
boundary; arrays are functions of the index.  Exact real arithmetic.
-/
namespace Verif.Wave
open Finset Verif.Pic Verif.Spectral

/-- `WaveSolver.__init__` (field.py:97-107). -/
structure Solver where
  c : ℝ
  dx : ℝ
  dt : ℝ

/-- `self.const` and `self.one_over_const` (field.py:103-107). -/
noncomputable def Solver.const (w : Solver) : ℝ := w.c / w.dx * w.dt
noncomputable def Solver.oneOverConst (w : Solver) : ℝ := 1 / w.dt / (w.c / w.dx)

/-- One boundary value of `apply_2nd_order_abc` (field.py:120-127, 129-134): `o`, `a` hold the
three outermost old and current values counted from the boundary, `n1`, `n2` the new values
of the two interior points next to it. -/
noncomputable def Solver.abc (w : Solver) (o0 o1 o2 a0 a1 a2 n1 n2 : ℝ) : ℝ :=
  let coeff := -1 / (w.oneOverConst + 2 + w.const)
  let s1 := (w.oneOverConst - 2 + w.const) * (n2 + o0)
  let s2 := s1 + 2 * (w.const - w.oneOverConst) * (a0 + a2 - n1 - o1)
  let s3 := s2 - 4 * (w.oneOverConst + w.const) * a1
  s3 * coeff - o2

/-- `anew` at the interior point `i` (field.py:145-153); `density` has one entry per cell, the
cell of point `i` being `i - 1`. -/
noncomputable def Solver.interior (w : Solver) (a aold src density : ℕ → ℝ) (i : ℕ) : ℝ :=
  let d2 := (a (i - 1) - 2 * a i + a (i + 1)) / w.dx ^ 2
  2 * a i - aold i + w.dt ^ 2 * (w.c ^ 2 * d2 - density (i - 1) * a i + src i)

/-- `WaveSolver.__call__` (field.py:142-157): the new `a` and `prev_a`. -/
noncomputable def Solver.step (w : Solver) (nx : ℕ) (a aold src density : ℕ → ℝ) : (ℕ → ℝ) × (ℕ → ℝ) :=
  if 0 < w.c then
    let anew := w.interior a aold src density
    let left := w.abc (aold 0) (aold 1) (aold 2) (a 0) (a 1) (a 2) (anew 1) (anew 2)
    let right := w.abc (aold (nx + 1)) (aold nx) (aold (nx - 1)) (a (nx + 1)) (a nx) (a (nx - 1)) (anew nx) (anew (nx - 1))
    (fun i => if i = 0 then left else if i = nx + 1 then right else anew i, a)
  else (a, aold)

/-- Repeated steps in vacuum without source. -/
noncomputable def Solver.run (w : Solver) (nx : ℕ) (y : (ℕ → ℝ) × (ℕ → ℝ)) : ℕ → (ℕ → ℝ) × (ℕ → ℝ)
  | 0 => y
  | n + 1 => w.step nx (w.run nx y n).1 (w.run nx y n).2 (fun _ => 0) fun _ => 0

/-- `ep`, `em` of the stored fields at cell `i` (storage.py:50-66; helpers.py of the particle
code has the same lines). -/
noncomputable def ep (c dx dt : ℝ) (a prev : ℕ → ℝ) (i : ℕ) : ℝ :=
  let ey := -(a (i + 1) - prev (i + 1)) / dt
  let bz := 0.5 * ((a (i + 2) - a i) / (2 * dx) + (prev (i + 2) - prev i) / (2 * dx))
  ey + c * bz
noncomputable def em (c dx dt : ℝ) (a prev : ℕ → ℝ) (i : ℕ) : ℝ :=
  let ey := -(a (i + 1) - prev (i + 1)) / dt
  let bz := 0.5 * ((a (i + 2) - a i) / (2 * dx) + (prev (i + 2) - prev i) / (2 * dx))
  ey - c * bz

/-! ### The complete particle step -/

variable {nx : ℕ} [NeZero nx]

/-- `ElectronChargeDensity.__call__` (adept/_pic1d/solvers/pushers/field.py:82-87): only the
species called `electron` counts. -/
noncomputable def electronCharge (shape : Shape) (dx xmin : ℝ) (named : List (String × PSpecies)) (g : ZMod nx) : ℝ :=
  match named.lookup "electron" with
  | some s => s.charge * deposit shape dx xmin s.ps g
  | none => 0

/-- What a particle run carries along (modules.py:131-147). -/
structure PState (nx : ℕ) where
  named : List (String × PSpecies)
  e : ZMod nx → ℝ
  de : ZMod nx → ℝ
  a : ℕ → ℝ
  prevA : ℕ → ℝ

/-- The species under their names again (`_pack`, `_unpack`, vector_field.py:86-96). -/
def rename (named : List (String × PSpecies)) (ss : List PSpecies) : List (String × PSpecies) :=
  (named.map Prod.fst).zip ss

/-- `PIC1DVectorField.__call__` (vector_field.py:98-133); `ey` is the transverse driver, if
one is configured. -/
noncomputable def picStep (b : Box nx) (sch : Scheme) (w : Solver) (ey : Option (ℝ → ℕ → ℝ)) (t : ℝ) (y : PState nx) : PState nx :=
  let n0 := electronCharge (nx := nx) b.shape b.dx b.xmin y.named
  let r := push b sch w.dt t (ey.map fun _ => y.a) (y.named.map Prod.snd)
  let named := rename y.named r.1
  let de := b.driver (t + w.dt)
  match ey with
  | some src =>
    let n1 := electronCharge (nx := nx) b.shape b.dx b.xmin named
    let aw := w.step nx y.a y.prevA (src (t + w.dt)) fun i => -0.5 * (n0 (i : ZMod nx) + n1 (i : ZMod nx))
    { named := named, e := r.2.1, de := de, a := aw.1, prevA := aw.2 }
  | none => { named := named, e := r.2.1, de := de, a := y.a, prevA := y.prevA }

/-- `n` steps from time `t`. -/
noncomputable def picRun (b : Box nx) (sch : Scheme) (w : Solver) (ey : Option (ℝ → ℕ → ℝ)) (t : ℝ) (y : PState nx) : ℕ → PState nx
  | 0 => y
  | n + 1 => picStep b sch w ey (t + n * w.dt) (picRun b sch w ey t y n)

/-- `_moments_from_particles` (adept/_pic1d/storage.py:40-51): `n`, `j`, `P`. -/
noncomputable def savedMoment (k : ℕ) (shape : Shape) (dx xmin : ℝ) (s : PSpecies) (g : ZMod nx) : ℝ :=
  deposit shape dx xmin (s.ps.map fun p => { p with w := p.w * p.v ^ k }) g

end Verif.Wave
