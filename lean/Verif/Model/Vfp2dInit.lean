import Verif.Model.VfpInit
import Verif.Model.Vfp2dStep

/-!
Model of the profiles, the initial distribution and the save times of VFP-2D runs (adept/vfp2d/base.py).

Simplifications: numbers are normalised already, exact arithmetic; a dictionary is a record of optional entries.
-/
namespace Verif.Vfp2d.Profile2
open Finset

/-- The entries of a one-dimensional profile read by `_profile_1d` (base.py:52-76). -/
structure Raw where
  basis : Option String := none
  baseline : Option ℝ := none
  value : Option ℝ := none
  amplitude : Option ℝ := none
  wavelength : Option ℝ := none
  center : Option ℝ := none
  width : Option ℝ := none
  rise : Option ℝ := none
  height : Option ℝ := none
  shape : Option String := none
  /-- rows of the file, factor of the coordinate, factor of the value -/
  file : Option (List (ℝ × ℝ) × ℝ × ℝ) := none

/-- `profile["key"]` (base.py:59, 63-65, 84). -/
def need (k : String) (o : Option ℝ) : Except String ℝ :=
  match o with
  | some v => .ok v
  | none => .error ("KeyError: " ++ k)

/-- `baseline` (base.py:54). -/
noncomputable def Raw.base (p : Raw) : ℝ := p.baseline.getD (p.value.getD 1)

/-- The branch `sine`, `cosine` (base.py:57-61). -/
noncomputable def Raw.trig (f : ℝ → ℝ) (p : Raw) (x : ℝ) : Except String ℝ :=
  match need "wavelength" p.wavelength with
  | .error e => .error e
  | .ok l => .ok (p.base * (1 + p.amplitude.getD 0 * f (2 * Real.pi * x / l)))

/-- `envelope` (base.py:66-69). -/
noncomputable def envelope (c w r : ℝ) (trough : Bool) (x : ℝ) : ℝ :=
  let e := 0.5 * (Real.tanh ((x - (c - 0.5 * w)) / r) - Real.tanh ((x - (c + 0.5 * w)) / r))
  if trough then 1 - e else e

/-- The branch `tanh` (base.py:62-70). -/
noncomputable def Raw.tanh (p : Raw) (x : ℝ) : Except String ℝ :=
  match need "center" p.center, need "width" p.width, need "rise" p.rise with
  | .ok c, .ok w, .ok r => .ok (p.base + p.height.getD 0 * envelope c w r (p.shape.getD "bump" == "trough") x)
  | .error e, _, _ => .error e
  | _, .error e, _ => .error e
  | _, _, .error e => .error e

/-- `_profile_1d` (base.py:52-76) at one position; `ref`: a reference quantity was passed. -/
noncomputable def Raw.eval (p : Raw) (ref : Bool) (x : ℝ) : Except String ℝ :=
  let b := p.basis.getD "uniform"
  if b = "uniform" then .ok (p.base * 1)
  else if b = "sine" then p.trig Real.sin x
  else if b = "cosine" then p.trig Real.cos x
  else if b = "tanh" then p.tanh x
  else if b = "file" then
    match p.file with
    | none => .error "KeyError: path"
    | some (rows, c, s) => if ref then .ok (PicLoad.interp x (rows.map fun r => (r.1 * c, r.2)) * s) else .error "ValueError: reference"
  else .error "NotImplementedError"

/-- The entries of `gaussian_spots` (base.py:83-87). -/
structure Spots where
  xCenter : Option ℝ := none
  xRadius : Option ℝ := none
  yRadius : Option ℝ := none
  yCenters : Option (List ℝ) := none
  yCenter : Option ℝ := none

/-- A two-dimensional profile: its own entries and the nested `x` and `y` (base.py:79-99). -/
structure Raw2 where
  top : Raw := {}
  x : Option Raw := none
  y : Option Raw := none
  axis : Option String := none
  spots : Spots := {}

/-- The centres along y (base.py:86-87). -/
noncomputable def Spots.centers (s : Spots) : List ℝ := s.yCenters.getD [s.yCenter.getD 0]

/-- `y_envelope` (base.py:89). -/
noncomputable def yEnvelope (r : ℝ) (cs : List ℝ) (y : ℝ) : ℝ := (cs.map fun c => Real.exp (-((y - c) / r) ^ 2)).sum

/-- `gaussian_spots` (base.py:82-90). -/
noncomputable def Raw2.gauss (p : Raw2) (x y : ℝ) : Except String ℝ :=
  match need "x_radius" p.spots.xRadius with
  | .error e => .error e
  | .ok r =>
    .ok (p.top.amplitude.getD 1 * Real.exp (-((x - p.spots.xCenter.getD 0) / r) ^ 2) * yEnvelope (p.spots.yRadius.getD r) p.spots.centers y)

/-- The product `px[:, None] * py[None, :]` (base.py:95). -/
noncomputable def times (a b : Except String ℝ) : Except String ℝ :=
  match a, b with
  | .ok u, .ok v => .ok (u * v)
  | .error e, _ => .error e
  | _, .error e => .error e

/-- The profile used for a direction that is not given (base.py:93-94). -/
noncomputable def one : Raw := { basis := some "uniform", baseline := some 1 }

/-- `_profile_2d` (base.py:79-99) at one cell. -/
noncomputable def Raw2.eval (p : Raw2) (ref : Bool) (x y : ℝ) : Except String ℝ :=
  if p.top.basis = some "gaussian_spots" then p.gauss x y
  else if p.x.isSome ∨ p.y.isSome then times ((p.x.getD one).eval ref x) ((p.y.getD one).eval ref y)
  else if p.axis.getD "x" = "y" then p.top.eval ref y
  else p.top.eval ref x

/-! ### Relativistic initial distribution -/

/-- `local_f` before normalisation (base.py:208-211). -/
noncomputable def juttner (theta u : ℝ) : ℝ := Real.exp (-(Real.sqrt (1 + u ^ 2) - 1) / theta)

/-- `norm` (base.py:212). -/
noncomputable def juttnerNorm (o : Op) (theta : ℝ) : ℝ := 4 * Real.pi * (∑ j ∈ range o.nv, juttner theta (o.v j) * o.v j ^ 2) * o.dv

/-- `local_f` of a relativistic run (base.py:208-213): density `n`, temperature `theta` in units of the rest energy. -/
noncomputable def relativistic (o : Op) (n theta : ℝ) (j : ℕ) : ℝ := n * juttner theta (o.v j) / juttnerNorm o theta

/-- One species of the deck (base.py:197-206, 217). -/
structure Species where
  name : String
  n : Raw2
  T : Raw2
  m : ℝ

/-- `name.startswith("species-")` (base.py:198). -/
def Species.active (s : Species) : Bool := (s.name.toList.take 8) == "species-".toList

/-- `local_f` of one species in one cell (base.py:207-223): `rel` is `some theta0` for relativistic runs. -/
noncomputable def localF (o : Op) (rel : Option ℝ) (vth m n T : ℝ) (j : ℕ) : ℝ :=
  match rel with
  | some theta0 => relativistic o n (theta0 * T) j
  | none => VfpInit.dist m vth n T (o.v j)

/-- The sums over species in one cell (base.py:193-228): the isotropic part and the density, without the ratio of base.py:230-234. -/
noncomputable def total (o : Op) (rel : Option ℝ) (vth x y : ℝ) : List Species → Except String ((ℕ → ℝ) × ℝ)
  | [] => .ok (fun _ => 0, 0)
  | s :: l =>
    match total o rel vth x y l with
    | .error e => .error e
    | .ok (f, n) =>
      if s.active then
        match s.n.eval true x y, s.T.eval true x y with
        | .ok a, .ok t => .ok (fun j => localF o rel vth s.m a t j + f j, a + n)
        | .error e, _ => .error e
        | _, .error e => .error e
      else .ok (f, n)

/-- `init_state_and_args` (base.py:193-228): at least one species is required. -/
noncomputable def initial (o : Op) (rel : Option ℝ) (vth x y : ℝ) (deck : List Species) : Except String ((ℕ → ℝ) × ℝ) :=
  match total o rel vth x y deck with
  | .error e => .error e
  | .ok r => if deck.any Species.active then .ok r else .error "ValueError: no species"

/-! ### Save times -/

/-- Number of save times (base.py:461): the entry of the deck, else `min(nt + 1, 101)`. -/
def saveCount (entry : Option ℕ) (nt : ℕ) : ℕ := entry.getD (min (nt + 1) 101)

/-- `save_times` (base.py:459-462): `linspace(tmin, tmax, n)`. -/
noncomputable def saveTime (lo hi : ℝ) (n i : ℕ) : ℝ := if n = 1 then lo else lo + i * ((hi - lo) / ((n : ℝ) - 1))

end Verif.Vfp2d.Profile2
