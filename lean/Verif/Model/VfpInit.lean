import Verif.Model.Vfp
import Verif.Model.PicLoad
import Verif.Model.Driver
import Mathlib.Analysis.SpecialFunctions.Gamma.Basic

/-!
Model of the VFP-1D initial distribution, of the profiles it is built from
(adept/vfp1d/helpers.py:17-39, 113-295) and of the saved moments
(adept/vfp1d/storage.py:148-170, 281-322, 379-424).  Exact real arithmetic.  Unit conversion has
been applied to the numbers (Model/Norm.lean).  Text files are lists of lines of characters;
`num` is Python's `float` on a token, `none` standing for a token that becomes NaN (infinite values
are left out).  `numpy.genfromtxt` is modelled as documented: comments are cut, blank lines skipped,
rows of different lengths are a `ValueError`, and an array with one row or one column has one
dimension only.
-/
namespace Verif.VfpInit
open Finset

/-! ### The super-Gaussian -/

/-- `alpha` (helpers.py:199). -/
noncomputable def alpha (m : ℝ) : ℝ := Real.sqrt (3 * Real.Gamma (3 / m) / 2 / Real.Gamma (5 / m))

/-- `cst` (helpers.py:200). -/
noncomputable def cst (m : ℝ) : ℝ := m / (4 * Real.pi * alpha m ^ 3 * Real.Gamma (3 / m))

/-- One entry of `f` (helpers.py:201-203): density `n`, relative temperature `T`, speed `v`. -/
noncomputable def dist (m vth n T v : ℝ) : ℝ :=
  let vx := Real.sqrt T * vth
  n * (cst m / vx ^ 3 * Real.exp (-(v / alpha m / vx) ^ m))

/-! ### Profiles -/

/-- One entry `density.species-*.n` or `.T` with its numbers normalised (helpers.py:243-293).  A file
enters as the rows found in it, the factor of the coordinate and the factor of the value. -/
inductive Profile where
  | uniform (baseline : ℝ)
  | tanh (center width rise baseline height : ℝ) (shape : String)
  | sine (baseline amp wavelength : ℝ)
  | cosine (baseline amp wavelength : ℝ)
  | file (rows : List (ℝ × ℝ)) (coord value : ℝ)
  | other (basis : String)

/-- `profs[k]` at the position `x` (helpers.py:243-293); `file` is `load_profile_on_grid`
(helpers.py:166-171), the rows being sorted already. -/
noncomputable def Profile.eval (p : Profile) (x : ℝ) : Except String ℝ :=
  match p with
  | .uniform b => .ok (b * 1)
  | .tanh c w r b h shape =>
    let env := Driver.getEnvelope r r (c - w * 0.5) (c + w * 0.5) x
    .ok (b + h * (if shape = "trough" then 1 - env else env))
  | .sine b a l => .ok (b * (1 + a * Real.sin (2 * Real.pi / l * x)))
  | .cosine b a l => .ok (b * (1 + a * Real.cos (2 * Real.pi / l * x)))
  | .file rows c s => .ok (PicLoad.interp x (rows.map fun r => (r.1 * c, r.2)) * s)
  | .other _ => .error "NotImplementedError"

/-! ### Two-column files -/

/-- The line without comment and outer blanks (`LineSplitter`: `line.split("#")[0].strip(" \r\n")`,
called from helpers.py:129). -/
def cut (line : List Char) : List Char :=
  let blank := fun c : Char => c == ' ' || c == '\r' || c == '\n'
  let s := (line.takeWhile (· ≠ '#')).dropWhile blank
  (s.reverse.dropWhile blank).reverse

/-- The tokens of a line for `delimiter=","` (`true`) and `delimiter=None` (helpers.py:127-129). -/
def tokens (comma : Bool) (line : List Char) : List (List Char) :=
  let s := cut line
  if s = [] then [] else if comma then s.splitOnP (· == ',')
  else (s.splitOnP Char.isWhitespace).filter (· ≠ [])

/-- `candidate` if it is accepted (helpers.py:127-134): a table with at least two rows and two
columns, all rows of the same length. -/
def candidate (comma : Bool) (lines : List (List Char)) : Option (List (List (List Char))) :=
  let rows := (lines.map (tokens comma)).filter (· ≠ [])
  let width := (rows.headD []).length
  if rows.all (fun r => r.length == width) && 2 ≤ rows.length && 2 ≤ width then some rows else none

/-- The last two cells of a row, if both are numbers (helpers.py:139-140). -/
def lastTwo (num : List Char → Option ℝ) (row : List (List Char)) : Option (ℝ × ℝ) :=
  match row.reverse with
  | b :: a :: _ => (num a).bind fun x => (num b).map fun y => (x, y)
  | _ => none

/-- `_read_two_column_file` before the sort (helpers.py:113-142). -/
def readRows (num : List Char → Option ℝ) (lines : List (List Char)) : Except String (List (ℝ × ℝ)) :=
  match (candidate true lines).orElse fun _ => candidate false lines with
  | none => .error "ValueError: could not parse"
  | some t =>
    let rows := t.filterMap (lastTwo num)
    if rows.length < 2 then .error "ValueError: fewer than 2" else .ok rows

/-- `_read_two_column_file` (helpers.py:113-145), a relation: `np.argsort` orders the rows by
coordinate and leaves the order of equal coordinates open. -/
def Reads (num : List Char → Option ℝ) (lines : List (List Char)) (pts : List (ℝ × ℝ)) : Prop :=
  ∃ rows, readRows num lines = .ok rows ∧ pts.Perm rows ∧ (pts.map Prod.fst).Pairwise (· ≤ ·)

/-! ### The species loop -/

/-- One `density.species-*` entry. -/
structure Species where
  name : String
  m : ℝ
  n : Profile
  T : Profile

/-- The electron distribution of one species at the cell `i`, speed cell `j` (helpers.py:236-305). -/
noncomputable def Species.f (g : Vfp.Grid) (vth : ℝ) (s : Species) (n T : ℝ) (j : ℕ) : ℝ := dist s.m vth n T (g.v j)

/-- The species that take part: those whose name starts with `species-` (helpers.py:236-238). -/
def active (d : List Species) : List Species := d.filter fun s => s.name.startsWith "species-"

/-- The pairs density, temperature of the species at the position `x` (helpers.py:243-293). -/
noncomputable def profilesAt (x : ℝ) : List Species → Except String (List (Species × ℝ × ℝ))
  | [] => .ok []
  | s :: l =>
    match s.n.eval x, s.T.eval x, profilesAt x l with
    | .ok n, .ok T, .ok r => .ok ((s, n, T) :: r)
    | .error e, _, _ => .error e
    | _, .error e, _ => .error e
    | _, _, .error e => .error e

/-- `f0` of the initial state at one position (helpers.py:236-305, 332-333, base.py:158), `scale` being
`ne_over_n0`. -/
noncomputable def initialF0 (g : Vfp.Grid) (vth scale : ℝ) (d : List Species) (x : ℝ) : Except String (ℕ → ℝ) :=
  if active d = [] then .error "ValueError: No species found"
  else match profilesAt x (active d) with
    | .error e => .error e
    | .ok l => .ok fun j => (l.map fun s => s.1.f g vth s.2.1 s.2.2 j).sum * scale

/-! ### Saved moments -/

/-- `_calc_f0_moment_` and `_calc_f1_moment_` (storage.py:292-296, 393-397). -/
noncomputable def moment0 (g : Vfp.Grid) (f : ℕ → ℝ) : ℝ := 4 * Real.pi * (∑ j ∈ range g.nv, f j * g.v j ^ 2) * g.dv
noncomputable def moment1 (g : Vfp.Grid) (f : ℕ → ℝ) : ℝ := 4 / 3 * Real.pi * (∑ j ∈ range g.nv, f j * g.v j ^ 3) * g.dv

/-- The saved `n`, `U`, `P`, `T` (storage.py:303-308) of the isotropic part at a cell. -/
noncomputable def savedN (g : Vfp.Grid) (f0 : ℕ → ℝ) : ℝ := moment0 g f0
noncomputable def savedU (g : Vfp.Grid) (f0 : ℕ → ℝ) : ℝ := moment0 g fun j => f0 j * g.v j ^ 2
noncomputable def savedP (g : Vfp.Grid) (f0 : ℕ → ℝ) : ℝ := savedU g f0 / 3
noncomputable def savedT (g : Vfp.Grid) (f0 : ℕ → ℝ) : ℝ := savedP g f0 / savedN g f0

/-- The saved `v` and `q` (storage.py:305-306, 309-310) at the cell `i`. -/
noncomputable def savedV (g : Vfp.Grid) (f10 : ℕ → ℕ → ℝ) (i : ℕ) : ℝ := Vfp.e2c (fun k => moment1 g (f10 k)) i
noncomputable def savedQ (g : Vfp.Grid) (f10 : ℕ → ℕ → ℝ) (i : ℕ) : ℝ :=
  Vfp.e2c (fun k => moment1 g fun j => 0.5 * f10 k j * g.v j ^ 2) i

/-- `jnp.mean` over the cells. -/
noncomputable def mean (nx : ℕ) (f : ℕ → ℝ) : ℝ := (∑ i ∈ range nx, f i) / nx

/-- The default scalars (storage.py:403-412). -/
noncomputable def meanU (g : Vfp.Grid) (f0 : ℕ → ℕ → ℝ) : ℝ := mean g.nx fun i => moment0 g fun j => f0 i j * g.v j ^ 2
noncomputable def meanN (g : Vfp.Grid) (f0 : ℕ → ℕ → ℝ) : ℝ := mean g.nx fun i => moment0 g (f0 i)
noncomputable def meanJ (g : Vfp.Grid) (f10 : ℕ → ℕ → ℝ) : ℝ := mean g.nx fun i => moment1 g fun j => Vfp.e2c (fun k => f10 k j) i
noncomputable def meanQ (g : Vfp.Grid) (f10 : ℕ → ℕ → ℝ) : ℝ :=
  mean g.nx fun i => moment1 g fun j => 0.5 * Vfp.e2c (fun k => f10 k j) i * g.v j ^ 2

/-- The columns written for one saved quantity (`get_unit`, storage.py:148-170; `store_fields`,
storage.py:120-124): label and factor. -/
noncomputable def columns (k : String) : List (String × ℝ) :=
  if k = "T" then [("keV", 510.999), ("a.u.", 1)]
  else if k = "n" then [("cm-3", 9.09 * 10 ^ 21), ("n_c", 1)]
  else [("a.u.", 1)]

/-- The first failure of `get_save_quantities` (storage.py:356-366), if any: every entry needs a time
axis, and those for fields and distributions nothing else.  An entry is its name and the axes under it. -/
def saveFails : List (String × List String) → Option String
  | [] => none
  | e :: l =>
    if "t" ∉ e.2 then some "KeyError"
    else if (e.1.startsWith "fields" || e.1.startsWith "electron") && e.2 ≠ ["t"] then some "NotImplementedError"
    else saveFails l

/-- The keys of the sub-saves (storage.py:347-370, base.py:226-233): an entry of another name has no save
function when the solver is built. -/
def saveKeys (d : List (String × List String)) : Except String (List String) :=
  match saveFails d with
  | some e => .error e
  | none =>
    if d.all fun e => e.1.startsWith "fields" || e.1.startsWith "electron" then .ok (d.map Prod.fst ++ ["default"])
    else .error "KeyError"

end Verif.VfpInit
