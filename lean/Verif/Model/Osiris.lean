import Verif.Model.Density
import Verif.Model.Norm
import Verif.Model.Runner
import Verif.Model.Io

/-!
Model of adept/osiris/base.py (derived quantities and units of a deck), of the ion-acoustic speeds and the choice of
field diagnostics in adept/osiris/plots.py, of the field-energy metric in adept/osiris/post.py and of the plot options
in adept/osiris/regen.py.

Simplifications: deck values are numbers, lists of numbers or other texts (`Density.DVal`), exact arithmetic; a text
where a number is needed is an exception (`float("…")` of a quoted number is not modelled); labels and file contents
other than the numbers used are dropped; paths are lists of names, a parent of the empty path is itself.
-/
namespace Verif.Osiris
open Verif.Density

/-- Exceptions of `get_derived_quantities`. -/
inductive Err
  | type | index | zeroDiv
deriving DecidableEq

def nTime : Str := ['t', 'i', 'm', 'e']
def nTimeStep : Str := ['t', 'i', 'm', 'e', '_', 's', 't', 'e', 'p']
def nSim : Str := ['s', 'i', 'm', 'u', 'l', 'a', 't', 'i', 'o', 'n']
def nAntenna : Str := ['a', 'n', 't', 'e', 'n', 'n', 'a']
def nSpeckle : Str := ['z', 'p', 'u', 'l', 's', 'e', '_', 's', 'p', 'e', 'c', 'k', 'l', 'e']
def nZpulse : Str := ['z', 'p', 'u', 'l', 's', 'e']
def nSpecies : Str := ['s', 'p', 'e', 'c', 'i', 'e', 's']
def nUdist : Str := ['u', 'd', 'i', 's', 't']
def kDt : Str := ['d', 't']
def kTmax : Str := ['t', 'm', 'a', 'x']
def kTmin : Str := ['t', 'm', 'i', 'n']
def kN0 : Str := ['n', '0']
def kOmegaP0 : Str := ['o', 'm', 'e', 'g', 'a', '_', 'p', '0']
def kOmega0 : Str := ['o', 'm', 'e', 'g', 'a', '0']
def kA0 : Str := ['a', '0']
def kRqm : Str := ['r', 'q', 'm']
def kUth : Str := ['u', 't', 'h']

section
variable {K : Type} [Field K] [LinearOrder K] [FloorRing K]

/-- `_iter_first_section` (base.py:199-203): the first section of the name, else an empty one. -/
def sec (secs : Secs K) (name : Str) : Params K := (dictGet secs name).getD []

/-- `_first_array_value` (base.py:205-213), before the value is made a list. -/
def arrayValue (d : Params K) (base : Str) : Option (DVal K) :=
  (d.find? fun p => decide (p.1 = base) || (base ++ ['(']).isPrefixOf p.1).map Prod.snd

/-- `[(xmax[d] - xmin[d]) / nx[d] for d in range(len(nx))]` (base.py:144). -/
def dxList : List K → List K → List K → Except Err (List K)
  | [], _, _ => .ok []
  | n :: ns, a :: as, b :: bs =>
    if n = 0 then .error .zeroDiv
    else match dxList ns as bs with
      | .error e => .error e
      | .ok l => .ok ((b - a) / n :: l)
  | _ :: _, _, _ => .error .index

/-- `dx` (base.py:143-144). -/
def gridSpacing (nx xmin xmax : Option (DVal K)) : Except Err (Option (List K)) :=
  match nx, xmin, xmax with
  | some n, some a, some b =>
    match floats n, floats a, floats b with
    | some [], _, _ => .ok none
    | some (n :: ns), some a, some b =>
      match dxList (n :: ns) a b with
      | .error e => .error e
      | .ok l => .ok (some l)
    | _, _, _ => .error .type
  | _, _, _ => .ok none

/-- `min(l)` (base.py:146). -/
def minimum : List K → Option K
  | [] => none
  | a :: l => some (l.foldl min a)

/-- `cfl_ratio` (base.py:145-146). -/
def cflRatio (dx : Option (List K)) (dt : Option (DVal K)) : Except Err (Option K) :=
  match dx, dt with
  | some l, some (.num t) =>
    match minimum l with
    | none => .error .type
    | some m => if m = 0 then .error .zeroDiv else .ok (some (t / m))
  | some _, some _ => .error .type
  | _, _ => .ok none

/-- `num_steps` (base.py:147-151): type and value errors are swallowed, a division by zero is not. -/
def numSteps (dt tmax : Option (DVal K)) : Except Err (Option Int) :=
  match dt, tmax with
  | some (.num t), some (.num T) => if t = 0 then .error .zeroDiv else .ok (some (trunc (T / t)))
  | _, _ => .ok none

/-- The dictionary of `get_derived_quantities`. -/
structure Derived (K : Type) where
  dx : Option (List K)
  cfl : Option K
  steps : Option Int

/-- `get_derived_quantities` (base.py:129-154). -/
def derived (secs : Secs K) : Except Err (Derived K) :=
  match gridSpacing (arrayValue (sec secs nGrid) kNx) (arrayValue (sec secs nSpace) kXmin) (arrayValue (sec secs nSpace) kXmax) with
  | .error e => .error e
  | .ok dx =>
    match cflRatio dx (dictGet (sec secs nTimeStep) kDt) with
    | .error e => .error e
    | .ok cfl =>
      match numSteps (dictGet (sec secs nTimeStep) kDt) (dictGet (sec secs nTime) kTmax) with
      | .error e => .error e
      | .ok st => .ok ⟨dx, cfl, st⟩

/-- `_infer_dim` (base.py:215-222). -/
def inferDim (secs : Secs K) : Option ℕ :=
  ((sec secs nGrid).find? fun p => kNx.isPrefixOf p.1).map fun p =>
    match p.2 with
    | .arr l => l.length
    | _ => 1

/-! ### Ion-acoustic speeds -/

/-- `_deck_get` (plots.py:631-633). -/
def deckGet (d : Params K) (key : Str) : Option (DVal K) := (d.find? fun p => decide (baseOf p.1 = key)).map Prod.snd

/-- `_first` (plots.py:624-628); the outer `none` is an exception. -/
def firstNum : Option (DVal K) → Option (Option K)
  | none => some none
  | some (.num x) => some (some x)
  | some (.arr (x :: _)) => some (some x)
  | some _ => none

/-- An entry of `species` (plots.py:662-667). -/
structure Sp (K : Type) where
  rqm : Option K
  uth : Option K

/-- The step for a `udist` section (plots.py:666-667): it counts for the last species, if that has no thermal speed yet. -/
def addUth (params : Params K) : List (Sp K) → Option (List (Sp K))
  | ⟨r, none⟩ :: acc => (firstNum (deckGet params kUth)).map fun u => ⟨r, u⟩ :: acc
  | acc => some acc

/-- The walk over the sections (plots.py:663-667); the list is kept in reverse, the last species first. -/
def walk : Secs K → List (Sp K) → Option (List (Sp K))
  | [], acc => some acc
  | (name, params) :: rest, acc =>
    if name = nSpecies then
      match firstNum (deckGet params kRqm) with
      | none => none
      | some r => walk rest (⟨r, none⟩ :: acc)
    else if name = nUdist then
      match addUth params acc with
      | none => none
      | some acc' => walk rest acc'
    else walk rest acc

/-- `v_the` (plots.py:668): `s["uth"]` must be neither `None` nor zero. -/
def electronSpeed (l : List (Sp K)) : Option K :=
  l.findSome? fun s =>
    match s.rqm, s.uth with
    | some r, some u => if r < 0 ∧ u ≠ 0 then some u else none
    | _, _ => none

/-- `cs2 += v_the**2 / rqm` if there are electrons (plots.py:675-676). -/
def addElectrons (c r : K) : Option K → K
  | none => c
  | some v => c + v ^ 2 / r

/-- `cs2` of one species (plots.py:671-676); `none` for `continue`. -/
def speedSq (vthe : Option K) (s : Sp K) : Option K :=
  match s.rqm with
  | none => none
  | some r => if r ≤ 0 then none else some (addElectrons (3 * (s.uth.getD 0) ^ 2) r vthe)

/-- `ion_acoustic_speeds` (plots.py:662-679) on the parsed deck, giving the squares of the speeds with the number of
their species (counted from 1); the outer `none` is an exception. -/
def speedsSq (secs : Secs K) : Option (List (ℕ × K)) :=
  (walk secs []).map fun acc =>
    let l := acc.reverse
    (l.zipIdx 1).filterMap fun p =>
      match speedSq (electronSpeed l) p.1 with
      | none => none
      | some c => if 0 < c then some (p.2, c) else none

end

/-! ### Units -/

open Verif.Norm

/-- `skin_depth_normalization(f"{n0} / cc")` or `…_from_frequency(f"{omega_p0} rad/s")` (base.py:74-82); `none` for
neither. -/
noncomputable def refNorm (u : Consts) (sim : Params ℝ) : Option (Except Norm.Err PlasmaNorm) :=
  match dictGet sim kN0, dictGet sim kOmegaP0 with
  | some (.num n), _ => some (skinDepth u ⟨n * 10 ^ 6, dDensity⟩)
  | some _, _ => some (.error .unparsable)
  | none, some (.num w) => some (skinDepthFromFreq u ⟨w, dRate⟩)
  | none, some _ => some (.error .unparsable)
  | none, none => none

/-- `q.to(unit).magnitude`, where `unit` has the dimension `d` and is `1 / factor` SI units. -/
noncomputable def inUnit (q : Qty) (d : Dim) (factor : ℝ) : Except Norm.Err ℝ :=
  match q.to d with
  | .error e => .error e
  | .ok q => .ok (q.val * factor)

/-- Dimension of an intensity. -/
def dIntensity : Dim := ⟨0, 1, -3, 0, 0⟩

/-- The laser entries (base.py:120-123): rad/s, nm, dimensionless, W/cm². -/
structure Laser where
  w : ℝ
  wavelength : ℝ
  a0 : ℝ
  intensity : ℝ

/-- The dictionary returned by `write_units` (base.py:84-123): rad/s, fs, 1/cc, m/s, nm, two pure numbers, micron, ps. -/
structure Units where
  wp0 : ℝ
  tp0 : ℝ
  n0 : ℝ
  v0 : ℝ
  x0 : ℝ
  cLight : ℝ
  beta : ℝ
  box : Option ℝ
  duration : Option ℝ
  laser : Option Laser

/-- `xmax[0] - xmin[0]` if both are there (base.py:94-98). -/
noncomputable def boxLength (space : Params ℝ) : Except Norm.Err (Option ℝ) :=
  match arrayValue space kXmin, arrayValue space kXmax with
  | some a, some b =>
    match floats a, floats b with
    | some (a :: _), some (b :: _) => .ok (some (b - a))
    | _, _ => .error .typeError
  | _, _ => .ok none

/-- `float(tmax) - float(tmin)` (base.py:100-104). -/
noncomputable def runTime (time : Params ℝ) : Except Norm.Err (Option ℝ) :=
  match dictGet time kTmax with
  | none => .ok none
  | some (.num T) =>
    match dictGet time kTmin with
    | none => .ok (some (T - 0))
    | some (.num t) => .ok (some (T - t))
    | some _ => .error .typeError
  | some _ => .error .typeError

/-- `a0` and `omega0` of a section, if it has both (base.py:115-116). -/
def laserIn (d : Params ℝ) : Option (DVal ℝ × DVal ℝ) :=
  match dictGet d kA0, dictGet d kOmega0 with
  | some a, some w => some (a, w)
  | _, _ => none

/-- The laser section used (base.py:114-116): the first of the three kinds having both numbers. -/
def laserOf (secs : Secs ℝ) : Option (DVal ℝ × DVal ℝ) :=
  [nAntenna, nSpeckle, nZpulse].findSome? fun n => laserIn (sec secs n)

/-- `x.to(unit)` for an optional multiple of `q`. -/
noncomputable def optUnit (x : Option ℝ) (q : Qty) (d : Dim) (factor : ℝ) : Except Norm.Err (Option ℝ) :=
  match x with
  | none => .ok none
  | some x =>
    match inUnit ((Qty.num x).mul q) d factor with
    | .error e => .error e
    | .ok v => .ok (some v)

/-- The laser quantities (base.py:117-123). -/
noncomputable def laserUnits (u : Consts) (tau : Qty) (a0 omega0 : ℝ) : Except Norm.Err Laser := do
  let w := (Qty.num omega0).div tau
  let e := ((((Qty.num a0).mul w).mul u.meQ).mul u.cQ).div u.eQ
  let wOut ← inUnit w dRate 1
  let lam ← inUnit ((((Qty.num 2).mul (Qty.num Real.pi)).mul u.cQ).div w) dLength (10 ^ 9)
  let i ← inUnit (((e.sq.mul u.epsQ).mul u.cQ).div (Qty.num 2)) dIntensity (1 / 10 ^ 4)
  return ⟨wOut, lam, a0, i⟩

/-- The optional laser quantities (base.py:114-124). -/
noncomputable def laserEntry (u : Consts) (tau : Qty) : Option (DVal ℝ × DVal ℝ) → Except Norm.Err (Option Laser)
  | none => .ok none
  | some (.num a, .num w) =>
    match laserUnits u tau a w with
    | .error e => .error e
    | .ok l => .ok (some l)
  | some _ => .error .typeError

/-- `write_units` after the normalization is known (base.py:84-127). -/
noncomputable def unitsOf (u : Consts) (secs : Secs ℝ) (n : PlasmaNorm) : Except Norm.Err Units := do
  let wp0 ← inUnit ((Qty.num 1).div n.tau) dRate 1
  let tp0 ← inUnit n.tau dTime (10 ^ 15)
  let n0 ← inUnit n.n0 dDensity (1 / 10 ^ 6)
  let v0 ← inUnit n.v0 dSpeed 1
  let x0 ← inUnit n.L0 dLength (10 ^ 9)
  let c ← cNorm u n
  let len ← boxLength (sec secs nSpace)
  let box ← optUnit len n.L0 dLength (10 ^ 6)
  let t ← runTime (sec secs nTime)
  let dur ← optUnit t n.tau dTime (10 ^ 12)
  let laser ← laserEntry u n.tau (laserOf secs)
  return ⟨wp0, tp0, n0, v0, x0, c, 1 / c, box, dur, laser⟩

/-- `write_units` (base.py:53-127); `none` for the empty dictionary. -/
noncomputable def writeUnits (u : Consts) (secs : Secs ℝ) : Except Norm.Err (Option Units) :=
  match refNorm u (sec secs nSim) with
  | none => .ok none
  | some (.error e) => .error e
  | some (.ok n) =>
    match unitsOf u secs n with
    | .error e => .error e
    | .ok q => .ok (some q)

/-! ### Field diagnostics and the final field energy -/

/-- The names of the six field components (post.py:42). -/
def fieldNames : List Str := [['e', '1'], ['e', '2'], ['e', '3'], ['b', '1'], ['b', '2'], ['b', '3']]

/-- `name.split("-", 1)[0]` (post.py:53, plots.py:408). -/
def stem (name : Str) : Str := name.takeWhile (· != '-')

/-- `"line" not in name and "slice" not in name` (post.py:54, plots.py:408). -/
def whole (name : Str) : Bool :=
  !(Runner.contains ['l', 'i', 'n', 'e'] name) && !(Runner.contains ['s', 'l', 'i', 'c', 'e'] name)

/-- `_is_field_component_dir` (post.py:45-54). -/
def isFieldDir (name : Str) : Bool := fieldNames.contains (stem name) && whole name

/-- One dump file: name, values of the dataset if it is found, and the cell volume from the attributes of the file
(post.py:57-85). -/
structure Dump (K : Type) where
  name : Str
  vals : Option (List K)
  dvol : K

/-- A directory below `MS/FLD`. -/
structure FldDir (K : Type) where
  name : Str
  dumps : List (Dump K)

section
variable {K : Type} [Field K]

/-- `_field_energy_from_dump` (post.py:57-85); `none` for NaN. -/
def energyOfDump (d : Dump K) : Option K := d.vals.map fun v => 1 / 2 * (v.map fun x => x ^ 2).sum * d.dvol

/-- One comparison of `max(files, key=…)` (post.py:30-39): a later file replaces the best one only if its number is larger. -/
def newer : Option (Dump K) → Dump K → Option (Dump K)
  | none, d => some d
  | some b, d => if Io.iterFromName b.name < Io.iterFromName d.name then some d else some b

/-- `max(files, key=…)` (post.py:30-39): the first file of the largest iteration number among the `.h5` files. -/
def latest (l : List (Dump K)) : Option (Dump K) := (l.filter fun d => Io.isH5 d.name).foldl newer none

/-- The energy a directory adds (post.py:99-107). -/
def dirEnergy (d : FldDir K) : Option K :=
  if isFieldDir d.name then (latest d.dumps).bind energyOfDump else none

/-- `_total_field_energy` (post.py:88-108); `none` for NaN. -/
def finalEnergy (fld : Option (List (FldDir K))) : Option K :=
  match fld with
  | none => none
  | some l =>
    match l.filterMap dirEnergy with
    | [] => none
    | es => some es.sum

/-- `field_energy_final` (post.py:184-189): the energy of the dumps or, failing that, of the streamed files. -/
def energyMetric (fld : Option (List (FldDir K))) (streamed : Option (Option K)) : Option K :=
  match finalEnergy fld, streamed with
  | some e, _ => some e
  | none, some s => s
  | none, none => none

end

/-- Code point order of names (`sorted`, plots.py:404). -/
def strLe : Str → Str → Bool
  | [], _ => true
  | _ :: _, [] => false
  | a :: s, b :: t => decide (a.toNat < b.toNat) || (decide (a = b) && strLe s t)

/-- Insertion of a name before the first larger one (`sorted`, plots.py:404). -/
def insertName (x : Str) : List Str → List Str
  | [] => [x]
  | y :: l => if strLe x y then x :: y :: l else y :: insertName x l

/-- `sorted(diags)` (plots.py:404). -/
def sortNames (l : List Str) : List Str := l.foldr insertName []

/-- `_resolve_fld_diag` (plots.py:394-410) on the names below `FLD` (keys `FLD/<name>`). -/
def resolve (leaves : List Str) (comp : Str) : Option Str :=
  if comp ∈ leaves then some comp
  else (sortNames leaves).find? fun leaf => decide (stem leaf = comp) && whole leaf

/-! ### Plot options and regeneration -/

/-- The plot options (plots.py:1426-1451): `zoom` is `some none` for an explicit null. -/
structure OutputCfg where
  vth : Option ℝ
  zoom : Option (Option ℝ)
  overlayDensity : Option ℝ
  bam : Option Bool
  ionAcoustic : Option Bool

/-- The keyword arguments handed to `save_canned_plots`; `none` for an absent one. -/
structure Kwargs where
  vth : Option (Option ℝ)
  zoom : Option (Option ℝ)
  omegaP : Option ℝ
  bam : Option Bool
  ionAcoustic : Option Bool
  dpi : Option ℕ
  panels : Option ℕ

/-- `canned_plot_kwargs` (plots.py:1441-1451); `none` for a missing block. -/
noncomputable def cannedKwargs (o : Option OutputCfg) : Kwargs :=
  match o with
  | none => ⟨some none, none, none, none, none, none, none⟩
  | some o => ⟨some o.vth, o.zoom, o.overlayDensity.map Real.sqrt, o.bam, o.ionAcoustic, none, none⟩

/-- The command line of `regen` (regen.py:133-156). -/
structure Cli where
  vth : Option ℝ
  zoom : Option ℝ
  noZoom : Bool
  dpi : Option ℕ
  panels : Option ℕ
  noConfig : Bool

/-- `kwargs.update(_cli_overrides(args))` (regen.py:101, 116-129). -/
def override (k : Kwargs) (c : Cli) : Kwargs :=
  { k with
    vth := match c.vth with
      | some v => some (some v)
      | none => k.vth
    dpi := c.dpi.or k.dpi
    panels := c.panels.or k.panels
    zoom := if c.noZoom then some none else match c.zoom with
      | some z => some (some z)
      | none => k.zoom }

abbrev Path := List Str

def dBinary : Str := ['b', 'i', 'n', 'a', 'r', 'y']
def dPlots : Str := ['p', 'l', 'o', 't', 's', '_', 'r', 'e', 'g', 'e', 'n']

/-- `find_binary_dir` (regen.py:38-48). -/
def findBinary (isDir : Path → Bool) (p : Path) : Path := if isDir (p ++ [dBinary]) then p ++ [dBinary] else p

/-- `default_out_dir` (regen.py:51-55). -/
def defaultOut (isDir : Path → Bool) (p : Path) : Path := (if isDir (p ++ [dBinary]) then p else p.dropLast) ++ [dPlots]

/-- What `yaml.safe_load(...) or {}` gives for a `config.yaml` (regen.py:71): unreadable, a mapping with its `output`
block, or a document that is no mapping (a list, a number or a text). -/
inductive Config
  | malformed
  | mapping (output : Option OutputCfg)
  | other

/-- `load_output_cfg` (regen.py:58-75): `config` gives the `config.yaml` of a directory, if there is one; the outer
`none` is an exception (`cfg.get` of a document that is no mapping, outside the `try`). -/
def loadOutput (config : Path → Option Config) (p : Path) : Option (Option OutputCfg) :=
  match (config p).or (config p.dropLast) with
  | none => some none
  | some .malformed => some none
  | some (.mapping o) => some o
  | some .other => none

/-- `main` (regen.py:132-161): the directory read, the directory written and the options. -/
noncomputable def regen (isDir : Path → Bool) (config : Path → Option Config) (src : Path) (out : Option Path) (c : Cli) :
    Option (Path × Path × Kwargs) :=
  match if c.noConfig then some none else loadOutput config src with
  | none => none
  | some o => some (findBinary isDir src, out.getD (defaultOut isDir src), override (cannedKwargs o) c)

/-- Options of the plots drawn at the end of a run (post.py:226). -/
noncomputable def liveKwargs (o : Option OutputCfg) : Kwargs := cannedKwargs o

end Verif.Osiris
