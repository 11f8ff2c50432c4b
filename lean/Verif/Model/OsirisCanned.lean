import Verif.Model.Py
import Verif.Model.Runner
import Verif.Model.PicLoad
import Verif.Model.OsirisPlot
import Mathlib.Algebra.Order.Field.Basic
import Mathlib.Algebra.Order.Group.Abs
import Mathlib.Analysis.SpecialFunctions.Log.Base

/-!
Model of the standard set of figures of an OSIRIS run (adept/osiris/plots.py: `save_canned_plots`, `plot_profile`,
`_density_series`, `_temperature_series`, `_species_phasespace`, `_nonzero_log_clim`, `_tex`, `_label_tex`).

Simplifications: whether drawing and writing a figure raises is a parameter, except for the `ω`-`k` figure of a field, which
needs two dumps; a figure is its name; diagnostics are listed in the order of their paths; a series is its number of
dimensions and of dumps; the printed messages are not modelled.
-/
namespace Verif.OsirisCanned
open Verif

/-! ### Which figures are drawn -/

/-- The names of the figures, the keys of the returned mapping (plots.py:1540-1732). -/
inductive Key
  | spacetime (comp : Str) | spacetimeLog (comp : Str) | lineouts (comp : Str) | omegaK (comp : Str)
  | currentsSpacetime | currentsLineouts
  | moment (sp q : Str) | momentLog (sp q : Str) | momentLineouts (sp q : Str)
  | density (sp : Str) | temperature (sp : Str)
  | phase (sp ps : Str) | phaseEvolution (sp ps : Str)
  | decomposition (comp : Str)
  | energy | components | epw | total | partition
deriving DecidableEq

/-- What an exception is to the handlers: one of `FileNotFoundError`, `RuntimeError`, or any other. -/
inductive Exc | io | other
deriving DecidableEq

/-- What surrounds the drawing: nothing, `except (FileNotFoundError, RuntimeError)`, or `except Exception`. -/
inductive Guard | bare | io | all
deriving DecidableEq

def Guard.catches : Guard → Exc → Bool
  | .bare, _ => false
  | .io, .io => true
  | .io, .other => false
  | .all, _ => true

/-- Figures drawn one after another inside one handler. -/
structure Block where
  guard : Guard
  figs : List Key

/-- One diagnostic: its name within its family, and `ndim` and the number of dumps if it can be read. -/
structure Diag where
  name : Str
  sub : Str
  series : Option (ℕ × ℕ)

/-- The contents of a run as `save_canned_plots` sees them: `FLD/` entries, whether a current can be read
(plots.py:980-994), `DENSITY/` entries (species, quantity), the species with a density and a temperature, `PHA/` entries
(species, phase space), the components of the left/right split, and whether the histories have a total. -/
structure Run where
  fields : List Diag
  currents : Bool
  moments : List Diag
  species : List (Str × Bool × Bool)
  phases : List Diag
  split : List Str
  hist : Bool

/-- The figures of one field (plots.py:1528-1561); none if it cannot be read or is not `(t, x)`. -/
def fieldBlock (d : Diag) : Option Block :=
  match d.series with
  | some (2, _) => some ⟨.bare, [.spacetime d.name, .spacetimeLog d.name, .lineouts d.name, .omegaK d.name]⟩
  | _ => none

/-- The figures of one moment (plots.py:1575-1601). -/
def momentBlock (d : Diag) : Option Block :=
  match d.series with
  | some (2, _) => some ⟨.bare, [.moment d.name d.sub, .momentLog d.name d.sub, .momentLineouts d.name d.sub]⟩
  | _ => none

/-- The two profiles of one species, each in its own handler (plots.py:1604-1647). -/
def profileBlocks (s : Str × Bool × Bool) : List Block :=
  [⟨.all, if s.2.1 then [.density s.1] else []⟩, ⟨.all, if s.2.2 then [.temperature s.1] else []⟩]

/-- The figures of one phase space (plots.py:1650-1686): the last dump bare, the evolution guarded; nothing without dumps. -/
def phaseBlocks (d : Diag) : List Block :=
  match d.series with
  | some (3, nt) => if nt < 1 then [] else [⟨.bare, [.phase d.name d.sub]⟩, ⟨.all, [.phaseEvolution d.name d.sub]⟩]
  | _ => []

/-- All the blocks in the order of the code (plots.py:1527-1733). -/
def blocks (r : Run) : List Block :=
  r.fields.filterMap fieldBlock ++
  [⟨.all, if r.currents then [.currentsSpacetime, .currentsLineouts] else []⟩] ++
  r.moments.filterMap momentBlock ++
  r.species.flatMap profileBlocks ++
  r.phases.flatMap phaseBlocks ++
  [⟨.all, r.split.map .decomposition⟩, ⟨.io, [.energy]⟩, ⟨.io, [.components]⟩, ⟨.io, [.epw]⟩,
   ⟨.all, if r.hist then [.total] else []⟩, ⟨.all, if r.hist then [.partition] else []⟩]

/-- A readable `(t, x)` field with fewer than two dumps, for which `t[1] - t[0]` raises (plots.py:736). -/
def dumpedOnce (d : Diag) : Bool :=
  match d.series with
  | some (2, nt) => decide (nt < 2)
  | _ => false

/-- Whether drawing a figure raises: the `ω`-`k` figure of a field with fewer than two dumps always does; otherwise the
parameter `draw` decides. -/
def outcome (r : Run) (draw : Key → Option Exc) : Key → Option Exc
  | .omegaK c => if r.fields.any fun d => decide (d.name = c) && dumpedOnce d then some .other else draw (.omegaK c)
  | k => draw k

/-- The figures of one block up to the first exception, which ends it. -/
def drawFigs (out : Key → Option Exc) : List Key → List Key × Option Exc
  | [] => ([], none)
  | k :: ks => match out k with
    | some e => ([], some e)
    | none => (k :: (drawFigs out ks).1, (drawFigs out ks).2)

/-- The blocks one after another; an exception that is not caught ends the function. -/
def runBlocks (out : Key → Option Exc) : List Block → List Key × Option Exc
  | [] => ([], none)
  | b :: bs => match (drawFigs out b.figs).2 with
    | none => ((drawFigs out b.figs).1 ++ (runBlocks out bs).1, (runBlocks out bs).2)
    | some e =>
      if b.guard.catches e then ((drawFigs out b.figs).1 ++ (runBlocks out bs).1, (runBlocks out bs).2)
      else ((drawFigs out b.figs).1, some e)

/-- `save_canned_plots` (plots.py:1474-1735): the figures on disk, and the exception that left the function if any. -/
def canned (r : Run) (draw : Key → Option Exc) : List Key × Option Exc := runBlocks (outcome r draw) (blocks r)

/-! ### Which data a profile shows -/

/-- The entries of a species: whether under `DENSITY` (else `UDIST`), the quantity, and its series (plots.py:1055-1068). -/
structure Entry (K : Type) where
  isDensity : Bool
  quantity : Str
  ndim : ℕ
  values : List (List K)

section
variable {K : Type} [Field K] [LinearOrder K] [FloorRing K]

/-- The quantities taken as a density, in order (plots.py:1081). -/
def densityNames : List Str := [['n'], ['n', '0', '1'], ['n', '0', '2'], ['c', 'h', 'a', 'r', 'g', 'e'], ['m']]

/-- The last entry of a quantity: `{q: p for kind, q, p in entries if kind == "DENSITY"}` (plots.py:1080). -/
def lookupQ (entries : List (Entry K)) (q : Str) : Option (Entry K) :=
  entries.reverse.find? fun e => decide (e.quantity = q)

/-- `_density_series` (plots.py:1080-1106): the entry shown, and whether its charge sign is divided out. -/
def densityEntry (entries : List (Entry K)) : Option (Entry K × Bool) :=
  let dens := entries.filter fun e => e.isDensity
  match densityNames.findSome? fun q => (lookupQ dens q).bind fun e => if e.ndim = 2 then some (e, decide (q = ['c', 'h', 'a', 'r', 'g', 'e'])) else none with
  | some r => some r
  | none => (dens.find? fun e => decide (e.ndim = 2)).map fun e => (e, false)

/-- `_temperature_series` at one cell (plots.py:1121-1141): the thermal velocities `uth1..3` that are there in quadrature, else
the sum of the diagonal `T11..33`. -/
def thermal (uth tens : List K) : Option K :=
  match uth, tens with
  | u :: us, _ => some ((us.map fun x => x ^ 2).foldl (· + ·) (u ^ 2))
  | [], t :: ts => some (ts.foldl (· + ·) t)
  | [], [] => none

/-- The window of `plot_profile` (plots.py:1223-1224) for `n` received dumps; `frac` is `n_avg_frac`. -/
def window (frac : K) (avg : Option ℤ) (n : ℕ) : ℤ :=
  max 1 (min (match avg with
    | some w => w
    | none => max 1 (PicLoad.roundEven (frac * n))) n)

/-- The late-time mean at one position (plots.py:1228): the last `window` of the received dumps. -/
def lateMean (frac : K) (avg : Option ℤ) (series : List K) : K :=
  let w := (window frac avg series.length).toNat
  (series.drop (series.length - w)).sum / w

/-- The dumps read for the temperature profile (plots.py:1630-1631): the first and the last `w`. -/
def readIdx (n w : ℕ) : List ℕ := if w < n then 0 :: List.range' (n - w) w else List.range n

/-- `_nonzero_log_clim` before the logarithm (plots.py:938-951): the smallest non-zero and the largest magnitude. -/
def nonzeroRange (values : List K) : Option (K × K) :=
  match (values.map fun x => |x|).filter fun m => decide (0 < m) with
  | [] => none
  | a :: l => some (l.foldl min a, l.foldl max a)

end

/-- `_nonzero_log_clim` (plots.py:938-951). -/
noncomputable def logClim (values : List ℝ) : Option (ℝ × ℝ) :=
  (nonzeroRange values).map fun r => (Real.logb 10 r.1, Real.logb 10 r.2)

/-! ### Labels -/

/-- `s.startswith("$") and s.endswith("$")`. -/
def delimited (s : Str) : Bool := s.head? == some '$' && s.getLast? == some '$'

/-- `_tex` (plots.py:1750-1766). -/
def tex (s : Str) : Str :=
  if s.isEmpty || delimited s then s
  else if s.any fun c => c = '\\' || c = '_' || c = '^' || c = '/' then '$' :: (s ++ ['$'])
  else s

/-- One token of `_label_tex` (plots.py:1783). -/
def tokTex (tok : Str) : Str :=
  if tok.any fun c => c = '\\' || c = '_' || c = '^' || c = '{' || c = '}' then '$' :: (tok ++ ['$']) else tok

/-- `s.split(" ")`. -/
def splitBlank : Str → List Str
  | [] => [[]]
  | c :: cs =>
    if c = ' ' then [] :: splitBlank cs
    else match splitBlank cs with
      | [] => [[c]]
      | w :: ws => (c :: w) :: ws

/-- `" ".join(l)`. -/
def joinBlank : List Str → Str
  | [] => []
  | [w] => w
  | w :: ws => w ++ ' ' :: joinBlank ws

/-- `_label_tex` (plots.py:1769-1783). -/
def labelTex (s : Str) : Str :=
  if s.isEmpty || delimited s then s else joinBlank ((splitBlank s).map tokTex)

end Verif.OsirisCanned
