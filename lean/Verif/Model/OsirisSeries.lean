import Verif.Model.Py
import Verif.Model.Deck
import Verif.Model.Runner
import Verif.Model.Io
import Verif.Model.Grid
import Verif.Model.PicLoad
import Verif.Model.OsirisPlot
import Mathlib.Algebra.Order.Field.Basic
import Mathlib.Algebra.Order.Group.Abs

/-!
Model of what adept/osiris/io.py keeps of an OSIRIS run besides the values on the grid: the axes of a phase space whose
bounds move from dump to dump, the particles of RAW dumps, and the energy histories under `HIST/`.

Simplifications: exact arithmetic in an ordered field; NaN is `none`; one axis of a series is treated at a time; HDF5 and
NetCDF reading and writing return what was written; units, names and other attributes are not modelled here.
-/
namespace Verif.OsirisSeries
open Finset

section
variable {K : Type} [Field K] [LinearOrder K]

/-- One element of `np.allclose(x, ref)` with the default tolerances (io.py:421, 631, 802). -/
def close (x ref : K) : Bool := decide (|x - ref| ≤ 1 / 100000000 + 1 / 100000 * |ref|)

/-- Whether the recorded bounds of an axis move: `not (allclose(lo, lo[0]) and allclose(hi, hi[0]))`
(io.py:421, 629-631). -/
def moving : List (K × K) → Bool
  | [] => false
  | b :: bs => !((b :: bs).all (fun x => close x.1 b.1) && (b :: bs).all fun x => close x.2 b.2)

/-- One axis of a loaded series: its number of cells, the coordinate `linspace(lo, hi, n)` of the array, and the
coordinates `{dim}_min`, `{dim}_max` along `t` if there are any. -/
structure Axis (K : Type) where
  n : ℕ
  lo : K
  hi : K
  bounds : Option (List (K × K))

/-- The axis of `load_series` over raw dumps with the recorded bounds (io.py:411-424). -/
def loadAxis (n : ℕ) : List (K × K) → Option (Axis K)
  | [] => none
  | b :: bs => some ⟨n, b.1, b.2, if moving (b :: bs) then some (b :: bs) else none⟩

/-- The axis in a file of the concurrent converter: the coordinate of the first dump, the bounds always
(stream.py:210-216, 229, 247-248). -/
def streamAxis (n : ℕ) : List (K × K) → Option (Axis K)
  | [] => none
  | b :: bs => some ⟨n, b.1, b.2, some (b :: bs)⟩

/-- `isel(t=idx)` of a saved series (io.py:577-583). -/
def selectAxis (a : Axis K) (idx : List ℕ) : Axis K := ⟨a.n, a.lo, a.hi, a.bounds.map fun l => Io.pick l idx⟩

/-- `physical_axis(da, dim, it)` for `it ≥ 0` (io.py:436-456), entry `j`; `none`: there is no slice `it`. -/
def physicalAxis (a : Axis K) (it j : ℕ) : Option K :=
  match a.bounds with
  | none => some (Grid.linspaceAt a.lo a.hi a.n j)
  | some l => (l[it]?).map fun b => Grid.linspaceAt b.1 b.2 a.n j

/-- Whether the axis is in `autoscaled_dims` of a reloaded series (io.py:623-635). -/
def autoscaled (a : Axis K) : Bool :=
  match a.bounds with
  | none => false
  | some l => moving l

/-- The temperature drawn for one position of dump `it` (plots.py:1161-1191): `_temperature_from_phasespace` takes the
momenta from the coordinate of the array (plots.py:1180). -/
def drawnTemperature {n : ℕ} (total : K) (a : Axis K) (f : Fin n → K) : Option K :=
  OsirisPlot.temperature total (fun i : Fin n => Grid.linspaceAt a.lo a.hi a.n i.val) f

/-! ### RAW dumps -/

/-- One RAW dump (io.py:147-195): the iteration of its file name, its attributes `TIME` and `ITER`, the number of
particles and the values of each quantity. -/
structure Raw (K : Type) where
  nameIter : ℤ
  time : K
  iter : ℤ
  n : ℕ
  cols : Dict Str (List K)

/-- The dumps of `load_raw_series` (io.py:218-219). -/
def rawKeep (dropInitial : Bool) (ds : List (Raw K)) : List (Raw K) :=
  if dropInitial && decide (1 < ds.length) then
    (match ds.filter fun d => d.nameIter != 0 with
      | [] => ds
      | k => k)
  else ds

/-- The column of a quantity in `xr.concat(per_dump, dim="pidx")` (io.py:231): a dump without it contributes NaN. -/
def rawColumn (q : Str) (ds : List (Raw K)) : List (Option K) :=
  ds.flatMap fun d => match dictGet d.cols q with
    | some c => c.map some
    | none => List.replicate d.n none

/-- The coordinates `t` and `iter` along `pidx` (io.py:228-238). -/
def rawTime (ds : List (Raw K)) : List K := ds.flatMap fun d => List.replicate d.n d.time
def rawIter (ds : List (Raw K)) : List ℤ := ds.flatMap fun d => List.replicate d.n d.iter

/-! ### Energy histories -/

/-- The file names that are read (io.py:844, 850, 854). -/
inductive HistKind | fld | par
deriving DecidableEq

/-- `"ene" in name.lower()`, then `"fld"`, then `"par"` (io.py:844-854). -/
def histKind (name : Str) : Option HistKind :=
  let low := name.map Deck.asciiLower
  if !Runner.contains ['e', 'n', 'e'] low then none
  else if Runner.contains ['f', 'l', 'd'] low then some .fld
  else if Runner.contains ['p', 'a', 'r'] low then some .par
  else none

/-- `Path(name).stem` (io.py:858). -/
def pathStem (s : Str) : Str :=
  let suffix := s.reverse.takeWhile (· != '.')
  let rest := s.reverse.dropWhile (· != '.')
  if rest.length ≤ 1 || suffix.isEmpty then s else (rest.drop 1).reverse

/-- `s.split()`: the maximal runs without white space. -/
def wordsAux (cur : Str) : Str → List Str
  | [] => if cur.isEmpty then [] else [cur.reverse]
  | c :: cs =>
    if pySpace c then (if cur.isEmpty then wordsAux [] cs else cur.reverse :: wordsAux [] cs)
    else wordsAux (c :: cur) cs
def words (s : Str) : List Str := wordsAux [] s

/-- All the values, if every one is there. -/
def allSome {α : Type} : List (Option α) → Option (List α)
  | [] => some []
  | none :: _ => none
  | some a :: l => (allSome l).map fun r => a :: r

/-- One line of a table (io.py:784-790): `none` if it is blank, begins with `!` or `#`, or has a word that `float`
rejects (`num`: Python's `float`). -/
def dataRow (num : Str → Option K) (line : Str) : Option (List K) :=
  match strip line with
  | [] => none
  | c :: cs => if c = '!' ∨ c = '#' then none else allSome ((words (c :: cs)).map num)

/-- `min(len(r) for r in rows)` (io.py:793). -/
def minWidth : List (List K) → ℕ
  | [] => 0
  | r :: rs => rs.foldl (fun w x => min w x.length) r.length

/-- `_parse_hist_table` on the lines of a file (io.py:773-797): times and rows of values. -/
def parseTable (num : Str → Option K) (lines : List Str) : Option (List K × List (List K)) :=
  let rows := lines.filterMap (dataRow num)
  if rows.isEmpty then none
  else if minWidth rows < 2 then none
  else some (rows.map fun r => (r.take (minWidth rows)).getD 1 0, rows.map fun r => (r.take (minWidth rows)).drop 2)

/-- A curve: times and values. -/
abbrev Curve (K : Type) := List K × List K

/-- `field`, `kinetic` (io.py:841-842). -/
structure Parsed (K : Type) where
  field : Option (Curve K)
  kinetic : Dict Str (Curve K)

/-- One file of `HIST/` (io.py:843-858): its name and its table, times and rows of values. -/
def histStep (p : Parsed K) (f : Str × Option (List K × List (List K))) : Parsed K :=
  match histKind f.1, f.2 with
  | none, _ => p
  | _, none => p
  | some k, some tb =>
    if tb.2.flatten.isEmpty then p
    else match k with
      | .fld => { p with field := some (tb.1, tb.2.map List.sum) }
      | .par => { p with kinetic := dictSet p.kinetic (pathStem f.1) (tb.1, tb.2.map fun r => r.getLastD 0) }

/-- `_interp_onto` (io.py:800-804). -/
def interpOnto (c : Curve K) (ref : List K) : List K :=
  if c.1.length = ref.length ∧ (c.1.zip ref).all (fun x => close x.1 x.2) then c.2
  else ref.map fun x => PicLoad.interp x (c.1.zip c.2)

/-- `kin_total` (io.py:868-872): elementwise sum in the order of the files. -/
def addCurves : List (List K) → Option (List K)
  | [] => none
  | c :: cs => some (cs.foldl (fun a b => List.zipWith (· + ·) a b) c)

/-- `np.max`, `np.min` of a list with a default for the empty one. -/
def listMax : List K → K
  | [] => 0
  | a :: l => l.foldl max a
def listMin : List K → K
  | [] => 0
  | a :: l => l.foldl min a

/-- `total_drift_frac` (io.py:880-881). -/
def drift (total : List K) : K :=
  let m := listMax (total.map fun x => |x|)
  (listMax total - listMin total) / (if m = 0 then 1 else m)

/-- The dataset of `load_hist_energy`. -/
structure Hist (K : Type) where
  t : List K
  field : Option (List K)
  kinetic : Dict Str (List K)
  kineticTotal : Option (List K)
  total : Option (List K)
  drift : Option K

/-- `ref_t` (io.py:860-863). -/
def refTime (p : Parsed K) : Option (List K) :=
  match p.field, p.kinetic with
  | some f, _ => some f.1
  | none, (_, c) :: _ => some c.1
  | none, [] => none

/-- The sum of the two halves when both are there (io.py:877-878). -/
def addHalves : Option (List K) → Option (List K) → Option (List K)
  | some a, some b => some (List.zipWith (· + ·) a b)
  | _, _ => none

/-- The dataset for the parsed files (io.py:863-883). -/
def assemble (p : Parsed K) (ref : List K) : Hist K :=
  let field := p.field.map fun c => interpOnto c ref
  let kinetic := p.kinetic.map fun kc => (kc.1, interpOnto kc.2 ref)
  let kin := addCurves (kinetic.map Prod.snd)
  let total := addHalves field kin
  ⟨ref, field, kinetic, kin, total, total.map drift⟩

/-- `load_hist_energy` for the files of `HIST/` in the order of their names (io.py:837-885). -/
def loadHist (files : List (Str × Option (List K × List (List K)))) : Option (Hist K) :=
  let p := files.foldl histStep ⟨none, []⟩
  (refTime p).map fun ref => assemble p ref

end
end Verif.OsirisSeries
