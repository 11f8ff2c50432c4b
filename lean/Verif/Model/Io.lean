import Verif.Model.Deck

/-!
Model of adept/osiris/io.py (finding, grouping, selecting and converting dumps)
and of the directory scans of adept/osiris/post.py.

Simplifications, stated once:
* File names contain no newline (`$` in the regexes would also match before a
  final one), digits are ASCII.
* A path is its list of components; `"a/b"` and `["a","b"]` are identified
  (components contain no `/`).
* HDF5/NetCDF reading and writing are parameters (`Grid`, `ok : Path → Bool`).
* `sorted(groups)` in `list_diagnostics` only fixes the dictionary's insertion
  order and is not modelled.
-/
namespace Verif.Io

/-- A path relative to `MS/` or `binary/`. -/
abbrev Path := List Str

/-- `".h5"`, reversed. -/
def revH5 : Str := ['5', 'h', '.']

/-- Match of `-(\d+)\.h5$` (io.py:33,267): `(base, digits)`, where the name is
`base ++ "-" ++ digits ++ ".h5"`.  Computed on the reversed name; the match is
unique because `\d+` contains no `-`. -/
def splitIter (name : Str) : Option (Str × Str) :=
  match name.reverse with
  | '5' :: 'h' :: '.' :: r =>
    match r.takeWhile Deck.isDigit, r.dropWhile Deck.isDigit with
    | d :: ds, '-' :: b => some (b.reverse, (d :: ds).reverse)
    | _, _ => none
  | _ => none

/-- `_iter_from_name` (io.py:76-78). -/
def iterFromName (name : Str) : Int :=
  match splitIter name with
  | some (_, ds) => Deck.digitsVal 0 ds
  | none => -1

/-- `_dump_base` (io.py:270-279). -/
def dumpBase (name : Str) : Str :=
  match splitIter name with
  | some (b, _) => b
  | none => name

/-- `p.suffix == ".h5"` (io.py:286): the name ends in `.h5` and is not `.h5` itself. -/
def isH5 (name : Str) : Bool :=
  match name.reverse with
  | '5' :: 'h' :: '.' :: r => !r.isEmpty
  | _ => false

/-- `groups.setdefault(base, []).append(p)` (io.py:287). -/
def groupAdd : Dict Str (List Str) → Str → Str → Dict Str (List Str)
  | [], b, p => [(b, [p])]
  | (b', ps) :: g, b, p => if b' = b then (b', ps ++ [p]) :: g else (b', ps) :: groupAdd g b p

/-- Insertion after equal keys. -/
def insertBy {α : Type} (key : α → Int) (x : α) : List α → List α
  | [] => [x]
  | y :: ys => if key x < key y then x :: y :: ys else y :: insertBy key x ys

/-- `list.sort(key=...)`, stable (io.py:289). -/
def sortBy {α : Type} (key : α → Int) (l : List α) : List α := l.foldl (fun acc x => insertBy key x acc) []

/-- The loop of `_series_dumps` (io.py:284-287). -/
def groupFiles (files : List Str) : Dict Str (List Str) :=
  files.foldl (fun g p => if isH5 p then groupAdd g (dumpBase p) p else g) []

/-- `_series_dumps` (io.py:282-290): the files of a directory, in `iterdir`
order, to base → dumps. -/
def seriesDumps (files : List Str) : Dict Str (List Str) :=
  (groupFiles files).map fun g => (g.1, sortBy iterFromName g.2)

/-- A directory tree: every directory with the regular files directly in it. -/
abbrev Tree := Dict Path (List Str)

/-- Errors of this module. -/
inductive Err
  | ambiguous | index | emptySelection | noDumps | shape | noDiagnostics
deriving DecidableEq

/-- `_sort_dumps` on a directory's files with an optional base (io.py:306-325). -/
def sortDumpsDir (files : List Str) (base : Option Str) : Except Err (List Str) :=
  let g := seriesDumps files
  match base with
  | some b => .ok ((dictGet g b).getD [])
  | none =>
    match g with
    | [] => .ok []
    | [x] => .ok x.2
    | _ => .error .ambiguous

/-- `_sort_dumps(handle)` with `_resolve_series` (io.py:293-325): a handle that is
a directory, else `<dir>/<base>`.  A `<dir>` that does not exist makes `iterdir`
raise; no handle produced by `list_diagnostics` has one, it is read as empty. -/
def sortDumps (t : Tree) (h : Path) : Except Err (List Str) :=
  match dictGet t h with
  | some files => sortDumpsDir files none
  | none => sortDumpsDir ((dictGet t h.dropLast).getD []) (h.getLast?)

/-- What a diagnostic key maps to: an `MS/` path or a NetCDF file. -/
inductive Handle
  | ms (p : Path)
  | nc (p : Path)
deriving DecidableEq

/-- Entries contributed by one directory of `MS/` (io.py:480-495). -/
def dirEntries (d : Path × List Str) : List (Path × Handle) :=
  match seriesDumps d.2 with
  | [] => []
  | [_] => [(d.1, .ms d.1)]
  | gs => gs.map fun g => (d.1 ++ [g.1], .ms (d.1 ++ [g.1]))

/-- `out[k] = v` for a list of entries. -/
def setAll {ν : Type} (out : Dict Path ν) (l : List (Path × ν)) : Dict Path ν :=
  l.foldl (fun o e => dictSet o e.1 e.2) out

/-- `out.setdefault(rel, p)` for a list of NetCDF keys (io.py:501-504). -/
def setDefaults (out : Dict Path Handle) (ncs : List Path) : Dict Path Handle :=
  ncs.foldl (fun o p => if (dictGet o p).isSome then o else dictSet o p (.nc p)) out

/-- `list_diagnostics` (io.py:459-515).  `ms` is the tree under `MS/` (`none`: no
such directory), `bin` the keys of `binary/*.nc` (`none`: no such directory),
`here` those of the NetCDF files under the directory itself. -/
def listDiagnostics (ms : Option Tree) (bin : Option (List Path)) (here : List Path) :
    Except Err (Dict Path Handle) :=
  match ms with
  | some t => .ok (setDefaults (t.foldl (fun o d => setAll o (dirEntries d)) []) (bin.getD []))
  | none =>
    match setDefaults [] (bin.getD []) with
    | e :: d => .ok (e :: d)
    | [] =>
      match setDefaults [] here with
      | e :: d => .ok (e :: d)
      | [] => .error .noDiagnostics

/-- Loop of `_normalize_t_indices` (io.py:346-351). -/
def normLoop (n : Nat) : List Int → Except Err (List Nat)
  | [] => .ok []
  | i :: is =>
    let j := if i < 0 then i + n else i
    if 0 ≤ j ∧ j < n then
      match normLoop n is with
      | .ok js => .ok (j.toNat :: js)
      | .error e => .error e
    else .error .index

/-- `_normalize_t_indices` (io.py:344-354). -/
def normalizeIndices (idx : List Int) (n : Nat) : Except Err (List Nat) :=
  match normLoop n idx with
  | .ok [] => .error .emptySelection
  | r => r

/-- What one dump contains, as read by `load_grid_h5` (io.py:81-126). -/
structure Grid (V : Type) where
  shape : List Nat
  time : V
  iter : Int
  data : V

/-- A stacked series: the common shape and one entry per time slice. -/
structure Series (V : Type) where
  shape : List Nat
  slices : List (Grid V)

/-- Loop over the dumps in `load_series` (io.py:396-400): every dump must have the
shape of the first. -/
def stack {V : Type} : List (Grid V) → Except Err (Series V)
  | [] => .error .noDumps
  | g :: gs => if gs.all fun x => decide (x.shape = g.shape) then .ok ⟨g.shape, g :: gs⟩ else .error .shape

/-- `[dumps[j] for j in idx]` (io.py:380). -/
def pick {α : Type} (l : List α) (idx : List Nat) : List α := idx.filterMap fun j => l[j]?

/-- `load_series` over a dump directory (io.py:357-433); `l` is the ordered list
of dumps with their contents. -/
def loadSeries {V : Type} (l : List (Grid V)) (sel : Option (List Int)) : Except Err (Series V) :=
  if l.isEmpty then .error .noDumps
  else match sel with
    | none => stack l
    | some is =>
      match normalizeIndices is l.length with
      | .error e => .error e
      | .ok js => stack (pick l js)

/-- `load_series_nc` (io.py:558-583) on a stored series: `isel(t=idx)`. -/
def loadSeriesNc {V : Type} (s : Series V) (sel : Option (List Int)) : Except Err (Series V) :=
  match sel with
  | none => .ok s
  | some is =>
    match normalizeIndices is s.slices.length with
    | .error e => .error e
    | .ok js => .ok ⟨s.shape, pick s.slices js⟩

/-- Where `save_run_datasets` takes a diagnostic from (io.py:738-760). -/
inductive Source | streamedCopy | rawConcat | streamBuild | batch
deriving DecidableEq

/-- The branch of `save_run_datasets` (io.py:738-760): `pre` is "the streamed file
exists", `raw` the result of `_diag_is_raw`. -/
def chooseSource (pre raw stream : Bool) : Source :=
  if pre && !raw then .streamedCopy
  else if raw then .rawConcat
  else if stream then .streamBuild
  else .batch

/-- The whitelist test (io.py:733-734): the relative path or the leaf name. -/
def wanted (wl : Option (List Path)) (rel : Path) : Bool :=
  match wl with
  | none => true
  | some ds => ds.contains rel || (match rel.getLast? with
    | some leaf => ds.contains [leaf]
    | none => false)

/-- The loop of `save_run_datasets` (io.py:732-765): `ok rel` is whether
converting that diagnostic succeeds; the result is the list of written files. -/
def saveRun (wl : Option (List Path)) (ok : Path → Bool) : List Path → List Path
  | [] => []
  | rel :: rels =>
    if !wanted wl rel then saveRun wl ok rels
    else if ok rel then rel :: saveRun wl ok rels
    else saveRun wl ok rels

/-- `_parse_hist_table` (io.py:773-797); `num` is `float(tok)` (`none`: ValueError),
`toks` is `str.split()`.  Rows are `(t, values)`. -/
def histRows {V : Type} (num : Str → Option V) (toks : Str → List Str) : List Str → List (List V)
  | [] => []
  | l :: ls =>
    match strip l with
    | [] => histRows num toks ls
    | c :: cs =>
      if c = '!' ∨ c = '#' then histRows num toks ls
      else match (toks (c :: cs)).mapM num with
        | some row => row :: histRows num toks ls
        | none => histRows num toks ls

/-- `min(len(r) for r in rows)` (io.py:793). -/
def minWidth {V : Type} : List (List V) → Nat
  | [] => 0
  | [r] => r.length
  | r :: rs => min r.length (minWidth rs)

/-- See `histRows` (io.py:791-797): times and value columns, or nothing. -/
def parseHist {V : Type} (num : Str → Option V) (toks : Str → List Str) (lines : List Str) :
    Option (List V × List (List V)) :=
  let rows := histRows num toks lines
  if rows.isEmpty then none
  else
    let w := minWidth rows
    if w < 2 then none
    else some (rows.filterMap (fun r => r[1]?), rows.map fun r => (r.take w).drop 2)

/-- Largest iteration in a list of file names, `-1` if none (post.py:117-126). -/
def maxIter (names : List Str) : Int := names.foldl (fun b n => max b (iterFromName n)) (-1)

/-- `_final_iter` (post.py:110-127): over `MS/FLD`, else over `MS`; the lists are
the `*.h5` files found by `rglob`. -/
def finalIter (fld ms : List Str) : Int :=
  if maxIter fld ≥ 0 then maxIter fld else maxIter ms

end Verif.Io
