import Verif.Model.Py

/-!
Model of adept/osiris/runner.py: launching OSIRIS, teeing its output, folding the
scratch directory into the run directory, and classifying the outcome.

Simplifications, stated once:
* `str.lower()` is modelled on ASCII letters.  No token searched for contains a
  letter that a non-ASCII code point lowercases to (only `k` and `å`), so the
  searches agree with Python's.
* A directory tree is the ordered dictionary of its regular files; empty
  directories are not represented.
* The subprocess, the converter (Model/Stream.lean) and the clock are inputs.
-/
namespace Verif.Runner

/-- `str.lower()` on one character (runner.py:41,49). -/
def lowerC (c : Char) : Char := if 'A'.toNat ≤ c.toNat ∧ c.toNat ≤ 'Z'.toNat then Char.ofNat (c.toNat + 32) else c

/-- `str.lower()` (runner.py:41). -/
def lower (s : Str) : Str := s.map lowerC

/-- `t in s` for strings (runner.py:47,49,51,291). -/
def contains (t : Str) : Str → Bool
  | [] => t.isEmpty
  | c :: cs => t.isPrefixOf (c :: cs) || contains t cs

/-- `"(*warning*)"` (runner.py:47). -/
def tokWarning : Str := ['(', '*', 'w', 'a', 'r', 'n', 'i', 'n', 'g', '*', ')']

/-- `"(*error*)"` (runner.py:25,291). -/
def tokStarError : Str := ['(', '*', 'e', 'r', 'r', 'o', 'r', '*', ')']

/-- `"error"` (runner.py:25). -/
def tokError : Str := ['e', 'r', 'r', 'o', 'r']

/-- `"aborting"` (runner.py:25). -/
def tokAborting : Str := ['a', 'b', 'o', 'r', 't', 'i', 'n', 'g']

/-- `_OSIRIS_ERR_TOKENS` (runner.py:25). -/
def errTokens : List Str := [tokError, tokAborting, tokStarError]

/-- `[n.lower() for n in _OSIRIS_STDERR_NOISE]` (runner.py:27-37). -/
def noise : List Str :=
  [ ['n','o',' ','p','r','o','t','o','c','o','l',' ','s','p','e','c','i','f','i','e','d'],
    ['m','p','i','_','i','n','i','t'],
    ['c','o','u','l','d','n','\'','t',' ','c','h','d','i','r',' ','t','o'] ]

/-- `_looks_like_osiris_error` (runner.py:40-51). -/
def looksLikeError (line : Str) : Bool :=
  let low := lower (strip line)
  if low.isEmpty then false
  else if contains tokWarning low then false
  else if noise.any fun n => contains n low then false
  else errTokens.any fun t => contains t low

/-- One iteration of the loop of `_stream_to_file_and_buffer` (runner.py:57-63):
the log file, then the in-memory tail. -/
def teeLine (tailMax : Nat) (st : List Str × List Str) (line : Str) : List Str × List Str :=
  let tail := st.2 ++ [line]
  (st.1 ++ [line], if tail.length > tailMax then tail.drop (tail.length - tailMax) else tail)

/-- `_stream_to_file_and_buffer` (runner.py:54-63): lines of the stream to
(log file, tail). -/
def tee (tailMax : Nat) (lines : List Str) : List Str × List Str :=
  lines.foldl (teeLine tailMax) ([], [])

/-- The default of `tail_max` (runner.py:54). -/
def tailMaxDefault : Nat := 200

/-- A path relative to a run directory, as its components. -/
abbrev Path := List Str

/-- The regular files of a directory tree. -/
abbrev Tree (C : Type) := Dict Path C

/-- `_sync_tree` (runner.py:75-92).  `fault = some n`: the n-th copy raises
(disk full, lost filesystem); the flag tells whether the loop finished. -/
def syncTree {C : Type} : Option Nat → Tree C → Tree C → Tree C × Bool
  | _, [], dst => (dst, true)
  | fault, (p, c) :: src, dst =>
    if (dictGet dst p).isSome then syncTree fault src dst
    else match fault with
      | some 0 => (dst, false)
      | some (n + 1) => syncTree (some n) src (dictSet dst p c)
      | none => syncTree none src (dictSet dst p c)

/-- `"MS"`, `"binary"`, `"HIST"` (runner.py:104,109,213). -/
def dMS : Str := ['M', 'S']
/-- See `dMS`. -/
def dBinary : Str := ['b', 'i', 'n', 'a', 'r', 'y']
/-- See `dMS`. -/
def dHist : Str := ['H', 'I', 'S', 'T']
/-- `".h5"` (runner.py:105). -/
def extH5 : Str := ['.', 'h', '5']
/-- `".nc"` (runner.py:107). -/
def extNc : Str := ['.', 'n', 'c']

/-- `path` matches `dir.rglob("*" + ext)` (runner.py:105,107,110). -/
def under (dir : Str) (ext : Str) (path : Path) : Bool :=
  match path with
  | d :: rest => decide (d = dir) && (match rest.getLast? with
    | some f => ext.isSuffixOf f
    | none => false)
  | [] => false

/-- `_run_produced_output` (runner.py:95-112) on the durable run directory. -/
def producedOutput {C : Type} (run : Tree C) : Bool :=
  run.any (fun f => under dMS extH5 f.1) || run.any (fun f => under dBinary extNc f.1) ||
    run.any (fun f => under dHist [] f.1)

/-- `failure_msg is not None` (runner.py:280-303); `out`/`err` are the tails. -/
def failed (rc : Int) (out err : List Str) : Bool :=
  if rc ≠ 0 then true
  else !((err.filter looksLikeError ++ out.filter (contains tokStarError)).isEmpty)

/-- The command line (runner.py:189-195). -/
def command (launcher : Str) (ranks : Int) (ranksStr : Str) (extra : List Str) (binary : Str) : List Str :=
  if ranks > 1 then [launcher, ['-', 'n'], ranksStr] ++ extra ++ [binary] else [binary]

/-- The arguments of `run_osiris` that affect control flow (runner.py:115-128). -/
structure Args where
  binaryExists : Bool
  streamConvert : Bool
  /-- `bool(stage_root)` -/
  stageRoot : Bool
  stageDiscard : Bool

/-- `staging` (runner.py:175). -/
def Args.staging (a : Args) : Bool := a.stageRoot && a.streamConvert

/-- What the outside world does during a run: the process, the files present
once the converter was finalized, and the converter's answers. -/
structure World (C : Type) where
  rc : Int
  stdout : List Str
  stderr : List Str
  /-- files in the scratch directory (staging) when the converter has finished -/
  scratch : Tree C
  /-- files in the durable run directory at that moment -/
  run : Tree C
  /-- `StreamConverter(...)` did not raise -/
  convInit : Bool
  /-- result of `finalize()`; `none` if it raised -/
  streamed : Option (List Str)
  /-- see `syncTree` -/
  syncFault : Option Nat

/-- Result dictionary of `run_osiris` (runner.py:315-327), without times. -/
structure Result where
  exitCode : Int
  crashed : Bool
  streamed : Option (List Str)
  staged : Bool

/-- How `run_osiris` ends. -/
inductive Outcome
  /-- `FileNotFoundError` before anything is launched (runner.py:168-169) -/
  | noBinary
  /-- `RuntimeError` (runner.py:313) -/
  | raised
  | returned (r : Result)

/-- The outcome and the two directory trees left behind. -/
structure Final (C : Type) where
  outcome : Outcome
  run : Tree C
  /-- the scratch directory (`none`: removed or never created) -/
  scratch : Option (Tree C)

/-- The durable directory after the sync (runner.py:267-272). -/
def afterSync {C : Type} (a : Args) (w : World C) : Tree C :=
  if a.staging then (syncTree w.syncFault w.scratch w.run).1 else w.run

/-- `run_osiris` (runner.py:115-327). -/
def runOsiris {C : Type} (a : Args) (w : World C) : Final C :=
  if !a.binaryExists then ⟨.noBinary, [], none⟩
  else
    let outTail := (tee tailMaxDefault w.stdout).2
    let errTail := (tee tailMaxDefault w.stderr).2
    let streamed := if a.streamConvert && w.convInit then w.streamed.getD [] else []
    let run := afterSync a w
    let crashed := failed w.rc outTail errTail
    let out : Outcome :=
      if crashed && !producedOutput run then .raised
      else .returned ⟨w.rc, crashed, if a.streamConvert then some streamed else none, a.staging⟩
    ⟨out, run, none⟩

/-- The environment variables consulted by `discover_binary` (runner.py:340-344). -/
inductive EnvKey
  | dim (n : Int)
  | generic
deriving DecidableEq

/-- `candidates` (runner.py:336-344). -/
def candidates (cfg : Option Str) (dim : Option Int) (env : Dict EnvKey Str) : List Str :=
  (match cfg with
    | some c => if c.isEmpty then [] else [c]
    | none => []) ++
  (match dim with
    | some n => (dictGet env (.dim n)).toList
    | none => []) ++
  (dictGet env .generic).toList

/-- `discover_binary` (runner.py:330-355); `none` is `FileNotFoundError`. -/
def discoverBinary (exist : Str → Bool) (cfg : Option Str) (dim : Option Int) (env : Dict EnvKey Str) :
    Option Str :=
  (candidates cfg dim env).find? exist

end Verif.Runner
