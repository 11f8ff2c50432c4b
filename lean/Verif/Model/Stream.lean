/-
Model of `adept/osiris/stream.py`: the slot writer (`StreamWriter`) and the
background converter (`StreamConverter`) for ONE diagnostic directory, as a
small-step machine.  One watcher step is at most one filesystem operation, so
OSIRIS may write a dump, the process may be killed, or an exception may surface
between any two of them.

Simplifications (all recorded here):
* The dump's file name iteration and its `iter` attribute agree.
* A landed batch is atomic: `resize_dimension` and the slice writes of
  `_write_batch` (stream.py:234-254) are one step, and killing the process does
  not corrupt an HDF5 file.  Time stamps and axis bounds travel with the row.
* OSIRIS writes dumps with increasing non-negative iteration numbers.
* One diagnostic; the per-diagnostic `try` of `_scan_once` (stream.py:522-544)
  isolates the others.
* `_prune_empty` (directories only), statistics and log text are left out.
-/
namespace Verif.Stream

/-- One dump file: iteration number (`_iter_from_name`, io.py) and contents;
`none` is a file `load_grid_h5` cannot read. -/
structure Dump (P : Type) where
  it : Int
  body : Option P
deriving DecidableEq

/-- The two directories holding `*.h5` dumps: the scratch `run_dir/MS/<rel>`
and the durable mirror `persist_dir/MS/<rel>` (stream.py:349-352). -/
inductive Loc | scratch | mirror
deriving DecidableEq

/-! ## StreamWriter (stream.py:129-265) -/

/-- In-memory part of a `StreamWriter` (stream.py:147-176): the pending batch
and `last_iter`. -/
structure Writer (S : Type) where
  pending : List S
  lastIter : Int

/-- `last_iter` recovered on resume (stream.py:162-166): iteration of the last
slot on disk, `-1` if there is none. -/
def lastOnDisk {P : Type} (disk : List (Int × P)) : Int :=
  match disk.getLast? with
  | some s => s.1
  | none => -1

/-- `StreamWriter.__init__` (stream.py:147-176): resume after the slots on disk. -/
def wOpen {P : Type} (disk : List (Int × P)) : Writer (Int × P) := ⟨[], lastOnDisk disk⟩

/-- `n_written` (stream.py:178-180). -/
def nWritten {P : Type} (disk : List (Int × P)) (w : Writer (Int × P)) : Nat :=
  disk.length + w.pending.length

/-- `_write_batch` (stream.py:234-254): the pending rows go after the slots on disk. -/
def wLand {P : Type} (disk : List (Int × P)) (w : Writer (Int × P)) :
    List (Int × P) × Writer (Int × P) :=
  (disk ++ w.pending, { w with pending := [] })

/-- `append` (stream.py:218-232) for a dump of the right shape: buffer the row,
raise `last_iter`, land the batch once it holds `ct` rows. -/
def wAppend {P : Type} (ct : Nat) (disk : List (Int × P)) (w : Writer (Int × P)) (s : Int × P) :
    List (Int × P) × Writer (Int × P) :=
  let w' : Writer (Int × P) := ⟨w.pending ++ [s], if s.1 > w.lastIter then s.1 else w.lastIter⟩
  if ct ≤ w'.pending.length then wLand disk w' else (disk, w')

/-- A `StreamWriter` object with its file: slots on disk, the object's memory,
whether the file handle `_f` is open (stream.py:147-176). -/
structure WSt (P : Type) where
  disk : List (Int × P)
  mem : Writer (Int × P)
  isOpen : Bool

/-- Calls on a writer.  `append` carries the shape of the dump. -/
inductive WOp (P : Type)
  | append (shape : List Nat) (s : Int × P)
  | flush
  | close
  /-- a new `StreamWriter` on the same file -/
  | reopen

/-- `_write_batch` (stream.py:234-254): does nothing once the file is closed. -/
def wBatch {P : Type} (st : WSt P) : WSt P :=
  if st.isOpen then { st with disk := (wLand st.disk st.mem).1, mem := (wLand st.disk st.mem).2 } else st

/-- `append`/`flush`/`close`/`__init__` (stream.py:147-176, 218-265); an `append`
with a wrong shape raises `ValueError` before touching anything. -/
def wStep {P : Type} (ct : Nat) (shape : List Nat) (st : WSt P) : WOp P → WSt P
  | .append sh s =>
    if sh ≠ shape then st
    else
      let m : Writer (Int × P) := ⟨st.mem.pending ++ [s], if s.1 > st.mem.lastIter then s.1 else st.mem.lastIter⟩
      if ct ≤ m.pending.length then wBatch { st with mem := m } else { st with mem := m }
  | .flush => wBatch st
  | .close => { wBatch st with isOpen := false }
  | .reopen => ⟨st.disk, wOpen st.disk, true⟩

/-- A history of calls. -/
def wRun {P : Type} (ct : Nat) (shape : List Nat) (st : WSt P) : List (WOp P) → WSt P
  | [] => st
  | o :: os => wRun ct shape (wStep ct shape st o) os

/-! ## StreamConverter (stream.py:295-729) -/

/-- Options (stream.py:333-352): `staged` is `persist_dir is not None`,
`discard` is `discard_grid_h5`, `ct` the writer's chunk size
(`_default_chunk_t` is at least 1, stream.py:109-112), `raw` is a RAW
diagnostic (`_diag_is_raw`). -/
structure Cfg where
  staged : Bool
  discard : Bool
  raw : Bool
  ct : Nat

/-- What a touch of a dump file did. -/
inductive Op | read | copy | remove | rename
deriving DecidableEq

/-- Ghost trace entry: which file was touched, how, the newest iteration OSIRIS
had written at that moment, and whether OSIRIS was running. -/
structure Touch where
  loc : Loc
  it : Int
  op : Op
  newest : Int
  running : Bool
deriving DecidableEq

/-- Where the watcher thread is inside `_scan_once`/`_drain_grid`/`_drain_raw`.
The `Bool` is `final`. -/
inductive Pc (P : Type)
  /-- between scans -/
  | idle
  /-- `for p in safe: self._reap(rel, p, mirror=True)` (stream.py:592-594, 704-706) -/
  | spill (fin : Bool) (todo : List (Dump P))
  /-- inside `_reap`, mirror published, `p.unlink()` next (stream.py:727) -/
  | spillUnlink (fin : Bool) (d : Dump P) (todo : List (Dump P))
  /-- the `while candidates` loop of `_open_writer` (stream.py:637-655) -/
  | openW (fin : Bool) (todo : List (Loc × Dump P))
  /-- the `for p in candidates` loop (stream.py:613-626) -/
  | loop (fin : Bool) (todo : List (Loc × Dump P))
  /-- entering `_cleanup_consumed` (stream.py:657-670) -/
  | clean (fin : Bool) (c : Loc × Dump P) (todo : List (Loc × Dump P))
  /-- inside `_reap` from `_cleanup_consumed`, `p.unlink()` next -/
  | cleanUnlink (fin : Bool) (c : Loc × Dump P) (todo : List (Loc × Dump P))
  /-- `finalize` returned -/
  | done

/-- Files and converter state for one diagnostic. -/
structure St (P : Type) where
  /-- ghost: everything OSIRIS wrote, in order -/
  produced : List (Dump P)
  /-- OSIRIS is alive -/
  running : Bool
  /-- `*.h5` in the scratch directory -/
  scratch : List (Dump P)
  /-- `*.h5` in the persist mirror -/
  mirror : List (Dump P)
  /-- `*.h5.bad` files left by `_quarantine` -/
  sidelined : List (Loc × Dump P)
  /-- slots in `out_dir/<rel>.nc`, `none` if there is no file -/
  nc : Option (List (Int × P))
  /-- `self._writers.get(rel)` -/
  writer : Option (Writer (Int × P))
  /-- `rel in self._spilled` -/
  spilled : Bool
  /-- `self._bad` -/
  bad : List (Loc × Int)
  /-- `rel in self._completed` -/
  completed : Bool
  pc : Pc P
  /-- ghost: trace of touches of dump files -/
  log : List Touch

/-- A fresh converter on empty directories (stream.py:333-376). -/
def init (P : Type) : St P :=
  { produced := [], running := true, scratch := [], mirror := [], sidelined := [], nc := none,
    writer := none, spilled := false, bad := [], completed := false, pc := .idle, log := [] }

/-- Insertion into an iteration-sorted list, after equal keys (Python's `sorted`
is stable). -/
def insertIt {P : Type} (x : Loc × Dump P) : List (Loc × Dump P) → List (Loc × Dump P)
  | [] => [x]
  | y :: ys => if x.2.it < y.2.it then x :: y :: ys else y :: insertIt x ys

/-- `sorted(..., key=_iter_from_name)` (stream.py:603-606 and `_sort_dumps`). -/
def sortIt {P : Type} (l : List (Loc × Dump P)) : List (Loc × Dump P) :=
  l.foldl (fun acc x => insertIt x acc) []

/-- Files of one directory as candidates. -/
def filesAt {P : Type} (l : Loc) (ds : List (Dump P)) : List (Loc × Dump P) := ds.map fun d => (l, d)

/-- `[p for p in _io._sort_dumps(d) if p not in self._bad]` (stream.py:558, 604). -/
def listing {P : Type} (st : St P) (l : Loc) : List (Loc × Dump P) :=
  (sortIt (filesAt l (match l with | .scratch => st.scratch | .mirror => st.mirror))).filter
    fun f => decide ((l, f.2.it) ∉ st.bad)

/-- Iteration of the newest dump OSIRIS wrote. -/
def newest {P : Type} (st : St P) : Int :=
  match st.produced.getLast? with
  | some d => d.it
  | none => -1

/-- Record a touch. -/
def touch {P : Type} (st : St P) (l : Loc) (it : Int) (op : Op) : St P :=
  { st with log := ⟨l, it, op, newest st, st.running⟩ :: st.log }

/-- Remove the file with iteration `it` from a directory. -/
def dropIt {P : Type} (it : Int) (ds : List (Dump P)) : List (Dump P) := ds.filter fun d => decide (d.it ≠ it)

/-- `p.unlink()`. -/
def unlink {P : Type} (st : St P) (l : Loc) (it : Int) : St P :=
  let st := touch st l it .remove
  match l with
  | .scratch => { st with scratch := dropIt it st.scratch }
  | .mirror => { st with mirror := dropIt it st.mirror }

/-- Copy to the mirror, published atomically by `os.replace` (stream.py:721-726). -/
def publish {P : Type} (st : St P) (d : Dump P) : St P :=
  let st := touch st .scratch d.it .copy
  { st with mirror := st.mirror ++ [d] }

/-- `dest.exists()` (stream.py:722). -/
def mirrored {P : Type} (st : St P) (it : Int) : Bool := st.mirror.any fun d => decide (d.it = it)

/-- `_quarantine` (stream.py:672-683): rename to `*.h5.bad`, or remember the path
if the rename fails. -/
def quarantine {P : Type} (st : St P) (c : Loc × Dump P) (ok : Bool) : St P :=
  if ok then
    let st := touch st c.1 c.2.it .rename
    match c.1 with
    | .scratch => { st with scratch := dropIt c.2.it st.scratch, sidelined := st.sidelined ++ [c] }
    | .mirror => { st with mirror := dropIt c.2.it st.mirror, sidelined := st.sidelined ++ [c] }
  else { st with bad := (c.1, c.2.it) :: st.bad }

/-- Slots on disk. -/
def disk {P : Type} (st : St P) : List (Int × P) := st.nc.getD []

/-- `w.append(da)` on the converter's state. -/
def appendSt {P : Type} (cfg : Cfg) (st : St P) (w : Writer (Int × P)) (s : Int × P) : St P :=
  let r := wAppend cfg.ct (disk st) w s
  { st with nc := some r.1, writer := some r.2 }

/-- `finalize` after the sweep (stream.py:416-422): every writer still open is
closed (landing its batch) and its diagnostic reported as completed. -/
def closeAll {P : Type} (st : St P) : St P :=
  match st.writer with
  | some w => { st with nc := some (disk st ++ w.pending), writer := none, completed := true, pc := .done }
  | none => { st with pc := .done }

/-- End of `_drain_grid` (or `_drain_raw`) for this diagnostic: back to polling,
or on to the end of `finalize`. -/
def leave {P : Type} (st : St P) (fin : Bool) : St P :=
  if fin then closeAll st else { st with pc := .idle }

/-- `_scan_once(final=False)` reaching this diagnostic (stream.py:505-545):
`spillNow` is the outcome of the thresholds (`force_spill`, backlog files,
backlog bytes, stream.py:575-581). -/
def startScan {P : Type} (cfg : Cfg) (st : St P) (spillNow : Bool) : St P :=
  if st.completed then st
  else if cfg.raw then
    if cfg.staged then
      { st with pc := .spill false (((sortIt (filesAt .scratch st.scratch)).dropLast).map (·.2)) }
    else st
  else
    let safe := (listing st .scratch).dropLast
    if cfg.staged && (spillNow || st.spilled) then
      { st with spilled := true, pc := .spill false (safe.map (·.2)) }
    else if safe.isEmpty then st
    else match st.writer with
      | none => { st with pc := .openW false safe }
      | some _ => { st with pc := .loop false safe }

/-- `_scan_once(final=True)` reaching this diagnostic (stream.py:397-422,
549-611).  A directory without `*.h5` dumps is not discovered (`_diags`,
stream.py:461-486). -/
def startFinal {P : Type} (cfg : Cfg) (st : St P) : St P :=
  if st.completed then closeAll st
  else if st.scratch.isEmpty then closeAll st
  else if cfg.raw then
    if cfg.staged then
      { st with pc := .spill true ((sortIt (filesAt .scratch st.scratch)).map (·.2)) }
    else closeAll st
  else
    let safe := listing st .scratch
    let cands := if cfg.staged && st.spilled then sortIt (listing st .mirror ++ safe) else safe
    if cands.isEmpty then closeAll st
    else match st.writer with
      | none => { st with pc := .openW true cands }
      | some _ => { st with pc := .loop true cands }

/-- One step of the watcher thread; `ok` is whether the filesystem operation it
performs (if it performs one) succeeds. -/
def tick {P : Type} (cfg : Cfg) (st : St P) (ok : Bool) : St P :=
  match st.pc with
  | .idle => st
  | .done => st
  -- `_reap(mirror=True)` over `safe` (stream.py:592-594, 704-708, 710-729)
  | .spill fin [] => leave st fin
  | .spill fin (d :: t) =>
    if mirrored st d.it then { st with pc := .spillUnlink fin d t }
    else if ok then { publish st d with pc := .spillUnlink fin d t }
    else { st with pc := .spill fin t }
  | .spillUnlink fin d t =>
    if ok then { unlink st .scratch d.it with pc := .spill fin t } else { st with pc := .spill fin t }
  -- `_open_writer` (stream.py:635-655)
  | .openW fin [] => leave st fin
  | .openW fin (c :: t) =>
    let st := touch st c.1 c.2.it .read
    match c.2.body with
    | none => { quarantine st c ok with pc := .openW fin t }
    | some p =>
      let w := wOpen (disk st)
      if nWritten (disk st) w = 0 then { appendSt cfg st w (c.2.it, p) with pc := .clean fin c t }
      else { st with writer := some w, pc := .loop fin (c :: t) }
  -- the candidates loop and the tail of `_drain_grid` (stream.py:613-633)
  | .loop fin [] =>
    match st.writer with
    | some w => leave { st with nc := some (wLand (disk st) w).1, writer := some (wLand (disk st) w).2 } fin
    | none => leave st fin
  | .loop fin (c :: t) =>
    match st.writer with
    | none => leave st fin
    | some w =>
      if c.2.it ≤ w.lastIter then { st with pc := .clean fin c t }
      else
        let st := touch st c.1 c.2.it .read
        match c.2.body with
        | none => { quarantine st c ok with pc := .loop fin t }
        | some p => { appendSt cfg st w (c.2.it, p) with pc := .clean fin c t }
  -- `_cleanup_consumed` (stream.py:657-670) and `_reap` (stream.py:710-729)
  | .clean fin c t =>
    if cfg.staged then
      match c.1 with
      | .mirror =>
        if cfg.discard && ok then { unlink st .mirror c.2.it with pc := .loop fin t }
        else { st with pc := .loop fin t }
      | .scratch =>
        if cfg.discard || mirrored st c.2.it then { st with pc := .cleanUnlink fin c t }
        else if ok then { publish st c.2 with pc := .cleanUnlink fin c t }
        else { st with pc := .loop fin t }
    else { st with pc := .loop fin t }
  | .cleanUnlink fin c t =>
    if ok then { unlink st .scratch c.2.it with pc := .loop fin t } else { st with pc := .loop fin t }

/-- Is the watcher inside the final sweep? -/
def Pc.fin {P : Type} : Pc P → Bool
  | .idle => false
  | .done => true
  | .spill f _ => f
  | .spillUnlink f _ _ => f
  | .openW f _ => f
  | .loop f _ => f
  | .clean f _ _ => f
  | .cleanUnlink f _ _ => f

/-- What can happen. -/
inductive Ev (P : Type)
  /-- OSIRIS writes its next dump -/
  | produce (d : Dump P)
  /-- OSIRIS exits -/
  | osirisExit
  /-- the poll timer fires; the flag is the spill decision -/
  | scan (spillNow : Bool)
  /-- `finalize` is called and its sweep reaches this diagnostic -/
  | final
  /-- `finalize` is called and its sweep does not reach this diagnostic (the
  sweep raised earlier, or the directory holds a second report series:
  stream.py:413-415, 477-485) -/
  | finalSkipped
  /-- the watcher does its next step -/
  | tick (ok : Bool)
  /-- an exception leaves `_drain_grid` (stream.py:536-544): the writer is
  dropped and closed; `landed` is whether closing could write the pending batch -/
  | raised (landed : Bool)
  /-- the converter process dies and a new converter is started on the same directories -/
  | kill

/-- The whole system: OSIRIS, the watcher, faults and kills.  Impossible events
(OSIRIS writing after its exit or out of order, `finalize` while OSIRIS runs or
during a scan) do nothing. -/
def step {P : Type} (cfg : Cfg) (st : St P) : Ev P → St P
  | .produce d =>
    if st.running && decide (newest st < d.it) then
      { st with produced := st.produced ++ [d], scratch := st.scratch ++ [d] }
    else st
  | .osirisExit => { st with running := false }
  | .scan s => match st.pc with
    | .idle => startScan cfg st s
    | _ => st
  | .final => match st.pc with
    | .idle => if st.running then st else startFinal cfg st
    | _ => st
  | .finalSkipped => match st.pc with
    | .idle => if st.running then st else closeAll st
    | _ => st
  | .tick ok => tick cfg st ok
  | .raised landed => match st.pc with
    | .done => st
    | pc =>
      let nc' := match st.writer with
        | some w => if landed then some (disk st ++ w.pending) else st.nc
        | none => st.nc
      { st with nc := nc', writer := none, pc := if pc.fin then .done else .idle }
  | .kill =>
    { st with writer := none, spilled := false, bad := [], completed := false, pc := .idle }

/-- A history. -/
def run {P : Type} (cfg : Cfg) (st : St P) : List (Ev P) → St P
  | [] => st
  | e :: es => run cfg (step cfg st e) es

/-! ## Log throttle (stream.py:426-435) -/

/-- `_log_every`: the counter after `n` earlier occurrences, and whether this
occurrence is logged. -/
def logEvery (every : Nat) (count : Nat) : Nat × Bool :=
  let n := count + 1
  (n, n == 1 || n % every == 0)

/-- Number of log lines produced by `k` occurrences starting from counter `count`. -/
def logLines (every : Nat) : Nat → Nat → Nat
  | _, 0 => 0
  | count, k + 1 =>
    let r := logEvery every count
    (if r.2 then 1 else 0) + logLines every r.1 k

end Verif.Stream
