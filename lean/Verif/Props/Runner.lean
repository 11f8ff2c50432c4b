import Verif.Spec.Runner
import Verif.Lemmas.Dict

/-!
# OSIRIS runner properties (C15-C18, C45)
-/
namespace Verif.Runner

theorem contains_iff (t s : Str) : contains t s = true ↔ Occurs t s := by
  induction s with
  | nil =>
    simp only [contains, List.isEmpty_iff, Occurs]
    constructor
    · rintro rfl; exact ⟨[], [], rfl⟩
    · rintro ⟨a, b, h⟩
      have := congrArg List.length h
      simp at this
      exact List.eq_nil_of_length_eq_zero (by omega)
  | cons c cs ih =>
    simp only [contains, Bool.or_eq_true, ih, Occurs, List.isPrefixOf_iff_prefix]
    constructor
    · rintro (⟨b, h⟩ | ⟨a, b, h⟩)
      · exact ⟨[], b, by simp [h]⟩
      · exact ⟨c :: a, b, by simp [h]⟩
    · rintro ⟨a, b, h⟩
      cases a with
      | nil => left; exact ⟨b, by simpa using h.symm⟩
      | cons x a => right; simp at h; exact ⟨a, b, by simp [h.2]⟩

theorem occurs_trans {a b c : Str} (h : Occurs a b) (h' : Occurs b c) : Occurs a c := by
  obtain ⟨x, y, rfl⟩ := h
  obtain ⟨u, v, rfl⟩ := h'
  exact ⟨u ++ x, y ++ v, by simp⟩

theorem looksLikeError_iff (l : Str) : looksLikeError l = true ↔ ErrLine l := by
  have hsub : Occurs tokError tokStarError := ⟨['(', '*'], ['*', ')'], rfl⟩
  simp only [looksLikeError, ErrLine]
  generalize lower (strip l) = low
  have e1 : low.isEmpty = true ↔ low = [] := List.isEmpty_iff
  by_cases h1 : low = []
  · subst h1; simp
  rw [if_neg (by rw [e1]; exact h1)]
  by_cases h2 : contains tokWarning low = true
  · rw [if_pos h2]; simp [h1, (contains_iff _ _).1 h2]
  rw [if_neg h2]
  by_cases h3 : (noise.any fun n => contains n low) = true
  · rw [if_pos h3]
    obtain ⟨n, hn, hc⟩ := List.any_eq_true.1 h3
    simp only [Bool.false_eq_true, false_iff]
    rintro ⟨-, -, h, -⟩
    exact h n hn ((contains_iff _ _).1 hc)
  rw [if_neg h3, List.any_eq_true]
  constructor
  · rintro ⟨t, ht, hc⟩
    refine ⟨h1, fun h => h2 ((contains_iff _ _).2 h), fun n hn h => h3 (List.any_eq_true.2 ⟨n, hn, (contains_iff _ _).2 h⟩), ?_⟩
    rw [contains_iff] at hc
    simp only [errTokens, List.mem_cons, List.not_mem_nil, or_false] at ht
    rcases ht with rfl | rfl | rfl
    · exact .inl hc
    · exact .inr hc
    · exact .inl (occurs_trans hsub hc)
  · rintro ⟨-, -, -, h | h⟩
    · exact ⟨tokError, by simp [errTokens], (contains_iff _ _).2 h⟩
    · exact ⟨tokAborting, by simp [errTokens], (contains_iff _ _).2 h⟩

theorem failed_iff (rc : Int) (out err : List Str) : failed rc out err = true ↔ Bad rc out err := by
  simp only [failed, Bad]
  by_cases h : rc = 0
  · subst h
    simp only [ne_eq, not_true_eq_false, if_false, false_or, Bool.not_eq_true', List.isEmpty_eq_false_iff,
      List.append_eq_nil_iff, List.filter_eq_nil_iff, looksLikeError_iff, contains_iff]
    constructor
    · intro h
      by_cases h1 : ∃ l ∈ err, ErrLine l
      · exact .inl h1
      · right
        refine Classical.byContradiction fun h2 => h ⟨fun a ha he => h1 ⟨a, ha, he⟩, fun a ha he => h2 ⟨a, ha, he⟩⟩
    · rintro (⟨l, hl, he⟩ | ⟨l, hl, he⟩) ⟨h1, h2⟩
      · exact h1 l hl he
      · exact h2 l hl he
  · simp [h]

/-- The tee keeps every line in the log and the newest `N` in the tail. -/
theorem tee_spec (N : Nat) (lines : List Str) : tee N lines = (lines, lastN N lines) := by
  suffices h : ∀ (l : List Str) (log : List Str), l.foldl (teeLine N) (log, lastN N log) = (log ++ l, lastN N (log ++ l)) by
    have := h lines []
    simpa [tee, lastN] using this
  intro l
  induction l with
  | nil => intro log; simp
  | cons x xs ih =>
    intro log
    have : teeLine N (log, lastN N log) x = (log ++ [x], lastN N (log ++ [x])) := by
      simp only [teeLine, lastN, List.length_append, List.length_drop, List.length_cons, List.length_nil, Prod.mk.injEq, true_and]
      by_cases h : log.length ≤ N
      · by_cases h' : log.length = N
        · rw [if_pos (by omega)]
          rw [show log.length - N = 0 by omega]
          simp only [List.drop_zero, Nat.sub_zero, Nat.zero_add]
        · rw [if_neg (by omega)]
          rw [show log.length - N = 0 by omega, show log.length + (0 + 1) - N = 0 by omega]
          rfl
      · rw [if_pos (by omega)]
        rw [← List.drop_append_of_le_length (by omega), List.drop_drop]
        congr 1
        omega
    rw [List.foldl_cons, this, ih]
    simp

/-! ## C16 -/

/-- C16: the log file receives exactly the lines of the stream, in order, and
the in-memory tail is exactly the last `N` of them, for every output. -/
theorem log_complete_and_tail (N : Nat) (lines : List Str) :
    (tee N lines).1 = lines ∧ (tee N lines).2 = lines.drop (lines.length - N) := by
  rw [tee_spec]; exact ⟨rfl, rfl⟩

/-- C16: the tail never holds more than `N` lines. -/
theorem tail_bounded (N : Nat) (lines : List Str) : (tee N lines).2.length ≤ N := by
  rw [tee_spec]; simp [lastN]; omega

example : tee 2 [['a'], ['b'], ['c']] = ([['a'], ['b'], ['c']], [['b'], ['c']]) := by decide

/-! ## C15 -/

theorem under_iff (d e : Str) (p : Path) :
    under d e p = true ↔ ∃ mid f, p = d :: (mid ++ [f]) ∧ ∃ b, f = b ++ e := by
  cases p with
  | nil => simp [under]
  | cons x rest =>
    simp only [under, Bool.and_eq_true, decide_eq_true_eq]
    rcases List.eq_nil_or_concat rest with rfl | ⟨mid, f, rfl⟩
    · simp
    · simp only [List.concat_eq_append, List.getLast?_append, List.getLast?_singleton, Option.some_or,
        List.isSuffixOf_iff_suffix, List.cons.injEq]
      constructor
      · rintro ⟨rfl, b, hb⟩
        exact ⟨mid, f, ⟨rfl, rfl⟩, b, hb.symm⟩
      · rintro ⟨m, g, ⟨rfl, h⟩, b, rfl⟩
        obtain ⟨rfl, h2⟩ := List.append_inj' h rfl
        simp at h2
        exact ⟨rfl, b, h2.symm⟩

theorem producedOutput_iff {C : Type} (t : Tree C) : producedOutput t = true ↔ HasOutput t := by
  simp only [producedOutput, Bool.or_eq_true, List.any_eq_true, under_iff, HasOutput]
  constructor
  · rintro ((⟨⟨p, c⟩, hm, h⟩ | ⟨⟨p, c⟩, hm, h⟩) | ⟨⟨p, c⟩, hm, mid, f, h, -⟩)
    · exact ⟨p, c, hm, .inl h⟩
    · exact ⟨p, c, hm, .inr (.inl h)⟩
    · exact ⟨p, c, hm, .inr (.inr ⟨mid, f, h⟩)⟩
  · rintro ⟨p, c, hm, h | h | ⟨mid, f, h⟩⟩
    · exact .inl (.inl ⟨_, hm, h⟩)
    · exact .inl (.inr ⟨_, hm, h⟩)
    · exact .inr ⟨_, hm, mid, f, h, f, by simp⟩

/-- C15, full statement: with a binary present, the run raises exactly when the
process ended badly judging from its *whole* output and left nothing.  FALSE of
the code (`early_error_missed`): only the last 200 lines are looked at. -/
def RaisesIff : Prop :=
  ∀ (a : Args) (w : World Unit), a.binaryExists = true →
    ((runOsiris a w).outcome = .raised ↔ Bad w.rc w.stdout w.stderr ∧ ¬ HasOutput (runOsiris a w).run)

/-- C15 (proved part): the exact outcome.  The run raises iff it ended badly -
non-zero exit, or an error among the last 200 lines of stderr or stdout - and the
durable directory holds no output.  Missing: errors followed by 200 or more
further lines (really missed by the code). -/
theorem run_raises_iff_partial {C : Type} (a : Args) (w : World C) (hb : a.binaryExists = true) :
    (runOsiris a w).outcome = .raised ↔
      Bad w.rc (lastN 200 w.stdout) (lastN 200 w.stderr) ∧ ¬ HasOutput (runOsiris a w).run := by
  simp only [runOsiris, hb, Bool.not_true, Bool.false_eq_true, if_false, tee_spec, tailMaxDefault]
  rw [← failed_iff, ← producedOutput_iff]
  cases hf : failed w.rc (lastN 200 w.stdout) (lastN 200 w.stderr) <;>
    cases hp : producedOutput (afterSync a w) <;> simp

/-- C15: with at most 200 lines on each stream the full statement holds. -/
theorem run_raises_iff_short {C : Type} (a : Args) (w : World C) (hb : a.binaryExists = true)
    (ho : w.stdout.length ≤ 200) (he : w.stderr.length ≤ 200) :
    (runOsiris a w).outcome = .raised ↔
      Bad w.rc w.stdout w.stderr ∧ ¬ HasOutput (runOsiris a w).run := by
  rw [run_raises_iff_partial a w hb]
  simp [lastN, Nat.sub_eq_zero_of_le ho, Nat.sub_eq_zero_of_le he]

/-- C15: a run that ended badly but left output is returned, flagged `crashed`,
with its exit code; a run that did not end badly is returned unflagged. -/
theorem run_salvaged {C : Type} (a : Args) (w : World C) (hb : a.binaryExists = true)
    (h : HasOutput (runOsiris a w).run ∨ ¬ Bad w.rc (lastN 200 w.stdout) (lastN 200 w.stderr)) :
    ∃ r, (runOsiris a w).outcome = .returned r ∧ r.exitCode = w.rc ∧
      (r.crashed = true ↔ Bad w.rc (lastN 200 w.stdout) (lastN 200 w.stderr)) := by
  have hf := failed_iff w.rc (lastN 200 w.stdout) (lastN 200 w.stderr)
  have hp := producedOutput_iff (runOsiris a w).run
  have hr : (runOsiris a w).run = afterSync a w := by simp [runOsiris, hb]
  rw [hr] at hp h
  refine ⟨⟨w.rc, failed w.rc (lastN 200 w.stdout) (lastN 200 w.stderr),
    if a.streamConvert then some (if a.streamConvert && w.convInit then w.streamed.getD [] else []) else none,
    a.staging⟩, ?_, rfl, hf⟩
  · simp only [runOsiris, hb, Bool.not_true, Bool.false_eq_true, if_false, tee_spec, tailMaxDefault]
    rw [if_neg]
    rw [← hp, ← hf] at h
    cases hF : failed w.rc (lastN 200 w.stdout) (lastN 200 w.stderr) <;>
      cases hP : producedOutput (afterSync a w) <;> simp_all

/-- C15: without a binary nothing is launched and no directory is touched. -/
theorem run_without_binary {C : Type} (a : Args) (w : World C) (hb : a.binaryExists = false) :
    (runOsiris a w).outcome = .noBinary := by
  simp [runOsiris, hb]

/-- C15: a line with `(*warning*)` in it (any case), or blank, is never an error. -/
theorem warning_not_error (l : Str) (h : Occurs tokWarning (lower (strip l)) ∨ strip l = []) :
    looksLikeError l = false := by
  rw [Bool.eq_false_iff, ne_eq, looksLikeError_iff]
  rintro ⟨h1, h2, -⟩
  rcases h with h | h
  · exact h2 h
  · exact h1 (by simp [lower, h])

/-- The line `(*error*)`. -/
def wErr : Str := tokStarError

/-- A process that exits 0 after printing an error and then 200 other lines. -/
def wEarly : World Unit := ⟨0, [], wErr :: List.replicate 200 [], [], [], true, some [], none⟩

set_option maxRecDepth 8000 in
/-- C15 fails: an error line followed by 200 further lines is not seen, and the
run - which left no output at all - is reported as a success. -/
theorem early_error_missed : ¬ RaisesIff := by
  intro h
  have h1 := h ⟨true, true, false, false⟩ wEarly rfl
  have h2 : (runOsiris ⟨true, true, false, false⟩ wEarly).outcome ≠ .raised := by
    rw [ne_eq, run_raises_iff_partial _ _ rfl]
    rintro ⟨h | ⟨l, hl, he⟩ | ⟨l, hl, -⟩, -⟩
    · exact h rfl
    · have : l = [] := by
        have : lastN 200 wEarly.stderr = List.replicate 200 [] := by
          rfl
        rw [this] at hl
        exact List.eq_of_mem_replicate hl
      subst this
      exact he.1 rfl
    · have : lastN 200 wEarly.stdout = [] := rfl
      rw [this] at hl; simp at hl
  apply h2
  rw [h1]
  refine ⟨.inr (.inl ⟨wErr, List.mem_cons_self, (looksLikeError_iff _).1 (by decide)⟩), ?_⟩
  rintro ⟨p, c, hm, -⟩
  have hr : (runOsiris ⟨true, true, false, false⟩ wEarly).run = [] := rfl
  rw [hr] at hm
  simp at hm

/-- A crash with one dump on disk. -/
def wCrash : World Unit := ⟨139, [], [], [([dMS, ['F'], ['a', '.', 'h', '5']], ())], [], true, some [], none⟩

example : (runOsiris ⟨true, true, true, false⟩ wCrash).outcome = .returned ⟨139, true, some [], true⟩ := by rfl
example : HasOutput (runOsiris ⟨true, true, true, false⟩ wCrash).run :=
  (producedOutput_iff _).1 (by decide)
example : (runOsiris ⟨true, true, false, false⟩ wCrash).outcome = .raised := by rfl
example : looksLikeError ("  Error reading deck".toList) = true := by decide
example : looksLikeError ("(*warning*) factor of 2 error".toList) = false := by decide
example : looksLikeError ("srun: error: couldn't chdir to x".toList) = false := by decide

/-! ## C17 -/

/-- C17: the sync never changes a file that already exists - even if it is cut
short by a failing copy. -/
theorem sync_keeps_existing {C : Type} (fault : Option Nat) (src dst : Tree C) (p : Path) (c : C)
    (h : fileAt dst p = some c) : fileAt (syncTree fault src dst).1 p = some c := by
  induction src generalizing fault dst with
  | nil => exact h
  | cons x src ih =>
    obtain ⟨q, b⟩ := x
    simp only [syncTree]
    split
    · exact ih _ _ h
    · rename_i hq
      have hne : q ≠ p := by
        rintro rfl
        simp only [fileAt] at h
        simp [h] at hq
      have h' : fileAt (dictSet dst q b) p = some c := by
        simp only [fileAt] at *
        rw [dictGet_set_ne _ _ _ _ hne, h]
      cases fault with
      | none => exact ih _ _ h'
      | some n => cases n with
        | zero => exact h
        | succ n => exact ih _ _ h'

/-- C17: the sync never invents a file: whatever is in the target afterwards was
there before, or is a source file with its content. -/
theorem sync_only_sources {C : Type} (fault : Option Nat) (src dst : Tree C) (p : Path) (c : C)
    (h : fileAt (syncTree fault src dst).1 p = some c) : fileAt dst p = some c ∨ (p, c) ∈ src := by
  induction src generalizing fault dst with
  | nil => exact .inl h
  | cons x src ih =>
    obtain ⟨q, b⟩ := x
    simp only [syncTree] at h
    have key : ∀ f, fileAt (syncTree f src (dictSet dst q b)).1 p = some c →
        fileAt dst p = some c ∨ (p, c) ∈ (q, b) :: src := by
      intro f h
      rcases ih _ _ h with h' | h'
      · by_cases hq : q = p
        · subst hq
          simp only [fileAt, dictGet_set_self] at h'
          cases h'
          exact .inr (by simp)
        · simp only [fileAt, dictGet_set_ne _ _ _ _ hq] at h'
          exact .inl h'
      · exact .inr (List.mem_cons_of_mem _ h')
    split at h
    · rcases ih _ _ h with h' | h'
      · exact .inl h'
      · exact .inr (List.mem_cons_of_mem _ h')
    · cases fault with
      | none => exact key _ h
      | some n => cases n with
        | zero => exact .inl h
        | succ n => exact key _ h

/-- C17: a sync that is not interrupted copies everything: each source file ends
up in the target, with the target's own content if it had one and the source's
content otherwise. -/
theorem sync_copies_missing {C : Type} (src dst : Tree C) (hsrc : (dictKeys src).Nodup) (p : Path) (c : C)
    (h : (p, c) ∈ src) :
    (syncTree none src dst).2 = true ∧
      fileAt (syncTree none src dst).1 p = some ((fileAt dst p).getD c) := by
  have hflag : ∀ (src dst : Tree C), (syncTree none src dst).2 = true := by
    intro src
    induction src with
    | nil => intro dst; rfl
    | cons x src ih =>
      intro dst
      obtain ⟨q, b⟩ := x
      simp only [syncTree]
      split <;> exact ih _
  refine ⟨hflag _ _, ?_⟩
  cases hd : fileAt dst p with
  | some b => rw [sync_keeps_existing none src dst p b hd]; rfl
  | none =>
    simp only [Option.getD_none]
    induction src generalizing dst with
    | nil => simp at h
    | cons x src ih =>
      obtain ⟨q, b⟩ := x
      simp only [dictKeys, List.map_cons, List.nodup_cons] at hsrc
      simp only [syncTree]
      rcases List.mem_cons.1 h with h | h
      · cases h
        simp only [fileAt] at hd
        rw [if_neg (by simp [hd])]
        exact sync_keeps_existing _ _ _ _ _ (dictGet_set_self _ _ _)
      · have hne : q ≠ p := by
          rintro rfl
          exact hsrc.1 (List.mem_map.2 ⟨_, h, rfl⟩)
        split
        · exact ih _ hsrc.2 h hd
        · apply ih _ hsrc.2 h
          simp only [fileAt] at *
          rw [dictGet_set_ne _ _ _ _ hne, hd]

theorem sync_noop {C : Type} (src dst : Tree C) (h : ∀ p c, (p, c) ∈ src → (fileAt dst p).isSome) :
    syncTree none src dst = (dst, true) := by
  induction src with
  | nil => rfl
  | cons x src ih =>
    obtain ⟨q, b⟩ := x
    simp only [syncTree]
    rw [if_pos (show (dictGet dst q).isSome = true from h q b (by simp))]
    exact ih fun p c hp => h p c (List.mem_cons_of_mem _ hp)

/-- C17: running the sync twice is the same as once. -/
theorem sync_idempotent {C : Type} (src dst : Tree C) (hsrc : (dictKeys src).Nodup) :
    syncTree none src (syncTree none src dst).1 = ((syncTree none src dst).1, true) :=
  sync_noop _ _ fun p c h => by rw [(sync_copies_missing src dst hsrc p c h).2]; rfl

/-- A two-file scratch and a durable directory that already has one of them. -/
def exSrc : Tree Nat := [([dMS, ['a']], 1), ([dHist, ['h']], 2)]
def exDst : Tree Nat := [([dMS, ['a']], 7)]

example : (dictKeys exSrc).Nodup ∧ (syncTree none exSrc exDst).1 = [([dMS, ['a']], 7), ([dHist, ['h']], 2)] := by
  decide

/-! ## C45 staged runs hand everything over -/

/-- C45: after a staged run - successful, salvaged or raised - whose final sync
was not interrupted, every file left in the scratch directory is in the durable
directory (with the durable content if the drainer had already written it), every
durable file is unchanged, and the scratch directory is gone. -/
theorem staged_run_hands_over_partial {C : Type} (a : Args) (w : World C) (hb : a.binaryExists = true)
    (hs : a.stageRoot = true) (hc : a.streamConvert = true) (hf : w.syncFault = none)
    (hsrc : (dictKeys w.scratch).Nodup) :
    (∀ p c, (p, c) ∈ w.scratch → fileAt (runOsiris a w).run p = some ((fileAt w.run p).getD c)) ∧
    (∀ p c, fileAt w.run p = some c → fileAt (runOsiris a w).run p = some c) ∧
    (runOsiris a w).scratch = none := by
  have hr : (runOsiris a w).run = (syncTree none w.scratch w.run).1 := by
    simp [runOsiris, hb, afterSync, Args.staging, hs, hc, hf]
  refine ⟨fun p c h => ?_, fun p c h => ?_, by simp [runOsiris, hb]⟩
  · rw [hr]; exact (sync_copies_missing _ _ hsrc p c h).2
  · rw [hr]; exact sync_keeps_existing _ _ _ _ _ h

/-- C45: the durable files survive whatever happens to the final sync, with or
without staging. -/
theorem durable_files_survive {C : Type} (a : Args) (w : World C) (hb : a.binaryExists = true) (p : Path) (c : C)
    (h : fileAt w.run p = some c) : fileAt (runOsiris a w).run p = some c := by
  have hr : (runOsiris a w).run = afterSync a w := by simp [runOsiris, hb]
  rw [hr, afterSync]
  split
  · exact sync_keeps_existing _ _ _ _ _ h
  · exact h

/-- C45 without the hypothesis on the sync is FALSE: if the final sync fails, the
scratch directory is removed all the same and its files are lost. -/
theorem failed_sync_loses_files :
    ∃ (a : Args) (w : World Unit) (p : Path), a.binaryExists = true ∧ a.staging = true ∧
      (fileAt w.scratch p).isSome ∧ fileAt (runOsiris a w).run p = none ∧ (runOsiris a w).scratch = none :=
  ⟨⟨true, true, true, false⟩, ⟨0, [], [], [([dHist, ['h']], ())], [], true, some [], some 0⟩, [dHist, ['h']],
    rfl, rfl, rfl, rfl, rfl⟩

/-- C45: `stage_root` without `stream_convert` is ignored: the result says so and
the durable directory is exactly what the run left there. -/
theorem staging_needs_streaming {C : Type} (a : Args) (w : World C) (hb : a.binaryExists = true)
    (hc : a.streamConvert = false) : (runOsiris a w).run = w.run := by
  simp [runOsiris, hb, afterSync, Args.staging, hc]

/-! ## C46 command line -/

/-- C46: one rank (or fewer) runs the binary itself; several ranks run
`launcher -n N extra... binary`. -/
theorem command_spec (launcher : Str) (ranks : Int) (rs : Str) (extra : List Str) (binary : Str) :
    (ranks ≤ 1 → command launcher ranks rs extra binary = [binary]) ∧
    (1 < ranks → command launcher ranks rs extra binary = launcher :: ['-', 'n'] :: rs :: (extra ++ [binary])) ∧
    (command launcher ranks rs extra binary).getLast? = some binary := by
  refine ⟨fun h => ?_, fun h => ?_, ?_⟩
  · rw [command, if_neg (by omega)]
  · rw [command, if_pos h]; rfl
  · rw [command]
    split
    · rw [List.getLast?_append]; simp
    · rfl

/-! ## C18 -/

/-- C18: the result is the first existing candidate, in the order configured
path (if non-empty), `OSIRIS_BIN_<dim>D`, `OSIRIS_BIN`. -/
theorem discover_first (ex : Str → Bool) (cfg : Option Str) (dim : Option Int) (env : Dict EnvKey Str) (b : Str) :
    discoverBinary ex cfg dim env = some b →
      ex b = true ∧
      (cfg = some b ∨
       ((∀ c, cfg = some c → c ≠ [] → ex c = false) ∧
        ((∃ n, dim = some n ∧ dictGet env (.dim n) = some b) ∨
         ((∀ n c, dim = some n → dictGet env (.dim n) = some c → ex c = false) ∧
          dictGet env .generic = some b)))) := by
  intro h
  simp only [discoverBinary] at h
  refine ⟨List.find?_some h, ?_⟩
  simp only [candidates, List.find?_append, Option.or_eq_some_iff] at h
  rcases h with (h | ⟨h1, h⟩) | ⟨h1, h⟩
  · left
    cases cfg with
    | none => simp at h
    | some c =>
      by_cases hc : c.isEmpty = true
      · simp [hc] at h
      · simp [hc] at h
        rw [h.2]
  · right
    constructor
    · rintro c rfl hc
      have : c.isEmpty = false := by cases c <;> simp_all
      simpa [this] using h1
    · left
      cases dim with
      | none => simp at h
      | some n =>
        refine ⟨n, rfl, ?_⟩
        cases hd : dictGet env (EnvKey.dim n) with
        | none => simp [hd] at h
        | some x => simp [hd] at h; rw [h.2]
  · right
    simp only [Option.or_eq_none_iff] at h1
    constructor
    · rintro c rfl hc
      have : c.isEmpty = false := by cases c <;> simp_all
      simpa [this] using h1.1
    · right
      constructor
      · rintro n c rfl hd
        simpa [hd] using h1.2
      · cases hd : dictGet env EnvKey.generic with
        | none => simp [hd] at h
        | some x => simp [hd] at h; rw [h.2]

/-- C18: it raises exactly when no candidate exists. -/
theorem discover_raises_iff (ex : Str → Bool) (cfg : Option Str) (dim : Option Int) (env : Dict EnvKey Str) :
    discoverBinary ex cfg dim env = none ↔
      (∀ c, cfg = some c → c ≠ [] → ex c = false) ∧
      (∀ n c, dim = some n → dictGet env (.dim n) = some c → ex c = false) ∧
      (∀ c, dictGet env .generic = some c → ex c = false) := by
  simp only [discoverBinary, candidates, List.find?_append, Option.or_eq_none_iff, and_assoc]
  refine and_congr ?_ (and_congr ?_ ?_)
  · cases cfg with
    | none => simp
    | some c =>
      by_cases hc : c = []
      · subst hc; simp
      · have : c.isEmpty = false := by cases c <;> simp_all
        simp [this, hc]
  · cases dim with
    | none => simp
    | some n =>
      constructor
      · rintro h m c hm hc
        cases hm
        simpa [hc] using h
      · intro h
        cases hd : dictGet env (EnvKey.dim n) with
        | none => simp [hd]
        | some c => simpa [hd] using h n c rfl hd
  · cases hd : dictGet env EnvKey.generic <;> simp

/-- C18: a configured path that exists always wins. -/
theorem discover_configured_wins (ex : Str → Bool) (c : Str) (dim : Option Int) (env : Dict EnvKey Str)
    (hc : c ≠ []) (he : ex c = true) : discoverBinary ex (some c) dim env = some c := by
  have : c.isEmpty = false := by cases c <;> simp_all
  simp [discoverBinary, candidates, this, he]

example : discoverBinary (fun s => s != ['x']) (some ['x']) (some 2) [(.generic, ['g']), (.dim 2, ['d'])] = some ['d'] := by
  decide

end Verif.Runner
