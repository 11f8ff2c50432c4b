import Verif.Lemmas.StreamSub

/-!
Property theorems C07-C14: the streaming converter (`adept/osiris/stream.py`).
`run cfg (init P) es` is the state after the history `es`, starting from empty
directories; `readables produced` is what the NetCDF should hold.
-/
namespace Verif.Stream
variable {P : Type}

/-! ## C07 stream writer -/

/-- C07: for every chunk size and every history of calls on a writer created on
an empty file, slots on disk followed by the pending batch are exactly the
accepted dumps in order, `n_written` counts them, and the pending batch never
reaches the chunk size. -/
theorem writer_lossless (ct : Nat) (hct : 0 < ct) (shape : List Nat) (ops : List (WOp P))
    (hu : WellUsed true ops) :
    let st := wRun ct shape ⟨[], wOpen [], true⟩ ops
    st.disk ++ st.mem.pending = accepted shape ops ∧
    nWritten st.disk st.mem = (accepted shape ops).length ∧
    st.mem.pending.length < ct ∧ (st.isOpen = false → st.mem.pending = []) := by
  have key : ∀ (ops : List (WOp P)) (st : WSt P), WellUsed st.isOpen ops → st.mem.pending.length < ct →
      (st.isOpen = false → st.mem.pending = []) →
      (wRun ct shape st ops).disk ++ (wRun ct shape st ops).mem.pending = st.disk ++ st.mem.pending ++ accepted shape ops ∧
      (wRun ct shape st ops).mem.pending.length < ct ∧
      ((wRun ct shape st ops).isOpen = false → (wRun ct shape st ops).mem.pending = []) := by
    intro ops
    induction ops with
    | nil => intro st _ h1 h2; simp [wRun, accepted, h1]; exact h2
    | cons o os ih =>
      intro st hu h1 h2
      cases o with
      | append sh s =>
        obtain ⟨ho, hu⟩ := hu
        by_cases hsh : sh = shape
        · subst hsh
          by_cases hl : ct ≤ (st.mem.pending ++ [s]).length
          · have := ih (wStep ct sh st (.append sh s))
              (by simp only [wStep, ne_eq, not_true_eq_false, if_false]; rw [if_pos hl]; simp [wBatch, ho] at hu ⊢; exact hu)
              (by simp only [wStep, ne_eq, not_true_eq_false, if_false]; rw [if_pos hl]; simp [wBatch, ho, wLand, hct])
              (by simp only [wStep, ne_eq, not_true_eq_false, if_false]; rw [if_pos hl]; simp [wBatch, ho])
            refine ⟨?_, this.2⟩
            rw [wRun, this.1]
            simp only [wStep, ne_eq, not_true_eq_false, if_false]; rw [if_pos hl]
            simp [wBatch, ho, wLand, accepted]
          · have := ih (wStep ct sh st (.append sh s))
              (by simp only [wStep, ne_eq, not_true_eq_false, if_false]; rw [if_neg hl]; exact hu)
              (by simp only [wStep, ne_eq, not_true_eq_false, if_false]; rw [if_neg hl]; exact Nat.lt_of_not_le hl)
              (by simp only [wStep, ne_eq, not_true_eq_false, if_false]; rw [if_neg hl]; simp [ho])
            refine ⟨?_, this.2⟩
            rw [wRun, this.1]
            simp only [wStep, ne_eq, not_true_eq_false, if_false]; rw [if_neg hl]
            simp [accepted]
        · have : wStep ct shape st (.append sh s) = st := by simp [wStep, hsh]
          rw [wRun, this]
          simp only [accepted, hsh, if_false]
          exact ih st hu h1 h2
      | flush =>
        have hb : wStep ct shape st .flush = wBatch st := rfl
        have := ih (wBatch st)
          (by unfold wBatch; split <;> exact hu)
          (by unfold wBatch; split <;> simp_all [wLand])
          (by unfold wBatch; split <;> simp_all [wLand])
        refine ⟨?_, this.2⟩
        rw [wRun, hb, this.1]
        unfold wBatch; split <;> simp [wLand, accepted]
      | close =>
        have hb : wStep ct shape st .close = { wBatch st with isOpen := false } := rfl
        have hp : (wBatch st).mem.pending = [] := by
          unfold wBatch; split
          · simp [wLand]
          · next hh => exact h2 (by simpa using hh)
        have := ih { wBatch st with isOpen := false } hu (by simp [hp, hct]) (by simp [hp])
        refine ⟨?_, this.2⟩
        rw [wRun, hb, this.1]
        unfold wBatch; split <;> simp [wLand, accepted]
      | reopen =>
        obtain ⟨ho, hu⟩ := hu
        have hb : wStep ct shape st .reopen = ⟨st.disk, wOpen st.disk, true⟩ := rfl
        have := ih ⟨st.disk, wOpen st.disk, true⟩ hu (by simp [wOpen, hct]) (by simp)
        refine ⟨?_, this.2⟩
        rw [wRun, hb, this.1]
        simp [wOpen, accepted, h2 ho]
  intro st
  have := key ops ⟨[], wOpen [], true⟩ hu (by simpa [wOpen] using hct) (by simp)
  have h0 : st.disk ++ st.mem.pending = accepted shape ops := by
    refine this.1.trans ?_
    simp [wOpen]
  refine ⟨h0, ?_, this.2.1, this.2.2⟩
  have h1 := congrArg List.length h0
  simpa [nWritten] using h1

/-- C07: `flush` and `close` put everything on disk. -/
theorem writer_flush_lands (ct : Nat) (hct : 0 < ct) (shape : List Nat) (ops : List (WOp P))
    (hu : WellUsed true ops) :
    (wRun ct shape ⟨[], wOpen [], true⟩ (ops ++ [.flush])).disk = accepted shape ops ∧
    (wRun ct shape ⟨[], wOpen [], true⟩ (ops ++ [.close])).disk = accepted shape ops := by
  have happ : ∀ (o : WOp P) (ops : List (WOp P)) (st : WSt P),
      wRun ct shape st (ops ++ [o]) = wStep ct shape (wRun ct shape st ops) o := by
    intro o ops
    induction ops with
    | nil => intro st; rfl
    | cons a as ih => intro st; exact ih _
  obtain ⟨h1, -, -, h4⟩ := writer_lossless ct hct shape ops hu
  rw [happ, happ]
  generalize hst : wRun ct shape ⟨[], wOpen [], true⟩ ops = st at h1 h4 ⊢
  cases ho : st.isOpen with
  | true => simp [wStep, wBatch, ho, wLand, h1]
  | false =>
    rw [h4 ho] at h1
    simp [wStep, wBatch, ho]; simpa using h1

/-- The hypotheses are met: three appends, a reopen, another append. -/
example : WellUsed (P := Nat) true [.append [2] (0, 7), .append [2] (3, 8), .append [5] (4, 1), .append [2] (6, 9),
    .close, .reopen, .append [2] (9, 10)] ∧
    (wRun 2 [2] ⟨[], wOpen [], true⟩ [.append [2] (0, 7), .append [2] (3, 8), .append [5] (4, 1), .append [2] (6, 9),
      .close, .reopen, .append [2] (9, 10)]).disk = [(0, 7), (3, 8), (6, 9)] := by
  refine ⟨by simp [WellUsed], by decide⟩

/-- Outside the protocol rows are lost: `append` after `close` is accepted
silently and never reaches the file (stream.py:218-232 does not check `_f`). -/
theorem writer_append_after_close_lost :
    let ops : List (WOp Nat) := [.append [2] (0, 7), .close, .append [2] (3, 8), .flush, .close, .reopen, .close]
    (wRun 1 [2] ⟨[], wOpen [], true⟩ ops).disk = [(0, 7)] ∧ accepted [2] ops = [(0, 7), (3, 8)] := by
  decide

/-! ## C08 exactly once, in order -/

theorem undisturbed_allowed {cfg : Cfg} {q : Prop} : ∀ (es : List (Ev P)) (st : St P),
    (∀ e ∈ es, e.undisturbed = true) → AllowedRun cfg q st es
  | [], _, _ => trivial
  | e :: es, st, h => by
    refine ⟨?_, undisturbed_allowed es _ fun e' he' => h e' (List.mem_cons_of_mem _ he')⟩
    have := h e (List.mem_cons_self ..)
    cases e <;> simp [Ev.undisturbed] at this <;> exact trivial

/-- C08: whatever the interleaving of dumps, scans and the watcher's own steps,
whatever spills, unreadable dumps and failing copies/deletions/renames occur:
once `finalize` has returned, the NetCDF holds every readable dump exactly once,
in iteration order, and nothing else. -/
theorem stream_exactly_once (cfg : Cfg) (hraw : cfg.raw = false) (es : List (Ev P))
    (hes : ∀ e ∈ es, e.undisturbed = true) (hdone : (run cfg (init P) es).pc = .done) :
    disk (run cfg (init P) es) = readables (run cfg (init P) es).produced ∧
    (disk (run cfg (init P) es)).Pairwise (fun a b => a.1 < b.1) := by
  have h := (InvQ.init cfg True).run hraw es (undisturbed_allowed es _ hes)
  have hp : pending (run cfg (init P) es) = [] := by
    have := h.inv.pcInv; unfold PcInv at this; rw [hdone] at this; exact this
  have hf := h.full hdone (Or.inr trivial)
  have hd : disk (run cfg (init P) es) = readables (run cfg (init P) es).produced := by
    rw [← hf]; simp [slots, hp]
  exact ⟨hd, hd ▸ h.inv.readIncr⟩

/-- C08: the final sweep always ends.  After any undisturbed history, once
OSIRIS has exited and the watcher is between scans, calling `finalize` and
letting the sweep take enough steps (with any failing file operations) gives the
complete NetCDF. -/
theorem finalize_completes (cfg : Cfg) (hraw : cfg.raw = false) (es : List (Ev P))
    (hes : ∀ e ∈ es, e.undisturbed = true) (hidle : (run cfg (init P) es).pc = .idle) :
    ∃ n, ∀ oks : List Bool, n ≤ oks.length →
      (run cfg (init P) (es ++ [.osirisExit, .final] ++ oks.map .tick)).pc = .done ∧
      disk (run cfg (init P) (es ++ [.osirisExit, .final] ++ oks.map .tick)) =
        readables (run cfg (init P) es).produced := by
  let s1 := run cfg (init P) (es ++ [.osirisExit, .final])
  have hs1 : s1 = startFinal cfg { run cfg (init P) es with running := false } := by
    show run cfg (init P) (es ++ [.osirisExit, .final]) = _
    rw [run_append]
    simp [run, step, hidle]
  have hfin : s1.pc.fin = true := by
    rw [hs1]
    refine startFinal_cases (motive := fun s => s.pc.fin = true) cfg _ ?_ ?_ ?_ ?_
    · intro _; rw [(closeAll_fields _).2.2.2.2.1]; rfl
    · intros; rfl
    · intros; rfl
    · intros; rfl
  have hprod : ∀ (oks : List Bool) (s : St P), (run cfg s (oks.map .tick)).produced = s.produced := by
    intro oks
    induction oks with
    | nil => intro s; rfl
    | cons o os ih =>
      intro s
      have : (tick cfg s o).produced = s.produced := by
        refine tick_cases (motive := fun x => x.produced = s.produced) cfg s o
          ?_ ?_ ?_ ?_ ?_ ?_ ?_ ?_ ?_ ?_ ?_ ?_ ?_ ?_ ?_ ?_ ?_ ?_ ?_ ?_ ?_ ?_
        all_goals first
          | (intros; rfl)
          | (intro fin he; exact (leave_fields s fin).1)
          | (intro fin w he hw; exact (leave_fields _ fin).1)
          | (intro fin c t he hb; exact (quarantine_fields (touch s c.1 c.2.it .read) c o).1)
          | (intro fin c t w he hb h3 h4; exact (quarantine_fields (touch s c.1 c.2.it .read) c o).1)
      exact (ih (tick cfg s o)).trans this
  have hs1p : s1.produced = (run cfg (init P) es).produced := by
    rw [hs1]
    refine startFinal_cases (motive := fun s => s.produced = (run cfg (init P) es).produced) cfg _ ?_ ?_ ?_ ?_
    · intro _; rw [(closeAll_fields _).1]
    · intros; rfl
    · intros; rfl
    · intros; rfl
  refine ⟨pcSize s1.pc, fun oks hn => ?_⟩
  have hrun : run cfg (init P) (es ++ [.osirisExit, .final] ++ oks.map .tick) = run cfg s1 (oks.map .tick) :=
    run_append cfg _ _ _
  obtain ⟨h1, h2⟩ := ticks_finish cfg oks s1 hn
  have hdone : (run cfg (init P) (es ++ [.osirisExit, .final] ++ oks.map .tick)).pc = .done := by
    rw [hrun]; exact pc_of_size h1 (h2.trans hfin)
  refine ⟨hdone, ?_⟩
  have := (stream_exactly_once cfg hraw _ (by
    intro e he
    rcases List.mem_append.1 he with he | he
    · rcases List.mem_append.1 he with he | he
      · exact hes e he
      · simp at he; rcases he with rfl | rfl <;> rfl
    · obtain ⟨o, _, rfl⟩ := List.mem_map.1 he; rfl) hdone).1
  rw [this, hrun, hprod, hs1p]

/-- C08, at every moment: the slots written so far are a prefix of the readable
dumps, so a partial file is never wrong, only short. -/
theorem stream_prefix (cfg : Cfg) (hraw : cfg.raw = false) (es : List (Ev P))
    (hes : ∀ e ∈ es, e.undisturbed = true) :
    disk (run cfg (init P) es) <+: readables (run cfg (init P) es).produced := by
  have h := (InvQ.init cfg True).run hraw es (undisturbed_allowed es _ hes)
  exact (List.prefix_append _ _).trans h.inv.slotsPre

/-- A dump with contents. -/
private abbrev ok (i : Int) (p : Nat) : Ev Nat := .produce ⟨i, some p⟩
/-- An unreadable dump. -/
private abbrev bad (i : Int) : Ev Nat := .produce ⟨i, none⟩
private abbrev T : Ev Nat := .tick true
private abbrev F : Ev Nat := .tick false

/-- A staged run with a quarantine, a spill with a failing deletion, dumps
written during a scan, and a final catch-up from the mirror. -/
private def story : List (Ev Nat) :=
  [ok 0 10, ok 3 11, .scan false, T, ok 6 12, T, T, T, bad 9, ok 12 14, .scan false] ++ [T, T, T, T, F, T, T, T] ++
  [T, T, T] ++ [ok 15 15, .scan true] ++ [T, F, T, T] ++ [T, T] ++ [ok 18 16, .osirisExit, .final] ++
  List.replicate 30 T

set_option maxRecDepth 8000 in
/-- Non-vacuous: the story ends with a complete NetCDF, having spilled and quarantined. -/
example : (∀ e ∈ story, e.undisturbed = true) ∧
    (run ⟨true, false, false, 2⟩ (init Nat) story).pc matches .done ∧
    disk (run ⟨true, false, false, 2⟩ (init Nat) story) = [(0, 10), (3, 11), (6, 12), (12, 14), (15, 15), (18, 16)] ∧
    (run ⟨true, false, false, 2⟩ (init Nat) story).spilled = true ∧
    (run ⟨true, false, false, 2⟩ (init Nat) story).sidelined.length = 1 := by
  refine ⟨?_, by rfl, by rfl, by rfl, by rfl⟩
  have h : story.all (fun e => e.undisturbed) = true := by rfl
  exact fun e he => List.all_eq_true.1 h e he

/-! ## C09 the dump being written is never touched -/

/-- C09: in every history (including kills, exceptions, RAW diagnostics), every
file the watcher opened, copied, removed or renamed while OSIRIS was running was
older than the newest dump at that moment. -/
theorem watcher_keeps_off_newest (cfg : Cfg) (es : List (Ev P)) :
    ∀ t ∈ (run cfg (init P) es).log, t.running = true → t.it < t.newest :=
  (Inv9.init.run cfg es).log

/-- The watcher does touch files while OSIRIS runs. -/
example : (run ⟨true, false, false, 2⟩ (init Nat) [ok 0 10, ok 3 11, .scan false, T, T, T, T]).log =
    [⟨.scratch, 0, .remove, 3, true⟩, ⟨.scratch, 0, .copy, 3, true⟩, ⟨.scratch, 0, .read, 3, true⟩] := by
  decide

/-! ## C10 staged dumps are not lost -/

/-- C10 for the mirroring modes (no `discard_grid_h5`, or a RAW diagnostic, or no
staging): at every point of every history - kills, exceptions and aborted final
sweeps included - every dump OSIRIS wrote is in the scratch, in the mirror, or
sidelined as `*.bad`. -/
theorem staged_dumps_kept_partial (cfg : Cfg) (hd : cfg.staged = false ∨ cfg.discard = false ∨ cfg.raw = true)
    (es : List (Ev P)) (d : Dump P) (hp : d ∈ (run cfg (init P) es).produced) :
    d ∈ (run cfg (init P) es).scratch ∨ d ∈ (run cfg (init P) es).mirror ∨
      ∃ l, (l, d) ∈ (run cfg (init P) es).sidelined :=
  ((Inv10.init cfg).run hd es).kept d hp

/-- C10 with `discard_grid_h5`, up to the first kill: a readable dump is in the
scratch, in the mirror, on disk in the NetCDF, or in the pending batch, and the
pending batch holds fewer than one chunk of rows - so a kill loses less than a
chunk, and nothing at all between scans. -/
theorem discard_loss_bounded_partial (cfg : Cfg) (hraw : cfg.raw = false) (hct : 0 < cfg.ct) (es : List (Ev P))
    (hes : ∀ e ∈ es, e.mild = true) (d : Dump P) (p : P) (hb : d.body = some p)
    (hp : d ∈ (run cfg (init P) es).produced) :
    (d ∈ (run cfg (init P) es).scratch ∨ d ∈ (run cfg (init P) es).mirror ∨
      (d.it, p) ∈ disk (run cfg (init P) es) ∨ (d.it, p) ∈ pending (run cfg (init P) es)) ∧
    (pending (run cfg (init P) es)).length < cfg.ct ∧
    ((run cfg (init P) es).pc = .idle → pending (run cfg (init P) es) = []) := by
  have hall : ∀ (es : List (Ev P)) (st : St P), (∀ e ∈ es, e.mild = true) → AllowedRun cfg False st es := by
    intro es
    induction es with
    | nil => intro _ _; trivial
    | cons e es ih =>
      intro st h
      refine ⟨?_, ih _ fun e' he' => h e' (List.mem_cons_of_mem _ he')⟩
      have := h e (List.mem_cons_self ..)
      cases e <;> simp [Ev.mild, Ev.undisturbed] at this
      all_goals first | exact trivial | skip
      next landed =>
        cases landed with
        | true => exact ⟨Or.inl rfl, by simp⟩
        | false => simp at this
  have h := (InvQ.init cfg False).run hraw es (hall es _ hes)
  refine ⟨?_, pending_lt_run hct es, ?_⟩
  · by_cases hlt : lastSlot (run cfg (init P) es) < d.it
    · rcases h.inv.avail d ⟨hp, by rw [hb]; rfl, hlt⟩ with h1 | h1
      · exact Or.inl h1
      · exact Or.inr (Or.inl h1.2)
    · have := mem_prefix h.inv.readIncr h.inv.readPos h.inv.slotsPre (x := (d.it, p))
        (mem_readables.2 ⟨d, hp, rfl, hb⟩) (by simpa using hlt)
      rcases List.mem_append.1 this with h1 | h1
      · exact Or.inr (Or.inr (Or.inl h1))
      · exact Or.inr (Or.inr (Or.inr h1))
  · intro hpc
    have := h.inv.pcInv; unfold PcInv at this; rw [hpc] at this; exact this

/-- C10 is false in `discard_grid_h5` mode: the scratch file is deleted once its
row is in the memory buffer; killing the process before the batch lands loses
the dump for good. -/
theorem discard_kill_loses_dump :
    ∃ es : List (Ev Nat),
      let st := run ⟨true, true, false, 2⟩ (init Nat) es
      (⟨0, some 10⟩ : Dump Nat) ∈ st.produced ∧ ⟨0, some 10⟩ ∉ st.scratch ∧ ⟨0, some 10⟩ ∉ st.mirror ∧
      (0, 10) ∉ slots st ∧ st.sidelined = [] :=
  ⟨[ok 0 10, ok 3 11, .scan false, T, T, T, .kill], by decide⟩

/-- C10, a second way to lose data in `discard_grid_h5` mode: after a restart
the spill flag is gone, newer dumps move `last_iter` past the spilled ones, and
a later spill's catch-up deletes the never-converted mirror copies as "already in
the file" (stream.py:614-617, 661-668). -/
theorem discard_restart_deletes_spilled :
    ∃ es : List (Ev Nat),
      let st := run ⟨true, true, false, 1⟩ (init Nat) es
      (⟨0, some 10⟩ : Dump Nat) ∈ st.produced ∧ ⟨0, some 10⟩ ∉ st.scratch ∧ ⟨0, some 10⟩ ∉ st.mirror ∧
      (0, 10) ∉ slots st ∧ st.sidelined = [] ∧ st.completed = true :=
  ⟨[ok 0 10, ok 3 11, .scan true, T, T, T, .kill, ok 6 12, .scan false, T, T, T, T, ok 9 13, .scan true, T, T, T,
    .osirisExit, .final] ++ List.replicate 30 T, by decide⟩

/-! ## C11 restarts -/

/-- C11, half: whatever happens - kills at any point, restarts, failing
operations - the NetCDF never repeats, reorders or invents a slot. -/
theorem restart_never_duplicates (cfg : Cfg) (es : List (Ev P)) :
    (disk (run cfg (init P) es)).Sublist (readables (run cfg (init P) es).produced) := by
  have h := InvS.init.run cfg es
  refine sublist_of_incr (List.pairwise_append.1 h.incr).1 (readables_incr h.base.incr) ?_
  exact fun s hs => h.sub s (List.mem_append_left _ hs)

/-- C11 without staging: kills at any point, any number of times, do not change
the final NetCDF. -/
theorem restart_in_place_exact (cfg : Cfg) (hraw : cfg.raw = false) (hst : cfg.staged = false) (es : List (Ev P))
    (hes : ∀ e ∈ es, e = .kill ∨ e.undisturbed = true) (hdone : (run cfg (init P) es).pc = .done) :
    disk (run cfg (init P) es) = readables (run cfg (init P) es).produced := by
  have hall : ∀ (es : List (Ev P)) (st : St P), (∀ e ∈ es, e = .kill ∨ e.undisturbed = true) →
      AllowedRun cfg True st es := by
    intro es
    induction es with
    | nil => intro _ _; trivial
    | cons e es ih =>
      intro st h
      refine ⟨?_, ih _ fun e' he' => h e' (List.mem_cons_of_mem _ he')⟩
      rcases h e (List.mem_cons_self ..) with rfl | this
      · exact Or.inl hst
      · cases e <;> simp [Ev.undisturbed] at this <;> exact trivial
  have h := (InvQ.init cfg True).run hraw es (hall es _ hes)
  have hp : pending (run cfg (init P) es) = [] := by
    have := h.inv.pcInv; unfold PcInv at this; rw [hdone] at this; exact this
  have hf := h.full hdone (Or.inr trivial)
  rw [← hf]; simp [slots, hp]

/-- Kills happen only between scans, and no scan spills. -/
def CalmRestarts (cfg : Cfg) : St P → List (Ev P) → Prop
  | _, [] => True
  | st, e :: es => (match e with
      | .kill => st.pc = .idle
      | .scan s => s = false
      | e => e.undisturbed = true) ∧ CalmRestarts cfg (step cfg st e) es

/-- C11 with staging: restarts between scans do not change the final NetCDF, as
long as the diagnostic never spilled. -/
theorem restart_staged_exact_partial (cfg : Cfg) (hraw : cfg.raw = false) (es : List (Ev P))
    (hes : CalmRestarts cfg (init P) es) (hdone : (run cfg (init P) es).pc = .done) :
    disk (run cfg (init P) es) = readables (run cfg (init P) es).produced := by
  have key : ∀ (es : List (Ev P)) (st : St P), InvQ cfg True st → st.spilled = false → CalmRestarts cfg st es →
      InvQ cfg True (run cfg st es) := by
    intro es
    induction es with
    | nil => intro st h _ _; exact h
    | cons e es ih =>
      intro st h hsp hc
      obtain ⟨hc, hcs⟩ := hc
      have hall : Allowed cfg True st e := by
        cases e <;> simp [Ev.undisturbed] at hc <;> try exact trivial
        refine Or.inr ⟨?_, hsp⟩
        have := h.inv.pcInv; unfold PcInv at this; rw [hc] at this; exact this
      refine ih _ (h.step hraw e hall) ?_ hcs
      refine step_cases (motive := fun s => s.spilled = false) cfg st e hsp ?_ hsp ?_ ?_ ?_ ?_ ?_ ?_
      · intros; exact hsp
      · intro s he hpc
        subst he
        have hs : s = false := hc
        subst hs
        unfold startScan
        split
        · exact hsp
        · split
          · split <;> exact hsp
          · dsimp only
            rw [hsp]
            simp only [Bool.or_self, Bool.and_false, Bool.false_eq_true, if_false]
            split
            · exact hsp
            · split <;> first | exact hsp | rfl
      · intro _ _ _
        refine startFinal_cases (motive := fun s => s.spilled = false) cfg st ?_ ?_ ?_ ?_
        · intro _; rw [(closeAll_fields st).2.2.2.2.2.2.2.2]; exact hsp
        all_goals (intros; exact hsp)
      · intro _ _ _; rw [(closeAll_fields st).2.2.2.2.2.2.2.2]; exact hsp
      · intro okb _
        refine tick_cases (motive := fun s => s.spilled = false) cfg st okb
          ?_ ?_ ?_ ?_ ?_ ?_ ?_ ?_ ?_ ?_ ?_ ?_ ?_ ?_ ?_ ?_ ?_ ?_ ?_ ?_ ?_ ?_
        all_goals first
          | (intros; exact hsp)
          | (intro fin he; rw [(leave_fields st fin).2.2.2.2.2.2.2.2]; exact hsp)
          | (intro fin w he hw; rw [(leave_fields _ fin).2.2.2.2.2.2.2.2]; exact hsp)
          | (intro fin c t he hb; exact (quarantine_fields (touch st c.1 c.2.it .read) c okb).2.2.2.2.2.2.1.trans hsp)
          | (intro fin c t w he hb h3 h4; exact (quarantine_fields (touch st c.1 c.2.it .read) c okb).2.2.2.2.2.2.1.trans hsp)
      · intros; exact hsp
      · intros; rfl
  have h := key es _ (InvQ.init cfg True) rfl hes
  have hp : pending (run cfg (init P) es) = [] := by
    have := h.inv.pcInv; unfold PcInv at this; rw [hdone] at this; exact this
  have hf := h.full hdone (Or.inr trivial)
  rw [← hf]; simp [slots, hp]

/-- Both hypotheses are met by a run with a restart. -/
example :
    let es : List (Ev Nat) := [ok 0 10, ok 3 11, .scan false, T, T, T, T, .kill, ok 6 12, .scan false, T, T, T, T, T, .osirisExit, .final] ++
      List.replicate 20 T
    CalmRestarts ⟨true, false, false, 5⟩ (init Nat) es ∧ (run ⟨true, false, false, 5⟩ (init Nat) es).pc matches .done ∧
    disk (run ⟨true, false, false, 5⟩ (init Nat) es) = [(0, 10), (3, 11), (6, 12)] := by
  refine ⟨?_, rfl, by decide⟩
  simp [CalmRestarts, Ev.undisturbed, List.replicate]
  rfl

/-- C11 is false in staging mode (first witness): a converter restarted after a
spill does not remember it; the spilled dump is never merged from the mirror and
the diagnostic is reported complete with an iteration gap. -/
theorem restart_after_spill_gap :
    ∃ es : List (Ev Nat),
      let st := run ⟨true, false, false, 1⟩ (init Nat) es
      st.completed = true ∧ disk st = [(3, 11), (6, 12)] ∧ readables st.produced = [(0, 10), (3, 11), (6, 12)] :=
  ⟨[ok 0 10, ok 3 11, .scan true, T, T, T, .kill, ok 6 12, .osirisExit, .final] ++ List.replicate 30 T, by decide⟩

/-- C11 is false in staging mode (second witness): killed in the middle of a
scan, the buffered rows are gone while their scratch files are already moved to
the mirror, which the new converter does not read. -/
theorem restart_midscan_gap :
    ∃ es : List (Ev Nat),
      let st := run ⟨true, false, false, 2⟩ (init Nat) es
      st.completed = true ∧ disk st = [(3, 11), (6, 12)] ∧ readables st.produced = [(0, 10), (3, 11), (6, 12)] :=
  ⟨[ok 0 10, ok 3 11, .scan false, T, T, T, .kill, ok 6 12, .osirisExit, .final] ++ List.replicate 30 T, by decide⟩

/-! ## C12 unreadable dumps -/

/-- C12: in a run without restarts each unreadable file is opened at most once
and never appears in the NetCDF; together with `stream_exactly_once` (all
readable dumps, also the later ones, are converted). -/
theorem unreadable_isolated (cfg : Cfg) (hraw : cfg.raw = false) (es : List (Ev P)) (hk : ∀ e ∈ es, e ≠ .kill)
    (d : Dump P) (hp : d ∈ (run cfg (init P) es).produced) (hb : d.body = none) :
    (∀ l, readsOf (run cfg (init P) es) l d.it ≤ 1) ∧ ∀ p, (d.it, p) ∉ disk (run cfg (init P) es) := by
  refine ⟨fun l => (Inv12.init.run hraw es hk).one l d hp hb, fun p hm => ?_⟩
  have h := InvS.init.run cfg es
  obtain ⟨d', h1, h2, h3⟩ := mem_readables.1 (h.sub _ (List.mem_append_left _ hm))
  have : d' = d := h.base.incr.eq_of_it h1 hp h2
  subst this; rw [hb] at h3; cases h3

/-- The unreadable dump of the story is read once although its rename failed and more scans follow. -/
example : readsOf (run ⟨false, false, false, 2⟩ (init Nat)
      [bad 0, ok 3 11, ok 6 12, .scan false, F, T, T, T, T, T, .scan false, T, T, T, T, T, T]) .scratch 0 = 1 ∧
    disk (run ⟨false, false, false, 2⟩ (init Nat)
      [bad 0, ok 3 11, ok 6 12, .scan false, F, T, T, T, T, T, .scan false, T, T, T, T, T, T]) = [(3, 11)] := by decide

/-! ## C13 what finalize reports -/

/-- C13 when the final sweep reaches the diagnostic, buffered rows are never
dropped, and no restart or failed close loses rows: a diagnostic reported as
completed holds every readable dump. -/
theorem completed_is_complete_partial (cfg : Cfg) (hraw : cfg.raw = false) (es : List (Ev P))
    (hes : ∀ e ∈ es, e.mild = true) (hc : (run cfg (init P) es).completed = true) :
    disk (run cfg (init P) es) = readables (run cfg (init P) es).produced := by
  have hall : ∀ (es : List (Ev P)) (st : St P), (∀ e ∈ es, e.mild = true) → AllowedRun cfg False st es := by
    intro es
    induction es with
    | nil => intro _ _; trivial
    | cons e es ih =>
      intro st h
      refine ⟨?_, ih _ fun e' he' => h e' (List.mem_cons_of_mem _ he')⟩
      have := h e (List.mem_cons_self ..)
      cases e <;> simp [Ev.mild, Ev.undisturbed] at this
      all_goals first | exact trivial | skip
      next landed =>
        cases landed with
        | true => exact ⟨Or.inl rfl, by simp⟩
        | false => simp at this
  have h := (InvQ.init cfg False).run hraw es (hall es _ hes)
  have hdone := h.compDone hc
  have hp : pending (run cfg (init P) es) = [] := by
    have := h.inv.pcInv; unfold PcInv at this; rw [hdone] at this; exact this
  have hf := h.full hdone (Or.inl hc)
  rw [← hf]; simp [slots, hp]

/-- An exception in the middle of a scan, then a normal finalize: reported and complete. -/
example :
    let es : List (Ev Nat) := [ok 0 10, ok 3 11, .scan false, T, .raised true, .osirisExit, .final] ++ List.replicate 20 T
    (∀ e ∈ es, e.mild = true) ∧ (run ⟨true, true, false, 4⟩ (init Nat) es).completed = true := by decide

/-- C13 is false: when the final sweep does not reach a diagnostic that has an
open writer, `finalize` still reports it as completed (stream.py:413-421). -/
theorem finalize_overreports :
    ∃ es : List (Ev Nat),
      let st := run ⟨false, false, false, 1⟩ (init Nat) es
      st.completed = true ∧ disk st = [(0, 10)] ∧ readables st.produced = [(0, 10), (3, 11)] :=
  ⟨[ok 0 10, ok 3 11, .scan false, T, T, T, .osirisExit, .finalSkipped], by decide⟩

/-- C13 is false: if a failed close drops the pending batch in staging mode, the
gap stays and the diagnostic is still reported as completed. -/
theorem failed_close_overreports :
    ∃ es : List (Ev Nat),
      let st := run ⟨true, false, false, 2⟩ (init Nat) es
      st.completed = true ∧ disk st = [(3, 11)] ∧ readables st.produced = [(0, 10), (3, 11)] :=
  ⟨[ok 0 10, ok 3 11, .scan false, T, T, T, .raised false, .osirisExit, .final] ++ List.replicate 20 T, by decide⟩

/-! ## C14 log throttle -/

/-- C14: `n` occurrences of one message give one line for the first and one for
each further multiple of `error_log_every`. -/
theorem log_throttle (every n : Nat) (he : 2 ≤ every) :
    logLines every 0 n = (if n = 0 then 0 else 1) + n / every := by
  have key : ∀ k c, 1 ≤ c → logLines every c k + c / every = (c + k) / every := by
    intro k
    induction k with
    | zero => intro c _; simp [logLines]
    | succ k ih =>
      intro c hc
      have h1 := ih (c + 1) (by omega)
      have h2 : (c + 1) / every = c / every + if (c + 1) % every = 0 then 1 else 0 := by
        rw [Nat.succ_div]
        simp only [Nat.dvd_iff_mod_eq_zero]
      have hc1 : (c + 1 == 1) = false := by simp; omega
      simp only [logLines, logEvery, hc1, Bool.false_or]
      have h3 : c + (k + 1) = c + 1 + k := by omega
      rw [h3, ← h1, h2]
      simp only [beq_iff_eq]
      omega
  cases n with
  | zero => simp [logLines]
  | succ n =>
    have h1 := key n 1 (Nat.le_refl 1)
    simp only [logLines, logEvery]
    have : (1 : Nat) / every = 0 := Nat.div_eq_of_lt (by omega)
    rw [this] at h1
    rw [show n + 1 = 1 + n by omega, ← h1]
    simp

/-- With `error_log_every = 1` every occurrence is logged. -/
theorem log_throttle_one (n : Nat) : logLines 1 0 n = n := by
  have key : ∀ k c, logLines 1 c k = k := by
    intro k
    induction k with
    | zero => intro c; rfl
    | succ k ih => intro c; simp [logLines, logEvery, Nat.mod_one, ih]; omega
  exact key n 0

example : logLines 200 0 1000 = 6 := by rw [log_throttle _ _ (by decide)]; decide

end Verif.Stream
