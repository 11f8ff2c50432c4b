import Verif.Lemmas.StreamList

namespace Verif.Stream
variable {P : Type}

/-- Case analysis for one watcher step. -/
theorem tick_cases {motive : St P → Prop} (cfg : Cfg) (st : St P) (ok : Bool)
    (rest : (st.pc = .idle ∨ st.pc = .done) → motive st)
    (spillNil : ∀ fin, st.pc = .spill fin [] → motive (leave st fin))
    (spillSeen : ∀ fin d t, st.pc = .spill fin (d :: t) → mirrored st d.it = true →
      motive { st with pc := .spillUnlink fin d t })
    (spillCopy : ∀ fin d t, st.pc = .spill fin (d :: t) → mirrored st d.it = false →
      motive { publish st d with pc := .spillUnlink fin d t })
    (spillFail : ∀ fin d t, st.pc = .spill fin (d :: t) → motive { st with pc := .spill fin t })
    (spillUn : ∀ fin d t, st.pc = .spillUnlink fin d t →
      motive { unlink st .scratch d.it with pc := .spill fin t })
    (spillUnFail : ∀ fin d t, st.pc = .spillUnlink fin d t → motive { st with pc := .spill fin t })
    (openNil : ∀ fin, st.pc = .openW fin [] → motive (leave st fin))
    (openBad : ∀ fin c t, st.pc = .openW fin (c :: t) → c.2.body = none →
      motive { quarantine (touch st c.1 c.2.it .read) c ok with pc := .openW fin t })
    (openFirst : ∀ fin c t p, st.pc = .openW fin (c :: t) → c.2.body = some p → disk st = [] →
      motive { appendSt cfg (touch st c.1 c.2.it .read) (wOpen (disk st)) (c.2.it, p) with pc := .clean fin c t })
    (openResume : ∀ fin c t p, st.pc = .openW fin (c :: t) → c.2.body = some p → disk st ≠ [] →
      motive { touch st c.1 c.2.it .read with writer := some (wOpen (disk st)), pc := .loop fin (c :: t) })
    (loopNil : ∀ fin w, st.pc = .loop fin [] → st.writer = some w →
      motive (leave { st with nc := some (wLand (disk st) w).1, writer := some (wLand (disk st) w).2 } fin))
    (loopLost : ∀ fin t, st.pc = .loop fin t → st.writer = none → motive (leave st fin))
    (loopOld : ∀ fin c t w, st.pc = .loop fin (c :: t) → st.writer = some w → c.2.it ≤ w.lastIter →
      motive { st with pc := .clean fin c t })
    (loopBad : ∀ fin c t w, st.pc = .loop fin (c :: t) → st.writer = some w → w.lastIter < c.2.it →
      c.2.body = none → motive { quarantine (touch st c.1 c.2.it .read) c ok with pc := .loop fin t })
    (loopNew : ∀ fin c t w p, st.pc = .loop fin (c :: t) → st.writer = some w → w.lastIter < c.2.it →
      c.2.body = some p →
      motive { appendSt cfg (touch st c.1 c.2.it .read) w (c.2.it, p) with pc := .clean fin c t })
    (cleanMirror : ∀ fin c t, st.pc = .clean fin c t → cfg.staged = true → c.1 = .mirror → cfg.discard = true →
      motive { unlink st .mirror c.2.it with pc := .loop fin t })
    (cleanNone : ∀ fin c t, st.pc = .clean fin c t → motive { st with pc := .loop fin t })
    (cleanSeen : ∀ fin c t, st.pc = .clean fin c t → cfg.staged = true → c.1 = .scratch →
      (cfg.discard || mirrored st c.2.it) = true → motive { st with pc := .cleanUnlink fin c t })
    (cleanCopy : ∀ fin c t, st.pc = .clean fin c t → cfg.staged = true → c.1 = .scratch →
      cfg.discard = false → mirrored st c.2.it = false →
      motive { publish st c.2 with pc := .cleanUnlink fin c t })
    (cleanUn : ∀ fin c t, st.pc = .cleanUnlink fin c t →
      motive { unlink st .scratch c.2.it with pc := .loop fin t })
    (cleanUnFail : ∀ fin c t, st.pc = .cleanUnlink fin c t → motive { st with pc := .loop fin t }) :
    motive (tick cfg st ok) := by
  unfold tick
  split
  · next h => exact rest (Or.inl h)
  · next h => exact rest (Or.inr h)
  · next fin h => exact spillNil fin h
  · next fin d t h =>
    split
    · next hm => exact spillSeen fin d t h hm
    · next hm =>
      split
      · exact spillCopy fin d t h (by simpa using hm)
      · exact spillFail fin d t h
  · next fin d t h =>
    split
    · exact spillUn fin d t h
    · exact spillUnFail fin d t h
  · next fin h => exact openNil fin h
  · next fin c t h =>
    dsimp only
    split
    · next hb => exact openBad fin c t h hb
    · next p hb =>
      have hd : disk (touch st c.1 c.2.it .read) = disk st := rfl
      rw [hd]
      split
      · next hn =>
        refine openFirst fin c t p h hb ?_
        simp [nWritten, wOpen] at hn
        exact hn
      · next hn =>
        refine openResume fin c t p h hb ?_
        intro he; apply hn; simp [nWritten, wOpen, he]
  · next fin h =>
    split
    · next w hw => exact loopNil fin w h hw
    · next hw => exact loopLost fin [] h hw
  · next fin c t h =>
    split
    · next hw => exact loopLost fin _ h hw
    · next w hw =>
      split
      · next hle => exact loopOld fin c t w h hw hle
      · next hle =>
        dsimp only
        split
        · next hb => exact loopBad fin c t w h hw (by omega) hb
        · next p hb => exact loopNew fin c t w p h hw (by omega) hb
  · next fin c t h =>
    split
    · next hs =>
      split
      · next hl =>
        split
        · next hd =>
          simp only [Bool.and_eq_true] at hd
          exact cleanMirror fin c t h hs hl hd.1
        · exact cleanNone fin c t h
      · next hl =>
        split
        · next hd => exact cleanSeen fin c t h hs hl hd
        · next hd =>
          simp only [Bool.or_eq_true, not_or, Bool.not_eq_true] at hd
          split
          · exact cleanCopy fin c t h hs hl hd.1 hd.2
          · exact cleanNone fin c t h
    · exact cleanNone fin c t h
  · next fin c t h =>
    split
    · exact cleanUn fin c t h
    · exact cleanUnFail fin c t h

/-- Case analysis for the start of a polling scan. -/
theorem startScan_cases {motive : St P → Prop} (cfg : Cfg) (st : St P) (sp : Bool)
    (nop : motive st)
    (raw : cfg.raw = true → cfg.staged = true → st.completed = false →
      motive { st with pc := .spill false (((sortIt (filesAt .scratch st.scratch)).dropLast).map (·.2)) })
    (spill : cfg.raw = false → cfg.staged = true → st.completed = false →
      motive { st with spilled := true, pc := .spill false (((listing st .scratch).dropLast).map (·.2)) })
    (opn : cfg.raw = false → (cfg.staged && st.spilled) = false → st.completed = false → st.writer = none →
      motive { st with pc := .openW false (listing st .scratch).dropLast })
    (loop : ∀ w, cfg.raw = false → (cfg.staged && st.spilled) = false → st.completed = false →
      st.writer = some w → motive { st with pc := .loop false (listing st .scratch).dropLast }) :
    motive (startScan cfg st sp) := by
  unfold startScan
  split
  · exact nop
  next hc =>
  have hc : st.completed = false := by simpa using hc
  split
  · next hr =>
    split
    · next hs => exact raw hr hs hc
    · exact nop
  · next hr =>
    have hr : cfg.raw = false := by simpa using hr
    dsimp only
    split
    · next hs =>
      simp only [Bool.and_eq_true] at hs
      exact spill hr hs.1 hc
    · next hs =>
      have hs' : (cfg.staged && st.spilled) = false := by
        cases h1 : cfg.staged <;> cases h2 : st.spilled <;> simp_all
      split
      · exact nop
      · split
        · next hw => exact opn hr hs' hc hw
        · next w hw => exact loop w hr hs' hc hw

/-- Candidates of the final sweep. -/
def finalCands (cfg : Cfg) (st : St P) : List (Loc × Dump P) :=
  if cfg.staged && st.spilled then sortIt (listing st .mirror ++ listing st .scratch) else listing st .scratch

/-- Case analysis for the start of the final sweep. -/
theorem startFinal_cases {motive : St P → Prop} (cfg : Cfg) (st : St P)
    (closed : (st.completed = true ∨ st.scratch = [] ∨ cfg.raw = true ∨ finalCands cfg st = []) →
      motive (closeAll st))
    (raw : cfg.raw = true → cfg.staged = true → st.completed = false →
      motive { st with pc := .spill true ((sortIt (filesAt .scratch st.scratch)).map (·.2)) })
    (opn : cfg.raw = false → st.completed = false → st.writer = none →
      motive { st with pc := .openW true (finalCands cfg st) })
    (loop : ∀ w, cfg.raw = false → st.completed = false → st.writer = some w →
      motive { st with pc := .loop true (finalCands cfg st) }) :
    motive (startFinal cfg st) := by
  unfold startFinal
  split
  · next hc => exact closed (Or.inl hc)
  next hc =>
  have hc : st.completed = false := by simpa using hc
  split
  · next hs => exact closed (Or.inr (Or.inl (by simpa using hs)))
  split
  · next hr =>
    split
    · next hs => exact raw hr hs hc
    · exact closed (Or.inr (Or.inr (Or.inl hr)))
  · next hr =>
    have hr : cfg.raw = false := by simpa using hr
    dsimp only
    change motive (if (finalCands cfg st).isEmpty = true then _ else _)
    split
    · next he => exact closed (Or.inr (Or.inr (Or.inr (by simpa using he))))
    · split
      · next hw => exact opn hr hc hw
      · next w hw => exact loop w hr hc hw

/-- The dump files the watcher still holds a path to. -/
def pcFiles : Pc P → List (Loc × Dump P)
  | .idle => []
  | .done => []
  | .spill _ t => filesAt .scratch t
  | .spillUnlink _ d t => filesAt .scratch (d :: t)
  | .openW _ t => t
  | .loop _ t => t
  | .clean _ c t => c :: t
  | .cleanUnlink _ c t => c :: t

/-- Facts that hold in every reachable state, whatever happens. -/
structure Base (st : St P) : Prop where
  incr : Incr st.produced
  pos : ∀ d ∈ st.produced, 0 ≤ d.it
  scr : Incr st.scratch
  scrSub : ∀ d ∈ st.scratch, d ∈ st.produced
  mirSub : ∀ d ∈ st.mirror, d ∈ st.produced
  todoSub : ∀ c ∈ pcFiles st.pc, c.2 ∈ st.produced
  finDead : st.pc.fin = true → st.running = false

theorem Base.init : Base (init P) := by
  constructor <;> simp [Stream.init, pcFiles, Pc.fin]

/-- Changing only fields Base does not look at, and moving to a pc that holds no new paths. -/
theorem Base.move {st st' : St P} (h : Base st) (hp : st'.produced = st.produced)
    (hr : st'.running = st.running) (hs : st'.scratch.Sublist st.scratch)
    (hm : ∀ d ∈ st'.mirror, d ∈ st.produced)
    (ht : ∀ c ∈ pcFiles st'.pc, c.2 ∈ st.produced)
    (hf : st'.pc.fin = true → st.running = false) : Base st' where
  incr := hp ▸ h.incr
  pos := hp ▸ h.pos
  scr := h.scr.sublist hs
  scrSub d hd := hp ▸ h.scrSub d (hs.subset hd)
  mirSub d hd := hp ▸ hm d hd
  todoSub c hc := hp ▸ ht c hc
  finDead hh := hr ▸ hf hh

theorem closeAll_fields (st : St P) : (closeAll st).produced = st.produced ∧ (closeAll st).running = st.running ∧
    (closeAll st).scratch = st.scratch ∧ (closeAll st).mirror = st.mirror ∧ (closeAll st).pc = .done ∧
    (closeAll st).log = st.log ∧ (closeAll st).sidelined = st.sidelined ∧ (closeAll st).bad = st.bad ∧
    (closeAll st).spilled = st.spilled := by
  unfold closeAll; split <;> simp

theorem leave_fields (st : St P) (fin : Bool) : (leave st fin).produced = st.produced ∧
    (leave st fin).running = st.running ∧ (leave st fin).scratch = st.scratch ∧
    (leave st fin).mirror = st.mirror ∧ (leave st fin).pc = (if fin then .done else .idle) ∧
    (leave st fin).log = st.log ∧ (leave st fin).sidelined = st.sidelined ∧ (leave st fin).bad = st.bad ∧
    (leave st fin).spilled = st.spilled := by
  unfold leave
  split
  · have := closeAll_fields st; simp_all
  · simp_all

theorem Base.leave {st : St P} (h : Base st) (fin : Bool) (hf : fin = true → st.running = false) :
    Base (leave st fin) := by
  obtain ⟨h1, h2, h3, h4, h5, -⟩ := leave_fields st fin
  refine h.move h1 h2 (by rw [h3]; exact List.Sublist.refl _) (by rw [h4]; exact h.mirSub) ?_ ?_
  · rw [h5]; cases fin <;> simp [pcFiles]
  · rw [h5]; cases fin <;> simp [Pc.fin] at hf ⊢; exact hf

theorem quarantine_fields (st : St P) (c : Loc × Dump P) (ok : Bool) :
    (quarantine st c ok).produced = st.produced ∧ (quarantine st c ok).running = st.running ∧
    (quarantine st c ok).scratch.Sublist st.scratch ∧ (∀ d ∈ (quarantine st c ok).mirror, d ∈ st.mirror) ∧
    (quarantine st c ok).nc = st.nc ∧ (quarantine st c ok).writer = st.writer ∧
    (quarantine st c ok).spilled = st.spilled ∧ (quarantine st c ok).completed = st.completed := by
  unfold quarantine touch
  split
  · obtain ⟨l, d⟩ := c
    cases l
    · refine ⟨rfl, rfl, List.filter_sublist, fun d hd => hd, rfl, rfl, rfl, rfl⟩
    · refine ⟨rfl, rfl, List.Sublist.refl _, fun d hd => (mem_dropIt.1 hd).1, rfl, rfl, rfl, rfl⟩
  · refine ⟨rfl, rfl, List.Sublist.refl _, fun d hd => hd, rfl, rfl, rfl, rfl⟩

theorem Base.tick {st : St P} (h : Base st) (cfg : Cfg) (ok : Bool) : Base (tick cfg st ok) := by
  have hm : ∀ {pc}, st.pc = pc → (∀ c ∈ pcFiles pc, c.2 ∈ st.produced) ∧ (pc.fin = true → st.running = false) := by
    rintro pc rfl; exact ⟨h.todoSub, h.finDead⟩
  apply tick_cases cfg st ok
  · intro _; exact h
  · intro fin he; exact h.leave fin (hm he).2
  · intro fin d t he hs; exact h.move rfl rfl (List.Sublist.refl _) h.mirSub (hm he).1 (hm he).2
  · intro fin d t he hs
    refine h.move rfl rfl (List.Sublist.refl _) ?_ (hm he).1 (hm he).2
    intro d' hd'
    simp only [publish, touch, List.mem_append, List.mem_singleton] at hd'
    rcases hd' with hd' | rfl
    · exact h.mirSub _ hd'
    · exact (hm he).1 (.scratch, _) (by simp [pcFiles, filesAt])
  · intro fin d t he
    exact h.move rfl rfl (List.Sublist.refl _) h.mirSub
      (fun c hc => (hm he).1 c (by simp [pcFiles, filesAt] at hc ⊢; exact Or.inr hc)) (hm he).2
  · intro fin d t he
    exact h.move rfl rfl List.filter_sublist h.mirSub
      (fun c hc => (hm he).1 c (by simp [pcFiles, filesAt] at hc ⊢; exact Or.inr hc)) (hm he).2
  · intro fin d t he
    exact h.move rfl rfl (List.Sublist.refl _) h.mirSub
      (fun c hc => (hm he).1 c (by simp [pcFiles, filesAt] at hc ⊢; exact Or.inr hc)) (hm he).2
  · intro fin he; exact h.leave fin (hm he).2
  · intro fin c t he _
    obtain ⟨q1, q2, q3, q4, -⟩ := quarantine_fields (touch st c.1 c.2.it .read) c ok
    exact h.move q1 q2 q3 (fun d hd => h.mirSub d (q4 d hd))
      (fun x hx => (hm he).1 x (List.mem_cons_of_mem _ hx)) (hm he).2
  · intro fin c t p he _ _
    exact h.move rfl rfl (List.Sublist.refl _) h.mirSub (hm he).1 (hm he).2
  · intro fin c t p he _ _
    exact h.move rfl rfl (List.Sublist.refl _) h.mirSub (hm he).1 (hm he).2
  · intro fin w he _
    have h0 : Base { st with nc := some (wLand (disk st) w).1, writer := some (wLand (disk st) w).2 } :=
      h.move rfl rfl (List.Sublist.refl _) h.mirSub h.todoSub h.finDead
    exact h0.leave fin (hm he).2
  · intro fin t he _; exact h.leave fin (hm he).2
  · intro fin c t w he _ _
    exact h.move rfl rfl (List.Sublist.refl _) h.mirSub (hm he).1 (hm he).2
  · intro fin c t w he _ _ _
    obtain ⟨q1, q2, q3, q4, -⟩ := quarantine_fields (touch st c.1 c.2.it .read) c ok
    exact h.move q1 q2 q3 (fun d hd => h.mirSub d (q4 d hd))
      (fun x hx => (hm he).1 x (List.mem_cons_of_mem _ hx)) (hm he).2
  · intro fin c t w p he _ _ _
    exact h.move rfl rfl (List.Sublist.refl _) h.mirSub (hm he).1 (hm he).2
  · intro fin c t he _ _ _
    exact h.move rfl rfl (List.Sublist.refl _) (fun d hd => h.mirSub d (mem_dropIt.1 hd).1)
      (fun x hx => (hm he).1 x (List.mem_cons_of_mem _ hx)) (hm he).2
  · intro fin c t he
    exact h.move rfl rfl (List.Sublist.refl _) h.mirSub
      (fun x hx => (hm he).1 x (List.mem_cons_of_mem _ hx)) (hm he).2
  · intro fin c t he _ _ _
    exact h.move rfl rfl (List.Sublist.refl _) h.mirSub (hm he).1 (hm he).2
  · intro fin c t he _ _ _ _
    refine h.move rfl rfl (List.Sublist.refl _) ?_ (hm he).1 (hm he).2
    intro d' hd'
    simp only [publish, touch, List.mem_append, List.mem_singleton] at hd'
    rcases hd' with hd' | rfl
    · exact h.mirSub _ hd'
    · exact (hm he).1 c (by simp [pcFiles])
  · intro fin c t he
    exact h.move rfl rfl List.filter_sublist h.mirSub
      (fun x hx => (hm he).1 x (List.mem_cons_of_mem _ hx)) (hm he).2
  · intro fin c t he
    exact h.move rfl rfl (List.Sublist.refl _) h.mirSub
      (fun x hx => (hm he).1 x (List.mem_cons_of_mem _ hx)) (hm he).2

theorem listing_sub {st : St P} (h : Base st) {l : Loc} {c} (hc : c ∈ listing st l) : c.2 ∈ st.produced := by
  obtain ⟨l', d⟩ := c
  have := (mem_listing.1 hc).2.1
  cases l
  · exact h.scrSub d this
  · exact h.mirSub d this

theorem sorted_scratch_sub {st : St P} (h : Base st) {c} (hc : c ∈ sortIt (filesAt .scratch st.scratch)) :
    c.2 ∈ st.produced := by
  obtain ⟨l', d⟩ := c
  rw [mem_sortIt, mem_filesAt] at hc
  exact h.scrSub d hc.2

theorem finalCands_sub {cfg : Cfg} {st : St P} (h : Base st) {c} (hc : c ∈ finalCands cfg st) :
    c.2 ∈ st.produced := by
  unfold finalCands at hc
  split at hc
  · rw [mem_sortIt] at hc
    rcases List.mem_append.1 hc with hc | hc <;> exact listing_sub h hc
  · exact listing_sub h hc

theorem filesAt_snd {α : List (Loc × Dump P)} {c : Loc × Dump P} (hc : c ∈ filesAt .scratch (α.map (·.2))) :
    ∃ c' ∈ α, c'.2 = c.2 := by
  obtain ⟨l, d⟩ := c
  rw [mem_filesAt] at hc
  obtain ⟨c', h1, h2⟩ := List.mem_map.1 hc.2
  exact ⟨c', h1, h2⟩

theorem Base.closeAll {st : St P} (h : Base st) (hr : st.running = false) : Base (closeAll st) := by
  have := h.leave true (fun _ => hr)
  simpa [Stream.leave] using this

theorem Base.startScan {st : St P} (h : Base st) (cfg : Cfg) (sp : Bool) : Base (startScan cfg st sp) := by
  apply startScan_cases cfg st sp
  · exact h
  · intro _ _ _
    refine h.move rfl rfl (List.Sublist.refl _) h.mirSub ?_ (by simp [Pc.fin])
    intro c hc
    obtain ⟨c', h1, h2⟩ := filesAt_snd hc
    exact h2 ▸ sorted_scratch_sub h (List.dropLast_subset _ h1)
  · intro _ _ _
    refine h.move rfl rfl (List.Sublist.refl _) h.mirSub ?_ (by simp [Pc.fin])
    intro c hc
    obtain ⟨c', h1, h2⟩ := filesAt_snd hc
    exact h2 ▸ listing_sub h (List.dropLast_subset _ h1)
  · intro _ _ _ _
    exact h.move rfl rfl (List.Sublist.refl _) h.mirSub
      (fun c hc => listing_sub h (List.dropLast_subset _ hc)) (by simp [Pc.fin])
  · intro w _ _ _ _
    exact h.move rfl rfl (List.Sublist.refl _) h.mirSub
      (fun c hc => listing_sub h (List.dropLast_subset _ hc)) (by simp [Pc.fin])

theorem Base.startFinal {st : St P} (h : Base st) (cfg : Cfg) (hr : st.running = false) :
    Base (startFinal cfg st) := by
  apply startFinal_cases cfg st
  · intro _; exact h.closeAll hr
  · intro _ _ _
    refine h.move rfl rfl (List.Sublist.refl _) h.mirSub ?_ (fun _ => hr)
    intro c hc
    obtain ⟨c', h1, h2⟩ := filesAt_snd hc
    exact h2 ▸ sorted_scratch_sub h h1
  · intro _ _ _
    exact h.move rfl rfl (List.Sublist.refl _) h.mirSub (fun c hc => finalCands_sub h hc) (fun _ => hr)
  · intro w _ _ _
    exact h.move rfl rfl (List.Sublist.refl _) h.mirSub (fun c hc => finalCands_sub h hc) (fun _ => hr)

theorem newest_ge_neg1 {st : St P} (h : Base st) : -1 ≤ newest st := by
  unfold newest
  split
  · next d hd => have := h.pos d (List.mem_of_getLast? hd); omega
  · exact Int.le_refl _

/-- Case analysis for the events. -/
theorem step_cases {motive : St P → Prop} (cfg : Cfg) (st : St P) (e : Ev P)
    (nop : motive st)
    (produce : ∀ d, e = .produce d → st.running = true → newest st < d.it →
      motive { st with produced := st.produced ++ [d], scratch := st.scratch ++ [d] })
    (exit : motive { st with running := false })
    (scan : ∀ s, e = .scan s → st.pc = .idle → motive (startScan cfg st s))
    (final : e = .final → st.pc = .idle → st.running = false → motive (startFinal cfg st))
    (skipped : e = .finalSkipped → st.pc = .idle → st.running = false → motive (closeAll st))
    (tick : ∀ ok, e = .tick ok → motive (tick cfg st ok))
    (raised : ∀ landed nc', e = .raised landed → st.pc ≠ .done →
      (nc' = st.nc ∨ ∃ w, st.writer = some w ∧ nc' = some (disk st ++ w.pending)) →
      (landed = true → nc'.getD [] = slots st) → (landed = false → nc' = st.nc) →
      motive { st with nc := nc', writer := none, pc := if st.pc.fin then .done else .idle })
    (kill : e = .kill → motive
      { st with writer := none, spilled := false, bad := [], completed := false, pc := .idle }) :
    motive (step cfg st e) := by
  cases e with
  | produce d =>
    simp only [step]
    split
    · next h => simp at h; exact produce d rfl h.1 h.2
    · exact nop
  | osirisExit => exact exit
  | scan s =>
    simp only [step]
    split
    · next h => exact scan s rfl h
    · exact nop
  | final =>
    simp only [step]
    split
    · next h =>
      split
      · exact nop
      · next hr => exact final rfl h (by simpa using hr)
    · exact nop
  | finalSkipped =>
    simp only [step]
    split
    · next h =>
      split
      · exact nop
      · next hr => exact skipped rfl h (by simpa using hr)
    · exact nop
  | tick ok => exact tick ok rfl
  | raised landed =>
    simp only [step]
    split
    · exact nop
    · next pc hpc =>
      refine raised landed _ rfl hpc ?_ ?_ ?_
      · split
        · next w hw => split
                       · exact Or.inr ⟨w, hw, rfl⟩
                       · exact Or.inl rfl
        · exact Or.inl rfl
      · rintro rfl
        split
        · next w hw => simp [slots, pending, hw]
        · next hw => simp [slots, pending, hw, disk]
      · rintro rfl
        split <;> simp
  | kill => exact kill rfl

theorem Base.step {st : St P} (h : Base st) (cfg : Cfg) (e : Ev P) : Base (step cfg st e) := by
  apply step_cases cfg st e
  · exact h
  · intro d _ hr hlt
    have hlt' : ∀ x ∈ st.produced, x.it < d.it := fun x hx => by
      have := newest_ge h.incr hx; omega
    have hge := newest_ge_neg1 h
    refine ⟨?_, ?_, ?_, ?_, ?_, ?_, h.finDead⟩
    · rw [Incr, List.pairwise_append]
      exact ⟨h.incr, by simp, fun a ha b hb => by simp at hb; subst hb; exact hlt' a ha⟩
    · intro x hx
      rcases List.mem_append.1 hx with hx | hx
      · exact h.pos x hx
      · simp at hx; subst hx; omega
    · rw [Incr, List.pairwise_append]
      exact ⟨h.scr, by simp, fun a ha b hb => by simp at hb; subst hb; exact hlt' a (h.scrSub a ha)⟩
    · intro x hx
      rcases List.mem_append.1 hx with hx | hx
      · exact List.mem_append_left _ (h.scrSub x hx)
      · exact List.mem_append_right _ hx
    · exact fun x hx => List.mem_append_left _ (h.mirSub x hx)
    · exact fun x hx => List.mem_append_left _ (h.todoSub x hx)
  · exact ⟨h.incr, h.pos, h.scr, h.scrSub, h.mirSub, h.todoSub, fun _ => rfl⟩
  · intro s _ _; exact h.startScan cfg s
  · intro _ _ hr; exact h.startFinal cfg hr
  · intro _ _ hr; exact h.closeAll hr
  · intro ok _; exact h.tick cfg ok
  · intro landed nc' _ _ _ _ _
    refine h.move rfl rfl (List.Sublist.refl _) h.mirSub ?_ ?_
    · dsimp only; split <;> simp [pcFiles]
    · dsimp only; split
      · next hf => exact fun _ => h.finDead hf
      · simp [Pc.fin]
  · intro _
    exact h.move rfl rfl (List.Sublist.refl _) h.mirSub (by simp [pcFiles]) (by simp [Pc.fin])

theorem Base.run {st : St P} (h : Base st) (cfg : Cfg) (es : List (Ev P)) : Base (run cfg st es) := by
  induction es generalizing st with
  | nil => exact h
  | cons e es ih => exact ih (h.step cfg e)

end Verif.Stream
