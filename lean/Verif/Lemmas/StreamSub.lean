import Verif.Lemmas.StreamReads

namespace Verif.Stream
variable {P : Type}

theorem sublist_of_incr {l R : List (Int × P)} (hl : l.Pairwise fun a b => a.1 < b.1)
    (hR : R.Pairwise fun a b => a.1 < b.1) (hsub : ∀ s ∈ l, s ∈ R) : l.Sublist R := by
  induction R generalizing l with
  | nil =>
    cases l with
    | nil => exact List.Sublist.refl _
    | cons x xs => exact absurd (hsub x (by simp)) (by simp)
  | cons y ys ih =>
    rw [List.pairwise_cons] at hR
    cases l with
    | nil => exact List.nil_sublist _
    | cons x xs =>
      rw [List.pairwise_cons] at hl
      rcases List.mem_cons.1 (hsub x (by simp)) with rfl | hx
      · refine List.Sublist.cons_cons _ (ih hl.2 hR.2 ?_)
        intro s hs
        rcases List.mem_cons.1 (hsub s (List.mem_cons_of_mem _ hs)) with rfl | h
        · have := hl.1 _ hs; omega
        · exact h
      · refine List.Sublist.cons _ (ih (List.pairwise_cons.2 hl) hR.2 ?_)
        intro s hs
        rcases List.mem_cons.1 hs with rfl | hs'
        · exact hx
        · rcases List.mem_cons.1 (hsub s hs) with rfl | h
          · have h1 := hl.1 _ hs'; have h2 := hR.1 _ hx; omega
          · exact h

/-- The NetCDF never repeats, reorders or invents slots - whatever happens. -/
structure InvS (st : St P) : Prop where
  base : Base st
  incr : (slots st).Pairwise fun a b => a.1 < b.1
  sub : ∀ s ∈ slots st, s ∈ readables st.produced
  last : ∀ w, st.writer = some w → w.lastIter = lastSlot st

theorem InvS.congr {st st' : St P} (h : InvS st) (hb : Base st') (hp : st'.produced = st.produced)
    (hs : slots st' = slots st) (hl : ∀ w, st'.writer = some w → w.lastIter = lastSlot st) : InvS st' :=
  ⟨hb, by rw [hs]; exact h.incr, by rw [hs, hp]; exact h.sub, fun w hw => by rw [lastSlot, hs]; exact hl w hw⟩

theorem InvS.append {cfg : Cfg} {st : St P} (h : InvS st) {fin : Bool} {c : Loc × Dump P}
    {t : List (Loc × Dump P)} {p : P} {w : Writer (Int × P)} (hc : c.2 ∈ st.produced) (hb : c.2.body = some p)
    {sl : List (Int × P)} (hw : disk st ++ w.pending = sl) (hwl : w.lastIter = lastOnDisk sl)
    (hlt : w.lastIter < c.2.it) (hsl : sl.Pairwise fun a b => a.1 < b.1) (hsub : ∀ s ∈ sl, s ∈ readables st.produced)
    (hbase : Base { appendSt cfg (touch st c.1 c.2.it .read) w (c.2.it, p) with pc := .clean fin c t }) :
    InvS { appendSt cfg (touch st c.1 c.2.it .read) w (c.2.it, p) with pc := .clean fin c t } := by
  have hs : slots { appendSt cfg (touch st c.1 c.2.it .read) w (c.2.it, p) with pc := .clean fin c t } =
      sl ++ [(c.2.it, p)] := by
    have := slots_appendSt cfg (touch st c.1 c.2.it .read) w (c.2.it, p)
    rw [show disk (touch st c.1 c.2.it .read) = disk st from rfl, hw] at this
    exact this
  refine ⟨hbase, ?_, ?_, ?_⟩
  · rw [hs, List.pairwise_append]
    refine ⟨hsl, by simp, ?_⟩
    intro a ha b hb
    simp at hb; subst hb
    have := le_lastOnDisk hsl ha
    show a.1 < c.2.it
    omega
  · rw [hs]
    intro s hss
    rcases List.mem_append.1 hss with h1 | h1
    · exact hsub s h1
    · simp at h1; subst h1
      exact mem_readables.2 ⟨c.2, hc, rfl, hb⟩
  · intro w' hw'
    rw [lastSlot, hs, lastOnDisk_append]
    have : w' = (wAppend cfg.ct (disk st) w (c.2.it, p)).2 := by
      have h1 : some (wAppend cfg.ct (disk st) w (c.2.it, p)).2 = some w' := hw'
      exact (Option.some.inj h1).symm
    rw [this, (wAppend_spec cfg.ct (disk st) w (c.2.it, p)).2.1]
    show (if c.2.it > w.lastIter then c.2.it else w.lastIter) = c.2.it
    rw [if_pos (by omega)]

theorem InvS.tick {st : St P} (h : InvS st) (cfg : Cfg) (ok : Bool) : InvS (tick cfg st ok) := by
  have hB := h.base.tick cfg ok
  revert hB
  have hS : ∀ {pc}, st.pc = pc → (∀ c ∈ pcFiles pc, c.2 ∈ st.produced) := by
    rintro pc rfl; exact h.base.todoSub
  have lv : ∀ (s : St P) (fin : Bool), s.produced = st.produced → slots s = slots st →
      (∀ w, s.writer = some w → w.lastIter = lastSlot st) → Base (leave s fin) → InvS (leave s fin) := by
    intro s fin e1 e2 e3 hB
    obtain ⟨s1, s2, s3, s4⟩ := leave_slots s fin
    refine h.congr hB ((leave_fields s fin).1.trans e1) (s1.trans e2) ?_
    intro w hw
    cases fin with
    | true => rw [s3 rfl] at hw; cases hw
    | false => rw [s4 rfl] at hw; exact e3 w hw
  have diskSub : (disk st).Pairwise (fun a b => a.1 < b.1) ∧ ∀ s ∈ disk st, s ∈ readables st.produced :=
    ⟨(List.pairwise_append.1 h.incr).1, fun s hs => h.sub s (List.mem_append_left _ hs)⟩
  refine tick_cases (motive := fun s => Base s → InvS s) cfg st ok ?_ ?_ ?_ ?_ ?_ ?_ ?_ ?_ ?_ ?_ ?_ ?_ ?_ ?_ ?_ ?_ ?_ ?_ ?_ ?_ ?_ ?_
  · intro _ _; exact h
  · intro fin he hB; exact lv st fin rfl rfl h.last hB
  · intro fin d t he _ hB; exact h.congr hB rfl rfl h.last
  · intro fin d t he _ hB; exact h.congr hB rfl rfl h.last
  · intro fin d t he hB; exact h.congr hB rfl rfl h.last
  · intro fin d t he hB; exact h.congr hB rfl rfl h.last
  · intro fin d t he hB; exact h.congr hB rfl rfl h.last
  · intro fin he hB; exact lv st fin rfl rfl h.last hB
  · intro fin c t he _ hB
    obtain ⟨q1, q2, q3, q4, q5, q6, -⟩ := quarantine_fields (touch st c.1 c.2.it .read) c ok
    refine h.congr hB q1 ?_ (fun w hw => h.last w (q6 ▸ hw))
    simp only [slots, disk, pending]
    rw [show (Stream.quarantine (touch st c.1 c.2.it .read) c ok).nc = st.nc from q5,
      show (Stream.quarantine (touch st c.1 c.2.it .read) c ok).writer = st.writer from q6]
  · intro fin c t p he hb hd hB
    have hc := hS he c (by simp [pcFiles])
    have := h.base.pos _ hc
    refine h.append hc hb (sl := []) (by rw [hd]; rfl) (by rw [hd]; rfl) ?_ (by simp) (by simp) hB
    rw [hd]; show (-1 : Int) < _; omega
  · intro fin c t p he hb hd hB
    refine ⟨hB, ?_, ?_, ?_⟩
    · simpa [slots, disk, pending, touch, wOpen] using diskSub.1
    · simpa [slots, disk, pending, touch, wOpen] using diskSub.2
    · intro w hw
      have : wOpen (disk st) = w := Option.some.inj hw
      rw [← this]
      simp [lastSlot, slots, disk, pending, touch, wOpen]
  · intro fin w he hw hB
    refine lv _ fin rfl ?_ ?_ hB
    · simp [slots, disk, pending, hw, wLand]
    · intro w' hw'
      have : (wLand (disk st) w).2 = w' := Option.some.inj hw'
      rw [← this]; exact h.last w hw
  · intro fin t he _ hB; exact lv st fin rfl rfl h.last hB
  · intro fin c t w he _ _ hB; exact h.congr hB rfl rfl h.last
  · intro fin c t w he _ _ _ hB
    obtain ⟨q1, q2, q3, q4, q5, q6, -⟩ := quarantine_fields (touch st c.1 c.2.it .read) c ok
    refine h.congr hB q1 ?_ (fun w hw => h.last w (q6 ▸ hw))
    simp only [slots, disk, pending]
    rw [show (Stream.quarantine (touch st c.1 c.2.it .read) c ok).nc = st.nc from q5,
      show (Stream.quarantine (touch st c.1 c.2.it .read) c ok).writer = st.writer from q6]
  · intro fin c t w p he hw hlt hb hB
    exact h.append (hS he c (by simp [pcFiles])) hb (sl := slots st) (by simp [slots, pending, hw]) (h.last w hw) hlt
      h.incr h.sub hB
  · intro fin c t he _ _ _ hB; exact h.congr hB rfl rfl h.last
  · intro fin c t he hB; exact h.congr hB rfl rfl h.last
  · intro fin c t he _ _ _ hB; exact h.congr hB rfl rfl h.last
  · intro fin c t he _ _ _ _ hB; exact h.congr hB rfl rfl h.last
  · intro fin c t he hB; exact h.congr hB rfl rfl h.last
  · intro fin c t he hB; exact h.congr hB rfl rfl h.last

theorem InvS.closeAll {st : St P} (h : InvS st) (hr : st.running = false) : InvS (closeAll st) := by
  obtain ⟨s1, s2, s3⟩ := closeAll_slots st
  exact h.congr (h.base.closeAll hr) (closeAll_fields st).1 s1 (by rw [s3]; simp)

theorem InvS.step {st : St P} (h : InvS st) (cfg : Cfg) (e : Ev P) : InvS (step cfg st e) := by
  have hB := h.base.step cfg e
  revert hB
  have diskSub : (disk st).Pairwise (fun a b => a.1 < b.1) ∧ ∀ s ∈ disk st, s ∈ readables st.produced :=
    ⟨(List.pairwise_append.1 h.incr).1, fun s hs => h.sub s (List.mem_append_left _ hs)⟩
  refine step_cases (motive := fun s => Base s → InvS s) cfg st e ?_ ?_ ?_ ?_ ?_ ?_ ?_ ?_ ?_
  · intro _; exact h
  · intro d _ _ _ hB
    refine ⟨hB, h.incr, fun s hs => ?_, h.last⟩
    rw [readables_append]; exact List.mem_append_left _ (h.sub s hs)
  · intro hB; exact ⟨hB, h.incr, h.sub, h.last⟩
  · intro s _ _
    refine startScan_cases (motive := fun s => Base s → InvS s) cfg st s ?_ ?_ ?_ ?_ ?_
    · intro _; exact h
    · intro _ _ _ hB; exact h.congr hB rfl rfl h.last
    · intro _ _ _ hB; exact h.congr hB rfl rfl h.last
    · intro _ _ _ _ hB; exact h.congr hB rfl rfl h.last
    · intro _ _ _ _ _ hB; exact h.congr hB rfl rfl h.last
  · intro _ _ hr
    refine startFinal_cases (motive := fun s => Base s → InvS s) cfg st ?_ ?_ ?_ ?_
    · intro _ _; exact h.closeAll hr
    · intro _ _ _ hB; exact h.congr hB rfl rfl h.last
    · intro _ _ _ hB; exact h.congr hB rfl rfl h.last
    · intro _ _ _ _ hB; exact h.congr hB rfl rfl h.last
  · intro _ _ hr _; exact h.closeAll hr
  · intro ok _ _; exact h.tick cfg ok
  · intro landed nc' _ _ hnc hl hnl hB
    have hsl : slots { st with nc := nc', writer := none, pc := if st.pc.fin then .done else .idle } = nc'.getD [] := by
      simp [slots, disk, pending]
    rcases hnc with h1 | ⟨w, hw, h1⟩
    · refine ⟨hB, ?_, ?_, by simp⟩
      · rw [hsl, h1]; exact diskSub.1
      · rw [hsl, h1]; exact diskSub.2
    · refine h.congr hB rfl ?_ (by simp)
      rw [hsl, h1]; simp [slots, pending, hw]
  · intro _ hB
    refine ⟨hB, ?_, ?_, by simp⟩
    · simpa [slots, disk, pending] using diskSub.1
    · simpa [slots, disk, pending] using diskSub.2

theorem InvS.init : InvS (init P) :=
  ⟨Base.init, by simp [slots, disk, pending, Stream.init], by simp [slots, disk, pending, Stream.init],
    by simp [Stream.init]⟩

theorem InvS.run {st : St P} (h : InvS st) (cfg : Cfg) (es : List (Ev P)) : InvS (run cfg st es) := by
  induction es generalizing st with
  | nil => exact h
  | cons e es ih => exact ih (h.step cfg e)

/-- The pending batch stays below the chunk size. -/
theorem pending_lt_step {cfg : Cfg} (hct : 0 < cfg.ct) {st : St P} (h : (pending st).length < cfg.ct) (e : Ev P) :
    (pending (step cfg st e)).length < cfg.ct := by
  have lv : ∀ (s : St P) (fin : Bool), (pending s).length < cfg.ct → (pending (leave s fin)).length < cfg.ct := by
    intro s fin hs
    obtain ⟨s1, s2, s3, s4⟩ := leave_slots s fin
    cases fin with
    | true => rw [s2 rfl]; exact hct
    | false => unfold pending at hs ⊢; rw [s4 rfl]; exact hs
  have cl : (pending (closeAll st)).length < cfg.ct := by rw [(closeAll_slots st).2.1]; exact hct
  have ap : ∀ (s : St P) (w : Writer (Int × P)) (x : Int × P) (pc' : Pc P), w.pending.length < cfg.ct →
      (pending { appendSt cfg s w x with pc := pc' }).length < cfg.ct := by
    intro s w x pc' hw
    exact (wAppend_spec cfg.ct (disk s) w x).2.2 hct hw
  have q : ∀ (c : Loc × Dump P) (ok : Bool) (pc' : Pc P),
      (pending { quarantine (touch st c.1 c.2.it .read) c ok with pc := pc' }).length < cfg.ct := by
    intro c ok pc'
    have := (quarantine_fields (touch st c.1 c.2.it .read) c ok).2.2.2.2.2.1
    unfold pending at h ⊢
    dsimp only
    rw [this]; exact h
  refine step_cases (motive := fun s => (pending s).length < cfg.ct) cfg st e h ?_ h ?_ ?_ ?_ ?_ ?_ ?_
  · intro d _ _ _; exact h
  · intro s _ _
    refine startScan_cases (motive := fun s => (pending s).length < cfg.ct) cfg st s h ?_ ?_ ?_ ?_ <;> (intros; exact h)
  · intro _ _ _
    refine startFinal_cases (motive := fun s => (pending s).length < cfg.ct) cfg st ?_ ?_ ?_ ?_
    · intro _; exact cl
    all_goals (intros; exact h)
  · intro _ _ _; exact cl
  · intro ok _
    refine tick_cases (motive := fun s => (pending s).length < cfg.ct) cfg st ok
      ?_ ?_ ?_ ?_ ?_ ?_ ?_ ?_ ?_ ?_ ?_ ?_ ?_ ?_ ?_ ?_ ?_ ?_ ?_ ?_ ?_ ?_
    · intro _; exact h
    · intro fin _; exact lv st fin h
    · intros; exact h
    · intros; exact h
    · intros; exact h
    · intros; exact h
    · intros; exact h
    · intro fin _; exact lv st fin h
    · intro fin c t _ _; exact q c ok _
    · intros; exact ap _ _ _ _ (by simpa [wOpen] using hct)
    · intros; simpa [pending, wOpen] using hct
    · intro fin w _ _; exact lv _ fin (by simpa [pending, wLand] using hct)
    · intro fin t _ _; exact lv st fin h
    · intros; exact h
    · intro fin c t w _ _ _ _; exact q c ok _
    · intro fin c t w p _ hw _ _; exact ap _ _ _ _ (by simpa [pending, hw] using h)
    · intros; exact h
    · intros; exact h
    · intros; exact h
    · intros; exact h
    · intros; exact h
    · intros; exact h
  · intros; simpa [pending] using hct
  · intros; simpa [pending] using hct

theorem pending_lt_run {cfg : Cfg} (hct : 0 < cfg.ct) (es : List (Ev P)) :
    (pending (run cfg (init P) es)).length < cfg.ct := by
  have : ∀ st : St P, (pending st).length < cfg.ct → (pending (run cfg st es)).length < cfg.ct := by
    induction es with
    | nil => exact fun _ h => h
    | cons e es ih => exact fun st h => ih _ (pending_lt_step hct h e)
  exact this _ (by simpa [pending, init] using hct)

end Verif.Stream
