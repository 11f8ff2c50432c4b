import Verif.Lemmas.StreamMain

namespace Verif.Stream
variable {P : Type}

/-- Events that do not lose buffered rows or the spill flag; `q` additionally
rules out an exception during the final sweep. -/
def Allowed (cfg : Cfg) (q : Prop) (st : St P) : Ev P → Prop
  | .kill => cfg.staged = false ∨ (pending st = [] ∧ st.spilled = false)
  | .raised landed => (landed = true ∨ cfg.staged = false ∨ pending st = []) ∧ (q → st.pc.fin = false)
  | .finalSkipped => False
  | _ => True

/-- `Inv`, and whatever is reported as completed is complete. -/
structure InvQ (cfg : Cfg) (q : Prop) (st : St P) : Prop where
  inv : Inv cfg st
  compDone : st.completed = true → st.pc = .done
  full : st.pc = .done → (st.completed = true ∨ q) → slots st = readables st.produced

theorem Inv.scan {cfg : Cfg} {st : St P} (hraw : cfg.raw = false) (h : Inv cfg st) (hpc : st.pc = .idle) (sp : Bool) :
    Inv cfg (startScan cfg st sp) := by
  have hB := h.base.startScan cfg sp
  revert hB
  have hpend : pending st = [] := by have := h.pcInv; unfold PcInv at this; rw [hpc] at this; exact this
  have hcov : st.spilled = false → Sorted (listing st .scratch).dropLast ∧
      Cover st false (listing st .scratch).dropLast := by
    intro hsp
    have hs := listing_scratch_sorted h.base.scr
    refine ⟨(hs.imp fun h => Int.le_of_lt h).sublist (List.dropLast_sublist _), ?_⟩
    intro d hd
    rcases h.avail d hd with h1 | ⟨h1, _⟩
    · have hmem : (Loc.scratch, d) ∈ listing st .scratch :=
        mem_listing.2 ⟨rfl, h1, h.bad_fresh hd.1 hd.2.1 _⟩
      have hne : listing st .scratch ≠ [] := by intro hh; rw [hh] at hmem; cases hmem
      obtain ⟨k, hk, hlt, hcase⟩ := dropLast_lt hs hne
      rcases hcase _ hmem with h2 | h2
      · exact Or.inl ⟨_, h2⟩
      · refine Or.inr ⟨rfl, fun c hc => ?_⟩
        have := hlt c hc
        rw [← h2] at this; exact this
    · rw [hsp] at h1; cases h1
  have hsp0 : (cfg.staged && st.spilled) = false → st.spilled = false := by
    intro hh
    cases h1 : st.spilled with
    | false => rfl
    | true => rw [h.spillStaged h1, h1] at hh; cases hh
  refine startScan_cases (motive := fun s => Base s → Inv cfg s) cfg st sp ?_ ?_ ?_ ?_ ?_
  · intro _; exact h
  · intro hr; rw [hraw] at hr; cases hr
  · intro _ hst _ hB
    refine h.move hB rfl rfl h.last ?_ h.badNone (fun _ => hst) h.inPlace ?_ ⟨rfl, rfl, hpend, ?_⟩
    · intro d hd
      rcases h.avail d hd with h1 | ⟨h1, h2⟩
      · exact Or.inl h1
      · exact Or.inr ⟨rfl, h2⟩
    · intro _ _ hs d hd
      have hs : st.scratch = [] := hs
      rcases h.avail d hd with h1 | ⟨h1, h2⟩
      · rw [hs] at h1; cases h1
      · exact h.held h1 (by rw [hpc]; rfl) hs d hd
    · have hs := listing_scratch_sorted h.base.scr
      by_cases hne : listing st .scratch = []
      · left; rw [hne]; rfl
      · right
        obtain ⟨k, hk, hlt, -⟩ := dropLast_lt hs hne
        obtain ⟨l, d⟩ := k
        refine ⟨d, (mem_listing.1 hk).2.1, ?_⟩
        intro t ht
        obtain ⟨c, hc, rfl⟩ := List.mem_map.1 ht
        exact hlt c hc
  · intro _ hns _ hw hB
    have hsp := hsp0 hns
    refine h.move hB rfl rfl h.last h.avail h.badNone h.spillStaged h.inPlace ?_
      ⟨hw, (hcov hsp).1, Cover.congr (st := st) (by rfl) (by rfl) (hcov hsp).2, fun _ => hsp⟩
    intro a; have a : st.spilled = true := a
    rw [hsp] at a; cases a
  · intro w _ hns _ hw hB
    have hsp := hsp0 hns
    refine h.move hB rfl rfl h.last h.avail h.badNone h.spillStaged h.inPlace ?_
      ⟨by dsimp only; rw [hw]; rfl, (hcov hsp).1, Cover.congr (st := st) (by rfl) (by rfl) (hcov hsp).2, fun _ => hsp⟩
    intro a; have a : st.spilled = true := a
    rw [hsp] at a; cases a

theorem fresh_in_finalCands {cfg : Cfg} {st : St P} (h : Inv cfg st) {d : Dump P} (hd : Fresh st d) :
    ∃ l, (l, d) ∈ finalCands cfg st := by
  unfold finalCands
  rcases h.avail d hd with h1 | ⟨h1, h2⟩
  · have hm : (Loc.scratch, d) ∈ listing st .scratch := mem_listing.2 ⟨rfl, h1, h.bad_fresh hd.1 hd.2.1 _⟩
    refine ⟨.scratch, ?_⟩
    split
    · rw [mem_sortIt]; exact List.mem_append_right _ hm
    · exact hm
  · have hm : (Loc.mirror, d) ∈ listing st .mirror := mem_listing.2 ⟨rfl, h2, h.bad_fresh hd.1 hd.2.1 _⟩
    refine ⟨.mirror, ?_⟩
    rw [h.spillStaged h1, h1]
    simp only [Bool.and_self, if_true]
    rw [mem_sortIt]; exact List.mem_append_left _ hm

theorem finalCands_sorted {cfg : Cfg} {st : St P} : Sorted (finalCands cfg st) := by
  unfold finalCands
  split
  · exact sortIt_sorted _
  · exact listing_sorted_le _

theorem Inv.closeAll {cfg : Cfg} {st : St P} (h : Inv cfg st) (hr : st.running = false) : Inv cfg (closeAll st) := by
  have := h.leave true (fun _ => hr) (by simp) (by simp)
  simpa [Stream.leave] using this

theorem Inv.final {cfg : Cfg} {q : Prop} {st : St P} (hraw : cfg.raw = false) (h : InvQ cfg q st)
    (hpc : st.pc = .idle) (hr : st.running = false) : InvQ cfg q (startFinal cfg st) := by
  have hB := h.inv.base.startFinal cfg hr
  revert hB
  have hnc : st.completed = false := by
    cases hc : st.completed with
    | false => rfl
    | true => have := h.compDone hc; rw [hpc] at this; cases this
  refine startFinal_cases (motive := fun s => Base s → InvQ cfg q s) cfg st ?_ ?_ ?_ ?_
  · intro hcase _
    have hno : ∀ d, ¬ Fresh st d := by
      intro d hd
      rcases hcase with h1 | h1 | h1 | h1
      · rw [hnc] at h1; cases h1
      · rcases h.inv.avail d hd with h2 | ⟨h2, h3⟩
        · rw [h1] at h2; cases h2
        · exact h.inv.held h2 (by rw [hpc]; rfl) h1 d hd
      · rw [hraw] at h1; cases h1
      · obtain ⟨l, hl⟩ := fresh_in_finalCands h.inv hd
        rw [h1] at hl; cases hl
    refine ⟨h.inv.closeAll hr, fun _ => (closeAll_fields st).2.2.2.2.1, fun _ _ => ?_⟩
    rw [(closeAll_slots st).1, (closeAll_fields st).1]
    exact h.inv.full hno
  · intro hr'; rw [hraw] at hr'; cases hr'
  · intro _ _ hw hB
    refine ⟨h.inv.move hB rfl rfl h.inv.last h.inv.avail h.inv.badNone h.inv.spillStaged h.inv.inPlace
      (by simp [Pc.fin]) ⟨hw, finalCands_sorted, fun d hd => Or.inl (fresh_in_finalCands h.inv ((Fresh.congr (by rfl) (by rfl)).1 hd)), by simp⟩,
      fun hc => ?_, fun hd => by cases hd⟩
    have hc : st.completed = true := hc
    rw [hnc] at hc; cases hc
  · intro w _ _ hw hB
    refine ⟨h.inv.move hB rfl rfl h.inv.last h.inv.avail h.inv.badNone h.inv.spillStaged h.inv.inPlace
      (by simp [Pc.fin]) ⟨by dsimp only; rw [hw]; rfl, finalCands_sorted, fun d hd => Or.inl (fresh_in_finalCands h.inv ((Fresh.congr (by rfl) (by rfl)).1 hd)), by simp⟩,
      fun hc => ?_, fun hd => by cases hd⟩
    have hc : st.completed = true := hc
    rw [hnc] at hc; cases hc

/-- A step that ends the final sweep leaves nothing behind. -/
theorem tick_done {cfg : Cfg} {st : St P} (h : Inv cfg st) (ok : Bool)
    (hc : st.completed = true → st.pc = .done) :
    ((tick cfg st ok).completed = true → (tick cfg st ok).pc = .done) ∧
    (st.pc ≠ .done → (tick cfg st ok).pc = .done → slots (tick cfg st ok) = readables (tick cfg st ok).produced) := by
  have hP : ∀ {pc}, st.pc = pc → PcInv cfg { st with pc := pc } := by rintro pc rfl; exact h.pcInv
  have lv : ∀ (s : St P) (fin : Bool), Inv cfg s → s.completed = false → (fin = true → Cover s true []) →
      ((leave s fin).completed = true → (leave s fin).pc = .done) ∧
      (st.pc ≠ .done → (leave s fin).pc = .done → slots (leave s fin) = readables (leave s fin).produced) := by
    intro s fin hs hcc hcov
    obtain ⟨f1, f2, f3, f4, f5, f6, f7, f8, f9⟩ := leave_fields s fin
    obtain ⟨s1, -⟩ := leave_slots s fin
    cases fin with
    | false =>
      refine ⟨fun hh => ?_, fun _ hh => ?_⟩
      · have : s.completed = true := hh
        rw [hcc] at this; cases this
      · rw [f5] at hh; cases hh
    | true =>
      refine ⟨fun _ => by rw [f5]; rfl, fun _ _ => ?_⟩
      rw [s1, f1]
      apply hs.full
      intro d hd
      rcases hcov rfl d hd with ⟨l, hl⟩ | ⟨hl, _⟩
      · cases hl
      · cases hl
  have cc : ∀ {pc}, st.pc = pc → pc ≠ .done → st.completed = false := by
    intro pc hpc hne
    cases hcc : st.completed with
    | false => rfl
    | true => exact absurd ((hpc.symm.trans (hc hcc))) hne
  have dull : ∀ (s : St P), s.pc ≠ .done → s.completed = false →
      (s.completed = true → s.pc = .done) ∧
      (st.pc ≠ .done → s.pc = .done → slots s = readables s.produced) := by
    intro s h1 h2
    exact ⟨fun hh => (by rw [h2] at hh; cases hh), fun _ hh => absurd hh h1⟩
  refine tick_cases (motive := fun s => (s.completed = true → s.pc = .done) ∧
      (st.pc ≠ .done → s.pc = .done → slots s = readables s.produced)) cfg st ok
    ?_ ?_ ?_ ?_ ?_ ?_ ?_ ?_ ?_ ?_ ?_ ?_ ?_ ?_ ?_ ?_ ?_ ?_ ?_ ?_ ?_ ?_
  · intro _; exact ⟨hc, fun h1 h2 => absurd h2 h1⟩
  · intro fin he
    obtain ⟨h1, -⟩ := hP he
    have h1 : fin = false := h1
    subst h1
    exact lv st false h (cc he (by simp)) (by simp)
  · intro fin d t he _; exact dull _ (by simp) (cc he (by simp))
  · intro fin d t he _; exact dull _ (by simp) (cc he (by simp))
  · intro fin d t he; exact dull _ (by simp) (cc he (by simp))
  · intro fin d t he; exact dull _ (by simp) (cc he (by simp))
  · intro fin d t he; exact dull _ (by simp) (cc he (by simp))
  · intro fin he
    obtain ⟨h1, h2, h3, h4⟩ := hP he
    exact lv st fin h (cc he (by simp)) (fun hf => hf ▸ h3)
  · intro fin c t he _
    exact dull _ (by simp) ((quarantine_fields (touch st c.1 c.2.it .read) c ok).2.2.2.2.2.2.2.trans (cc he (by simp)))
  · intro fin c t p he _ _; exact dull _ (by simp) (cc he (by simp))
  · intro fin c t p he _ _; exact dull _ (by simp) (cc he (by simp))
  · intro fin w he hw
    obtain ⟨h1, h2, h3, h4⟩ := hP he
    have hs : slots { st with nc := some (wLand (disk st) w).1, writer := some (wLand (disk st) w).2 } = slots st := by
      simp [slots, disk, pending, hw, wLand]
    have hcov : Cover st fin [] := h3
    have hcov' : Cover { st with nc := some (wLand (disk st) w).1, writer := some (wLand (disk st) w).2 } fin [] :=
      hcov.congr (by rfl) hs
    refine lv _ fin ?_ (cc he (by simp)) (fun hf => hf ▸ hcov')
    refine h.move (h.base.move rfl rfl (List.Sublist.refl _) h.base.mirSub h.base.todoSub h.base.finDead)
      rfl hs ?_ h.avail h.badNone h.spillStaged h.inPlace h.held ?_
    · intro w' hw'
      have : (wLand (disk st) w).2 = w' := Option.some.inj hw'
      rw [← this]; exact h.last w hw
    · unfold PcInv; simp only [he]
      exact ⟨rfl, h2, hcov', h4⟩
  · intro fin t he hw
    obtain ⟨h1, -⟩ := hP he
    have h1 : st.writer.isSome = true := h1
    rw [hw] at h1; cases h1
  · intro fin c t w he _ _; exact dull _ (by simp) (cc he (by simp))
  · intro fin c t w he _ _ _
    exact dull _ (by simp) ((quarantine_fields (touch st c.1 c.2.it .read) c ok).2.2.2.2.2.2.2.trans (cc he (by simp)))
  · intro fin c t w p he _ _ _; exact dull _ (by simp) (cc he (by simp))
  · intro fin c t he _ _ _; exact dull _ (by simp) (cc he (by simp))
  · intro fin c t he; exact dull _ (by simp) (cc he (by simp))
  · intro fin c t he _ _ _; exact dull _ (by simp) (cc he (by simp))
  · intro fin c t he _ _ _ _; exact dull _ (by simp) (cc he (by simp))
  · intro fin c t he; exact dull _ (by simp) (cc he (by simp))
  · intro fin c t he; exact dull _ (by simp) (cc he (by simp))

/-- Forgetting the writer (and possibly the pending batch). -/
theorem Inv.forget {cfg : Cfg} {st : St P} (h : Inv cfg st) (nc' : Option (List (Int × P))) (sp comp : Bool)
    (bad' : List (Loc × Int)) (pc' : Pc P) (hpc : pc' = .idle ∨ pc' = .done)
    (hf : pc' = .done → st.running = false)
    (hnc : nc'.getD [] = slots st ∨ (nc' = st.nc ∧ (cfg.staged = false ∨ pending st = [])))
    (hbad : bad' = st.bad ∨ bad' = [])
    (hsp : (sp = st.spilled ∧ (pc' = .idle → st.pc.fin = false)) ∨
      (sp = false ∧ (cfg.staged = false ∨ st.spilled = false))) :
    Inv cfg { st with nc := nc', writer := none, spilled := sp, bad := bad', completed := comp, pc := pc' } := by
  have hslots : slots { st with nc := nc', writer := none, spilled := sp, bad := bad', completed := comp, pc := pc' }
      = nc'.getD [] := by simp [slots, disk, pending]
  have hcase : nc'.getD [] = slots st ∨ cfg.staged = false := by
    rcases hnc with h1 | ⟨h1, h2 | h2⟩
    · exact Or.inl h1
    · exact Or.inr h2
    · left; rw [h1]; simp [slots, h2, disk]
  have hbase : Base { st with nc := nc', writer := none, spilled := sp, bad := bad', completed := comp, pc := pc' } := by
    refine h.base.move rfl rfl (List.Sublist.refl _) h.base.mirSub ?_ ?_
    · rcases hpc with rfl | rfl <;> simp [pcFiles]
    · rcases hpc with rfl | rfl
      · simp [Pc.fin]
      · exact fun _ => hf rfl
  have hsp' : sp = true → st.spilled = true := by
    intro hh
    rcases hsp with ⟨h1, _⟩ | ⟨h1, _⟩
    · rw [← h1]; exact hh
    · rw [h1] at hh; cases hh
  have hfresh : nc'.getD [] = slots st → ∀ d,
      Fresh { st with nc := nc', writer := none, spilled := sp, bad := bad', completed := comp, pc := pc' } d → Fresh st d := by
    intro he d hd
    exact (Fresh.congr (by rfl) (hslots.trans he)).1 hd
  have hnospill : cfg.staged = false → st.spilled = false := by
    intro hs
    cases h1 : st.spilled with
    | false => rfl
    | true => rw [h.spillStaged h1] at hs; cases hs
  refine ⟨hbase, ?_, by simp, ?_, ?_, fun hh => h.spillStaged (hsp' hh), h.inPlace, ?_, ?_⟩
  · rw [hslots]
    rcases hnc with h1 | ⟨h1, _⟩
    · rw [h1]; exact h.slotsPre
    · rw [h1]
      exact (List.prefix_append _ _).trans h.slotsPre
  · intro d hd
    rcases hcase with h1 | h1
    · have hd' := hfresh h1 d hd
      rcases hsp with ⟨h2, _⟩ | ⟨_, h2 | h2⟩
      · rcases h.avail d hd' with h3 | h3
        · exact Or.inl h3
        · exact Or.inr ⟨h2.trans h3.1, h3.2⟩
      · exact Or.inl (h.inPlace h2 d hd.1 hd.2.1)
      · rcases h.avail d hd' with h3 | h3
        · exact Or.inl h3
        · rw [h2] at h3; cases h3.1
    · exact Or.inl (h.inPlace h1 d hd.1 hd.2.1)
  · intro b hb
    rcases hbad with h1 | h1
    · rw [h1] at hb; exact h.badNone b hb
    · rw [h1] at hb; cases hb
  · intro h1 h2 h3 d hd
    have h1 : sp = true := h1
    rcases hsp with ⟨h4, h5⟩ | ⟨h4, _⟩
    · have hst := h.spillStaged (hsp' h1)
      rcases hcase with h6 | h6
      · have hidle : pc' = .idle := by
          rcases hpc with h7 | h7
          · exact h7
          · rw [h7] at h2; cases h2
        exact h.held (hsp' h1) (h5 hidle) h3 d (hfresh h6 d hd)
      · rw [hst] at h6; cases h6
    · rw [h4] at h1; cases h1
  · unfold PcInv
    rcases hpc with rfl | rfl <;> simp [pending]

theorem InvQ.step {cfg : Cfg} {q : Prop} {st : St P} (hraw : cfg.raw = false) (h : InvQ cfg q st) (e : Ev P)
    (hall : Allowed cfg q st e) : InvQ cfg q (step cfg st e) := by
  have hB := h.inv.base.step cfg e
  revert hB
  refine step_cases (motive := fun s => Base s → InvQ cfg q s) cfg st e ?_ ?_ ?_ ?_ ?_ ?_ ?_ ?_ ?_
  · intro _; exact h
  · -- produce
    intro d _ hr hlt hB
    have hge : ∀ x ∈ st.produced, x.it < d.it := fun x hx => by
      have := newest_ge h.inv.base.incr hx; omega
    have hfresh : ∀ x, Fresh { st with produced := st.produced ++ [d], scratch := st.scratch ++ [d] } x →
        Fresh st x ∨ x = d := by
      rintro x ⟨h1, h2, h3⟩
      rcases List.mem_append.1 h1 with h1 | h1
      · exact Or.inl ⟨h1, h2, h3⟩
      · exact Or.inr (by simpa using h1)
    have hnf : st.pc.fin = false := by
      cases hf : st.pc.fin with
      | false => rfl
      | true => rw [h.inv.base.finDead hf] at hr; cases hr
    have hcov : ∀ fin t, (∀ c ∈ t, c ∈ pcFiles st.pc) → fin = false → Cover st fin t →
        Cover { st with produced := st.produced ++ [d], scratch := st.scratch ++ [d] } fin t := by
      intro fin t ht hf hc x hx
      rcases hfresh x hx with hx | rfl
      · exact hc x hx
      · exact Or.inr ⟨hf, fun c hcc => hge _ (h.inv.base.todoSub c (ht c hcc))⟩
    refine ⟨⟨hB, ?_, h.inv.last, ?_, ?_, h.inv.spillStaged, ?_, ?_, ?_⟩, h.compDone, ?_⟩
    · exact h.inv.slotsPre.trans (by rw [readables_append]; exact List.prefix_append _ _)
    · intro x hx
      rcases hfresh x hx with hx | rfl
      · rcases h.inv.avail x hx with h1 | h1
        · exact Or.inl (List.mem_append_left _ h1)
        · exact Or.inr h1
      · exact Or.inl (List.mem_append_right _ (by simp))
    · intro b hb
      obtain ⟨x, h1, h2⟩ := h.inv.badNone b hb
      exact ⟨x, List.mem_append_left _ h1, h2⟩
    · intro hs x hx hxs
      rcases List.mem_append.1 hx with h1 | h1
      · exact List.mem_append_left _ (h.inv.inPlace hs x h1 hxs)
      · exact List.mem_append_right _ h1
    · intro _ _ hs
      have hs : st.scratch ++ [d] = [] := hs
      simp at hs
    · have hpc := h.inv.pcInv
      unfold PcInv at hpc ⊢
      have hcov' := hcov
      cases hp : st.pc with
      | idle => simp only [hp] at hpc ⊢; exact hpc
      | done => simp only [hp] at hpc ⊢; exact hpc
      | spill fin t =>
        simp only [hp] at hpc ⊢
        refine ⟨hpc.1, hpc.2.1, hpc.2.2.1, ?_⟩
        rcases hpc.2.2.2 with h1 | ⟨k, hk, h1⟩
        · exact Or.inl h1
        · exact Or.inr ⟨k, List.mem_append_left _ hk, h1⟩
      | spillUnlink fin x t =>
        simp only [hp] at hpc ⊢
        obtain ⟨h1, h2, h3, h4, k, hk, h5⟩ := hpc
        exact ⟨h1, h2, h3, h4, k, List.mem_append_left _ hk, h5⟩
      | openW fin t =>
        simp only [hp] at hpc ⊢
        have hf : fin = false := by rw [hp] at hnf; exact hnf
        exact ⟨hpc.1, hpc.2.1, hp ▸ hcov fin t (by rw [hp]; exact fun c hc => hc) hf hpc.2.2.1, hpc.2.2.2⟩
      | loop fin t =>
        simp only [hp] at hpc ⊢
        have hf : fin = false := by rw [hp] at hnf; exact hnf
        exact ⟨hpc.1, hpc.2.1, hp ▸ hcov fin t (by rw [hp]; exact fun c hc => hc) hf hpc.2.2.1, hpc.2.2.2⟩
      | clean fin c t =>
        simp only [hp] at hpc ⊢
        have hf : fin = false := by rw [hp] at hnf; exact hnf
        exact ⟨hpc.1, hpc.2.1, hp ▸ hcov fin t (by rw [hp]; exact fun c hc => List.mem_cons_of_mem _ hc) hf hpc.2.2.1, hpc.2.2.2⟩
      | cleanUnlink fin c t =>
        simp only [hp] at hpc ⊢
        have hf : fin = false := by rw [hp] at hnf; exact hnf
        exact ⟨hpc.1, hpc.2.1, hpc.2.2.1, hp ▸ hcov fin t (by rw [hp]; exact fun c hc => List.mem_cons_of_mem _ hc) hf hpc.2.2.2.1, hpc.2.2.2.2⟩
    · intro hd
      have hd : st.pc = .done := hd
      rw [hd] at hnf; cases hnf
  · -- exit
    intro hB
    refine ⟨⟨hB, h.inv.slotsPre, h.inv.last, h.inv.avail, h.inv.badNone, h.inv.spillStaged, h.inv.inPlace,
      h.inv.held, h.inv.pcInv⟩, h.compDone, h.full⟩
  · -- scan
    intro s _ hpc hB
    have hnc : st.completed = false := by
      cases hc : st.completed with
      | false => rfl
      | true => have := h.compDone hc; rw [hpc] at this; cases this
    refine ⟨h.inv.scan hraw hpc s, ?_, ?_⟩
    · refine startScan_cases (motive := fun s => s.completed = true → s.pc = .done) cfg st s
        h.compDone ?_ ?_ ?_ ?_ <;> (intros; simp_all)
    · refine startScan_cases (motive := fun s => s.pc = .done → (s.completed = true ∨ q) → slots s = readables s.produced)
        cfg st s h.full ?_ ?_ ?_ ?_ <;> (intros; simp_all)
  · intro _ hpc hr _; exact Inv.final hraw h hpc hr
  · intro he; rw [he] at hall; exact absurd hall (by simp [Allowed])
  · -- tick
    intro ok _ _
    obtain ⟨t1, t2⟩ := tick_done h.inv ok h.compDone
    refine ⟨h.inv.tick ok, t1, fun hd hq => ?_⟩
    by_cases hpd : st.pc = .done
    · have : tick cfg st ok = st := by simp only [tick, hpd]
      rw [this] at hq ⊢; exact h.full hpd hq
    · exact t2 hpd hd
  · -- raised
    intro landed nc' he hpd hnc hl hnl _
    rw [he] at hall
    obtain ⟨ha, hq⟩ := hall
    have hncomp : st.completed = false := by
      cases hc : st.completed with
      | false => rfl
      | true => exact absurd (h.compDone hc) hpd
    have key := h.inv.forget nc' st.spilled st.completed st.bad (if st.pc.fin then .done else .idle)
      (by split <;> simp) (by intro hh
                              split at hh
                              · next hf => exact h.inv.base.finDead hf
                              · cases hh)
      (by cases hlan : landed with
          | true => exact Or.inl (hl hlan)
          | false =>
            refine Or.inr ⟨hnl hlan, ?_⟩
            rcases ha with h1 | h1
            · rw [hlan] at h1; cases h1
            · exact h1)
      (Or.inl rfl) (Or.inl ⟨rfl, by intro hh
                                    split at hh
                                    · cases hh
                                    · next hf => simpa using hf⟩)
    refine ⟨key, fun hc => ?_, fun hd hqq => ?_⟩
    · have hc : st.completed = true := hc
      rw [hncomp] at hc; cases hc
    · rcases hqq with hc | hqq
      · have hc : st.completed = true := hc
        rw [hncomp] at hc; cases hc
      · have := hq hqq
        simp only [this] at hd
        cases hd
  · -- kill
    intro he _
    rw [he] at hall
    have key := h.inv.forget st.nc false false [] .idle (Or.inl rfl) (by simp)
      (Or.inr ⟨rfl, by rcases hall with h1 | h1
                       · exact Or.inl h1
                       · exact Or.inr h1.1⟩) (Or.inr rfl)
      (Or.inr ⟨rfl, by rcases hall with h1 | h1
                       · exact Or.inl h1
                       · exact Or.inr h1.2⟩)
    exact ⟨key, by simp, by simp⟩

theorem InvQ.init (cfg : Cfg) (q : Prop) : InvQ cfg q (init P) :=
  ⟨Inv.init cfg, by simp [Stream.init], by simp [Stream.init]⟩

/-- A history all of whose events are allowed when they happen. -/
def AllowedRun (cfg : Cfg) (q : Prop) : St P → List (Ev P) → Prop
  | _, [] => True
  | st, e :: es => Allowed cfg q st e ∧ AllowedRun cfg q (step cfg st e) es

theorem InvQ.run {cfg : Cfg} {q : Prop} (hraw : cfg.raw = false) {st : St P} (h : InvQ cfg q st)
    (es : List (Ev P)) (hall : AllowedRun cfg q st es) : InvQ cfg q (run cfg st es) := by
  induction es generalizing st with
  | nil => exact h
  | cons e es ih => exact ih (h.step hraw e hall.1) hall.2

end Verif.Stream
