import Verif.Lemmas.StreamStep

namespace Verif.Stream
variable {P : Type}

/-! ### C09: only old dumps are touched while OSIRIS runs -/

structure Inv9 (st : St P) : Prop where
  base : Base st
  log : ∀ t ∈ st.log, t.running = true → t.it < t.newest
  todo : st.pc.fin = false → ∀ c ∈ pcFiles st.pc, c.2.it < newest st

/-- `Inv9` for a watcher move. -/
theorem Inv9.move {st st' : St P} (h : Inv9 st) (hb : Base st') (hp : st'.produced = st.produced)
    (hl : ∀ t ∈ st'.log, t ∈ st.log ∨ (t.newest = newest st ∧ t.running = st.running ∧ ∃ c ∈ pcFiles st.pc, t.it = c.2.it))
    (hf : st'.pc.fin = false → st.pc.fin = false)
    (ht : ∀ c ∈ pcFiles st'.pc, c ∈ pcFiles st.pc) : Inv9 st' where
  base := hb
  log t htm hr := by
    rcases hl t htm with h1 | ⟨h1, h2, c, h3, h4⟩
    · exact h.log t h1 hr
    · rw [h1, h4]
      refine h.todo ?_ c h3
      cases hh : st.pc.fin with
      | false => rfl
      | true => rw [h2, h.base.finDead hh] at hr; cases hr
  todo hff c hc := by
    have : newest st' = newest st := by unfold newest; rw [hp]
    rw [this]; exact h.todo (hf hff) c (ht c hc)

theorem Inv9.leave {st st0 : St P} (h : Inv9 st) (fin : Bool) (hb : Base (leave st0 fin))
    (hfin : fin = st.pc.fin)
    (h0 : st0.produced = st.produced ∧ st0.log = st.log) : Inv9 (Stream.leave st0 fin) := by
  obtain ⟨f1, f2, f3, f4, f5, f6, -⟩ := leave_fields st0 fin
  refine h.move hb (f1.trans h0.1) ?_ ?_ ?_
  · rw [f6, h0.2]; exact fun t ht => Or.inl ht
  · rw [f5, ← hfin]; cases fin <;> simp [Pc.fin]
  · rw [f5]; cases fin <;> simp [pcFiles]

theorem quarantine_log (st : St P) (c : Loc × Dump P) (ok : Bool) {t : Touch}
    (ht : t ∈ (quarantine (touch st c.1 c.2.it .read) c ok).log) :
    t ∈ st.log ∨ (t.newest = newest st ∧ t.running = st.running ∧ t.it = c.2.it) := by
  obtain ⟨l, d⟩ := c
  cases ok with
  | false =>
    rcases List.mem_cons.1 (show t ∈ _ :: st.log from ht) with h | h
    · subst h; exact Or.inr ⟨rfl, rfl, rfl⟩
    · exact Or.inl h
  | true =>
    have ht' : t ∈ (⟨l, d.it, .rename, newest st, st.running⟩ : Touch) :: ⟨l, d.it, .read, newest st, st.running⟩ :: st.log := by
      cases l <;> exact ht
    rcases List.mem_cons.1 ht' with h | h
    · subst h; exact Or.inr ⟨rfl, rfl, rfl⟩
    · rcases List.mem_cons.1 h with h | h
      · subst h; exact Or.inr ⟨rfl, rfl, rfl⟩
      · exact Or.inl h

theorem Inv9.tick {st : St P} (h : Inv9 st) (cfg : Cfg) (ok : Bool) : Inv9 (tick cfg st ok) := by
  have hB := h.base.tick cfg ok
  revert hB
  refine tick_cases (motive := fun s => Base s → Inv9 s) cfg st ok ?_ ?_ ?_ ?_ ?_ ?_ ?_ ?_ ?_ ?_ ?_ ?_ ?_ ?_ ?_ ?_ ?_ ?_ ?_ ?_ ?_ ?_
  · intro _ _; exact h
  · intro fin he hB; exact h.leave fin hB (by rw [he]; rfl) ⟨rfl, rfl⟩
  · intro fin d t he hs hB
    exact h.move hB rfl (fun _ h => Or.inl h) (by rw [he]; exact id) (by rw [he]; exact fun _ h => h)
  · intro fin d t he hs hB
    refine h.move hB rfl ?_ (by rw [he]; exact id) (by rw [he]; exact fun _ h => h)
    intro x hx
    rcases List.mem_cons.1 hx with rfl | hx
    · exact Or.inr ⟨rfl, rfl, (.scratch, d), by rw [he]; simp [pcFiles, filesAt], rfl⟩
    · exact Or.inl hx
  · intro fin d t he hB
    exact h.move hB rfl (fun _ h => Or.inl h) (by rw [he]; exact id)
      (by rw [he]; intro c hc; simp [pcFiles, filesAt] at hc ⊢; exact Or.inr hc)
  · intro fin d t he hB
    refine h.move hB rfl ?_ (by rw [he]; exact id)
      (by rw [he]; intro c hc; simp [pcFiles, filesAt] at hc ⊢; exact Or.inr hc)
    intro x hx
    rcases List.mem_cons.1 hx with rfl | hx
    · exact Or.inr ⟨rfl, rfl, (.scratch, d), by rw [he]; simp [pcFiles, filesAt], rfl⟩
    · exact Or.inl hx
  · intro fin d t he hB
    exact h.move hB rfl (fun _ h => Or.inl h) (by rw [he]; exact id)
      (by rw [he]; intro c hc; simp [pcFiles, filesAt] at hc ⊢; exact Or.inr hc)
  · intro fin he hB; exact h.leave fin hB (by rw [he]; rfl) ⟨rfl, rfl⟩
  · intro fin c t he _ hB
    refine h.move hB (quarantine_fields (touch st c.1 c.2.it .read) c ok).1 ?_ (by rw [he]; exact id)
      (by rw [he]; exact fun x hx => List.mem_cons_of_mem _ hx)
    intro x hx
    rcases quarantine_log st c ok hx with h1 | ⟨h1, h2, h3⟩
    · exact Or.inl h1
    · exact Or.inr ⟨h1, h2, c, by rw [he]; simp [pcFiles], h3⟩
  · intro fin c t p he _ _ hB
    refine h.move hB rfl ?_ (by rw [he]; exact id) (by rw [he]; exact fun _ h => h)
    intro x hx
    rcases List.mem_cons.1 hx with rfl | hx
    · exact Or.inr ⟨rfl, rfl, c, by rw [he]; simp [pcFiles], rfl⟩
    · exact Or.inl hx
  · intro fin c t p he _ _ hB
    refine h.move hB rfl ?_ (by rw [he]; exact id) (by rw [he]; exact fun _ h => h)
    intro x hx
    rcases List.mem_cons.1 hx with rfl | hx
    · exact Or.inr ⟨rfl, rfl, c, by rw [he]; simp [pcFiles], rfl⟩
    · exact Or.inl hx
  · intro fin w he _ hB; exact h.leave fin hB (by rw [he]; rfl) ⟨rfl, rfl⟩
  · intro fin t he _ hB; exact h.leave fin hB (by rw [he]; rfl) ⟨rfl, rfl⟩
  · intro fin c t w he _ _ hB
    exact h.move hB rfl (fun _ h => Or.inl h) (by rw [he]; exact id) (by rw [he]; exact fun _ h => h)
  · intro fin c t w he _ _ _ hB
    refine h.move hB (quarantine_fields (touch st c.1 c.2.it .read) c ok).1 ?_ (by rw [he]; exact id)
      (by rw [he]; exact fun x hx => List.mem_cons_of_mem _ hx)
    intro x hx
    rcases quarantine_log st c ok hx with h1 | ⟨h1, h2, h3⟩
    · exact Or.inl h1
    · exact Or.inr ⟨h1, h2, c, by rw [he]; simp [pcFiles], h3⟩
  · intro fin c t w p he _ _ _ hB
    refine h.move hB rfl ?_ (by rw [he]; exact id) (by rw [he]; exact fun _ h => h)
    intro x hx
    rcases List.mem_cons.1 hx with rfl | hx
    · exact Or.inr ⟨rfl, rfl, c, by rw [he]; simp [pcFiles], rfl⟩
    · exact Or.inl hx
  · intro fin c t he _ _ _ hB
    refine h.move hB rfl ?_ (by rw [he]; exact id) (by rw [he]; exact fun x hx => List.mem_cons_of_mem _ hx)
    intro x hx
    rcases List.mem_cons.1 hx with rfl | hx
    · exact Or.inr ⟨rfl, rfl, c, by rw [he]; simp [pcFiles], rfl⟩
    · exact Or.inl hx
  · intro fin c t he hB
    exact h.move hB rfl (fun _ h => Or.inl h) (by rw [he]; exact id)
      (by rw [he]; exact fun x hx => List.mem_cons_of_mem _ hx)
  · intro fin c t he _ _ _ hB
    exact h.move hB rfl (fun _ h => Or.inl h) (by rw [he]; exact id) (by rw [he]; exact fun _ h => h)
  · intro fin c t he _ _ _ _ hB
    refine h.move hB rfl ?_ (by rw [he]; exact id) (by rw [he]; exact fun _ h => h)
    intro x hx
    rcases List.mem_cons.1 hx with rfl | hx
    · exact Or.inr ⟨rfl, rfl, c, by rw [he]; simp [pcFiles], rfl⟩
    · exact Or.inl hx
  · intro fin c t he hB
    refine h.move hB rfl ?_ (by rw [he]; exact id) (by rw [he]; exact fun x hx => List.mem_cons_of_mem _ hx)
    intro x hx
    rcases List.mem_cons.1 hx with rfl | hx
    · exact Or.inr ⟨rfl, rfl, c, by rw [he]; simp [pcFiles], rfl⟩
    · exact Or.inl hx
  · intro fin c t he hB
    exact h.move hB rfl (fun _ h => Or.inl h) (by rw [he]; exact id)
      (by rw [he]; exact fun x hx => List.mem_cons_of_mem _ hx)

theorem safe_lt_newest {st : St P} (h : Base st) {l : List (Loc × Dump P)}
    (hs : l.Pairwise fun a b => a.2.it < b.2.it) (hsub : ∀ c ∈ l, c.2 ∈ st.produced) :
    ∀ c ∈ l.dropLast, c.2.it < newest st := by
  intro c hc
  have hne : l ≠ [] := by rintro rfl; cases hc
  obtain ⟨k, hk, hlt, -⟩ := dropLast_lt hs hne
  have := newest_ge h.incr (hsub k hk)
  have := hlt c hc
  omega

theorem sorted_scratch_lt {st : St P} (h : Base st) :
    (sortIt (filesAt .scratch st.scratch)).Pairwise fun a b => a.2.it < b.2.it := by
  have h1 := filesAt_sorted (l := .scratch) h.scr
  rw [sortIt_eq (h1.imp fun h => Int.le_of_lt h)]
  exact h1

theorem Inv9.step {st : St P} (h : Inv9 st) (cfg : Cfg) (e : Ev P) : Inv9 (step cfg st e) := by
  have hB := h.base.step cfg e
  revert hB
  have lst := safe_lt_newest h.base (listing_scratch_sorted h.base.scr) (fun c hc => listing_sub h.base hc)
  have lst' := safe_lt_newest h.base (sorted_scratch_lt h.base) (fun c hc => sorted_scratch_sub h.base hc)
  refine step_cases (motive := fun s => Base s → Inv9 s) cfg st e ?_ ?_ ?_ ?_ ?_ ?_ ?_ ?_ ?_
  · intro _; exact h
  · intro d _ _ hlt hB
    refine ⟨hB, h.log, fun hf c hc => ?_⟩
    have := h.todo hf c hc
    have he : newest { st with produced := st.produced ++ [d], scratch := st.scratch ++ [d] } = d.it := by
      simp [newest]
    rw [he]; omega
  · intro hB; exact ⟨hB, h.log, h.todo⟩
  · intro s _ hpc
    refine startScan_cases (motive := fun s => Base s → Inv9 s) cfg st s ?_ ?_ ?_ ?_ ?_
    · intro _; exact h
    · intro _ _ _ hB
      refine ⟨hB, h.log, fun _ c hc => ?_⟩
      obtain ⟨c', h1, h2⟩ := filesAt_snd hc
      rw [← h2]; exact lst' c' h1
    · intro _ _ _ hB
      refine ⟨hB, h.log, fun _ c hc => ?_⟩
      obtain ⟨c', h1, h2⟩ := filesAt_snd hc
      rw [← h2]; exact lst c' h1
    · intro _ _ _ _ hB; exact ⟨hB, h.log, fun _ c hc => lst c hc⟩
    · intro w _ _ _ _ hB; exact ⟨hB, h.log, fun _ c hc => lst c hc⟩
  · intro _ hpc hr
    refine startFinal_cases (motive := fun s => Base s → Inv9 s) cfg st ?_ ?_ ?_ ?_
    · intro _ hB
      obtain ⟨f1, f2, f3, f4, f5, f6, -⟩ := closeAll_fields st
      exact ⟨hB, by rw [f6]; exact h.log, by rw [f5]; simp [Pc.fin]⟩
    · intro _ _ _ hB; exact ⟨hB, h.log, by simp [Pc.fin]⟩
    · intro _ _ _ hB; exact ⟨hB, h.log, by simp [Pc.fin]⟩
    · intro w _ _ _ hB; exact ⟨hB, h.log, by simp [Pc.fin]⟩
  · intro _ _ _ hB
    obtain ⟨f1, f2, f3, f4, f5, f6, -⟩ := closeAll_fields st
    exact ⟨hB, by rw [f6]; exact h.log, by rw [f5]; simp [Pc.fin]⟩
  · intro ok _ _; exact h.tick cfg ok
  · intro _ _ _ _ _ _ _ hB
    refine ⟨hB, h.log, fun _ => ?_⟩
    dsimp only; split <;> simp [pcFiles]
  · intro _ hB; exact ⟨hB, h.log, by simp [pcFiles]⟩

theorem Inv9.run {st : St P} (h : Inv9 st) (cfg : Cfg) (es : List (Ev P)) : Inv9 (run cfg st es) := by
  induction es generalizing st with
  | nil => exact h
  | cons e es ih => exact ih (h.step cfg e)

theorem Inv9.init : Inv9 (init P) := ⟨Base.init, by simp [Stream.init], by simp [Stream.init, pcFiles]⟩

/-! ### C10: nothing is removed before it is durable -/

/-- Where a dump file may be found. -/
def Kept (st : St P) (d : Dump P) : Prop :=
  d ∈ st.scratch ∨ d ∈ st.mirror ∨ ∃ l, (l, d) ∈ st.sidelined

structure Inv10 (cfg : Cfg) (st : St P) : Prop where
  base : Base st
  kept : ∀ d ∈ st.produced, Kept st d
  pcOk : match st.pc with
    | .spillUnlink _ d _ => d ∈ st.mirror
    | .openW _ _ | .loop _ _ | .clean _ _ _ => cfg.raw = false
    | .cleanUnlink _ c _ => cfg.raw = false ∧ cfg.staged = true ∧ (cfg.discard = false → c.2 ∈ st.mirror)
    | _ => True

theorem Kept.drop {st st' : St P} {d : Dump P} (h : Kept st d)
    (h1 : d ∈ st.scratch → Kept st' d)
    (h2 : d ∈ st.mirror → d ∈ st'.mirror) (h3 : ∀ l, (l, d) ∈ st.sidelined → (l, d) ∈ st'.sidelined) :
    Kept st' d := by
  rcases h with h | h | ⟨l, h⟩
  · exact h1 h
  · exact Or.inr (Or.inl (h2 h))
  · exact Or.inr (Or.inr ⟨l, h3 l h⟩)

theorem Inv10.quarantine {cfg : Cfg} {st : St P} (h : Inv10 cfg st) {c : Loc × Dump P} (hc : c.2 ∈ st.produced)
    (ok : Bool) (pc' : Pc P) : ∀ d ∈ st.produced,
      Kept { quarantine (touch st c.1 c.2.it .read) c ok with pc := pc' } d := by
  intro d hd
  obtain ⟨l, x⟩ := c
  have hk := h.kept d hd
  by_cases he : d.it = x.it
  · have : d = x := h.base.incr.eq_of_it hd hc he
    subst this
    cases ok with
    | false => exact hk
    | true =>
      refine Or.inr (Or.inr ⟨l, ?_⟩)
      cases l <;> simp [Stream.quarantine, touch]
  · cases ok with
    | false => exact hk
    | true =>
      rcases hk with hk | hk | ⟨l', hk⟩
      · left; cases l <;> simp [Stream.quarantine, touch, mem_dropIt, hk, he]
      · right; left; cases l <;> simp [Stream.quarantine, touch, mem_dropIt, hk, he]
      · right; right; refine ⟨l', ?_⟩; cases l <;> simp [Stream.quarantine, touch, hk]

theorem Inv10.tick {cfg : Cfg} {st : St P} (hd : cfg.staged = false ∨ cfg.discard = false ∨ cfg.raw = true) (h : Inv10 cfg st) (ok : Bool) :
    Inv10 cfg (tick cfg st ok) := by
  have hB := h.base.tick cfg ok
  revert hB
  have lv : ∀ (s : St P) (fin : Bool), s.produced = st.produced → s.scratch = st.scratch → s.mirror = st.mirror →
      s.sidelined = st.sidelined → Base (leave s fin) → Inv10 cfg (leave s fin) := by
    intro s fin e1 e2 e3 e4 hB
    obtain ⟨f1, f2, f3, f4, f5, f6, f7, -⟩ := leave_fields s fin
    refine ⟨hB, ?_, ?_⟩
    · intro d hd
      rw [f1, e1] at hd
      have := h.kept d hd
      unfold Kept at this ⊢
      rw [f3, f4, f7, e2, e3, e4]; exact this
    · rw [f5]; cases fin <;> simp
  have hraw : ∀ {pc}, st.pc = pc → (match pc with
    | .spillUnlink _ d _ => d ∈ st.mirror
    | .openW _ _ | .loop _ _ | .clean _ _ _ => cfg.raw = false
    | .cleanUnlink _ c _ => cfg.raw = false ∧ cfg.staged = true ∧ (cfg.discard = false → c.2 ∈ st.mirror)
    | _ => True) := by rintro pc rfl; exact h.pcOk
  have hS : ∀ {pc}, st.pc = pc → (∀ c ∈ pcFiles pc, c.2 ∈ st.produced) := by
    rintro pc rfl; exact h.base.todoSub
  refine tick_cases (motive := fun s => Base s → Inv10 cfg s) cfg st ok ?_ ?_ ?_ ?_ ?_ ?_ ?_ ?_ ?_ ?_ ?_ ?_ ?_ ?_ ?_ ?_ ?_ ?_ ?_ ?_ ?_ ?_
  · intro _ _; exact h
  · intro fin he hB; exact lv st fin rfl rfl rfl rfl hB
  · intro fin d t he hm hB
    exact ⟨hB, h.kept, mirrored_mem h.base (hS he (.scratch, d) (by simp [pcFiles, filesAt])) hm⟩
  · intro fin d t he hm hB
    refine ⟨hB, fun x hx => ?_, by simp [publish, touch]⟩
    exact (h.kept x hx).drop Or.inl (fun h => by simp [publish, touch, h]) (fun _ h => h)
  · intro fin d t he hB; exact ⟨hB, h.kept, trivial⟩
  · intro fin d t he hB
    refine ⟨hB, fun x hx => ?_, trivial⟩
    refine (h.kept x hx).drop (fun hs => ?_) (fun h => h) (fun _ h => h)
    by_cases hxd : x.it = d.it
    · have hdm : d ∈ st.mirror := hraw he
      have : x = d := h.base.incr.eq_of_it hx (h.base.mirSub _ hdm) hxd
      subst this; exact Or.inr (Or.inl hdm)
    · exact Or.inl (mem_dropIt.2 ⟨hs, hxd⟩)
  · intro fin d t he hB; exact ⟨hB, h.kept, trivial⟩
  · intro fin he hB; exact lv st fin rfl rfl rfl rfl hB
  · intro fin c t he _ hB
    refine ⟨hB, fun d hd => ?_, hraw he⟩
    have hd : d ∈ st.produced := by
      have := (quarantine_fields (touch st c.1 c.2.it .read) c ok).1
      exact this ▸ hd
    exact h.quarantine (hS he c (by simp [pcFiles])) ok _ d hd
  · intro fin c t p he _ _ hB; exact ⟨hB, h.kept, hraw he⟩
  · intro fin c t p he _ _ hB; exact ⟨hB, h.kept, hraw he⟩
  · intro fin w he _ hB; exact lv _ fin rfl rfl rfl rfl hB
  · intro fin t he _ hB; exact lv st fin rfl rfl rfl rfl hB
  · intro fin c t w he _ _ hB; exact ⟨hB, h.kept, hraw he⟩
  · intro fin c t w he _ _ _ hB
    refine ⟨hB, fun d hd => ?_, hraw he⟩
    have hd : d ∈ st.produced := by
      have := (quarantine_fields (touch st c.1 c.2.it .read) c ok).1
      exact this ▸ hd
    exact h.quarantine (hS he c (by simp [pcFiles])) ok _ d hd
  · intro fin c t w p he _ _ _ hB; exact ⟨hB, h.kept, hraw he⟩
  · intro fin c t he hst _ hdis hB
    have hr : cfg.raw = false := hraw he
    rcases hd with h1 | h1 | h1
    · rw [hst] at h1; cases h1
    · rw [hdis] at h1; cases h1
    · rw [hr] at h1; cases h1
  · intro fin c t he hB; exact ⟨hB, h.kept, hraw he⟩
  · intro fin c t he hs _ hor hB
    refine ⟨hB, h.kept, hraw he, hs, fun hdf => ?_⟩
    rw [hdf, Bool.false_or] at hor
    exact mirrored_mem h.base (hS he c (by simp [pcFiles])) hor
  · intro fin c t he hs _ _ _ hB
    refine ⟨hB, fun x hx => ?_, hraw he, hs, fun _ => by simp [publish, touch]⟩
    exact (h.kept x hx).drop Or.inl (fun h => by simp [publish, touch, h]) (fun _ h => h)
  · intro fin c t he hB
    obtain ⟨hr, hst, hm⟩ := hraw he
    refine ⟨hB, fun x hx => ?_, hr⟩
    have hdf : cfg.discard = false := by
      rcases hd with h1 | h1 | h1
      · rw [hst] at h1; cases h1
      · exact h1
      · rw [hr] at h1; cases h1
    refine (h.kept x hx).drop (fun hs => ?_) (fun h => h) (fun _ h => h)
    by_cases hxd : x.it = c.2.it
    · have hdm := hm hdf
      have : x = c.2 := h.base.incr.eq_of_it hx (h.base.mirSub _ hdm) hxd
      subst this; exact Or.inr (Or.inl hdm)
    · exact Or.inl (mem_dropIt.2 ⟨hs, hxd⟩)
  · intro fin c t he hB
    exact ⟨hB, h.kept, (hraw he).1⟩

theorem Inv10.step {cfg : Cfg} {st : St P} (hd : cfg.staged = false ∨ cfg.discard = false ∨ cfg.raw = true) (h : Inv10 cfg st) (e : Ev P) :
    Inv10 cfg (step cfg st e) := by
  have hB := h.base.step cfg e
  revert hB
  refine step_cases (motive := fun s => Base s → Inv10 cfg s) cfg st e ?_ ?_ ?_ ?_ ?_ ?_ ?_ ?_ ?_
  · intro _; exact h
  · intro d _ _ hlt hB
    refine ⟨hB, fun x hx => ?_, h.pcOk⟩
    rcases List.mem_append.1 hx with hx | hx
    · exact (h.kept x hx).drop (fun h => Or.inl (List.mem_append_left _ h)) (fun h => h) (fun _ h => h)
    · exact Or.inl (List.mem_append_right _ hx)
  · intro hB; exact ⟨hB, h.kept, h.pcOk⟩
  · intro s _ hpc
    refine startScan_cases (motive := fun s => Base s → Inv10 cfg s) cfg st s ?_ ?_ ?_ ?_ ?_
    · intro _; exact h
    · intro _ _ _ hB; exact ⟨hB, h.kept, trivial⟩
    · intro _ _ _ hB; exact ⟨hB, h.kept, trivial⟩
    · intro hr _ _ _ hB; exact ⟨hB, h.kept, hr⟩
    · intro w hr _ _ _ hB; exact ⟨hB, h.kept, hr⟩
  · intro _ hpc hr
    refine startFinal_cases (motive := fun s => Base s → Inv10 cfg s) cfg st ?_ ?_ ?_ ?_
    · intro _ hB
      obtain ⟨f1, f2, f3, f4, f5, f6, f7, -⟩ := closeAll_fields st
      refine ⟨hB, fun x hx => ?_, by rw [f5]; trivial⟩
      rw [f1] at hx
      have := h.kept x hx
      unfold Kept at this ⊢; rw [f3, f4, f7]; exact this
    · intro _ _ _ hB; exact ⟨hB, h.kept, trivial⟩
    · intro hr _ _ hB; exact ⟨hB, h.kept, hr⟩
    · intro w hr _ _ hB; exact ⟨hB, h.kept, hr⟩
  · intro _ _ _ hB
    obtain ⟨f1, f2, f3, f4, f5, f6, f7, -⟩ := closeAll_fields st
    refine ⟨hB, fun x hx => ?_, by rw [f5]; trivial⟩
    rw [f1] at hx
    have := h.kept x hx
    unfold Kept at this ⊢; rw [f3, f4, f7]; exact this
  · intro ok _ _; exact h.tick hd ok
  · intro _ _ _ _ _ _ _ hB
    refine ⟨hB, h.kept, ?_⟩
    dsimp only; split
    · next heq => split at heq <;> cases heq
    · next heq => split at heq <;> cases heq
    · next heq => split at heq <;> cases heq
    · next heq => split at heq <;> cases heq
    · next heq => split at heq <;> cases heq
    · trivial
  · intro _ hB; exact ⟨hB, h.kept, trivial⟩

theorem Inv10.init (cfg : Cfg) : Inv10 cfg (init P) :=
  ⟨Base.init, by simp [Stream.init], by simp [Stream.init]⟩

theorem Inv10.run {cfg : Cfg} {st : St P} (hd : cfg.staged = false ∨ cfg.discard = false ∨ cfg.raw = true)
    (h : Inv10 cfg st) (es : List (Ev P)) : Inv10 cfg (run cfg st es) := by
  induction es generalizing st with
  | nil => exact h
  | cons e es ih => exact ih (h.step hd e)

/-! ### a sweep terminates -/

/-- Upper bound on the watcher steps left in the current sweep. -/
def pcSize : Pc P → Nat
  | .idle => 0
  | .done => 0
  | .spill _ t => 2 * t.length + 1
  | .spillUnlink _ _ t => 2 * t.length + 2
  | .openW _ t => 3 * t.length + 2
  | .loop _ t => 3 * t.length + 1
  | .clean _ _ t => 3 * t.length + 3
  | .cleanUnlink _ _ t => 3 * t.length + 2

theorem pcSize_leave (st : St P) (fin : Bool) : pcSize (leave st fin).pc = 0 ∧ (leave st fin).pc.fin = fin := by
  rw [(leave_fields st fin).2.2.2.2.1]; cases fin <;> simp [pcSize, Pc.fin]

theorem tick_size (cfg : Cfg) (st : St P) (ok : Bool) :
    pcSize (tick cfg st ok).pc ≤ pcSize st.pc - 1 ∧ (tick cfg st ok).pc.fin = st.pc.fin := by
  refine tick_cases (motive := fun s => pcSize s.pc ≤ pcSize st.pc - 1 ∧ s.pc.fin = st.pc.fin) cfg st ok
    ?_ ?_ ?_ ?_ ?_ ?_ ?_ ?_ ?_ ?_ ?_ ?_ ?_ ?_ ?_ ?_ ?_ ?_ ?_ ?_ ?_ ?_
  · rintro (h | h) <;> rw [h] <;> simp [pcSize]
  · intro fin he; have := pcSize_leave st fin; rw [this.1, this.2, he]; exact ⟨Nat.zero_le _, rfl⟩
  all_goals first
    | (intro fin he; have := pcSize_leave st fin; rw [this.1, this.2, he]; exact ⟨Nat.zero_le _, rfl⟩)
    | (intro fin w he _; rw [he]; refine ⟨?_, ?_⟩
       · rw [(pcSize_leave _ fin).1]; exact Nat.zero_le _
       · rw [(pcSize_leave _ fin).2]; rfl)
    | (intros; simp_all [pcSize, Pc.fin]; try omega)

theorem ticks_finish (cfg : Cfg) (oks : List Bool) (st : St P) (h : pcSize st.pc ≤ oks.length) :
    pcSize (run cfg st (oks.map .tick)).pc = 0 ∧ (run cfg st (oks.map .tick)).pc.fin = st.pc.fin := by
  induction oks generalizing st with
  | nil => simp at h; exact ⟨h, rfl⟩
  | cons o os ih =>
    have := tick_size cfg st o
    have h2 := ih (tick cfg st o) (by simp at h; omega)
    exact ⟨h2.1, h2.2.trans this.2⟩

theorem pc_of_size {pc : Pc P} (h : pcSize pc = 0) (hf : pc.fin = true) : pc = .done := by
  cases pc <;> simp [pcSize, Pc.fin] at h hf ⊢

theorem run_append (cfg : Cfg) (st : St P) (a b : List (Ev P)) : run cfg st (a ++ b) = run cfg (run cfg st a) b := by
  induction a generalizing st with
  | nil => rfl
  | cons e es ih => exact ih _

end Verif.Stream
