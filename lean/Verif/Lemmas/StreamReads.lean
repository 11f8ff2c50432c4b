import Verif.Lemmas.StreamAux

namespace Verif.Stream
variable {P : Type}

/-- Each unreadable file is read at most once (no kills). -/
structure Inv12 (st : St P) : Prop where
  base : Base st
  logSub : ∀ t ∈ st.log, ∃ d ∈ st.produced, d.it = t.it
  one : ∀ l, ∀ d ∈ st.produced, d.body = none → readsOf st l d.it ≤ 1
  gone : ∀ l, ∀ d ∈ st.produced, d.body = none → 1 ≤ readsOf st l d.it →
    (l, d) ∉ pcFiles st.pc ∧ (st.pc.fin = false → l = .scratch ∧ (d ∉ st.scratch ∨ (Loc.scratch, d.it) ∈ st.bad))
  nodup : (pcFiles st.pc).Nodup
  mirNodup : st.mirror.Nodup
  scrOnly : st.pc.fin = false → ∀ c ∈ pcFiles st.pc, c.1 = .scratch

theorem readsOf_cons (st : St P) (t : Touch) (l : Loc) (it : Int) :
    readsOf { st with log := t :: st.log } l it =
      readsOf st l it + (if t.loc = l ∧ t.it = it ∧ t.op = .read then 1 else 0) := by
  unfold readsOf
  simp only [List.filter_cons]
  by_cases h : t.loc = l ∧ t.it = it ∧ t.op = .read
  · simp [h]
  · simp [h]

theorem readsOf_congr {st st' : St P} (h : st'.log = st.log) (l : Loc) (it : Int) :
    readsOf st' l it = readsOf st l it := by
  unfold readsOf; rw [h]

/-- A move that reads no unreadable file. -/
theorem Inv12.move {st st' : St P} (h : Inv12 st) (hb : Base st') (hp : st'.produced = st.produced)
    (hl : ∀ t ∈ st'.log, t ∈ st.log ∨ ∃ c ∈ pcFiles st.pc, t.it = c.2.it)
    (hr : ∀ l, ∀ d ∈ st.produced, d.body = none → readsOf st' l d.it = readsOf st l d.it)
    (hs : ∀ d ∈ st'.scratch, d ∈ st.scratch) (hbad : ∀ b ∈ st.bad, b ∈ st'.bad)
    (hf : st'.pc.fin = false → st.pc.fin = false)
    (ht : ∀ c ∈ pcFiles st'.pc, c ∈ pcFiles st.pc) (hn : (pcFiles st'.pc).Nodup) (hm : st'.mirror.Nodup) :
    Inv12 st' where
  base := hb
  logSub t htt := by
    rw [hp]
    rcases hl t htt with h1 | ⟨c, hc, he⟩
    · exact h.logSub t h1
    · exact ⟨c.2, h.base.todoSub c hc, he.symm⟩
  one l d hd hbn := by rw [hp] at hd; rw [hr l d hd hbn]; exact h.one l d hd hbn
  gone l d hd hbn hge := by
    rw [hp] at hd
    rw [hr l d hd hbn] at hge
    obtain ⟨h1, h2⟩ := h.gone l d hd hbn hge
    refine ⟨fun hh => h1 (ht _ hh), fun hff => ?_⟩
    obtain ⟨h3, h4⟩ := h2 (hf hff)
    refine ⟨h3, ?_⟩
    rcases h4 with h4 | h4
    · exact Or.inl fun hh => h4 (hs d hh)
    · exact Or.inr (hbad _ h4)
  nodup := hn
  mirNodup := hm
  scrOnly hff c hc := h.scrOnly (hf hff) c (ht c hc)

theorem Inv12.leave {st st0 : St P} (h : Inv12 st) (fin : Bool) (hb : Base (leave st0 fin))
    (hfin : fin = st.pc.fin) (h1 : st0.produced = st.produced) (h2 : st0.log = st.log)
    (h3 : st0.scratch = st.scratch) (h4 : st0.mirror = st.mirror) (h5 : st0.bad = st.bad) :
    Inv12 (Stream.leave st0 fin) := by
  obtain ⟨f1, f2, f3, f4, f5, f6, f7, f8, f9⟩ := leave_fields st0 fin
  refine h.move hb (f1.trans h1) ?_ ?_ ?_ ?_ ?_ ?_ ?_ ?_
  · rw [f6, h2]; exact fun t ht => Or.inl ht
  · intro l d _ _; exact readsOf_congr (f6.trans h2) l d.it
  · rw [f3, h3]; exact fun _ h => h
  · rw [f8, h5]; exact fun _ h => h
  · rw [f5, ← hfin]; cases fin <;> simp [Pc.fin]
  · rw [f5]; cases fin <;> simp [pcFiles]
  · rw [f5]; cases fin <;> simp [pcFiles]
  · rw [f4, h4]; exact h.mirNodup

/-- Reading and quarantining the head candidate. -/
theorem Inv12.quarantine {st : St P} (h : Inv12 st) {c : Loc × Dump P} {t : List (Loc × Dump P)} {pc' : Pc P}
    (hfiles : pcFiles st.pc = c :: t) (hfiles' : pcFiles pc' = t) (hfin : pc'.fin = st.pc.fin)
    (hbn : c.2.body = none) (ok : Bool)
    (hb : Base { quarantine (touch st c.1 c.2.it .read) c ok with pc := pc' }) :
    Inv12 { quarantine (touch st c.1 c.2.it .read) c ok with pc := pc' } := by
  obtain ⟨q1, q2, q3, q4, -⟩ := quarantine_fields (touch st c.1 c.2.it .read) c ok
  have hc : c ∈ pcFiles st.pc := by rw [hfiles]; simp
  have hcp := h.base.todoSub c hc
  have hn := h.nodup
  rw [hfiles, List.nodup_cons] at hn
  have hreads : ∀ l it, readsOf { Stream.quarantine (touch st c.1 c.2.it .read) c ok with pc := pc' } l it =
      readsOf st l it + (if c.1 = l ∧ c.2.it = it then 1 else 0) := by
    intro l it
    obtain ⟨cl, cd⟩ := c
    have h0 := readsOf_cons st ⟨cl, cd.it, .read, newest st, st.running⟩ l it
    simp only [and_true] at h0
    cases ok with
    | false => exact h0
    | true =>
      have h1 := readsOf_cons { st with log := ⟨cl, cd.it, .read, newest st, st.running⟩ :: st.log }
        ⟨cl, cd.it, .rename, newest st, st.running⟩ l it
      simp only [reduceCtorEq, and_false, if_false, Nat.add_zero] at h1
      rw [← h0, ← h1]
      cases cl <;> rfl
  refine ⟨hb, ?_, ?_, ?_, ?_, ?_, ?_⟩
  · intro x hx
    obtain ⟨y, hy, he⟩ : ∃ d ∈ st.produced, d.it = x.it := by
      rcases quarantine_log st c ok hx with h1 | ⟨_, _, h1⟩
      · exact h.logSub x h1
      · exact ⟨c.2, hcp, h1.symm⟩
    exact ⟨y, q1 ▸ hy, he⟩
  · intro l d hd hdn
    have hd : d ∈ st.produced := q1 ▸ hd
    rw [hreads]
    have h1 := h.one l d hd hdn
    split
    · next he =>
      have : c.2 = d := h.base.incr.eq_of_it hcp hd he.2
      by_cases h2 : 1 ≤ readsOf st l d.it
      · exact absurd hc (by have := (h.gone l d hd hdn h2).1
                            rw [← ‹c.2 = d›, ← he.1] at this; exact this)
      · omega
    · exact h1
  · intro l d hd hdn hge
    have hd : d ∈ st.produced := q1 ▸ hd
    rw [hreads] at hge
    dsimp only
    rw [hfiles', hfin]
    by_cases he : c.1 = l ∧ c.2.it = d.it
    · have hcd : c.2 = d := h.base.incr.eq_of_it hcp hd he.2
      have hcc : c = (l, d) := by rw [← he.1, ← hcd]
      refine ⟨hcc ▸ hn.1, fun hff => ?_⟩
      have hsc := h.scrOnly hff c hc
      refine ⟨he.1 ▸ hsc, ?_⟩
      cases ok with
      | true =>
        left
        rw [hcc] at hsc ⊢
        simp only at hsc; subst hsc
        simp [Stream.quarantine, touch, mem_dropIt]
      | false =>
        right
        rw [hcc] at hsc ⊢
        simp only at hsc; subst hsc
        simp [Stream.quarantine, touch]
    · rw [if_neg he] at hge
      obtain ⟨h1, h2⟩ := h.gone l d hd hdn hge
      refine ⟨fun hh => h1 (by rw [hfiles]; exact List.mem_cons_of_mem _ hh), fun hff => ?_⟩
      obtain ⟨h3, h4⟩ := h2 hff
      refine ⟨h3, ?_⟩
      rcases h4 with h4 | h4
      · exact Or.inl fun hh => h4 (q3.subset hh)
      · right
        obtain ⟨cl, cd⟩ := c
        cases ok <;> cases cl <;> simp [Stream.quarantine, touch, h4]
  · dsimp only; rw [hfiles']; exact hn.2
  · dsimp only
    obtain ⟨cl, cd⟩ := c
    cases ok <;> cases cl <;> first | exact h.mirNodup | exact h.mirNodup.sublist List.filter_sublist
  · dsimp only; rw [hfiles', hfin]
    exact fun hff x hx => h.scrOnly hff x (by rw [hfiles]; exact List.mem_cons_of_mem _ hx)

/-- Publishing keeps the mirror duplicate free. -/
theorem publish_nodup {st : St P} (h : st.mirror.Nodup) {d : Dump P} (hm : mirrored st d.it = false) :
    (publish st d).mirror.Nodup := by
  show (st.mirror ++ [d]).Nodup
  rw [List.nodup_append]
  refine ⟨h, by simp, ?_⟩
  intro a ha b hb heq
  simp at hb; subst hb; subst heq
  have : mirrored st a.it = true := by
    simp only [mirrored, List.any_eq_true, decide_eq_true_eq]; exact ⟨a, ha, rfl⟩
  rw [hm] at this; cases this

/-- A touch that is not the read of an unreadable dump. -/
theorem reads_other {st : St P} {t : Touch} (hb : Base st) {c : Dump P} (hc : c ∈ st.produced) (ht : t.it = c.it)
    (hop : t.op ≠ .read ∨ c.body.isSome = true) : ∀ l, ∀ d ∈ st.produced, d.body = none →
      readsOf { st with log := t :: st.log } l d.it = readsOf st l d.it := by
  intro l d hd hdn
  rw [readsOf_cons, if_neg]
  · rfl
  · rintro ⟨_, h2, h3⟩
    rcases hop with h | h
    · exact h h3
    · have : c = d := hb.incr.eq_of_it hc hd (ht.symm.trans h2)
      subst this; rw [hdn] at h; cases h

theorem Inv12.tick {st : St P} (h : Inv12 st) (cfg : Cfg) (ok : Bool) : Inv12 (tick cfg st ok) := by
  have hB := h.base.tick cfg ok
  revert hB
  have hS : ∀ {pc}, st.pc = pc → (∀ c ∈ pcFiles pc, c.2 ∈ st.produced) ∧ (pcFiles pc).Nodup := by
    rintro pc rfl; exact ⟨h.base.todoSub, h.nodup⟩
  have same : ∀ l, ∀ d ∈ st.produced, d.body = none → readsOf st l d.it = readsOf st l d.it := fun _ _ _ _ => rfl
  have tl : ∀ {d : Dump P} {t}, (filesAt Loc.scratch (d :: t)).Nodup → (filesAt .scratch t).Nodup := by
    intro d t hh; exact (List.nodup_cons.1 hh).2
  refine tick_cases (motive := fun s => Base s → Inv12 s) cfg st ok ?_ ?_ ?_ ?_ ?_ ?_ ?_ ?_ ?_ ?_ ?_ ?_ ?_ ?_ ?_ ?_ ?_ ?_ ?_ ?_ ?_ ?_
  · intro _ _; exact h
  · intro fin he hB; exact h.leave fin hB (by rw [he]; rfl) rfl rfl rfl rfl rfl
  · intro fin d t he hs hB
    exact h.move hB rfl (fun _ h => Or.inl h) same (fun _ h => h) (fun _ h => h) (by rw [he]; exact id)
      (by rw [he]; exact fun _ h => h) (hS he).2 h.mirNodup
  · intro fin d t he hs hB
    have hd : (Loc.scratch, d) ∈ pcFiles st.pc := by rw [he]; simp [pcFiles, filesAt]
    refine h.move hB rfl ?_ (reads_other h.base (h.base.todoSub _ hd) rfl (Or.inl (by simp))) (fun _ h => h) (fun _ h => h) (by rw [he]; exact id)
      (by rw [he]; exact fun _ h => h) (hS he).2 (publish_nodup h.mirNodup hs)
    intro x hx
    rcases List.mem_cons.1 hx with rfl | hx
    · exact Or.inr ⟨_, hd, rfl⟩
    · exact Or.inl hx
  · intro fin d t he hB
    exact h.move hB rfl (fun _ h => Or.inl h) same (fun _ h => h) (fun _ h => h) (by rw [he]; exact id)
      (by rw [he]; intro c hc; simp [pcFiles, filesAt] at hc ⊢; exact Or.inr hc) (tl (hS he).2) h.mirNodup
  · intro fin d t he hB
    have hd : (Loc.scratch, d) ∈ pcFiles st.pc := by rw [he]; simp [pcFiles, filesAt]
    refine h.move hB rfl ?_ (reads_other h.base (h.base.todoSub _ hd) rfl (Or.inl (by simp)))
      (fun _ h => (mem_dropIt.1 h).1) (fun _ h => h) (by rw [he]; exact id)
      (by rw [he]; intro c hc; simp [pcFiles, filesAt] at hc ⊢; exact Or.inr hc) (tl (hS he).2) h.mirNodup
    intro x hx
    rcases List.mem_cons.1 hx with rfl | hx
    · exact Or.inr ⟨_, hd, rfl⟩
    · exact Or.inl hx
  · intro fin d t he hB
    exact h.move hB rfl (fun _ h => Or.inl h) same (fun _ h => h) (fun _ h => h) (by rw [he]; exact id)
      (by rw [he]; intro c hc; simp [pcFiles, filesAt] at hc ⊢; exact Or.inr hc) (tl (hS he).2) h.mirNodup
  · intro fin he hB; exact h.leave fin hB (by rw [he]; rfl) rfl rfl rfl rfl rfl
  · intro fin c t he hb hB
    exact h.quarantine (by rw [he]; rfl) rfl (by rw [he]; rfl) hb ok hB
  · intro fin c t p he hb _ hB
    have hd : c ∈ pcFiles st.pc := by rw [he]; simp [pcFiles]
    refine h.move hB rfl ?_ (reads_other h.base (h.base.todoSub _ hd) rfl (Or.inr (by rw [hb]; rfl))) (fun _ h => h) (fun _ h => h) (by rw [he]; exact id)
      (by rw [he]; exact fun _ h => h) (hS he).2 h.mirNodup
    intro x hx
    rcases List.mem_cons.1 hx with rfl | hx
    · exact Or.inr ⟨_, hd, rfl⟩
    · exact Or.inl hx
  · intro fin c t p he hb _ hB
    have hd : c ∈ pcFiles st.pc := by rw [he]; simp [pcFiles]
    refine h.move hB rfl ?_ (reads_other h.base (h.base.todoSub _ hd) rfl (Or.inr (by rw [hb]; rfl))) (fun _ h => h) (fun _ h => h) (by rw [he]; exact id)
      (by rw [he]; exact fun _ h => h) (hS he).2 h.mirNodup
    intro x hx
    rcases List.mem_cons.1 hx with rfl | hx
    · exact Or.inr ⟨_, hd, rfl⟩
    · exact Or.inl hx
  · intro fin w he _ hB; exact h.leave fin hB (by rw [he]; rfl) rfl rfl rfl rfl rfl
  · intro fin t he _ hB; exact h.leave fin hB (by rw [he]; rfl) rfl rfl rfl rfl rfl
  · intro fin c t w he _ _ hB
    exact h.move hB rfl (fun _ h => Or.inl h) same (fun _ h => h) (fun _ h => h) (by rw [he]; exact id)
      (by rw [he]; exact fun _ h => h) (hS he).2 h.mirNodup
  · intro fin c t w he _ _ hb hB
    exact h.quarantine (by rw [he]; rfl) rfl (by rw [he]; rfl) hb ok hB
  · intro fin c t w p he _ _ hb hB
    have hd : c ∈ pcFiles st.pc := by rw [he]; simp [pcFiles]
    refine h.move hB rfl ?_ (reads_other h.base (h.base.todoSub _ hd) rfl (Or.inr (by rw [hb]; rfl))) (fun _ h => h) (fun _ h => h) (by rw [he]; exact id)
      (by rw [he]; exact fun _ h => h) (hS he).2 h.mirNodup
    intro x hx
    rcases List.mem_cons.1 hx with rfl | hx
    · exact Or.inr ⟨_, hd, rfl⟩
    · exact Or.inl hx
  · intro fin c t he _ _ _ hB
    have hd : c ∈ pcFiles st.pc := by rw [he]; simp [pcFiles]
    refine h.move hB rfl ?_ (reads_other h.base (h.base.todoSub _ hd) rfl (Or.inl (by simp))) (fun _ h => h) (fun _ h => h) (by rw [he]; exact id)
      (by rw [he]; exact fun x hx => List.mem_cons_of_mem _ hx) (List.nodup_cons.1 (hS he).2).2 (h.mirNodup.sublist List.filter_sublist)
    intro x hx
    rcases List.mem_cons.1 hx with rfl | hx
    · exact Or.inr ⟨_, hd, rfl⟩
    · exact Or.inl hx
  · intro fin c t he hB
    exact h.move hB rfl (fun _ h => Or.inl h) same (fun _ h => h) (fun _ h => h) (by rw [he]; exact id)
      (by rw [he]; exact fun x hx => List.mem_cons_of_mem _ hx) (List.nodup_cons.1 (hS he).2).2 h.mirNodup
  · intro fin c t he _ _ _ hB
    exact h.move hB rfl (fun _ h => Or.inl h) same (fun _ h => h) (fun _ h => h) (by rw [he]; exact id)
      (by rw [he]; exact fun _ h => h) (hS he).2 h.mirNodup
  · intro fin c t he _ _ _ hm hB
    have hd : c ∈ pcFiles st.pc := by rw [he]; simp [pcFiles]
    refine h.move hB rfl ?_ (reads_other h.base (h.base.todoSub _ hd) rfl (Or.inl (by simp))) (fun _ h => h) (fun _ h => h) (by rw [he]; exact id)
      (by rw [he]; exact fun _ h => h) (hS he).2 (publish_nodup h.mirNodup hm)
    intro x hx
    rcases List.mem_cons.1 hx with rfl | hx
    · exact Or.inr ⟨_, hd, rfl⟩
    · exact Or.inl hx
  · intro fin c t he hB
    have hd : c ∈ pcFiles st.pc := by rw [he]; simp [pcFiles]
    refine h.move hB rfl ?_ (reads_other h.base (h.base.todoSub _ hd) rfl (Or.inl (by simp)))
      (fun _ h => (mem_dropIt.1 h).1) (fun _ h => h) (by rw [he]; exact id)
      (by rw [he]; exact fun x hx => List.mem_cons_of_mem _ hx) (List.nodup_cons.1 (hS he).2).2 h.mirNodup
    intro x hx
    rcases List.mem_cons.1 hx with rfl | hx
    · exact Or.inr ⟨_, hd, rfl⟩
    · exact Or.inl hx
  · intro fin c t he hB
    exact h.move hB rfl (fun _ h => Or.inl h) same (fun _ h => h) (fun _ h => h) (by rw [he]; exact id)
      (by rw [he]; exact fun x hx => List.mem_cons_of_mem _ hx) (List.nodup_cons.1 (hS he).2).2 h.mirNodup

/-- Starting a sweep of the grid diagnostic. -/
theorem Inv12.start {st : St P} (h : Inv12 st) (hpc : st.pc = .idle) {st' : St P} (hb : Base st')
    (h1 : st'.produced = st.produced) (h2 : st'.log = st.log) (h3 : st'.scratch = st.scratch)
    (h4 : st'.mirror = st.mirror) (h5 : st'.bad = st.bad)
    (hn : (pcFiles st'.pc).Nodup)
    (hlist : ∀ c ∈ pcFiles st'.pc, c ∈ listing st .scratch ∨ (st'.pc.fin = true ∧ c ∈ listing st .mirror)) :
    Inv12 st' := by
  have hidle : st.pc.fin = false := by rw [hpc]; rfl
  refine ⟨hb, by rw [h1, h2]; exact h.logSub, ?_, ?_, hn, by rw [h4]; exact h.mirNodup, ?_⟩
  · intro l d hd hdn; rw [h1] at hd; rw [readsOf_congr h2]; exact h.one l d hd hdn
  · intro l d hd hdn hge
    rw [h1] at hd
    rw [readsOf_congr h2] at hge
    obtain ⟨-, g2⟩ := h.gone l d hd hdn hge
    obtain ⟨g3, g4⟩ := g2 hidle
    subst g3
    refine ⟨fun hh => ?_, fun _ => ⟨rfl, by rw [h3, h5]; exact g4⟩⟩
    rcases hlist _ hh with h6 | ⟨_, h6⟩
    · obtain ⟨_, h7, h8⟩ := mem_listing.1 h6
      rcases g4 with g4 | g4
      · exact g4 h7
      · exact h8 g4
    · cases (mem_listing.1 h6).1
  · intro hf c hc
    rcases hlist c hc with h6 | ⟨h6, _⟩
    · obtain ⟨l, d⟩ := c; exact (mem_listing.1 h6).1
    · rw [hf] at h6; cases h6

theorem nodup_of_lt {l : List (Loc × Dump P)} (h : l.Pairwise fun a b => a.2.it < b.2.it) : l.Nodup := by
  refine h.imp ?_
  intro a b hab he; rw [he] at hab; omega

theorem listing_nodup {st : St P} (h : Inv12 st) (l : Loc) : (listing st l).Nodup := by
  cases l with
  | scratch => exact nodup_of_lt (listing_scratch_sorted h.base.scr)
  | mirror =>
    unfold listing
    refine List.Nodup.sublist List.filter_sublist (sortIt_nodup ?_)
    have : (filesAt Loc.mirror st.mirror).Pairwise (· ≠ ·) := by
      unfold filesAt
      rw [List.pairwise_map]
      exact List.Pairwise.imp (fun hab he => hab (by injection he)) h.mirNodup
    exact this

theorem finalCands_nodup {st : St P} (h : Inv12 st) (cfg : Cfg) : (finalCands cfg st).Nodup := by
  unfold finalCands
  split
  · apply sortIt_nodup
    rw [List.nodup_append]
    refine ⟨listing_nodup h _, listing_nodup h _, ?_⟩
    rintro ⟨l, d⟩ ha ⟨l', d'⟩ hb he
    have h1 := (mem_listing.1 ha).1
    have h2 := (mem_listing.1 hb).1
    subst h1; subst h2; cases he
  · exact listing_nodup h _

theorem filesAt_map_listing {st : St P} {l : List (Loc × Dump P)} (h : ∀ c ∈ l, c.1 = Loc.scratch) :
    filesAt .scratch (l.map (·.2)) = l := by
  unfold filesAt
  rw [List.map_map]
  conv => rhs; rw [← List.map_id l]
  apply List.map_congr_left
  intro c hc
  have := h c hc
  obtain ⟨cl, cd⟩ := c
  simp only at this; subst this; rfl

theorem Inv12.step {st : St P} {cfg : Cfg} (hraw : cfg.raw = false) (h : Inv12 st) (e : Ev P) (hk : e ≠ .kill) :
    Inv12 (step cfg st e) := by
  have hB := h.base.step cfg e
  revert hB
  have dl : (listing st .scratch).dropLast.Nodup := (listing_nodup h .scratch).sublist (List.dropLast_sublist _)
  have cl : Inv12 (closeAll st) ∨ st.running = true := by
    by_cases hr : st.running = true
    · exact Or.inr hr
    · left
      have hB := h.base.closeAll (by simpa using hr)
      obtain ⟨f1, f2, f3, f4, f5, f6, f7, f8, f9⟩ := closeAll_fields st
      refine h.move hB f1 ?_ ?_ ?_ ?_ ?_ ?_ ?_ ?_
      · rw [f6]; exact fun t ht => Or.inl ht
      · intro l d _ _; exact readsOf_congr f6 l d.it
      · rw [f3]; exact fun _ h => h
      · rw [f8]; exact fun _ h => h
      · rw [f5]; simp [Pc.fin]
      · rw [f5]; simp [pcFiles]
      · rw [f5]; simp [pcFiles]
      · rw [f4]; exact h.mirNodup
  refine step_cases (motive := fun s => Base s → Inv12 s) cfg st e ?_ ?_ ?_ ?_ ?_ ?_ ?_ ?_ ?_
  · intro _; exact h
  · intro d _ hrun hlt hB
    have hge : ∀ x ∈ st.produced, x.it < d.it := fun x hx => by
      have := newest_ge h.base.incr hx; omega
    have hz : ∀ l, readsOf st l d.it = 0 := by
      intro l
      unfold readsOf
      rw [List.length_eq_zero_iff, List.filter_eq_nil_iff]
      intro t ht
      simp only [decide_eq_true_eq, not_and]
      intro _ h2
      obtain ⟨x, hx, he⟩ := h.logSub t ht
      have := hge x hx; omega
    refine ⟨hB, ?_, ?_, ?_, h.nodup, h.mirNodup, h.scrOnly⟩
    · intro t ht
      obtain ⟨x, hx, he⟩ := h.logSub t ht
      exact ⟨x, List.mem_append_left _ hx, he⟩
    · intro l x hx hxn
      rcases List.mem_append.1 hx with hx | hx
      · exact h.one l x hx hxn
      · simp at hx; subst hx
        show readsOf st l x.it ≤ 1
        rw [hz]; omega
    · intro l x hx hxn hge1
      rcases List.mem_append.1 hx with hx0 | hx
      · obtain ⟨g1, g2⟩ := h.gone l x hx0 hxn hge1
        refine ⟨g1, fun hf => ?_⟩
        obtain ⟨g3, g4⟩ := g2 hf
        refine ⟨g3, ?_⟩
        rcases g4 with g4 | g4
        · left
          intro hh
          rcases List.mem_append.1 hh with hh | hh
          · exact g4 hh
          · simp at hh; subst hh
            have := hge _ hx0; omega
        · exact Or.inr g4
      · simp at hx; subst hx
        have hge1 : 1 ≤ readsOf st l x.it := hge1
        rw [hz] at hge1; omega
  · intro hB; exact ⟨hB, h.logSub, h.one, h.gone, h.nodup, h.mirNodup, h.scrOnly⟩
  · intro s _ hpc
    refine startScan_cases (motive := fun s => Base s → Inv12 s) cfg st s ?_ ?_ ?_ ?_ ?_
    · intro _; exact h
    · intro hr; rw [hraw] at hr; cases hr
    · intro _ _ _ hB
      have he : filesAt Loc.scratch (((listing st .scratch).dropLast).map (·.2)) = (listing st .scratch).dropLast := by
        apply filesAt_map_listing (st := st)
        rintro ⟨l, d⟩ hc
        exact (mem_listing.1 (List.dropLast_subset _ hc)).1
      refine h.start hpc hB rfl rfl rfl rfl rfl ?_ ?_
      · show (filesAt Loc.scratch _).Nodup
        rw [he]; exact dl
      · intro c hc
        have hc : c ∈ filesAt Loc.scratch _ := hc
        rw [he] at hc; exact Or.inl (List.dropLast_subset _ hc)
    · intro _ _ _ _ hB
      exact h.start hpc hB rfl rfl rfl rfl rfl dl (fun c hc => Or.inl (List.dropLast_subset _ hc))
    · intro w _ _ _ _ hB
      exact h.start hpc hB rfl rfl rfl rfl rfl dl (fun c hc => Or.inl (List.dropLast_subset _ hc))
  · intro _ hpc hr
    have fc : ∀ c ∈ finalCands cfg st, c ∈ listing st .scratch ∨ (true = true ∧ c ∈ listing st .mirror) := by
      intro c hc
      unfold finalCands at hc
      split at hc
      · rw [mem_sortIt] at hc
        rcases List.mem_append.1 hc with hc | hc
        · exact Or.inr ⟨rfl, hc⟩
        · exact Or.inl hc
      · exact Or.inl hc
    refine startFinal_cases (motive := fun s => Base s → Inv12 s) cfg st ?_ ?_ ?_ ?_
    · intro _ _
      rcases cl with cl | cl
      · exact cl
      · rw [hr] at cl; cases cl
    · intro hr; rw [hraw] at hr; cases hr
    · intro _ _ _ hB
      exact h.start hpc hB rfl rfl rfl rfl rfl (finalCands_nodup h cfg) fc
    · intro w _ _ _ hB
      exact h.start hpc hB rfl rfl rfl rfl rfl (finalCands_nodup h cfg) fc
  · intro _ _ hr _
    rcases cl with cl | cl
    · exact cl
    · rw [hr] at cl; cases cl
  · intro ok _ _; exact h.tick cfg ok
  · intro _ _ _ _ _ _ _ hB
    refine h.move hB rfl (fun _ h => Or.inl h) (fun _ _ _ _ => rfl) (fun _ h => h) (fun _ h => h) ?_ ?_ ?_ h.mirNodup
    · dsimp only; split
      · simp [Pc.fin]
      · next hf => intro _; simpa using hf
    · dsimp only; split <;> simp [pcFiles]
    · dsimp only; split <;> simp [pcFiles]
  · intro he; exact absurd he hk

theorem Inv12.init : Inv12 (init P) := by
  constructor <;> simp [Stream.init, pcFiles, readsOf]
  exact Base.init

theorem Inv12.run {cfg : Cfg} (hraw : cfg.raw = false) {st : St P} (h : Inv12 st) (es : List (Ev P))
    (hk : ∀ e ∈ es, e ≠ .kill) : Inv12 (run cfg st es) := by
  induction es generalizing st with
  | nil => exact h
  | cons e es ih =>
    exact ih (h.step hraw e (hk e (List.mem_cons_self ..))) (fun e' he' => hk e' (List.mem_cons_of_mem _ he'))

end Verif.Stream
