import Verif.Lemmas.StreamBase

namespace Verif.Stream
variable {P : Type}

/-- Iteration of the last consumed slot. -/
abbrev lastSlot (st : St P) : Int := lastOnDisk (slots st)

/-- `d` is readable and not consumed yet. -/
def Fresh (st : St P) (d : Dump P) : Prop := d ∈ st.produced ∧ d.body.isSome = true ∧ lastSlot st < d.it

/-- The candidates still to process contain every fresh dump, except (while
OSIRIS may run) dumps newer than all of them. -/
def Cover (st : St P) (fin : Bool) (todo : List (Loc × Dump P)) : Prop :=
  ∀ d, Fresh st d → (∃ l, (l, d) ∈ todo) ∨ (fin = false ∧ ∀ c ∈ todo, c.2.it < d.it)

abbrev Sorted (todo : List (Loc × Dump P)) : Prop := todo.Pairwise fun a b => a.2.it ≤ b.2.it

/-- What holds at each place of the watcher loop (grid diagnostics). -/
def PcInv (cfg : Cfg) (st : St P) : Prop :=
  match st.pc with
  | .idle => pending st = []
  | .done => pending st = []
  | .spill fin todo => fin = false ∧ st.spilled = true ∧ pending st = [] ∧
      (todo = [] ∨ ∃ k ∈ st.scratch, ∀ t ∈ todo, t.it < k.it)
  | .spillUnlink fin d todo => fin = false ∧ st.spilled = true ∧ pending st = [] ∧ d ∈ st.mirror ∧
      (∃ k ∈ st.scratch, ∀ t ∈ d :: todo, t.it < k.it)
  | .openW fin todo => st.writer = none ∧ Sorted todo ∧ Cover st fin todo ∧ (fin = false → st.spilled = false)
  | .loop fin todo => st.writer.isSome = true ∧ Sorted todo ∧ Cover st fin todo ∧
      (fin = false → st.spilled = false)
  | .clean fin c todo => st.writer.isSome = true ∧ Sorted todo ∧ Cover st fin todo ∧
      (fin = false → st.spilled = false) ∧ c.2.it ≤ lastSlot st
  | .cleanUnlink fin c todo => cfg.staged = true ∧ st.writer.isSome = true ∧ Sorted todo ∧ Cover st fin todo ∧
      (fin = false → st.spilled = false) ∧ c.2.it ≤ lastSlot st

/-- Main invariant for a grid diagnostic. -/
structure Inv (cfg : Cfg) (st : St P) : Prop where
  base : Base st
  slotsPre : slots st <+: readables st.produced
  last : ∀ w, st.writer = some w → w.lastIter = lastSlot st
  avail : ∀ d, Fresh st d → d ∈ st.scratch ∨ (st.spilled = true ∧ d ∈ st.mirror)
  badNone : ∀ b ∈ st.bad, ∃ d ∈ st.produced, d.it = b.2 ∧ d.body = none
  spillStaged : st.spilled = true → cfg.staged = true
  inPlace : cfg.staged = false → ∀ d ∈ st.produced, d.body.isSome = true → d ∈ st.scratch
  held : st.spilled = true → st.pc.fin = false → st.scratch = [] → ∀ d, ¬ Fresh st d
  pcInv : PcInv cfg st

theorem Inv.init (cfg : Cfg) : Inv cfg (init P) where
  base := Base.init
  slotsPre := by simp [slots, disk, pending, Stream.init]
  last := by simp [Stream.init]
  avail := by simp [Fresh, Stream.init]
  badNone := by simp [Stream.init]
  spillStaged := by simp [Stream.init]
  inPlace := by simp [Stream.init]
  held := by simp [Stream.init]
  pcInv := by simp [PcInv, Stream.init, pending]

theorem Inv.readPos {cfg : Cfg} {st : St P} (h : Inv cfg st) : ∀ s ∈ readables st.produced, 0 ≤ s.1 := by
  intro s hs
  obtain ⟨d, hd, he, _⟩ := mem_readables.1 hs
  rw [← he]; exact h.base.pos d hd

theorem Inv.readIncr {cfg : Cfg} {st : St P} (h : Inv cfg st) :
    (readables st.produced).Pairwise fun a b => a.1 < b.1 := readables_incr h.base.incr

theorem Inv.bad_fresh {cfg : Cfg} {st : St P} (h : Inv cfg st) {d : Dump P} (hd : d ∈ st.produced)
    (hb : d.body.isSome = true) (l : Loc) : (l, d.it) ∉ st.bad := by
  intro hbad
  obtain ⟨d', h1, h2, h3⟩ := h.badNone _ hbad
  have : d' = d := h.base.incr.eq_of_it h1 hd h2
  subst this; rw [h3] at hb; cases hb

/-- No fresh dump left: the slots are exactly the readable dumps. -/
theorem Inv.full {cfg : Cfg} {st : St P} (h : Inv cfg st) (hno : ∀ d, ¬ Fresh st d) :
    slots st = readables st.produced := by
  refine prefix_full h.readIncr h.readPos h.slotsPre ?_
  intro y hy hlt
  obtain ⟨d, hd, he, hb⟩ := mem_readables.1 hy
  exact hno d ⟨hd, by rw [hb]; rfl, by rw [he]; exact hlt⟩

/-- Same slots, same produced: `Fresh` and `Cover` do not change. -/
theorem Fresh.congr {st st' : St P} (hp : st'.produced = st.produced) (hs : slots st' = slots st) {d : Dump P} :
    Fresh st' d ↔ Fresh st d := by
  unfold Fresh; rw [hp, lastSlot, lastSlot, hs]

theorem Cover.congr {st st' : St P} (hp : st'.produced = st.produced) (hs : slots st' = slots st)
    {fin : Bool} {todo : List (Loc × Dump P)} (h : Cover st fin todo) : Cover st' fin todo :=
  fun d hd => h d ((Fresh.congr hp hs).1 hd)

/-- Dropping a consumed or unreadable candidate keeps the cover. -/
theorem Cover.tail {st : St P} {fin : Bool} {c : Loc × Dump P} {todo : List (Loc × Dump P)}
    (h : Cover st fin (c :: todo)) (hc : ¬ Fresh st c.2) : Cover st fin todo := by
  intro d hd
  rcases h d hd with ⟨l, hl⟩ | ⟨hf, hl⟩
  · rcases List.mem_cons.1 hl with he | hl
    · exact absurd hd (by have : c.2 = d := by rw [← he]
                          exact this ▸ hc)
    · exact Or.inl ⟨l, hl⟩
  · exact Or.inr ⟨hf, fun x hx => hl x (List.mem_cons_of_mem _ hx)⟩

/-- Appending the first fresh candidate extends the prefix. -/
theorem append_prefix {cfg : Cfg} {st : St P} (h : Inv cfg st) {fin : Bool} {c : Loc × Dump P}
    {todo : List (Loc × Dump P)} {p : P} (hcov : Cover st fin (c :: todo)) (hsort : Sorted (c :: todo))
    (hc : c.2 ∈ st.produced) (hb : c.2.body = some p) (hlt : lastSlot st < c.2.it) :
    slots st ++ [(c.2.it, p)] <+: readables st.produced := by
  refine prefix_extend h.readIncr h.readPos h.slotsPre (mem_readables.2 ⟨c.2, hc, rfl, hb⟩) hlt ?_
  intro y hy hylt
  obtain ⟨d, hd, he, hdb⟩ := mem_readables.1 hy
  have hfresh : Fresh st d := ⟨hd, by rw [hdb]; rfl, by rw [he]; exact hylt⟩
  show c.2.it ≤ y.1
  rw [← he]
  rcases hcov d hfresh with ⟨l, hl⟩ | ⟨_, hl⟩
  · rcases List.mem_cons.1 hl with heq | hl
    · have : c.2 = d := by rw [← heq]
      rw [this]; exact Int.le_refl _
    · exact (List.pairwise_cons.1 hsort).1 _ hl
  · exact Int.le_of_lt (hl c (List.mem_cons_self ..))

/-- Effect of `w.append` on the slots. -/
theorem wAppend_spec (ct : Nat) (d : List (Int × P)) (w : Writer (Int × P)) (s : Int × P) :
    (wAppend ct d w s).1 ++ (wAppend ct d w s).2.pending = d ++ w.pending ++ [s] ∧
    (wAppend ct d w s).2.lastIter = (if s.1 > w.lastIter then s.1 else w.lastIter) ∧
    (0 < ct → w.pending.length < ct → (wAppend ct d w s).2.pending.length < ct) := by
  unfold wAppend wLand
  dsimp only
  by_cases h : ct ≤ (w.pending ++ [s]).length
  · rw [if_pos h]; simp; intro h1 _; exact h1
  · rw [if_neg h]; simp at h ⊢; omega

theorem slots_appendSt (cfg : Cfg) (st : St P) (w : Writer (Int × P)) (s : Int × P) :
    slots (appendSt cfg st w s) = disk st ++ w.pending ++ [s] := by
  have := (wAppend_spec cfg.ct (disk st) w s).1
  simpa [slots, appendSt, disk, pending] using this

/-- What one slot-preserving watcher move has to respect. -/
theorem Inv.move {cfg : Cfg} {st st' : St P} (h : Inv cfg st) (hb : Base st')
    (hp : st'.produced = st.produced) (hslots : slots st' = slots st)
    (hlast : ∀ w, st'.writer = some w → w.lastIter = lastSlot st)
    (havail : ∀ d, Fresh st d → d ∈ st'.scratch ∨ (st'.spilled = true ∧ d ∈ st'.mirror))
    (hbad : ∀ b ∈ st'.bad, ∃ d ∈ st.produced, d.it = b.2 ∧ d.body = none)
    (hsp : st'.spilled = true → cfg.staged = true)
    (hin : cfg.staged = false → ∀ d ∈ st.produced, d.body.isSome = true → d ∈ st'.scratch)
    (hheld : st'.spilled = true → st'.pc.fin = false → st'.scratch = [] → ∀ d, ¬ Fresh st d)
    (hpc : PcInv cfg st') : Inv cfg st' where
  base := hb
  slotsPre := by rw [hslots, hp]; exact h.slotsPre
  last w hw := by rw [lastSlot, hslots]; exact hlast w hw
  avail d hd := havail d ((Fresh.congr hp hslots).1 hd)
  badNone := hp ▸ hbad
  spillStaged := hsp
  inPlace hs d hd := hin hs d (hp ▸ hd)
  held h1 h2 h3 d hd := hheld h1 h2 h3 d ((Fresh.congr hp hslots).1 hd)
  pcInv := hpc

theorem mirrored_mem {st : St P} (h : Base st) {d : Dump P} (hd : d ∈ st.produced)
    (hm : mirrored st d.it = true) : d ∈ st.mirror := by
  simp only [mirrored, List.any_eq_true, decide_eq_true_eq] at hm
  obtain ⟨d', h1, h2⟩ := hm
  exact h.incr.eq_of_it (h.mirSub _ h1) hd h2 ▸ h1

theorem closeAll_slots (st : St P) : slots (closeAll st) = slots st ∧ pending (closeAll st) = [] ∧
    (closeAll st).writer = none := by
  unfold closeAll
  split
  · next w hw => simp [slots, disk, pending, hw]
  · next hw => simp [slots, disk, pending, hw]

theorem leave_slots (st : St P) (fin : Bool) : slots (leave st fin) = slots st ∧
    (fin = true → pending (leave st fin) = []) ∧ (fin = true → (leave st fin).writer = none) ∧
    (fin = false → (leave st fin).writer = st.writer) := by
  unfold leave
  split
  · next h => have := closeAll_slots st; simp_all
  · next h => simp [slots, disk, pending, h]

theorem Inv.leave {cfg : Cfg} {st : St P} (h : Inv cfg st) (fin : Bool) (hf : fin = true → st.running = false)
    (hpend : fin = false → pending st = [])
    (hheld : fin = false → st.spilled = true → st.scratch = [] → ∀ d, ¬ Fresh st d) : Inv cfg (leave st fin) := by
  obtain ⟨f1, f2, f3, f4, f5, f6, f7, f8, f9⟩ := leave_fields st fin
  obtain ⟨s1, s2, s3, s4⟩ := leave_slots st fin
  refine h.move (h.base.leave fin hf) f1 s1 ?_ ?_ ?_ ?_ ?_ ?_ ?_
  · intro w hw
    cases fin with
    | true => rw [s3 rfl] at hw; cases hw
    | false => rw [s4 rfl] at hw; exact h.last w hw
  · rw [f3, f4, f9]; exact h.avail
  · rw [f8]; exact h.badNone
  · rw [f9]; exact h.spillStaged
  · rw [f3]; exact h.inPlace
  · rw [f9, f5, f3]
    cases fin with
    | true => simp [Pc.fin]
    | false => intro h1 _ h3; exact hheld rfl h1 h3
  · unfold PcInv
    rw [f5]
    cases fin with
    | true => exact s2 rfl
    | false =>
      have : pending (Stream.leave st false) = pending st := by unfold pending; rw [s4 rfl]
      simpa [this] using hpend rfl

theorem Inv.fresh_not_none {cfg : Cfg} {st : St P} (_ : Inv cfg st) {d : Dump P} (hb : d.body = none) :
    ¬ Fresh st d := by
  rintro ⟨_, h2, _⟩; rw [hb] at h2; cases h2

theorem fresh_not_old {st : St P} {d : Dump P} (hle : d.it ≤ lastSlot st) : ¬ Fresh st d := by
  rintro ⟨_, _, h3⟩; omega

/-- Quarantining an unreadable dump. -/
theorem Inv.quarantine {cfg : Cfg} {st : St P} (h : Inv cfg st) {c : Loc × Dump P} (hc : c.2 ∈ st.produced)
    (hb : c.2.body = none) (ok : Bool) (pc' : Pc P) (hbase : Base { quarantine (touch st c.1 c.2.it .read) c ok with pc := pc' })
    (hsp : pc'.fin = false → st.spilled = false)
    (hpc : PcInv cfg { quarantine (touch st c.1 c.2.it .read) c ok with pc := pc' }) :
    Inv cfg { quarantine (touch st c.1 c.2.it .read) c ok with pc := pc' } := by
  obtain ⟨q1, q2, q3, q4, q5, q6, q7, q8⟩ := quarantine_fields (touch st c.1 c.2.it .read) c ok
  have keep : ∀ d ∈ st.produced, d.body.isSome = true →
      (d ∈ st.scratch → d ∈ (Stream.quarantine (touch st c.1 c.2.it .read) c ok).scratch) ∧
      (d ∈ st.mirror → d ∈ (Stream.quarantine (touch st c.1 c.2.it .read) c ok).mirror) := by
    intro d hd hds
    have hne : d.it ≠ c.2.it := by
      intro he
      have := h.base.incr.eq_of_it hd hc he
      subst this; rw [hb] at hds; cases hds
    unfold Stream.quarantine touch
    obtain ⟨l, dd⟩ := c
    cases ok <;> cases l <;> simp [mem_dropIt, hne]
  refine h.move hbase q1 ?_ ?_ ?_ ?_ ?_ ?_ ?_ hpc
  · simp only [slots, disk, pending]
    rw [show (Stream.quarantine (touch st c.1 c.2.it .read) c ok).nc = st.nc from q5,
      show (Stream.quarantine (touch st c.1 c.2.it .read) c ok).writer = st.writer from q6]
  · intro w hw
    rw [show (Stream.quarantine (touch st c.1 c.2.it .read) c ok).writer = st.writer from q6] at hw
    exact h.last w hw
  · intro d hd
    have := keep d hd.1 hd.2.1
    rcases h.avail d hd with h1 | ⟨h1, h2⟩
    · exact Or.inl (this.1 h1)
    · exact Or.inr ⟨q7.trans h1, this.2 h2⟩
  · intro b hbb
    unfold Stream.quarantine at hbb
    cases ok with
    | true =>
      obtain ⟨l, dd⟩ := c
      cases l <;> exact h.badNone b hbb
    | false =>
      simp only [Bool.false_eq_true, if_false] at hbb
      rcases List.mem_cons.1 hbb with rfl | hbb
      · exact ⟨c.2, hc, rfl, hb⟩
      · exact h.badNone b hbb
  · intro hs; exact h.spillStaged (q7 ▸ hs)
  · intro hs d hd hds
    exact (keep d hd hds).1 (h.inPlace hs d hd hds)
  · intro h1 h2 _
    have h1' : st.spilled = true := q7 ▸ h1
    rw [hsp h2] at h1'; cases h1'

/-- Appending the head candidate. -/
theorem Inv.append {cfg : Cfg} {st : St P} (h : Inv cfg st) {fin : Bool} {c : Loc × Dump P}
    {t : List (Loc × Dump P)} {p : P} {w : Writer (Int × P)} (hcov : Cover st fin (c :: t))
    (hsort : Sorted (c :: t)) (hc : c.2 ∈ st.produced) (hb : c.2.body = some p)
    (hlt : lastSlot st < c.2.it) (hw : disk st ++ w.pending = slots st) (hwl : w.lastIter = lastSlot st)
    (hsp : fin = false → st.spilled = false)
    (hbase : Base { appendSt cfg (touch st c.1 c.2.it .read) w (c.2.it, p) with pc := .clean fin c t }) :
    Inv cfg { appendSt cfg (touch st c.1 c.2.it .read) w (c.2.it, p) with pc := .clean fin c t } := by
  have hsl : slots { appendSt cfg (touch st c.1 c.2.it .read) w (c.2.it, p) with pc := .clean fin c t } =
      slots st ++ [(c.2.it, p)] := by
    have := slots_appendSt cfg (touch st c.1 c.2.it .read) w (c.2.it, p)
    rw [show disk (touch st c.1 c.2.it .read) = disk st from rfl, hw] at this
    exact this
  have hL : lastSlot { appendSt cfg (touch st c.1 c.2.it .read) w (c.2.it, p) with pc := .clean fin c t } = c.2.it := by
    rw [lastSlot, hsl, lastOnDisk_append]
  have hmono : ∀ d, Fresh { appendSt cfg (touch st c.1 c.2.it .read) w (c.2.it, p) with pc := .clean fin c t } d →
      Fresh st d ∧ c.2.it < d.it := by
    rintro d ⟨h1, h2, h3⟩
    rw [hL] at h3
    exact ⟨⟨h1, h2, by omega⟩, h3⟩
  refine ⟨hbase, ?_, ?_, ?_, h.badNone, h.spillStaged, h.inPlace, ?_, ?_⟩
  · rw [hsl]; exact append_prefix h hcov hsort hc hb hlt
  · intro w' hw'
    rw [hL]
    have : w' = (wAppend cfg.ct (disk st) w (c.2.it, p)).2 := by
      have h1 : some (wAppend cfg.ct (disk st) w (c.2.it, p)).2 = some w' := hw'
      exact (Option.some.inj h1).symm
    rw [this, (wAppend_spec cfg.ct (disk st) w (c.2.it, p)).2.1]
    show (if c.2.it > w.lastIter then c.2.it else w.lastIter) = c.2.it
    rw [if_pos (by omega)]
  · intro d hd; exact h.avail d (hmono d hd).1
  · intro h1 h2 _
    have h1' : st.spilled = true := h1
    rw [hsp h2] at h1'; cases h1'
  · refine ⟨rfl, (List.pairwise_cons.1 hsort).2, ?_, hsp, by rw [hL]; exact Int.le_refl _⟩
    intro d hd
    obtain ⟨hf, hgt⟩ := hmono d hd
    rcases hcov d hf with ⟨l, hl⟩ | ⟨h1, h2⟩
    · rcases List.mem_cons.1 hl with heq | hl
      · have : c.2 = d := by rw [← heq]
        rw [this] at hgt; omega
      · exact Or.inl ⟨l, hl⟩
    · exact Or.inr ⟨h1, fun x hx => h2 x (List.mem_cons_of_mem _ hx)⟩

theorem Inv.tick {cfg : Cfg} {st : St P} (h : Inv cfg st) (ok : Bool) : Inv cfg (tick cfg st ok) := by
  have hB := h.base.tick cfg ok
  revert hB
  have hP : ∀ {pc}, st.pc = pc → PcInv cfg { st with pc := pc } := by rintro pc rfl; exact h.pcInv
  have hS : ∀ {pc}, st.pc = pc → (∀ c ∈ pcFiles pc, c.2 ∈ st.produced) ∧ (pc.fin = true → st.running = false) := by
    rintro pc rfl; exact ⟨h.base.todoSub, h.base.finDead⟩
  refine tick_cases (motive := fun s => Base s → Inv cfg s) cfg st ok ?_ ?_ ?_ ?_ ?_ ?_ ?_ ?_ ?_ ?_ ?_ ?_ ?_ ?_ ?_ ?_ ?_ ?_ ?_ ?_ ?_ ?_
  · intro _ _; exact h
  · -- spillNil
    intro fin he _
    obtain ⟨h1, h2, h3, h4⟩ := hP he
    refine h.leave fin (hS he).2 (fun _ => h3) ?_
    intro hf hs hse
    exact h.held hs (by rw [he]; exact hf) hse
  · -- spillSeen
    intro fin d t he hm hB
    obtain ⟨h1, h2, h3, h4⟩ := hP he
    have hd : d ∈ st.produced := (hS he).1 (.scratch, d) (by simp [pcFiles, filesAt])
    refine h.move hB rfl rfl h.last h.avail h.badNone h.spillStaged h.inPlace ?_ ?_
    · intro a _ b; exact h.held a (by rw [he]; exact h1) b
    · refine ⟨h1, h2, h3, mirrored_mem h.base hd hm, ?_⟩
      rcases h4 with h4 | h4
      · cases h4
      · exact h4
  · -- spillCopy
    intro fin d t he hm hB
    obtain ⟨h1, h2, h3, h4⟩ := hP he
    refine h.move hB rfl rfl h.last ?_ h.badNone h.spillStaged h.inPlace ?_ ?_
    · intro x hx
      rcases h.avail x hx with h5 | ⟨h5, h6⟩
      · exact Or.inl h5
      · exact Or.inr ⟨h5, by simp [publish, touch, h6]⟩
    · intro a _ b; exact h.held a (by rw [he]; exact h1) b
    · refine ⟨h1, h2, h3, by simp [publish, touch], ?_⟩
      rcases h4 with h4 | h4
      · cases h4
      · exact h4
  · -- spillFail
    intro fin d t he hB
    obtain ⟨h1, h2, h3, h4⟩ := hP he
    refine h.move hB rfl rfl h.last h.avail h.badNone h.spillStaged h.inPlace ?_ ?_
    · intro a _ b; exact h.held a (by rw [he]; exact h1) b
    · refine ⟨h1, h2, h3, ?_⟩
      rcases h4 with h4 | ⟨k, hk, h4⟩
      · cases h4
      · exact Or.inr ⟨k, hk, fun x hx => h4 x (List.mem_cons_of_mem _ hx)⟩
  · -- spillUn
    intro fin d t he hB
    obtain ⟨h1, h2, h3, h4, k, hk, h5⟩ := hP he
    have hkk : k ∈ dropIt d.it st.scratch := mem_dropIt.2 ⟨hk, by have := h5 d (by simp); omega⟩
    refine h.move hB rfl rfl h.last ?_ h.badNone h.spillStaged ?_ ?_ ?_
    · intro x hx
      by_cases hxd : x.it = d.it
      · have : x = d := h.base.incr.eq_of_it hx.1 (h.base.mirSub _ h4) hxd
        subst this
        exact Or.inr ⟨h2, h4⟩
      · rcases h.avail x hx with h6 | h6
        · exact Or.inl (mem_dropIt.2 ⟨h6, hxd⟩)
        · exact Or.inr h6
    · intro hs; rw [h.spillStaged h2] at hs; cases hs
    · intro _ _ hs
      have : dropIt d.it st.scratch = [] := hs
      rw [this] at hkk; cases hkk
    · exact ⟨h1, h2, h3, Or.inr ⟨k, hkk, fun x hx => h5 x (List.mem_cons_of_mem _ hx)⟩⟩
  · -- spillUnFail
    intro fin d t he hB
    obtain ⟨h1, h2, h3, h4, k, hk, h5⟩ := hP he
    refine h.move hB rfl rfl h.last h.avail h.badNone h.spillStaged h.inPlace ?_ ?_
    · intro a _ b; exact h.held a (by rw [he]; exact h1) b
    · exact ⟨h1, h2, h3, Or.inr ⟨k, hk, fun x hx => h5 x (List.mem_cons_of_mem _ hx)⟩⟩
  · -- openNil
    intro fin he _
    obtain ⟨h1, h2, h3, h4⟩ := hP he
    refine h.leave fin (hS he).2 (fun _ => by have : st.writer = none := h1
                                              simp [pending, this]) ?_
    intro hf hs; have h4' : st.spilled = false := h4 hf
    rw [h4'] at hs; cases hs
  · -- openBad
    intro fin c t he hb hB
    obtain ⟨h1, h2, h3, h4⟩ := hP he
    have hc := (hS he).1 c (by simp [pcFiles])
    obtain ⟨q1, q2, q3, q4, q5, q6, q7, q8⟩ := quarantine_fields (touch st c.1 c.2.it .read) c ok
    refine h.quarantine hc hb ok _ hB h4 ⟨q6.trans h1, (List.pairwise_cons.1 h2).2, ?_, fun hf => q7.trans (h4 hf)⟩
    refine Cover.congr (st := st) q1 ?_ (Cover.tail h3 (h.fresh_not_none hb))
    simp only [slots, disk, pending]
    rw [show (Stream.quarantine (touch st c.1 c.2.it .read) c ok).nc = st.nc from q5,
      show (Stream.quarantine (touch st c.1 c.2.it .read) c ok).writer = st.writer from q6]
  · -- openFirst
    intro fin c t p he hb hd hB
    obtain ⟨h1, h2, h3, h4⟩ := hP he
    have h1 : st.writer = none := h1
    have hc := (hS he).1 c (by simp [pcFiles])
    have hs : slots st = [] := by simp [slots, hd, pending, h1]
    have hL : lastSlot st = -1 := by rw [lastSlot, hs]; rfl
    have := h.base.pos _ hc
    exact h.append h3 h2 hc hb (by omega) (by rw [hs, hd]; rfl) (by rw [hL, hd]; rfl) h4 hB
  · -- openResume
    intro fin c t p he hb hd hB
    obtain ⟨h1, h2, h3, h4⟩ := hP he
    have h1 : st.writer = none := h1
    have hs : slots st = disk st := by simp [slots, pending, h1]
    refine h.move hB rfl ?_ ?_ h.avail h.badNone h.spillStaged h.inPlace ?_ ?_
    · rw [hs]; simp [slots, disk, pending, touch, wOpen]
    · intro w hw
      have : wOpen (disk st) = w := Option.some.inj hw
      rw [← this, lastSlot, hs]; rfl
    · intro a hf b; have h4' : st.spilled = false := h4 hf
      have a : st.spilled = true := a
      rw [h4'] at a; cases a
    · refine ⟨rfl, h2, ?_, h4⟩
      refine Cover.congr (st := st) ?_ ?_ h3
      · rfl
      rw [hs]; simp [slots, disk, pending, touch, wOpen]
  · -- loopNil
    intro fin w he hw hB
    obtain ⟨h1, h2, h3, h4⟩ := hP he
    have hs : slots { st with nc := some (wLand (disk st) w).1, writer := some (wLand (disk st) w).2 } = slots st := by
      simp [slots, disk, pending, hw, wLand]
    have hpend : pending { st with nc := some (wLand (disk st) w).1, writer := some (wLand (disk st) w).2 } = [] := by
      simp [pending, wLand]
    have h0 : Inv cfg { st with nc := some (wLand (disk st) w).1, writer := some (wLand (disk st) w).2 } := by
      refine h.move (h.base.move rfl rfl (List.Sublist.refl _) h.base.mirSub h.base.todoSub h.base.finDead)
        rfl hs ?_ h.avail h.badNone h.spillStaged h.inPlace h.held ?_
      · intro w' hw'
        have : (wLand (disk st) w).2 = w' := Option.some.inj hw'
        rw [← this]; exact h.last w hw
      · unfold PcInv; simp only [he]
        have hcov : Cover st fin [] := h3
        exact ⟨rfl, h2, hcov.congr (by rfl) hs, h4⟩
    refine h0.leave fin (hS he).2 (fun _ => hpend) ?_
    intro hf hsp; have h4' : st.spilled = false := h4 hf
    have hsp : st.spilled = true := hsp
    rw [h4'] at hsp; cases hsp
  · -- loopLost
    intro fin t he hw
    obtain ⟨h1, -⟩ := hP he
    have h1 : st.writer.isSome = true := h1
    rw [hw] at h1; cases h1
  · -- loopOld
    intro fin c t w he hw hle hB
    obtain ⟨h1, h2, h3, h4⟩ := hP he
    have hle' : c.2.it ≤ lastSlot st := by rw [← h.last w hw]; exact hle
    refine h.move hB rfl rfl h.last h.avail h.badNone h.spillStaged h.inPlace ?_ ?_
    · intro a hf b; have h4' : st.spilled = false := h4 hf
      have a : st.spilled = true := a
      rw [h4'] at a; cases a
    · exact ⟨h1, (List.pairwise_cons.1 h2).2, Cover.congr (st := st) rfl rfl (Cover.tail h3 (fresh_not_old hle')), h4, hle'⟩
  · -- loopBad
    intro fin c t w he hw hlt hb hB
    obtain ⟨h1, h2, h3, h4⟩ := hP he
    have hc := (hS he).1 c (by simp [pcFiles])
    obtain ⟨q1, q2, q3, q4, q5, q6, q7, q8⟩ := quarantine_fields (touch st c.1 c.2.it .read) c ok
    refine h.quarantine hc hb ok _ hB h4 ⟨by dsimp only; rw [q6]; exact h1, (List.pairwise_cons.1 h2).2, ?_, fun hf => q7.trans (h4 hf)⟩
    refine Cover.congr (st := st) q1 ?_ (Cover.tail h3 (h.fresh_not_none hb))
    simp only [slots, disk, pending]
    rw [show (Stream.quarantine (touch st c.1 c.2.it .read) c ok).nc = st.nc from q5,
      show (Stream.quarantine (touch st c.1 c.2.it .read) c ok).writer = st.writer from q6]
  · -- loopNew
    intro fin c t w p he hw hlt hb hB
    obtain ⟨h1, h2, h3, h4⟩ := hP he
    have hc := (hS he).1 c (by simp [pcFiles])
    have hl := h.last w hw
    exact h.append h3 h2 hc hb (by omega) (by simp [slots, pending, hw]) hl h4 hB
  · -- cleanMirror
    intro fin c t he hs hl hd hB
    obtain ⟨h1, h2, h3, h4, h5⟩ := hP he
    have h5 : c.2.it ≤ lastSlot st := h5
    refine h.move hB rfl rfl h.last ?_ h.badNone h.spillStaged h.inPlace ?_ ⟨h1, h2, h3, h4⟩
    · intro x hx
      rcases h.avail x hx with h6 | ⟨h6, h7⟩
      · exact Or.inl h6
      · exact Or.inr ⟨h6, mem_dropIt.2 ⟨h7, by have := hx.2.2; omega⟩⟩
    · intro a hf b; have h4' : st.spilled = false := h4 hf
      have a : st.spilled = true := a
      rw [h4'] at a; cases a
  · -- cleanNone
    intro fin c t he hB
    obtain ⟨h1, h2, h3, h4, h5⟩ := hP he
    refine h.move hB rfl rfl h.last h.avail h.badNone h.spillStaged h.inPlace ?_ ⟨h1, h2, h3, h4⟩
    intro a hf b; have h4' : st.spilled = false := h4 hf
    have a : st.spilled = true := a
    rw [h4'] at a; cases a
  · -- cleanSeen
    intro fin c t he hst _ _ hB
    obtain ⟨h1, h2, h3, h4, h5⟩ := hP he
    refine h.move hB rfl rfl h.last h.avail h.badNone h.spillStaged h.inPlace ?_ ⟨hst, h1, h2, h3, h4, h5⟩
    intro a hf b; have h4' : st.spilled = false := h4 hf
    have a : st.spilled = true := a
    rw [h4'] at a; cases a
  · -- cleanCopy
    intro fin c t he hst _ _ _ hB
    obtain ⟨h1, h2, h3, h4, h5⟩ := hP he
    refine h.move hB rfl rfl h.last ?_ h.badNone h.spillStaged h.inPlace ?_ ⟨hst, h1, h2, h3, h4, h5⟩
    · intro x hx
      rcases h.avail x hx with h6 | ⟨h6, h7⟩
      · exact Or.inl h6
      · exact Or.inr ⟨h6, by simp [publish, touch, h7]⟩
    · intro a hf b; have h4' : st.spilled = false := h4 hf
      have a : st.spilled = true := a
      rw [h4'] at a; cases a
  · -- cleanUn
    intro fin c t he hB
    obtain ⟨hst, h1, h2, h3, h4, h5⟩ := hP he
    have h5 : c.2.it ≤ lastSlot st := h5
    refine h.move hB rfl rfl h.last ?_ h.badNone h.spillStaged ?_ ?_ ⟨h1, h2, h3, h4⟩
    · intro x hx
      rcases h.avail x hx with h6 | h6
      · exact Or.inl (mem_dropIt.2 ⟨h6, by have := hx.2.2; omega⟩)
      · exact Or.inr h6
    · intro hs; rw [hst] at hs; cases hs
    · intro a hf b; have h4' : st.spilled = false := h4 hf
      have a : st.spilled = true := a
      rw [h4'] at a; cases a
  · -- cleanUnFail
    intro fin c t he hB
    obtain ⟨hst, h1, h2, h3, h4, h5⟩ := hP he
    refine h.move hB rfl rfl h.last h.avail h.badNone h.spillStaged h.inPlace ?_ ⟨h1, h2, h3, h4⟩
    intro a hf b; have h4' : st.spilled = false := h4 hf
    have a : st.spilled = true := a
    rw [h4'] at a; cases a

end Verif.Stream
