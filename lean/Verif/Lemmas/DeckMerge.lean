import Verif.Lemmas.DeckShape

/-! Comments at text level; override merging; flat dictionaries. -/
namespace Verif.Deck

/-! ### comments -/

theorem splitlines_joinLines (L : List Str) (h : ∀ l ∈ L, ∀ c ∈ l, lineBreak c = false) :
    splitlines (joinLines L) = dropEmptyLast L := by
  unfold splitlines
  induction L with
  | nil => rfl
  | cons l ls ih =>
    have hl := h l (by simp)
    cases ls with
    | nil =>
      have := splitlinesAux_noBreak_append [] l [] hl
      rw [List.append_nil, List.append_nil] at this
      show splitlinesAux [] l = _
      rw [this]
      unfold splitlinesAux dropEmptyLast
      cases l <;> simp
    | cons l2 ls2 =>
      rw [joinLines_cons (by simp), splitlinesAux_noBreak_append _ _ _ hl, splitlinesAux_nl,
        ih fun m hm => h m (by simp [hm])]
      simp [dropEmptyLast]

theorem dropEmptyLast_append (A B : List Str) (hB : B ≠ []) : dropEmptyLast (A ++ B) = A ++ dropEmptyLast B := by
  induction A with
  | nil => rfl
  | cons a as ih =>
    rw [List.cons_append]
    cases h : as ++ B with
    | nil => simp at h; exact absurd h.2 hB
    | cons x xs =>
      rw [h] at ih
      show a :: dropEmptyLast (x :: xs) = _
      rw [ih]; rfl

theorem preprocess_comment (L1 L2 : List Str) (a c : Str) (h1 : ∀ l ∈ L1, ∀ x ∈ l, lineBreak x = false)
    (h2 : ∀ l ∈ L2, ∀ x ∈ l, lineBreak x = false) (ha : ∀ x ∈ a, lineBreak x = false)
    (hc : ∀ x ∈ c, lineBreak x = false) (hb : Balanced a) (hne : a ≠ [] ∨ L2 ≠ []) :
    preprocess (joinLines (L1 ++ (a ++ '!' :: c) :: L2)) = preprocess (joinLines (L1 ++ a :: L2)) := by
  unfold preprocess
  rw [splitlines_joinLines, splitlines_joinLines, dropEmptyLast_append _ _ (by simp), dropEmptyLast_append _ _ (by simp),
    List.map_append, List.map_append]
  · congr 2
    cases L2 with
    | nil =>
      have hane : a ≠ [] := by rcases hne with h | h; exact h; exact absurd rfl h
      have e1 : dropEmptyLast [a ++ '!' :: c] = [a ++ '!' :: c] := by
        unfold dropEmptyLast; cases a <;> simp
      have e2 : dropEmptyLast [a] = [a] := by
        unfold dropEmptyLast; cases a <;> simp_all
      rw [e1, e2]; simp [stripComment_bang hb]
    | cons x xs =>
      show ((a ++ '!' :: c) :: dropEmptyLast (x :: xs)).map (stripComment none) = (a :: dropEmptyLast (x :: xs)).map (stripComment none)
      simp [stripComment_bang hb]
  · intro l hl
    simp only [List.mem_append, List.mem_cons] at hl
    rcases hl with hl | rfl | hl
    · exact h1 l hl
    · exact ha
    · exact h2 l hl
  · intro l hl
    simp only [List.mem_append, List.mem_cons] at hl
    rcases hl with hl | rfl | hl
    · exact h1 l hl
    · intro x hx
      simp only [List.mem_append, List.mem_cons] at hx
      rcases hx with hx | rfl | hx
      · exact ha x hx
      · decide
      · exact hc x hx
    · exact h2 l hl

/-! ### dictionaries -/

theorem dictGet_dictSet {κ ν : Type} [DecidableEq κ] (d : Dict κ ν) (k k' : κ) (v : ν) :
    dictGet (dictSet d k v) k' = if k = k' then some v else dictGet d k' := by
  induction d with
  | nil => simp [dictSet, dictGet]
  | cons a d ih =>
    obtain ⟨k2, v2⟩ := a
    unfold dictSet
    split
    · next h =>
      subst h
      simp only [dictGet]
      split <;> rfl
    · next h =>
      simp only [dictGet]
      split
      · next h2 => subst h2; rw [if_neg (fun e : k = k2 => h e.symm)]
      · exact ih

theorem dictGet_isSome {κ ν : Type} [DecidableEq κ] (d : Dict κ ν) (k : κ) : (dictGet d k).isSome ↔ k ∈ dictKeys d := by
  induction d with
  | nil => simp [dictGet, dictKeys]
  | cons a d ih =>
    obtain ⟨k2, v2⟩ := a
    simp only [dictGet, dictKeys, List.map_cons, List.mem_cons]
    split
    · next h => simp [h]
    · next h =>
      have : k ≠ k2 := fun e => h e.symm
      simp only [this, false_or]; exact ih

theorem findParamKey_some {V : Type} {ps : Dict Str V} {req t : Str} (h : findParamKey ps req = some t) :
    t = req ∨ (t ∈ dictKeys ps ∧ baseName t = req) := by
  unfold findParamKey at h
  split at h
  · simp at h; exact Or.inl h.symm
  · split at h
    · next k hk =>
      simp at h; subst h
      have : k ∈ (dictKeys ps).filter (fun k => baseName k == req) := by rw [hk]; simp
      simp only [List.mem_filter, beq_iff_eq] at this
      exact Or.inr this
    · simp at h; exact Or.inl h.symm
    · simp at h

/-- Value at a key after merging. -/
theorem mergeParams_get {V : Type} (over : List (Str × V)) (ps res : Dict Str V)
    (h : mergeParams ps over = .ok res) (k : Str) (hk : ∀ o ∈ over, o.1 ≠ k ∧ o.1 ≠ baseName k) :
    dictGet res k = dictGet ps k := by
  induction over generalizing ps with
  | nil => simp [mergeParams] at h; rw [h]
  | cons o over ih =>
    obtain ⟨ok, ov⟩ := o
    unfold mergeParams at h
    split at h
    · cases h
    · next t ht =>
      rw [ih _ h fun o ho => hk o (by simp [ho]), dictGet_dictSet, if_neg]
      have := hk (ok, ov) (by simp)
      rcases findParamKey_some ht with rfl | ⟨_, rfl⟩
      · exact this.1
      · rintro rfl; exact this.2 rfl

theorem mergeParams_append {V : Type} (o1 o2 : List (Str × V)) (ps res : Dict Str V)
    (h : mergeParams ps (o1 ++ o2) = .ok res) :
    ∃ mid, mergeParams ps o1 = .ok mid ∧ mergeParams mid o2 = .ok res := by
  induction o1 generalizing ps with
  | nil => exact ⟨ps, rfl, h⟩
  | cons o o1 ih =>
    obtain ⟨k, v⟩ := o
    rw [List.cons_append] at h
    unfold mergeParams at h
    split at h
    · cases h
    · next t ht =>
      obtain ⟨mid, h1, h2⟩ := ih _ h
      refine ⟨mid, ?_, h2⟩
      unfold mergeParams
      rw [ht]
      exact h1

theorem mergeParams_keys {V : Type} (over : List (Str × V)) (ps res : Dict Str V)
    (h : mergeParams ps over = .ok res) : ∃ new, dictKeys res = dictKeys ps ++ new ∧ ∀ k ∈ new, k ∈ over.map Prod.fst := by
  induction over generalizing ps with
  | nil => simp [mergeParams] at h; subst h; exact ⟨[], by simp⟩
  | cons o over ih =>
    obtain ⟨ok, ov⟩ := o
    unfold mergeParams at h
    split at h
    · cases h
    · next t ht =>
      obtain ⟨new, h1, h2⟩ := ih _ h
      rw [dictKeys_dictSet] at h1
      split at h1
      · exact ⟨new, h1, fun k hk => List.mem_cons_of_mem _ (h2 k hk)⟩
      · next hnot =>
        refine ⟨t :: new, by rw [h1]; simp, ?_⟩
        intro k hk
        rcases List.mem_cons.1 hk with rfl | hk
        · rcases findParamKey_some ht with rfl | ⟨hmem, _⟩
          · simp
          · exact absurd hmem hnot
        · exact List.mem_cons_of_mem _ (h2 k hk)

/-! ### overrides on sections -/

theorem mergeAt_spec {V : Type} {ss ss' : List (Str × Dict Str V)} {i : Nat} {over : List (Str × V)}
    (h : mergeAt ss i over = .ok ss') :
    ss'.map Prod.fst = ss.map Prod.fst ∧ (∀ j, j ≠ i → ss'[j]? = ss[j]?) ∧
      ∀ nm ps, ss[i]? = some (nm, ps) → ∃ ps', mergeParams ps over = .ok ps' ∧ ss'[i]? = some (nm, ps') := by
  unfold mergeAt at h
  split at h
  · next hn =>
    simp at h; subst h
    exact ⟨rfl, fun _ _ => rfl, fun nm ps hs => by rw [hn] at hs; cases hs⟩
  · next nm ps hs =>
    split at h
    · cases h
    · next ps' hps' =>
      simp at h; subst h
      have hi : i < ss.length := by
        rcases Nat.lt_or_ge i ss.length with h | h
        · exact h
        · rw [List.getElem?_eq_none h] at hs; cases hs
      refine ⟨?_, ?_, ?_⟩
      · rw [List.map_set]
        apply List.ext_getElem?
        intro j
        rw [List.getElem?_set]
        split
        · next hij =>
          subst hij
          rw [List.getElem?_map, hs]; simp [hi]
        · rfl
      · intro j hj
        rw [List.getElem?_set, if_neg (fun e => hj e.symm)]
      · intro nm2 ps2 hs2
        rw [hs] at hs2
        simp only [Option.some.injEq, Prod.mk.injEq] at hs2
        obtain ⟨rfl, rfl⟩ := hs2
        exact ⟨ps', hps', by rw [List.getElem?_set, if_pos rfl, if_pos hi]⟩

theorem mergeAll_spec {V : Type} (over : List (Str × V)) (is : List Nat) (hnd : is.Nodup)
    {ss ss' : List (Str × Dict Str V)} (h : mergeAll ss over is = .ok ss') :
    ss'.map Prod.fst = ss.map Prod.fst ∧ (∀ j, j ∉ is → ss'[j]? = ss[j]?) ∧
      ∀ i ∈ is, ∀ nm ps, ss[i]? = some (nm, ps) → ∃ ps', mergeParams ps over = .ok ps' ∧ ss'[i]? = some (nm, ps') := by
  induction is generalizing ss with
  | nil => simp [mergeAll] at h; subst h; exact ⟨rfl, fun _ _ => rfl, by simp⟩
  | cons i is ih =>
    unfold mergeAll at h
    split at h
    · cases h
    · next s1 hs1 =>
      obtain ⟨a1, a2, a3⟩ := mergeAt_spec hs1
      obtain ⟨b1, b2, b3⟩ := ih (List.nodup_cons.1 hnd).2 h
      refine ⟨b1.trans a1, ?_, ?_⟩
      · intro j hj
        simp only [List.mem_cons, not_or] at hj
        rw [b2 j hj.2, a2 j hj.1]
      · intro j hj nm ps hp
        rcases List.mem_cons.1 hj with rfl | hj'
        · obtain ⟨ps', h1, h2⟩ := a3 nm ps hp
          exact ⟨ps', h1, by rw [b2 j (List.nodup_cons.1 hnd).1]; exact h2⟩
        · have hne : j ≠ i := fun e => (List.nodup_cons.1 hnd).1 (e ▸ hj')
          exact b3 j hj' nm ps (by rw [a2 j hne]; exact hp)

/-- All overrides of a list addressed to occurrence `j`, merged in order. -/
def mergeSelected {V : Type} (j : Nat) (ps : Dict Str V) :
    List (Int × List (Str × V)) → Except MergeErr (Dict Str V)
  | [] => .ok ps
  | (idx, over) :: rest =>
    if idx = (j : Int) then
      match mergeParams ps over with
      | .error e => .error e
      | .ok ps' => mergeSelected j ps' rest
    else mergeSelected j ps rest

theorem nodup_getElem_inj {α : Type} {l : List α} (h : l.Nodup) {i j : Nat} (hi : i < l.length) (hj : j < l.length)
    (e : l[i] = l[j]) : i = j := by
  have hp := List.pairwise_iff_getElem.1 h
  rcases Nat.lt_trichotomy i j with h1 | h1 | h1
  · exact absurd e (hp i j hi hj h1)
  · exact h1
  · exact absurd e.symm (hp j i hj hi h1)

theorem mergeIndexed_spec {V : Type} (occ : List Nat) (hnd : occ.Nodup) (l : List (Int × List (Str × V)))
    {ss ss' : List (Str × Dict Str V)} (h : mergeIndexed occ ss l = .ok ss') :
    ss'.map Prod.fst = ss.map Prod.fst ∧ (∀ j, j ∉ occ → ss'[j]? = ss[j]?) ∧
      (∀ j (hj : j < occ.length), ∀ nm ps, ss[occ[j]]? = some (nm, ps) →
        ∃ ps', mergeSelected j ps l = .ok ps' ∧ ss'[occ[j]]? = some (nm, ps')) ∧
      ∀ x ∈ l, 0 ≤ x.1 ∧ x.1 < occ.length := by
  induction l generalizing ss with
  | nil =>
    simp [mergeIndexed] at h; subst h
    exact ⟨rfl, fun _ _ => rfl, fun j hj nm ps hp => ⟨ps, rfl, hp⟩, by simp⟩
  | cons x l ih =>
    obtain ⟨idx, over⟩ := x
    unfold mergeIndexed at h
    split at h
    · cases h
    · next hidx =>
      have hidx' : 0 ≤ idx ∧ idx < occ.length := by omega
      split at h
      · cases h
      · next s1 hs1 =>
        have hlt : idx.toNat < occ.length := by omega
        have hget : occ.getD idx.toNat 0 = occ[idx.toNat] := by
          rw [List.getD_eq_getElem?_getD, List.getElem?_eq_getElem hlt]; rfl
        rw [hget] at hs1
        obtain ⟨a1, a2, a3⟩ := mergeAt_spec hs1
        obtain ⟨b1, b2, b3, b4⟩ := ih h
        refine ⟨b1.trans a1, ?_, ?_, ?_⟩
        · intro j hj
          rw [b2 j hj, a2 j]
          rintro rfl; exact hj (List.getElem_mem hlt)
        · intro j hj nm ps hp
          unfold mergeSelected
          by_cases hij : idx = (j : Int)
          · have hij' : idx.toNat = j := by omega
            subst hij'
            obtain ⟨ps1, h1, h2⟩ := a3 nm ps hp
            rw [if_pos hij, h1]
            exact b3 _ hj nm ps1 h2
          · rw [if_neg hij]
            have hne : occ[j] ≠ occ[idx.toNat] := by
              intro e
              have := nodup_getElem_inj hnd hj hlt e
              omega
            exact b3 j hj nm ps (by rw [a2 _ hne]; exact hp)
        · intro y hy
          rcases List.mem_cons.1 hy with rfl | hy
          · exact hidx'
          · exact b4 y hy

theorem occurrences_nodup {V : Type} (ss : List (Str × Dict Str V)) (name : Str) : (occurrences ss name).Nodup :=
  List.Nodup.sublist List.filter_sublist List.nodup_range

theorem mem_occurrences {V : Type} (ss : List (Str × Dict Str V)) (name : Str) (i : Nat) :
    i ∈ occurrences ss name ↔ (ss.map Prod.fst)[i]? = some name := by
  unfold occurrences
  rw [List.mem_filter, List.getElem?_map, List.mem_range]
  constructor
  · intro h; simpa using h.2
  · intro h
    refine ⟨?_, by simpa using h⟩
    rcases Nat.lt_or_ge i ss.length with h' | h'
    · exact h'
    · rw [List.getElem?_eq_none h'] at h; cases h

theorem occurrences_congr {V : Type} {ss ss' : List (Str × Dict Str V)} (h : ss'.map Prod.fst = ss.map Prod.fst) (name : Str) :
    occurrences ss' name = occurrences ss name := by
  unfold occurrences
  have hl : ss'.length = ss.length := by simpa using congrArg List.length h
  rw [hl]
  apply List.filter_congr
  intro i _
  rw [← List.getElem?_map, ← List.getElem?_map, h]

/-- What one section override does to the `j`-th occurrence. -/
def applySecOver {V : Type} (so : SecOver V) (j : Nat) (ps : Dict Str V) : Except MergeErr (Dict Str V) :=
  match so with
  | .blanket over => mergeParams ps over
  | .indexed l => mergeSelected j ps l

theorem mergeOverrides_spec {V : Type} (ov : List (Str × SecOver V)) (hnd : (ov.map Prod.fst).Nodup)
    {ss ss' : List (Str × Dict Str V)} (h : mergeOverrides ss ov = .ok ss') :
    ss'.map Prod.fst = ss.map Prod.fst ∧
    (∀ (i : Nat) nm ps, ss[i]? = some (nm, ps) → nm ∉ ov.map Prod.fst → ss'[i]? = some (nm, ps)) ∧
    (∀ nm so, (nm, so) ∈ ov → ∀ j (hj : j < (occurrences ss nm).length) ps,
      ss[(occurrences ss nm)[j]]? = some (nm, ps) →
      ∃ ps', applySecOver so j ps = .ok ps' ∧ ss'[(occurrences ss nm)[j]]? = some (nm, ps')) ∧
    (∀ nm so, (nm, so) ∈ ov → nm ∈ ss.map Prod.fst) ∧
    (∀ nm l, (nm, SecOver.indexed l) ∈ ov → ∀ x ∈ l, 0 ≤ x.1 ∧ x.1 < (occurrences ss nm).length) := by
  induction ov generalizing ss with
  | nil =>
    simp [mergeOverrides] at h; subst h
    exact ⟨rfl, fun _ _ _ h _ => h, by simp, by simp, by simp⟩
  | cons o ov ih =>
    obtain ⟨name, so⟩ := o
    unfold mergeOverrides at h
    simp only at h
    have hnd' := List.nodup_cons.1 (show (name :: ov.map Prod.fst).Nodup from hnd)
    split at h
    · cases h
    · next hocc =>
      have hnames : name ∈ ss.map Prod.fst := by
        cases ho : occurrences ss name with
        | nil => exact absurd ho hocc
        | cons i is =>
          have := (mem_occurrences ss name i).1 (by rw [ho]; simp)
          exact List.mem_of_getElem? this
      have stepspec : ∀ s1, (match so with
          | .indexed l => mergeIndexed (occurrences ss name) ss l
          | .blanket l => mergeAll ss l (occurrences ss name)) = .ok s1 →
          s1.map Prod.fst = ss.map Prod.fst ∧ (∀ j, j ∉ occurrences ss name → s1[j]? = ss[j]?) ∧
          (∀ j (hj : j < (occurrences ss name).length), ∀ nm ps, ss[(occurrences ss name)[j]]? = some (nm, ps) →
            ∃ ps', applySecOver so j ps = .ok ps' ∧ s1[(occurrences ss name)[j]]? = some (nm, ps')) ∧
          (∀ l, so = SecOver.indexed l → ∀ x ∈ l, 0 ≤ x.1 ∧ x.1 < (occurrences ss name).length) := by
        intro s1 hs1
        cases so with
        | indexed l =>
          obtain ⟨a, b, c, d⟩ := mergeIndexed_spec _ (occurrences_nodup ss name) l hs1
          exact ⟨a, b, c, fun l' e => by cases e; exact d⟩
        | blanket l =>
          obtain ⟨a, b, c⟩ := mergeAll_spec l _ (occurrences_nodup ss name) hs1
          exact ⟨a, b, fun j hj nm ps hp => c _ (List.getElem_mem hj) nm ps hp, fun l' e => by cases e⟩
      split at h
      · cases h
      · next s1 hs1 =>
        obtain ⟨a1, a2, a3, a4⟩ := stepspec s1 hs1
        obtain ⟨b1, b2, b3, b4, b5⟩ := ih hnd'.2 h
        have hlift : ∀ (i : Nat) nm ps, ss[i]? = some (nm, ps) → nm ≠ name → s1[i]? = some (nm, ps) := by
          intro i nm ps hp hne
          rw [a2 i, hp]
          intro hi
          have := (mem_occurrences ss name i).1 hi
          rw [List.getElem?_map, hp] at this
          simp at this; exact hne this
        refine ⟨b1.trans a1, ?_, ?_, ?_, ?_⟩
        · intro i nm ps hp hni
          simp only [List.map_cons, List.mem_cons, not_or] at hni
          exact b2 i nm ps (hlift i nm ps hp hni.1) hni.2
        · intro nm so' hmem j hj ps hp
          rcases List.mem_cons.1 hmem with e | hmem'
          · cases e
            obtain ⟨ps', h1, h2⟩ := a3 j hj name ps hp
            exact ⟨ps', h1, b2 _ name ps' h2 hnd'.1⟩
          · have hne : nm ≠ name := by
              rintro rfl
              exact hnd'.1 (List.mem_map.2 ⟨(nm, so'), hmem', rfl⟩)
            have hoc := occurrences_congr a1 nm
            have hp1 := hlift _ nm ps hp hne
            have := b3 nm so' hmem' j (by rw [hoc]; exact hj) ps (by simp only [hoc]; exact hp1)
            simp only [hoc] at this
            exact this
        · intro nm so' hmem
          rcases List.mem_cons.1 hmem with e | hmem
          · cases e; exact hnames
          · rw [← a1]; exact b4 nm so' hmem
        · intro nm l hmem
          rcases List.mem_cons.1 hmem with e | hmem
          · cases e; exact a4 l rfl
          · have := b5 nm l hmem
            rw [occurrences_congr a1 nm] at this
            exact this

/-! ### flat dictionary -/

theorem subUnsafe_safe (run : Bool) (s : Str) : ∀ c ∈ subUnsafe run s, mlflowSafe c = true := by
  induction s generalizing run with
  | nil => intro c hc; simp [subUnsafe] at hc
  | cons a as ih =>
    intro c hc
    unfold subUnsafe at hc
    split at hc
    · next ha =>
      rcases List.mem_cons.1 hc with rfl | hc
      · exact ha
      · exact ih _ c hc
    · split at hc
      · exact ih _ c hc
      · rcases List.mem_cons.1 hc with rfl | hc
        · decide
        · exact ih _ c hc

theorem mem_collapse {s : Str} {c : Char} (h : c ∈ collapseUnderscores s) : c ∈ s := by
  induction s with
  | nil => simp [collapseUnderscores] at h
  | cons a as ih =>
    unfold collapseUnderscores at h
    split at h
    · exact List.mem_cons_of_mem _ (ih h)
    · rcases List.mem_cons.1 h with rfl | h
      · simp
      · exact List.mem_cons_of_mem _ (ih h)

theorem mem_stripUnderscore {s : Str} {c : Char} (h : c ∈ stripUnderscore s) : c ∈ s := by
  unfold stripUnderscore at h
  exact mem_dropWhile' (List.mem_reverse.1 (mem_dropWhile' (List.mem_reverse.1 h)))

theorem sanitize_safe (k : Str) : sanitizeKey k ≠ [] ∧ ∀ c ∈ sanitizeKey k, mlflowSafe c = true := by
  unfold sanitizeKey
  simp only
  split
  · exact ⟨by simp, by intro c hc; simp at hc; subst hc; decide⟩
  · next h =>
    refine ⟨by simpa using h, fun c hc => subUnsafe_safe _ _ c (mem_collapse (mem_stripUnderscore hc))⟩

theorem isDigit_safe {c : Char} (h : isDigit c = true) : mlflowSafe c = true := by
  simp [mlflowSafe, isIdentChar, h]

theorem flatParam_safe {F : Type} (pre : Str) (hpre : ∀ c ∈ pre, mlflowSafe c = true) (kv : Str × Value F) :
    ∀ e ∈ flatParam pre kv, ∀ c ∈ e.1, mlflowSafe c = true := by
  have hb : ∀ c ∈ pre ++ '.' :: sanitizeKey kv.1, mlflowSafe c = true := by
    intro c hc
    simp only [List.mem_append, List.mem_cons] at hc
    rcases hc with hc | rfl | hc
    · exact hpre c hc
    · decide
    · exact (sanitize_safe _).2 c hc
  intro e he c hc
  unfold flatParam at he
  simp only at he
  split at he
  · obtain ⟨xj, _, rfl⟩ := List.mem_map.1 he
    rcases List.mem_append.1 hc with hc | hc
    · exact hb c hc
    · rcases List.mem_cons.1 hc with rfl | hc
      · decide
      · exact isDigit_safe ((natDigits_spec _).2.1 c hc)
  · simp at he; subst he; exact hb c hc

theorem sectionPrefix_safe (all seen : List Str) (name : Str) : ∀ c ∈ sectionPrefix all seen name, mlflowSafe c = true := by
  unfold sectionPrefix
  split <;> exact (sanitize_safe _).2

theorem flatAssigns_safe {F : Type} (all seen : List Str) (ss : Sections F) :
    ∀ e ∈ flatAssigns all seen ss, ∀ c ∈ e.1, mlflowSafe c = true := by
  induction ss generalizing seen with
  | nil => intro e he; simp [flatAssigns] at he
  | cons sec ss ih =>
    obtain ⟨name, ps⟩ := sec
    intro e he
    unfold flatAssigns at he
    rcases List.mem_append.1 he with he | he
    · obtain ⟨kv, _, he⟩ := List.mem_flatMap.1 he
      exact flatParam_safe _ (sectionPrefix_safe _ _ _) kv e he
    · exact ih _ e he

theorem mem_foldl_dictSet {κ ν : Type} [DecidableEq κ] (L acc : Dict κ ν) (x : κ × ν)
    (h : x ∈ L.foldl (fun d kv => dictSet d kv.1 kv.2) acc) : x ∈ L ∨ x ∈ acc := by
  induction L generalizing acc with
  | nil => exact Or.inr h
  | cons a L ih =>
    rcases ih _ h with h | h
    · exact Or.inl (List.mem_cons_of_mem _ h)
    · rcases mem_dictSet h with rfl | h
      · exact Or.inl (by simp)
      · exact Or.inr h

end Verif.Deck
