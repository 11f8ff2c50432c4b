import Verif.Spec.Stream

namespace Verif.Stream
variable {P : Type}

/-! ### sorting -/

theorem mem_insertIt {x c : Loc × Dump P} {l} : c ∈ insertIt x l ↔ c = x ∨ c ∈ l := by
  induction l with
  | nil => simp [insertIt]
  | cons y ys ih =>
    unfold insertIt
    split
    · simp
    · simp only [List.mem_cons, ih]
      constructor
      · rintro (h | h | h) <;> simp [h]
      · rintro (h | h | h) <;> simp [h]

theorem insertIt_length {x : Loc × Dump P} {l} : (insertIt x l).length = l.length + 1 := by
  induction l with
  | nil => rfl
  | cons y ys ih => unfold insertIt; split <;> simp [ih]

theorem insertIt_sorted {x : Loc × Dump P} {l}
    (h : l.Pairwise fun a b => a.2.it ≤ b.2.it) : (insertIt x l).Pairwise fun a b => a.2.it ≤ b.2.it := by
  induction l with
  | nil => simp [insertIt]
  | cons y ys ih =>
    rw [List.pairwise_cons] at h
    unfold insertIt
    split
    · next hlt =>
      rw [List.pairwise_cons, List.pairwise_cons]
      refine ⟨?_, h⟩
      intro b hb
      rcases List.mem_cons.1 hb with rfl | hb
      · omega
      · have := h.1 b hb; omega
    · next hlt =>
      rw [List.pairwise_cons]
      refine ⟨?_, ih h.2⟩
      intro b hb
      rcases mem_insertIt.1 hb with rfl | hb
      · omega
      · exact h.1 b hb

theorem foldl_insertIt (l acc : List (Loc × Dump P))
    (h : acc.Pairwise fun a b => a.2.it ≤ b.2.it) :
    (∀ c, c ∈ l.foldl (fun acc x => insertIt x acc) acc ↔ c ∈ acc ∨ c ∈ l) ∧
    (l.foldl (fun acc x => insertIt x acc) acc).Pairwise (fun a b => a.2.it ≤ b.2.it) := by
  induction l generalizing acc with
  | nil => simp [h]
  | cons x xs ih =>
    have := ih (insertIt x acc) (insertIt_sorted h)
    refine ⟨fun c => ?_, this.2⟩
    rw [List.foldl_cons, this.1 c, mem_insertIt, List.mem_cons]
    constructor
    · rintro ((h | h) | h) <;> simp [h]
    · rintro (h | h | h) <;> simp [h]

theorem mem_sortIt {c : Loc × Dump P} {l} : c ∈ sortIt l ↔ c ∈ l := by
  have := (foldl_insertIt l [] (by simp)).1 c
  simpa [sortIt] using this

theorem sortIt_sorted (l : List (Loc × Dump P)) : (sortIt l).Pairwise fun a b => a.2.it ≤ b.2.it :=
  (foldl_insertIt l [] (by simp)).2

theorem insertIt_nodup {x : Loc × Dump P} {l} (hx : x ∉ l) (h : l.Nodup) : (insertIt x l).Nodup := by
  induction l with
  | nil => simp [insertIt]
  | cons y ys ih =>
    rw [List.nodup_cons] at h
    unfold insertIt
    split
    · simp only [List.nodup_cons]; exact ⟨hx, h⟩
    · rw [List.nodup_cons]
      refine ⟨?_, ih (fun hh => hx (List.mem_cons_of_mem _ hh)) h.2⟩
      intro hh
      rcases mem_insertIt.1 hh with rfl | hh
      · exact hx (List.mem_cons_self ..)
      · exact h.1 hh

theorem foldl_insertIt_nodup (l acc : List (Loc × Dump P)) (h : acc.Nodup) (hl : l.Nodup)
    (hd : ∀ c ∈ l, c ∉ acc) : (l.foldl (fun acc x => insertIt x acc) acc).Nodup := by
  induction l generalizing acc with
  | nil => exact h
  | cons x xs ih =>
    rw [List.nodup_cons] at hl
    refine ih _ (insertIt_nodup (hd x (List.mem_cons_self ..)) h) hl.2 ?_
    intro c hc hh
    rcases mem_insertIt.1 hh with rfl | hh
    · exact hl.1 hc
    · exact hd c (List.mem_cons_of_mem _ hc) hh

theorem sortIt_nodup {l : List (Loc × Dump P)} (h : l.Nodup) : (sortIt l).Nodup :=
  foldl_insertIt_nodup l [] (by simp) h (by simp)

theorem insertIt_append {x : Loc × Dump P} {l} (h : ∀ y ∈ l, y.2.it ≤ x.2.it) : insertIt x l = l ++ [x] := by
  induction l with
  | nil => rfl
  | cons y ys ih =>
    unfold insertIt
    have := h y (List.mem_cons_self ..)
    rw [if_neg (by omega), ih fun z hz => h z (List.mem_cons_of_mem _ hz)]
    rfl

theorem foldl_insertIt_sorted (l acc : List (Loc × Dump P))
    (h : (acc ++ l).Pairwise fun a b => a.2.it ≤ b.2.it) :
    l.foldl (fun acc x => insertIt x acc) acc = acc ++ l := by
  induction l generalizing acc with
  | nil => simp
  | cons x xs ih =>
    rw [List.foldl_cons, insertIt_append, ih]
    · simp
    · simpa using h
    · intro y hy
      exact (List.pairwise_append.1 h).2.2 y hy x (List.mem_cons_self ..)

theorem sortIt_eq {l : List (Loc × Dump P)} (h : l.Pairwise fun a b => a.2.it ≤ b.2.it) : sortIt l = l := by
  simpa [sortIt] using foldl_insertIt_sorted l [] (by simpa using h)

theorem mem_filesAt {l l' : Loc} {d : Dump P} {ds} : (l', d) ∈ filesAt l ds ↔ l' = l ∧ d ∈ ds := by
  unfold filesAt
  simp only [List.mem_map]
  constructor
  · rintro ⟨a, ha, he⟩; cases he; exact ⟨rfl, ha⟩
  · rintro ⟨rfl, h⟩; exact ⟨d, h, rfl⟩

/-- Files of a directory. -/
def dirOf (st : St P) : Loc → List (Dump P)
  | .scratch => st.scratch
  | .mirror => st.mirror

theorem mem_listing {st : St P} {l l' : Loc} {d : Dump P} :
    (l', d) ∈ listing st l ↔ l' = l ∧ d ∈ dirOf st l ∧ (l, d.it) ∉ st.bad := by
  unfold listing
  rw [List.mem_filter, mem_sortIt, mem_filesAt]
  cases l <;> simp [dirOf, and_assoc]

/-! ### dumps -/

/-- Iteration numbers strictly increase. -/
abbrev Incr (ds : List (Dump P)) : Prop := ds.Pairwise fun a b => a.it < b.it

theorem Incr.eq_of_it {ds : List (Dump P)} (h : Incr ds) {a b : Dump P} (ha : a ∈ ds) (hb : b ∈ ds)
    (he : a.it = b.it) : a = b := by
  induction ds with
  | nil => cases ha
  | cons x xs ih =>
    rw [Incr, List.pairwise_cons] at h
    rcases List.mem_cons.1 ha with rfl | ha' <;> rcases List.mem_cons.1 hb with rfl | hb'
    · rfl
    · have := h.1 b hb'; omega
    · have := h.1 a ha'; omega
    · exact ih h.2 ha' hb'

theorem mem_dropIt {it : Int} {ds : List (Dump P)} {d : Dump P} : d ∈ dropIt it ds ↔ d ∈ ds ∧ d.it ≠ it := by
  simp [dropIt]

theorem filesAt_sorted {l : Loc} {ds : List (Dump P)} (h : Incr ds) :
    (filesAt l ds).Pairwise fun a b => a.2.it < b.2.it := by
  unfold filesAt
  rw [List.pairwise_map]
  exact h

theorem listing_scratch_sorted {st : St P} (h : Incr st.scratch) :
    (listing st .scratch).Pairwise fun a b => a.2.it < b.2.it := by
  unfold listing
  apply List.Pairwise.filter
  have h1 := filesAt_sorted (l := .scratch) h
  rw [sortIt_eq (h1.imp fun h => Int.le_of_lt h)]
  exact h1

theorem listing_sorted_le {st : St P} (l : Loc) : (listing st l).Pairwise fun a b => a.2.it ≤ b.2.it := by
  unfold listing
  exact List.Pairwise.filter _ (sortIt_sorted _)

/-- The last element of a strictly sorted list exceeds everything before it. -/
theorem dropLast_lt {l : List (Loc × Dump P)} (h : l.Pairwise fun a b => a.2.it < b.2.it)
    (hne : l ≠ []) : ∃ k ∈ l, (∀ c ∈ l.dropLast, c.2.it < k.2.it) ∧ ∀ c ∈ l, c ∈ l.dropLast ∨ c = k := by
  refine ⟨l.getLast hne, List.getLast_mem hne, ?_, ?_⟩
  · have hl : l = l.dropLast ++ [l.getLast hne] := (List.dropLast_concat_getLast hne).symm
    rw [hl] at h
    intro c hc
    exact (List.pairwise_append.1 h).2.2 c hc _ (by simp)
  · intro c hc
    rw [← List.dropLast_concat_getLast hne] at hc
    simpa using hc

/-! ### readable dumps and slots -/

theorem mem_readables {ds : List (Dump P)} {s : Int × P} :
    s ∈ readables ds ↔ ∃ d ∈ ds, d.it = s.1 ∧ d.body = some s.2 := by
  unfold readables
  rw [List.mem_filterMap]
  constructor
  · rintro ⟨d, hd, he⟩
    cases hb : d.body with
    | none => rw [hb] at he; cases he
    | some p => rw [hb] at he; simp at he; subst he; exact ⟨d, hd, rfl, hb⟩
  · rintro ⟨d, hd, he, hb⟩
    exact ⟨d, hd, by rw [hb]; simp [he]⟩

theorem readables_append (a b : List (Dump P)) : readables (a ++ b) = readables a ++ readables b := by
  simp [readables]

theorem readables_incr {ds : List (Dump P)} (h : Incr ds) : (readables ds).Pairwise fun a b => a.1 < b.1 := by
  unfold readables
  refine List.Pairwise.filterMap _ (S := fun a b : Int × P => a.1 < b.1) ?_ h
  intro a a' haa b hb b' hb'
  cases ha : a.body with
  | none => rw [ha] at hb; simp at hb
  | some p =>
    cases ha' : a'.body with
    | none => rw [ha'] at hb'; simp at hb'
    | some p' =>
      rw [ha] at hb; rw [ha'] at hb'
      simp at hb hb'
      subst hb; subst hb'; exact haa

theorem lastOnDisk_append {l : List (Int × P)} {s : Int × P} : lastOnDisk (l ++ [s]) = s.1 := by
  simp [lastOnDisk]

theorem le_lastOnDisk {l : List (Int × P)} (h : l.Pairwise fun a b => a.1 < b.1) {s} (hs : s ∈ l) :
    s.1 ≤ lastOnDisk l := by
  have hne : l ≠ [] := by rintro rfl; cases hs
  have hl : l = l.dropLast ++ [l.getLast hne] := (List.dropLast_concat_getLast hne).symm
  rw [hl, lastOnDisk_append]
  rw [hl] at h hs
  rcases List.mem_append.1 hs with h1 | h1
  · exact Int.le_of_lt ((List.pairwise_append.1 h).2.2 s h1 _ (by simp))
  · simp at h1; rw [h1]; exact Int.le_refl _

/-- Slots that are a prefix of `R` and contain the next one extend to a longer prefix. -/
theorem prefix_extend {R l : List (Int × P)} (hR : R.Pairwise fun a b => a.1 < b.1)
    (hpos : ∀ s ∈ R, 0 ≤ s.1) (hl : l <+: R) {x : Int × P} (hx : x ∈ R) (hlt : lastOnDisk l < x.1)
    (hmin : ∀ y ∈ R, lastOnDisk l < y.1 → x.1 ≤ y.1) : l ++ [x] <+: R := by
  obtain ⟨t, rfl⟩ := hl
  have hpl := List.pairwise_append.1 hR
  have hxt : x ∈ t := by
    rcases List.mem_append.1 hx with h | h
    · have := le_lastOnDisk hpl.1 h; omega
    · exact h
  cases t with
  | nil => cases hxt
  | cons y ys =>
    have hy : lastOnDisk l < y.1 := by
      rcases List.eq_nil_or_concat l with rfl | ⟨l', b, rfl⟩
      · have := hpos y (by simp)
        simp only [lastOnDisk, List.getLast?_nil]; omega
      · rw [List.concat_eq_append] at *
        rw [lastOnDisk_append]
        exact hpl.2.2 b (by simp) y (by simp)
    have h1 := hmin y (by simp) hy
    have hpy := List.pairwise_cons.1 hpl.2.1
    have : x = y := by
      rcases List.mem_cons.1 hxt with h | h
      · exact h
      · have := hpy.1 x h; omega
    subst this
    exact ⟨ys, by simp⟩

/-- A prefix with nothing newer left is everything. -/
theorem prefix_full {R l : List (Int × P)} (hR : R.Pairwise fun a b => a.1 < b.1)
    (hpos : ∀ s ∈ R, 0 ≤ s.1) (hl : l <+: R) (hmax : ∀ y ∈ R, ¬ lastOnDisk l < y.1) : l = R := by
  obtain ⟨t, rfl⟩ := hl
  cases t with
  | nil => simp
  | cons y ys =>
    exfalso
    apply hmax y (by simp)
    rcases List.eq_nil_or_concat l with rfl | ⟨l', b, rfl⟩
    · have := hpos y (by simp)
      simp only [lastOnDisk, List.getLast?_nil]; omega
    · rw [List.concat_eq_append] at *
      rw [lastOnDisk_append]
      exact (List.pairwise_append.1 hR).2.2 b (by simp) y (by simp)

/-- Membership in a prefix is decided by the last iteration. -/
theorem mem_prefix {R l : List (Int × P)} (hR : R.Pairwise fun a b => a.1 < b.1)
    (hpos : ∀ s ∈ R, 0 ≤ s.1) (hl : l <+: R) {x : Int × P} (hx : x ∈ R) (hle : x.1 ≤ lastOnDisk l) : x ∈ l := by
  obtain ⟨t, rfl⟩ := hl
  rcases List.mem_append.1 hx with h | h
  · exact h
  · exfalso
    rcases List.eq_nil_or_concat l with rfl | ⟨l', b, rfl⟩
    · have := hpos x (by simpa using h)
      simp only [lastOnDisk, List.getLast?_nil] at hle; omega
    · rw [List.concat_eq_append] at *
      rw [lastOnDisk_append] at hle
      have := (List.pairwise_append.1 hR).2.2 b (by simp) x h
      omega

theorem mem_of_getLast? {α : Type} {l : List α} {x : α} (h : l.getLast? = some x) : x ∈ l :=
  List.mem_of_getLast? h

theorem newest_ge {st : St P} (h : Incr st.produced) {d} (hd : d ∈ st.produced) : d.it ≤ newest st := by
  have hne : st.produced ≠ [] := by intro hh; rw [hh] at hd; cases hd
  unfold newest
  have hl : st.produced = st.produced.dropLast ++ [st.produced.getLast hne] :=
    (List.dropLast_concat_getLast hne).symm
  rw [hl] at h hd ⊢
  simp only [List.getLast?_append, List.getLast?_singleton, Option.some_or]
  rcases List.mem_append.1 hd with h1 | h1
  · exact Int.le_of_lt ((List.pairwise_append.1 h).2.2 d h1 _ (by simp))
  · simp at h1; rw [h1]; exact Int.le_refl _

end Verif.Stream
