import Verif.Spec.Io
import Verif.Lemmas.Dict

/-! Lemmas for the dump listing. -/
namespace Verif.Io

theorem insertBy_perm {α : Type} (key : α → Int) (x : α) (l : List α) : (insertBy key x l).Perm (x :: l) := by
  induction l with
  | nil => exact List.Perm.refl _
  | cons y ys ih =>
    unfold insertBy
    split
    · exact List.Perm.refl _
    · exact (List.Perm.cons y ih).trans (List.Perm.swap x y ys)

theorem insertBy_sorted {α : Type} (key : α → Int) (x : α) (l : List α)
    (h : l.Pairwise fun a b => key a ≤ key b) : (insertBy key x l).Pairwise fun a b => key a ≤ key b := by
  induction l with
  | nil => simp [insertBy]
  | cons y ys ih =>
    rw [List.pairwise_cons] at h
    unfold insertBy
    split
    · rename_i hlt
      rw [List.pairwise_cons]
      refine ⟨?_, List.pairwise_cons.2 h⟩
      intro a ha
      rcases List.mem_cons.1 ha with rfl | ha
      · omega
      · have := h.1 a ha; omega
    · rename_i hge
      rw [List.pairwise_cons]
      refine ⟨?_, ih h.2⟩
      intro a ha
      rcases List.mem_cons.1 ((insertBy_perm key x ys).subset ha) with rfl | ha
      · omega
      · exact h.1 a ha

theorem sortBy_aux {α : Type} (key : α → Int) (l acc : List α) (h : acc.Pairwise fun a b => key a ≤ key b) :
    (l.foldl (fun acc x => insertBy key x acc) acc).Perm (l ++ acc) ∧
    (l.foldl (fun acc x => insertBy key x acc) acc).Pairwise fun a b => key a ≤ key b := by
  induction l generalizing acc with
  | nil => exact ⟨List.Perm.refl _, h⟩
  | cons x xs ih =>
    simp only [List.foldl_cons]
    obtain ⟨h1, h2⟩ := ih (insertBy key x acc) (insertBy_sorted key x acc h)
    refine ⟨h1.trans ?_, h2⟩
    have : (xs ++ insertBy key x acc).Perm (xs ++ x :: acc) := (insertBy_perm key x acc).append_left xs
    exact this.trans List.perm_middle

theorem sortBy_perm {α : Type} (key : α → Int) (l : List α) : (sortBy key l).Perm l := by
  simpa [sortBy] using (sortBy_aux key l [] List.Pairwise.nil).1

theorem sortBy_sorted {α : Type} (key : α → Int) (l : List α) : (sortBy key l).Pairwise fun a b => key a ≤ key b :=
  (sortBy_aux key l [] List.Pairwise.nil).2

theorem sortBy_unique {α : Type} (key : α → Int) {l m : List α} (hp : l.Perm m)
    (hinj : ∀ a ∈ l, ∀ b ∈ l, key a = key b → a = b) : sortBy key l = sortBy key m := by
  apply List.Perm.eq_of_pairwise (le := fun a b => key a ≤ key b) _ (sortBy_sorted key l) (sortBy_sorted key m)
    ((sortBy_perm key l).trans (hp.trans (sortBy_perm key m).symm))
  intro a b ha hb h1 h2
  exact hinj a ((sortBy_perm key l).subset ha) b (hp.symm.subset ((sortBy_perm key m).subset hb)) (by omega)

/-! ### names -/

theorem takeWhile_all_stop {p : Char → Bool} (t r : Str) (h : ∀ c ∈ t, p c = true) (x : Char) (hx : p x = false) :
    (t ++ x :: r).takeWhile p = t ∧ (t ++ x :: r).dropWhile p = x :: r := by
  induction t with
  | nil => simp [hx]
  | cons c cs ih =>
    have hc := h c (by simp)
    have := ih fun d hd => h d (by simp [hd])
    simp [hc, this]

theorem splitIter_dumpName (base ds : Str) (hne : ds ≠ []) (hd : ∀ c ∈ ds, Deck.isDigit c = true) :
    splitIter (dumpName base ds) = some (base, ds) := by
  have hr : (dumpName base ds).reverse = '5' :: 'h' :: '.' :: (ds.reverse ++ '-' :: base.reverse) := by
    simp [dumpName]
  unfold splitIter
  rw [hr]
  have := takeWhile_all_stop (p := Deck.isDigit) ds.reverse base.reverse (fun c hc => hd c (by simpa using hc)) '-' (by decide)
  simp only [this]
  cases hds : ds.reverse with
  | nil => exact absurd (by simpa using hds) hne
  | cons c cs =>
    simp only [List.reverse_reverse]
    rw [← hds, List.reverse_reverse]

theorem splitIter_some {name base ds : Str} (h : splitIter name = some (base, ds)) :
    name = dumpName base ds ∧ ds ≠ [] ∧ ∀ c ∈ ds, Deck.isDigit c = true := by
  unfold splitIter at h
  split at h
  · rename_i r hr
    split at h
    · rename_i d dd b h1 h2
      simp only [Option.some.injEq, Prod.mk.injEq] at h
      obtain ⟨rfl, rfl⟩ := h
      have hsplit : r = (d :: dd) ++ '-' :: b := by
        rw [← h1, ← h2, List.takeWhile_append_dropWhile]
      refine ⟨?_, by simp, ?_⟩
      · have : name = name.reverse.reverse := by simp
        rw [this, hr, hsplit]
        simp [dumpName]
      · intro c hc
        have : c ∈ r.takeWhile Deck.isDigit := by rw [h1]; simpa [or_comm] using hc
        exact (List.all_eq_true.1 (List.all_takeWhile) c this)
    · cases h
  · cases h

theorem isH5_dumpName (base ds : Str) : isH5 (dumpName base ds) = true := by
  have hr : (dumpName base ds).reverse = '5' :: 'h' :: '.' :: (ds.reverse ++ '-' :: base.reverse) := by
    simp [dumpName]
  unfold isH5
  rw [hr]
  simp

/-! ### grouping -/

theorem dictGet_groupAdd (g : Dict Str (List Str)) (b p b' : Str) :
    dictGet (groupAdd g b p) b' = if b = b' then some ((dictGet g b').getD [] ++ [p]) else dictGet g b' := by
  induction g with
  | nil => simp [groupAdd, dictGet]
  | cons x g ih =>
    obtain ⟨b2, ps⟩ := x
    unfold groupAdd
    split
    · next h =>
      subst h
      by_cases h2 : b2 = b' <;> simp [dictGet, h2]
    · next h =>
      simp only [dictGet, ih]
      by_cases h2 : b2 = b'
      · subst h2; simp [Ne.symm h]
      · simp [h2]

theorem dictKeys_groupAdd (g : Dict Str (List Str)) (b p : Str) (h : (dictKeys g).Nodup) :
    (dictKeys (groupAdd g b p)).Nodup ∧ ∀ k, k ∈ dictKeys (groupAdd g b p) ↔ k = b ∨ k ∈ dictKeys g := by
  induction g with
  | nil => simp [groupAdd, dictKeys]
  | cons x g ih =>
    obtain ⟨b2, ps⟩ := x
    simp only [dictKeys, List.map_cons, List.nodup_cons] at h
    have ih := ih h.2
    unfold groupAdd
    split
    · next h2 =>
      subst h2
      refine ⟨by simpa [dictKeys] using h, ?_⟩
      intro k; simp [dictKeys]
    · next h2 =>
      refine ⟨?_, ?_⟩
      · simp only [dictKeys, List.map_cons, List.nodup_cons]
        refine ⟨?_, ih.1⟩
        intro hm
        rcases (ih.2 b2).1 hm with rfl | hm
        · exact h2 rfl
        · exact h.1 hm
      · intro k
        simp only [dictKeys, List.map_cons, List.mem_cons]
        have := ih.2 k
        simp only [dictKeys] at this
        rw [this]
        exact or_left_comm

theorem dictGet_groupFold (files : List Str) (g : Dict Str (List Str)) (b : Str) :
    dictGet (files.foldl (fun g p => if isH5 p then groupAdd g (dumpBase p) p else g) g) b =
      if members files b = [] then dictGet g b else some ((dictGet g b).getD [] ++ members files b) := by
  induction files generalizing g with
  | nil => simp [members]
  | cons f fs ih =>
    simp only [List.foldl_cons]
    rw [ih]
    by_cases hf : isH5 f = true
    · simp only [hf, if_true, dictGet_groupAdd]
      by_cases hb : dumpBase f = b
      · have hm : members (f :: fs) b = f :: members fs b := by simp [members, hf, hb]
        rw [hm]
        by_cases he : members fs b = []
        · simp [he, hb]
        · simp [he, hb]
      · have hm : members (f :: fs) b = members fs b := by simp [members, hf, hb]
        simp [hm, hb]
    · have hm : members (f :: fs) b = members fs b := by simp [members, hf]
      simp [hf, hm]

theorem keys_groupFold (files : List Str) (g : Dict Str (List Str)) (h : (dictKeys g).Nodup) :
    (dictKeys (files.foldl (fun g p => if isH5 p then groupAdd g (dumpBase p) p else g) g)).Nodup := by
  induction files generalizing g with
  | nil => exact h
  | cons f fs ih =>
    simp only [List.foldl_cons]
    apply ih
    split
    · exact (dictKeys_groupAdd g _ _ h).1
    · exact h

theorem dictGet_mapVal {ν μ : Type} (g : Dict Str ν) (φ : ν → μ) (b : Str) :
    dictGet (g.map fun x => (x.1, φ x.2)) b = (dictGet g b).map φ := by
  induction g with
  | nil => rfl
  | cons x g ih =>
    obtain ⟨b2, v⟩ := x
    by_cases h : b2 = b <;> simp [dictGet, h, ih]

/-- What `seriesDumps` holds for a base. -/
theorem dictGet_seriesDumps (files : List Str) (b : Str) :
    dictGet (seriesDumps files) b =
      if members files b = [] then none else some (sortBy iterFromName (members files b)) := by
  unfold seriesDumps
  rw [dictGet_mapVal (φ := sortBy iterFromName)]
  unfold groupFiles
  rw [dictGet_groupFold]
  split
  · rfl
  · simp [dictGet]

theorem keys_seriesDumps (files : List Str) : (dictKeys (seriesDumps files)).Nodup := by
  have : dictKeys (seriesDumps files) = dictKeys (groupFiles files) := by
    simp [seriesDumps, dictKeys]
  rw [this]
  exact keys_groupFold files [] (by simp [dictKeys])

theorem mem_keys_seriesDumps (files : List Str) (b : Str) :
    b ∈ dictKeys (seriesDumps files) ↔ ∃ f ∈ files, isH5 f = true ∧ dumpBase f = b := by
  rw [← dictGet_some_iff, dictGet_seriesDumps]
  have : members files b ≠ [] ↔ ∃ f ∈ files, isH5 f = true ∧ dumpBase f = b := by
    simp only [members, ne_eq, List.filter_eq_nil_iff, Bool.and_eq_true, decide_eq_true_eq, not_and]
    constructor
    · intro h
      refine Classical.byContradiction fun h' => h fun a ha h1 h2 => h' ⟨a, ha, h1, h2⟩
    · rintro ⟨f, hf, h1, h2⟩ h
      exact h f hf h1 h2
  rw [← this]
  split <;> simp_all

theorem several_iff (files : List Str) : Several files ↔ 2 ≤ (seriesDumps files).length := by
  have hlen : (seriesDumps files).length = (dictKeys (seriesDumps files)).length := by simp [dictKeys]
  constructor
  · rintro ⟨f, g, hf, hg, h1, h2, hne⟩
    rw [hlen]
    have ha := (mem_keys_seriesDumps files (dumpBase f)).2 ⟨f, hf, h1, rfl⟩
    have hb := (mem_keys_seriesDumps files (dumpBase g)).2 ⟨g, hg, h2, rfl⟩
    revert ha hb
    generalize dictKeys (seriesDumps files) = l
    intro ha hb
    match l, ha, hb with
    | [], ha, _ => simp at ha
    | [x], ha, hb => simp at ha hb; exact absurd (ha.trans hb.symm) hne
    | _ :: _ :: _, _, _ => simp
  · intro h
    rw [hlen] at h
    have hk := keys_seriesDumps files
    have hm := mem_keys_seriesDumps files
    revert h hk hm
    generalize dictKeys (seriesDumps files) = l
    intro h hk hm
    match l, h, hk, hm with
    | x :: y :: l, _, hk, hm =>
      obtain ⟨f, hf, h1, rfl⟩ := (hm x).1 (by simp)
      obtain ⟨g, hg, h2, rfl⟩ := (hm y).1 (by simp)
      refine ⟨f, g, hf, hg, h1, h2, ?_⟩
      intro he
      simp [he] at hk

/-! ### list_diagnostics -/

theorem setAll_get (out : Dict Path Handle) (l : List (Path × Handle)) (hl : ∀ e ∈ l, e.2 = .ms e.1) (k : Path) :
    dictGet (setAll out l) k = if k ∈ l.map Prod.fst then some (.ms k) else dictGet out k := by
  induction l generalizing out with
  | nil => simp [setAll]
  | cons e l ih =>
    have h1 : setAll out (e :: l) = setAll (dictSet out e.1 e.2) l := rfl
    rw [h1, ih _ fun x hx => hl x (by simp [hx])]
    by_cases hk : k ∈ l.map Prod.fst
    · simp [hk]
    · by_cases he : e.1 = k
      · subst he
        simp [hk, dictGet_set, hl e (by simp)]
      · have : ¬ k = e.1 := fun h => he h.symm
        simp only [hk, if_false, dictGet_set, he, List.map_cons, List.mem_cons, this, false_or]

theorem dirEntries_ms (d : Path × List Str) : ∀ e ∈ dirEntries d, e.2 = .ms e.1 := by
  intro e he
  unfold dirEntries at he
  split at he
  · simp at he
  · simp at he; rw [he]
  · obtain ⟨g, -, rfl⟩ := List.mem_map.1 he; rfl

theorem foldDirs_get (t : Tree) (out : Dict Path Handle) (k : Path) :
    dictGet (t.foldl (fun o d => setAll o (dirEntries d)) out) k =
      if ∃ d ∈ t, k ∈ (dirEntries d).map Prod.fst then some (.ms k) else dictGet out k := by
  induction t generalizing out with
  | nil => simp
  | cons d t ih =>
    simp only [List.foldl_cons]
    rw [ih, setAll_get _ _ (dirEntries_ms d)]
    by_cases h1 : ∃ d ∈ t, k ∈ (dirEntries d).map Prod.fst
    · rw [if_pos h1, if_pos]
      obtain ⟨x, hx, h⟩ := h1
      exact ⟨x, List.mem_cons_of_mem _ hx, h⟩
    · rw [if_neg h1]
      by_cases h2 : k ∈ (dirEntries d).map Prod.fst
      · rw [if_pos h2, if_pos ⟨d, by simp, h2⟩]
      · rw [if_neg h2, if_neg]
        rintro ⟨x, hx, h⟩
        rcases List.mem_cons.1 hx with rfl | hx
        · exact h2 h
        · exact h1 ⟨x, hx, h⟩

theorem setDefaults_get (out : Dict Path Handle) (ncs : List Path) (k : Path) :
    dictGet (setDefaults out ncs) k =
      match dictGet out k with
      | some h => some h
      | none => if k ∈ ncs then some (.nc k) else none := by
  induction ncs generalizing out with
  | nil => simp only [setDefaults, List.foldl_nil]; cases dictGet out k <;> simp
  | cons p ps ih =>
    have h1 : setDefaults out (p :: ps) = setDefaults (if (dictGet out p).isSome then out else dictSet out p (.nc p)) ps := rfl
    rw [h1, ih]
    by_cases hp : (dictGet out p).isSome = true
    · rw [if_pos hp]
      cases hk : dictGet out k with
      | some h => rfl
      | none =>
        have : k ≠ p := by rintro rfl; simp [hk] at hp
        simp [this]
    · rw [if_neg hp, dictGet_set]
      by_cases hkp : p = k
      · subst hkp
        have : dictGet out p = none := by simpa using hp
        simp [this]
      · have : ¬ k = p := fun h => hkp h.symm
        rw [if_neg hkp]
        cases hk : dictGet out k <;> simp [this]

theorem mem_dirEntries (d : Path) (files : List Str) (k : Path) :
    k ∈ (dirEntries (d, files)).map Prod.fst ↔
      (¬ Several files ∧ k = d ∧ ∃ f ∈ files, isH5 f = true) ∨
      (Several files ∧ ∃ f ∈ files, isH5 f = true ∧ k = d ++ [dumpBase f]) := by
  have hs := several_iff files
  have hm := mem_keys_seriesDumps files
  unfold dirEntries
  simp only
  revert hs hm
  generalize seriesDumps files = gs
  intro hs hm
  match gs, hs, hm with
  | [], hs, hm =>
    have : ¬ Several files := by rw [hs]; simp
    simp only [List.map_nil, List.not_mem_nil, false_iff, not_or, not_and]
    refine ⟨fun _ _ h => ?_, fun h => absurd h this⟩
    obtain ⟨f, hf, h⟩ := h
    have := (hm (dumpBase f)).2 ⟨f, hf, h, rfl⟩
    simp [dictKeys] at this
  | [g], hs, hm =>
    have : ¬ Several files := by rw [hs]; simp
    simp only [List.map_cons, List.map_nil, List.mem_cons, List.not_mem_nil, or_false, this, not_false_eq_true, true_and,
      false_and, iff_self_and]
    intro _
    obtain ⟨f, hf, h, -⟩ := (hm g.1).1 (by simp [dictKeys])
    exact ⟨f, hf, h⟩
  | a :: b :: gs, hs, hm =>
    have : Several files := by rw [hs]; simp
    simp only [this, not_true_eq_false, false_and, true_and, false_or]
    generalize a :: b :: gs = l at *
    simp only [List.map_map, List.mem_map, Function.comp]
    constructor
    · rintro ⟨g, hg, rfl⟩
      obtain ⟨f, hf, h1, h2⟩ := (hm g.1).1 (List.mem_map.2 ⟨g, hg, rfl⟩)
      exact ⟨f, hf, h1, by rw [h2]⟩
    · rintro ⟨f, hf, h1, rfl⟩
      obtain ⟨g, hg, h2⟩ := List.mem_map.1 ((hm (dumpBase f)).2 ⟨f, hf, h1, rfl⟩)
      exact ⟨g, hg, by rw [h2]⟩

/-- `_sort_dumps` on a directory with one series. -/
theorem sortDumpsDir_single (files : List Str) (f : Str) (hf : f ∈ files) (h5 : isH5 f = true)
    (hs : ¬ Several files) :
    sortDumpsDir files none = .ok (sortBy iterFromName (members files (dumpBase f))) := by
  have hg := dictGet_seriesDumps files (dumpBase f)
  have hne : members files (dumpBase f) ≠ [] := by
    intro h
    have : f ∈ members files (dumpBase f) := by simp [members, hf, h5]
    rw [h] at this; simp at this
  rw [if_neg hne] at hg
  rw [several_iff] at hs
  unfold sortDumpsDir
  simp only
  generalize seriesDumps files = gs at hg hs
  match gs, hg, hs with
  | [], hg, _ => simp [dictGet] at hg
  | [(b, l)], hg, _ =>
    by_cases hb : b = dumpBase f
    · simp [dictGet, hb] at hg; simp [hg]
    · simp [dictGet, hb] at hg
  | _ :: _ :: _, _, hs => simp at hs

end Verif.Io
