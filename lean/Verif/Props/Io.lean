import Verif.Lemmas.Io

/-!
# Dump listing and selection (C19, C20, C47-C50)
-/
namespace Verif.Io

/-! ## C19 -/

/-- C19: a file `<base>-<digits>.h5` is recognised with exactly that base and that
iteration, whatever the base (dashes and digits in it included). -/
theorem dump_name_parsed (base ds : Str) (hne : ds ≠ []) (hd : ∀ c ∈ ds, Deck.isDigit c = true) :
    isH5 (dumpName base ds) = true ∧ dumpBase (dumpName base ds) = base ∧
      iterFromName (dumpName base ds) = Deck.digitsVal 0 ds := by
  simp only [dumpBase, iterFromName, splitIter_dumpName base ds hne hd]
  exact ⟨isH5_dumpName base ds, trivial, trivial⟩

/-- C19: a dump file is one whose name is a non-empty stem followed by `.h5`. -/
theorem h5_iff (name : Str) : isH5 name = true ↔ ∃ stem, stem ≠ [] ∧ name = stem ++ ['.', 'h', '5'] := by
  constructor
  · intro h
    unfold isH5 at h
    split at h
    · rename_i r hr
      refine ⟨r.reverse, by simpa using h, ?_⟩
      rw [← List.reverse_reverse name, hr]; simp
    · cases h
  · rintro ⟨stem, h, rfl⟩
    simp [isH5, h]

/-- C19: a name without that form is its own series, at iteration -1; so `-1` is
never the iteration of a real dump. -/
theorem iter_nonneg_iff (name : Str) :
    0 ≤ iterFromName name ↔
      ∃ base ds, ds ≠ [] ∧ (∀ c ∈ ds, Deck.isDigit c = true) ∧ name = dumpName base ds := by
  constructor
  · intro h
    unfold iterFromName at h
    cases hs : splitIter name with
    | none => rw [hs] at h; exact absurd h (by decide)
    | some x =>
      obtain ⟨h1, h2, h3⟩ := splitIter_some (base := x.1) (ds := x.2) hs
      exact ⟨x.1, x.2, h2, h3, h1⟩
  · rintro ⟨base, ds, h1, h2, rfl⟩
    rw [(dump_name_parsed base ds h1 h2).2.2]
    exact Int.natCast_nonneg _

/-- C19: every series of a directory is exactly the set of its `*.h5` files with
that base - none lost, none duplicated, none from another series - in
non-decreasing iteration order. -/
theorem series_exact (files : List Str) (b : Str) (l : List Str) (h : dictGet (seriesDumps files) b = some l) :
    l.Perm (members files b) ∧ (l.Pairwise fun f g => iterFromName f ≤ iterFromName g) ∧ l ≠ [] := by
  rw [dictGet_seriesDumps] at h
  split at h
  · cases h
  · rename_i hne
    cases h
    refine ⟨sortBy_perm _ _, sortBy_sorted _ _, ?_⟩
    intro he
    have := (sortBy_perm iterFromName (members files b)).length_eq
    rw [he] at this
    exact hne (List.eq_nil_of_length_eq_zero this.symm)

/-- C19: each `*.h5` file is in exactly one series, its own; other files in none. -/
theorem file_in_one_series (files : List Str) (f : Str) (hf : f ∈ files) (b : Str) :
    (∃ l, dictGet (seriesDumps files) b = some l ∧ f ∈ l) ↔ isH5 f = true ∧ b = dumpBase f := by
  constructor
  · rintro ⟨l, hl, hm⟩
    have := ((series_exact files b l hl).1.subset hm)
    simp [members] at this
    exact ⟨this.2.1, this.2.2.symm⟩
  · rintro ⟨h5, rfl⟩
    have hm : f ∈ members files (dumpBase f) := by simp [members, hf, h5]
    refine ⟨sortBy iterFromName (members files (dumpBase f)), ?_, ?_⟩
    · rw [dictGet_seriesDumps, if_neg (List.ne_nil_of_mem hm)]
    · exact (sortBy_perm _ _).symm.subset hm

/-- C19: the result does not depend on the order in which the file system lists
the directory, as long as no two dumps of the series share an iteration. -/
theorem series_order_independent (files files' : List Str) (hp : files.Perm files') (b : Str)
    (hinj : ∀ f ∈ members files b, ∀ g ∈ members files b, iterFromName f = iterFromName g → f = g) :
    dictGet (seriesDumps files) b = dictGet (seriesDumps files') b := by
  have hm : (members files b).Perm (members files' b) := hp.filter _
  rw [dictGet_seriesDumps, dictGet_seriesDumps, sortBy_unique iterFromName hm hinj]
  have : members files b = [] ↔ members files' b = [] :=
    ⟨fun h => List.Perm.eq_nil (h ▸ hm.symm), fun h => List.Perm.eq_nil (h ▸ hm)⟩
  by_cases h : members files b = []
  · rw [if_pos h, if_pos (this.1 h)]
  · rw [if_neg h, if_neg (fun h' => h (this.2 h'))]

/-- C19: a bare directory is rejected exactly when it holds several series, and
otherwise all its dumps are returned, in order. -/
theorem bare_directory (files : List Str) :
    (sortDumpsDir files none = .error .ambiguous ↔ Several files) ∧
    (¬ Several files → ∃ l, sortDumpsDir files none = .ok l ∧ l.Perm (files.filter isH5) ∧
      l.Pairwise fun f g => iterFromName f ≤ iterFromName g) := by
  have hnot : ¬ Several files → ∃ l, sortDumpsDir files none = .ok l ∧ l.Perm (files.filter isH5) ∧
      l.Pairwise fun f g => iterFromName f ≤ iterFromName g := by
    intro hs
    by_cases h : ∃ f ∈ files, isH5 f = true
    · obtain ⟨f, hf, h5⟩ := h
      refine ⟨_, sortDumpsDir_single files f hf h5 hs, ?_, sortBy_sorted _ _⟩
      have : members files (dumpBase f) = files.filter isH5 := by
        apply List.filter_congr
        intro g hg
        by_cases hg5 : isH5 g = true
        · have : dumpBase g = dumpBase f := Classical.byContradiction fun hne => hs ⟨g, f, hg, hf, hg5, h5, hne⟩
          simp [hg5, this]
        · simp [hg5]
      rw [← this]
      exact sortBy_perm _ _
    · refine ⟨[], ?_, ?_, List.Pairwise.nil⟩
      · have : seriesDumps files = [] := by
          cases hg : seriesDumps files with
          | nil => rfl
          | cons x xs =>
            obtain ⟨f, hf, h5, -⟩ := (mem_keys_seriesDumps files x.1).1 (by rw [hg]; simp [dictKeys])
            exact absurd ⟨f, hf, h5⟩ h
        simp [sortDumpsDir, this]
      · have : files.filter isH5 = [] := by
          rw [List.filter_eq_nil_iff]
          exact fun a ha h5 => h ⟨a, ha, h5⟩
        rw [this]
  refine ⟨⟨?_, ?_⟩, hnot⟩
  · intro h
    refine Classical.byContradiction fun hs => ?_
    obtain ⟨l, hl, -⟩ := hnot hs
    rw [hl] at h; cases h
  · intro hs
    rw [several_iff] at hs
    unfold sortDumpsDir
    simp only
    revert hs
    generalize seriesDumps files = gs
    intro hs
    match gs, hs with
    | _ :: _ :: _, _ => rfl

example : seriesDumps ["e-2.h5".toList, "note".toList, "f-1.h5".toList, "e-1.h5".toList] =
    [("e".toList, ["e-1.h5".toList, "e-2.h5".toList]), ("f".toList, ["f-1.h5".toList])] := by decide
example : Several ["e-2.h5".toList, "f-1.h5".toList] := by rw [several_iff]; decide
example : ¬ Several ["e-2.h5".toList, "e-10.h5".toList] := by rw [several_iff]; decide

/-! ## C20 -/

theorem normLoop_iff (n : Nat) (is : List Int) (js : List Nat) :
    normLoop n is = .ok js ↔ PyIndices n is js := by
  induction is generalizing js with
  | nil =>
    simp only [normLoop, Except.ok.injEq]
    constructor
    · rintro rfl; exact .nil
    · intro h; cases h; rfl
  | cons i is ih =>
    simp only [normLoop]
    by_cases hj : 0 ≤ (if i < 0 then i + (n : Int) else i) ∧ (if i < 0 then i + (n : Int) else i) < n
    · rw [if_pos hj]
      have hpy : PyIndex n i (if i < 0 then i + (n : Int) else i).toNat := by
        unfold PyIndex
        by_cases hi : i < 0
        · rw [if_pos hi] at hj; rw [if_pos hi]; right; omega
        · rw [if_neg hi] at hj; rw [if_neg hi]; left; omega
      constructor
      · intro h
        cases hn : normLoop n is with
        | error e => rw [hn] at h; cases h
        | ok l =>
          rw [hn] at h; cases h
          exact .cons hpy ((ih l).1 hn)
      · intro h
        cases h with
        | cons h1 h2 =>
          rename_i j js'
          rw [(ih js').2 h2]
          simp only
          congr 2
          unfold PyIndex at h1 hpy
          omega
    · rw [if_neg hj]
      constructor
      · intro h; cases h
      · intro h
        cases h with
        | cons h1 h2 =>
          exfalso; apply hj
          unfold PyIndex at h1
          by_cases hi : i < 0
          · simp only [hi, if_true]; omega
          · simp only [hi, if_false]; omega

/-- C20: the selection succeeds exactly when it is non-empty and every index is a
valid Python index, and then it is the list of the resolved indices, in the
requested order, repetitions included. -/
theorem index_selection (n : Nat) (is : List Int) (js : List Nat) :
    normalizeIndices is n = .ok js ↔ is ≠ [] ∧ PyIndices n is js := by
  rw [← normLoop_iff]
  unfold normalizeIndices
  cases is with
  | nil => simp [normLoop]
  | cons i is =>
    have hne : i :: is ≠ [] := by simp
    simp only [hne, ne_eq, not_false_eq_true, true_and]
    cases hn : normLoop n (i :: is) with
    | error e => simp
    | ok l =>
      cases l with
      | nil => rw [normLoop_iff] at hn; cases hn
      | cons x xs => simp

/-- C20: any index outside `-n .. n-1` is rejected with an index error. -/
theorem bad_index_rejected (n : Nat) (is : List Int) (i : Int) (hi : i ∈ is) (hbad : i < -n ∨ (n : Int) ≤ i) :
    normalizeIndices is n = .error .index := by
  have : normLoop n is = .error .index := by
    induction is with
    | nil => simp at hi
    | cons x xs ih =>
      simp only [normLoop]
      rcases List.mem_cons.1 hi with rfl | hi
      · rw [if_neg]
        by_cases h : i < 0
        · simp only [h, if_true]; omega
        · simp only [h, if_false]; omega
      · rw [ih hi]
        simp only
        by_cases h : 0 ≤ (if x < 0 then x + (n : Int) else x) ∧ (if x < 0 then x + (n : Int) else x) < n
        · rw [if_pos h]
        · rw [if_neg h]
  simp [normalizeIndices, this]

theorem empty_selection_rejected (n : Nat) : normalizeIndices [] n = .error .emptySelection := rfl

example : normalizeIndices [-1, 0, 2, -3] 3 = .ok [2, 0, 2, 0] := by rfl
example : normalizeIndices [3] 3 = .error .index := by rfl
example : normalizeIndices [-4] 3 = .error .index := by rfl

/-! ## C47 list_diagnostics -/

/-- C47: with an `MS/` tree in which no report series shares its path with a real
directory, every dump of the tree is reachable: some listed diagnostic loads a
series containing it. -/
theorem diagnostics_complete_partial (t : Tree) (ht : (dictKeys t).Nodup) (hnc : NoClash t) (bin : Option (List Path))
    (here : List Path) (d : Path) (files : List Str) (hd : (d, files) ∈ t) (f : Str) (hf : f ∈ files)
    (h5 : isH5 f = true) :
    ∃ out k l, listDiagnostics (some t) bin here = .ok out ∧ dictGet out k = some (.ms k) ∧
      sortDumps t k = .ok l ∧ f ∈ l := by
  refine ⟨_, if 2 ≤ (seriesDumps files).length then d ++ [dumpBase f] else d,
    sortBy iterFromName (members files (dumpBase f)), rfl, ?_, ?_,
    (sortBy_perm _ _).symm.subset (by simp [members, hf, h5])⟩
  · rw [setDefaults_get, foldDirs_get, if_pos]
    refine ⟨(d, files), hd, ?_⟩
    rw [mem_dirEntries]
    by_cases hs : Several files
    · right; exact ⟨hs, f, hf, h5, by rw [if_pos ((several_iff files).1 hs)]⟩
    · left; exact ⟨hs, by rw [if_neg fun h => hs ((several_iff files).2 h)], f, hf, h5⟩
  · by_cases hs : Several files
    · rw [if_pos ((several_iff files).1 hs)]
      unfold sortDumps
      have hno := hnc d files hd hs f hf h5
      rw [← dictGet_none_iff] at hno
      rw [hno]
      simp only [List.dropLast_concat, List.getLast?_append, List.getLast?_singleton, Option.some_or,
        dictGet_of_mem ht hd, Option.getD_some, sortDumpsDir]
      rw [dictGet_seriesDumps, if_neg]
      · rfl
      · exact List.ne_nil_of_mem (a := f) (by simp [members, hf, h5])
    · rw [if_neg fun h => hs ((several_iff files).2 h)]
      unfold sortDumps
      rw [dictGet_of_mem ht hd]
      exact sortDumpsDir_single files f hf h5 hs

/-- C47: every listed diagnostic of the `MS/` tree loads without ambiguity a
non-empty series of dumps that all belong to one report, in iteration order. -/
theorem diagnostics_pure_partial (t : Tree) (ht : (dictKeys t).Nodup) (hnc : NoClash t) (bin : Option (List Path))
    (here : List Path) (out : Dict Path Handle) (hout : listDiagnostics (some t) bin here = .ok out)
    (k p : Path) (hk : dictGet out k = some (.ms p)) :
    p = k ∧ ∃ l b, sortDumps t k = .ok l ∧ l ≠ [] ∧ (∀ f ∈ l, isH5 f = true ∧ dumpBase f = b) ∧
      l.Pairwise fun f g => iterFromName f ≤ iterFromName g := by
  simp only [listDiagnostics, Except.ok.injEq] at hout
  subst hout
  rw [setDefaults_get, foldDirs_get] at hk
  by_cases hex : ∃ d ∈ t, k ∈ (dirEntries d).map Prod.fst
  · rw [if_pos hex] at hk
    simp only [Option.some.injEq, Handle.ms.injEq] at hk
    refine ⟨hk.symm, ?_⟩
    obtain ⟨⟨d, files⟩, hd, hm⟩ := hex
    have key : ∀ f, f ∈ files → isH5 f = true → sortDumps t k = .ok (sortBy iterFromName (members files (dumpBase f))) →
        ∃ l b, sortDumps t k = .ok l ∧ l ≠ [] ∧ (∀ f ∈ l, isH5 f = true ∧ dumpBase f = b) ∧
          l.Pairwise fun f g => iterFromName f ≤ iterFromName g := by
      intro f hf h5 h
      refine ⟨_, dumpBase f, h, ?_, ?_, sortBy_sorted _ _⟩
      · exact List.ne_nil_of_mem (a := f) ((sortBy_perm _ _).symm.subset (by simp [members, hf, h5]))
      · intro g hg
        have := (sortBy_perm _ _).subset hg
        simp [members] at this
        exact this.2
    rcases (mem_dirEntries d files k).1 hm with ⟨hs, rfl, f, hf, h5⟩ | ⟨hs, f, hf, h5, rfl⟩
    · apply key f hf h5
      unfold sortDumps
      rw [dictGet_of_mem ht hd]
      exact sortDumpsDir_single files f hf h5 hs
    · apply key f hf h5
      unfold sortDumps
      have hno := hnc d files hd hs f hf h5
      rw [← dictGet_none_iff] at hno
      rw [hno]
      simp only [List.dropLast_concat, List.getLast?_append, List.getLast?_singleton, Option.some_or,
        dictGet_of_mem ht hd, Option.getD_some, sortDumpsDir]
      rw [dictGet_seriesDumps, if_neg]
      · rfl
      · exact List.ne_nil_of_mem (a := f) (by simp [members, hf, h5])
  · rw [if_neg hex] at hk
    simp only [dictGet] at hk
    split at hk <;> simp at hk

/-- C47: a streamed NetCDF stands in for a diagnostic exactly when the `MS/` tree
alone would not list it; what the tree lists is never displaced. -/
theorem netcdf_fallback (t : Tree) (bin here : List Path) (out raw : Dict Path Handle)
    (hout : listDiagnostics (some t) (some bin) here = .ok out)
    (hraw : listDiagnostics (some t) none here = .ok raw) (k : Path) :
    dictGet out k = (match dictGet raw k with
      | some h => some h
      | none => if k ∈ bin then some (.nc k) else none) := by
  simp only [listDiagnostics, Except.ok.injEq, Option.getD_some] at hout hraw
  subst hout; subst hraw
  rw [setDefaults_get, setDefaults_get, foldDirs_get]
  by_cases h : ∃ d ∈ t, k ∈ (dirEntries d).map Prod.fst
  · rw [if_pos h]
  · rw [if_neg h]; simp [dictGet]

/-- A directory with two series `a`, `b` and a sub-directory `a`. -/
def clashTree : Tree := [([['s']], ["a-1.h5".toList, "b-1.h5".toList]), ([['s'], ['a']], [])]

/-- C47 without `NoClash` is FALSE: a sub-directory named like a report series
hides the series (its handle resolves to the sub-directory). -/
theorem clash_hides_series :
    ∃ (t : Tree) (d : Path) (files : List Str) (f : Str) (out : Dict Path Handle),
      (dictKeys t).Nodup ∧ (d, files) ∈ t ∧ f ∈ files ∧ isH5 f = true ∧
      listDiagnostics (some t) none [] = .ok out ∧
      ∀ k ∈ dictKeys out, ∀ l, sortDumps t k = .ok l → f ∉ l := by
  refine ⟨clashTree, [['s']], ["a-1.h5".toList, "b-1.h5".toList], "a-1.h5".toList,
    [([['s'], ['a']], .ms [['s'], ['a']]), ([['s'], ['b']], .ms [['s'], ['b']])],
    by decide, by decide, by decide, by decide, by rfl, ?_⟩
  intro k hk l hl
  simp [dictKeys] at hk
  rcases hk with rfl | rfl
  · have h2 : sortDumps clashTree [['s'], ['a']] = .ok [] := by rfl
    rw [h2] at hl; cases hl; simp
  · have h2 : sortDumps clashTree [['s'], ['b']] = .ok ["b-1.h5".toList] := by rfl
    rw [h2] at hl; cases hl; decide

/-- A tree meeting the hypotheses of C47, with one multi-report directory. -/
def okTree : Tree := [([['s']], ["a-1.h5".toList, "b-1.h5".toList]), ([['e']], ["e-2.h5".toList, "e-1.h5".toList])]

example : (dictKeys okTree).Nodup := by decide
example : listDiagnostics (some okTree) (some [[['e']], [['z']]]) [] =
    .ok [([['s'], ['a']], .ms [['s'], ['a']]), ([['s'], ['b']], .ms [['s'], ['b']]), ([['e']], .ms [['e']]),
      ([['z']], .nc [['z']])] := by rfl
example : NoClash okTree := by
  intro d files hd _ f hf _
  simp [okTree] at hd
  rcases hd with ⟨rfl, rfl⟩ | ⟨rfl, rfl⟩ <;> simp at hf <;> rcases hf with rfl | rfl <;> decide

/-! ## C48 load_series -/

/-- C48: loading all dumps succeeds exactly when there is one and all shapes agree,
and returns every dump, in order. -/
theorem load_all {V : Type} (l : List (Grid V)) (s : Series V) :
    loadSeries l none = .ok s ↔ l ≠ [] ∧ s.slices = l ∧ ∀ g ∈ l, g.shape = s.shape := by
  cases l with
  | nil => simp [loadSeries]
  | cons g gs =>
    obtain ⟨sh, sl⟩ := s
    simp only [loadSeries, List.isEmpty_cons, Bool.false_eq_true, if_false, stack, ne_eq, reduceCtorEq,
      not_false_eq_true, true_and, List.mem_cons, forall_eq_or_imp]
    by_cases h : (gs.all fun x => decide (x.shape = g.shape)) = true
    · rw [if_pos h]
      simp only [List.all_eq_true, decide_eq_true_eq] at h
      simp only [Except.ok.injEq, Series.mk.injEq]
      constructor
      · rintro ⟨rfl, rfl⟩; exact ⟨rfl, rfl, h⟩
      · rintro ⟨rfl, rfl, -⟩; exact ⟨rfl, rfl⟩
    · rw [if_neg h]
      simp only [List.all_eq_true, decide_eq_true_eq] at h
      simp only [reduceCtorEq, false_iff]
      rintro ⟨-, rfl, h2⟩
      exact h h2

theorem pick_all {α : Type} (l : List α) (js : List Nat) (h : ∀ j ∈ js, j < l.length) :
    (pick l js).length = js.length ∧ ∀ (k : Nat) (hk : k < js.length), (pick l js)[k]? = l[js[k]]? := by
  induction js with
  | nil => simp [pick]
  | cons j js ih =>
    have hj := h j (by simp)
    have hp : pick l (j :: js) = l[j] :: pick l js := by
      simp [pick, List.getElem?_eq_getElem hj]
    obtain ⟨h1, h2⟩ := ih fun i hi => h i (by simp [hi])
    rw [hp]
    refine ⟨by simp [h1], ?_⟩
    intro k hk
    cases k with
    | zero => simp [List.getElem?_eq_getElem hj]
    | succ k => simpa using h2 k (by simpa using hk)

theorem pyIndex_lt {n : Nat} {i : Int} {j : Nat} (h : PyIndex n i j) : j < n := by
  unfold PyIndex at h; omega

theorem forall₂_lt {n : Nat} {is : List Int} {js : List Nat} (h : PyIndices n is js) :
    ∀ j ∈ js, j < n := by
  induction h with
  | nil => simp
  | cons h1 _ ih =>
    intro j hj
    rcases List.mem_cons.1 hj with rfl | hj
    · exact pyIndex_lt h1
    · exact ih j hj

/-- C48: selecting slices while reading a dump directory gives the same series as
selecting them from the NetCDF file that holds the whole history - for every
series whose dumps all have the same shape and every selection. -/
theorem selection_same_from_nc {V : Type} (l : List (Grid V)) (s : Series V) (hs : loadSeries l none = .ok s)
    (is : List Int) : loadSeries l (some is) = loadSeriesNc s (some is) := by
  obtain ⟨hne, hsl, hsh⟩ := (load_all l s).1 hs
  obtain ⟨sh, sl⟩ := s
  simp only at hsl hsh
  subst hsl
  simp only [loadSeries, loadSeriesNc]
  have : sl.isEmpty = false := by cases sl <;> simp_all
  rw [this]
  simp only [Bool.false_eq_true, if_false]
  cases hn : normalizeIndices is sl.length with
  | error e => rfl
  | ok js =>
    simp only
    obtain ⟨h1, h2⟩ := (index_selection _ _ _).1 hn
    have hlt := forall₂_lt h2
    obtain ⟨hlen, -⟩ := pick_all sl js hlt
    have hmem : ∀ g ∈ pick sl js, g.shape = sh := by
      intro g hg
      apply hsh
      obtain ⟨j, -, hj⟩ := List.mem_filterMap.1 hg
      exact List.mem_of_getElem? hj
    cases hp : pick sl js with
    | nil =>
      rw [hp] at hlen
      have : js = [] := List.eq_nil_of_length_eq_zero hlen.symm
      subst this
      cases h2
      exact absurd rfl h1
    | cons g gs =>
      rw [hp] at hmem
      have hg := hmem g (by simp)
      simp only [stack]
      rw [if_pos]
      · rw [hg]
      · simp only [List.all_eq_true, decide_eq_true_eq]
        intro x hx
        rw [hmem x (by simp [hx]), hg]

/-- C48: the k-th slice of a selection is the dump at the k-th resolved index. -/
theorem selection_slices {V : Type} (l : List (Grid V)) (is : List Int) (s : Series V)
    (h : loadSeries l (some is) = .ok s) :
    ∃ js, PyIndices l.length is js ∧ s.slices.length = is.length ∧
      ∀ (k : Nat) (hk : k < js.length), s.slices[k]? = l[js[k]]? := by
  simp only [loadSeries] at h
  split at h
  · cases h
  · cases hn : normalizeIndices is l.length with
    | error e => rw [hn] at h; cases h
    | ok js =>
      rw [hn] at h
      simp only at h
      obtain ⟨h1, h2⟩ := (index_selection _ _ _).1 hn
      obtain ⟨hlen, hget⟩ := pick_all l js (forall₂_lt h2)
      have hsl : s.slices = pick l js := by
        cases hp : pick l js with
        | nil => rw [hp] at h; simp [stack] at h
        | cons g gs =>
          rw [hp] at h
          simp only [stack] at h
          split at h
          · cases h; rfl
          · cases h
      refine ⟨js, h2, ?_, ?_⟩
      · rw [hsl, hlen]
        clear hn hget hlen h1 hsl h
        induction h2 with
        | nil => rfl
        | cons _ _ ih => simpa using ih
      · rw [hsl]; exact hget

/-- Three dumps. -/
def ex3 : List (Grid Nat) := [⟨[2], 0, 0, 10⟩, ⟨[2], 1, 5, 11⟩, ⟨[2], 2, 10, 12⟩]

example : loadSeries ex3 (some [-1, 0]) = .ok ⟨[2], [⟨[2], 2, 10, 12⟩, ⟨[2], 0, 0, 10⟩]⟩ := by rfl
example : loadSeries ex3 none = .ok ⟨[2], ex3⟩ := by rfl
example : loadSeries (⟨[3], 0, 0, 10⟩ :: ex3) none = .error .shape := by rfl

/-! ## C49 save_run_datasets -/

/-- C49: exactly the diagnostics that are wanted and convert without error are
written, in order; a failing one never affects another. -/
theorem save_isolated (wl : Option (List Path)) (ok : Path → Bool) (rels : List Path) :
    saveRun wl ok rels = rels.filter fun r => wanted wl r && ok r := by
  induction rels with
  | nil => rfl
  | cons r rs ih =>
    simp only [saveRun, List.filter_cons, ih]
    cases wanted wl r <;> cases ok r <;> simp

/-- C49: a whitelist matches the relative path or the leaf name; without one
everything is wanted. -/
theorem wanted_iff (wl : Option (List Path)) (rel : Path) :
    wanted wl rel = true ↔ ∀ ds, wl = some ds → rel ∈ ds ∨ ∃ leaf, rel.getLast? = some leaf ∧ [leaf] ∈ ds := by
  cases wl with
  | none => simp [wanted]
  | some ds =>
    simp only [wanted, Bool.or_eq_true, List.contains_iff_mem, Option.some.injEq, forall_eq']
    cases rel.getLast? <;> simp

/-- C49: particle diagnostics are always rebuilt from the raw dumps; a grid
diagnostic whose streamed file exists is copied from it. -/
theorem source_choice (pre raw stream : Bool) :
    (raw = true → chooseSource pre raw stream = .rawConcat) ∧
    (raw = false → pre = true → chooseSource pre raw stream = .streamedCopy) ∧
    (raw = false → pre = false → chooseSource pre raw stream = if stream then .streamBuild else .batch) := by
  cases pre <;> cases raw <;> cases stream <;> decide

example : saveRun (some [[['e']], [['F'], ['b']]]) (fun r => r != [['F'], ['b']]) [[['F'], ['a']], [['F'], ['b']], [['F'], ['e']]]
    = [[['F'], ['e']]] := by decide

/-! ## C50 final iteration and history tables -/

theorem foldl_max (names : List Str) (b : Int) :
    b ≤ names.foldl (fun b n => max b (iterFromName n)) b ∧
    (∀ n ∈ names, iterFromName n ≤ names.foldl (fun b n => max b (iterFromName n)) b) ∧
    (names.foldl (fun b n => max b (iterFromName n)) b = b ∨
      ∃ n ∈ names, names.foldl (fun b n => max b (iterFromName n)) b = iterFromName n) := by
  induction names generalizing b with
  | nil => simp
  | cons x xs ih =>
    simp only [List.foldl_cons]
    obtain ⟨h1, h2, h3⟩ := ih (max b (iterFromName x))
    refine ⟨by omega, ?_, ?_⟩
    · intro n hn
      rcases List.mem_cons.1 hn with rfl | hn
      · omega
      · exact h2 n hn
    · rcases h3 with h3 | ⟨n, hn, h3⟩
      · rw [h3]
        rcases Int.le_total b (iterFromName x) with h | h
        · right; exact ⟨x, by simp, by omega⟩
        · left; omega
      · right; exact ⟨n, by simp [hn], h3⟩

/-- C50: the reported final iteration bounds every field dump and is the iteration
of one of them; without field dumps the same over the whole tree. -/
theorem final_iter_spec (fld ms : List Str) :
    (∀ n ∈ fld, iterFromName n ≤ finalIter fld ms) ∧
    ((∃ n ∈ fld, 0 ≤ iterFromName n) → ∃ n ∈ fld, finalIter fld ms = iterFromName n) ∧
    ((∀ n ∈ fld, iterFromName n < 0) → (∀ n ∈ ms, iterFromName n ≤ finalIter fld ms) ∧
      (finalIter fld ms = -1 ∨ ∃ n ∈ ms, finalIter fld ms = iterFromName n)) := by
  obtain ⟨a1, a2, a3⟩ := foldl_max fld (-1)
  obtain ⟨b1, b2, b3⟩ := foldl_max ms (-1)
  simp only [finalIter]
  have e1 : maxIter fld = fld.foldl (fun b n => max b (iterFromName n)) (-1) := rfl
  have e2 : maxIter ms = ms.foldl (fun b n => max b (iterFromName n)) (-1) := rfl
  rw [← e1] at a1 a2 a3
  rw [← e2] at b1 b2 b3
  by_cases h : maxIter fld ≥ 0
  · rw [if_pos h]
    refine ⟨a2, ?_, ?_⟩
    · intro _
      rcases a3 with a3 | a3
      · omega
      · exact a3
    · intro hneg
      rcases a3 with a3 | ⟨n, hn, a3⟩
      · omega
      · have := hneg n hn; omega
  · rw [if_neg h]
    refine ⟨?_, ?_, ?_⟩
    · intro n hn; have := a2 n hn; omega
    · rintro ⟨n, hn, h0⟩; have := a2 n hn; omega
    · intro _; exact ⟨b2, b3⟩

/-- C50: a history table has one row per line that is neither blank, nor a
comment, nor non-numeric, in order; times are the second column and every row has
the same number of value columns. -/
theorem hist_rows {V : Type} (num : Str → Option V) (toks : Str → List Str) (lines : List Str) :
    histRows num toks lines = lines.filterMap fun l =>
      match strip l with
      | [] => none
      | c :: cs => if c = '!' ∨ c = '#' then none else (toks (c :: cs)).mapM num := by
  induction lines with
  | nil => rfl
  | cons l ls ih =>
    rw [List.filterMap_cons, ← ih]
    unfold histRows
    cases hs : strip l with
    | nil => rw [← histRows.eq_def]
    | cons c cs =>
      by_cases hc : c = '!' ∨ c = '#'
      · simp only [hc, if_true]; rw [← histRows.eq_def]
      · simp only [hc, if_false]
        cases (toks (c :: cs)).mapM num <;> rw [← histRows.eq_def]

theorem minWidth_le {V : Type} (rows : List (List V)) : ∀ r ∈ rows, minWidth rows ≤ r.length := by
  induction rows with
  | nil => simp
  | cons r rs ih =>
    intro x hx
    cases rs with
    | nil => simp at hx; simp [minWidth, hx]
    | cons r2 rs2 =>
      simp only [minWidth]
      rcases List.mem_cons.1 hx with rfl | hx
      · exact Nat.min_le_left _ _
      · exact Nat.le_trans (Nat.min_le_right _ _) (ih x hx)

/-- C50: the common width is the length of the shortest data row. -/
theorem minWidth_attained {V : Type} (rows : List (List V)) (h : rows ≠ []) :
    ∃ r ∈ rows, r.length = minWidth rows ∧ ∀ r' ∈ rows, r.length ≤ r'.length := by
  have key : ∃ r ∈ rows, r.length = minWidth rows := by
    induction rows with
    | nil => exact absurd rfl h
    | cons r rs ih =>
      cases rs with
      | nil => exact ⟨r, by simp, rfl⟩
      | cons r2 rs2 =>
        obtain ⟨x, hx, hl⟩ := ih (by simp)
        simp only [minWidth]
        by_cases hc : r.length ≤ minWidth (r2 :: rs2)
        · exact ⟨r, by simp, by omega⟩
        · exact ⟨x, List.mem_cons_of_mem _ hx, by omega⟩
  obtain ⟨r, hr, hl⟩ := key
  exact ⟨r, hr, hl, fun r' hr' => hl ▸ minWidth_le rows r' hr'⟩

/-- C50: the table is rectangular, with one time and one value row per data row. -/
theorem hist_rectangular {V : Type} (num : Str → Option V) (toks : Str → List Str) (lines : List Str)
    (t : List V) (vals : List (List V)) (h : parseHist num toks lines = some (t, vals)) :
    t.length = (histRows num toks lines).length ∧ vals.length = t.length ∧
    ∀ v ∈ vals, v.length = minWidth (histRows num toks lines) - 2 := by
  simp only [parseHist] at h
  split at h
  · cases h
  · split at h
    · cases h
    · rename_i hne hw
      simp only [Option.some.injEq, Prod.mk.injEq] at h
      obtain ⟨rfl, rfl⟩ := h
      have hmin := minWidth_le (histRows num toks lines)
      generalize minWidth (histRows num toks lines) = w at *
      generalize histRows num toks lines = rows at *
      have hlen : (rows.filterMap fun r => r[1]?).length = rows.length := by
        clear hne
        induction rows with
        | nil => rfl
        | cons r rs ih =>
          have hr := hmin r (by simp)
          have : r[1]? = some (r[1]'(by omega)) := List.getElem?_eq_getElem (by omega)
          rw [List.filterMap_cons, this]
          simp only [List.length_cons]
          rw [ih fun x hx => hmin x (by simp [hx])]
      refine ⟨hlen, by rw [hlen]; simp, ?_⟩
      intro v hv
      obtain ⟨r, hr, rfl⟩ := List.mem_map.1 hv
      have := hmin r hr
      simp only [List.length_drop, List.length_take]
      omega

/-- C50: time `i` is the second column of data row `i`, and value `j` of row `i` is
its column `j + 2`. -/
theorem hist_columns {V : Type} (num : Str → Option V) (toks : Str → List Str) (lines : List Str)
    (t : List V) (vals : List (List V)) (h : parseHist num toks lines = some (t, vals)) (i : Nat) (r : List V)
    (hr : (histRows num toks lines)[i]? = some r) :
    t[i]? = r[1]? ∧ ∃ v, vals[i]? = some v ∧
      ∀ j, j < minWidth (histRows num toks lines) - 2 → v[j]? = r[j + 2]? := by
  simp only [parseHist] at h
  split at h
  · cases h
  · split at h
    · cases h
    · rename_i hne hw
      simp only [Option.some.injEq, Prod.mk.injEq] at h
      obtain ⟨rfl, rfl⟩ := h
      have hmin := minWidth_le (histRows num toks lines)
      generalize minWidth (histRows num toks lines) = w at *
      generalize histRows num toks lines = rows at *
      refine ⟨?_, (r.take w).drop 2, by simp [hr], ?_⟩
      · clear hne
        induction rows generalizing i with
        | nil => simp at hr
        | cons r' rs ih =>
          have h' := hmin r' (by simp)
          have : r'[1]? = some (r'[1]'(by omega)) := List.getElem?_eq_getElem (by omega)
          rw [List.filterMap_cons, this]
          cases i with
          | zero => simp at hr; subst hr; simp
          | succ i =>
            simp only [List.getElem?_cons_succ] at hr ⊢
            exact ih i hr (fun x hx => hmin x (by simp [hx]))
      · intro j hj
        rw [List.getElem?_drop, List.getElem?_take, if_pos (by omega)]
        congr 1; omega

example : parseHist (fun s => match s with | [c] => if c.isDigit then some c else none | _ => none)
    (fun s => (s.filter (· != ' ')).map fun c => [c])
    ["! head".toList, "a b".toList, " 1 2 3 4".toList, "".toList, "5 6 7".toList] =
    some (['2', '6'], [['3'], ['7']]) := by decide

end Verif.Io
