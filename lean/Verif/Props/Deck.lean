import Verif.Lemmas.DeckFlat

/-!
# OSIRIS deck properties (C01-C06)

`FloatIO` stands for Python's `float(str)`/`repr(float)`; `FloatLaw io fin` is the
assumption that `repr` of a finite float reads back as the same float.
-/
namespace Verif.Deck

/-- A toy float type (a float *is* its literal), used only for examples and
counterexamples. -/
def litIO : FloatIO := { F := Str, ofLit := id, repr := id }

instance : DecidableEq litIO.F := inferInstanceAs (DecidableEq Str)

/-- Literals the toy float type reads back. -/
def litFin (s : Str) : Prop := floatRe s = true ∧ intRe s = false ∧ dToE s = s

theorem litLaw : FloatLaw litIO litFin := ⟨fun _ h => h⟩

/-- Equality of parse results is decided by comparing them. -/
def okEq {F : Type} [DecidableEq F] (r : Except Err (Sections F)) (D : Sections F) : Bool :=
  match r with
  | .ok D' => decide (D' = D)
  | .error _ => false

/-! ## C01 round trip -/

/-- C01, full statement: `parse(render(parse text)) = parse text` for every
accepted text.  It is FALSE of the code, see the two witnesses below. -/
def RoundTripAll (io : FloatIO) : Prop :=
  ∀ text D, parseDeck io text = .ok D → parseDeck io (renderDeck io D) = .ok D

/-- C01 (proved part): the round trip holds for every accepted deck whose
strings contain no `"`, whose floats are finite, whose slice specifications
contain no quote or `!`, and in which a list ending in an empty slot is only the
last parameter of its section.  Missing from the full statement: exactly the
decks excluded by `Printable`, for which the code really fails. -/
theorem deck_roundtrip_partial {io : FloatIO} {fin : io.F → Prop} (law : FloatLaw io fin)
    (text : Str) (D : Sections io.F) (hparse : parseDeck io text = .ok D) (hp : Printable fin D) :
    parseDeck io (renderDeck io D) = .ok D :=
  parse_render law D (parseSections_shape _ _ _ (preprocess_onlyNL text) hparse) hp

/-- C01, from the other side: every list of well-formed sections - however many
sections, keys and list entries - is reproduced by rendering and parsing. -/
theorem deck_render_parse {io : FloatIO} {fin : io.F → Prop} (law : FloatLaw io fin)
    (D : Sections io.F) (hs : ParsedShape D) (hp : Printable fin D) :
    parseDeck io (renderDeck io D) = .ok D :=
  parse_render law D hs hp

/-- The text `s{k=1,,,l=2}`. -/
def wTrailing : Str := ['s', '{', 'k', '=', '1', ',', ',', ',', 'l', '=', '2', '}']

/-- The text `s{k='a"b'}`. -/
def wQuote : Str := ['s', '{', 'k', '=', '\'', 'a', '"', 'b', '\'', '}']

/-- C01 fails: a list that ends with an empty slot before another key loses the
slot (`[1, None]` comes back as `1`). -/
theorem deck_roundtrip_false_trailing :
    parseDeck litIO wTrailing = .ok [(['s'], [(['k'], .list [.int 1, .none]), (['l'], .atom (.int 2))])] ∧
    parseDeck litIO (renderDeck litIO [(['s'], [(['k'], .list [.int 1, .none]), (['l'], .atom (.int 2))])]) =
      .ok [(['s'], [(['k'], .atom (.int 1)), (['l'], .atom (.int 2))])] := by
  constructor <;> rfl

/-- C01 fails: a single-quoted string containing a double quote renders to a
deck that no longer parses. -/
theorem deck_roundtrip_false_quote :
    parseDeck litIO wQuote = .ok [(['s'], [(['k'], .atom (.str ['a', '"', 'b']))])] ∧
    parseDeck litIO (renderDeck litIO [(['s'], [(['k'], .atom (.str ['a', '"', 'b']))])]) = .error .unterminated := by
  constructor <;> rfl

/-- The full C01 statement is refuted. -/
theorem deck_roundtrip_false : ¬ RoundTripAll litIO := by
  intro h
  have h1 := deck_roundtrip_false_quote
  have h2 := h _ _ h1.1
  rw [h1.2] at h2
  cases h2

/-- A non-trivial deck meeting the hypotheses: two sections with one name, a
slice key, a list with an inner empty slot, strings with `!`, `,`, `}` and `'`. -/
def sampleDeck : Sections Str :=
  [ (['s', 'p'], [ (['n', '(', '1', ':', '2', ')'], .list [.int (-12), .none, .flt ['0', '.', '5']]),
                   (['q'], .atom (.str ['a', '!', ',', '}', '\''])),
                   (['r'], .list [.bool true, .none]) ]),
    (['s', 'p'], []) ]

example : ParsedShape (F := Str) sampleDeck ∧ Printable (F := Str) litFin sampleDeck := by
  constructor
  · intro sec hsec
    simp only [sampleDeck, List.mem_cons, List.not_mem_nil, or_false] at hsec
    rcases hsec with rfl | rfl
    · refine ⟨⟨'s', ['p'], rfl, by decide, by decide⟩, ?_, by decide, ?_, ?_⟩
      · intro kv hkv
        simp only [List.mem_cons, List.not_mem_nil, or_false] at hkv
        rcases hkv with rfl | rfl | rfl
        · exact ⟨⟨['n'], ['(', '1', ':', '2', ')'], rfl, ⟨'n', [], rfl, by decide, by decide⟩,
            Or.inr ⟨['1', ':', '2'], rfl, by decide⟩⟩, by unfold OnlyNL; decide⟩
        · exact ⟨⟨['q'], [], rfl, ⟨'q', [], rfl, by decide, by decide⟩, Or.inl rfl⟩,
        by intro c hc hb; simp only [List.mem_singleton] at hc; subst hc; exact absurd hb (by decide)⟩
        · exact ⟨⟨['r'], [], rfl, ⟨'r', [], rfl, by decide, by decide⟩, Or.inl rfl⟩, by unfold OnlyNL; decide⟩
      · intro kv hkv l hl
        simp only [List.mem_cons, List.not_mem_nil, or_false] at hkv
        rcases hkv with rfl | rfl | rfl <;> cases hl <;> decide
      · intro kv hkv
        simp only [List.mem_cons, List.not_mem_nil, or_false] at hkv
        rcases hkv with rfl | rfl | rfl <;> (unfold OnlyNL; decide)
    · exact ⟨⟨'s', ['p'], rfl, by decide, by decide⟩, by simp, by decide, by simp, by simp⟩
  · intro sec hsec
    simp only [sampleDeck, List.mem_cons, List.not_mem_nil, or_false] at hsec
    rcases hsec with rfl | rfl
    · refine ⟨by decide, ?_, ?_⟩
      · intro kv hkv
        simp only [List.mem_cons, List.not_mem_nil, or_false] at hkv
        rcases hkv with rfl | rfl | rfl
        · exact ⟨by intro x hx; simp [Value.atoms] at hx; subst hx; exact ⟨by decide, by decide, by decide⟩,
            by decide, Or.inl (by decide)⟩
        · exact ⟨by intro x hx; simp [Value.atoms] at hx, by decide, Or.inl (by decide)⟩
        · exact ⟨by intro x hx; simp [Value.atoms] at hx, by decide, Or.inl (by decide)⟩
      · intro kv hkv l hl
        simp only [List.dropLast, List.mem_cons, List.not_mem_nil, or_false] at hkv
        rcases hkv with rfl | rfl <;> cases hl; simp
    · exact ⟨by simp, by simp, by simp⟩

/-- ... and it is the result of parsing some text. -/
example : ∃ text, parseDeck litIO text = .ok sampleDeck := ⟨renderDeck litIO sampleDeck, rfl⟩

/-! ## C02 comments -/

/-- C02: appending `! comment` to any line, at a point outside quotes, does not
change the parse - whatever the other lines are.  (Lines are free of line break
characters; the comment is not the whole of an unterminated last line.) -/
theorem comment_irrelevant (io : FloatIO) (before after : List Str) (line comment : Str)
    (hb : ∀ l ∈ before, ∀ c ∈ l, lineBreak c = false) (ha : ∀ l ∈ after, ∀ c ∈ l, lineBreak c = false)
    (hl : ∀ c ∈ line, lineBreak c = false) (hc : ∀ c ∈ comment, lineBreak c = false)
    (hbal : Balanced line) (hne : line ≠ [] ∨ after ≠ []) :
    parseDeck io (joinLines (before ++ (line ++ '!' :: comment) :: after)) =
      parseDeck io (joinLines (before ++ line :: after)) := by
  unfold parseDeck
  rw [preprocess_comment before after line comment hb ha hl hc hbal hne]

/-- C02, second half: inside a quoted string `!` is data - any string without
`"`, `\n` or other line breaks, in particular one with `!`, is read back. -/
theorem bang_in_string_kept (io : FloatIO) {fin : io.F → Prop} (law : FloatLaw io fin) (s : Str)
    (hq : '"' ∉ s) (hs : ∀ c ∈ s, lineBreak c = false) :
    parseDeck io (renderDeck io [(['s'], [(['k'], .atom (.str s))])]) = .ok [(['s'], [(['k'], .atom (.str s))])] := by
  have hsc : (Value.atom (Atom.str s : Atom io.F)).strChars = s := by
    simp [Value.strChars, Value.atoms]
  apply parse_render law
  · intro sec hsec
    simp only [List.mem_singleton] at hsec
    subst hsec
    refine ⟨⟨'s', [], rfl, by decide, by simp⟩, ?_, by simp [dictKeys], ?_, ?_⟩
    · intro kv hkv; simp only [List.mem_singleton] at hkv; subst hkv
      exact ⟨⟨['k'], [], rfl, ⟨'k', [], rfl, by decide, by simp⟩, Or.inl rfl⟩, by intro c hc hb; simp only [List.mem_singleton] at hc; subst hc; exact absurd hb (by decide)⟩
    · intro kv hkv l hl; simp only [List.mem_singleton] at hkv; subst hkv; cases hl
    · intro kv hkv; simp only [List.mem_singleton] at hkv; subst hkv
      rw [hsc]; intro c hc hb; rw [hs c hc] at hb; cases hb
  · intro sec hsec
    simp only [List.mem_singleton] at hsec
    subst hsec
    refine ⟨?_, ?_, by simp⟩
    · intro kv hkv; simp only [List.mem_singleton] at hkv; subst hkv; simp [isQuote]
    · intro kv hkv; simp only [List.mem_singleton] at hkv; subst hkv
      refine ⟨by intro x hx; simp [Value.atoms] at hx, by rw [hsc]; exact hq, Or.inl ?_⟩
      rw [hsc]; intro hn
      exact absurd (hs _ hn) (by decide)

/-- `k = "a!b"` is outside quotes at its end. -/
example : Balanced ['k', '=', '"', 'a', '!', 'b', '"'] := by
  have h1 : Balanced ['k'] := Balanced.plain .nil (by decide)
  have h2 : Balanced ['k', '='] := Balanced.plain h1 (by decide)
  exact Balanced.span h2 (m := ['a', '!', 'b']) (q := '"') (by decide) (by decide)

/-! ## C03 termination -/

/-- C03: on every text the parse loop ends, with sections or with one of the five
`ValueError`s of the code; it never runs forever (the model's fuel is never
exhausted). -/
theorem parse_terminates (io : FloatIO) (text : Str) :
    (∃ D, parseDeck io text = .ok D) ∨
      (∃ e, parseDeck io text = .error e ∧
        e ∈ [Err.sectionName, .openBrace, .unterminated, .key, .equals]) := by
  have h := parseSections_fuel (io := io) ((preprocess text).length + 1) (preprocess text)
    (preprocess_onlyNL text) (by omega)
  unfold parseDeck
  simp only
  cases hr : parseSections io ((preprocess text).length + 1) (preprocess text) with
  | ok D => exact Or.inl ⟨D, rfl⟩
  | error e =>
    right
    refine ⟨e, rfl, ?_⟩
    cases e with
    | fuel => exact absurd hr h
    | _ => decide

/-- Both outcomes occur. -/
example : parseDeck litIO ['s', '{', '}'] = .ok [(['s'], [])] ∧ parseDeck litIO ['s', '{'] = .error .unterminated := by
  constructor <;> rfl

/-! ## C04 overrides touch exactly what they name -/

/-- C04: if the overrides are accepted then section names, number and order are
unchanged; a section whose name is not mentioned keeps its parameters; the `j`-th
occurrence of a mentioned section holds exactly what its override makes of its
parameters (all entries for a blanket override; only the entries with index `j`
for an indexed one). -/
theorem overrides_exact {V : Type} (ss ss' : List (Str × Dict Str V)) (ov : List (Str × SecOver V))
    (hnd : (ov.map Prod.fst).Nodup) (h : mergeOverrides ss ov = .ok ss') :
    ss'.map Prod.fst = ss.map Prod.fst ∧
    (∀ (i : Nat) nm ps, ss[i]? = some (nm, ps) → nm ∉ ov.map Prod.fst → ss'[i]? = some (nm, ps)) ∧
    (∀ nm over, (nm, SecOver.blanket over) ∈ ov → ∀ (i : Nat) ps, ss[i]? = some (nm, ps) →
      ∃ ps', mergeParams ps over = .ok ps' ∧ ss'[i]? = some (nm, ps')) ∧
    (∀ nm l, (nm, SecOver.indexed l) ∈ ov → ∀ (i : Nat) ps, ss[i]? = some (nm, ps) →
      ∃ (j : Nat) (hj : j < (occurrences ss nm).length) (ps' : Dict Str V),
        (occurrences ss nm)[j] = i ∧ mergeSelected j ps l = .ok ps' ∧ ss'[i]? = some (nm, ps')) := by
  obtain ⟨h1, h2, h3, _, _⟩ := mergeOverrides_spec ov hnd h
  have pos : ∀ nm (i : Nat) ps, ss[i]? = some (nm, ps) →
      ∃ (j : Nat) (hj : j < (occurrences ss nm).length), (occurrences ss nm)[j] = i := by
    intro nm i ps hp
    have : i ∈ occurrences ss nm := by
      rw [mem_occurrences, List.getElem?_map, hp]; rfl
    exact List.getElem_of_mem this
  refine ⟨h1, h2, ?_, ?_⟩
  · intro nm over hmem i ps hp
    obtain ⟨j, hj, rfl⟩ := pos nm i ps hp
    exact h3 nm _ hmem j hj ps hp
  · intro nm l hmem i ps hp
    obtain ⟨j, hj, rfl⟩ := pos nm i ps hp
    obtain ⟨ps', a, b⟩ := h3 nm _ hmem j hj ps hp
    exact ⟨j, hj, ps', rfl, a, b⟩

/-- C04: an override of an absent section, or with an index outside the
occurrences of its section, is rejected. -/
theorem overrides_rejected {V : Type} (ss : List (Str × Dict Str V)) (ov : List (Str × SecOver V))
    (hnd : (ov.map Prod.fst).Nodup)
    (hbad : (∃ o ∈ ov, o.1 ∉ ss.map Prod.fst) ∨
      (∃ nm l, (nm, SecOver.indexed l) ∈ ov ∧ ∃ x ∈ l, x.1 < 0 ∨ (ss.map Prod.fst).count nm ≤ x.1)) :
    ∃ e, mergeOverrides ss ov = .error e := by
  cases h : mergeOverrides ss ov with
  | error e => exact ⟨e, rfl⟩
  | ok ss' =>
    exfalso
    obtain ⟨_, _, _, h4, h5⟩ := mergeOverrides_spec ov hnd h
    rcases hbad with ⟨o, ho, hn⟩ | ⟨nm, l, hm, x, hx, hr⟩
    · exact hn (h4 o.1 o.2 ho)
    · have hlen : (occurrences ss nm).length = (ss.map Prod.fst).count nm := by
        unfold occurrences
        rw [← List.countP_eq_length_filter]
        have : ∀ (L : List (Str × Dict Str V)), List.countP (fun i => L[i]?.map Prod.fst == some nm) (List.range L.length)
            = (L.map Prod.fst).count nm := by
          intro L
          induction L with
          | nil => rfl
          | cons a L ih =>
            rw [List.length_cons, List.range_succ_eq_map, List.countP_cons, List.countP_map, List.map_cons, List.count_cons, ← ih]
            congr 1
        exact this ss
      have := h5 nm l hm x hx
      rw [hlen] at this
      omega

/-- C04: what merging does to one section's parameters.  Keys keep their order
(new ones are appended and are override keys); a key that is neither named by an
override nor has its base name named keeps its value; and the last override that
can address a key determines it. -/
theorem merge_params_exact {V : Type} (ps res : Dict Str V) (over : List (Str × V))
    (h : mergeParams ps over = .ok res) :
    (∃ new, dictKeys res = dictKeys ps ++ new ∧ ∀ k ∈ new, k ∈ over.map Prod.fst) ∧
    (∀ k, (∀ o ∈ over, o.1 ≠ k ∧ o.1 ≠ baseName k) → dictGet res k = dictGet ps k) ∧
    (∀ o1 k v o2, over = o1 ++ (k, v) :: o2 → ∃ t, (t = k ∨ baseName t = k) ∧
      ((∀ o ∈ o2, o.1 ≠ t ∧ o.1 ≠ baseName t) → dictGet res t = some v)) := by
  refine ⟨mergeParams_keys over ps res h, fun k hk => mergeParams_get over ps res h k hk, ?_⟩
  rintro o1 k v o2 rfl
  obtain ⟨mid, _, h2⟩ := mergeParams_append o1 _ ps res h
  unfold mergeParams at h2
  split at h2
  · cases h2
  · next t ht =>
    refine ⟨t, ?_, ?_⟩
    · rcases findParamKey_some ht with h | h
      · exact Or.inl h
      · exact Or.inr h.2
    · intro ho
      rw [mergeParams_get o2 _ res h2 t ho, dictGet_dictSet, if_pos rfl]

example : mergeOverrides [(['a'], [(['x', '(', '1', ')'], 1)]), (['b'], [(['y'], 2)]), (['a'], [(['z'], 3)])]
    [(['a'], .indexed [(1, [(['z'], 9)])]), (['b'], .blanket [(['w'], 7)])] =
    .ok [(['a'], [(['x', '(', '1', ')'], 1)]), (['b'], [(['y'], 2), (['w'], 7)]), (['a'], [(['z'], 9)])] := by rfl

/-! ## C05 key resolution -/

/-- C05: the four cases of override key resolution, for every section. -/
theorem override_key_resolution {V : Type} (ps : Dict Str V) (req : Str) :
    (req ∈ dictKeys ps → findParamKey ps req = some req) ∧
    (req ∉ dictKeys ps → ∀ k, (dictKeys ps).filter (fun k => baseName k == req) = [k] → findParamKey ps req = some k) ∧
    (req ∉ dictKeys ps → (∀ k ∈ dictKeys ps, baseName k ≠ req) → findParamKey ps req = some req) ∧
    (findParamKey ps req = none ↔
      req ∉ dictKeys ps ∧ 2 ≤ ((dictKeys ps).filter (fun k => baseName k == req)).length) ∧
    (∀ t, findParamKey ps req = some t → t = req ∨ (t ∈ dictKeys ps ∧ baseName t = req)) := by
  refine ⟨?_, ?_, ?_, ?_, fun t h => findParamKey_some h⟩
  · intro h; simp [findParamKey, h]
  · intro h k hk; simp [findParamKey, h, hk]
  · intro h hno
    have : (dictKeys ps).filter (fun k => baseName k == req) = [] := by
      rw [List.filter_eq_nil_iff]
      intro a ha; simpa using hno a ha
    simp [findParamKey, h, this]
  · unfold findParamKey
    split
    · next h => simp [h]
    · next h =>
      match hf : (dictKeys ps).filter (fun k => baseName k == req) with
      | [] => simp
      | [k] => simp
      | a :: b :: r => simp [h]

example : findParamKey [(['n', '(', '1', ')'], 0), (['n', '(', '2', ')'], 0)] ['n'] = none := by decide

/-! ## C06 flat dictionary for logging -/

/-- C06: every logged name is built from characters MLflow accepts. -/
theorem flat_names_legal {F : Type} (ss : Sections F) :
    ∀ e ∈ deckToFlatDict ss, ∀ c ∈ e.1, mlflowSafe c = true := by
  intro e he
  rcases mem_foldl_dictSet _ _ e he with h | h
  · exact flatAssigns_safe _ _ ss e h
  · simp at h

/-- C06, full statement: every scalar of the deck is logged (the flat dictionary
has one entry per scalar). -/
def FlatLossless (F : Type) : Prop :=
  ∀ ss : Sections F, (deckToFlatDict ss).length = (flatAssigns (ss.map Prod.fst) [] ss).length

/-- C06 fails: keys `a(1)` and `a_1` are logged under one name. -/
theorem flat_lossless_false : ¬ FlatLossless Str := by
  intro h
  have := h [(['s'], [(['a', '(', '1', ')'], .atom (.int 1)), (['a', '_', '1'], .atom (.int 2))])]
  revert this
  decide

/-- C06 (proved part): nothing is lost when the sanitised section prefixes are
distinct, the sanitised keys of each section are distinct and none of them
contains a dot.  Missing: decks where sanitising makes names collide, where the
code really drops entries. -/
theorem flat_lossless_partial {F : Type} (ss : Sections F)
    (hpre : (prefixesAux (ss.map Prod.fst) [] ss).Nodup)
    (hdot : ∀ p ∈ prefixesAux (ss.map Prod.fst) [] ss, '.' ∉ p)
    (hkeys : ∀ sec ∈ ss, (sec.2.map fun kv => sanitizeKey kv.1).Nodup)
    (hkdot : ∀ sec ∈ ss, ∀ kv ∈ sec.2, '.' ∉ sanitizeKey kv.1) :
    (deckToFlatDict ss).length = (flatAssigns (ss.map Prod.fst) [] ss).length ∧
    ∀ e ∈ flatAssigns (ss.map Prod.fst) [] ss, dictGet (deckToFlatDict ss) e.1 = some e.2 := by
  have hnd := flatAssigns_nodup (ss.map Prod.fst) [] ss hpre hdot hkeys hkdot
  have he : deckToFlatDict ss = flatAssigns (ss.map Prod.fst) [] ss := by
    unfold deckToFlatDict
    rw [foldl_dictSet _ _ (by simpa [dictKeys] using hnd), List.nil_append]
  rw [he]
  exact ⟨rfl, fun e hm => dictGet_of_mem_nodup hnd hm⟩

example : let ss : Sections Str := [(['s'], [(['a', '(', '1', ')'], .list [.int 1, .int 2]), (['b'], .atom (.int 2))]), (['s'], [])]
    (prefixesAux (ss.map Prod.fst) [] ss).Nodup ∧ (∀ p ∈ prefixesAux (ss.map Prod.fst) [] ss, '.' ∉ p) ∧
    (∀ sec ∈ ss, (sec.2.map fun kv => sanitizeKey kv.1).Nodup) ∧
    (∀ sec ∈ ss, ∀ kv ∈ sec.2, '.' ∉ sanitizeKey kv.1) := by decide

end Verif.Deck
