import Verif.Lemmas.DeckClean

/-! Parsing rendered decks. -/
namespace Verif.Deck

/-! ### characters of rendered tokens -/

/-- Characters of numeric literals and logicals. -/
def plainTok (c : Char) : Bool :=
  !isQuote c && c != '}' && c != ',' && c != '!' && c != '\n' && !pySpace c && !lineBreak c

theorem plainTok_digit {c : Char} (h : isDigit c = true) : plainTok c = true := by
  simp only [isDigit, Bool.and_eq_true, decide_eq_true_eq] at h
  have e : ∀ d : Char, (d.toNat < 48 ∨ 57 < d.toNat) → c ≠ d := by
    intro d hd he; subst he; omega
  simp only [plainTok, isQuote, pySpace, lineBreak, Bool.and_eq_true, Bool.not_eq_true', Bool.or_eq_false_iff,
    bne_iff_ne, beq_eq_false_iff_ne, ne_eq, Bool.and_eq_false_iff, decide_eq_false_iff_not]
  refine ⟨⟨⟨⟨⟨⟨⟨e _ (by decide), e _ (by decide)⟩, e _ (by decide)⟩, e _ (by decide)⟩, e _ (by decide)⟩, e _ (by decide)⟩, ?_⟩, ?_⟩ <;> omega

theorem dropSign_cases (s : Str) : dropSign s = s ∨ (∃ c, (c = '+' ∨ c = '-') ∧ s = c :: dropSign s) := by
  unfold dropSign
  split
  · exact Or.inr ⟨'+', Or.inl rfl, rfl⟩
  · exact Or.inr ⟨'-', Or.inr rfl, rfl⟩
  · exact Or.inl rfl

/-- Characters that occur in `_FLOAT_RE` / `_INT_RE` matches. -/
def numChar (c : Char) : Bool :=
  isDigit c || c == '+' || c == '-' || c == '.' || c == 'e' || c == 'E' || c == 'd' || c == 'D'

theorem numChar_plain {c : Char} (h : numChar c = true) : plainTok c = true := by
  simp only [numChar, Bool.or_eq_true, beq_iff_eq] at h
  rcases h with ((((((h|h)|h)|h)|h)|h)|h)|h
  · exact plainTok_digit h
  all_goals subst h; decide

theorem numChar_dropSign {s : Str} (h : ∀ c ∈ dropSign s, numChar c = true) : ∀ c ∈ s, numChar c = true := by
  rcases dropSign_cases s with e | ⟨d, hd, e⟩
  · rwa [e] at h
  · intro c hc
    rw [e] at hc
    rcases List.mem_cons.1 hc with rfl | hc
    · rcases hd with rfl | rfl <;> decide
    · exact h c hc

theorem allDigits1_num {s : Str} (h : allDigits1 s = true) : ∀ c ∈ s, numChar c = true := by
  simp only [allDigits1, Bool.and_eq_true] at h
  intro c hc
  simp [numChar, List.all_eq_true.1 h.2 c hc]

theorem intRe_num {s : Str} (h : intRe s = true) : ∀ c ∈ s, numChar c = true :=
  numChar_dropSign (allDigits1_num h)

theorem expRe_num {s : Str} (h : expRe s = true) : ∀ c ∈ s, numChar c = true := by
  cases s with
  | nil => intro c hc; simp at hc
  | cons c cs =>
    simp only [expRe, Bool.and_eq_true] at h
    intro d hd
    rcases List.mem_cons.1 hd with rfl | hd
    · simp only [Bool.or_eq_true, beq_iff_eq] at h
      rcases h.1 with ((h|h)|h)|h <;> subst h <;> decide
    · exact numChar_dropSign (allDigits1_num h.2) d hd

theorem mem_takeWhile_p {α : Type} {p : α → Bool} {l : List α} {a : α} (h : a ∈ l.takeWhile p) : p a = true := by
  induction l with
  | nil => simp at h
  | cons b bs ih =>
    unfold List.takeWhile at h
    cases hb : p b with
    | false => rw [hb] at h; simp at h
    | true =>
      rw [hb] at h
      rcases List.mem_cons.1 h with rfl | h
      · exact hb
      · exact ih h

theorem floatRe_num {s : Str} (h : floatRe s = true) : ∀ c ∈ s, numChar c = true := by
  apply numChar_dropSign
  unfold floatRe at h
  generalize dropSign s = t at h ⊢
  have dig : ∀ (l : Str), ∀ c ∈ l.takeWhile isDigit, numChar c = true := by
    intro l c hc; simp [numChar, mem_takeWhile_p hc]
  intro c hc
  rw [← List.takeWhile_append_dropWhile (p := isDigit) (l := t)] at hc
  rcases List.mem_append.1 hc with hc | hc
  · exact dig _ c hc
  · simp only at h
    split at h
    · next r heq =>
      rw [heq] at hc
      rcases List.mem_cons.1 hc with rfl | hc
      · decide
      · rw [← List.takeWhile_append_dropWhile (p := isDigit) (l := r)] at hc
        rcases List.mem_append.1 hc with hc | hc
        · exact dig _ c hc
        · simp only [Bool.and_eq_true] at h
          exact expRe_num h.2 c hc
    · simp only [Bool.and_eq_true] at h
      exact expRe_num h.2 c hc

theorem intRe_ne_nil {s : Str} (h : intRe s = true) : s ≠ [] := by
  rintro rfl; exact absurd h (by decide)

theorem floatRe_ne_nil {s : Str} (h : floatRe s = true) : s ≠ [] := by
  rintro rfl; exact absurd h (by decide)

theorem tight_of_all {s : Str} (h : ∀ c ∈ s, pySpace c = false) : Tight s :=
  ⟨fun c hc => h c (List.mem_of_mem_head? hc), fun c hc => h c (List.mem_of_getLast? hc)⟩

theorem plainTok_space {c : Char} (h : plainTok c = true) : pySpace c = false := by
  simp only [plainTok, Bool.and_eq_true, Bool.not_eq_true'] at h; exact h.1.2

theorem plainTok_quote {c : Char} (h : plainTok c = true) : isQuote c = false := by
  simp only [plainTok, Bool.and_eq_true, Bool.not_eq_true'] at h; exact h.1.1.1.1.1.1

/-! ### one token -/

theorem unquote_plain {s : Str} (h : ∀ c ∈ s, isQuote c = false) : unquote s = none := by
  unfold unquote
  split
  · next c d cs =>
    rw [h c (by simp)]; simp
  · rfl

theorem unquote_quoted (s : Str) : unquote ('"' :: s ++ ['"']) = some s := by
  cases s with
  | nil => rfl
  | cons c cs =>
    show unquote ('"' :: c :: (cs ++ ['"'])) = _
    unfold unquote
    have h1 : (c :: (cs ++ ['"'])).getLast? = some '"' := by
      rw [← List.cons_append, List.getLast?_concat]
    have h2 : (c :: (cs ++ ['"'])).dropLast = c :: cs := by
      rw [← List.cons_append, List.dropLast_concat]
    simp only [h1, h2]
    simp [isQuote]

theorem low_ne_of {s tok : Str} {x : Char} (hx : x ∈ tok) (h : ∀ c ∈ s, asciiLower c ≠ x) :
    s.map asciiLower ≠ tok := by
  rintro rfl
  obtain ⟨c, hc, e⟩ := List.mem_map.1 hx
  exact h c hc e

theorem digit_ofNat {c : Char} (h : isDigit c = true) : 48 ≤ c.toNat ∧ c.toNat ≤ 57 := by
  simpa [isDigit] using h

theorem numChar_lower {c : Char} (h : numChar c = true) : asciiLower c ≠ 't' ∧ asciiLower c ≠ 'f' := by
  simp only [numChar, Bool.or_eq_true, beq_iff_eq] at h
  rcases h with ((((((h|h)|h)|h)|h)|h)|h)|h
  · have := digit_ofNat h
    have e : asciiLower c = c := by
      unfold asciiLower
      rw [if_neg]; simp; omega
    rw [e]
    constructor <;> rintro rfl <;> exact absurd h (by decide)
  all_goals subst h; decide

theorem low_num {s : Str} (h : ∀ c ∈ s, numChar c = true) :
    ¬ (s.map asciiLower = ['.', 't', 'r', 'u', 'e', '.'] ∨ s.map asciiLower = ['.', 't', '.']) ∧
    ¬ (s.map asciiLower = ['.', 'f', 'a', 'l', 's', 'e', '.'] ∨ s.map asciiLower = ['.', 'f', '.']) := by
  have ht : ∀ c ∈ s, asciiLower c ≠ 't' := fun c hc => (numChar_lower (h c hc)).1
  have hf : ∀ c ∈ s, asciiLower c ≠ 'f' := fun c hc => (numChar_lower (h c hc)).2
  refine ⟨?_, ?_⟩
  · rintro (e | e)
    · exact low_ne_of (x := 't') (by decide) ht e
    · exact low_ne_of (x := 't') (by decide) ht e
  · rintro (e | e)
    · exact low_ne_of (x := 'f') (by decide) hf e
    · exact low_ne_of (x := 'f') (by decide) hf e

/-- An atom that can be written and read back. -/
def AtomOk {F : Type} (fin : F → Prop) : Atom F → Prop
  | .flt x => fin x
  | .str s => '"' ∉ s
  | _ => True

theorem renderAtom_tight {io : FloatIO} {fin : io.F → Prop} (law : FloatLaw io fin) (a : Atom io.F)
    (ha : AtomOk fin a) : Tight (renderAtom io a) := by
  cases a with
  | none => exact ⟨by simp [renderAtom], by simp [renderAtom]⟩
  | bool b =>
    cases b
    · exact tight_of_all (s := ['.', 'f', 'a', 'l', 's', 'e', '.']) (by decide)
    · exact tight_of_all (s := ['.', 't', 'r', 'u', 'e', '.']) (by decide)
  | int i => exact tight_of_all fun c hc => plainTok_space (numChar_plain (intRe_num (intStr_re i) c hc))
  | flt x => exact tight_of_all fun c hc => plainTok_space (numChar_plain (floatRe_num (law.rt x ha).1 c hc))
  | str s =>
    constructor
    · intro c hc; simp [renderAtom] at hc; subst hc; decide
    · intro c hc
      have : (renderAtom io (.str s)).getLast? = some '"' := by
        show ('"' :: s ++ ['"']).getLast? = _
        rw [List.getLast?_concat]
      rw [this] at hc; cases hc; decide

theorem parseAtom_render {io : FloatIO} {fin : io.F → Prop} (law : FloatLaw io fin) (a : Atom io.F)
    (ha : AtomOk fin a) : parseAtom io (renderAtom io a) = a := by
  have ht := renderAtom_tight law a ha
  unfold parseAtom
  rw [strip_of_tight ht]
  cases a with
  | none => rfl
  | bool b => cases b <;> rfl
  | int i =>
    have hnum := intRe_num (intStr_re i)
    have hq := unquote_plain (s := intStr i) fun c hc => plainTok_quote (numChar_plain (hnum c hc))
    have hne : (intStr i).isEmpty = false := by
      cases h : intStr i with
      | nil => exact absurd h (intRe_ne_nil (intStr_re i))
      | cons _ _ => rfl
    have hl := low_num hnum
    simp only [renderAtom, hne, hq, Bool.false_eq_true, if_false, if_neg hl.1, if_neg hl.2, intStr_re, if_true, pyInt_intStr]
  | flt x =>
    obtain ⟨h1, h2, h3⟩ := law.rt x ha
    have hnum := floatRe_num h1
    have hq := unquote_plain (s := io.repr x) fun c hc => plainTok_quote (numChar_plain (hnum c hc))
    have hne : (io.repr x).isEmpty = false := by
      cases h : io.repr x with
      | nil => exact absurd h (floatRe_ne_nil h1)
      | cons _ _ => rfl
    have hl := low_num hnum
    simp only [renderAtom, hne, hq, Bool.false_eq_true, if_false, if_neg hl.1, if_neg hl.2, h1, h2, if_true, h3]
  | str s =>
    simp only [renderAtom, unquote_quoted]
    simp

theorem renderAtom_empty {io : FloatIO} {fin : io.F → Prop} (law : FloatLaw io fin) (a : Atom io.F)
    (ha : AtomOk fin a) (h : renderAtom io a = []) : a = .none := by
  have := parseAtom_render law a ha
  rw [h] at this
  rw [← this]; rfl

/-! ### splitting the value -/

theorem splitRaw_plain (t rest buf : Str) (h : ∀ c ∈ t, isQuote c = false ∧ c ≠ ',') :
    splitCommasRaw none buf (t ++ rest) = splitCommasRaw none (t.reverse ++ buf) rest := by
  induction t generalizing buf with
  | nil => rfl
  | cons c cs ih =>
    have h1 := h c (by simp)
    rw [List.cons_append]
    conv => lhs; unfold splitCommasRaw
    simp only [h1.1, Bool.false_eq_true, if_false, if_neg h1.2]
    rw [ih _ fun d hd => h d (by simp [hd])]
    simp

theorem splitRaw_inside (x : Char) (m rest buf : Str) (h : x ∉ m) :
    splitCommasRaw (some x) buf (m ++ x :: rest) = splitCommasRaw none (x :: (m.reverse ++ buf)) rest := by
  induction m generalizing buf with
  | nil =>
    simp only [List.nil_append, List.reverse_nil]
    conv => lhs; unfold splitCommasRaw
    simp
  | cons c cs ih =>
    simp only [List.mem_cons, not_or] at h
    rw [List.cons_append]
    conv => lhs; unfold splitCommasRaw
    simp only [if_neg (fun e => h.1 (Eq.symm e) : ¬ c = x)]
    rw [ih _ h.2]
    simp

theorem splitRaw_atom {io : FloatIO} {fin : io.F → Prop} (law : FloatLaw io fin) (a : Atom io.F)
    (ha : AtomOk fin a) (rest buf : Str) :
    splitCommasRaw none buf (renderAtom io a ++ rest) =
      splitCommasRaw none ((renderAtom io a).reverse ++ buf) rest := by
  have num : ∀ s : Str, (∀ c ∈ s, numChar c = true) →
      splitCommasRaw none buf (s ++ rest) = splitCommasRaw none (s.reverse ++ buf) rest := by
    intro s hs
    apply splitRaw_plain
    intro c hc
    have := numChar_plain (hs c hc)
    simp only [plainTok, Bool.and_eq_true, Bool.not_eq_true', bne_iff_ne] at this
    exact ⟨this.1.1.1.1.1.1, this.1.1.1.1.2⟩
  cases a with
  | none => rfl
  | bool b =>
    cases b
    · exact splitRaw_plain ['.', 'f', 'a', 'l', 's', 'e', '.'] _ _ (by decide)
    · exact splitRaw_plain ['.', 't', 'r', 'u', 'e', '.'] _ _ (by decide)
  | int i => exact num _ (intRe_num (intStr_re i))
  | flt x => exact num _ (floatRe_num (law.rt x ha).1)
  | str s =>
    show splitCommasRaw none buf ('"' :: s ++ ['"'] ++ rest) = _
    have : '"' :: s ++ ['"'] ++ rest = '"' :: (s ++ '"' :: rest) := by simp
    rw [this]
    conv => lhs; unfold splitCommasRaw
    rw [splitRaw_inside '"' s rest ('"' :: buf) ha]
    simp [renderAtom, isQuote]

theorem splitRaw_list {io : FloatIO} {fin : io.F → Prop} (law : FloatLaw io fin) (a : Atom io.F) (l : List (Atom io.F))
    (hl : ∀ b ∈ a :: l, AtomOk fin b) (tail buf : Str) :
    splitCommasRaw none buf (joinCommaSp ((a :: l).map (renderAtom io)) ++ ',' :: tail) =
      (buf.reverse ++ renderAtom io a) :: l.map (fun b => ' ' :: renderAtom io b) ++ splitCommasRaw none [] tail := by
  induction l generalizing a buf with
  | nil =>
    simp only [List.map_cons, List.map_nil, joinCommaSp]
    rw [splitRaw_atom law a (hl a (by simp))]
    conv => lhs; unfold splitCommasRaw
    simp [isQuote]
  | cons b bs ih =>
    have e : joinCommaSp ((a :: b :: bs).map (renderAtom io)) ++ ',' :: tail =
        renderAtom io a ++ ',' :: ' ' :: (joinCommaSp ((b :: bs).map (renderAtom io)) ++ ',' :: tail) := by
      simp [joinCommaSp]
    rw [e, splitRaw_atom law a (hl a (by simp))]
    conv => lhs; unfold splitCommasRaw
    simp only [show isQuote ',' = false by decide, Bool.false_eq_true, if_false, if_true]
    conv => lhs; rhs; unfold splitCommasRaw
    simp only [show isQuote ' ' = false by decide, Bool.false_eq_true, if_false, show ¬ (' ' = ',') by decide]
    rw [ih b (fun c hc => hl c (by simp [hc]))]
    simp

theorem splitRaw_list' {io : FloatIO} {fin : io.F → Prop} (law : FloatLaw io fin) (a : Atom io.F) (l : List (Atom io.F))
    (hl : ∀ b ∈ a :: l, AtomOk fin b) (buf : Str) :
    splitCommasRaw none buf (joinCommaSp ((a :: l).map (renderAtom io))) =
      (buf.reverse ++ renderAtom io a) :: l.map (fun b => ' ' :: renderAtom io b) := by
  induction l generalizing a buf with
  | nil =>
    simp only [List.map_cons, List.map_nil, joinCommaSp]
    have := splitRaw_atom law a (hl a (by simp)) [] buf
    rw [List.append_nil] at this
    rw [this]
    simp [splitCommasRaw]
  | cons b bs ih =>
    have e : joinCommaSp ((a :: b :: bs).map (renderAtom io)) =
        renderAtom io a ++ ',' :: ' ' :: (joinCommaSp ((b :: bs).map (renderAtom io))) := by
      simp [joinCommaSp]
    rw [e, splitRaw_atom law a (hl a (by simp))]
    conv => lhs; unfold splitCommasRaw
    simp only [show isQuote ',' = false by decide, Bool.false_eq_true, if_false, if_true]
    conv => lhs; rhs; unfold splitCommasRaw
    simp only [show isQuote ' ' = false by decide, Bool.false_eq_true, if_false, show ¬ (' ' = ',') by decide]
    rw [ih b (fun c hc => hl c (by simp [hc]))]
    simp

theorem dropEmptyLast_concat_nil (l : List Str) : dropEmptyLast (l ++ [[]]) = l := by
  induction l with
  | nil => rfl
  | cons a as ih =>
    cases as with
    | nil => rfl
    | cons b bs =>
      show a :: dropEmptyLast ((b :: bs) ++ [[]]) = _
      rw [ih]

theorem dropEmptyLast_of (l : List Str) (h : l.getLast? ≠ some []) : dropEmptyLast l = l := by
  induction l with
  | nil => rfl
  | cons a as ih =>
    cases as with
    | nil =>
      cases a with
      | nil => simp at h
      | cons _ _ => rfl
    | cons b bs =>
      show a :: dropEmptyLast (b :: bs) = _
      rw [ih (by simpa using h)]

theorem map_strip_render {io : FloatIO} {fin : io.F → Prop} (law : FloatLaw io fin) (l : List (Atom io.F))
    (hl : ∀ b ∈ l, AtomOk fin b) :
    (l.map (fun b => ' ' :: renderAtom io b)).map strip = l.map (renderAtom io) := by
  rw [List.map_map]
  apply List.map_congr_left
  intro b hb
  show strip (' ' :: renderAtom io b) = _
  rw [strip_space_cons, strip_of_tight (renderAtom_tight law b (hl b hb))]

theorem map_parse_render {io : FloatIO} {fin : io.F → Prop} (law : FloatLaw io fin) (l : List (Atom io.F))
    (hl : ∀ b ∈ l, AtomOk fin b) : (l.map (renderAtom io)).map (parseAtom io) = l := by
  rw [List.map_map]
  conv => rhs; rw [← List.map_id l]
  apply List.map_congr_left
  intro b hb
  exact parseAtom_render law b (hl b hb)

/-- Every value, rendered. -/
theorem renderValue_eq {io : FloatIO} (v : Value io.F) : renderValue io v = joinCommaSp (v.atoms.map (renderAtom io)) := by
  cases v <;> simp [renderValue, Value.atoms, joinCommaSp]

def ShapeOk {F : Type} (v : Value F) : Prop := ∀ l, v = .list l → 2 ≤ l.length

theorem parsePieces {io : FloatIO} {fin : io.F → Prop} (law : FloatLaw io fin) (v : Value io.F)
    (hv : ∀ b ∈ v.atoms, AtomOk fin b) (hs : ShapeOk v) :
    (match v.atoms.map (renderAtom io) with
      | [] => Value.atom Atom.none
      | [p] => .atom (parseAtom io p)
      | ps => .list (ps.map (parseAtom io))) = v := by
  cases v with
  | atom a => simp [Value.atoms, parseAtom_render law a (hv a (by simp [Value.atoms]))]
  | list l =>
    have h2 := hs l rfl
    have hm := map_parse_render law l hv
    match l, h2, hm with
    | a :: b :: bs, _, hm =>
      simp only [Value.atoms, List.map_cons] at hm ⊢
      exact congrArg Value.list hm

theorem strip_last_value (s : Str) : strip (' ' :: s ++ [',', '\n']) = lstrip (s ++ [',']) := by
  rw [List.cons_append, strip_space_cons]
  unfold strip
  have e : s ++ [',', '\n'] = (s ++ [',']) ++ ['\n'] := by simp
  -- lstrip keeps the final comma
  have key : ∀ t : Str, lstrip (t ++ [',', '\n']) = lstrip (t ++ [',']) ++ ['\n'] ∧ (lstrip (t ++ [','])).getLast? = some ',' := by
    intro t
    induction t with
    | nil => exact ⟨by decide, by decide⟩
    | cons c cs ih =>
      unfold lstrip at ih ⊢
      cases hc : pySpace c with
      | true =>
        rw [List.cons_append, List.cons_append, dropWhile_cons_pos hc, dropWhile_cons_pos hc]; exact ih
      | false =>
        rw [List.cons_append, List.cons_append, dropWhile_cons_neg hc, dropWhile_cons_neg hc]
        refine ⟨by simp, ?_⟩
        rw [← List.cons_append, List.getLast?_concat]
  obtain ⟨h1, h2⟩ := key s
  rw [h1, List.reverse_append, List.reverse_singleton, List.singleton_append,
    dropWhile_cons_pos (by decide)]
  exact rstrip_of_last fun c hc => by rw [h2] at hc; cases hc; decide

/-- Head of a joined list of tight tokens is not a space. -/
theorem join_head {io : FloatIO} {fin : io.F → Prop} (law : FloatLaw io fin) (l : List (Atom io.F))
    (hl : ∀ b ∈ l, AtomOk fin b) (c : Char) (h : (joinCommaSp (l.map (renderAtom io)) ++ [',']).head? = some c) :
    pySpace c = false := by
  cases l with
  | nil => simp [joinCommaSp] at h; subst h; decide
  | cons a as =>
    have ht := renderAtom_tight law a (hl a (by simp))
    cases hr : renderAtom io a with
    | nil =>
      cases as with
      | nil => simp [joinCommaSp, hr] at h; subst h; decide
      | cons b bs => simp [joinCommaSp, hr] at h; subst h; decide
    | cons d ds =>
      have hd : pySpace d = false := ht.1 d (by rw [hr]; rfl)
      cases as with
      | nil => simp [joinCommaSp, hr] at h; subst h; exact hd
      | cons b bs => simp [joinCommaSp, hr] at h; subst h; exact hd

theorem getLast?_append_cons2 (x : Str) (c d : Char) {y : Str} (h : y ≠ []) :
    (x ++ c :: d :: y).getLast? = y.getLast? := by
  cases y with
  | nil => exact absurd rfl h
  | cons e es =>
    rw [List.getLast?_append]
    simp only [List.getLast?_cons_cons]
    cases hl : (e :: es).getLast? with
    | none => simp at hl
    | some z => rfl

/-- The last parameter of a section: the value text runs up to the brace. -/
theorem parseValue_last {io : FloatIO} {fin : io.F → Prop} (law : FloatLaw io fin) (v : Value io.F)
    (hv : ∀ b ∈ v.atoms, AtomOk fin b) (hs : ShapeOk v) :
    parseValue io (strip (' ' :: renderValue io v ++ [',', '\n'])) = v := by
  have hne : ∃ a l, v.atoms = a :: l := by
    cases v with
    | atom a => exact ⟨a, [], rfl⟩
    | list l => have := hs l rfl; match l, this with | a :: l, _ => exact ⟨a, l, rfl⟩
  rw [strip_last_value, renderValue_eq, lstrip_of_head (join_head law _ hv)]
  unfold parseValue splitTopCommas
  obtain ⟨a, l, e⟩ := hne
  have hv' : ∀ b ∈ a :: l, AtomOk fin b := by rw [← e]; exact hv
  rw [e, splitRaw_list law a l hv']
  have : ((([] : Str).reverse ++ renderAtom io a) :: l.map (fun b => ' ' :: renderAtom io b) ++ splitCommasRaw none [] []).map strip
      = (v.atoms.map (renderAtom io)) ++ [[]] := by
    rw [List.map_append, List.map_cons, map_strip_render law l (fun b hb => hv' b (by simp [hb])), e]
    have h0 : strip [] = [] := rfl
    simp [splitCommasRaw, strip_of_tight (renderAtom_tight law a (hv' a (by simp))), h0]
  rw [this, dropEmptyLast_concat_nil]
  exact parsePieces law v hv hs

/-- A parameter followed by another one: the value text stops at the comma. -/
theorem parseValue_mid {io : FloatIO} {fin : io.F → Prop} (law : FloatLaw io fin) (v : Value io.F)
    (hv : ∀ b ∈ v.atoms, AtomOk fin b) (hs : ShapeOk v) (hn : NoTrailingNone v) :
    parseValue io (strip (' ' :: renderValue io v)) = v := by
  rw [strip_space_cons]
  cases v with
  | atom a =>
    have ha := hv a (by simp [Value.atoms])
    rw [renderValue, strip_of_tight (renderAtom_tight law a ha)]
    unfold parseValue splitTopCommas
    have := splitRaw_list' law a [] (by simpa [Value.atoms] using hv) []
    simp only [List.map_cons, List.map_nil, joinCommaSp, List.reverse_nil, List.nil_append] at this
    rw [this]
    simp only [List.map_cons, List.map_nil, strip_of_tight (renderAtom_tight law a ha)]
    by_cases he : renderAtom io a = []
    · rw [he, renderAtom_empty law a ha he]; rfl
    · rw [dropEmptyLast_of _ (by simpa using he)]
      simp [parseAtom_render law a ha]
  | list l =>
    have h2 := hs l rfl
    match l, h2 with
    | a :: as, h2 =>
      have hlast : ∃ z, (a :: as).getLast? = some z ∧ z ≠ .none := by
        cases hg : (a :: as).getLast? with
        | none => simp at hg
        | some z => exact ⟨z, rfl, by rintro rfl; exact hn _ rfl hg⟩
      obtain ⟨z, hz, hzn⟩ := hlast
      have hzmem : z ∈ a :: as := List.mem_of_getLast? hz
      have hzne : renderAtom io z ≠ [] := fun h => hzn (renderAtom_empty law z (hv z hzmem) h)
      have hjl : ∀ (l : List (Atom io.F)), l.getLast? = some z →
          (joinCommaSp (l.map (renderAtom io))).getLast? = (renderAtom io z).getLast? := by
        intro l
        induction l with
        | nil => intro h; simp at h
        | cons b bs ih =>
          intro h
          cases bs with
          | nil => simp at h; subst h; rfl
          | cons d ds =>
            have := ih (by simpa using h)
            show (renderAtom io b ++ ',' :: ' ' :: joinCommaSp ((d :: ds).map (renderAtom io))).getLast? = _
            have hne : joinCommaSp ((d :: ds).map (renderAtom io)) ≠ [] := by
              intro h0; rw [h0] at this
              exact hzne (List.getLast?_eq_none_iff.1 (by rw [← this]; rfl))
            rw [getLast?_append_cons2 _ _ _ hne, this]
      have htight : Tight (renderValue io (.list (a :: as))) := by
        constructor
        · intro c hc
          apply join_head law (a :: as) hv c
          rw [List.head?_append]
          have : (joinCommaSp ((a :: as).map (renderAtom io))).head? = some c := hc
          rw [this]; rfl
        · intro c hc
          show pySpace c = false
          have : (renderValue io (.list (a :: as))).getLast? = (renderAtom io z).getLast? := hjl _ hz
          rw [this] at hc
          exact (renderAtom_tight law z (hv z hzmem)).2 c hc
      rw [strip_of_tight htight]
      show parseValue io (joinCommaSp ((a :: as).map (renderAtom io))) = _
      unfold parseValue splitTopCommas
      rw [splitRaw_list' law a as hv]
      have : ((([] : Str).reverse ++ renderAtom io a) :: as.map (fun b => ' ' :: renderAtom io b)).map strip
          = (a :: as).map (renderAtom io) := by
        rw [List.map_cons, map_strip_render law as (fun b hb => hv b (by simp [Value.atoms, hb]))]
        simp [strip_of_tight (renderAtom_tight law a (hv a (by simp [Value.atoms])))]
      rw [this, dropEmptyLast_of]
      · exact parsePieces law (.list (a :: as)) hv hs
      · rw [List.getLast?_map, hz]
        simpa using hzne

end Verif.Deck
