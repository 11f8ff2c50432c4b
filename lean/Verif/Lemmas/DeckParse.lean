import Verif.Lemmas.DeckRound

/-! The parser on rendered sections. -/
namespace Verif.Deck

theorem scan_plain (t r : Str) (h : ∀ c ∈ t, isQuote c = false ∧ c ≠ '}' ∧ c ≠ ',') :
    scanValue none (t ++ r) = (t ++ (scanValue none r).1, (scanValue none r).2) := by
  induction t with
  | nil => rfl
  | cons c cs ih =>
    obtain ⟨h1, h2, h3⟩ := h c (by simp)
    rw [List.cons_append]
    conv => lhs; unfold scanValue
    simp only [h1, Bool.false_eq_true, if_false, if_neg h2, if_neg h3]
    rw [ih fun d hd => h d (by simp [hd])]
    rfl

theorem scan_inside (x : Char) (m r : Str) (h : x ∉ m) :
    scanValue (some x) (m ++ x :: r) = (m ++ x :: (scanValue none r).1, (scanValue none r).2) := by
  induction m with
  | nil =>
    simp only [List.nil_append]
    conv => lhs; unfold scanValue
    simp
  | cons c cs ih =>
    simp only [List.mem_cons, not_or] at h
    rw [List.cons_append]
    conv => lhs; unfold scanValue
    simp only [if_neg (fun e => h.1 (Eq.symm e) : ¬ c = x)]
    rw [ih h.2]
    rfl

theorem scan_atom {io : FloatIO} {fin : io.F → Prop} (law : FloatLaw io fin) (a : Atom io.F)
    (ha : AtomOk fin a) (r : Str) :
    scanValue none (renderAtom io a ++ r) =
      (renderAtom io a ++ (scanValue none r).1, (scanValue none r).2) := by
  have num : ∀ s : Str, (∀ c ∈ s, numChar c = true) →
      scanValue none (s ++ r) = (s ++ (scanValue none r).1, (scanValue none r).2) := by
    intro s hs
    apply scan_plain
    intro c hc
    have := numChar_plain (hs c hc)
    simp only [plainTok, Bool.and_eq_true, Bool.not_eq_true', bne_iff_ne] at this
    exact ⟨this.1.1.1.1.1.1, this.1.1.1.1.1.2, this.1.1.1.1.2⟩
  cases a with
  | none => rfl
  | bool b =>
    cases b
    · exact scan_plain ['.', 'f', 'a', 'l', 's', 'e', '.'] _ (by decide)
    · exact scan_plain ['.', 't', 'r', 'u', 'e', '.'] _ (by decide)
  | int i => exact num _ (intRe_num (intStr_re i))
  | flt x => exact num _ (floatRe_num (law.rt x ha).1)
  | str s =>
    have : renderAtom io (.str s) ++ r = '"' :: (s ++ '"' :: r) := by simp [renderAtom]
    rw [this]
    conv => lhs; unfold scanValue
    rw [scan_inside '"' s r ha]
    simp [renderAtom, isQuote]

/-- A character that starts neither a key nor whitespace. -/
def stopChar (c : Char) : Prop := isIdentStart c = false ∧ deckWs c = false

theorem digit_stop {c : Char} (h : isDigit c = true) : stopChar c := by
  have hd := digit_ofNat h
  constructor
  · have : c ≠ '_' := by rintro rfl; exact absurd h (by decide)
    simp [isIdentStart, this]; omega
  · have e : ∀ d : Char, isDigit d = false → c ≠ d := fun d hd => isDigit_ne h hd
    simp [deckWs, e ' ' (by decide), e '\t' (by decide), e '\n' (by decide), e '\r' (by decide)]

theorem sign_or_digit_stop {s : Str} (h : ∀ c, (dropSign s).head? = some c → stopChar c) :
    ∀ c, s.head? = some c → stopChar c := by
  rcases dropSign_cases s with e | ⟨d, hd, e⟩
  · rwa [e] at h
  · intro c hc
    rw [e] at hc; simp at hc; subst hc
    rcases hd with rfl | rfl <;> exact ⟨by decide, by decide⟩

theorem intRe_stop {s : Str} (h : intRe s = true) : ∀ c, s.head? = some c → stopChar c := by
  apply sign_or_digit_stop
  intro c hc
  simp only [intRe, allDigits1, Bool.and_eq_true] at h
  exact digit_stop (List.all_eq_true.1 h.2 c (List.mem_of_mem_head? hc))

theorem floatRe_stop {s : Str} (h : floatRe s = true) : ∀ c, s.head? = some c → stopChar c := by
  apply sign_or_digit_stop
  unfold floatRe at h
  generalize dropSign s = t at h ⊢
  intro c hc
  cases t with
  | nil => simp at hc
  | cons d ds =>
    simp at hc; subst hc
    cases hd : isDigit d with
    | true => exact digit_stop hd
    | false =>
      simp only [List.takeWhile, hd, dropWhile_cons_neg hd] at h
      split at h
      · next r heq =>
        simp at heq; rw [heq.1]; exact ⟨by decide, by decide⟩
      · simp at h

theorem renderAtom_stop {io : FloatIO} {fin : io.F → Prop} (law : FloatLaw io fin) (a : Atom io.F)
    (ha : AtomOk fin a) : ∀ c, (renderAtom io a).head? = some c → stopChar c := by
  cases a with
  | none => intro c h; simp [renderAtom] at h
  | bool b => cases b <;> (intro c h; simp [renderAtom] at h; subst h; exact ⟨by decide, by decide⟩)
  | int i => exact intRe_stop (intStr_re i)
  | flt x => exact floatRe_stop (law.rt x ha).1
  | str s => intro c h; simp [renderAtom] at h; subst h; exact ⟨by decide, by decide⟩

theorem skipWs_stop {c : Char} {s : Str} (h : deckWs c = false) : skipWs (c :: s) = c :: s :=
  dropWhile_cons_neg h

theorem skipWs_ws {c : Char} {s : Str} (h : deckWs c = true) : skipWs (c :: s) = skipWs s :=
  dropWhile_cons_pos h

theorem peek_false {s : Str} (h : ∀ c, (skipWs s).head? = some c → isIdentStart c = false) :
    peekKeyEq s = false := by
  unfold peekKeyEq
  have : matchKey (skipWs s) = none := by
    unfold matchKey
    have : matchIdent (skipWs s) = none := by
      cases hs : skipWs s with
      | nil => rfl
      | cons c cs =>
        have := h c (by rw [hs]; rfl)
        simp [matchIdent, this]
    rw [this]
  rw [this]

theorem join_stop {io : FloatIO} {fin : io.F → Prop} (law : FloatLaw io fin) (l : List (Atom io.F))
    (hl : ∀ b ∈ l, AtomOk fin b) (tail : Str) :
    ∀ c, (joinCommaSp (l.map (renderAtom io)) ++ ',' :: tail).head? = some c → stopChar c := by
  intro c hc
  have comma : stopChar ',' := ⟨by decide, by decide⟩
  cases l with
  | nil => simp [joinCommaSp] at hc; subst hc; exact comma
  | cons a as =>
    have hst := renderAtom_stop law a (hl a (by simp))
    cases hr : renderAtom io a with
    | nil =>
      cases as with
      | nil => simp [joinCommaSp, hr] at hc; subst hc; exact comma
      | cons b bs => simp [joinCommaSp, hr] at hc; subst hc; exact comma
    | cons d ds =>
      have hd : stopChar d := hst d (by rw [hr]; rfl)
      cases as with
      | nil => simp [joinCommaSp, hr] at hc; subst hc; exact hd
      | cons b bs => simp [joinCommaSp, hr] at hc; subst hc; exact hd

theorem scan_list {io : FloatIO} {fin : io.F → Prop} (law : FloatLaw io fin) (l : List (Atom io.F))
    (hl : ∀ b ∈ l, AtomOk fin b) (tail : Str) :
    scanValue none (joinCommaSp (l.map (renderAtom io)) ++ ',' :: tail) =
      (joinCommaSp (l.map (renderAtom io)) ++ (scanValue none (',' :: tail)).1,
        (scanValue none (',' :: tail)).2) := by
  induction l with
  | nil => rfl
  | cons a as ih =>
    cases as with
    | nil => exact scan_atom law a (hl a (by simp)) _
    | cons b bs =>
      have hbs : ∀ c ∈ b :: bs, AtomOk fin c := fun c hc => hl c (by simp [hc])
      have e : joinCommaSp ((a :: b :: bs).map (renderAtom io)) ++ ',' :: tail =
          renderAtom io a ++ ',' :: ' ' :: (joinCommaSp ((b :: bs).map (renderAtom io)) ++ ',' :: tail) := by
        simp [joinCommaSp]
      rw [e, scan_atom law a (hl a (by simp))]
      have hstop := join_stop law (b :: bs) hbs tail
      have hpk : peekKeyEq (' ' :: (joinCommaSp ((b :: bs).map (renderAtom io)) ++ ',' :: tail)) = false := by
        apply peek_false
        rw [skipWs_ws (by decide)]
        intro c hc
        cases hj : joinCommaSp ((b :: bs).map (renderAtom io)) ++ ',' :: tail with
        | nil => simp at hj
        | cons d ds =>
          have hd := hstop d (by rw [hj]; rfl)
          rw [hj, skipWs_stop hd.2] at hc
          simp at hc; subst hc; exact hd.1
      have e2 : scanValue none (',' :: ' ' :: (joinCommaSp ((b :: bs).map (renderAtom io)) ++ ',' :: tail)) =
          (',' :: ' ' :: (joinCommaSp ((b :: bs).map (renderAtom io)) ++ (scanValue none (',' :: tail)).1),
            (scanValue none (',' :: tail)).2) := by
        conv => lhs; unfold scanValue
        simp only [show isQuote ',' = false by decide, Bool.false_eq_true, if_false,
          show ¬ (',' = '}') by decide, if_true, hpk]
        conv => lhs; unfold scanValue
        simp only [show isQuote ' ' = false by decide, Bool.false_eq_true, if_false,
          show ¬ (' ' = '}') by decide, show ¬ (' ' = ',') by decide]
        rw [ih hbs]
      rw [e2]
      simp [joinCommaSp]

/-! ### keys -/

theorem takeWhile_append_stop {p : Char → Bool} (t r : Str) (h : ∀ c ∈ t, p c = true)
    (hr : ∀ c, r.head? = some c → p c = false) :
    (t ++ r).takeWhile p = t ∧ (t ++ r).dropWhile p = r := by
  induction t with
  | nil =>
    cases r with
    | nil => exact ⟨rfl, rfl⟩
    | cons c cs => simp [hr c rfl]
  | cons c cs ih =>
    have := ih fun d hd => h d (by simp [hd])
    simp only [List.cons_append, List.takeWhile, List.dropWhile, h c (by simp)]
    exact ⟨by rw [this.1], this.2⟩

theorem matchIdent_append {i r : Str} (hi : IsIdent i)
    (hr : ∀ c, r.head? = some c → isIdentChar c = false) : matchIdent (i ++ r) = some (i, r) := by
  obtain ⟨c, cs, rfl, h1, h2⟩ := hi
  have := takeWhile_append_stop cs r h2 hr
  simp [matchIdent, h1, this.1, this.2]

theorem matchKey_append {k r : Str} (hk : IsKey k)
    (hr : ∀ c, r.head? = some c → isIdentChar c = false ∧ c ≠ '(') : matchKey (k ++ r) = some (k, r) := by
  obtain ⟨i, p, rfl, hi, hp⟩ := hk
  unfold matchKey
  rcases hp with rfl | ⟨m, rfl, hm⟩
  · rw [List.append_nil, matchIdent_append hi (fun c hc => (hr c hc).1)]
    have : matchParen r = ([], r) := by
      unfold matchParen
      split
      · next cs => exact absurd rfl (hr '(' rfl).2
      · rfl
    simp [this]
  · have e : i ++ ('(' :: m ++ [')']) ++ r = i ++ ('(' :: (m ++ ')' :: r)) := by simp
    rw [e, matchIdent_append hi (fun c hc => by simp at hc; subst hc; decide)]
    have tw := takeWhile_append_stop (p := (· != ')')) m (')' :: r)
      (fun c hc => by simp; rintro rfl; exact hm hc) (fun c hc => by simp at hc; subst hc; rfl)
    have : matchParen ('(' :: (m ++ ')' :: r)) = ('(' :: m ++ [')'], r) := by
      unfold matchParen
      simp only [tw.1, tw.2]
    simp [this]

theorem isIdent_head {i : Str} (h : IsIdent i) : ∃ c cs, i = c :: cs ∧ isIdentStart c = true := by
  obtain ⟨c, cs, rfl, h1, _⟩ := h; exact ⟨c, cs, rfl, h1⟩

theorem isKey_head {i : Str} (h : IsKey i) : ∃ c cs, i = c :: cs ∧ isIdentStart c = true := by
  obtain ⟨i, p, rfl, hi, _⟩ := h
  obtain ⟨c, cs, rfl, h1⟩ := isIdent_head hi
  exact ⟨c, cs ++ p, rfl, h1⟩

theorem identStart_ne {c d : Char} (h : isIdentStart c = true) (hd : isIdentStart d = false) : c ≠ d := by
  rintro rfl; rw [h] at hd; cases hd

theorem identStart_ws {c : Char} (h : isIdentStart c = true) : deckWs c = false := by
  simp [deckWs, identStart_ne h (show isIdentStart ' ' = false by decide),
    identStart_ne h (show isIdentStart '\t' = false by decide),
    identStart_ne h (show isIdentStart '\n' = false by decide),
    identStart_ne h (show isIdentStart '\r' = false by decide)]

/-- text after the key in a rendered line -/
def afterKey (n : Nat) (X : Str) : Str := List.replicate n ' ' ++ ' ' :: '=' :: ' ' :: X

theorem afterKey_head (n : Nat) (X : Str) : ∀ c, (afterKey n X).head? = some c → c = ' ' := by
  intro c hc
  cases n with
  | zero => simp [afterKey] at hc; exact hc.symm
  | succ n => simp [afterKey, List.replicate_succ] at hc; exact hc.symm

theorem skipWs_afterKey (n : Nat) (X : Str) : skipWs (afterKey n X) = '=' :: ' ' :: X := by
  induction n with
  | zero => rfl
  | succ n ih =>
    show skipWs (' ' :: afterKey n X) = _
    rw [skipWs_ws (by decide), ih]

theorem matchKey_afterKey {k : Str} (hk : IsKey k) (n : Nat) (X : Str) :
    matchKey (k ++ afterKey n X) = some (k, afterKey n X) :=
  matchKey_append hk fun c hc => by rw [afterKey_head n X c hc]; exact ⟨by decide, by decide⟩

theorem renderLine_eq (io : FloatIO) (kw : Nat) (kv : Str × Value io.F) (T : Str) :
    renderLine io kw kv ++ T = ' ' :: ' ' :: (kv.1 ++ afterKey (kw - kv.1.length) (renderValue io kv.2 ++ ',' :: T)) := by
  simp [renderLine, padTo, afterKey]

/-- The text of a section body after its opening brace. -/
def bodyText (io : FloatIO) (kw : Nat) (ps : Params io.F) (rest : Str) : Str :=
  (ps.flatMap fun kv => '\n' :: renderLine io kw kv) ++ '\n' :: '}' :: rest

theorem bodyText_cons (io : FloatIO) (kw : Nat) (kv : Str × Value io.F) (ps : Params io.F) (rest : Str) :
    bodyText io kw (kv :: ps) rest = '\n' :: ' ' :: ' ' ::
      (kv.1 ++ afterKey (kw - kv.1.length) (renderValue io kv.2 ++ ',' :: bodyText io kw ps rest)) := by
  have := renderLine_eq io kw kv (bodyText io kw ps rest)
  simp only [bodyText, List.flatMap_cons, List.cons_append, List.append_assoc] at this ⊢
  rw [this]

/-- Conditions on one parameter. -/
structure ParamOk {F : Type} (fin : F → Prop) (kv : Str × Value F) : Prop where
  key : IsKey kv.1
  shape : ShapeOk kv.2
  atoms : ∀ b ∈ kv.2.atoms, AtomOk fin b

theorem parseParams_body {io : FloatIO} {fin : io.F → Prop} (law : FloatLaw io fin) (kw : Nat)
    (ps : Params io.F) (rest : Str) (acc : Params io.F) (n : Nat) (hn : ps.length < n)
    (hok : ∀ kv ∈ ps, ParamOk fin kv) (htr : ∀ kv ∈ ps.dropLast, NoTrailingNone kv.2) :
    parseParams io n (bodyText io kw ps rest) acc =
      .ok (ps.foldl (fun d kv => dictSet d kv.1 kv.2) acc, rest) := by
  induction ps generalizing acc n with
  | nil =>
    cases n with
    | zero => simp at hn
    | succ n =>
      unfold parseParams
      have : skipWs (bodyText io kw [] rest) = '}' :: rest := by
        simp [bodyText, skipWs, List.dropWhile, deckWs]
      rw [this]
      simp
  | cons kv ps ih =>
    cases n with
    | zero => simp at hn
    | succ n =>
      have hkv := hok kv (by simp)
      obtain ⟨c, cs, hc, hcs⟩ := isKey_head hkv.key
      rw [bodyText_cons]
      generalize hB : bodyText io kw ps rest = B
      have hskip : skipWs ('\n' :: ' ' :: ' ' :: (kv.1 ++ afterKey (kw - kv.1.length) (renderValue io kv.2 ++ ',' :: B)))
          = kv.1 ++ afterKey (kw - kv.1.length) (renderValue io kv.2 ++ ',' :: B) := by
        rw [skipWs_ws (by decide), skipWs_ws (by decide), skipWs_ws (by decide), hc, List.cons_append,
          skipWs_stop (identStart_ws hcs)]
      have hmk := matchKey_afterKey hkv.key (kw - kv.1.length) (renderValue io kv.2 ++ ',' :: B)
      have hscan : scanValue none (' ' :: (renderValue io kv.2 ++ ',' :: B)) =
          (' ' :: (renderValue io kv.2 ++ (scanValue none (',' :: B)).1), (scanValue none (',' :: B)).2) := by
        conv => lhs; unfold scanValue
        simp only [show isQuote ' ' = false by decide, Bool.false_eq_true, if_false,
          show ¬ (' ' = '}') by decide, show ¬ (' ' = ',') by decide]
        rw [renderValue_eq, scan_list law _ hkv.atoms]
      have hstep : parseParams io (n + 1)
          ('\n' :: ' ' :: ' ' :: (kv.1 ++ afterKey (kw - kv.1.length) (renderValue io kv.2 ++ ',' :: B))) acc =
          parseParams io n (eatComma (scanValue none (',' :: B)).2)
            (dictSet acc kv.1 (parseValue io (strip (' ' :: (renderValue io kv.2 ++ (scanValue none (',' :: B)).1))))) := by
        conv => lhs; unfold parseParams
        rw [hskip]
        rw [hc] at hmk ⊢
        rw [List.cons_append] at hmk ⊢
        simp only [if_neg (identStart_ne hcs (show isIdentStart '}' = false by decide)), hmk, skipWs_afterKey, hscan]
      rw [hstep]
      cases ps with
      | nil =>
        have hB' : B = '\n' :: '}' :: rest := by rw [← hB]; rfl
        have hs : scanValue none (',' :: B) = ([',', '\n'], '}' :: rest) := by
          rw [hB']
          have : peekKeyEq ('\n' :: '}' :: rest) = false := by
            apply peek_false
            rw [skipWs_ws (by decide), skipWs_stop (by decide)]
            intro c hc; simp at hc; subst hc; decide
          simp [scanValue, isQuote, this]
        rw [hs]
        have hv := parseValue_last law kv.2 hkv.atoms hkv.shape
        rw [List.cons_append] at hv
        simp only [hv]
        cases n with
        | zero => simp at hn
        | succ n =>
          simp [parseParams, eatComma, skipWs, deckWs]
      | cons kv' ps' =>
        obtain ⟨c', cs', hc', hcs'⟩ := isKey_head (hok kv' (by simp)).key
        have hs : scanValue none (',' :: B) = ([], ',' :: B) := by
          have : peekKeyEq B = true := by
            rw [← hB, bodyText_cons]
            unfold peekKeyEq
            rw [skipWs_ws (by decide), skipWs_ws (by decide), skipWs_ws (by decide), hc', List.cons_append,
              skipWs_stop (identStart_ws hcs'), ← List.cons_append, ← hc', matchKey_afterKey (hok kv' (by simp)).key]
            simp only [skipWs_afterKey]
          unfold scanValue
          simp [isQuote, this]
        rw [hs]
        have hv := parseValue_mid law kv.2 hkv.atoms hkv.shape (htr kv (by simp [List.dropLast]))
        simp only [List.append_nil, hv, eatComma]
        rw [← hB]
        have := ih (dictSet acc kv.1 kv.2) n (by simpa using hn)
          (fun x hx => hok x (by simp [hx])) (fun x hx => htr x (by simp [List.dropLast] at hx ⊢; exact Or.inr hx))
        rw [this]
        rfl

/-! ### dictionaries built from distinct keys -/

theorem dictSet_new {κ ν : Type} [DecidableEq κ] (d : Dict κ ν) (k : κ) (v : ν) (h : k ∉ dictKeys d) :
    dictSet d k v = d ++ [(k, v)] := by
  induction d with
  | nil => rfl
  | cons x d ih =>
    obtain ⟨k', v'⟩ := x
    simp only [dictKeys, List.map_cons, List.mem_cons, not_or] at h
    unfold dictSet
    rw [if_neg (fun e => h.1 e.symm), ih h.2]
    rfl

theorem foldl_dictSet {κ ν : Type} [DecidableEq κ] (ps acc : Dict κ ν) (h : (dictKeys (acc ++ ps)).Nodup) :
    ps.foldl (fun d kv => dictSet d kv.1 kv.2) acc = acc ++ ps := by
  induction ps generalizing acc with
  | nil => simp
  | cons kv ps ih =>
    have hk : kv.1 ∉ dictKeys acc := by
      simp only [dictKeys, List.map_append, List.map_cons] at h
      have := (List.nodup_append.1 h).2.2
      intro hm
      exact this _ hm _ (by simp) rfl
    rw [List.foldl_cons, dictSet_new _ _ _ hk, ih]
    · simp
    · simpa using h

/-! ### sections -/

/-- Rendered deck without its final newline. -/
def srcText (io : FloatIO) : Sections io.F → Str
  | [] => []
  | [sec] => sec.1 ++ '\n' :: '{' :: bodyText io (keyWidth sec.2) sec.2 []
  | sec :: s2 :: D =>
    sec.1 ++ '\n' :: '{' :: bodyText io (keyWidth sec.2) sec.2
      ('\n' :: '\n' :: srcText io (s2 :: D))

theorem parseSections_src {io : FloatIO} {fin : io.F → Prop} (law : FloatLaw io fin) (D : Sections io.F) (n : Nat)
    (hn : D.length < n) (hname : ∀ sec ∈ D, IsIdent sec.1)
    (hnd : ∀ sec ∈ D, (dictKeys sec.2).Nodup)
    (hok : ∀ sec ∈ D, ∀ kv ∈ sec.2, ParamOk fin kv)
    (htr : ∀ sec ∈ D, ∀ kv ∈ sec.2.dropLast, NoTrailingNone kv.2) :
    parseSections io n (srcText io D) = .ok D ∧ parseSections io n ('\n' :: '\n' :: srcText io D) = .ok D := by
  induction D generalizing n with
  | nil =>
    cases n with
    | zero => simp at hn
    | succ n => exact ⟨rfl, rfl⟩
  | cons sec D ih =>
    cases n with
    | zero => simp at hn
    | succ n =>
      obtain ⟨name, ps⟩ := sec
      have hi := hname (name, ps) (by simp)
      obtain ⟨c, cs, hc, hcs⟩ := isIdent_head hi
      generalize hR : (match D with | [] => [] | _ :: _ => '\n' :: '\n' :: srcText io D : Str) = R
      have hsrc : srcText io ((name, ps) :: D) = name ++ '\n' :: '{' :: bodyText io (keyWidth ps) ps R := by
        cases D with
        | nil => rw [← hR]; rfl
        | cons s2 D2 => rw [← hR]; rfl
      have hskip : skipWs (srcText io ((name, ps) :: D)) = srcText io ((name, ps) :: D) := by
        rw [hsrc]; simp only at hc; rw [hc, List.cons_append, skipWs_stop (identStart_ws hcs)]
      have hmi : matchIdent (name ++ '\n' :: '{' :: bodyText io (keyWidth ps) ps R) =
          some (name, '\n' :: '{' :: bodyText io (keyWidth ps) ps R) :=
        matchIdent_append hi fun d hd => by simp at hd; subst hd; decide
      have hlen : ps.length < (bodyText io (keyWidth ps) ps R).length + 1 := by
        have : ∀ (kw : Nat) (l : Params io.F), l.length ≤ (l.flatMap fun kv => '\n' :: renderLine io kw kv).length := by
          intro kw l
          induction l with
          | nil => simp
          | cons a l ih => simp only [List.flatMap_cons, List.length_append, List.length_cons]; omega
        have := this (keyWidth ps) ps
        simp only [bodyText, List.length_append]; omega
      have hbody := parseParams_body law (keyWidth ps) ps R [] _ hlen
        (hok (name, ps) (by simp)) (htr (name, ps) (by simp))
      rw [foldl_dictSet _ _ (by simpa using hnd (name, ps) (by simp)), List.nil_append] at hbody
      have hrest : parseSections io n R = .ok D := by
        cases D with
        | nil =>
          cases n with
          | zero => simp at hn
          | succ n => rw [← hR]; rfl
        | cons s2 D2 =>
          rw [← hR]
          exact (ih n (by simpa using hn) (fun s hs => hname s (by simp [hs])) (fun s hs => hnd s (by simp [hs]))
            (fun s hs => hok s (by simp [hs])) (fun s hs => htr s (by simp [hs]))).2
      have hmain : ∀ T, skipWs T = srcText io ((name, ps) :: D) → parseSections io (n + 1) T = .ok ((name, ps) :: D) := by
        intro T hT
        unfold parseSections
        rw [hT, hsrc]
        have hmi' := hmi
        simp only at hc
        have hsk2 : skipWs ('\n' :: '{' :: bodyText io (keyWidth ps) ps R) = '{' :: bodyText io (keyWidth ps) ps R := by
          rw [skipWs_ws (by decide), skipWs_stop (by decide)]
        cases hnm : name ++ '\n' :: '{' :: bodyText io (keyWidth ps) ps R with
        | nil => simp at hnm
        | cons d ds =>
          rw [hnm] at hmi'
          simp only [hmi', hsk2, hbody, hrest]
      refine ⟨hmain _ hskip, hmain _ ?_⟩
      rw [skipWs_ws (by decide), skipWs_ws (by decide), hskip]

/-! ### from lines to text -/

theorem joinLines_append {A B : List Str} (hA : A ≠ []) (hB : B ≠ []) :
    joinLines (A ++ B) = joinLines A ++ '\n' :: joinLines B := by
  induction A with
  | nil => exact absurd rfl hA
  | cons a as ih =>
    cases as with
    | nil => rw [List.singleton_append, joinLines_cons hB]; rfl
    | cons a2 as2 =>
      rw [List.cons_append, joinLines_cons (by simp), ih (by simp), joinLines_cons (l := a) (ls := a2 :: as2) (by simp)]
      simp

theorem joinLines_flat (x : Str) (L : List Str) (hL : L ≠ []) :
    joinLines (x :: L) = x ++ L.flatMap (fun l => '\n' :: l) := by
  induction L generalizing x with
  | nil => exact absurd rfl hL
  | cons a as ih =>
    rw [joinLines_cons (by simp)]
    cases as with
    | nil => simp [joinLines]
    | cons b bs => rw [ih a (by simp)]; simp

theorem section_join (io : FloatIO) (sec : Str × Params io.F) (R : Str) :
    joinLines (renderSectionLines io sec) ++ R =
      sec.1 ++ '\n' :: '{' :: bodyText io (keyWidth sec.2) sec.2 ('\n' :: R) := by
  unfold renderSectionLines
  rw [joinLines_flat _ _ (by simp)]
  simp [bodyText, List.flatMap_map, List.flatMap_append]

theorem section_ne (io : FloatIO) (sec : Str × Params io.F) : renderSectionLines io sec ≠ [] := by
  simp [renderSectionLines]

theorem chompNL_append {a b : Str} (hb : b ≠ []) : chompNL (a ++ b) = a ++ chompNL b := by
  induction a with
  | nil => rfl
  | cons c cs ih =>
    rw [List.cons_append, chompNL_cons (by simp [hb]), ih]; rfl

theorem chomp_bodyText (io : FloatIO) (kw : Nat) (ps : Params io.F) (R : Str) :
    chompNL (bodyText io kw ps ('\n' :: R)) = bodyText io kw ps (chompNL ('\n' :: R)) := by
  unfold bodyText
  rw [chompNL_append (by simp), chompNL_cons (by simp), chompNL_cons (by simp)]

theorem chomp_render (io : FloatIO) (D : Sections io.F) : chompNL (renderDeck io D) = srcText io D := by
  induction D with
  | nil => rfl
  | cons sec D ih =>
    cases D with
    | nil =>
      have : renderDeck io [sec] = sec.1 ++ '\n' :: '{' :: bodyText io (keyWidth sec.2) sec.2 ['\n'] := by
        rw [← section_join io sec []]
        simp [renderDeck]
      rw [this, chompNL_append (by simp), chompNL_cons (by simp), chompNL_cons (by simp [bodyText]), chomp_bodyText]
      rfl
    | cons s2 D2 =>
      have hne : (s2 :: D2).flatMap (renderSectionLines io) ≠ [] := by
        simp [renderSectionLines]
      have hrne : renderDeck io (s2 :: D2) ≠ [] := by
        intro h
        unfold renderDeck at h
        cases hfl : (s2 :: D2).flatMap (renderSectionLines io) with
        | nil => exact hne hfl
        | cons x xs =>
          rw [List.flatMap_cons, renderSectionLines] at h
          simp only [List.cons_append] at h
          rw [joinLines_cons (by simp)] at h
          simp at h
      have : renderDeck io (sec :: s2 :: D2) =
          sec.1 ++ '\n' :: '{' :: bodyText io (keyWidth sec.2) sec.2 ('\n' :: '\n' :: renderDeck io (s2 :: D2)) := by
        rw [← section_join io sec]
        unfold renderDeck
        rw [List.flatMap_cons, joinLines_append (section_ne io sec) hne]
      rw [this, chompNL_append (by simp), chompNL_cons (by simp), chompNL_cons (by simp [bodyText]), chomp_bodyText,
        chompNL_cons (by simp), chompNL_cons hrne, ih]
      rfl

/-! ### rendered text is comment free -/

theorem clean_atom {io : FloatIO} {fin : io.F → Prop} (law : FloatLaw io fin) (a : Atom io.F)
    (ha : AtomOk fin a) (hn : ∀ s, a = .str s → '\n' ∉ s) :
    clean none (renderAtom io a) ∧ endQ none (renderAtom io a) = none := by
  have num : ∀ s : Str, (∀ c ∈ s, numChar c = true) → clean none s ∧ endQ none s = none := by
    intro s hs
    apply clean_plain
    intro c hc
    have := numChar_plain (hs c hc)
    simp only [plainTok, Bool.and_eq_true, Bool.not_eq_true', bne_iff_ne] at this
    exact ⟨this.1.1.1.1.1.1, this.1.1.1.2⟩
  cases a with
  | none => exact ⟨trivial, rfl⟩
  | bool b =>
    cases b
    · exact clean_plain ['.', 'f', 'a', 'l', 's', 'e', '.'] (by decide)
    · exact clean_plain ['.', 't', 'r', 'u', 'e', '.'] (by decide)
  | int i => exact num _ (intRe_num (intStr_re i))
  | flt x => exact num _ (floatRe_num (law.rt x ha).1)
  | str s =>
    have h1 := endQ_inside '"' s ha (hn s rfl)
    show clean none ('"' :: s ++ ['"']) ∧ endQ none ('"' :: s ++ ['"']) = none
    rw [List.cons_append]
    unfold clean endQ
    simp only [show ¬ ('"' = '\n') by decide, if_false, show isQuote '"' = true by decide, if_true]
    rw [clean_append, endQ_append, h1.2]
    exact ⟨⟨h1.1, by simp [clean]⟩, by simp [endQ]⟩

theorem clean_join {io : FloatIO} {fin : io.F → Prop} (law : FloatLaw io fin) (l : List (Atom io.F))
    (hl : ∀ b ∈ l, AtomOk fin b) (hn : ∀ s, Atom.str s ∈ l → '\n' ∉ s) :
    clean none (joinCommaSp (l.map (renderAtom io))) ∧ endQ none (joinCommaSp (l.map (renderAtom io))) = none := by
  induction l with
  | nil => exact ⟨trivial, rfl⟩
  | cons a as ih =>
    have h1 := clean_atom law a (hl a (by simp)) (fun s hs => hn s (by simp [hs]))
    cases as with
    | nil => exact h1
    | cons b bs =>
      have h2 := ih (fun c hc => hl c (by simp [hc])) (fun s hs => hn s (by simp [hs]))
      show clean none (renderAtom io a ++ ',' :: ' ' :: joinCommaSp ((b :: bs).map (renderAtom io))) ∧ _ = _
      have e : joinCommaSp ((a :: b :: bs).map (renderAtom io)) =
        renderAtom io a ++ ([',', ' '] ++ joinCommaSp ((b :: bs).map (renderAtom io))) := rfl
      have e' : renderAtom io a ++ ',' :: ' ' :: joinCommaSp ((b :: bs).map (renderAtom io)) =
        renderAtom io a ++ ([',', ' '] ++ joinCommaSp ((b :: bs).map (renderAtom io))) := rfl
      have h3 := clean_plain [',', ' '] (by decide)
      rw [e', e, clean_append, endQ_append, h1.2, clean_append, endQ_append, h3.2]
      exact ⟨⟨h1.1, h3.1, h2.1⟩, h2.2⟩

theorem mem_joinCommaSp {L : List Str} {c : Char} (h : c ∈ joinCommaSp L) : c = ',' ∨ c = ' ' ∨ ∃ l ∈ L, c ∈ l := by
  induction L with
  | nil => simp [joinCommaSp] at h
  | cons a as ih =>
    cases as with
    | nil => exact Or.inr (Or.inr ⟨a, by simp, h⟩)
    | cons b bs =>
      simp only [joinCommaSp, List.mem_append, List.mem_cons] at h
      rcases h with h | h | h | h
      · exact Or.inr (Or.inr ⟨a, by simp, h⟩)
      · exact Or.inl h
      · exact Or.inr (Or.inl h)
      · rcases ih h with h | h | ⟨l, hl, hc⟩
        · exact Or.inl h
        · exact Or.inr (Or.inl h)
        · exact Or.inr (Or.inr ⟨l, by simp [hl], hc⟩)

/-- Characters of a rendered value: string characters, or token characters. -/
theorem mem_renderValue {io : FloatIO} {fin : io.F → Prop} (law : FloatLaw io fin) (v : Value io.F)
    (hv : ∀ b ∈ v.atoms, AtomOk fin b) (c : Char) (h : c ∈ renderValue io v) :
    c ∈ v.strChars ∨ (c ≠ '!' ∧ c ≠ '\n' ∧ lineBreak c = false) := by
  rw [renderValue_eq] at h
  rcases mem_joinCommaSp h with rfl | rfl | ⟨l, hl, hc⟩
  · right; decide
  · right; decide
  · obtain ⟨a, ha, rfl⟩ := List.mem_map.1 hl
    have hok := hv a ha
    have num : ∀ s : Str, (∀ c ∈ s, numChar c = true) → c ∈ s → c ≠ '!' ∧ c ≠ '\n' ∧ lineBreak c = false := by
      intro s hs hc
      have := numChar_plain (hs c hc)
      simp only [plainTok, Bool.and_eq_true, Bool.not_eq_true', bne_iff_ne] at this
      exact ⟨this.1.1.1.2, this.1.1.2, this.2⟩
    cases a with
    | none => simp [renderAtom] at hc
    | bool b =>
      right
      cases b
      · have : ∀ c ∈ ['.', 'f', 'a', 'l', 's', 'e', '.'], c ≠ '!' ∧ c ≠ '\n' ∧ lineBreak c = false := by decide
        exact this c hc
      · have : ∀ c ∈ ['.', 't', 'r', 'u', 'e', '.'], c ≠ '!' ∧ c ≠ '\n' ∧ lineBreak c = false := by decide
        exact this c hc
    | int i => exact Or.inr (num _ (intRe_num (intStr_re i)) hc)
    | flt x => exact Or.inr (num _ (floatRe_num (law.rt x hok).1) hc)
    | str s =>
      simp only [renderAtom, List.cons_append, List.mem_cons, List.mem_append] at hc
      rcases hc with rfl | hc | hc | hc
      · right; decide
      · left; exact List.mem_flatMap.2 ⟨_, ha, hc⟩
      · subst hc; right; decide
      · exact absurd hc (by simp)

theorem printable_atoms {F : Type} {fin : F → Prop} {v : Value F} (h : PrintableValue fin v) :
    ∀ b ∈ v.atoms, AtomOk fin b := by
  intro b hb
  cases b with
  | none => trivial
  | bool _ => trivial
  | int _ => trivial
  | flt x => exact h.floats x hb
  | str s => exact fun hq => h.noDquote (List.mem_flatMap.2 ⟨_, hb, hq⟩)

theorem clean_line {io : FloatIO} {fin : io.F → Prop} (law : FloatLaw io fin) (kw : Nat) (kv : Str × Value io.F)
    (hk : '!' ∉ kv.1 ∧ ∀ c ∈ kv.1, isQuote c = false) (hv : PrintableValue fin kv.2) :
    clean none (renderLine io kw kv) := by
  have hat := printable_atoms hv
  have e : renderLine io kw kv = ([' ', ' '] ++ kv.1 ++ List.replicate (kw - kv.1.length) ' ' ++ [' ', '=', ' ']) ++
      (renderValue io kv.2 ++ [',']) := by
    simp [renderLine, padTo]
  have hpre := clean_plain ([' ', ' '] ++ kv.1 ++ List.replicate (kw - kv.1.length) ' ' ++ [' ', '=', ' ']) (by
    intro c hc
    simp only [List.mem_append] at hc
    rcases hc with ((hc | hc) | hc) | hc
    · revert c; decide
    · exact ⟨hk.2 c hc, fun e => hk.1 (e ▸ hc)⟩
    · rw [(List.mem_replicate.1 hc).2]; decide
    · revert c; decide)
  rw [e, clean_append, hpre.2]
  refine ⟨hpre.1, ?_⟩
  rcases hv.noBangAfterNL with h | h
  · have := clean_join law kv.2.atoms hat (fun s hs hn => h (List.mem_flatMap.2 ⟨_, hs, hn⟩))
    rw [← renderValue_eq] at this
    rw [clean_append, this.2]
    exact ⟨this.1, (clean_plain [','] (by decide)).1⟩
  · apply clean_nobang
    intro hc
    rcases List.mem_append.1 hc with hc | hc
    · rcases mem_renderValue law kv.2 hat _ hc with hc | hc
      · exact h hc
      · exact hc.1 rfl
    · exact absurd hc (by decide)

theorem identChar_plain {c : Char} (h : isIdentChar c = true) : isQuote c = false ∧ c ≠ '!' ∧ lineBreak c = false := by
  have e : ∀ d : Char, isIdentChar d = false → c ≠ d := by
    rintro d hd rfl; rw [h] at hd; cases hd
  refine ⟨?_, e _ (by decide), ?_⟩
  · simp [isQuote, e '"' (by decide), e '\'' (by decide)]
  · simp only [isIdentChar, isIdentStart, isDigit, Bool.or_eq_true, Bool.and_eq_true, decide_eq_true_eq, beq_iff_eq] at h
    have : c = '_' → c.toNat = 95 := by rintro rfl; decide
    simp only [lineBreak, Bool.or_eq_false_iff, Bool.and_eq_false_iff, decide_eq_false_iff_not, beq_eq_false_iff_ne, ne_eq]
    rcases h with (h | h) | h
    · refine ⟨⟨⟨⟨?_, ?_⟩, ?_⟩, ?_⟩, ?_⟩ <;> omega
    · have := this h
      refine ⟨⟨⟨⟨?_, ?_⟩, ?_⟩, ?_⟩, ?_⟩ <;> omega
    · refine ⟨⟨⟨⟨?_, ?_⟩, ?_⟩, ?_⟩, ?_⟩ <;> omega

theorem isIdent_chars {s : Str} (h : IsIdent s) : ∀ c ∈ s, isIdentChar c = true := by
  obtain ⟨c, cs, rfl, h1, h2⟩ := h
  intro d hd
  rcases List.mem_cons.1 hd with rfl | hd
  · simp [isIdentChar, h1]
  · exact h2 d hd

theorem line_onlyNL {io : FloatIO} {fin : io.F → Prop} (law : FloatLaw io fin) (kw : Nat) (kv : Str × Value io.F)
    (hk : OnlyNL kv.1) (hs : OnlyNL kv.2.strChars) (hv : PrintableValue fin kv.2) : OnlyNL (renderLine io kw kv) := by
  intro c hc hb
  simp only [renderLine, padTo, List.cons_append, List.mem_cons, List.mem_append] at hc
  rcases hc with h | h | ⟨⟨⟨h|h⟩|h⟩|h⟩|h
  · subst h; exact absurd hb (by decide)
  · subst h; exact absurd hb (by decide)
  · exact hk c h hb
  · rw [(List.mem_replicate.1 h).2] at hb; exact absurd hb (by decide)
  · rcases h with rfl | rfl | rfl | h
    · exact absurd hb (by decide)
    · exact absurd hb (by decide)
    · exact absurd hb (by decide)
    · exact absurd h (by simp)
  · rcases mem_renderValue law kv.2 (printable_atoms hv) c h with h | h
    · exact hs c h hb
    · rw [h.2.2] at hb; cases hb
  · rcases h with rfl | h
    · exact absurd hb (by decide)
    · exact absurd h (by simp)

/-- Rendering then parsing gives the deck back. -/
theorem parse_render {io : FloatIO} {fin : io.F → Prop} (law : FloatLaw io fin) (D : Sections io.F)
    (hshape : ParsedShape D) (hp : Printable fin D) : parseDeck io (renderDeck io D) = .ok D := by
  have hlines : ∀ l ∈ D.flatMap (renderSectionLines io), clean none l ∧ OnlyNL l := by
    intro l hl
    obtain ⟨sec, hsec, hl⟩ := List.mem_flatMap.1 hl
    have sh := hshape sec hsec
    have pr := hp sec hsec
    simp only [renderSectionLines, List.mem_cons, List.mem_append, List.mem_map] at hl
    rcases hl with rfl | rfl | ⟨kv, hkv, rfl⟩ | hl
    · have := isIdent_chars sh.name
      refine ⟨(clean_plain _ fun c hc => ⟨(identChar_plain (this c hc)).1, (identChar_plain (this c hc)).2.1⟩).1, ?_⟩
      intro c hc hb
      rw [(identChar_plain (this c hc)).2.2] at hb; cases hb
    · exact ⟨(clean_plain ['{'] (by decide)).1, by intro c hc hb; simp at hc; subst hc; exact absurd hb (by decide)⟩
    · exact ⟨clean_line law _ kv (pr.keys kv hkv) (pr.values kv hkv),
        line_onlyNL law _ kv (sh.keys kv hkv).2 (sh.strings kv hkv) (pr.values kv hkv)⟩
    · rcases hl with rfl | rfl | hl
      · exact ⟨(clean_plain ['}'] (by decide)).1, by intro c hc hb; simp at hc; subst hc; exact absurd hb (by decide)⟩
      · exact ⟨trivial, by intro c hc; simp at hc⟩
      · exact absurd hl (by simp)
  have hpre : preprocess (renderDeck io D) = srcText io D := by
    have h1 : clean none (renderDeck io D) := clean_joinLines _ fun l hl => (hlines l hl).1
    have h2 : OnlyNL (renderDeck io D) := onlyNL_joinLines _ fun l hl => (hlines l hl).2
    rw [preprocess_clean _ h1 h2, chomp_render]
  unfold parseDeck
  simp only [hpre]
  have hlen : ∀ D : Sections io.F, D.length ≤ (srcText io D).length := by
    intro D
    induction D with
    | nil => simp
    | cons sec D ih =>
      cases D with
      | nil => simp only [srcText, List.length_append, List.length_cons, List.length_nil]; omega
      | cons s2 D2 =>
        simp only [srcText, bodyText, List.length_append, List.length_cons] at ih ⊢
        omega
  exact (parseSections_src law D _ (by have := hlen D; omega) (fun s hs => (hshape s hs).name)
    (fun s hs => (hshape s hs).distinct)
    (fun s hs kv hkv => ⟨((hshape s hs).keys kv hkv).1, (hshape s hs).lists kv hkv,
      printable_atoms ((hp s hs).values kv hkv)⟩)
    (fun s hs => (hp s hs).trailing)).1

end Verif.Deck
