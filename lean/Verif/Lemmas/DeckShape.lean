import Verif.Lemmas.DeckParse

/-! Shape of parsed decks, termination, comments. -/
namespace Verif.Deck

/-! ### characters of intermediate texts come from the source -/

theorem mem_dropWhile' {p : Char → Bool} {s : Str} {c : Char} (h : c ∈ s.dropWhile p) : c ∈ s := by
  induction s with
  | nil => simp at h
  | cons a as ih =>
    cases hp : p a with
    | true => rw [dropWhile_cons_pos hp] at h; exact List.mem_cons_of_mem _ (ih h)
    | false => rw [dropWhile_cons_neg hp] at h; exact h

theorem mem_takeWhile' {p : Char → Bool} {s : Str} {c : Char} (h : c ∈ s.takeWhile p) : c ∈ s := by
  have := List.takeWhile_append_dropWhile (p := p) (l := s)
  rw [← this]; exact List.mem_append_left _ h

theorem mem_strip {s : Str} {c : Char} (h : c ∈ strip s) : c ∈ s := by
  unfold strip lstrip at h
  exact mem_dropWhile' (List.mem_reverse.1 (mem_dropWhile' (List.mem_reverse.1 h)))

theorem mem_stripComment {q : Option Char} {s : Str} {c : Char} (h : c ∈ stripComment q s) : c ∈ s := by
  induction s generalizing q with
  | nil => simp [stripComment] at h
  | cons a as ih =>
    unfold stripComment at h
    cases q with
    | some x =>
      rcases List.mem_cons.1 h with rfl | h
      · simp
      · exact List.mem_cons_of_mem _ (ih h)
    | none =>
      simp only at h
      split at h
      · rcases List.mem_cons.1 h with rfl | h
        · simp
        · exact List.mem_cons_of_mem _ (ih h)
      · split at h
        · simp at h
        · rcases List.mem_cons.1 h with rfl | h
          · simp
          · exact List.mem_cons_of_mem _ (ih h)

theorem splitlines_noBreak (s cur : Str) (hcur : ∀ c ∈ cur, lineBreak c = false) :
    ∀ l ∈ splitlinesAux cur s, ∀ c ∈ l, lineBreak c = false := by
  fun_induction splitlinesAux cur s with
  | case1 cur h => intro l hl; simp at hl
  | case2 cur h =>
    intro l hl; simp at hl; subst hl
    intro c hc; exact hcur c (by simpa using hc)
  | case3 cur cs ih =>
    intro l hl
    rcases List.mem_cons.1 hl with rfl | hl
    · intro c hc; exact hcur c (by simpa using hc)
    · exact ih (by simp) l hl
  | case4 cur c cs hne hb ih =>
    intro l hl
    rcases List.mem_cons.1 hl with rfl | hl
    · intro c hc; exact hcur c (by simpa using hc)
    · exact ih (by simp) l hl
  | case5 cur c cs hne hb ih =>
    apply ih
    intro d hd
    rcases List.mem_cons.1 hd with rfl | hd
    · simpa using hb
    · exact hcur d hd

theorem preprocess_onlyNL (text : Str) : OnlyNL (preprocess text) := by
  apply onlyNL_joinLines
  intro l hl c hc hb
  obtain ⟨l', hl', rfl⟩ := List.mem_map.1 hl
  have := splitlines_noBreak text [] (by simp) l' hl' c (mem_stripComment hc)
  rw [this] at hb; cases hb

theorem scanValue_append (q : Option Char) (s : Str) : (scanValue q s).1 ++ (scanValue q s).2 = s := by
  induction s generalizing q with
  | nil => rfl
  | cons c cs ih =>
    unfold scanValue
    cases q with
    | some x => simp [ih]
    | none =>
      simp only
      split
      · simp [ih]
      · split
        · rfl
        · split
          · split
            · rfl
            · simp [ih]
          · simp [ih]

theorem matchIdent_spec {s i r : Str} (h : matchIdent s = some (i, r)) : IsIdent i ∧ s = i ++ r := by
  unfold matchIdent at h
  cases s with
  | nil => simp at h
  | cons c cs =>
    simp only at h
    split at h
    · next hc =>
      simp only [Option.some.injEq, Prod.mk.injEq] at h
      obtain ⟨rfl, rfl⟩ := h
      refine ⟨⟨c, _, rfl, hc, fun d hd => mem_takeWhile_p hd⟩, ?_⟩
      rw [List.cons_append, List.takeWhile_append_dropWhile]
    · simp at h

theorem matchParen_spec (s : Str) :
    s = (matchParen s).1 ++ (matchParen s).2 ∧
      ((matchParen s).1 = [] ∨ ∃ m, (matchParen s).1 = '(' :: m ++ [')'] ∧ ')' ∉ m) := by
  unfold matchParen
  split
  · next cs =>
    split
    · next r heq =>
      refine ⟨?_, Or.inr ⟨_, rfl, ?_⟩⟩
      · have := List.takeWhile_append_dropWhile (p := (· != ')')) (l := cs)
        rw [heq] at this
        simp only [List.cons_append, List.append_assoc, List.nil_append]
        rw [this]
      · intro hm
        have := mem_takeWhile_p hm
        simp at this
    · exact ⟨rfl, Or.inl rfl⟩
  · exact ⟨rfl, Or.inl rfl⟩

theorem matchKey_spec {s k r : Str} (h : matchKey s = some (k, r)) : IsKey k ∧ s = k ++ r := by
  unfold matchKey at h
  split at h
  · simp at h
  · next i r' hi =>
    obtain ⟨h1, h2⟩ := matchIdent_spec hi
    obtain ⟨h3, h4⟩ := matchParen_spec r'
    simp only [Option.some.injEq, Prod.mk.injEq] at h
    obtain ⟨rfl, rfl⟩ := h
    refine ⟨⟨i, _, rfl, h1, h4⟩, ?_⟩
    rw [h2, List.append_assoc, ← h3]

theorem isKey_ne_nil {k : Str} (h : IsKey k) : k ≠ [] := by
  obtain ⟨c, cs, rfl, _⟩ := isKey_head h; simp

theorem mem_splitRaw {q : Option Char} {buf s l : Str} {c : Char} (hl : l ∈ splitCommasRaw q buf s) (hc : c ∈ l) :
    c ∈ buf ∨ c ∈ s := by
  induction s generalizing q buf with
  | nil => simp [splitCommasRaw] at hl; subst hl; left; simpa using hc
  | cons a as ih =>
    unfold splitCommasRaw at hl
    have step : ∀ {q'}, l ∈ splitCommasRaw q' (a :: buf) as → c ∈ buf ∨ c ∈ a :: as := by
      intro q' h
      rcases ih h with h | h
      · rcases List.mem_cons.1 h with rfl | h
        · right; simp
        · left; exact h
      · right; exact List.mem_cons_of_mem _ h
    cases q with
    | some x => exact step hl
    | none =>
      simp only at hl
      split at hl
      · exact step hl
      · split at hl
        · rcases List.mem_cons.1 hl with rfl | hl
          · left; simpa using hc
          · rcases ih hl with h | h
            · simp at h
            · right; exact List.mem_cons_of_mem _ h
        · exact step hl

theorem mem_dropEmptyLast {L : List Str} {l : Str} (h : l ∈ dropEmptyLast L) : l ∈ L := by
  induction L with
  | nil => simp [dropEmptyLast] at h
  | cons a as ih =>
    cases as with
    | nil =>
      unfold dropEmptyLast at h
      split at h
      · simp at h
      · exact h
    | cons b bs =>
      rcases List.mem_cons.1 (show l ∈ a :: dropEmptyLast (b :: bs) from h) with rfl | h
      · simp
      · exact List.mem_cons_of_mem _ (ih h)

theorem mem_splitTop {s l : Str} {c : Char} (hl : l ∈ splitTopCommas s) (hc : c ∈ l) : c ∈ s := by
  obtain ⟨l', hl', rfl⟩ := List.mem_map.1 (mem_dropEmptyLast hl)
  rcases mem_splitRaw hl' (mem_strip hc) with h | h
  · simp at h
  · exact h

theorem mem_unquote {s t : Str} {c : Char} (h : unquote s = some t) (hc : c ∈ t) : c ∈ s := by
  unfold unquote at h
  split at h
  · split at h
    · simp at h; subst h
      exact List.mem_cons_of_mem _ (List.dropLast_subset _ hc)
    · simp at h
  · simp at h

theorem parseAtom_str {io : FloatIO} {tok t : Str} {c : Char} (h : parseAtom io tok = .str t) (hc : c ∈ t) : c ∈ tok := by
  unfold parseAtom at h
  simp only at h
  split at h
  · cases h
  · split at h
    · next hu => cases h; exact mem_strip (mem_unquote hu hc)
    · split at h
      · cases h
      · split at h
        · cases h
        · split at h
          · cases h
          · split at h
            · cases h
            · cases h; exact mem_strip hc

theorem parseValue_shape {io : FloatIO} (rhs : Str) :
    (∀ l, parseValue io rhs = .list l → 2 ≤ l.length) ∧ ∀ c ∈ (parseValue io rhs).strChars, c ∈ rhs := by
  have atomcase : ∀ p ∈ splitTopCommas rhs, ∀ t, parseAtom io p = .str t → ∀ c ∈ t, c ∈ rhs :=
    fun p hp t ht c hc => mem_splitTop hp (parseAtom_str ht hc)
  unfold parseValue
  split
  · exact ⟨(by intro l h; cases h), (by intro c hc; simp [Value.strChars, Value.atoms] at hc)⟩
  · next p heq =>
    refine ⟨(by intro l h; cases h), ?_⟩
    intro c hc
    simp only [Value.strChars, Value.atoms, List.flatMap_cons, List.flatMap_nil, List.append_nil] at hc
    split at hc
    · next t ht => exact atomcase p (by rw [heq]; simp) t ht c hc
    · simp at hc
  · next h1 h2 =>
    refine ⟨?_, ?_⟩
    · intro l h
      cases h
      rw [List.length_map]
      match hsp : splitTopCommas rhs, h1, h2 with
      | [], h1, _ => exact absurd rfl h1
      | [p], _, h2 => exact absurd rfl (h2 p)
      | a :: b :: r, _, _ => simp
    · intro c hc
      obtain ⟨a, ha, hca⟩ := List.mem_flatMap.1 hc
      simp only [Value.atoms] at ha
      obtain ⟨p, hp, rfl⟩ := List.mem_map.1 ha
      split at hca
      · next t ht => exact atomcase p hp t ht c hca
      · simp at hca

/-! ### parsed sections -/

/-- Shape of the parameters collected so far. -/
structure ParamsInv {F : Type} (ps : Params F) : Prop where
  keys : ∀ kv ∈ ps, IsKey kv.1 ∧ OnlyNL kv.1
  distinct : (dictKeys ps).Nodup
  lists : ∀ kv ∈ ps, ∀ l, kv.2 = .list l → 2 ≤ l.length
  strings : ∀ kv ∈ ps, OnlyNL kv.2.strChars

theorem mem_dictSet {κ ν : Type} [DecidableEq κ] {d : Dict κ ν} {k : κ} {v : ν} {x : κ × ν}
    (h : x ∈ dictSet d k v) : x = (k, v) ∨ x ∈ d := by
  induction d with
  | nil => simp [dictSet] at h; exact Or.inl h
  | cons a d ih =>
    obtain ⟨k', v'⟩ := a
    unfold dictSet at h
    split at h
    · rcases List.mem_cons.1 h with h | h
      · exact Or.inl h
      · exact Or.inr (List.mem_cons_of_mem _ h)
    · rcases List.mem_cons.1 h with h | h
      · exact Or.inr (by simp [h])
      · rcases ih h with h | h
        · exact Or.inl h
        · exact Or.inr (List.mem_cons_of_mem _ h)

theorem dictKeys_dictSet {κ ν : Type} [DecidableEq κ] (d : Dict κ ν) (k : κ) (v : ν) :
    dictKeys (dictSet d k v) = if k ∈ dictKeys d then dictKeys d else dictKeys d ++ [k] := by
  induction d with
  | nil => simp [dictSet, dictKeys]
  | cons a d ih =>
    obtain ⟨k', v'⟩ := a
    unfold dictSet
    split
    · next h => subst h; simp [dictKeys]
    · next h =>
      simp only [dictKeys, List.map_cons, List.mem_cons] at ih ⊢
      rw [ih]
      have : k ≠ k' := fun e => h e.symm
      simp only [this, false_or]
      split <;> rename_i hk <;> simp [hk]

theorem nodup_dictSet {κ ν : Type} [DecidableEq κ] {d : Dict κ ν} (h : (dictKeys d).Nodup) (k : κ) (v : ν) :
    (dictKeys (dictSet d k v)).Nodup := by
  rw [dictKeys_dictSet]
  split
  · exact h
  · next hk =>
    rw [List.nodup_append]
    refine ⟨h, by simp, ?_⟩
    intro a ha b hb
    simp at hb; subst hb
    rintro rfl; exact hk ha

theorem skipWs_suffix (s : Str) : ∃ w, s = w ++ skipWs s := by
  refine ⟨s.takeWhile deckWs, ?_⟩
  unfold skipWs
  rw [List.takeWhile_append_dropWhile]

theorem onlyNL_suffix {a b : Str} (h : OnlyNL (a ++ b)) : OnlyNL b := fun c hc => h c (by simp [hc])
theorem onlyNL_prefix {a b : Str} (h : OnlyNL (a ++ b)) : OnlyNL a := fun c hc => h c (by simp [hc])

theorem eatComma_suffix (s : Str) : ∃ w, s = w ++ eatComma s := by
  unfold eatComma
  split
  · exact ⟨[','], rfl⟩
  · exact ⟨[], rfl⟩

theorem parseParams_shape {io : FloatIO} (n : Nat) (s : Str) (acc : Params io.F) (ps : Params io.F) (rest : Str)
    (hs : OnlyNL s) (hacc : ParamsInv acc) (h : parseParams io n s acc = .ok (ps, rest)) :
    ParamsInv ps ∧ OnlyNL rest ∧ ∃ w, w ≠ [] ∧ s = w ++ rest := by
  induction n generalizing s acc with
  | zero => simp [parseParams] at h
  | succ n ih =>
    unfold parseParams at h
    obtain ⟨w, hw⟩ := skipWs_suffix s
    split at h
    · cases h
    · next c cs heq =>
      rw [heq] at hw
      have hs2 : OnlyNL (c :: cs) := onlyNL_suffix (hw ▸ hs)
      split at h
      · simp only [Except.ok.injEq, Prod.mk.injEq] at h
        obtain ⟨rfl, rfl⟩ := h
        exact ⟨hacc, onlyNL_suffix (a := [c]) hs2, w ++ [c], by simp, by rw [hw]; simp⟩
      · split at h
        · cases h
        · next k r hk =>
          obtain ⟨hkey, hkr⟩ := matchKey_spec hk
          obtain ⟨w2, hw2⟩ := skipWs_suffix r
          split at h
          · next r' heq2 =>
            rw [heq2] at hw2
            obtain ⟨w3, hw3⟩ := eatComma_suffix (scanValue none r').2
            have hv := scanValue_append none r'
            have hr' : OnlyNL r' := by
              have h1 : OnlyNL r := onlyNL_suffix (hkr ▸ hs2)
              have h2 : OnlyNL ('=' :: r') := onlyNL_suffix (hw2 ▸ h1)
              exact onlyNL_suffix (a := ['=']) h2
            have hv1 : OnlyNL (scanValue none r').1 := onlyNL_prefix (hv.symm ▸ hr')
            have hv2 : OnlyNL (scanValue none r').2 := onlyNL_suffix (hv.symm ▸ hr')
            have hv3 : OnlyNL (eatComma (scanValue none r').2) := onlyNL_suffix (a := w3) (hw3 ▸ hv2)
            have hsh := parseValue_shape (io := io) (strip (scanValue none r').1)
            have hinv : ParamsInv (dictSet acc k (parseValue io (strip (scanValue none r').1))) := by
              constructor
              · intro kv hkv
                rcases mem_dictSet hkv with rfl | hkv
                · exact ⟨hkey, onlyNL_prefix (hkr ▸ hs2)⟩
                · exact hacc.keys kv hkv
              · exact nodup_dictSet hacc.distinct _ _
              · intro kv hkv
                rcases mem_dictSet hkv with rfl | hkv
                · exact hsh.1
                · exact hacc.lists kv hkv
              · intro kv hkv
                rcases mem_dictSet hkv with rfl | hkv
                · intro c hc; exact hv1 c (mem_strip (hsh.2 c hc))
                · exact hacc.strings kv hkv
            obtain ⟨i1, i2, w4, hw4, hw4'⟩ := ih _ _ hv3 hinv h
            refine ⟨i1, i2, w ++ (k ++ (w2 ++ '=' :: ((scanValue none r').1 ++ (w3 ++ w4)))), by simp, ?_⟩
            have e : r' = (scanValue none r').1 ++ (w3 ++ (w4 ++ rest)) := by
              rw [← hw4', ← hw3, hv]
            rw [hw, hkr, hw2]
            generalize (scanValue none r').1 = V at e ⊢
            rw [e]
            simp
          · cases h

theorem parseSections_shape {io : FloatIO} (n : Nat) (s : Str) (D : Sections io.F)
    (hs : OnlyNL s) (h : parseSections io n s = .ok D) : ParsedShape D := by
  induction n generalizing s D with
  | zero => simp [parseSections] at h
  | succ n ih =>
    unfold parseSections at h
    obtain ⟨w, hw⟩ := skipWs_suffix s
    split at h
    · simp at h; subst h; intro sec hsec; simp at hsec
    · next c cs heq =>
      rw [heq] at hw
      have hs2 : OnlyNL (c :: cs) := onlyNL_suffix (hw ▸ hs)
      split at h
      · cases h
      · next name r hm =>
        obtain ⟨hid, hr⟩ := matchIdent_spec hm
        obtain ⟨w2, hw2⟩ := skipWs_suffix r
        split at h
        · next r' heq2 =>
          rw [heq2] at hw2
          have h1 : OnlyNL r := onlyNL_suffix (hr ▸ hs2)
          have h2 : OnlyNL r' := onlyNL_suffix (a := ['{']) (onlyNL_suffix (hw2 ▸ h1))
          split at h
          · cases h
          · next ps rest hps =>
            obtain ⟨i1, i2, _⟩ := parseParams_shape _ _ _ _ _ h2
              ⟨by simp, by simp [dictKeys], by simp, by simp⟩ hps
            split at h
            · cases h
            · next ss hss =>
              simp at h; subst h
              intro sec hsec
              rcases List.mem_cons.1 hsec with rfl | hsec
              · exact ⟨hid, i1.keys, i1.distinct, i1.lists, i1.strings⟩
              · exact ih _ _ i2 hss sec hsec
        · cases h

/-! ### termination -/

theorem parseParams_fuel {io : FloatIO} (n : Nat) (s : Str) (acc : Params io.F) (hn : s.length < n) :
    parseParams io n s acc ≠ .error .fuel := by
  induction n generalizing s acc with
  | zero => omega
  | succ n ih =>
    unfold parseParams
    obtain ⟨w, hw⟩ := skipWs_suffix s
    split
    · simp
    · next c cs heq =>
      rw [heq] at hw
      split
      · simp
      · split
        · simp
        · next k r hk =>
          obtain ⟨hkey, hkr⟩ := matchKey_spec hk
          obtain ⟨w2, hw2⟩ := skipWs_suffix r
          split
          · next r' heq2 =>
            rw [heq2] at hw2
            apply ih
            obtain ⟨w3, hw3⟩ := eatComma_suffix (scanValue none r').2
            have hv := scanValue_append none r'
            have l1 := congrArg List.length hw
            have l2 := congrArg List.length hkr
            have l3 := congrArg List.length hw2
            have l4 := congrArg List.length hv
            have l5 := congrArg List.length hw3
            simp only [List.length_append, List.length_cons] at l1 l2 l3 l4 l5
            omega
          · simp

theorem parseSections_fuel {io : FloatIO} (n : Nat) (s : Str) (hs : OnlyNL s) (hn : s.length < n) :
    parseSections io n s ≠ .error .fuel := by
  induction n generalizing s with
  | zero => omega
  | succ n ih =>
    unfold parseSections
    obtain ⟨w, hw⟩ := skipWs_suffix s
    split
    · simp
    · next c cs heq =>
      rw [heq] at hw
      have hs2 : OnlyNL (c :: cs) := onlyNL_suffix (hw ▸ hs)
      split
      · simp
      · next name r hm =>
        obtain ⟨hid, hr⟩ := matchIdent_spec hm
        obtain ⟨w2, hw2⟩ := skipWs_suffix r
        split
        · next r' heq2 =>
          rw [heq2] at hw2
          have h1 : OnlyNL r := onlyNL_suffix (hr ▸ hs2)
          have h2 : OnlyNL r' := onlyNL_suffix (a := ['{']) (onlyNL_suffix (hw2 ▸ h1))
          have hpf := parseParams_fuel (io := io) (r'.length + 1) r' [] (by omega)
          split
          · next e he => intro h; simp only [Except.error.injEq] at h; subst h; exact hpf he
          · next ps rest hps =>
            obtain ⟨_, i2, w5, hw5, hw5'⟩ := parseParams_shape _ _ _ _ _ h2
              ⟨by simp, by simp [dictKeys], by simp, by simp⟩ hps
            have hl : rest.length < n := by
              have l1 := congrArg List.length hw
              have l2 := congrArg List.length hr
              have l3 := congrArg List.length hw2
              have l4 := congrArg List.length hw5'
              simp only [List.length_append, List.length_cons] at l1 l2 l3 l4
              omega
            have := ih rest i2 hl
            split
            · next e he => intro h; simp only [Except.error.injEq] at h; subst h; exact this he
            · simp
        · simp

/-! ### comments -/

/-- Scanning a balanced text from outside quotes never meets a comment unless an
unquoted `!` is met, and ends outside quotes. -/
theorem stripComment_balanced {a : Str} (h : Balanced a) :
    (∀ t, stripComment none (a ++ t) = a ++ stripComment none t) ∨
      (∃ b, ∀ t, stripComment none (a ++ t) = b) := by
  induction h with
  | nil => left; intro t; rfl
  | @plain s c _ hc ih =>
    rcases ih with ih | ⟨b, ih⟩
    · by_cases hb : c = '!'
      · right; refine ⟨s, fun t => ?_⟩
        rw [List.append_assoc, ih, List.singleton_append]
        conv => lhs; rhs; unfold stripComment
        simp [hb, show isQuote '!' = false by decide]
      · left; intro t
        rw [List.append_assoc, ih, List.singleton_append]
        conv => lhs; rhs; unfold stripComment
        simp [hc, hb]
    · right; exact ⟨b, fun t => by rw [List.append_assoc]; exact ih _⟩
  | @span s m q _ hq hm ih =>
    have inside : ∀ (m t : Str), q ∉ m → stripComment (some q) (m ++ q :: t) = m ++ q :: stripComment none t := by
      intro m
      induction m with
      | nil => intro t _; rw [List.nil_append]; conv => lhs; unfold stripComment
               simp
      | cons d ds ihm =>
        intro t h
        simp only [List.mem_cons, not_or] at h
        rw [List.cons_append]
        conv => lhs; unfold stripComment
        simp only [if_neg (fun e => h.1 (Eq.symm e) : ¬ d = q)]
        rw [ihm t h.2]; rfl
    rcases ih with ih | ⟨b, ih⟩
    · left; intro t
      have e : s ++ q :: m ++ [q] ++ t = s ++ (q :: (m ++ q :: t)) := by simp
      rw [e, ih]
      have : stripComment none (q :: (m ++ q :: t)) = q :: (m ++ q :: stripComment none t) := by
        conv => lhs; unfold stripComment
        simp only [hq, if_true]
        rw [inside m t hm]
      rw [this]; simp
    · right; exact ⟨b, fun t => by
        have e : s ++ q :: m ++ [q] ++ t = s ++ (q :: (m ++ q :: t)) := by simp
        rw [e]; exact ih _⟩

/-- An appended comment is dropped. -/
theorem stripComment_bang {a : Str} (h : Balanced a) (c : Str) :
    stripComment none (a ++ '!' :: c) = stripComment none a := by
  rcases stripComment_balanced h with h | ⟨b, h⟩
  · have h0 := h []
    rw [List.append_nil] at h0
    rw [h, h0]
    simp [stripComment, isQuote]
  · have h0 := h []
    rw [List.append_nil] at h0
    rw [h, h0]

theorem splitlinesAux_noBreak_append (cur a t : Str) (ha : ∀ c ∈ a, lineBreak c = false) :
    splitlinesAux cur (a ++ t) = splitlinesAux (a.reverse ++ cur) t := by
  induction a generalizing cur with
  | nil => rfl
  | cons c cs ih =>
    rw [List.cons_append, splitlinesAux_plain _ _ (ha c (by simp)), ih _ fun d hd => ha d (by simp [hd])]
    simp

end Verif.Deck
