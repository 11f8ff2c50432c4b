import Verif.Spec.Deck
import Verif.Lemmas.DeckText

/-! `preprocess` is the identity (up to one trailing newline) on comment-free text. -/
namespace Verif.Deck

/-- No unquoted `!`, where the quote state is reset at every newline. -/
def clean (q : Option Char) : Str → Prop
  | [] => True
  | c :: cs =>
    if c = '\n' then clean none cs
    else match q with
      | some x => clean (if c = x then none else some x) cs
      | none => if isQuote c then clean (some c) cs else c ≠ '!' ∧ clean none cs

/-- Quote state after the text. -/
def endQ (q : Option Char) : Str → Option Char
  | [] => q
  | c :: cs =>
    if c = '\n' then endQ none cs
    else match q with
      | some x => endQ (if c = x then none else some x) cs
      | none => if isQuote c then endQ (some c) cs else endQ none cs

theorem endQ_append (q : Option Char) (s t : Str) : endQ q (s ++ t) = endQ (endQ q s) t := by
  induction s generalizing q with
  | nil => rfl
  | cons c cs ih =>
    simp only [List.cons_append, endQ]
    split
    · exact ih _
    · split
      · exact ih _
      · split <;> exact ih _

theorem clean_append (q : Option Char) (s t : Str) :
    clean q (s ++ t) ↔ clean q s ∧ clean (endQ q s) t := by
  induction s generalizing q with
  | nil => simp [clean, endQ]
  | cons c cs ih =>
    simp only [List.cons_append, endQ, clean]
    split
    · exact ih _
    · split
      · exact ih _
      · split
        · exact ih _
        · rw [ih, and_assoc]

theorem clean_nobang (q : Option Char) (s : Str) (h : '!' ∉ s) : clean q s := by
  induction s generalizing q with
  | nil => trivial
  | cons c cs ih =>
    simp only [List.mem_cons, not_or] at h
    unfold clean
    split
    · exact ih _ h.2
    · split
      · exact ih _ h.2
      · split
        · exact ih _ h.2
        · exact ⟨fun e => h.1 e.symm, ih _ h.2⟩

theorem stripComment_clean (q : Option Char) (s : Str) (hn : '\n' ∉ s) (h : clean q s) :
    stripComment q s = s := by
  induction s generalizing q with
  | nil => rfl
  | cons c cs ih =>
    simp only [List.mem_cons, not_or] at hn
    unfold clean at h
    rw [if_neg (fun e => hn.1 e.symm)] at h
    unfold stripComment
    cases q with
    | some x => simp only; rw [ih _ hn.2 h]
    | none =>
      simp only at h ⊢
      split
      · next hq => rw [if_pos hq] at h; rw [ih _ hn.2 h]
      · next hq =>
        rw [if_neg hq] at h
        rw [if_neg h.1, ih _ hn.2 h.2]

/-- Remove one trailing newline. -/
def chompNL : Str → Str
  | [] => []
  | [c] => if c = '\n' then [] else [c]
  | c :: cs => c :: chompNL cs

theorem chompNL_cons {c : Char} {cs : Str} (h : cs ≠ []) : chompNL (c :: cs) = c :: chompNL cs := by
  cases cs with
  | nil => exact absurd rfl h
  | cons _ _ => rfl

theorem splitlinesAux_ne_nil (cur s : Str) (h : s ≠ [] ∨ cur ≠ []) : splitlinesAux cur s ≠ [] := by
  induction s generalizing cur with
  | nil =>
    unfold splitlinesAux
    rcases h with h | h
    · exact absurd rfl h
    · cases cur with
      | nil => exact absurd rfl h
      | cons _ _ => simp
  | cons c cs ih =>
    unfold splitlinesAux
    split
    · next h => simp at h
    · simp
    · next h1 h2 =>
      split
      · simp
      · cases h2
        exact ih _ (Or.inr (by simp))

theorem joinLines_cons {l : Str} {ls : List Str} (h : ls ≠ []) :
    joinLines (l :: ls) = l ++ '\n' :: joinLines ls := by
  cases ls with
  | nil => exact absurd rfl h
  | cons _ _ => rfl

theorem splitlinesAux_nl (cur cs : Str) : splitlinesAux cur ('\n' :: cs) = cur.reverse :: splitlinesAux [] cs := by
  rw [splitlinesAux.eq_3 cur '\n' cs (by intro _ h; exact absurd h (by decide)), if_pos (by decide)]

theorem splitlinesAux_plain (cur cs : Str) {c : Char} (h : lineBreak c = false) :
    splitlinesAux cur (c :: cs) = splitlinesAux (c :: cur) cs := by
  rw [splitlinesAux.eq_3 cur c cs (by intro _ h'; subst h'; exact absurd h (by decide)), if_neg (by simp [h])]

theorem preprocess_aux (s cur : Str) (hcur : '\n' ∉ cur) (hc : clean none cur.reverse)
    (hs : clean (endQ none cur.reverse) s) (hl : OnlyNL s) :
    joinLines ((splitlinesAux cur s).map (stripComment none)) = cur.reverse ++ chompNL s := by
  induction s generalizing cur with
  | nil =>
    have hst := stripComment_clean none cur.reverse (by simpa using hcur) hc
    unfold splitlinesAux
    cases cur with
    | nil => rfl
    | cons c cs => simp only [List.isEmpty_cons, Bool.false_eq_true, if_false, List.map_cons, List.map_nil, joinLines, hst, chompNL, List.append_nil]
  | cons c cs ih =>
    have hl' : OnlyNL cs := fun d hd => hl d (List.mem_cons_of_mem _ hd)
    have hst := stripComment_clean none cur.reverse (by simpa using hcur) hc
    by_cases hn : c = '\n'
    · subst hn
      rw [splitlinesAux_nl, List.map_cons, hst]
      have hs' : clean none cs := by
        unfold clean at hs; simpa using hs
      have := ih [] (by simp) trivial (by simpa [endQ] using hs') hl'
      cases cs with
      | nil => simp [splitlinesAux, joinLines, chompNL]
      | cons d ds =>
        rw [joinLines_cons (by simpa using splitlinesAux_ne_nil [] (d :: ds) (Or.inl (by simp))), this,
          chompNL_cons (c := '\n') (cs := d :: ds) (by simp)]
        rfl
    · have hlb : lineBreak c = false := by
        cases h : lineBreak c with
        | false => rfl
        | true => exact absurd (hl c (by simp) h) hn
      rw [splitlinesAux_plain _ _ hlb]
      have happ : clean (endQ none cur.reverse) ([c] ++ cs) := hs
      rw [clean_append] at happ
      have := ih (c :: cur) (by simpa using ⟨fun e => hn e.symm, hcur⟩)
        (by rw [List.reverse_cons, clean_append]; exact ⟨hc, happ.1⟩)
        (by rw [List.reverse_cons, endQ_append]; exact happ.2) hl'
      rw [this]
      cases cs with
      | nil => simp [chompNL, hn]
      | cons d ds =>
        rw [chompNL_cons (c := c) (cs := d :: ds) (by simp)]
        simp [-List.cons_append, List.append_assoc]

theorem preprocess_clean (s : Str) (hs : clean none s) (hl : OnlyNL s) : preprocess s = chompNL s :=
  preprocess_aux s [] (by simp) trivial (by simpa [endQ] using hs) hl

theorem clean_joinLines (L : List Str) (h : ∀ l ∈ L, clean none l) : clean none (joinLines L) := by
  induction L with
  | nil => trivial
  | cons l ls ih =>
    have h1 := h l (by simp)
    have h2 := ih fun m hm => h m (by simp [hm])
    by_cases hls : ls = []
    · subst hls; exact h1
    · rw [joinLines_cons hls, clean_append]
      exact ⟨h1, by unfold clean; simpa using h2⟩

theorem onlyNL_joinLines (L : List Str) (h : ∀ l ∈ L, OnlyNL l) : OnlyNL (joinLines L) := by
  induction L with
  | nil => intro c hc; simp [joinLines] at hc
  | cons l ls ih =>
    have h1 := h l (by simp)
    have h2 := ih fun m hm => h m (by simp [hm])
    by_cases hls : ls = []
    · subst hls; exact h1
    · rw [joinLines_cons hls]
      intro c hc hb
      simp only [List.mem_append, List.mem_cons] at hc
      rcases hc with hc | hc | hc
      · exact h1 c hc hb
      · exact hc
      · exact h2 c hc hb

/-- A quoted span: from outside quotes back to outside quotes. -/
theorem endQ_inside (x : Char) (m : Str) (hx : x ∉ m) (hn : '\n' ∉ m) :
    clean (some x) m ∧ endQ (some x) m = some x := by
  induction m with
  | nil => exact ⟨trivial, rfl⟩
  | cons c cs ih =>
    simp only [List.mem_cons, not_or] at hx hn
    have := ih hx.2 hn.2
    have e1 : c ≠ '\n' := fun e => hn.1 e.symm
    have e2 : c ≠ x := fun e => hx.1 e.symm
    unfold clean endQ
    simp only [if_neg e1, if_neg e2]
    exact this

theorem clean_plain (s : Str) (h : ∀ c ∈ s, isQuote c = false ∧ c ≠ '!') :
    clean none s ∧ endQ none s = none := by
  induction s with
  | nil => exact ⟨trivial, rfl⟩
  | cons c cs ih =>
    have h1 := h c (by simp)
    have := ih fun d hd => h d (by simp [hd])
    unfold clean endQ
    by_cases hn : c = '\n'
    · rw [if_pos hn, if_pos hn]; exact this
    · rw [if_neg hn, if_neg hn]
      simp only [h1.1, Bool.false_eq_true, if_false]
      exact ⟨⟨h1.2, this.1⟩, this.2⟩

end Verif.Deck
