import Verif.Model.OsirisCanned
import Mathlib.Data.List.Basic
import Mathlib.Tactic.Tauto

/-!
Labels of OSIRIS figures (C223).
-/
namespace Verif.OsirisCanned
open Verif

/-- What marks a label as mathematics for `_tex`. -/
def TexMark (c : Char) : Prop := c = '\\' ∨ c = '_' ∨ c = '^' ∨ c = '/'
/-- What marks a word as mathematics for `_label_tex`. -/
def WordMark (c : Char) : Prop := c = '\\' ∨ c = '_' ∨ c = '^' ∨ c = '{' ∨ c = '}'

theorem delimited_wrap (s : Str) : delimited ('$' :: (s ++ ['$'])) = true := by
  unfold delimited
  rw [← List.cons_append, List.getLast?_append]
  simp

theorem tex_cases (s : Str) :
    (s ≠ [] ∧ delimited s = false ∧ (∃ c ∈ s, TexMark c) ∧ tex s = '$' :: (s ++ ['$'])) ∨
    ((s = [] ∨ delimited s = true ∨ ∀ c ∈ s, ¬TexMark c) ∧ tex s = s) := by
  unfold tex
  split_ifs with h1 h2
  · right
    rw [Bool.or_eq_true] at h1
    exact ⟨by rcases h1 with h | h; exacts [Or.inl (by simpa using h), Or.inr (Or.inl h)], rfl⟩
  · left
    simp only [Bool.or_eq_true, not_or, Bool.not_eq_true] at h1
    refine ⟨by simpa using h1.1, h1.2, ?_, rfl⟩
    obtain ⟨c, hc, h⟩ := List.any_eq_true.1 h2
    exact ⟨c, hc, by unfold TexMark; simpa [or_assoc] using h⟩
  · right
    refine ⟨Or.inr (Or.inr fun c hc h => h2 (List.any_eq_true.2 ⟨c, hc, ?_⟩)), rfl⟩
    unfold TexMark at h; simpa [or_assoc] using h

/-- **A label can be wrapped any number of times.** -/
theorem tex_idempotent (s : Str) : tex (tex s) = tex s := by
  rcases tex_cases s with ⟨-, -, -, h⟩ | ⟨-, h⟩
  · rw [h]
    unfold tex
    rw [if_pos (by rw [delimited_wrap]; simp)]
  · rw [h, h]

/-- A label with markup becomes mathematics as a whole, a plain one stays as it is, whatever it is. -/
theorem tex_math (s : Str) (h : '$' ∉ s) :
    ((∃ c ∈ s, TexMark c) → tex s = '$' :: (s ++ ['$'])) ∧ ((∀ c ∈ s, ¬TexMark c) → tex s = s) := by
  have hd : delimited s = false := by
    unfold delimited
    cases s with
    | nil => rfl
    | cons a s =>
      have : a ≠ '$' := fun e => h (by simp [e])
      simp [this]
  rcases tex_cases s with ⟨-, -, h1, h2⟩ | ⟨h1, h2⟩
  · exact ⟨fun _ => h2, fun h3 => by obtain ⟨c, hc, hm⟩ := h1; exact absurd hm (h3 c hc)⟩
  · refine ⟨?_, fun _ => h2⟩
    rintro ⟨c, hc, hm⟩
    rcases h1 with rfl | h1 | h1
    · simp at hc
    · rw [hd] at h1; cases h1
    · exact absurd hm (h1 c hc)

/-! ### Words -/

theorem split_ne (s : Str) : splitBlank s ≠ [] := by
  cases s with
  | nil => simp [splitBlank]
  | cons c cs =>
    rw [splitBlank]
    split_ifs
    · simp
    · split <;> simp

/-- Splitting at blanks and joining gives back the text. -/
theorem join_split (s : Str) : joinBlank (splitBlank s) = s := by
  induction s with
  | nil => rfl
  | cons c cs ih =>
    rw [splitBlank]
    split_ifs with h
    · cases hs : splitBlank cs with
      | nil => exact absurd hs (split_ne cs)
      | cons w ws => rw [hs] at ih; show [] ++ ' ' :: joinBlank (w :: ws) = _; rw [ih, h]; rfl
    · cases hs : splitBlank cs with
      | nil => exact absurd hs (split_ne cs)
      | cons w ws =>
        rw [hs] at ih
        simp only
        cases ws with
        | nil => rw [← ih]; rfl
        | cons v vs => rw [← ih]; rfl

theorem split_no_blank (s : Str) : ∀ w ∈ splitBlank s, ' ' ∉ w := by
  induction s with
  | nil => simp [splitBlank]
  | cons c cs ih =>
    rw [splitBlank]
    split_ifs with h
    · intro w hw
      rcases List.mem_cons.1 hw with rfl | hw
      · simp
      · exact ih w hw
    · cases hs : splitBlank cs with
      | nil => exact absurd hs (split_ne cs)
      | cons v vs =>
        rw [hs] at ih
        intro w hw
        rcases List.mem_cons.1 hw with rfl | hw
        · have := ih v (by simp)
          simp only [List.mem_cons, not_or]
          exact ⟨fun e => h e.symm, this⟩
        · exact ih w (by simp [hw])

/-- Joining words without blanks and splitting gives back the words. -/
theorem split_join (ws : List Str) (hne : ws ≠ []) (h : ∀ w ∈ ws, ' ' ∉ w) : splitBlank (joinBlank ws) = ws := by
  have h1 : ∀ w : Str, ' ' ∉ w → splitBlank w = [w] := by
    intro w
    induction w with
    | nil => intro _; rfl
    | cons a w ih =>
      intro hw
      have ha : ¬a = ' ' := fun e => hw (by simp [e])
      rw [splitBlank, if_neg ha, ih fun e => hw (by simp [e])]
  have h2 : ∀ (w rest : Str), ' ' ∉ w → splitBlank (w ++ ' ' :: rest) = w :: splitBlank rest := by
    intro w rest
    induction w with
    | nil => intro _; rw [List.nil_append, splitBlank, if_pos rfl]
    | cons a w ih =>
      intro hw
      have ha : ¬a = ' ' := fun e => hw (by simp [e])
      rw [List.cons_append, splitBlank, if_neg ha, ih fun e => hw (by simp [e])]
  induction ws with
  | nil => exact absurd rfl hne
  | cons w ws ih =>
    cases ws with
    | nil => exact h1 w (h w (by simp))
    | cons v vs =>
      show splitBlank (w ++ ' ' :: joinBlank (v :: vs)) = _
      rw [h2 w _ (h w (by simp)), ih (by simp) fun x hx => h x (by simp [hx])]

theorem tokTex_cases (w : Str) :
    ((∃ c ∈ w, WordMark c) ∧ tokTex w = '$' :: (w ++ ['$'])) ∨ ((∀ c ∈ w, ¬WordMark c) ∧ tokTex w = w) := by
  unfold tokTex
  split_ifs with h
  · left
    obtain ⟨c, hc, h⟩ := List.any_eq_true.1 h
    exact ⟨⟨c, hc, by unfold WordMark; simpa [or_assoc] using h⟩, rfl⟩
  · right
    refine ⟨fun c hc hm => h (List.any_eq_true.2 ⟨c, hc, ?_⟩), rfl⟩
    unfold WordMark at hm; simpa [or_assoc] using hm

/-- **A label is rendered word by word**: the words of the rendered label are those of the label, the ones with markup
wrapped and the others unchanged. -/
theorem label_words (s : Str) (hd : delimited s = false) :
    splitBlank (labelTex s) = (splitBlank s).map tokTex ∧
      ∀ w ∈ splitBlank s, ((∃ c ∈ w, WordMark c) → tokTex w = '$' :: (w ++ ['$'])) ∧ ((∀ c ∈ w, ¬WordMark c) → tokTex w = w) := by
  constructor
  · cases s with
    | nil => rfl
    | cons a s =>
      unfold labelTex
      rw [if_neg (by simp [hd])]
      apply split_join
      · simpa using split_ne (a :: s)
      · intro w hw
        obtain ⟨v, hv, rfl⟩ := List.mem_map.1 hw
        have := split_no_blank _ v hv
        rcases tokTex_cases v with ⟨-, h⟩ | ⟨-, h⟩
        · rw [h]; simpa using this
        · rw [h]; exact this
  · intro w _
    rcases tokTex_cases w with ⟨⟨c, hc, hm⟩, h⟩ | ⟨h1, h⟩
    · exact ⟨fun _ => h, fun h2 => absurd hm (h2 c hc)⟩
    · exact ⟨fun ⟨c, hc, hm⟩ => absurd hm (h1 c hc), fun _ => h⟩

theorem filter_join (ws : List Str) : (joinBlank ws).filter (fun c => decide (c ≠ '$')) =
    joinBlank (ws.map fun w => w.filter fun c => decide (c ≠ '$')) := by
  induction ws with
  | nil => rfl
  | cons w ws ih =>
    cases ws with
    | nil => rfl
    | cons v vs =>
      show (w ++ ' ' :: joinBlank (v :: vs)).filter _ = _
      rw [List.filter_append, List.filter_cons_of_pos (by decide), ih]; rfl

theorem count_join (ws : List Str) : (joinBlank ws).count '$' = (ws.map (List.count '$')).sum := by
  induction ws with
  | nil => rfl
  | cons w ws ih =>
    cases ws with
    | nil => simp [joinBlank]
    | cons v vs =>
      show (w ++ ' ' :: joinBlank (v :: vs)).count '$' = _
      rw [List.count_append, List.count_cons_of_ne (by decide), ih]; rfl

theorem filter_self (w : Str) (h : '$' ∉ w) : w.filter (fun c => decide (c ≠ '$')) = w := by
  rw [List.filter_eq_self]
  intro c hc
  simp only [ne_eq, decide_eq_true_eq]
  rintro rfl
  exact h hc

/-- **Nothing of the text is lost or added but the delimiters, and they are balanced**, for a label without dollars. -/
theorem labels_faithful (s : Str) (h : '$' ∉ s) :
    (tex s).filter (fun c => decide (c ≠ '$')) = s ∧ (labelTex s).filter (fun c => decide (c ≠ '$')) = s ∧
      (tex s).count '$' % 2 = 0 ∧ (labelTex s).count '$' % 2 = 0 := by
  have h0 : s.count '$' = 0 := List.count_eq_zero.2 h
  have hw : ∀ w ∈ splitBlank s, '$' ∉ w := by
    have : ∀ ws : List Str, '$' ∉ joinBlank ws → ∀ w ∈ ws, '$' ∉ w := by
      intro ws
      induction ws with
      | nil => simp
      | cons w ws ih =>
        cases ws with
        | nil => intro h x hx; rw [List.mem_singleton.1 hx]; exact h
        | cons v vs =>
          intro h x hx
          have h' : '$' ∉ w ++ ' ' :: joinBlank (v :: vs) := h
          simp only [List.mem_append, List.mem_cons, not_or] at h'
          rcases List.mem_cons.1 hx with rfl | hx
          · exact h'.1
          · exact ih (by simpa using h'.2.2) x hx
    exact this _ (by rw [join_split]; exact h)
  refine ⟨?_, ?_, ?_, ?_⟩
  · rcases tex_cases s with ⟨-, -, -, e⟩ | ⟨-, e⟩
    · rw [e, List.filter_cons_of_neg (by decide), List.filter_append, filter_self s h, List.filter_cons_of_neg (by decide)]; simp
    · rw [e, filter_self s h]
  · unfold labelTex
    split_ifs
    · exact filter_self s h
    · rw [filter_join, List.map_map]
      have : (splitBlank s).map ((fun w => w.filter fun c => decide (c ≠ '$')) ∘ tokTex) = splitBlank s := by
        conv_rhs => rw [← List.map_id (splitBlank s)]
        refine List.map_congr_left fun w hwm => ?_
        simp only [Function.comp, id]
        rcases tokTex_cases w with ⟨-, e⟩ | ⟨-, e⟩
        · rw [e, List.filter_cons_of_neg (by decide), List.filter_append, filter_self w (hw w hwm),
            List.filter_cons_of_neg (by decide)]; simp
        · rw [e, filter_self w (hw w hwm)]
      rw [this, join_split]
  · rcases tex_cases s with ⟨-, -, -, e⟩ | ⟨-, e⟩
    · rw [e]; simp [List.count_cons, List.count_append, h0]
    · rw [e, h0]
  · unfold labelTex
    split_ifs
    · rw [h0]
    · rw [count_join]
      have : ∀ ws : List Str, (∀ w ∈ ws, '$' ∉ w) → ((ws.map tokTex).map (List.count '$')).sum % 2 = 0 := by
        intro ws
        induction ws with
        | nil => intro _; rfl
        | cons w ws ih =>
          intro h
          have h0 : w.count '$' = 0 := List.count_eq_zero.2 (h w (by simp))
          have i := ih fun x hx => h x (by simp [hx])
          simp only [List.map_cons, List.sum_cons]
          rcases tokTex_cases w with ⟨-, e⟩ | ⟨-, e⟩
          · rw [e]
            have : ('$' :: (w ++ ['$'])).count '$' = 2 := by simp [List.count_cons, List.count_append, h0]
            omega
          · rw [e]; omega
      exact this _ hw

/-- For one word of mathematics both renderings agree. -/
theorem label_single (s : Str) (hb : ' ' ∉ s) (c : Char) (hc : c ∈ s) (hm : c = '\\' ∨ c = '_' ∨ c = '^') : labelTex s = tex s := by
  unfold labelTex tex
  split_ifs with h1 h2
  · rfl
  · have : splitBlank s = [s] := split_join [s] (by simp) (by simpa using hb)
    rw [this]
    show tokTex s = _
    rcases tokTex_cases s with ⟨-, e⟩ | ⟨e, -⟩
    · exact e
    · exact absurd (by unfold WordMark; tauto) (e c hc)
  · exfalso
    apply h2
    rw [List.any_eq_true]
    exact ⟨c, hc, by rcases hm with rfl | rfl | rfl <;> decide⟩

/-- **What is missing**: a fraction such as `1/c` is mathematics in a unit and plain text in a label, and a label that has
dollars of its own somewhere inside is wrapped around them, which turns its mathematics into text. -/
theorem label_slash_partial : tex ['1', '/', 'c'] = ['$', '1', '/', 'c', '$'] ∧ labelTex ['1', '/', 'c'] = ['1', '/', 'c'] ∧
    tex ['a', '/', '$', 'x', '$'] = ['$', 'a', '/', '$', 'x', '$', '$'] := by decide

/-- `species 1 p_1x_1`. -/
example : labelTex ['s', 'p', ' ', '1', ' ', 'p', '_', '1'] = ['s', 'p', ' ', '1', ' ', '$', 'p', '_', '1', '$'] := by decide

end Verif.OsirisCanned
