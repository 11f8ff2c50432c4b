import Verif.Model.VfpInit
import Verif.Props.PicLoad
import Verif.Props.TwoFluidExtra

/-! C187: profiles from two-column files. -/
namespace Verif.VfpInit

/-! ### Specification: what a file looks like -/

/-- The cells of a line written with a separator. -/
def joinSep (sep : Char) : List (List Char) → List Char
  | [] => []
  | [a] => a
  | a :: b :: l => a ++ sep :: joinSep sep (b :: l)

/-- A line of a profile file: blanks, a comment, or a row of cells, possibly followed by a comment. -/
inductive Line where
  | blank (n : ℕ)
  | comment (n : ℕ) (text : List Char)
  | row (cells : List (List Char)) (a b : List Char)

/-- The line as text; `eol` is what ends a line. -/
def Line.text (sep : Char) (eol : List Char) : Line → List Char
  | .blank n => List.replicate n ' ' ++ eol
  | .comment n t => List.replicate n ' ' ++ '#' :: (t ++ eol)
  | .row cs a b => joinSep sep (cs ++ [a, b]) ++ eol

def isBlank (c : Char) : Bool := c == ' ' || c == '\r' || c == '\n'

/-- A cell that can be told apart from its neighbours: not empty, no `#`, no comma, no blank at its ends; inside a
file separated by spaces or tabs, no white space at all. -/
def Clean (sep : Char) (t : List Char) : Prop :=
  t ≠ [] ∧ '#' ∉ t ∧ ',' ∉ t ∧ (∀ c ∈ t.head?, isBlank c = false) ∧ (∀ c ∈ t.getLast?, isBlank c = false) ∧
    (sep ≠ ',' → ∀ c ∈ t, c.isWhitespace = false)

/-- The pairs of numbers in the last two columns, rows without them left out. -/
def numbers (num : List Char → Option ℝ) : List Line → List (ℝ × ℝ)
  | [] => []
  | .row _ a b :: l =>
    match num a, num b with
    | some x, some y => (x, y) :: numbers num l
    | _, _ => numbers num l
  | _ :: l => numbers num l

def Line.isRow : Line → Bool
  | .row .. => true
  | _ => false

/-- A well-formed file: rows of clean cells, all with the same number `w` of leading cells. -/
def Formed (sep : Char) (w : ℕ) (ls : List Line) : Prop :=
  ∀ l ∈ ls, match l with
    | .row cs a b => cs.length = w ∧ ∀ t ∈ cs ++ [a, b], Clean sep t
    | _ => True

/-! ### Proofs -/

theorem takeWhile_clean (s : List Char) (h : '#' ∉ s) : s.takeWhile (· ≠ '#') = s := by
  induction s with
  | nil => rfl
  | cons a l ih =>
    rw [List.takeWhile_cons_of_pos (by simp only [ne_eq, decide_eq_true_eq]; rintro rfl; exact h (by simp)),
      ih fun hc => h (List.mem_cons_of_mem _ hc)]

theorem dropWhile_head (p : Char → Bool) (s : List Char) (h : ∀ c ∈ s.head?, p c = false) : s.dropWhile p = s := by
  cases s with
  | nil => rfl
  | cons a l =>
    have := h a (by simp)
    rw [List.dropWhile_cons_of_neg (by simp [this])]

theorem dropWhile_all (p : Char → Bool) (s t : List Char) (h : ∀ c ∈ s, p c = true) : (s ++ t).dropWhile p = t.dropWhile p := by
  induction s with
  | nil => rfl
  | cons a l ih =>
    rw [List.cons_append, List.dropWhile_cons_of_pos (h a (by simp))]
    exact ih fun c hc => h c (by simp [hc])

theorem cut_eq (line : List Char) :
    cut line = ((((line.takeWhile (· ≠ '#')).dropWhile isBlank).reverse).dropWhile isBlank).reverse := rfl

theorem cut_body (body eol : List Char) (h : '#' ∉ body) (he : ∀ c ∈ eol, c = '\r' ∨ c = '\n')
    (h0 : ∀ c ∈ body.head?, isBlank c = false) (hne : body ≠ []) (h1 : ∀ c ∈ body.getLast?, isBlank c = false) :
    cut (body ++ eol) = body := by
  have hb : ∀ c ∈ eol, isBlank c = true := fun c hc => by rcases he c hc with rfl | rfl <;> rfl
  rw [cut_eq, takeWhile_clean]
  · rw [dropWhile_head isBlank (body ++ eol)]
    · rw [List.reverse_append, dropWhile_all isBlank _ _ fun c hc => hb c (List.mem_reverse.1 hc), dropWhile_head, List.reverse_reverse]
      intro c hc
      rw [List.head?_reverse] at hc
      exact h1 c hc
    · intro c hc
      cases body with
      | nil => exact absurd rfl hne
      | cons a l => exact h0 c (by simpa using hc)
  · rw [List.mem_append]
    rintro (h' | h')
    · exact h h'
    · rcases he _ h' with e | e <;> exact absurd e (by decide)

theorem cut_blank (n : ℕ) (eol : List Char) (he : ∀ c ∈ eol, c = '\r' ∨ c = '\n') : cut (List.replicate n ' ' ++ eol) = [] := by
  have hall : ∀ c ∈ List.replicate n ' ' ++ eol, c = ' ' ∨ c = '\r' ∨ c = '\n' := by
    intro c hc
    rcases List.mem_append.1 hc with hc | hc
    · exact .inl (List.eq_of_mem_replicate hc)
    · exact .inr (he c hc)
  rw [cut_eq, takeWhile_clean]
  · have : (List.replicate n ' ' ++ eol).dropWhile isBlank = [] := by
      have := dropWhile_all isBlank (List.replicate n ' ' ++ eol) [] fun c hc => by
        rcases hall c hc with rfl | rfl | rfl <;> rfl
      simpa using this
    rw [this]; rfl
  · intro hc
    rcases hall _ hc with e | e | e <;> exact absurd e (by decide)

theorem cut_comment (n : ℕ) (t : List Char) : cut (List.replicate n ' ' ++ '#' :: t) = [] := by
  have e : (List.replicate n ' ' ++ '#' :: t).takeWhile (· ≠ '#') = List.replicate n ' ' := by
    induction n with
    | zero => rfl
    | succ n ih =>
      rw [List.replicate_succ, List.cons_append, List.takeWhile_cons_of_pos (by decide), ih]
  rw [cut_eq, e]
  have : (List.replicate n ' ').dropWhile isBlank = [] := by
    have := dropWhile_all isBlank (List.replicate n ' ') [] fun c hc => by
      rw [List.eq_of_mem_replicate hc]; rfl
    simpa using this
  rw [this]; rfl

theorem mem_joinSep (sep : Char) (c : Char) (ts : List (List Char)) (h : c ∈ joinSep sep ts) : c = sep ∨ ∃ t ∈ ts, c ∈ t := by
  induction ts with
  | nil => simp [joinSep] at h
  | cons a l ih =>
    cases l with
    | nil => exact .inr ⟨a, by simp, h⟩
    | cons b l =>
      rw [joinSep, List.mem_append, List.mem_cons] at h
      rcases h with h | h | h
      · exact .inr ⟨a, by simp, h⟩
      · exact .inl h
      · rcases ih h with h | ⟨t, ht, hc⟩
        · exact .inl h
        · exact .inr ⟨t, List.mem_cons_of_mem _ ht, hc⟩

theorem joinSep_ne (sep : Char) (ts : List (List Char)) (h0 : ts ≠ []) (h : ∀ t ∈ ts, t ≠ []) : joinSep sep ts ≠ [] := by
  cases ts with
  | nil => exact absurd rfl h0
  | cons a l =>
    have := h a (by simp)
    cases l with
    | nil => exact this
    | cons b l => simp [joinSep]

theorem joinSep_head (sep : Char) (ts : List (List Char)) (h : ∀ t ∈ ts, t ≠ [] ∧ ∀ c ∈ t.head?, isBlank c = false) :
    ∀ c ∈ (joinSep sep ts).head?, isBlank c = false := by
  cases ts with
  | nil => intro c hc; simp [joinSep] at hc
  | cons a l =>
    obtain ⟨ha, hh⟩ := h a (by simp)
    cases l with
    | nil => exact hh
    | cons b l =>
      intro c hc
      rw [joinSep] at hc
      cases a with
      | nil => exact absurd rfl ha
      | cons x a => exact hh c (by simpa using hc)

theorem joinSep_last (sep : Char) (ts : List (List Char)) (h : ∀ t ∈ ts, t ≠ [] ∧ ∀ c ∈ t.getLast?, isBlank c = false) :
    ∀ c ∈ (joinSep sep ts).getLast?, isBlank c = false := by
  induction ts with
  | nil => intro c hc; simp [joinSep] at hc
  | cons a l ih =>
    cases l with
    | nil => exact (h a (by simp)).2
    | cons b l =>
      intro c hc
      have hne : joinSep sep (b :: l) ≠ [] := joinSep_ne sep _ (by simp) fun t ht => (h t (List.mem_cons_of_mem _ ht)).1
      rw [joinSep, List.getLast?_append_of_ne_nil _ (by simp), List.getLast?_cons_of_ne_nil hne] at hc
      exact ih (fun t ht => h t (List.mem_cons_of_mem _ ht)) c hc

theorem split_joinSep (p : Char → Bool) (sep : Char) (hp : p sep = true) (ts : List (List Char)) (h0 : ts ≠ [])
    (h : ∀ t ∈ ts, ∀ c ∈ t, p c = false) : (joinSep sep ts).splitOnP p = ts := by
  induction ts with
  | nil => exact absurd rfl h0
  | cons a l ih =>
    cases l with
    | nil => exact List.splitOnP_eq_singleton (h a (by simp))
    | cons b l =>
      rw [joinSep, List.splitOnP_append_cons a _ hp, List.splitOnP_eq_singleton (h a (by simp)),
        ih (by simp) fun t ht => h t (List.mem_cons_of_mem _ ht)]
      rfl

/-- Separators of the two kinds of file. -/
def Separator (sep : Char) : Prop := sep = ',' ∨ sep = ' ' ∨ sep = '\t'

theorem cut_row (sep : Char) (hs : Separator sep) (eol : List Char) (he : ∀ c ∈ eol, c = '\r' ∨ c = '\n') (ts : List (List Char))
    (h0 : ts ≠ []) (h : ∀ t ∈ ts, Clean sep t) : cut (joinSep sep ts ++ eol) = joinSep sep ts := by
  refine cut_body _ _ ?_ he (joinSep_head sep ts fun t ht => ⟨(h t ht).1, (h t ht).2.2.2.1⟩)
    (joinSep_ne sep ts h0 fun t ht => (h t ht).1) (joinSep_last sep ts fun t ht => ⟨(h t ht).1, (h t ht).2.2.2.2.1⟩)
  intro hc
  rcases mem_joinSep sep _ ts hc with e | ⟨t, ht, hc⟩
  · rcases hs with rfl | rfl | rfl <;> exact absurd e (by decide)
  · exact (h t ht).2.1 hc

theorem tokens_row (sep : Char) (hs : Separator sep) (eol : List Char) (he : ∀ c ∈ eol, c = '\r' ∨ c = '\n') (ts : List (List Char))
    (h0 : ts ≠ []) (h : ∀ t ∈ ts, Clean sep t) : tokens (decide (sep = ',')) (joinSep sep ts ++ eol) = ts := by
  unfold tokens
  rw [cut_row sep hs eol he ts h0 h, if_neg (joinSep_ne sep ts h0 fun t ht => (h t ht).1)]
  by_cases hc : sep = ','
  · subst hc
    rw [decide_eq_true rfl, if_pos rfl]
    refine split_joinSep _ ',' (by decide) ts h0 fun t ht c hc => ?_
    simp only [beq_eq_false_iff_ne, ne_eq]
    rintro rfl
    exact (h t ht).2.2.1 hc
  · rw [decide_eq_false hc, if_neg (by decide)]
    have hw : sep.isWhitespace = true := by
      rcases hs with rfl | rfl | rfl
      · exact absurd rfl hc
      · decide
      · decide
    rw [split_joinSep Char.isWhitespace sep hw ts h0 fun t ht => (h t ht).2.2.2.2.2 hc, List.filter_eq_self]
    intro t ht
    simpa using (h t ht).1

theorem tokens_comma (sep : Char) (hs : Separator sep) (hc : sep ≠ ',') (eol : List Char) (he : ∀ c ∈ eol, c = '\r' ∨ c = '\n')
    (ts : List (List Char)) (h0 : ts ≠ []) (h : ∀ t ∈ ts, Clean sep t) : tokens true (joinSep sep ts ++ eol) = [joinSep sep ts] := by
  unfold tokens
  rw [cut_row sep hs eol he ts h0 h, if_neg (joinSep_ne sep ts h0 fun t ht => (h t ht).1), if_pos rfl]
  refine List.splitOnP_eq_singleton fun c hcm => ?_
  simp only [beq_eq_false_iff_ne, ne_eq]
  rintro rfl
  rcases mem_joinSep sep _ ts hcm with e | ⟨t, ht, hm⟩
  · exact hc e.symm
  · exact (h t ht).2.2.1 hm

/-- The rows of cells of a file. -/
def cellRows : List Line → List (List (List Char))
  | [] => []
  | .row cs a b :: l => (cs ++ [a, b]) :: cellRows l
  | _ :: l => cellRows l

theorem rows_eq (sep : Char) (hs : Separator sep) (eol : List Char) (he : ∀ c ∈ eol, c = '\r' ∨ c = '\n') (w : ℕ) (ls : List Line)
    (hf : Formed sep w ls) :
    ((ls.map (Line.text sep eol)).map (tokens (decide (sep = ',')))).filter (· ≠ []) = cellRows ls := by
  induction ls with
  | nil => rfl
  | cons l ls ih =>
    have ih' := ih fun x hx => hf x (List.mem_cons_of_mem _ hx)
    cases l with
    | blank n =>
      have : tokens (decide (sep = ',')) (Line.text sep eol (.blank n)) = [] := by
        unfold tokens Line.text; rw [cut_blank n eol he]; rfl
      simp only [List.map_cons, this, cellRows]
      rw [List.filter_cons_of_neg (by simp)]
      exact ih'
    | comment n t =>
      have : tokens (decide (sep = ',')) (Line.text sep eol (.comment n t)) = [] := by
        unfold tokens Line.text; rw [cut_comment n]; rfl
      simp only [List.map_cons, this, cellRows]
      rw [List.filter_cons_of_neg (by simp)]
      exact ih'
    | row cs a b =>
      have hr := hf (.row cs a b) (by simp)
      have : tokens (decide (sep = ',')) (Line.text sep eol (.row cs a b)) = cs ++ [a, b] :=
        tokens_row sep hs eol he _ (by simp) hr.2
      simp only [List.map_cons, this, cellRows]
      rw [List.filter_cons_of_pos (by simp), ih']

theorem comma_rows (sep : Char) (hs : Separator sep) (hc : sep ≠ ',') (eol : List Char) (he : ∀ c ∈ eol, c = '\r' ∨ c = '\n') (w : ℕ)
    (ls : List Line) (hf : Formed sep w ls) :
    ∀ r ∈ ((ls.map (Line.text sep eol)).map (tokens true)).filter (· ≠ []), r.length = 1 := by
  intro r hr
  rw [List.mem_filter] at hr
  obtain ⟨hm, hne⟩ := hr
  rw [List.map_map] at hm
  obtain ⟨l, hl, rfl⟩ := List.mem_map.1 hm
  cases l with
  | blank n =>
    have : (tokens true ∘ Line.text sep eol) (.blank n) = [] := by
      unfold Function.comp tokens Line.text; rw [cut_blank n eol he]; rfl
    rw [this] at hne; simp at hne
  | comment n t =>
    have : (tokens true ∘ Line.text sep eol) (.comment n t) = [] := by
      unfold Function.comp tokens Line.text; rw [cut_comment n]; rfl
    rw [this] at hne; simp at hne
  | row cs a b =>
    have : (tokens true ∘ Line.text sep eol) (.row cs a b) = [_] :=
      tokens_comma sep hs hc eol he _ (by simp) (hf (.row cs a b) hl).2
    rw [this]; rfl

theorem width_rows (sep : Char) (w : ℕ) (ls : List Line) (hf : Formed sep w ls) : ∀ r ∈ cellRows ls, r.length = w + 2 := by
  induction ls with
  | nil => intro r hr; simp [cellRows] at hr
  | cons l ls ih =>
    have ih' := ih fun x hx => hf x (List.mem_cons_of_mem _ hx)
    cases l with
    | blank n => exact ih'
    | comment n t => exact ih'
    | row cs a b =>
      intro r hr
      rcases List.mem_cons.1 hr with rfl | hr
      · have := (hf (.row cs a b) (by simp)).1
        simp [this]
      · exact ih' r hr

theorem count_rows (ls : List Line) : (cellRows ls).length = (ls.filter Line.isRow).length := by
  induction ls with
  | nil => rfl
  | cons l ls ih =>
    cases l with
    | blank n => exact ih
    | comment n t => exact ih
    | row cs a b => rw [cellRows, List.length_cons, ih, List.filter_cons_of_pos (by rfl), List.length_cons]

theorem lastTwo_row (num : List Char → Option ℝ) (cs : List (List Char)) (a b : List Char) :
    lastTwo num (cs ++ [a, b]) = (num a).bind fun x => (num b).map fun y => (x, y) := by
  unfold lastTwo
  rw [List.reverse_append]
  rfl

theorem filterMap_rows (num : List Char → Option ℝ) (ls : List Line) : (cellRows ls).filterMap (lastTwo num) = numbers num ls := by
  induction ls with
  | nil => rfl
  | cons l ls ih =>
    cases l with
    | blank n => exact ih
    | comment n t => exact ih
    | row cs a b =>
      rw [cellRows, List.filterMap_cons, lastTwo_row, ih, numbers]
      cases num a <;> cases num b <;> rfl

theorem candidate_own (sep : Char) (hs : Separator sep) (eol : List Char) (he : ∀ c ∈ eol, c = '\r' ∨ c = '\n') (w : ℕ)
    (ls : List Line) (hf : Formed sep w ls) (h2 : 2 ≤ (ls.filter Line.isRow).length) :
    candidate (decide (sep = ',')) (ls.map (Line.text sep eol)) = some (cellRows ls) := by
  unfold candidate
  rw [rows_eq sep hs eol he w ls hf]
  have hw := width_rows sep w ls hf
  have hc := count_rows ls
  have hhd : ((cellRows ls).headD []).length = w + 2 := by
    cases hr : cellRows ls with
    | nil => rw [hr] at hc; simp at hc; omega
    | cons a l => exact hw a (by rw [hr]; simp)
  dsimp only
  rw [hhd, if_pos]
  simp only [Bool.and_eq_true, List.all_eq_true, beq_iff_eq, decide_eq_true_eq]
  exact ⟨⟨hw, by omega⟩, by omega⟩

theorem candidate_comma (sep : Char) (hs : Separator sep) (hc : sep ≠ ',') (eol : List Char) (he : ∀ c ∈ eol, c = '\r' ∨ c = '\n') (w : ℕ)
    (ls : List Line) (hf : Formed sep w ls) : candidate true (ls.map (Line.text sep eol)) = none := by
  unfold candidate
  have h1 := comma_rows sep hs hc eol he w ls hf
  dsimp only
  rw [if_neg]
  simp only [Bool.and_eq_true, decide_eq_true_eq, not_and, not_le]
  intro _
  cases hr : ((ls.map (Line.text sep eol)).map (tokens true)).filter (· ≠ []) with
  | nil => simp
  | cons a l =>
    have := h1 a (by rw [hr]; simp)
    simp [this]

/-- C187: a well-formed file, separated by commas, spaces or tabs, with comments, blank lines, header rows and any number of
leading columns, is read as the list of its number pairs, in file order before sorting; it is rejected exactly when fewer
than two rows hold numbers in the last two columns. -/
theorem file_read (num : List Char → Option ℝ) (sep : Char) (hs : Separator sep) (eol : List Char)
    (he : ∀ c ∈ eol, c = '\r' ∨ c = '\n') (w : ℕ) (ls : List Line) (hf : Formed sep w ls) (h2 : 2 ≤ (ls.filter Line.isRow).length) :
    readRows num (ls.map (Line.text sep eol)) =
      if (numbers num ls).length < 2 then .error "ValueError: fewer than 2" else .ok (numbers num ls) := by
  unfold readRows
  have own := candidate_own sep hs eol he w ls hf h2
  have pick : ((candidate true (ls.map (Line.text sep eol))).orElse fun _ => candidate false (ls.map (Line.text sep eol))) = some (cellRows ls) := by
    by_cases hc : sep = ','
    · rw [decide_eq_true hc] at own; rw [own]; rfl
    · rw [decide_eq_false hc] at own
      rw [candidate_comma sep hs hc eol he w ls hf, own]; rfl
  rw [pick]
  dsimp only
  rw [filterMap_rows]

/-- C187: a file with a single row is rejected as unreadable, whatever the row holds;
so is a file with a single column. -/
theorem single_row_rejected (num : List Char → Option ℝ) (lines : List (List Char))
    (h : ∀ comma, ((lines.map (tokens comma)).filter (· ≠ [])).length < 2) : readRows num lines = .error "ValueError: could not parse" := by
  have hn : ∀ comma, candidate comma lines = none := by
    intro comma
    unfold candidate
    dsimp only
    rw [if_neg]
    simp only [Bool.and_eq_true, decide_eq_true_eq, not_and]
    intro h'
    have := h comma
    omega
  unfold readRows
  rw [hn, hn]
  rfl

/-! ### The profile on the grid -/

/-- Two orderings of the same rows with distinct coordinates are read alike. -/
theorem sorted_unique (p q : List (ℝ × ℝ)) (h : p.Perm q) (hp : (p.map Prod.fst).Pairwise (· ≤ ·)) (hq : (q.map Prod.fst).Pairwise (· ≤ ·))
    (hd : (p.map Prod.fst).Nodup) : p = q := by
  have key : ∀ l : List (ℝ × ℝ), (l.map Prod.fst).Pairwise (· ≤ ·) → (l.map Prod.fst).Nodup → l.Pairwise fun a b => a.1 < b.1 := by
    intro l hl hn
    rw [List.pairwise_map] at hl
    rw [List.nodup_iff_pairwise_ne, List.pairwise_map] at hn
    exact (hl.and hn).imp fun h => lt_of_le_of_ne h.1 h.2
  have hdq : (q.map Prod.fst).Nodup := (h.map Prod.fst).nodup_iff.1 hd
  exact h.eq_of_pairwise (fun a b _ _ h1 h2 => absurd h1 (lt_asymm h2)) (key p hp hd) (key q hq hdq)

/-- C187: the order of the rows in the file does not matter. -/
theorem order_irrelevant (num : List Char → Option ℝ) (ls ls' : List (List Char)) (p q r r' : List (ℝ × ℝ))
    (h1 : readRows num ls = .ok r) (h2 : readRows num ls' = .ok r') (hr : r.Perm r') (hd : (r.map Prod.fst).Nodup)
    (hp : Reads num ls p) (hq : Reads num ls' q) : p = q := by
  obtain ⟨a, ea, pa, sa⟩ := hp
  obtain ⟨b, eb, pb, sb⟩ := hq
  rw [h1] at ea; rw [h2] at eb
  cases ea; cases eb
  exact sorted_unique p q (pa.trans (hr.trans pb.symm)) sa sb ((pa.map Prod.fst).nodup_iff.2 hd)

theorem scaled_sorted (rows : List (ℝ × ℝ)) (c : ℝ) (hc : 0 < c) (hs : (rows.map Prod.fst).Pairwise (· ≤ ·)) (hd : (rows.map Prod.fst).Nodup) :
    ((rows.map fun r => (r.1 * c, r.2)).map Prod.fst).Pairwise (· < ·) := by
  rw [List.pairwise_map] at hs ⊢
  rw [List.nodup_iff_pairwise_ne, List.pairwise_map] at hd
  rw [List.pairwise_map]
  exact (hs.and hd).imp fun h => mul_lt_mul_of_pos_right (lt_of_le_of_ne h.1 h.2) hc

/-- C187: at a coordinate listed in the file the profile has the listed value, in the configured units; before the first
and after the last coordinate it keeps the end values; everywhere it lies between the smallest and the largest listed value. -/
theorem file_profile (rows : List (ℝ × ℝ)) (c s : ℝ) (hc : 0 < c) (hs : 0 < s) (hsort : (rows.map Prod.fst).Pairwise (· ≤ ·))
    (hd : (rows.map Prod.fst).Nodup) (hne : rows ≠ []) :
    (∀ r ∈ rows, (Profile.file rows c s).eval (r.1 * c) = .ok (r.2 * s)) ∧
    (∀ x, x ≤ (rows.head hne).1 * c → (Profile.file rows c s).eval x = .ok ((rows.head hne).2 * s)) ∧
    (∀ x, (rows.getLast hne).1 * c ≤ x → (Profile.file rows c s).eval x = .ok ((rows.getLast hne).2 * s)) ∧
    (∀ lo hi x, (∀ r ∈ rows, lo ≤ r.2 ∧ r.2 ≤ hi) → ∃ y, (Profile.file rows c s).eval x = .ok y ∧ lo * s ≤ y ∧ y ≤ hi * s) := by
  have hp := scaled_sorted rows c hc hsort hd
  have hne' : (rows.map fun r => (r.1 * c, r.2)) ≠ [] := by simpa using hne
  refine ⟨fun r hr => ?_, fun x hx => ?_, fun x hx => ?_, fun lo hi x h => ?_⟩
  · unfold Profile.eval
    have := TwoFluid.interp_node _ hp (r.1 * c, r.2) (List.mem_map.2 ⟨r, hr, rfl⟩)
    dsimp only at this ⊢
    rw [this]
  · unfold Profile.eval
    dsimp only
    cases rows with
    | nil => exact absurd rfl hne
    | cons a l =>
      rw [List.head_cons] at hx ⊢
      cases l with
      | nil => rfl
      | cons b l =>
        rw [List.map_cons, List.map_cons, PicLoad.interp, if_pos hx]
  · unfold Profile.eval
    have e : ((rows.map fun r => (r.1 * c, r.2)).getLast hne') = ((rows.getLast hne).1 * c, (rows.getLast hne).2) := List.getLast_map ..
    have := TwoFluid.interp_beyond _ hp hne' x (by rw [e]; exact hx)
    rw [e] at this
    dsimp only at this ⊢
    rw [this]
  · unfold Profile.eval
    have := PicLoad.interp_range lo hi x (rows.map fun r => (r.1 * c, r.2)) hne' fun p hp => by
      obtain ⟨r, hr, rfl⟩ := List.mem_map.1 hp
      exact h r hr
    exact ⟨_, rfl, mul_le_mul_of_nonneg_right this.1 hs.le, mul_le_mul_of_nonneg_right this.2 hs.le⟩

/-- C187: between two neighbouring coordinates the profile is the straight line through their values. -/
theorem file_linear (pre post : List (ℝ × ℝ)) (a b : ℝ × ℝ) (c s x : ℝ) (hc : 0 < c)
    (hsort : ((pre ++ a :: b :: post).map Prod.fst).Pairwise (· ≤ ·)) (hd : ((pre ++ a :: b :: post).map Prod.fst).Nodup)
    (h1 : a.1 * c ≤ x) (h2 : x < b.1 * c) :
    (Profile.file (pre ++ a :: b :: post) c s).eval x = .ok ((a.2 + (x - a.1 * c) * ((b.2 - a.2) / (b.1 * c - a.1 * c))) * s) := by
  have hp := scaled_sorted _ c hc hsort hd
  have key : ∀ l : List (ℝ × ℝ), ((l ++ (a.1 * c, a.2) :: (b.1 * c, b.2) :: post.map fun r => (r.1 * c, r.2)).map Prod.fst).Pairwise (· < ·) →
      PicLoad.interp x (l ++ (a.1 * c, a.2) :: (b.1 * c, b.2) :: post.map fun r => (r.1 * c, r.2)) =
        a.2 + (x - a.1 * c) * ((b.2 - a.2) / (b.1 * c - a.1 * c)) := by
    intro l
    induction l with
    | nil =>
      intro _
      rw [List.nil_append, PicLoad.interp]
      split
      · next h => have : x = a.1 * c := le_antisymm h h1
                  rw [this]; ring
      · rfl
    | cons d l ih =>
      intro hpw
      rw [List.cons_append, List.map_cons, List.pairwise_cons] at hpw
      obtain ⟨hd1, hpw⟩ := hpw
      have := ih hpw
      cases l with
      | nil =>
        have h0 : d.1 < a.1 * c := hd1 _ (by simp)
        rw [List.cons_append, List.nil_append, PicLoad.interp, if_neg (by linarith), if_neg (by linarith)]
        exact this
      | cons e l =>
        have h0 : d.1 < a.1 * c := hd1 _ (by simp)
        have h3 : e.1 < a.1 * c := by
          rw [List.cons_append, List.map_cons, List.pairwise_cons] at hpw
          exact hpw.1 _ (by simp)
        rw [List.cons_append, List.cons_append, PicLoad.interp, if_neg (by linarith), if_neg (by linarith)]
        exact this
  unfold Profile.eval
  dsimp only
  rw [List.map_append, List.map_cons, List.map_cons] at hp ⊢
  rw [key _ hp]

/-! ### Instances -/

/-- A comma-separated file with a header and a row number in front. -/
def sample : List Line :=
  [.comment 0 "made by hand".toList, .row ["i".toList] "x".toList "n e".toList, .row ["1".toList] "20".toList "3".toList, .blank 2,
    .row ["2".toList] "10".toList "5".toList]

/-- A stand-in for `float` on the tokens of the sample. -/
def sampleNum (t : List Char) : Option ℝ :=
  if t = "20".toList then some 20 else if t = "10".toList then some 10 else if t = "3".toList then some 3 else if t = "5".toList then some 5 else none

theorem sample_formed : Formed ',' 1 sample := by
  intro l hl
  simp only [sample, List.mem_cons, List.not_mem_nil, or_false] at hl
  rcases hl with rfl | rfl | rfl | rfl | rfl <;> first | trivial | skip
  all_goals
    refine ⟨rfl, fun t ht => ?_⟩
    simp only [List.cons_append, List.nil_append, List.mem_cons, List.not_mem_nil, or_false] at ht
    rcases ht with rfl | rfl | rfl <;> exact ⟨by decide, by decide, by decide, by decide, by decide, fun h => absurd rfl h⟩

example : readRows sampleNum (sample.map (Line.text ',' ['\n'])) = .ok [(20, 3), (10, 5)] := by
  rw [file_read sampleNum ',' (.inl rfl) ['\n'] (by decide) 1 sample sample_formed (by decide)]
  have : numbers sampleNum sample = [(20, 3), (10, 5)] := by
    simp [sample, numbers, sampleNum]
  rw [this]; rfl

example : (Profile.file [(10, 5), (20, 3)] 2 1).eval 30 = .ok ((5 + (30 - 10 * 2) * ((3 - 5) / (20 * 2 - 10 * 2))) * 1) :=
  file_linear [] [] (10, 5) (20, 3) 2 1 30 (by norm_num) (by norm_num) (by norm_num) (by norm_num) (by norm_num)

end Verif.VfpInit
