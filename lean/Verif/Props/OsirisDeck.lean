import Verif.Model.Osiris
import Mathlib.Tactic.Ring
import Mathlib.Tactic.FieldSimp
import Mathlib.Tactic.Linarith
import Mathlib.Tactic.Positivity
import Mathlib.Tactic.NormNum
import Mathlib.Data.Rat.Floor

/-! C204, C206: quantities derived from an OSIRIS deck; ion-acoustic speeds. -/
namespace Verif.Osiris
open Verif.Density

variable {K : Type} [Field K] [LinearOrder K] [FloorRing K]

/-! ### C204: look-up -/

/-- C204: the first section of a name is the one that counts, wherever the other sections are. -/
theorem first_section (pre post : Secs K) (name : Str) (p : Params K) (h : ∀ s ∈ pre, s.1 ≠ name) :
    sec (pre ++ (name, p) :: post) name = p := by
  unfold sec
  induction pre with
  | nil => simp [dictGet]
  | cons a pre ih =>
    obtain ⟨k, q⟩ := a
    rw [List.cons_append, dictGet, if_neg (h (k, q) (by simp))]
    exact ih fun s hs => h s (by simp [hs])

/-- C204: a parameter is found under its plain name or with a range in parentheses. -/
theorem array_found (pre post : Params K) (base k : Str) (v : DVal K) (hk : k = base ∨ ∃ r, k = base ++ '(' :: r)
    (h : ∀ p ∈ pre, p.1 ≠ base ∧ ¬ (base ++ ['(']) <+: p.1) : arrayValue (pre ++ (k, v) :: post) base = some v := by
  unfold arrayValue
  have hpre : pre.find? (fun p => decide (p.1 = base) || (base ++ ['(']).isPrefixOf p.1) = none := by
    rw [List.find?_eq_none]
    intro p hp
    have := h p hp
    simp only [Bool.or_eq_true, decide_eq_true_eq, List.isPrefixOf_iff_prefix, not_or]
    exact this
  rw [List.find?_append, hpre, Option.none_or, List.find?_cons_of_pos]
  · rfl
  · rcases hk with rfl | ⟨r, rfl⟩
    · simp
    · simp only [Bool.or_eq_true, decide_eq_true_eq, List.isPrefixOf_iff_prefix]
      exact Or.inr ⟨r, by simp⟩

/-! ### C204: cell sizes -/

theorem dxList_spec (n a b l : List K) (h : dxList n a b = .ok l) : l.length = n.length ∧ n.length ≤ a.length ∧ n.length ≤ b.length ∧
    ∀ i (hi : i < n.length) (hl : i < l.length) (ha : i < a.length) (hb : i < b.length), n[i] ≠ 0 ∧ l[i] = (b[i] - a[i]) / n[i] := by
  induction n generalizing a b l with
  | nil =>
    unfold dxList at h
    injection h with h
    subst h
    simp
  | cons x n ih =>
    cases a with
    | nil => cases b <;> simp [dxList] at h
    | cons y a =>
      cases b with
      | nil => simp [dxList] at h
      | cons z b =>
        unfold dxList at h
        split at h
        · cases h
        · next hx =>
          split at h
          · cases h
          · next l' hl' =>
            injection h with h
            subst h
            obtain ⟨h1, h2, h3, h4⟩ := ih a b l' hl'
            refine ⟨by simp [h1], by simpa using h2, by simpa using h3, fun i hi hl ha hb => ?_⟩
            cases i with
            | zero => exact ⟨hx, rfl⟩
            | succ i => exact h4 i (by simpa using hi) (by simpa using hl) (by simpa using ha) (by simpa using hb)

theorem dxList_ok (n a b : List K) (ha : n.length ≤ a.length) (hb : n.length ≤ b.length) (h0 : ∀ x ∈ n, x ≠ 0) : ∃ l, dxList n a b = .ok l := by
  induction n generalizing a b with
  | nil => exact ⟨[], rfl⟩
  | cons x n ih =>
    cases a with
    | nil => simp at ha
    | cons y a =>
      cases b with
      | nil => simp at hb
      | cons z b =>
        obtain ⟨l, hl⟩ := ih a b (by simpa using ha) (by simpa using hb) fun x hx => h0 x (by simp [hx])
        exact ⟨(z - y) / x :: l, by unfold dxList; rw [if_neg (h0 x (by simp)), hl]⟩

theorem derived_eq {secs : Secs K} {D : Derived K} (h : derived secs = .ok D) :
    gridSpacing (arrayValue (sec secs nGrid) kNx) (arrayValue (sec secs nSpace) kXmin) (arrayValue (sec secs nSpace) kXmax) = .ok D.dx ∧
      cflRatio D.dx (dictGet (sec secs nTimeStep) kDt) = .ok D.cfl ∧
      numSteps (dictGet (sec secs nTimeStep) kDt) (dictGet (sec secs nTime) kTmax) = .ok D.steps := by
  unfold derived at h
  split at h
  · cases h
  · next dx hdx =>
    split at h
    · cases h
    · next c hc =>
      split at h
      · cases h
      · next s hs =>
        injection h with h
        subst h
        exact ⟨hdx, hc, hs⟩

/-- C204: the recorded cell sizes are box length over number of cells, one for each number of cells of the deck. -/
theorem cell_sizes {secs : Secs K} {D : Derived K} (h : derived secs = .ok D) {vn va vb : DVal K} {n a b : List K} (hne : n ≠ [])
    (hn : arrayValue (sec secs nGrid) kNx = some vn) (ha : arrayValue (sec secs nSpace) kXmin = some va)
    (hb : arrayValue (sec secs nSpace) kXmax = some vb) (fn : floats vn = some n) (fa : floats va = some a) (fb : floats vb = some b) :
    ∃ l, D.dx = some l ∧ l.length = n.length ∧
      ∀ i (hi : i < n.length) (hl : i < l.length) (ha : i < a.length) (hb : i < b.length), l[i] * n[i] = b[i] - a[i] := by
  have h1 := (derived_eq h).1
  unfold gridSpacing at h1
  rw [hn, ha, hb] at h1
  dsimp only at h1
  rw [fn, fa, fb] at h1
  cases n with
  | nil => exact absurd rfl hne
  | cons x n =>
    dsimp only at h1
    split at h1
    · cases h1
    · next l hl =>
      injection h1 with h1
      obtain ⟨e1, -, -, e4⟩ := dxList_spec _ _ _ _ hl
      refine ⟨l, h1.symm, e1, fun i hi hl ha hb => ?_⟩
      obtain ⟨z, e⟩ := e4 i hi hl ha hb
      rw [e, div_mul_cancel₀ _ z]

/-! ### C204: the ratio of time step and cell size -/

theorem foldl_min [IsStrictOrderedRing K] (l : List K) (a : K) : (l.foldl min a ≤ a ∧ ∀ x ∈ l, l.foldl min a ≤ x) ∧ (l.foldl min a = a ∨ l.foldl min a ∈ l) := by
  induction l generalizing a with
  | nil => exact ⟨⟨le_refl a, by simp⟩, Or.inl rfl⟩
  | cons b l ih =>
    obtain ⟨⟨h1, h2⟩, h3⟩ := ih (min a b)
    rw [List.foldl_cons]
    refine ⟨⟨h1.trans (min_le_left _ _), fun x hx => ?_⟩, ?_⟩
    · rcases List.mem_cons.1 hx with rfl | hx
      · exact h1.trans (min_le_right _ _)
      · exact h2 x hx
    · rcases h3 with h3 | h3
      · rcases min_choice a b with e | e
        · exact Or.inl (h3.trans e)
        · exact Or.inr (by rw [h3, e]; exact List.mem_cons_self)
      · exact Or.inr (List.mem_cons_of_mem _ h3)

/-- C204: the recorded ratio is the time step over the smallest cell: it is below a limit exactly if the time step is below that
multiple of every cell. -/
theorem cfl_limit [IsStrictOrderedRing K] {secs : Secs K} {D : Derived K} (h : derived secs = .ok D) {l : List K} {t : K} (hl : D.dx = some l)
    (hpos : ∀ x ∈ l, 0 < x) (ht : dictGet (sec secs nTimeStep) kDt = some (.num t)) :
    ∃ c, D.cfl = some c ∧ (∃ x ∈ l, c * x = t) ∧ ∀ r, 0 ≤ r → (c ≤ r ↔ ∀ x ∈ l, t ≤ r * x) := by
  have h2 := (derived_eq h).2.1
  unfold cflRatio at h2
  rw [hl, ht] at h2
  dsimp only at h2
  cases l with
  | nil => cases h2
  | cons a l =>
    unfold minimum at h2
    dsimp only at h2
    obtain ⟨⟨m1, m2⟩, m3⟩ := foldl_min l a
    have mm : l.foldl min a ∈ a :: l := by
      rcases m3 with e | e
      · rw [e]; exact List.mem_cons_self
      · exact List.mem_cons_of_mem _ e
    have mp := hpos _ mm
    generalize hm : l.foldl min a = m at *
    rw [if_neg mp.ne'] at h2
    injection h2 with h2
    refine ⟨t / m, h2.symm, ⟨m, mm, div_mul_cancel₀ _ mp.ne'⟩, fun r hr => ?_⟩
    rw [div_le_iff₀ mp]
    constructor
    · intro e x hx
      have : m ≤ x := by
        rcases List.mem_cons.1 hx with rfl | hx
        · exact m1
        · exact m2 x hx
      exact e.trans (mul_le_mul_of_nonneg_left this hr)
    · intro e
      exact e m mm

/-! ### C204: number of steps -/

/-- C204: the recorded number of steps is the number of whole time steps up to the end time. -/
theorem step_count [IsStrictOrderedRing K] {secs : Secs K} {D : Derived K} (h : derived secs = .ok D) {t T : K} (ht : dictGet (sec secs nTimeStep) kDt = some (.num t))
    (hT : dictGet (sec secs nTime) kTmax = some (.num T)) (ht0 : 0 < t) (hT0 : 0 ≤ T) :
    ∃ s : ℤ, D.steps = some s ∧ 0 ≤ s ∧ (s : K) * t ≤ T ∧ T < ((s : K) + 1) * t := by
  have h3 := (derived_eq h).2.2
  unfold numSteps at h3
  rw [ht, hT] at h3
  dsimp only at h3
  rw [if_neg ht0.ne'] at h3
  injection h3 with h3
  have q : 0 ≤ T / t := div_nonneg hT0 ht0.le
  refine ⟨trunc (T / t), h3.symm, ?_, ?_, ?_⟩
  · unfold trunc; rw [if_pos q]; exact Int.floor_nonneg.2 q
  · unfold trunc
    rw [if_pos q, ← le_div_iff₀ ht0]
    exact Int.floor_le _
  · unfold trunc
    rw [if_pos q, ← div_lt_iff₀ ht0]
    exact Int.lt_floor_add_one _

/-- C204: a deck with positive cells and box lengths, a positive time step and an end time has all three quantities. -/
theorem derived_accepted [IsStrictOrderedRing K] {secs : Secs K} {vn va vb : DVal K} {n a b : List K} {t T : K} (hne : n ≠ [])
    (hn : arrayValue (sec secs nGrid) kNx = some vn) (ha : arrayValue (sec secs nSpace) kXmin = some va)
    (hb : arrayValue (sec secs nSpace) kXmax = some vb) (fn : floats vn = some n) (fa : floats va = some a) (fb : floats vb = some b)
    (la : n.length ≤ a.length) (lb : n.length ≤ b.length) (n0 : ∀ x ∈ n, 0 < x)
    (hx : ∀ i (hi : i < n.length), a[i] < b[i]) (ht : dictGet (sec secs nTimeStep) kDt = some (.num t))
    (hT : dictGet (sec secs nTime) kTmax = some (.num T)) (ht0 : 0 < t) :
    ∃ D l c s, derived secs = .ok D ∧ D.dx = some l ∧ (∀ x ∈ l, 0 < x) ∧ D.cfl = some c ∧ D.steps = some s := by
  obtain ⟨l, hl⟩ := dxList_ok n a b la lb fun x hx => (n0 x hx).ne'
  obtain ⟨e1, -, -, e4⟩ := dxList_spec _ _ _ _ hl
  have pos : ∀ x ∈ l, 0 < x := by
    intro x hx'
    obtain ⟨i, hi, rfl⟩ := List.getElem_of_mem hx'
    rw [(e4 i (by omega) hi (by omega) (by omega)).2]
    exact div_pos (sub_pos.2 (hx i (by omega))) (n0 _ (List.getElem_mem _))
  have g : gridSpacing (some vn) (some va) (some vb) = .ok (some l) := by
    unfold gridSpacing
    dsimp only
    rw [fn, fa, fb]
    cases n with
    | nil => exact absurd rfl hne
    | cons x n => dsimp only; rw [hl]
  have lne : ∃ y ys, l = y :: ys := by
    cases l with
    | nil =>
      exfalso
      apply hne
      rw [← List.length_eq_zero_iff, ← e1]
      rfl
    | cons y ys => exact ⟨y, ys, rfl⟩
  obtain ⟨y, ys, rfl⟩ := lne
  obtain ⟨-, m3⟩ := foldl_min ys y
  have mm : ys.foldl min y ∈ y :: ys := by
    rcases m3 with e | e
    · rw [e]; exact List.mem_cons_self
    · exact List.mem_cons_of_mem _ e
  refine ⟨⟨some (y :: ys), some (t / ys.foldl min y), some (trunc (T / t))⟩, y :: ys, _, _, ?_, rfl, pos, rfl, rfl⟩
  unfold derived
  rw [hn, ha, hb, g]
  dsimp only
  rw [ht, hT]
  unfold cflRatio minimum numSteps
  dsimp only
  rw [if_neg (pos _ mm).ne']
  dsimp only
  rw [if_neg ht0.ne']

/-- C204: a deck without grid, box or times has no such quantities and is not an error. -/
theorem derived_empty : derived ([] : Secs K) = .ok ⟨none, none, none⟩ := rfl

/-- A time step of zero stops the run before it starts. -/
theorem zero_step {secs : Secs K} {D : Derived K} (h : derived secs = .ok D) {T : K} (hT : dictGet (sec secs nTime) kTmax = some (.num T)) :
    dictGet (sec secs nTimeStep) kDt ≠ some (.num 0) := by
  intro e
  have h3 := (derived_eq h).2.2
  unfold numSteps at h3
  rw [e, hT] at h3
  dsimp only at h3
  rw [if_pos rfl] at h3
  cases h3

/-- A deck with the given start and end time and a step of one. -/
def timed (tmin tmax : K) : Secs K := [(nTimeStep, [(kDt, .num 1)]), (nTime, [(kTmin, .num tmin), (kTmax, .num tmax)])]

/-- The recorded number of steps ignores the start time: a run from 5 to 10 in steps of one is recorded with 10 steps. -/
theorem steps_ignore_start_partial : (∀ a b T : K, derived (timed a T) = derived (timed b T)) ∧
    ∃ D, derived (timed (5 : ℚ) 10) = .ok D ∧ D.steps = some 10 := by
  refine ⟨fun a b T => rfl, ⟨none, none, some (trunc (10 / 1))⟩, rfl, ?_⟩
  show some (trunc ((10 : ℚ) / 1)) = some 10
  unfold trunc
  norm_num

/-! ### C204: dimensions -/

/-- C204: the number of dimensions used to choose the executable is the number of cell sizes, for a deck whose grid section names the
cells `nx_p` or `nx_p(...)`. -/
theorem dimensions {secs : Secs K} {D : Derived K} (h : derived secs = .ok D) {l : List K} (hl : D.dx = some l)
    (hg : ∀ p ∈ sec secs nGrid, kNx <+: p.1 → p.1 = kNx ∨ (kNx ++ ['(']) <+: p.1) : inferDim secs = some l.length := by
  have h1 := (derived_eq h).1
  rw [hl] at h1
  have hf : (sec secs nGrid).find? (fun p => kNx.isPrefixOf p.1) =
      (sec secs nGrid).find? (fun p => decide (p.1 = kNx) || (kNx ++ ['(']).isPrefixOf p.1) := by
    generalize sec secs nGrid = g at hg
    clear h1 h
    induction g with
    | nil => rfl
    | cons p g ih =>
      have e : kNx.isPrefixOf p.1 = (decide (p.1 = kNx) || (kNx ++ ['(']).isPrefixOf p.1) := by
        rw [Bool.eq_iff_iff]
        simp only [Bool.or_eq_true, decide_eq_true_eq, List.isPrefixOf_iff_prefix]
        constructor
        · exact hg p (by simp)
        · rintro (h | h)
          · rw [h]
          · exact (List.prefix_append _ _).trans h
      simp only [List.find?_cons, e, ih fun p hp => hg p (by simp [hp])]
  unfold inferDim
  rw [hf]
  have e0 : arrayValue (sec secs nGrid) kNx =
    ((sec secs nGrid).find? (fun p => decide (p.1 = kNx) || (kNx ++ ['(']).isPrefixOf p.1)).map Prod.snd := rfl
  rw [e0] at h1
  generalize (sec secs nGrid).find? (fun p => decide (p.1 = kNx) || (kNx ++ ['(']).isPrefixOf p.1) = q at h1
  generalize arrayValue (sec secs nSpace) kXmin = va at h1
  cases q with
  | none => cases h1
  | some p =>
    obtain ⟨k, v⟩ := p
    unfold gridSpacing at h1
    cases va with
    | none => cases h1
    | some va =>
      split at h1
      · next n a b e1 e2 e3 =>
        injection e1 with e1
        dsimp only at e1
        subst e1
        split at h1
        · cases h1
        · next x xs a' b' e4 e5 e6 =>
          split at h1
          · cases h1
          · next l' hl' =>
            injection h1 with h1
            injection h1 with h1
            subst h1
            rw [(dxList_spec _ _ _ _ hl').1]
            cases v with
            | num y =>
              unfold floats at e4
              injection e4 with e4
              rw [← e4]
              rfl
            | arr m =>
              unfold floats at e4
              injection e4 with e4
              rw [← e4]
              rfl
            | txt => cases e4
        · cases h1
      · cases h1

/-- A two-dimensional deck that gives its cells one by one. -/
def elementwise : Secs ℚ :=
  [(nGrid, [(kNx ++ ['(', '1', ')'], .num 10), (kNx ++ ['(', '2', ')'], .num 20)]),
   (nSpace, [(kXmin ++ ['(', '1', ':', '2', ')'], .arr [0, 0]), (kXmax ++ ['(', '1', ':', '2', ')'], .arr [5, 5])])]

/-- A deck that gives its cells one by one (`nx_p(1) = 10, nx_p(2) = 20`) is taken for one-dimensional: the executable of the wrong
dimension is looked for and one cell size is recorded. -/
theorem elementwise_partial : inferDim elementwise = some 1 ∧ ∃ D, derived elementwise = .ok D ∧ D.dx = some [5 / 10] := by
  refine ⟨rfl, ⟨some [(5 - 0) / 10], none, none⟩, ?_, ?_⟩
  · have e1 : arrayValue (sec elementwise nGrid) kNx = some (.num 10) := rfl
    have e2 : arrayValue (sec elementwise nSpace) kXmin = some (.arr [0, 0]) := rfl
    have e3 : arrayValue (sec elementwise nSpace) kXmax = some (.arr [5, 5]) := rfl
    have e4 : dictGet (sec elementwise nTimeStep) kDt = none := rfl
    unfold derived
    rw [e1, e2, e3, e4]
    have g : gridSpacing (some (DVal.num (10 : ℚ))) (some (.arr [0, 0])) (some (.arr [5, 5])) = .ok (some [(5 - 0) / 10]) := by
      unfold gridSpacing floats dxList dxList
      simp
    rw [g]
    rfl
  · norm_num

/-! ### C206: ion-acoustic speeds -/

/-- A species with its parameters and what follows it in the deck. -/
structure Block (K : Type) where
  params : Params K
  rest : Secs K

/-- The deck of some sections followed by species. -/
def deckOf (pre : Secs K) (bs : List (Block K)) : Secs K := pre ++ bs.flatMap fun b => (nSpecies, b.params) :: b.rest

/-- The thermal speed of a block: that of its first velocity section that gives one. -/
def blockUth (rest : Secs K) : Option K :=
  rest.findSome? fun s => if s.1 = nUdist then (firstNum (deckGet s.2 kUth)).join else none

/-- No text where a number is needed. -/
def Block.numeric (b : Block K) : Prop :=
  firstNum (deckGet b.params kRqm) ≠ none ∧ ∀ s ∈ b.rest, s.1 ≠ nSpecies ∧ firstNum (deckGet s.2 kUth) ≠ none

/-- The mass per charge and thermal speed of a block. -/
def Block.sp (b : Block K) : Sp K := ⟨(firstNum (deckGet b.params kRqm)).join, blockUth b.rest⟩

theorem walk_pre (pre tail : Secs K) (h : ∀ s ∈ pre, s.1 ≠ nSpecies) : walk (pre ++ tail) [] = walk tail [] := by
  induction pre with
  | nil => rfl
  | cons a pre ih =>
    obtain ⟨n, p⟩ := a
    have h1 := h (n, p) (by simp)
    have ih := ih fun s hs => h s (by simp [hs])
    rw [List.cons_append, walk, if_neg h1]
    split
    · simp only [addUth]; exact ih
    · exact ih

theorem nSpecies_ne : nSpecies ≠ nUdist := by decide

theorem walk_rest_done (rest tail : Secs K) (r : Option K) (u : K) (acc : List (Sp K)) (h : ∀ s ∈ rest, s.1 ≠ nSpecies) :
    walk (rest ++ tail) (⟨r, some u⟩ :: acc) = walk tail (⟨r, some u⟩ :: acc) := by
  induction rest with
  | nil => rfl
  | cons a rest ih =>
    obtain ⟨n, p⟩ := a
    have ih := ih fun s hs => h s (by simp [hs])
    rw [List.cons_append, walk, if_neg (h (n, p) (by simp))]
    split
    · simp only [addUth]; exact ih
    · exact ih

theorem walk_rest (rest tail : Secs K) (r : Option K) (acc : List (Sp K)) (h : ∀ s ∈ rest, s.1 ≠ nSpecies ∧ firstNum (deckGet s.2 kUth) ≠ none) :
    walk (rest ++ tail) (⟨r, none⟩ :: acc) = walk tail (⟨r, blockUth rest⟩ :: acc) := by
  induction rest with
  | nil => rfl
  | cons a rest ih =>
    obtain ⟨n, p⟩ := a
    have h1 := h (n, p) (by simp)
    have hr : ∀ s ∈ rest, s.1 ≠ nSpecies ∧ firstNum (deckGet s.2 kUth) ≠ none := fun s hs => h s (by simp [hs])
    have ih := ih hr
    rw [List.cons_append, walk, if_neg h1.1]
    by_cases hn : n = nUdist
    · rw [if_pos hn]
      unfold addUth
      dsimp only
      cases hf : firstNum (deckGet p kUth) with
      | none => exact absurd hf h1.2
      | some u =>
        rw [Option.map_some]
        dsimp only
        cases u with
        | none =>
          rw [ih]
          congr 3
          unfold blockUth
          rw [List.findSome?_cons]
          simp [hn, hf]
        | some u =>
          rw [walk_rest_done _ _ _ _ _ fun s hs => (hr s hs).1]
          congr 3
          unfold blockUth
          rw [List.findSome?_cons]
          simp [hn, hf]
    · rw [if_neg hn, ih]
      congr 3
      unfold blockUth
      rw [List.findSome?_cons]
      simp [hn]

theorem walk_blocks (bs : List (Block K)) (acc : List (Sp K)) (h : ∀ b ∈ bs, b.numeric) :
    walk (bs.flatMap fun b => (nSpecies, b.params) :: b.rest) acc = some ((bs.map Block.sp).reverse ++ acc) := by
  induction bs generalizing acc with
  | nil => rfl
  | cons b bs ih =>
    obtain ⟨h1, h2⟩ := h b (by simp)
    rw [List.flatMap_cons, List.cons_append, walk, if_pos rfl]
    cases hf : firstNum (deckGet b.params kRqm) with
    | none => exact absurd hf h1
    | some r =>
      dsimp only
      rw [walk_rest _ _ _ _ h2, ih _ fun b hb => h b (by simp [hb])]
      simp [Block.sp, hf]

/-- The speed of sound squared of an ion species with mass per charge `r` and thermal speed `u`, for an electron thermal speed `v`. -/
def soundSq (v u r : K) : K := v ^ 2 / r + 3 * u ^ 2

/-- C206: the listed species are exactly the ions (positive mass per charge) whose speed of sound is positive, each with its number in
the deck and the speed of sound of the electrons' thermal speed and its own, whatever other sections the deck has. -/
theorem speeds [IsStrictOrderedRing K] (pre : Secs K) (bs : List (Block K)) (hpre : ∀ s ∈ pre, s.1 ≠ nSpecies) (h : ∀ b ∈ bs, b.numeric) :
    ∃ l, speedsSq (deckOf pre bs) = some l ∧ ∀ i c, (i, c) ∈ l ↔
      ∃ (k : ℕ) (hk : k < bs.length), i = k + 1 ∧ ∃ r, (bs[k]).sp.rqm = some r ∧ 0 < r ∧
        c = soundSq ((electronSpeed (bs.map Block.sp)).getD 0) ((bs[k]).sp.uth.getD 0) r ∧ 0 < c := by
  have hw : walk (deckOf pre bs) [] = some (bs.map Block.sp).reverse := by
    unfold deckOf
    rw [walk_pre _ _ hpre, walk_blocks _ _ h, List.append_nil]
  unfold speedsSq
  rw [hw]
  refine ⟨_, rfl, fun i c => ?_⟩
  dsimp only
  rw [List.reverse_reverse, List.mem_filterMap]
  generalize electronSpeed (bs.map Block.sp) = v
  have key : ∀ (s : Sp K) (j : ℕ), (match speedSq v s with
      | none => none
      | some c => if 0 < c then some (j, c) else none) = some (i, c) ↔ j = i ∧ ∃ r, s.rqm = some r ∧ 0 < r ∧ c = soundSq (v.getD 0) (s.uth.getD 0) r ∧ 0 < c := by
    intro s j
    unfold speedSq
    cases hr : s.rqm with
    | none => simp
    | some r =>
      dsimp only
      by_cases hr0 : r ≤ 0
      · rw [if_pos hr0]
        simp [hr0]
      · rw [if_neg hr0]
        push Not at hr0
        have e : addElectrons (3 * s.uth.getD 0 ^ 2) r v = soundSq (v.getD 0) (s.uth.getD 0) r := by
          unfold soundSq addElectrons
          cases v with
          | none => simp
          | some v => simp [add_comm]
        rw [e]
        dsimp only
        split
        · next hc =>
          constructor
          · intro h
            injection h with h
            injection h with h1 h2
            exact ⟨h1, r, rfl, hr0, h2.symm, by rw [← h2]; exact hc⟩
          · rintro ⟨rfl, r', h1, -, h3, -⟩
            injection h1 with h1
            subst h1
            rw [h3]
        · next hc =>
          constructor
          · intro h; cases h
          · rintro ⟨rfl, r', h1, -, h3, h4⟩
            injection h1 with h1
            subst h1
            rw [h3] at h4
            exact absurd h4 hc
  constructor
  · rintro ⟨p, hp, hq⟩
    obtain ⟨hj, r, h1, h2, h3, h4⟩ := (key p.1 p.2).1 hq
    obtain ⟨m, hm, e⟩ := List.getElem_of_mem hp
    rw [List.getElem_zipIdx] at e
    have hm' : m < bs.length := by simpa using hm
    have e1 : (bs[m]).sp = p.1 := by rw [← e]; simp
    have e2 : 1 + m = p.2 := by rw [← e]
    refine ⟨m, hm', by omega, r, by rw [e1]; exact h1, h2, by rw [e1]; exact h3, h4⟩
  · rintro ⟨k, hk, rfl, r, h1, h2, h3, h4⟩
    refine ⟨((bs[k]).sp, k + 1), ?_, (key _ _).2 ⟨rfl, r, h1, h2, h3, h4⟩⟩
    rw [List.mem_iff_getElem]
    refine ⟨k, by simpa using hk, ?_⟩
    rw [List.getElem_zipIdx]
    simp [add_comm]

/-- C206: in physical terms the speed of sound squared is `(Z Te + 3 Ti) / mi`, for ions of charge `Z`, mass `mi` and temperature `Ti` (in
units of the electron rest energy and mass), electrons of temperature `Te`. -/
theorem sound_physical (Z mi Te Ti v u : K) (hZ : Z ≠ 0) (hm : mi ≠ 0) (hv : v ^ 2 = Te) (hu : u ^ 2 = Ti / mi) :
    soundSq v u (mi / Z) = (Z * Te + 3 * Ti) / mi := by
  unfold soundSq
  rw [hv, hu]
  field_simp

/-- C206: the electron thermal speed is that of the first species of negative charge to mass that has one different from zero. -/
theorem electron_speed (l : List (Sp K)) (v : K) : electronSpeed l = some v ↔
    ∃ pre s post, l = pre ++ s :: post ∧ s.uth = some v ∧ v ≠ 0 ∧ (∃ r, s.rqm = some r ∧ r < 0) ∧
      ∀ q ∈ pre, ∀ r u, q.rqm = some r → q.uth = some u → r < 0 → u = 0 := by
  unfold electronSpeed
  rw [List.findSome?_eq_some_iff]
  constructor
  · rintro ⟨pre, s, post, rfl, hs, hp⟩
    refine ⟨pre, s, post, rfl, ?_⟩
    obtain ⟨r, u⟩ := s
    cases r with
    | none => cases hs
    | some r =>
      cases u with
      | none => cases hs
      | some u =>
        dsimp only at hs
        split at hs
        · next hc =>
          injection hs with hs
          subst hs
          refine ⟨rfl, hc.2, ⟨r, rfl, hc.1⟩, fun q hq r' u' h1 h2 h3 => ?_⟩
          have := hp q hq
          rw [h1, h2] at this
          dsimp only at this
          by_contra hne
          rw [if_pos ⟨h3, hne⟩] at this
          cases this
        · cases hs
  · rintro ⟨pre, s, post, rfl, h1, h2, ⟨r, h3, h4⟩, h5⟩
    refine ⟨pre, s, post, rfl, ?_, fun q hq => ?_⟩
    · rw [h1, h3]
      dsimp only
      rw [if_pos ⟨h4, h2⟩]
    · cases hr : q.rqm with
      | none => rfl
      | some r' =>
        cases hu : q.uth with
        | none => rfl
        | some u' =>
          dsimp only
          rw [if_neg]
          rintro ⟨h6, h7⟩
          exact h7 (h5 q hq r' u' hr hu h6)

/-- C206: a deck without ions gives no speeds. -/
theorem ion_free [IsStrictOrderedRing K] (pre : Secs K) (bs : List (Block K)) (hpre : ∀ s ∈ pre, s.1 ≠ nSpecies) (h : ∀ b ∈ bs, b.numeric)
    (hi : ∀ b ∈ bs, ∀ r, b.sp.rqm = some r → r ≤ 0) : speedsSq (deckOf pre bs) = some [] := by
  obtain ⟨l, hl, hm⟩ := speeds pre bs hpre h
  rw [hl]
  congr 1
  rw [List.eq_nil_iff_forall_not_mem]
  rintro ⟨i, c⟩ hic
  obtain ⟨k, hk, -, r, h1, h2, -⟩ := (hm i c).1 hic
  exact absurd h2 (not_lt.2 (hi _ (List.getElem_mem hk) r h1))

/-- Electrons and protons, with a grid section in front and a drift section between: the hypotheses can be met. -/
example : ∃ l, speedsSq (deckOf [(nGrid, [])] [⟨[(kRqm, .num (-1 : ℚ))], [(nUdist, [(kUth ++ ['(', '1', ':', '3', ')'], .arr [1 / 10, 0, 0])])]⟩,
    ⟨[(kRqm, .num 1836)], [(nGrid, []), (nUdist, [(kUth, .num (1 / 1000))])]⟩]) = some l ∧ (2, 1 / 183600 + 3 / 1000000) ∈ l := by
  obtain ⟨l, hl, hm⟩ := speeds (K := ℚ) [(nGrid, [])] [⟨[(kRqm, .num (-1 : ℚ))], [(nUdist, [(kUth ++ ['(', '1', ':', '3', ')'], .arr [1 / 10, 0, 0])])]⟩,
    ⟨[(kRqm, .num 1836)], [(nGrid, []), (nUdist, [(kUth, .num (1 / 1000))])]⟩] (by simp [nGrid, nSpecies]) (by
      intro b hb
      rcases List.mem_cons.1 hb with rfl | hb
      · refine ⟨by simp [deckGet, firstNum, kRqm, baseOf], ?_⟩
        intro s hs
        rw [List.mem_singleton.1 hs]
        exact ⟨nSpecies_ne.symm, by simp [deckGet, firstNum, kUth, baseOf]⟩
      · rw [List.mem_singleton.1 hb]
        refine ⟨by simp [deckGet, firstNum, kRqm, baseOf], ?_⟩
        intro s hs
        rcases List.mem_cons.1 hs with rfl | hs
        · exact ⟨by simp [nGrid, nSpecies], by simp [deckGet, firstNum]⟩
        · rw [List.mem_singleton.1 hs]
          exact ⟨nSpecies_ne.symm, by simp [deckGet, firstNum, kUth, baseOf]⟩)
  refine ⟨l, hl, (hm _ _).2 ⟨1, by simp, rfl, 1836, rfl, by norm_num, ?_, by norm_num⟩⟩
  have e1 : electronSpeed (List.map Block.sp [(⟨[(kRqm, .num (-1 : ℚ))], [(nUdist, [(kUth ++ ['(', '1', ':', '3', ')'], .arr [1 / 10, 0, 0])])]⟩ : Block ℚ),
    ⟨[(kRqm, .num 1836)], [(nGrid, []), (nUdist, [(kUth, .num (1 / 1000))])]⟩]) = some (1 / 10) := by
    rw [electron_speed]
    exact ⟨[], _, _, rfl, rfl, by norm_num, ⟨-1, rfl, by norm_num⟩, by simp⟩
  rw [e1]
  show _ = soundSq (1 / 10) (1 / 1000) 1836
  unfold soundSq
  norm_num

/-- A one-dimensional deck with a box of 10 in 100 cells. -/
def boxDeck : Secs ℚ :=
  [(nGrid, [(kNx ++ ['(', '1', ':', '1', ')'], .num 100)]), (nSpace, [(kXmin, .num 0), (kXmax, .num 10)]), (nTimeStep, [(kDt, .num (9 / 100))]),
   (nTime, [(kTmax, .num 1)])]

example : ∃ D l c s, derived boxDeck = .ok D ∧ D.dx = some l ∧ (∀ x ∈ l, 0 < x) ∧ D.cfl = some c ∧ D.steps = some s :=
  derived_accepted (n := [100]) (a := [0]) (b := [10]) (t := 9 / 100) (T := 1) (by simp) (vn := .num 100) (va := .num 0) (vb := .num 10) rfl rfl rfl rfl rfl rfl (by simp) (by simp) (by simp)
    (by intro i hi; have : i = 0 := by simpa using hi
        subst this; norm_num) rfl rfl (by norm_num)

end Verif.Osiris
