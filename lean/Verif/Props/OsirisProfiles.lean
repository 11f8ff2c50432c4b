import Verif.Model.OsirisCanned
import Verif.Model.Io
import Verif.Props.PicLoad
import Verif.Props.OsirisHist
import Mathlib.Tactic.Linarith
import Mathlib.Tactic.NormNum
import Mathlib.Tactic.Positivity
import Mathlib.Tactic.FieldSimp
import Mathlib.Tactic.Ring

/-!
The data shown in profiles and phase-space figures (C222).
-/
namespace Verif.OsirisCanned
open Verif

section
variable {K : Type} [Field K] [LinearOrder K] [IsStrictOrderedRing K] [FloorRing K]

/-! ### The averaging window -/

/-- **The window is never empty** and never longer than the series. -/
theorem window_range (frac : K) (avg : Option ℤ) (n : ℕ) (hn : 1 ≤ n) : 1 ≤ window frac avg n ∧ window frac avg n ≤ n := by
  unfold window
  constructor
  · exact le_max_left _ _
  · exact max_le (by exact_mod_cast hn) (min_le_right _ _)

/-- Without an explicit window it is the wanted fraction of the dumps, rounded, if that is at least one. -/
theorem window_fraction (frac : K) (n : ℕ) (h1 : 1 ≤ frac * n) (h2 : frac ≤ 1) :
    |((window frac none n : ℤ) : K) - frac * n| ≤ 1 / 2 := by
  obtain ⟨ha, hb⟩ := PicLoad.roundEven_near (frac * (n : K))
  have hr1 : 1 ≤ PicLoad.roundEven (frac * (n : K)) := by
    have : (0 : K) < PicLoad.roundEven (frac * (n : K)) := by linarith
    have : 0 < PicLoad.roundEven (frac * (n : K)) := by exact_mod_cast this
    omega
  have hn : frac * (n : K) ≤ n := by nlinarith [Nat.cast_nonneg (α := K) n]
  have hr2 : PicLoad.roundEven (frac * (n : K)) ≤ (n : ℤ) := by
    have : ((PicLoad.roundEven (frac * (n : K)) : ℤ) : K) < (n : K) + 1 := by linarith
    have : (PicLoad.roundEven (frac * (n : K)) : ℤ) < (n : ℤ) + 1 := by exact_mod_cast this
    omega
  have e : window frac none n = PicLoad.roundEven (frac * (n : K)) := by
    unfold window
    simp only
    rw [max_eq_right hr1, min_eq_left hr2, max_eq_right hr1]
  rw [e, abs_le]
  constructor <;> linarith

/-- The mean is over the last dumps, at least one, and lies between the extremes of them. -/
theorem late_mean_between (frac : K) (avg : Option ℤ) (series : List K) (hne : series ≠ []) (lo hi : K)
    (h : ∀ x ∈ series.drop (series.length - (window frac avg series.length).toNat), lo ≤ x ∧ x ≤ hi) :
    lo ≤ lateMean frac avg series ∧ lateMean frac avg series ≤ hi := by
  have hl : 1 ≤ series.length := by
    cases series with
    | nil => exact absurd rfl hne
    | cons => simp
  obtain ⟨h1, h2⟩ := window_range frac avg series.length hl
  unfold lateMean
  simp only
  generalize hw : (window frac avg series.length).toNat = w at h
  have hw1 : 1 ≤ w := by omega
  have hw2 : w ≤ series.length := by omega
  have hlen : (series.drop (series.length - w)).length = w := by simp; omega
  generalize series.drop (series.length - w) = l at h hlen
  have hs : ∀ l : List K, (∀ x ∈ l, lo ≤ x ∧ x ≤ hi) → lo * l.length ≤ l.sum ∧ l.sum ≤ hi * l.length := by
    intro l
    induction l with
    | nil => simp
    | cons a l ih =>
      intro h
      obtain ⟨i1, i2⟩ := ih fun x hx => h x (by simp [hx])
      obtain ⟨j1, j2⟩ := h a (by simp)
      simp only [List.sum_cons, List.length_cons, Nat.cast_add, Nat.cast_one]
      constructor <;> nlinarith
  obtain ⟨i1, i2⟩ := hs l h
  rw [hlen] at i1 i2
  have hp : (0 : K) < w := by exact_mod_cast hw1
  exact ⟨(le_div_iff₀ hp).2 i1, (div_le_iff₀ hp).2 i2⟩

/-- A profile that no longer changes is its own late-time mean. -/
theorem late_mean_steady (frac : K) (avg : Option ℤ) (series : List K) (hne : series ≠ []) (x : K)
    (h : ∀ y ∈ series.drop (series.length - (window frac avg series.length).toNat), y = x) : lateMean frac avg series = x := by
  obtain ⟨h1, h2⟩ := late_mean_between frac avg series hne x x fun y hy => by rw [h y hy]; exact ⟨le_rfl, le_rfl⟩
  exact le_antisymm h2 h1

omit [Field K] [LinearOrder K] [IsStrictOrderedRing K] [FloorRing K] in
theorem pick_range' (l : List K) (m a : ℕ) (h : a + m = l.length) : Io.pick l (List.range' a m) = l.drop a := by
  induction m generalizing a with
  | zero => rw [List.drop_of_length_le (by omega)]; rfl
  | succ m ih =>
    have ha : a < l.length := by omega
    rw [List.range'_succ]
    unfold Io.pick
    rw [List.filterMap_cons, List.getElem?_eq_getElem ha]
    simp only
    have := ih (a + 1) (by omega)
    unfold Io.pick at this
    rw [this, List.drop_eq_getElem_cons ha]

/-- The dumps read: the first and the last `w`, each once, in order. -/
theorem read_spec (n w : ℕ) (hw : w ≤ n) (h1 : 1 ≤ w) :
    (readIdx n w).Pairwise (· < ·) ∧ ∀ i, i ∈ readIdx n w ↔ i < n ∧ (i = 0 ∨ n - w ≤ i) := by
  unfold readIdx
  split_ifs with h
  · refine ⟨?_, ?_⟩
    · rw [List.pairwise_cons]
      refine ⟨fun i hi => ?_, List.pairwise_lt_range'⟩
      rw [List.mem_range'_1] at hi; omega
    · intro i
      rw [List.mem_cons, List.mem_range'_1]; omega
  · refine ⟨List.pairwise_lt_range, fun i => ?_⟩
    rw [List.mem_range]; omega

/-- **The mean of a profile read in slices is the mean of the whole history**: reading only the first and the last
dumps and passing the window gives the curve that the complete series would have given. -/
theorem sliced_mean (frac : K) (series : List K) (hne : series ≠ []) (w : ℕ)
    (hw : (w : ℤ) = max 1 (PicLoad.roundEven (frac * (series.length : K)))) (hle : w ≤ series.length) :
    lateMean frac (some (w : ℤ)) (Io.pick series (readIdx series.length w)) = lateMean frac none series := by
  have hw1 : (1 : ℤ) ≤ w := by rw [hw]; exact le_max_left _ _
  have hn : w ≤ series.length := hle
  have e2 : window frac none series.length = w := by
    unfold window
    simp only
    rw [← hw, min_eq_left (by exact_mod_cast hle), max_eq_right hw1]
  have hr : Io.pick series (readIdx series.length w) =
      if w < series.length then Io.pick series [0] ++ series.drop (series.length - w) else series := by
    unfold readIdx
    split_ifs with h
    · rw [show (0 :: List.range' (series.length - w) w) = [0] ++ List.range' (series.length - w) w from rfl]
      unfold Io.pick
      rw [List.filterMap_append]
      have := pick_range' series w (series.length - w) (by omega)
      unfold Io.pick at this
      rw [this]
    · rw [List.range_eq_range', pick_range' series _ 0 (by omega), List.drop_zero]
  have hdrop : ∀ (a l : List K), (a ++ l).drop ((a ++ l).length - l.length) = l := by
    intro a l
    rw [List.length_append, Nat.add_sub_cancel, List.drop_left]
  have hlen : (series.drop (series.length - w)).length = w := by simp; omega
  have key : ∀ s : List K, w ≤ s.length → s.drop (s.length - w) = series.drop (series.length - w) →
      lateMean frac (some (w : ℤ)) s = lateMean frac none series := by
    intro s hs hd
    have e1 : window frac (some (w : ℤ)) s.length = w := by
      unfold window
      simp only
      rw [min_eq_left (by exact_mod_cast hs), max_eq_right hw1]
    unfold lateMean
    simp only
    rw [e1, e2, Int.toNat_natCast, hd]
  apply key
  · rw [hr]
    split_ifs with h
    · simp; omega
    · exact hle
  · rw [hr]
    split_ifs with h
    · have := hdrop (Io.pick series [0]) (series.drop (series.length - w))
      rw [hlen] at this
      exact this
    · rfl

/-- Ten dumps and the default fraction: the mean of the last two, also of those read. -/
example : lateMean (1 / 5 : ℚ) none [9, 9, 9, 9, 9, 9, 9, 9, 2, 4] = 3 ∧
    lateMean (1 / 5 : ℚ) (some ((2 : ℕ) : ℤ)) (Io.pick [9, 9, 9, 9, 9, 9, 9, 9, 2, 4] (readIdx 10 2)) = 3 := by
  have hr : PicLoad.roundEven (1 / 5 * ((10 : ℕ) : ℚ)) = 2 := by
    have : (1 / 5 * ((10 : ℕ) : ℚ)) = ((2 : ℤ) : ℚ) := by norm_num
    unfold PicLoad.roundEven
    rw [this, Int.fract_intCast, if_pos (by norm_num), Int.floor_intCast]
  have h0 : lateMean (1 / 5 : ℚ) none [9, 9, 9, 9, 9, 9, 9, 9, 2, 4] = 3 := by
    have hw : window (1 / 5 : ℚ) none 10 = 2 := by unfold window; simp only; rw [hr]; rfl
    have hl : [9, 9, 9, 9, 9, 9, 9, 9, 2, (4 : ℚ)].length = 10 := rfl
    unfold lateMean
    simp only
    rw [hl, hw]
    show ([2, 4] : List ℚ).sum / ((2 : ℕ) : ℚ) = 3
    norm_num
  refine ⟨h0, ?_⟩
  rw [← h0]
  exact sliced_mean (1 / 5 : ℚ) [9, 9, 9, 9, 9, 9, 9, 9, 2, 4] (by simp) 2
    (by rw [show [9, 9, 9, 9, 9, 9, 9, 9, 2, (4 : ℚ)].length = 10 from rfl, hr]; rfl) (by decide)

/-! ### Which density and temperature -/

omit [Field K] [LinearOrder K] [IsStrictOrderedRing K] [FloorRing K] in
theorem lookupQ_some (l : List (Entry K)) (q : Str) (e : Entry K) (h : lookupQ l q = some e) : e ∈ l ∧ e.quantity = q := by
  unfold lookupQ at h
  exact ⟨by simpa using List.mem_of_find?_eq_some h, by simpa using List.find?_some h⟩

omit [Field K] [LinearOrder K] [IsStrictOrderedRing K] [FloorRing K] in
theorem lookupQ_of_mem (l : List (Entry K)) (h : (l.map Entry.quantity).Nodup) (e : Entry K) (he : e ∈ l) :
    lookupQ l e.quantity = some e := by
  unfold lookupQ
  have hn : (l.reverse.map Entry.quantity).Nodup := by rw [List.map_reverse]; exact List.nodup_reverse.2 h
  have hm : e ∈ l.reverse := by simpa using he
  clear h he
  generalize l.reverse = m at hn hm
  induction m with
  | nil => simp at hm
  | cons a t ih =>
    rw [List.map_cons, List.nodup_cons] at hn
    rw [List.find?_cons]
    rcases List.mem_cons.1 hm with rfl | hm
    · simp
    · have : a.quantity ≠ e.quantity := fun h => hn.1 (by rw [h]; exact List.mem_map_of_mem hm)
      rw [decide_eq_false this]
      exact ih hn.2 hm

omit [Field K] [LinearOrder K] [IsStrictOrderedRing K] [FloorRing K] in
theorem findSome_spec {α β : Type} (f : α → Option β) (l : List α) (b : β) (h : l.findSome? f = some b) :
    ∃ pre a post, l = pre ++ a :: post ∧ f a = some b ∧ ∀ x ∈ pre, f x = none := by
  induction l with
  | nil => simp at h
  | cons a l ih =>
    rw [List.findSome?_cons] at h
    cases hf : f a with
    | some c => rw [hf] at h; exact ⟨[], a, l, rfl, by rw [hf]; exact h, by simp⟩
    | none =>
      rw [hf] at h
      obtain ⟨pre, x, post, rfl, h1, h2⟩ := ih h
      refine ⟨a :: pre, x, post, rfl, h1, fun y hy => ?_⟩
      rcases List.mem_cons.1 hy with rfl | hy
      · exact hf
      · exact h2 y hy

omit [Field K] [LinearOrder K] [IsStrictOrderedRing K] [FloorRing K] in
/-- **The density shown** is one of the dumped `(t, x)` densities; the charge sign is divided out exactly of a charge density;
there is none only if no `(t, x)` density was dumped. -/
theorem density_entry (entries : List (Entry K)) :
    (∀ e b, densityEntry entries = some (e, b) → e ∈ entries ∧ e.isDensity = true ∧ e.ndim = 2 ∧
      (b = true → e.quantity = ['c', 'h', 'a', 'r', 'g', 'e'])) ∧
    (densityEntry entries = none ↔ ∀ e ∈ entries, e.isDensity = true → e.ndim ≠ 2) := by
  constructor
  · intro e b h
    unfold densityEntry at h
    simp only at h
    split at h
    · rename_i r hr
      obtain ⟨pre, q, post, -, h1, -⟩ := findSome_spec _ _ _ hr
      obtain ⟨e', h2, h3⟩ := Option.bind_eq_some_iff.1 h1
      split_ifs at h3 with hd
      have hx : (e', decide (q = ['c', 'h', 'a', 'r', 'g', 'e'])) = (e, b) := by
        rw [Option.some.inj h3]; exact Option.some.inj h
      obtain ⟨rfl, rfl⟩ := Prod.mk.inj hx
      obtain ⟨h4, h5⟩ := lookupQ_some _ _ _ h2
      rw [List.mem_filter] at h4
      exact ⟨h4.1, h4.2, hd, fun hq => by rw [h5]; simpa using hq⟩
    · obtain ⟨e', h1, h2⟩ := Option.map_eq_some_iff.1 h
      obtain ⟨rfl, rfl⟩ := Prod.mk.inj h2
      have h3 := List.mem_of_find?_eq_some h1
      rw [List.mem_filter] at h3
      exact ⟨h3.1, h3.2, by simpa using List.find?_some h1, by simp⟩
  · unfold densityEntry
    simp only
    constructor
    · intro h
      split at h
      · cases h
      · rw [Option.map_eq_none_iff, List.find?_eq_none] at h
        intro e he hd
        simpa using h e (List.mem_filter.2 ⟨he, hd⟩)
    · intro h
      split
      · rename_i r hr
        exfalso
        obtain ⟨pre, q, post, -, h1, -⟩ := findSome_spec _ _ _ hr
        obtain ⟨e', h2, h3⟩ := Option.bind_eq_some_iff.1 h1
        split_ifs at h3 with hd
        obtain ⟨h4, -⟩ := lookupQ_some _ _ _ h2
        rw [List.mem_filter] at h4
        exact h e' h4.1 h4.2 hd
      · rw [Option.map_eq_none_iff, List.find?_eq_none]
        intro e he
        rw [List.mem_filter] at he
        simpa using h e he.1 he.2

omit [Field K] [LinearOrder K] [IsStrictOrderedRing K] [FloorRing K] in
/-- A number density is preferred to a charge density, and this to anything but those: with any of the known densities
dumped, the entry shown is the first of them in the order `n, n01, n02, charge, m`. -/
theorem density_preferred (entries : List (Entry K)) (hn : ((entries.filter fun e => e.isDensity).map Entry.quantity).Nodup)
    (pre post : List Str) (q : Str) (hq : densityNames = pre ++ q :: post) (e : Entry K) (he : e ∈ entries)
    (hd : e.isDensity = true) (h2 : e.ndim = 2) (heq : e.quantity = q)
    (hpre : ∀ x ∈ entries, x.isDensity = true → x.ndim = 2 → x.quantity ∉ pre) :
    densityEntry entries = some (e, decide (q = ['c', 'h', 'a', 'r', 'g', 'e'])) := by
  have hl : lookupQ (entries.filter fun e => e.isDensity) q = some e := by
    rw [← heq]; exact lookupQ_of_mem _ hn e (List.mem_filter.2 ⟨he, hd⟩)
  unfold densityEntry
  simp only
  have hf : densityNames.findSome? (fun q => (lookupQ (entries.filter fun e => e.isDensity) q).bind fun e =>
      if e.ndim = 2 then some (e, decide (q = ['c', 'h', 'a', 'r', 'g', 'e'])) else none) =
      some (e, decide (q = ['c', 'h', 'a', 'r', 'g', 'e'])) := by
    rw [hq, List.findSome?_append]
    have : pre.findSome? (fun q => (lookupQ (entries.filter fun e => e.isDensity) q).bind fun e =>
        if e.ndim = 2 then some (e, decide (q = ['c', 'h', 'a', 'r', 'g', 'e'])) else none) = none := by
      rw [List.findSome?_eq_none_iff]
      intro x hx
      cases hlx : lookupQ (entries.filter fun e => e.isDensity) x with
      | none => rfl
      | some e' =>
        obtain ⟨h4, h5⟩ := lookupQ_some _ _ _ hlx
        rw [List.mem_filter] at h4
        rw [Option.bind_some, if_neg]
        intro h6
        exact hpre e' h4.1 h4.2 h6 (by rw [h5]; exact hx)
    rw [this, Option.none_or, List.findSome?_cons, hl, Option.bind_some, if_pos h2]
  rw [hf]

/-- **What is missing**: without any of these, whatever lies under `DENSITY/` is drawn as the density, such as an energy
density. -/
theorem density_fallback_partial : densityEntry [⟨true, ['e', 'n', 'e'], 2, [[(7 : ℚ)]]⟩] =
    some (⟨true, ['e', 'n', 'e'], 2, [[7]]⟩, false) := by rfl

/-- Charge before mass density; the number density before both. -/
example : densityEntry [⟨true, ['m'], 2, []⟩, ⟨true, ['c', 'h', 'a', 'r', 'g', 'e'], 2, [[(-1 : ℚ)]]⟩] =
    some (⟨true, ['c', 'h', 'a', 'r', 'g', 'e'], 2, [[-1]]⟩, true) :=
  density_preferred _ (by decide) [['n'], ['n', '0', '1'], ['n', '0', '2']] [['m']] _ rfl _ (by simp) rfl rfl rfl (by decide)

omit [LinearOrder K] [IsStrictOrderedRing K] [FloorRing K] in
/-- The temperature from thermal velocities is the sum of their squares; only without any of them the diagonal of the
temperature tensor is used. -/
theorem thermal_spec (uth tens : List K) :
    thermal uth tens = if uth ≠ [] then some (uth.map fun x => x ^ 2).sum else if tens ≠ [] then some tens.sum else none := by
  have h : ∀ (l : List K) (a : K), l.foldl (· + ·) a = a + l.sum := by
    intro l
    induction l with
    | nil => simp
    | cons b l ih => intro a; rw [List.foldl_cons, ih, List.sum_cons, add_assoc]
  cases uth with
  | nil =>
    cases tens with
    | nil => rfl
    | cons t ts => simp [thermal, h]
  | cons u us => simp [thermal, h]

omit [LinearOrder K] [IsStrictOrderedRing K] [FloorRing K] in
/-- **What is missing**: the two sources of the temperature profile disagree. For an isotropic plasma the thermal velocities
give three times the variance of one momentum, which is what the phase space gives. -/
theorem thermal_three_partial (v : K) : thermal [v, v, v] [] = some (3 * v ^ 2) := by
  rw [thermal_spec]; simp; ring

/-! ### The colours of a phase space -/

omit [FloorRing K] in
/-- **Every populated cell is inside the colour range**: the limits are the smallest non-zero and the largest magnitude,
both occur, and there are none only if all cells are empty. -/
theorem nonzero_range (values : List K) :
    (nonzeroRange values = none ↔ ∀ x ∈ values, x = 0) ∧
    ∀ lo hi, nonzeroRange values = some (lo, hi) → 0 < lo ∧ lo ≤ hi ∧ (∀ x ∈ values, |x| ≤ hi) ∧
      (∀ x ∈ values, x ≠ 0 → lo ≤ |x|) ∧ (∃ x ∈ values, |x| = lo) ∧ ∃ x ∈ values, |x| = hi := by
  have hm : ∀ m, m ∈ (values.map fun x => |x|).filter (fun m => decide (0 < m)) ↔ ∃ x ∈ values, |x| = m ∧ x ≠ 0 := by
    intro m
    rw [List.mem_filter, List.mem_map]
    constructor
    · rintro ⟨⟨x, hx, rfl⟩, h⟩; exact ⟨x, hx, rfl, abs_pos.1 (by simpa using h)⟩
    · rintro ⟨x, hx, rfl, h⟩; exact ⟨⟨x, hx, rfl⟩, by simpa using h⟩
  unfold nonzeroRange
  generalize (values.map fun x => |x|).filter (fun m => decide (0 < m)) = l at hm
  cases l with
  | nil =>
    refine ⟨⟨fun _ x hx => ?_, fun _ => rfl⟩, by simp⟩
    by_contra h
    have := (hm |x|).2 ⟨x, hx, rfl, h⟩
    simp at this
  | cons a l =>
    obtain ⟨m1, m2⟩ := OsirisSeries.foldl_min_spec l a
    obtain ⟨M1, M2⟩ := OsirisSeries.foldl_max_spec l a
    refine ⟨⟨fun h => by simp at h, fun h => ?_⟩, ?_⟩
    · obtain ⟨x, hx, -, h2⟩ := (hm a).1 (by simp)
      exact absurd (h x hx) h2
    · intro lo hi h
      obtain ⟨rfl, rfl⟩ := Prod.mk.inj (Option.some.inj h)
      obtain ⟨x, hx, hx1, hx2⟩ := (hm _).1 m2
      obtain ⟨y, hy, hy1, -⟩ := (hm _).1 M2
      have hpos : 0 < l.foldl min a := by rw [← hx1]; exact abs_pos.2 hx2
      refine ⟨hpos, M1 _ m2, fun z hz => ?_, fun z hz h0 => m1 _ ((hm _).2 ⟨z, hz, rfl, h0⟩), ⟨x, hx, hx1⟩, y, hy, hy1⟩
      by_cases h0 : z = 0
      · rw [h0, abs_zero]; exact hpos.le.trans (M1 _ m2)
      · exact M1 _ ((hm _).2 ⟨z, hz, rfl, h0⟩)

end

/-- In decades: every populated cell lies between the limits. -/
theorem log_clim (values : List ℝ) (lo hi : ℝ) (h : logClim values = some (lo, hi)) :
    lo ≤ hi ∧ ∀ x ∈ values, x ≠ 0 → lo ≤ Real.logb 10 |x| ∧ Real.logb 10 |x| ≤ hi := by
  obtain ⟨⟨a, b⟩, h1, h2⟩ := Option.map_eq_some_iff.1 h
  obtain ⟨rfl, rfl⟩ := Prod.mk.inj h2
  obtain ⟨p1, p2, p3, p4, -, -⟩ := (nonzero_range values).2 a b h1
  refine ⟨Real.logb_le_logb_of_le (by norm_num) p1 p2, fun x hx h0 => ⟨?_, ?_⟩⟩
  · exact Real.logb_le_logb_of_le (by norm_num) p1 (p4 x hx h0)
  · exact Real.logb_le_logb_of_le (by norm_num) (abs_pos.2 h0) (p3 x hx)

/-- Mostly empty cells and a negative charge. -/
example : nonzeroRange [0, -3, 0, (1 / 2 : ℚ), 0] = some (1 / 2, 3) := by
  norm_num [nonzeroRange, List.filter_cons, abs_of_nonneg]

end Verif.OsirisCanned
