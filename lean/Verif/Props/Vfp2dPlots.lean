import Verif.Props.Vfp2dRecon
import Verif.Props.Pic

/-!
Panels, colour scales and scalar metrics of VFP-2D runs (C211).
-/
namespace Verif.Vfp2d.Recon
open Finset

theorem roundEven_int (n : ℤ) : Pic.roundEven (n : ℝ) = n := by
  unfold Pic.roundEven
  rw [Int.fract_intCast, if_pos (by norm_num), Int.floor_intCast]

theorem roundEven_lt {x y : ℝ} (h : x + 1 < y) : Pic.roundEven x < Pic.roundEven y := by
  have h1 := abs_le.1 (Pic.roundEven_near x)
  have h2 := abs_le.1 (Pic.roundEven_near y)
  have : (Pic.roundEven x : ℝ) < Pic.roundEven y := by linarith [h1.1, h1.2, h2.1, h2.2]
  exact_mod_cast this

/-- The panel with number `i` of `k`. -/
noncomputable def panelAt (nt k i : ℕ) : ℤ := if k = 1 then 0 else Pic.roundEven ((i : ℝ) * ((nt : ℝ) - 1) / ((k : ℝ) - 1))

theorem rawPanels_eq (nt n : ℕ) : rawPanels nt n = (List.range (min nt n)).map (panelAt nt (min nt n)) := by
  unfold rawPanels panelAt
  rfl

theorem panelAt_lt (nt k i j : ℕ) (hk : k ≤ nt) (hij : i < j) (hj : j < k) : panelAt nt k i < panelAt nt k j := by
  unfold panelAt
  have hk2 : 2 ≤ k := by omega
  rw [if_neg (by omega), if_neg (by omega)]
  have hkr : (0 : ℝ) < (k : ℝ) - 1 := by
    have : (2 : ℝ) ≤ k := by exact_mod_cast hk2
    linarith
  by_cases he : k = nt
  · subst he
    have e : ∀ m : ℕ, (m : ℝ) * ((k : ℝ) - 1) / ((k : ℝ) - 1) = ((m : ℤ) : ℝ) := fun m => by
      rw [mul_div_assoc, div_self hkr.ne', mul_one]; norm_cast
    rw [e, e, roundEven_int, roundEven_int]
    exact_mod_cast hij
  · refine roundEven_lt ?_
    have h1 : (k : ℝ) + 1 ≤ nt := by exact_mod_cast (by omega : k + 1 ≤ nt)
    have h2 : (i : ℝ) + 1 ≤ j := by exact_mod_cast hij
    rw [div_add' _ _ _ hkr.ne', div_lt_div_iff_of_pos_right hkr]
    nlinarith

/-- C211: the panels of a figure: at most as many as asked and as saved, exactly that many, increasing, from the first saved time, each
within half a saved step of equal spacing, and all of them saved times. -/
theorem panels_spec (nt n : ℕ) :
    (panels nt n).Pairwise (· < ·) ∧ (panels nt n).length = min nt n
    ∧ (∀ i (h : i < (panels nt n).length), 2 ≤ min nt n → |((panels nt n)[i] : ℝ) - (i : ℝ) * ((nt : ℝ) - 1) / (((min nt n : ℕ) : ℝ) - 1)| ≤ 1 / 2)
    ∧ ∀ p ∈ panels nt n, 0 ≤ p ∧ p < nt := by
  have hp : (rawPanels nt n).Pairwise (· < ·) := by
    rw [rawPanels_eq, List.pairwise_map]
    refine List.Pairwise.imp_of_mem ?_ (List.pairwise_lt_range (n := min nt n))
    intro i j hi hj hij
    exact panelAt_lt nt _ i j (min_le_left _ _) hij (List.mem_range.1 hj)
  have hd : panels nt n = rawPanels nt n := List.dedup_eq_self.2 (hp.imp fun h => ne_of_lt h)
  refine ⟨hd ▸ hp, by rw [hd, rawPanels_eq]; simp, ?_, ?_⟩
  · rw [hd]
    intro i h h2
    have hi : i < min nt n := by rw [rawPanels_eq] at h; simpa using h
    have e : (rawPanels nt n)[i] = panelAt nt (min nt n) i := by
      simp [rawPanels_eq]
    rw [e]
    unfold panelAt
    rw [if_neg (by omega), abs_sub_comm]
    exact Pic.roundEven_near _
  · intro p hm
    rw [hd, rawPanels_eq, List.mem_map] at hm
    obtain ⟨i, hi, rfl⟩ := hm
    have hi := List.mem_range.1 hi
    by_cases h1 : min nt n = 1
    · unfold panelAt; rw [if_pos h1]; constructor <;> omega
    · have hn : 1 ≤ min nt n := by omega
      have hp0 : panelAt nt (min nt n) 0 = 0 := by
        unfold panelAt; rw [if_neg h1]
        have := roundEven_int 0
        simpa using this
      have hkr : (0 : ℝ) < ((min nt n : ℕ) : ℝ) - 1 := by
        have : (2 : ℝ) ≤ ((min nt n : ℕ) : ℝ) := by exact_mod_cast (by omega : 2 ≤ min nt n)
        linarith
      have hpl : panelAt nt (min nt n) (min nt n - 1) = nt - 1 := by
        unfold panelAt; rw [if_neg h1]
        have e : (((min nt n - 1 : ℕ) : ℝ)) = ((min nt n : ℕ) : ℝ) - 1 := by rw [Nat.cast_sub hn]; norm_num
        rw [e, mul_div_assoc, mul_div_cancel₀ _ hkr.ne']
        have := roundEven_int ((nt : ℤ) - 1)
        push_cast at this
        exact this
      constructor
      · rcases Nat.eq_zero_or_pos i with rfl | h
        · rw [hp0]
        · have := panelAt_lt nt (min nt n) 0 i (min_le_left _ _) h hi
          rw [hp0] at this; omega
      · rcases (by omega : i = min nt n - 1 ∨ i < min nt n - 1) with rfl | h
        · rw [hpl]; omega
        · have := panelAt_lt nt (min nt n) i (min nt n - 1) (min_le_left _ _) h (by omega)
          rw [hpl] at this; omega

/-- C211: with two panels or more the last saved time is drawn. -/
theorem panels_last (nt n : ℕ) (hn : 2 ≤ n) (ht : 1 ≤ nt) : (0 : ℤ) ∈ panels nt n ∧ (nt : ℤ) - 1 ∈ panels nt n := by
  have hm : ∀ i < min nt n, panelAt nt (min nt n) i ∈ panels nt n := fun i hi => by
    unfold panels
    rw [List.mem_dedup, rawPanels_eq]
    exact List.mem_map.2 ⟨i, List.mem_range.2 hi, rfl⟩
  by_cases h1 : min nt n = 1
  · have hnt : nt = 1 := by omega
    have := hm 0 (by omega)
    unfold panelAt at this
    rw [if_pos h1] at this
    subst hnt
    exact ⟨this, by simpa using this⟩
  · have a := hm 0 (by omega)
    have b := hm (min nt n - 1) (by omega)
    have hkr : (0 : ℝ) < ((min nt n : ℕ) : ℝ) - 1 := by
      have : (2 : ℝ) ≤ ((min nt n : ℕ) : ℝ) := by exact_mod_cast (by omega : 2 ≤ min nt n)
      linarith
    have e : (((min nt n - 1 : ℕ) : ℝ)) = ((min nt n : ℕ) : ℝ) - 1 := by rw [Nat.cast_sub (by omega)]; norm_num
    unfold panelAt at a b
    rw [if_neg h1] at a b
    rw [e, mul_div_assoc, mul_div_cancel₀ _ hkr.ne'] at b
    have r0 := roundEven_int 0
    have rl := roundEven_int ((nt : ℤ) - 1)
    push_cast at r0 rl
    rw [rl] at b
    constructor
    · have : (((0 : ℕ) : ℝ) * ((nt : ℝ) - 1) / (((min nt n : ℕ) : ℝ) - 1)) = 0 := by simp
      rw [this, r0] at a
      exact a
    · exact b

/-- C211 fails for one panel: it is the initial state, never the result. -/
theorem one_panel_partial (nt : ℕ) (h : 1 ≤ nt) : panels nt 1 = [0] := by
  have : min nt 1 = 1 := by omega
  unfold panels
  rw [rawPanels_eq, this]
  rfl

theorem foldl_abs_ge : ∀ (l : List ℝ) (b : ℝ), b ≤ l.foldl (fun m w => max m |w|) b ∧ ∀ w ∈ l, |w| ≤ l.foldl (fun m w => max m |w|) b
  | [], b => ⟨le_refl _, fun w h => absurd h List.not_mem_nil⟩
  | c :: l, b => by
    have h := foldl_abs_ge l (max b |c|)
    refine ⟨(le_max_left _ _).trans h.1, fun w hw => ?_⟩
    rcases List.mem_cons.1 hw with rfl | hw
    · exact (le_max_right _ _).trans h.1
    · exact h.2 w hw

theorem foldl_abs_mem : ∀ (l : List ℝ) (b : ℝ), l.foldl (fun m w => max m |w|) b = b ∨ ∃ w ∈ l, l.foldl (fun m w => max m |w|) b = |w|
  | [], b => .inl rfl
  | c :: l, b => by
    rcases foldl_abs_mem l (max b |c|) with h | ⟨w, hw, h⟩
    · rw [List.foldl_cons, h]
      rcases max_choice b |c| with e | e
      · exact .inl e
      · exact .inr ⟨c, List.mem_cons_self, e⟩
    · exact .inr ⟨w, List.mem_cons_of_mem _ hw, h⟩

theorem foldl_min_le : ∀ (l : List ℝ) (b : ℝ), l.foldl min b ≤ b ∧ (∀ w ∈ l, l.foldl min b ≤ w) ∧ (l.foldl min b = b ∨ l.foldl min b ∈ l)
  | [], b => ⟨le_refl _, fun w h => absurd h List.not_mem_nil, .inl rfl⟩
  | c :: l, b => by
    have h := foldl_min_le l (min b c)
    refine ⟨h.1.trans (min_le_left _ _), fun w hw => ?_, ?_⟩
    · rcases List.mem_cons.1 hw with rfl | hw
      · exact h.1.trans (min_le_right _ _)
      · exact h.2.1 w hw
    · rcases h.2.2 with e | e
      · rw [List.foldl_cons, e]
        rcases min_choice b c with e | e
        · exact .inl e
        · rw [e]; exact .inr List.mem_cons_self
      · exact .inr (List.mem_cons_of_mem _ e)

theorem foldl_max_le : ∀ (l : List ℝ) (b : ℝ), b ≤ l.foldl max b ∧ (∀ w ∈ l, w ≤ l.foldl max b) ∧ (l.foldl max b = b ∨ l.foldl max b ∈ l)
  | [], b => ⟨le_refl _, fun w h => absurd h List.not_mem_nil, .inl rfl⟩
  | c :: l, b => by
    have h := foldl_max_le l (max b c)
    refine ⟨(le_max_left _ _).trans h.1, fun w hw => ?_, ?_⟩
    · rcases List.mem_cons.1 hw with rfl | hw
      · exact (le_max_right _ _).trans h.1
      · exact h.2.1 w hw
    · rcases h.2.2 with e | e
      · rw [List.foldl_cons, e]
        rcases max_choice b c with e | e
        · exact .inl e
        · rw [e]; exact .inr List.mem_cons_self
      · exact .inr (List.mem_cons_of_mem _ e)

/-- C211: one colour scale contains the values of all panels, has a width, and a signed quantity has zero in the middle; the ends are
reached by a value, except for a constant. -/
theorem colours_spec (d : Bool) (floor : ℝ) (hf : 0 < floor) (vals : List ℝ) :
    (colours d floor vals).1 < (colours d floor vals).2 ∧ (∀ v ∈ vals, (colours d floor vals).1 ≤ v ∧ v ≤ (colours d floor vals).2)
    ∧ (d = true → (colours d floor vals).1 = -(colours d floor vals).2)
    ∧ (d = true → vals ≠ [] → floor < (colours d floor vals).2 → ∃ v ∈ vals, |v| = (colours d floor vals).2)
    ∧ (d = false → vals ≠ [] → (colours d floor vals).1 ∈ vals ∧ ((colours d floor vals).2 ∈ vals ∨ ∀ v ∈ vals, ∀ w ∈ vals, v = w)) := by
  cases vals with
  | nil => simp [colours]
  | cons v l =>
    cases d with
    | true =>
      have h := foldl_abs_ge (v :: l) 0
      have e : colours true floor (v :: l) = (-max ((v :: l).foldl (fun m w => max m |w|) 0) floor, max ((v :: l).foldl (fun m w => max m |w|) 0) floor) := rfl
      have hm := foldl_abs_mem (v :: l) 0
      rw [e]
      generalize (v :: l).foldl (fun m w => max m |w|) 0 = M at *
      have h1 := le_max_left M floor
      have h2 := le_max_right M floor
      dsimp only
      refine ⟨by linarith, fun w hw => ?_, fun _ => rfl, fun _ _ hlt => ?_, fun h => (by cases h)⟩
      · have := abs_le.1 (h.2 w hw)
        constructor <;> linarith [this.1, this.2]
      · rcases max_choice M floor with e | e
        · rw [e] at hlt ⊢
          rcases hm with hm | ⟨w, hw, hm⟩
          · linarith
          · exact ⟨w, hw, hm.symm⟩
        · rw [e] at hlt; exact absurd hlt (lt_irrefl _)
    | false =>
      have h1 := foldl_min_le l v
      have h2 := foldl_max_le l v
      have e : colours false floor (v :: l) = (l.foldl min v, if l.foldl min v = l.foldl max v then l.foldl min v + 1 else l.foldl max v) := rfl
      rw [e]
      generalize l.foldl min v = lo at *
      generalize l.foldl max v = hi at *
      have hlh : lo ≤ hi := h1.1.trans h2.1
      have hlo : ∀ w ∈ v :: l, lo ≤ w := fun w hw => by
        rcases List.mem_cons.1 hw with rfl | hw
        · exact h1.1
        · exact h1.2.1 w hw
      have hhi : ∀ w ∈ v :: l, w ≤ hi := fun w hw => by
        rcases List.mem_cons.1 hw with rfl | hw
        · exact h2.1
        · exact h2.2.1 w hw
      have mlo : lo ∈ v :: l := by
        rcases h1.2.2 with e | e
        · rw [e]; exact List.mem_cons_self
        · exact List.mem_cons_of_mem _ e
      have mhi : hi ∈ v :: l := by
        rcases h2.2.2 with e | e
        · rw [e]; exact List.mem_cons_self
        · exact List.mem_cons_of_mem _ e
      dsimp only
      split
      · rename_i heq
        refine ⟨by linarith, fun w hw => ⟨hlo w hw, by linarith [hhi w hw]⟩, fun h => (by cases h), fun h => (by cases h), fun _ _ => ⟨mlo, .inr fun a ha b hb => ?_⟩⟩
        have := hlo a ha; have := hhi a ha; have := hlo b hb; have := hhi b hb
        linarith
      · rename_i hne
        exact ⟨lt_of_le_of_ne hlh hne, fun w hw => ⟨hlo w hw, hhi w hw⟩, fun h => (by cases h), fun h => (by cases h), fun _ _ => ⟨mlo, .inl mhi⟩⟩

/-- C211: the cells of a figure with limits are exactly those inside; limits without any cell are an error. -/
theorem inside_spec (n : ℕ) (x : ℕ → ℝ) (lo hi : ℝ) :
    (∀ l, inside n x (some (lo, hi)) = .ok l → l ≠ [] ∧ ∀ i, i ∈ l ↔ i < n ∧ lo ≤ x i ∧ x i ≤ hi)
    ∧ ((∃ m, inside n x (some (lo, hi)) = .error m) ↔ ∀ i < n, ¬ (lo ≤ x i ∧ x i ≤ hi)) ∧ inside n x none = .ok (List.range n) := by
  have e : inside n x (some (lo, hi)) = if ((List.range n).filter fun i => decide (lo ≤ x i ∧ x i ≤ hi)) = [] then .error "ValueError: no coordinates"
    else .ok ((List.range n).filter fun i => decide (lo ≤ x i ∧ x i ≤ hi)) := rfl
  refine ⟨fun l hl => ?_, ?_, rfl⟩
  · rw [e] at hl
    split at hl
    · cases hl
    · rename_i hne
      cases hl
      exact ⟨hne, fun i => by simp⟩
  · rw [e]
    split
    · rename_i he
      refine ⟨fun _ i hin hc => ?_, fun _ => ⟨_, rfl⟩⟩
      have : i ∈ (List.range n).filter fun i => decide (lo ≤ x i ∧ x i ≤ hi) := by simp [hin, hc]
      rw [he] at this
      exact absurd this List.not_mem_nil
    · rename_i hne
      refine ⟨fun ⟨m, h⟩ => (by cases h), fun h => ?_⟩
      obtain ⟨i, hi⟩ := List.exists_mem_of_ne_nil _ hne
      simp only [List.mem_filter, List.mem_range, decide_eq_true_eq] at hi
      exact absurd hi.2 (h i hi.1)

/-- C211: the metrics: the peak bounds the size of every reported value and is reached or zero; the final value is the last one, or zero. -/
theorem metrics_spec (l : List (Option ℝ)) :
    (∀ v, some v ∈ l → |v| ≤ peakAbs l) ∧ (peakAbs l = 0 ∨ ∃ v, some v ∈ l ∧ peakAbs l = |v|) ∧ |finalOr l| ≤ peakAbs l
    ∧ (∀ l' v, l = l' ++ [some v] → finalOr l = v) ∧ (∀ l', l = l' ++ [none] → finalOr l = 0) := by
  have h := foldl_abs_ge (l.filterMap id) 0
  have hm := foldl_abs_mem (l.filterMap id) 0
  have mem : ∀ v, some v ∈ l ↔ v ∈ l.filterMap id := fun v => by simp
  have hf : ∀ l' v, l = l' ++ [some v] → finalOr l = v := fun l' v e => by subst e; simp [finalOr]
  have hn : ∀ l', l = l' ++ [none] → finalOr l = 0 := fun l' e => by subst e; simp [finalOr]
  have h1 : ∀ v, some v ∈ l → |v| ≤ peakAbs l := fun v hv => h.2 v ((mem v).1 hv)
  refine ⟨h1, ?_, ?_, hf, hn⟩
  · rcases hm with e | ⟨w, hw, e⟩
    · exact .inl e
    · exact .inr ⟨w, (mem w).2 hw, e⟩
  · rcases List.eq_nil_or_concat l with e | ⟨l', o, e⟩
    · subst e; simp [finalOr, peakAbs]
    · rw [List.concat_eq_append] at e
      cases o with
      | none => rw [hn l' e, abs_zero]; exact h.1
      | some v => rw [hf l' v e]; exact h1 v (by rw [e]; simp)

/-- C211: the valid fraction is in [0,1], one exactly when every saved time is valid and zero when none is. -/
theorem fraction_spec (p : Slice → Prop) (run : List Slice) (h : run ≠ []) :
    0 ≤ fraction p run ∧ fraction p run ≤ 1 ∧ (fraction p run = 1 ↔ ∀ s ∈ run, p s) ∧ (fraction p run = 0 ↔ ∀ s ∈ run, ¬ p s) := by
  classical
  have hl : (0 : ℝ) < run.length := by exact_mod_cast List.length_pos_iff.2 h
  have hle : ((run.filter fun s => decide (p s)).length : ℝ) ≤ run.length := by exact_mod_cast List.length_filter_le _ _
  have e : fraction p run = ((run.filter fun s => decide (p s)).length : ℝ) / run.length := by
    unfold fraction
    congr!
  rw [e]
  refine ⟨by positivity, (div_le_one hl).2 hle, ?_, ?_⟩
  · rw [div_eq_one_iff_eq hl.ne']
    constructor
    · intro h1 s hs
      have h2 : (run.filter fun s => decide (p s)).length = run.length := by exact_mod_cast h1
      have := List.length_filter_eq_length_iff.1 h2 s hs
      simpa using this
    · intro h1
      have h2 : (run.filter fun s => decide (p s)).length = run.length := List.length_filter_eq_length_iff.2 fun s hs => by simpa using h1 s hs
      exact_mod_cast h2
  · rw [div_eq_zero_iff]
    constructor
    · intro h1 s hs hp
      have h2 : (run.filter fun s => decide (p s)).length = 0 := by
        rcases h1 with h1 | h1
        · exact_mod_cast h1
        · exact absurd h1 hl.ne'
      have h3 := List.eq_nil_iff_length_eq_zero.2 h2
      have h4 : s ∈ run.filter fun s => decide (p s) := by simp [hs, hp]
      rw [h3] at h4
      exact absurd h4 List.not_mem_nil
    · intro h1
      left
      have : (run.filter fun s => decide (p s)) = [] := List.filter_eq_nil_iff.2 fun s hs => by simpa using h1 s hs
      rw [this]; simp

/-- Eleven saved times in four panels. -/
example : panels 11 4 = [0, 3, 7, 10] := by
  have h := (panels_spec 11 4)
  have r : ∀ (x : ℝ) (m : ℤ), (m : ℝ) - 1 / 2 < x → x < (m : ℝ) + 1 / 2 → Pic.roundEven x = m := fun x m h1 h2 => by
    have := abs_le.1 (Pic.roundEven_near x)
    have a : (Pic.roundEven x : ℝ) < m + 1 := by linarith [this.1, this.2]
    have b : (m : ℝ) - 1 < Pic.roundEven x := by linarith [this.1, this.2]
    have a' : Pic.roundEven x < m + 1 := by exact_mod_cast a
    have b' : m - 1 < Pic.roundEven x := by exact_mod_cast b
    omega
  have l : List.range (min 11 4) = [0, 1, 2, 3] := rfl
  have m : min 11 4 = 4 := rfl
  unfold panels
  rw [rawPanels_eq, l, m]
  simp only [List.map, panelAt]
  rw [r _ 0, r _ 3, r _ 7, r _ 10]
  · decide
  all_goals norm_num

end Verif.Vfp2d.Recon
