import Verif.Model.Lineouts
import Mathlib.Data.List.Sort
import Mathlib.Tactic.Linarith
import Mathlib.Tactic.Ring

/-!
Saved times drawn as panels (C217).
-/

namespace Verif.Lineouts

theorem skip_pos (nt panels : ℕ) : 0 < skip nt panels := by
  unfold skip
  split_ifs <;> omega

theorem mem_strided (stop step i : ℕ) (h : 0 < step) : i ∈ strided stop step ↔ step ∣ i ∧ i < stop := by
  unfold strided
  rw [List.mem_map]
  constructor
  · rintro ⟨j, hj, rfl⟩
    rw [List.mem_range, Nat.lt_iff_add_one_le, Nat.le_div_iff_mul_le h] at hj
    refine ⟨⟨j, by ring⟩, ?_⟩
    have : (j + 1) * step = j * step + step := by ring
    omega
  · rintro ⟨⟨j, rfl⟩, hj⟩
    refine ⟨j, ?_, by ring⟩
    rw [List.mem_range, Nat.lt_iff_add_one_le, Nat.le_div_iff_mul_le h]
    have : (j + 1) * step = step * j + step := by ring
    omega

theorem length_strided (stop step : ℕ) : (strided stop step).length = (stop + step - 1) / step := by simp [strided]

theorem sorted_strided (stop step : ℕ) (h : 0 < step) : (strided stop step).Pairwise (· < ·) := by
  unfold strided
  rw [List.pairwise_map]
  exact List.pairwise_lt_range.imp fun h' => Nat.mul_lt_mul_of_pos_right h' h

theorem skip_eq (nt panels : ℕ) : skip nt panels = max 1 (nt / panels) := by
  unfold skip
  split_ifs <;> omega

/-- **C217 (which times).**  The panels are the saved times whose number is a multiple of the stride
`max 1 (nt / panels)`, in increasing order and without repetition; the first saved time is drawn whenever there are at
least two. -/
theorem panels_spec (panels nt : ℕ) :
    (∀ i, i ∈ panelsDropLast panels nt ↔ max 1 (nt / panels) ∣ i ∧ i + 1 < nt) ∧
      (panelsDropLast panels nt).Pairwise (· < ·) ∧ (2 ≤ nt → 0 ∈ panelsDropLast panels nt) := by
  have m : ∀ i, i ∈ panelsDropLast panels nt ↔ max 1 (nt / panels) ∣ i ∧ i + 1 < nt := by
    intro i
    unfold panelsDropLast
    rw [mem_strided _ _ _ (skip_pos _ _), skip_eq]
    have : i < nt - 1 ↔ i + 1 < nt := by omega
    rw [this]
  exact ⟨m, sorted_strided _ _ (skip_pos _ _), fun h => (m 0).2 ⟨dvd_zero _, by omega⟩⟩

/-- The same for the Hermite-Fourier solver, which may also draw the last saved time. -/
theorem panels_all_spec (panels nt : ℕ) :
    (∀ i, i ∈ panelsAll panels nt ↔ max 1 (nt / panels) ∣ i ∧ i < nt) ∧
      (panelsAll panels nt).Pairwise (· < ·) ∧ (1 ≤ nt → 0 ∈ panelsAll panels nt) := by
  have m : ∀ i, i ∈ panelsAll panels nt ↔ max 1 (nt / panels) ∣ i ∧ i < nt := by
    intro i
    unfold panelsAll
    rw [mem_strided _ _ _ (skip_pos _ _), skip_eq]
  exact ⟨m, sorted_strided _ _ (skip_pos _ _), fun h => (m 0).2 ⟨dvd_zero _, by omega⟩⟩

theorem count_bounds (panels nt : ℕ) (hp : 2 ≤ panels) (h : panels ≤ nt) (s : ℕ) (h1 : nt ≤ s + 1) (h2 : s ≤ nt) :
    panels - 1 ≤ (s + skip nt panels - 1) / skip nt panels ∧ (s + skip nt panels - 1) / skip nt panels ≤ 2 * panels - 2 + (s + 1 - nt) := by
  have q1 : 1 ≤ nt / panels := (Nat.le_div_iff_mul_le (by omega)).2 (by omega)
  have e : skip nt panels = nt / panels := by rw [skip_eq]; omega
  rw [e]
  have d := Nat.div_add_mod nt panels
  have r := Nat.mod_lt nt (show 0 < panels by omega)
  generalize nt / panels = q at *
  generalize nt % panels = r' at *
  constructor
  · rw [Nat.le_div_iff_mul_le (by omega)]
    obtain ⟨p, rfl⟩ : ∃ p, panels = p + 1 := ⟨panels - 1, by omega⟩
    rw [Nat.add_sub_cancel]
    have : (p + 1) * q = p * q + q := by ring
    omega
  · rw [← Nat.lt_add_one_iff, Nat.div_lt_iff_lt_mul (by omega)]
    obtain ⟨p, rfl⟩ : ∃ p, panels = p + 2 := ⟨panels - 2, by omega⟩
    obtain ⟨k, rfl⟩ : ∃ k, q = k + 1 := ⟨q - 1, by omega⟩
    rcases Nat.lt_or_ge s nt with hs | hs
    · have z : s + 1 - nt = 0 := by omega
      rw [z]
      have : 2 * (p + 2) - 2 + 0 + 1 = 2 * p + 3 := by omega
      rw [this]
      have e1 : (p + 2) * (k + 1) = p * k + p + 2 * k + 2 := by ring
      have e2 : (2 * p + 3) * (k + 1) = 2 * (p * k) + 2 * p + 3 * k + 3 := by ring
      rw [e2]
      omega
    · have z : s + 1 - nt = 1 := by omega
      rw [z]
      have : 2 * (p + 2) - 2 + 1 + 1 = 2 * p + 4 := by omega
      rw [this]
      have e1 : (p + 2) * (k + 1) = p * k + p + 2 * k + 2 := by ring
      have e2 : (2 * p + 4) * (k + 1) = 2 * (p * k) + 2 * p + 4 * k + 4 := by ring
      rw [e2]
      omega

/-- **C217 (how many).**  With at least as many saved times as wanted panels, their number is at least one less than
wanted and at most twice as many less two. -/
theorem panels_count (panels nt : ℕ) (hp : 2 ≤ panels) (h : panels ≤ nt) :
    panels - 1 ≤ (panelsDropLast panels nt).length ∧ (panelsDropLast panels nt).length ≤ 2 * panels - 2 := by
  unfold panelsDropLast
  rw [length_strided]
  have := count_bounds panels nt hp h (nt - 1) (by omega) (by omega)
  have z : nt - 1 + 1 - nt = 0 := by omega
  rw [z] at this
  exact this

/-- The Hermite-Fourier figures have between six and eleven panels. -/
theorem panels_all_count (nt : ℕ) (h : 6 ≤ nt) : 6 ≤ (panelsAll 6 nt).length ∧ (panelsAll 6 nt).length ≤ 11 := by
  unfold panelsAll
  rw [length_strided]
  have b := count_bounds 6 nt (by norm_num) h nt (by omega) le_rfl
  refine ⟨?_, by omega⟩
  rw [Nat.le_div_iff_mul_le (skip_pos _ _)]
  have e : skip nt 6 = nt / 6 := by rw [skip_eq]; omega
  rw [e]
  omega

/-- Both bounds are met. -/
example : (panelsDropLast 8 8).length = 7 ∧ (panelsDropLast 8 15).length = 14 ∧ (panelsAll 6 11).length = 11 := by decide

/-- Few saved times: each but the last is a panel. -/
theorem panels_few (panels nt : ℕ) (h : nt < 2 * panels) : panelsDropLast panels nt = List.range (nt - 1) := by
  have e : skip nt panels = 1 := by
    rw [skip_eq]
    have : nt / panels < 2 := by
      rw [Nat.div_lt_iff_lt_mul (by omega)]
      omega
    omega
  unfold panelsDropLast strided
  rw [e]
  simp

/-- **C217 (the final state, the code violates the claim).**  The last saved time is never drawn by any solver but the
Hermite-Fourier one, and with a single saved time no panel is drawn at all. -/
theorem panels_last_partial (panels nt : ℕ) : nt - 1 ∉ panelsDropLast panels nt ∧ panelsDropLast panels 1 = [] := by
  refine ⟨fun h => ?_, ?_⟩
  · have := ((panels_spec panels nt).1 _).1 h
    omega
  · unfold panelsDropLast strided
    have : (1 - 1 + skip 1 panels - 1) / skip 1 panels = 0 := Nat.div_eq_of_lt (by have := skip_pos 1 panels; omega)
    rw [this]
    rfl

end Verif.Lineouts
