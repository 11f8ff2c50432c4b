import Verif.Model.Beta
import Verif.Lemmas.Tilt
import Mathlib.MeasureTheory.Integral.Gamma
import Mathlib.MeasureTheory.Measure.Lebesgue.Integral
import Mathlib.Analysis.Convex.Deriv
import Mathlib.Analysis.SpecialFunctions.Log.Deriv

/-! C182, C183: the inverse temperature of the collision operators. -/
namespace Verif.Beta
open Finset

/-! ### Specification -/

/-- The cell counts in the temperature: on a speed grid the cell at rest has no volume. -/
def Counts (g : VGrid) (vbar : Option ℝ) (i : ℕ) : Prop := i < g.n ∧ (g.spherical → shifted g vbar i ≠ 0)

/-- The temperature of particles that all have the speed of cell `i`: `v²`, or a third of it
in three dimensions. -/
noncomputable def cellT (g : VGrid) (vbar : Option ℝ) (i : ℕ) : ℝ :=
  if g.spherical then shifted g vbar i ^ 2 / 3 else shifted g vbar i ^ 2

/-- The volume of cell `i` in velocity space. -/
noncomputable def volume (g : VGrid) (vbar : Option ℝ) (i : ℕ) : ℝ :=
  if g.spherical then shifted g vbar i ^ 2 * g.dv i else g.dv i

/-- Positive spacings. -/
def VGrid.Ok (g : VGrid) : Prop := ∀ i < g.n, 0 < g.dv i

/-! ### Reduction to averages -/

theorem volume_nonneg {g : VGrid} (hg : g.Ok) (vbar : Option ℝ) (i : ℕ) (hi : i ∈ range g.n) : 0 ≤ volume g vbar i := by
  have := hg i (mem_range.1 hi)
  unfold volume
  split_ifs
  · positivity
  · exact this.le

theorem volume_pos_iff {g : VGrid} (hg : g.Ok) (vbar : Option ℝ) {i : ℕ} (hi : i < g.n) :
    0 < volume g vbar i ↔ Counts g vbar i := by
  have := hg i hi
  unfold volume Counts
  cases hs : g.spherical
  · simp [this, hi]
  · simp only [if_true, hi, true_and, forall_const]
    constructor
    · intro h h0; rw [h0] at h; norm_num at h
    · intro h; have := sq_pos_of_ne_zero h; positivity

theorem temperature_tilt (g : VGrid) (vbar : Option ℝ) (f : ℕ → ℝ) :
    temperature g vbar f = tilt (range g.n) (fun i => f i * volume g vbar i) (cellT g vbar) (fun _ => 0) 0 := by
  unfold temperature tilt volume cellT
  simp only [mul_zero, Real.exp_zero, mul_one]
  cases g.spherical
  · simp only [Bool.false_eq_true, if_false]
    congr 1
    exact sum_congr rfl fun i _ => by ring
  · simp only [if_true]
    rw [← div_div, div_eq_mul_inv _ (3 : ℝ), sum_mul]
    congr 1
    · exact sum_congr rfl fun i _ => by ring
    · exact sum_congr rfl fun i _ => by ring

/-- C182: the temperature is the average of the cell temperatures over the particles. -/
theorem temperature_average (g : VGrid) (vbar : Option ℝ) (f : ℕ → ℝ) :
    temperature g vbar f = (∑ i ∈ range g.n, f i * volume g vbar i * cellT g vbar i) / ∑ i ∈ range g.n, f i * volume g vbar i := by
  rw [temperature_tilt]; simp [tilt]

theorem model_eq (g : VGrid) (vbar : Option ℝ) (m β : ℝ) (i : ℕ) :
    model g vbar m β i = Real.exp (-β * |shifted g vbar i| ^ m) := by
  unfold model
  split_ifs with h
  · subst h
    rw [show (2 : ℝ) = ((2 : ℕ) : ℝ) by norm_num, Real.rpow_natCast, sq_abs]
  · rfl

theorem model_tilt (g : VGrid) (vbar : Option ℝ) (m β : ℝ) :
    temperature g vbar (model g vbar m β) =
      tilt (range g.n) (volume g vbar) (cellT g vbar) (fun i => |shifted g vbar i| ^ m) β := by
  rw [temperature_average]
  unfold tilt
  congr 1 <;> exact sum_congr rfl fun i _ => by rw [model_eq]; ring

theorem cellT_lt (g : VGrid) (vbar : Option ℝ) (i j : ℕ) :
    cellT g vbar i < cellT g vbar j ↔ |shifted g vbar i| < |shifted g vbar j| := by
  rw [← sq_lt_sq]
  unfold cellT
  split_ifs
  · constructor <;> intro h <;> linarith
  · rfl

theorem pow_lt (g : VGrid) (vbar : Option ℝ) {m : ℝ} (hm : 0 < m) (i j : ℕ) :
    |shifted g vbar i| ^ m < |shifted g vbar j| ^ m ↔ |shifted g vbar i| < |shifted g vbar j| :=
  Real.rpow_lt_rpow_iff (abs_nonneg _) (abs_nonneg _) hm

theorem pow_eq (g : VGrid) (vbar : Option ℝ) {m : ℝ} (hm : 0 < m) (i j : ℕ)
    (h : |shifted g vbar i| ^ m = |shifted g vbar j| ^ m) : cellT g vbar i = cellT g vbar j := by
  have h1 : ¬ cellT g vbar i < cellT g vbar j := fun h' => by
    rw [cellT_lt, ← pow_lt g vbar hm] at h'; exact h'.ne h
  have h2 : ¬ cellT g vbar j < cellT g vbar i := fun h' => by
    rw [cellT_lt, ← pow_lt g vbar hm] at h'; exact h'.ne h.symm
  exact le_antisymm (not_lt.1 h2) (not_lt.1 h1)

/-! ### C182 -/

/-- Two cells that count have different speeds. -/
def Spread (g : VGrid) (vbar : Option ℝ) : Prop :=
  ∃ i j, Counts g vbar i ∧ Counts g vbar j ∧ |shifted g vbar i| < |shifted g vbar j|

/-- C182: a larger shape parameter is a colder distribution, for every exponent. -/
theorem shape_colder (g : VGrid) (hg : g.Ok) (vbar : Option ℝ) (hs : Spread g vbar) (m : ℝ) (hm : 0 < m) :
    StrictAnti fun β => temperature g vbar (model g vbar m β) := by
  obtain ⟨i, j, hi, hj, hij⟩ := hs
  have h := tilt_strictAnti (q := cellT g vbar) (p := fun i => |shifted g vbar i| ^ m) (volume_nonneg hg vbar)
    (fun i _ j _ h => (cellT_lt g vbar i j).2 ((pow_lt g vbar hm i j).1 h)) (fun i _ j _ h => pow_eq g vbar hm i j h)
    (mem_range.2 hi.1) (mem_range.2 hj.1) ((volume_pos_iff hg vbar hi.1).2 hi) ((volume_pos_iff hg vbar hj.1).2 hj)
    ((pow_lt g vbar hm i j).2 hij)
  intro x y hxy
  simp only [model_tilt]
  exact h hxy

/-- Without two different speeds the temperature of the shape does not depend on it. -/
theorem no_spread_const (g : VGrid) (hg : g.Ok) (vbar : Option ℝ) (hs : ¬ Spread g vbar) (m : ℝ) (x y : ℝ) :
    temperature g vbar (model g vbar m x) = temperature g vbar (model g vbar m y) := by
  by_cases hc : ∃ k, Counts g vbar k
  · obtain ⟨k, hk⟩ := hc
    have same : ∀ i, Counts g vbar i → |shifted g vbar i| = |shifted g vbar k| := by
      intro i hi
      refine le_antisymm (not_lt.1 fun h => hs ⟨k, i, hk, hi, h⟩) (not_lt.1 fun h => hs ⟨i, k, hi, hk, h⟩)
    have key : ∀ β, temperature g vbar (model g vbar m β) = cellT g vbar k := by
      intro β
      rw [model_tilt]
      unfold tilt
      rw [div_eq_iff (den_pos (volume_nonneg hg vbar) (mem_range.2 hk.1) ((volume_pos_iff hg vbar hk.1).2 hk) β).ne', mul_sum]
      refine sum_congr rfl fun i hi => ?_
      by_cases h0 : Counts g vbar i
      · have : cellT g vbar i = cellT g vbar k :=
          le_antisymm (not_lt.1 fun h => ((cellT_lt g vbar k i).1 h).ne (same i h0).symm)
            (not_lt.1 fun h => ((cellT_lt g vbar i k).1 h).ne (same i h0))
        rw [this]; ring
      · have : volume g vbar i = 0 :=
          le_antisymm (not_lt.1 fun h => h0 ((volume_pos_iff hg vbar (mem_range.1 hi)).1 h)) (volume_nonneg hg vbar i hi)
        rw [this]; ring
    rw [key, key]
  · have z : ∀ i ∈ range g.n, volume g vbar i = 0 := fun i hi =>
      le_antisymm (not_lt.1 fun h => hc ⟨i, (volume_pos_iff hg vbar (mem_range.1 hi)).1 h⟩) (volume_nonneg hg vbar i hi)
    have key : ∀ β, temperature g vbar (model g vbar m β) = 0 := by
      intro β
      rw [model_tilt]
      unfold tilt
      rw [sum_eq_zero fun i hi => by rw [z i hi]; ring, zero_div]
    rw [key, key]

/-- C182: there is exactly one shape parameter with the wanted temperature if and only if the
grid has a colder cell and a hotter cell. -/
theorem beta_unique_iff (g : VGrid) (hg : g.Ok) (vbar : Option ℝ) (m : ℝ) (hm : 0 < m) (T : ℝ) :
    (∃! β, residual g vbar m T β = 0) ↔
      (∃ i, Counts g vbar i ∧ cellT g vbar i < T) ∧ ∃ j, Counts g vbar j ∧ T < cellT g vbar j := by
  constructor
  · rintro ⟨β, hβ, hu⟩
    have hs : Spread g vbar := by
      by_contra h
      have h1 : residual g vbar m T (β + 1) = 0 := by
        have := no_spread_const g hg vbar h m (β + 1) β
        unfold residual at hβ ⊢
        rw [this]; exact hβ
      have := hu _ h1
      linarith
    have hT : T = temperature g vbar (model g vbar m β) := by unfold residual at hβ; linarith
    obtain ⟨i, j, hi, hj, hij⟩ := hs
    have hq := (cellT_lt g vbar i j).2 hij
    have vi := (volume_pos_iff hg vbar hi.1).2 hi
    have vj := (volume_pos_iff hg vbar hj.1).2 hj
    rw [model_tilt] at hT
    constructor
    · by_contra h
      push Not at h
      have := lt_tilt (p := fun i => |shifted g vbar i| ^ m) (volume_nonneg hg vbar) β T
        (fun i hi h' => h i ((volume_pos_iff hg vbar (mem_range.1 hi)).1 h')) (mem_range.2 hj.1) vj (lt_of_le_of_lt (h i hi) hq)
      exact this.ne hT
    · by_contra h
      push Not at h
      have := tilt_lt (p := fun i => |shifted g vbar i| ^ m) (volume_nonneg hg vbar) β T
        (fun i hi h' => h i ((volume_pos_iff hg vbar (mem_range.1 hi)).1 h')) (mem_range.2 hi.1) vi (lt_of_lt_of_le hq (h j hj))
      exact this.ne hT.symm
  · rintro ⟨⟨i, hi, h1⟩, j, hj, h2⟩
    have hs : Spread g vbar := ⟨i, j, hi, hj, (cellT_lt g vbar i j).1 (h1.trans h2)⟩
    obtain ⟨β, hβ⟩ := tilt_surj (q := cellT g vbar) (p := fun i => |shifted g vbar i| ^ m) (volume_nonneg hg vbar)
      (fun i _ j _ h => (cellT_lt g vbar i j).2 ((pow_lt g vbar hm i j).1 h)) (fun i _ j _ h => pow_eq g vbar hm i j h)
      (mem_range.2 hi.1) (mem_range.2 hj.1) ((volume_pos_iff hg vbar hi.1).2 hi) ((volume_pos_iff hg vbar hj.1).2 hj) h1 h2
    rw [← model_tilt] at hβ
    refine ⟨β, by unfold residual; beta_reduce; rw [hβ]; ring, fun y hy => ?_⟩
    refine (shape_colder g hg vbar hs m hm).injective ?_
    unfold residual at hy
    dsimp only at hy ⊢
    rw [hβ]; linarith

/-- C182: for every distribution that is not negative and has particles of two different speeds
the self-consistent parameter exists and is unique. -/
theorem beta_of_distribution (g : VGrid) (hg : g.Ok) (vbar : Option ℝ) (m : ℝ) (hm : 0 < m) (f : ℕ → ℝ)
    (hf : ∀ i < g.n, 0 ≤ f i) (i j : ℕ) (hi : Counts g vbar i) (hj : Counts g vbar j) (fi : 0 < f i) (fj : 0 < f j)
    (hij : |shifted g vbar i| ≠ |shifted g vbar j|) :
    ∃! β, residual g vbar m (temperature g vbar f) β = 0 := by
  wlog h : |shifted g vbar i| < |shifted g vbar j| generalizing i j
  · exact this j i hj hi fj fi hij.symm (lt_of_le_of_ne (not_lt.1 h) hij.symm)
  have hq := (cellT_lt g vbar i j).2 h
  have nn : ∀ k ∈ range g.n, 0 ≤ f k * volume g vbar k := fun k hk =>
    mul_nonneg (hf k (mem_range.1 hk)) (volume_nonneg hg vbar k hk)
  have vi : 0 < f i * volume g vbar i := mul_pos fi ((volume_pos_iff hg vbar hi.1).2 hi)
  have vj : 0 < f j * volume g vbar j := mul_pos fj ((volume_pos_iff hg vbar hj.1).2 hj)
  have cnt : ∀ k ∈ range g.n, 0 < f k * volume g vbar k → Counts g vbar k := by
    intro k hk h
    refine (volume_pos_iff hg vbar (mem_range.1 hk)).1 ?_
    rcases (volume_nonneg hg vbar k hk).eq_or_lt with h0 | h0
    · rw [← h0, mul_zero] at h; exact absurd h (lt_irrefl _)
    · exact h0
  rw [beta_unique_iff g hg vbar m hm, temperature_tilt]
  constructor
  · by_contra h
    push Not at h
    exact (lt_irrefl _) (lt_tilt (p := fun _ => 0) nn 0 _ (fun k hk h' => h k (cnt k hk h')) (mem_range.2 hj.1) vj
      (lt_of_le_of_lt (h i hi) hq))
  · by_contra h
    push Not at h
    exact (lt_irrefl _) (tilt_lt (p := fun _ => 0) nn 0 _ (fun k hk h' => h k (cnt k hk h')) (mem_range.2 hi.1) vi
      (lt_of_lt_of_le hq (h j hj)))

/-- C182: the parameter is positive exactly for distributions colder than the flat one on the
grid; it is zero for the flat one and negative for hotter ones. -/
theorem beta_sign (g : VGrid) (hg : g.Ok) (vbar : Option ℝ) (hs : Spread g vbar) (m : ℝ) (hm : 0 < m) (T β : ℝ)
    (h : residual g vbar m T β = 0) :
    (0 < β ↔ T < temperature g vbar fun _ => 1) ∧ (β = 0 ↔ T = temperature g vbar fun _ => 1) := by
  have e0 : temperature g vbar (model g vbar m 0) = temperature g vbar fun _ => 1 := by
    congr 1; funext i; rw [model_eq]; simp
  have hT : T = temperature g vbar (model g vbar m β) := by unfold residual at h; linarith
  have ha := shape_colder g hg vbar hs m hm
  rw [← e0, hT]
  exact ⟨(ha.lt_iff_gt (a := β) (b := 0)).symm, ⟨fun h => by rw [h], fun h => ha.injective h⟩⟩

/-- The self-consistent parameter of the shape itself is its own parameter. -/
theorem beta_of_shape (g : VGrid) (vbar : Option ℝ) (m β c : ℝ) (hc : c ≠ 0) :
    residual g vbar m (temperature g vbar fun i => c * model g vbar m β i) β = 0 := by
  unfold residual
  rw [temperature_average g vbar, temperature_average g vbar]
  have e : ∀ w : ℕ → ℝ, ∑ i ∈ range g.n, c * model g vbar m β i * w i = c * ∑ i ∈ range g.n, model g vbar m β i * w i := by
    intro w; rw [mul_sum]; exact sum_congr rfl fun i _ => by ring
  have e2 := e fun i => volume g vbar i * cellT g vbar i
  simp only [← mul_assoc] at e2
  rw [e2, e, mul_div_mul_left _ _ hc, sub_self]

/-! ### Example: four cells -/

/-- Four cells of unit width. -/
noncomputable def four : VGrid := ⟨4, fun i => (i : ℝ) - 3 / 2, fun _ => 1, false⟩

theorem four_ok : four.Ok := fun _ _ => one_pos

theorem four_spread : Spread four none := by
  refine ⟨1, 0, ⟨by decide, by simp [four]⟩, ⟨by decide, by simp [four]⟩, ?_⟩
  simp only [shifted, four]
  norm_num [abs_of_neg]

/-- The temperature of `exp(-β v²)` on the four cells. -/
theorem four_temperature (β : ℝ) :
    temperature four none (model four none 2 β) = 1 / 4 + 2 / (1 + Real.exp (2 * β)) := by
  have h := Real.exp_pos (2 * β)
  have h9 : Real.exp (-β * (9 / 4)) = Real.exp (-β * (1 / 4)) * (Real.exp (2 * β))⁻¹ := by
    rw [← Real.exp_neg, ← Real.exp_add]; congr 1; ring
  have h1 := Real.exp_pos (-β * (1 / 4))
  unfold temperature
  have hs : four.spherical = false := rfl
  have hn : four.n = 4 := rfl
  simp only [hs, hn, Bool.false_eq_true, if_false, model, if_true, sum_range_succ, sum_range_zero, shifted, four]
  norm_num
  norm_num at h9 h1
  rw [h9]
  generalize Real.exp (-(β * (1 / 4))) = a at *
  generalize Real.exp (2 * β) = b at *
  field_simp
  ring

/-- A hollow distribution is hotter than the flat one: its parameter is negative. -/
example : (∃! β, residual four none 2 (temperature four none fun i => if i = 0 ∨ i = 3 then 3 else 1) β = 0) ∧
    ∀ β, residual four none 2 (temperature four none fun i => if i = 0 ∨ i = 3 then 3 else 1) β = 0 → β < 0 := by
  have e : temperature four none (fun i => if i = 0 ∨ i = 3 then 3 else 1) = 7 / 4 := by
    simp [temperature, four, sum_range_succ, shifted]; norm_num
  have e1 : (temperature four none fun _ => 1) = 5 / 4 := by
    simp [temperature, four, sum_range_succ, shifted]; norm_num
  constructor
  · refine beta_of_distribution four four_ok none 2 two_pos _ (fun i _ => by split_ifs <;> norm_num) 0 1
      ⟨by decide, by simp [four]⟩ ⟨by decide, by simp [four]⟩ (by norm_num) (by norm_num) ?_
    simp only [shifted, four]
    norm_num [abs_of_neg]
  · intro β h
    rw [e] at h
    obtain ⟨h1, h2⟩ := beta_sign four four_ok none four_spread 2 two_pos _ β h
    rw [e1] at h1 h2
    rcases lt_trichotomy β 0 with h' | h' | h'
    · exact h'
    · have := h2.1 h'; norm_num at this
    · have := h1.1 h'; norm_num at this

end Verif.Beta
