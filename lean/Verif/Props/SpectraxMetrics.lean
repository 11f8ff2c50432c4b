import Verif.Props.SpectraxWaves
import Mathlib.Analysis.Complex.ExponentialBounds
import Mathlib.Tactic.Linarith
import Mathlib.Tactic.NormNum
import Mathlib.Tactic.FieldSimp

/-!
Damping rate (C215) and the electromagnetic metrics and plot windows (C216) of the Hermite-Fourier wave modules.
-/

namespace Verif.SpectraxWaves

open Real

/-! ## The least-squares line -/

/-- Spread of the abscissae of a list of points. -/
noncomputable def spread (l : List (ℝ × ℝ)) : ℝ := (l.map fun p => (p.1 - listMean (l.map Prod.fst)) ^ 2).sum

theorem sum_sq_pos (l : List (ℝ × ℝ)) (m : ℝ) (p : ℝ × ℝ) (hp : p ∈ l) (h : p.1 ≠ m) :
    0 < (l.map fun p => (p.1 - m) ^ 2).sum := by
  induction l with
  | nil => simp at hp
  | cons q l ih =>
    rw [List.map_cons, List.sum_cons]
    have nn : 0 ≤ (l.map fun p => (p.1 - m) ^ 2).sum := List.sum_nonneg (by
      intro x hx
      obtain ⟨y, _, rfl⟩ := List.mem_map.1 hx
      positivity)
    rcases List.mem_cons.1 hp with rfl | hp
    · have : 0 < (p.1 - m) ^ 2 := by
        have := sub_ne_zero.2 h
        positivity
      linarith
    · have := ih hp
      have : 0 ≤ (q.1 - m) ^ 2 := by positivity
      linarith [ih hp]

/-- Two different abscissae give a positive spread. -/
theorem spread_pos (l : List (ℝ × ℝ)) (p q : ℝ × ℝ) (hp : p ∈ l) (hq : q ∈ l) (h : p.1 ≠ q.1) : 0 < spread l := by
  by_cases hm : p.1 = listMean (l.map Prod.fst)
  · exact sum_sq_pos l _ q hq (fun e => h (hm.trans e.symm))
  · exact sum_sq_pos l _ p hp hm

theorem sum_affine (l : List (ℝ × ℝ)) (a b : ℝ) (f : ℝ × ℝ → ℝ) :
    (l.map fun p => a + b * f p).sum = a * l.length + b * (l.map f).sum := by
  induction l with
  | nil => simp
  | cons q l ih => simp only [List.map_cons, List.sum_cons, ih, List.length_cons]; push_cast; ring

theorem slope_line (l : List (ℝ × ℝ)) (a b : ℝ) (hs : 0 < spread l) (line : ∀ p ∈ l, p.2 = a + b * p.1) : slope l = b := by
  have ne : l ≠ [] := by
    rintro rfl
    simp [spread] at hs
  have len : (l.length : ℝ) ≠ 0 := by
    have := List.length_pos_iff.2 ne
    positivity
  have my : listMean (l.map Prod.snd) = a + b * listMean (l.map Prod.fst) := by
    unfold listMean
    rw [List.map_congr_left (g := fun p => a + b * p.1) line, sum_affine l a b fun p => p.1]
    simp only [List.length_map]
    field_simp
  have num : (l.map fun p => (p.1 - listMean (l.map Prod.fst)) * (p.2 - listMean (l.map Prod.snd))).sum = b * spread l := by
    rw [my]
    unfold spread
    generalize listMean (l.map Prod.fst) = m
    have : ∀ p ∈ l, (p.1 - m) * (p.2 - (a + b * m)) = 0 + b * (p.1 - m) ^ 2 := by
      intro p hp
      rw [line p hp]
      ring
    rw [List.map_congr_left this, sum_affine l 0 b fun p => (p.1 - m) ^ 2]
    ring
  unfold slope
  rw [num]
  exact mul_div_cancel_right₀ b hs.ne'

theorem sum_lin (l : List (ℝ × ℝ)) (f g : ℝ × ℝ → ℝ) : (l.map fun p => f p + g p).sum = (l.map f).sum + (l.map g).sum := by
  induction l with
  | nil => simp
  | cons q l ih => simp only [List.map_cons, List.sum_cons, ih]; ring

/-- **C215 (best line).**  The slope and intercept of the fit minimise the sum of squared residuals over all lines. -/
theorem slope_least_squares (l : List (ℝ × ℝ)) (hs : 0 < spread l) (a b : ℝ) :
    (l.map fun p => (p.2 - (intercept l + slope l * p.1)) ^ 2).sum ≤ (l.map fun p => (p.2 - (a + b * p.1)) ^ 2).sum := by
  have ne : l ≠ [] := by
    rintro rfl
    simp [spread] at hs
  have len : (l.length : ℝ) ≠ 0 := by
    have := List.length_pos_iff.2 ne
    positivity
  have hx : (l.map fun p => p.1).sum = l.length * listMean (l.map Prod.fst) := by
    unfold listMean
    rw [List.length_map]
    field_simp
  have hy : (l.map fun p => p.2).sum = l.length * listMean (l.map Prod.snd) := by
    unfold listMean
    rw [List.length_map]
    field_simp
  have hn : (l.map fun p => (p.1 - listMean (l.map Prod.fst)) * (p.2 - listMean (l.map Prod.snd))).sum = slope l * spread l := by
    unfold slope
    rw [show (l.map fun p => (p.1 - listMean (l.map Prod.fst)) ^ 2).sum = spread l from rfl, div_mul_cancel₀ _ hs.ne']
  unfold spread at hn
  unfold intercept
  generalize slope l = s at *
  generalize listMean (l.map Prod.fst) = mx at *
  generalize listMean (l.map Prod.snd) = my at *
  -- residual and its two orthogonality relations
  have o1 : (l.map fun p => p.2 - (my - s * mx + s * p.1)).sum = 0 := by
    have e : (fun p : ℝ × ℝ => p.2 - (my - s * mx + s * p.1)) = fun p => (0 + 1 * p.2) + ((-(my - s * mx)) + (-s) * p.1) := by
      funext p; ring
    rw [e, sum_lin, sum_affine l 0 1 fun p => p.2, sum_affine l (-(my - s * mx)) (-s) fun p => p.1, hx, hy]
    ring
  have o2 : (l.map fun p => (p.1 - mx) * (p.2 - (my - s * mx + s * p.1))).sum = 0 := by
    have e : (fun p : ℝ × ℝ => (p.1 - mx) * (p.2 - (my - s * mx + s * p.1))) =
        fun p => (0 + 1 * ((p.1 - mx) * (p.2 - my))) + (0 + (-s) * (p.1 - mx) ^ 2) := by
      funext p; ring
    rw [e, sum_lin, sum_affine l 0 1 fun p => (p.1 - mx) * (p.2 - my), sum_affine l 0 (-s) fun p => (p.1 - mx) ^ 2, hn]
    ring
  have e : (l.map fun p => (p.2 - (a + b * p.1)) ^ 2).sum = (l.map fun p => (p.2 - (my - s * mx + s * p.1)) ^ 2).sum +
      (l.map fun p => ((my - a - b * mx) + (s - b) * (p.1 - mx)) ^ 2).sum := by
    have g1 := sum_affine l 0 (2 * (s - b)) fun p => (p.1 - mx) * (p.2 - (my - s * mx + s * p.1))
    have g2 := sum_affine l 0 (2 * (my - a - b * mx)) fun p => p.2 - (my - s * mx + s * p.1)
    rw [o2] at g1
    rw [o1] at g2
    have h1 := sum_lin l (fun p => (p.2 - (my - s * mx + s * p.1)) ^ 2) fun p => ((my - a - b * mx) + (s - b) * (p.1 - mx)) ^ 2
    have h2 := sum_lin l (fun p => 0 + 2 * (s - b) * ((p.1 - mx) * (p.2 - (my - s * mx + s * p.1))))
      fun p => 0 + 2 * (my - a - b * mx) * (p.2 - (my - s * mx + s * p.1))
    have h3 := sum_lin l (fun p => (p.2 - (my - s * mx + s * p.1)) ^ 2 + ((my - a - b * mx) + (s - b) * (p.1 - mx)) ^ 2)
      fun p => (0 + 2 * (s - b) * ((p.1 - mx) * (p.2 - (my - s * mx + s * p.1)))) + (0 + 2 * (my - a - b * mx) * (p.2 - (my - s * mx + s * p.1)))
    rw [h1, h2, g1, g2] at h3
    rw [← sub_eq_zero]
    rw [show (fun p : ℝ × ℝ => (p.2 - (a + b * p.1)) ^ 2) = fun p => ((p.2 - (my - s * mx + s * p.1)) ^ 2 + ((my - a - b * mx) + (s - b) * (p.1 - mx)) ^ 2) +
      ((0 + 2 * (s - b) * ((p.1 - mx) * (p.2 - (my - s * mx + s * p.1)))) + (0 + 2 * (my - a - b * mx) * (p.2 - (my - s * mx + s * p.1)))) by
        funext p; ring, h3]
    ring
  rw [e]
  have nn : 0 ≤ (l.map fun p => ((my - a - b * mx) + (s - b) * (p.1 - mx)) ^ 2).sum := List.sum_nonneg (by
    intro x hx
    obtain ⟨y, _, rfl⟩ := List.mem_map.1 hx
    positivity)
  linarith

/-- Non-vacuity: three points, not on a line. -/
example : 0 < spread [(0, 0), (1, 2), (2, 1)] := spread_pos _ (0, 0) (1, 2) (by simp) (by simp) (by norm_num)

/-! ## Damping rate -/

theorem mem_fitSamples (n : ℕ) (z : ℕ → ℂ) (t : ℕ → ℝ) (p : ℝ × ℝ) :
    p ∈ fitSamples n z t ↔ ∃ i, n / 3 ≤ i ∧ i < n ∧ ampFloor < ‖z i‖ ∧ p = (t i, ‖z i‖) := by
  unfold fitSamples fitStart
  rw [List.mem_filter, List.mem_map]
  constructor
  · rintro ⟨⟨i, hi, rfl⟩, h⟩
    rw [List.range_eq_range', List.drop_range', List.mem_range'_1] at hi
    exact ⟨i, by omega, by omega, by simpa using h, rfl⟩
  · rintro ⟨i, h1, h2, h3, rfl⟩
    refine ⟨⟨i, ?_, rfl⟩, by simpa using h3⟩
    rw [List.range_eq_range', List.drop_range', List.mem_range'_1]
    omega

/-- The saved times used by the fit: the last two thirds, where the amplitude exceeds `1e-20`. -/
noncomputable def used (n : ℕ) (z : ℕ → ℂ) : Finset ℕ := (Finset.range n).filter fun i => n / 3 ≤ i ∧ (1e-20 : ℝ) < ‖z i‖

theorem length_fitSamples (n : ℕ) (z : ℕ → ℂ) (t : ℕ → ℝ) : (fitSamples n z t).length = (used n z).card := by
  have e : used n z = (((List.range n).drop (n / 3)).filter fun i => decide (ampFloor < ‖z i‖)).toFinset := by
    ext i
    simp only [used, Finset.mem_filter, Finset.mem_range, List.mem_toFinset, List.mem_filter, decide_eq_true_eq]
    rw [List.range_eq_range', List.drop_range', List.mem_range'_1]
    unfold ampFloor
    constructor
    · rintro ⟨a, b, c⟩; exact ⟨by omega, c⟩
    · rintro ⟨a, c⟩; exact ⟨by omega, by omega, c⟩
  rw [e, List.toFinset_card_of_nodup ((List.nodup_range.sublist (List.drop_sublist _ _)).filter _)]
  unfold fitSamples fitStart
  rw [List.filter_map, List.length_map]
  rfl

/-- **C215 (no rate).**  The rate is NaN exactly when fewer than ten of the last two thirds of the saved times have an
amplitude above `1e-20`. -/
theorem damping_nan_iff (n : ℕ) (z : ℕ → ℂ) (t : ℕ → ℝ) : dampingRate n z t = none ↔ (used n z).card < 10 := by
  unfold dampingRate
  rw [length_fitSamples]
  split_ifs with h <;> simp [h]

/-- With thirteen or fewer saved times there is never a rate. -/
theorem damping_needs_fourteen (n : ℕ) (h : n ≤ 13) (z : ℕ → ℂ) (t : ℕ → ℝ) : dampingRate n z t = none := by
  rw [damping_nan_iff]
  have : used n z ⊆ Finset.Ico (n / 3) n := by
    intro i hi
    simp only [used, Finset.mem_filter, Finset.mem_range] at hi
    rw [Finset.mem_Ico]
    omega
  have := Finset.card_le_card this
  rw [Nat.card_Ico] at this
  omega

/-- **C215 (exact).**  If the amplitude at the used times is `A exp(γ t)`, whatever its phase, the rate is `γ`. -/
theorem damping_exact (n : ℕ) (z : ℕ → ℂ) (t : ℕ → ℝ) (A γ : ℝ) (hA : 0 < A) (mono : ∀ i j, i < j → j < n → t i < t j)
    (amp : ∀ i ∈ used n z, ‖z i‖ = A * Real.exp (γ * t i)) (enough : 10 ≤ (used n z).card) : dampingRate n z t = some γ := by
  unfold dampingRate
  rw [length_fitSamples, if_neg (by omega)]
  congr 1
  obtain ⟨i, hi, j, hj, ij⟩ : ∃ i ∈ used n z, ∃ j ∈ used n z, i ≠ j := Finset.one_lt_card.1 (by omega)
  have mem : ∀ k ∈ used n z, (t k, Real.log ‖z k‖) ∈ (fitSamples n z t).map fun p => (p.1, Real.log p.2) := by
    intro k hk
    refine List.mem_map.2 ⟨(t k, ‖z k‖), (mem_fitSamples n z t _).2 ⟨k, ?_⟩, rfl⟩
    simp only [used, Finset.mem_filter, Finset.mem_range] at hk
    exact ⟨hk.2.1, hk.1, hk.2.2, rfl⟩
  refine slope_line _ (Real.log A) γ (spread_pos _ _ _ (mem i hi) (mem j hj) ?_) ?_
  · have a : i < n := by simp only [used, Finset.mem_filter, Finset.mem_range] at hi; exact hi.1
    have b : j < n := by simp only [used, Finset.mem_filter, Finset.mem_range] at hj; exact hj.1
    rcases lt_or_gt_of_ne ij with h | h
    · exact (mono i j h b).ne
    · exact (mono j i h a).ne'
  · intro p hp
    obtain ⟨q, hq, rfl⟩ := List.mem_map.1 hp
    obtain ⟨k, h1, h2, h3, rfl⟩ := (mem_fitSamples n z t q).1 hq
    have : k ∈ used n z := by
      simp only [used, Finset.mem_filter, Finset.mem_range]
      exact ⟨h2, h1, h3⟩
    simp only
    rw [amp k this, Real.log_mul hA.ne' (Real.exp_pos _).ne', Real.log_exp]

/-- Non-vacuity: a damped wave of unit initial amplitude saved at `30` times. -/
example : dampingRate 30 (travelling (fun i => Real.exp (-0.1 * i)) 1 0 1) (fun i => i) = some (-0.1) := by
  have nz : ∀ i : ℕ, ‖travelling (fun i => Real.exp (-0.1 * i)) 1 0 1 i‖ = Real.exp (-0.1 * i) := by
    intro i
    unfold travelling
    rw [norm_mul, Complex.norm_exp_ofReal_mul_I, mul_one, Complex.norm_real, Real.norm_of_nonneg (Real.exp_pos _).le]
  refine damping_exact 30 _ _ 1 (-0.1) one_pos (fun i j h _ => by exact_mod_cast h) (fun i _ => by rw [nz]; simp) ?_
  have : Finset.Ico 10 30 ⊆ used 30 (travelling (fun i => Real.exp (-0.1 * i)) 1 0 1) := by
    intro i hi
    rw [Finset.mem_Ico] at hi
    simp only [used, Finset.mem_filter, Finset.mem_range]
    refine ⟨hi.2, by omega, ?_⟩
    rw [nz]
    have h : (i : ℝ) ≤ 30 := by exact_mod_cast hi.2.le
    calc (1e-20 : ℝ) < 1 / 3 ^ 3 := by norm_num
      _ ≤ 1 / Real.exp 1 ^ 3 := by
        gcongr
        linarith [Real.exp_one_lt_d9]
      _ = Real.exp (-3) := by rw [← Real.exp_nat_mul, one_div, ← Real.exp_neg]; norm_num
      _ ≤ _ := Real.exp_le_exp.2 (by linarith)
  calc 10 ≤ (Finset.Ico 10 30).card := by simp
    _ ≤ _ := Finset.card_le_card this

/-- **C215 (transient).**  The first third of the saved times has no influence on the rate. -/
theorem damping_ignores_transient (n : ℕ) (z z' : ℕ → ℂ) (t t' : ℕ → ℝ) (h : ∀ i, n / 3 ≤ i → i < n → z i = z' i ∧ t i = t' i) :
    dampingRate n z t = dampingRate n z' t' := by
  have : fitSamples n z t = fitSamples n z' t' := by
    unfold fitSamples fitStart
    congr 1
    refine List.map_congr_left fun i hi => ?_
    rw [List.range_eq_range', List.drop_range', List.mem_range'_1] at hi
    obtain ⟨a, b⟩ := h i (by omega) (by omega)
    rw [a, b]
  unfold dampingRate
  rw [this]

/-- **C215 (units).**  Multiplying the field by a constant does not change the rate, as long as no amplitude crosses the
floor. -/
theorem damping_scale (n : ℕ) (z : ℕ → ℂ) (t : ℕ → ℝ) (c : ℝ) (hc : 0 < c)
    (above : ∀ i, n / 3 ≤ i → i < n → 1e-20 < ‖z i‖ ∧ 1e-20 < c * ‖z i‖) :
    dampingRate n (fun i => c * z i) t = dampingRate n z t := by
  have nz : ∀ i, ‖(c : ℂ) * z i‖ = c * ‖z i‖ := fun i => by rw [norm_mul, Complex.norm_real, Real.norm_of_nonneg hc.le]
  have l1 : fitSamples n (fun i => c * z i) t = ((List.range n).drop (n / 3)).map fun (i : ℕ) => (t i, c * ‖z i‖) := by
    unfold fitSamples fitStart
    simp only [nz]
    rw [List.filter_eq_self]
    intro p hp
    obtain ⟨i, hi, rfl⟩ := List.mem_map.1 hp
    rw [List.range_eq_range', List.drop_range', List.mem_range'_1] at hi
    exact decide_eq_true (above i (by omega) (by omega)).2
  have l2 : fitSamples n z t = ((List.range n).drop (n / 3)).map fun (i : ℕ) => (t i, ‖z i‖) := by
    unfold fitSamples fitStart
    rw [List.filter_eq_self]
    intro p hp
    obtain ⟨i, hi, rfl⟩ := List.mem_map.1 hp
    rw [List.range_eq_range', List.drop_range', List.mem_range'_1] at hi
    exact decide_eq_true (above i (by omega) (by omega)).1
  unfold dampingRate
  rw [l1, l2]
  simp only [List.length_map]
  split_ifs with h
  · rfl
  · congr 1
    have hl : (((List.range n).drop (n / 3)).map fun (i : ℕ) => (t i, c * ‖z i‖)).map (fun p => (p.1, Real.log p.2)) =
        (((List.range n).drop (n / 3)).map fun (i : ℕ) => (t i, Real.log ‖z i‖)).map fun p => (p.1, Real.log c + p.2) := by
      rw [List.map_map, List.map_map]
      refine List.map_congr_left fun i hi => ?_
      rw [List.range_eq_range', List.drop_range', List.mem_range'_1] at hi
      have pos : 0 < ‖z i‖ := lt_trans (by norm_num) (above i (by omega) (by omega)).1
      simp only [Function.comp]
      rw [Real.log_mul hc.ne' pos.ne']
    have hr : (((List.range n).drop (n / 3)).map fun (i : ℕ) => (t i, ‖z i‖)).map (fun p => (p.1, Real.log p.2)) =
        ((List.range n).drop (n / 3)).map fun (i : ℕ) => (t i, Real.log ‖z i‖) := by
      rw [List.map_map]
      rfl
    rw [hl, hr]
    have ne : (((List.range n).drop (n / 3)).map fun (i : ℕ) => (t i, Real.log ‖z i‖)) ≠ [] := by
      intro e
      have := congrArg List.length e
      simp only [List.length_map, List.length_nil] at this
      omega
    generalize (((List.range n).drop (n / 3)).map fun (i : ℕ) => (t i, Real.log ‖z i‖)) = l at ne
    have len : (l.length : ℝ) ≠ 0 := by
      have := List.length_pos_iff.2 ne
      positivity
    have m1 : (l.map fun p => (p.1, Real.log c + p.2)).map Prod.fst = l.map Prod.fst := by
      rw [List.map_map]; rfl
    have m2 : listMean ((l.map fun p => (p.1, Real.log c + p.2)).map Prod.snd) = Real.log c + listMean (l.map Prod.snd) := by
      unfold listMean
      rw [List.map_map, List.length_map, List.length_map]
      have := sum_affine l (Real.log c) 1 Prod.snd
      simp only [one_mul] at this
      rw [show (Prod.snd ∘ fun p : ℝ × ℝ => (p.1, Real.log c + p.2)) = fun p => Real.log c + p.2 from rfl, this]
      field_simp
    unfold slope
    rw [m1, m2, List.map_map, List.map_map]
    congr 2
    refine List.map_congr_left fun p _ => ?_
    simp only [Function.comp]
    ring

/-- Non-vacuity: a constant unit amplitude doubled. -/
example : dampingRate 20 (fun _ => ((2 : ℝ) : ℂ) * 1) (fun i => i) = dampingRate 20 (fun _ => 1) (fun i => i) :=
  damping_scale 20 (fun _ => 1) _ 2 two_pos (fun i _ _ => by norm_num)

/-! ## Electrostatic energy of the final window -/

/-- **C216 (final energy).**  The average is between the extremes over the times within `50` of the last one, and there
is always such a time. -/
theorem final_energy_between (n : ℕ) (hn : 0 < n) (t e : ℕ → ℝ) (lo hi : ℝ)
    (h : ∀ i < n, t (n - 1) - 50 ≤ t i → lo ≤ e i ∧ e i ≤ hi) : lo ≤ finalEnergy n t e ∧ finalEnergy n t e ≤ hi := by
  have mem : n - 1 ∈ lastFifty n t := by
    simp only [lastFifty, Finset.mem_filter, Finset.mem_range]
    exact ⟨by omega, by linarith⟩
  have pos : (0 : ℝ) < (lastFifty n t).card := by
    have := Finset.card_pos.2 ⟨_, mem⟩
    exact_mod_cast this
  have b : ∀ i ∈ lastFifty n t, lo ≤ e i ∧ e i ≤ hi := by
    intro i hi
    simp only [lastFifty, Finset.mem_filter, Finset.mem_range] at hi
    exact h i hi.1 hi.2
  have s1 := Finset.card_nsmul_le_sum _ e lo fun i hi => (b i hi).1
  have s2 := Finset.sum_le_card_nsmul _ e hi fun i hi => (b i hi).2
  rw [nsmul_eq_mul] at s1 s2
  unfold finalEnergy
  constructor
  · rw [le_div_iff₀ pos]; linarith
  · rw [div_le_iff₀ pos]; linarith

/-- A run of at most `50` is averaged whole. -/
theorem final_energy_short (n : ℕ) (t e : ℕ → ℝ) (short : ∀ i < n, t (n - 1) - 50 ≤ t i) :
    finalEnergy n t e = mean n e := by
  have : lastFifty n t = Finset.range n := by
    unfold lastFifty
    exact Finset.filter_true_of_mem fun i hi => short i (Finset.mem_range.1 hi)
  unfold finalEnergy mean
  rw [this, Finset.card_range]

/-- Times before the window do not matter. -/
theorem final_energy_window (n : ℕ) (t e e' : ℕ → ℝ) (h : ∀ i < n, t (n - 1) - 50 ≤ t i → e i = e' i) :
    finalEnergy n t e = finalEnergy n t e' := by
  unfold finalEnergy
  congr 1
  refine Finset.sum_congr rfl fun i hi => ?_
  simp only [lastFifty, Finset.mem_filter, Finset.mem_range] at hi
  exact h i hi.1 hi.2

/-! ## Electromagnetic metrics -/

/-- **C216 (window).**  With at least two saved times the frequency is measured on the last fifth of them, rounded up. -/
theorem em_window (n : ℕ) (h : 2 ≤ n) : n - emStart n = (n + 4) / 5 := by
  unfold emStart
  omega

/-- **C216 (window, the code violates its documentation).**  The documentation says the latter `75%` of the saved times. -/
theorem em_window_partial (n : ℕ) (h : 2 ≤ n) : 4 * (n - emStart n) < 3 * n := by
  rw [em_window n h]
  omega

/-- **C216 (enough times).**  A light wave is measured exactly when there are six saved times: with fewer an exception
ends the post-processing, unless the tail is below `1e-30`. -/
theorem em_needs_six (n : ℕ) (z : ℕ → ℂ) (t : ℕ → ℝ) (wave : ∃ i < n, emStart n ≤ i ∧ 1e-30 < ‖z i‖) :
    (∃ e, emFrequency n z t = .error e) ↔ n < 6 := by
  obtain ⟨i, hi, hs, hz⟩ := wave
  have s1 : 1 ≤ emStart n := le_max_left _ _
  have n2 : 2 ≤ n := by omega
  have w := em_window n n2
  unfold emFrequency
  dsimp only
  rw [if_neg (by omega), if_neg (by
    push Not
    refine ⟨i - emStart n, by omega, ?_⟩
    rw [show emStart n + (i - emStart n) = i by omega]
    exact hz)]
  unfold frequencies
  split_ifs with h
  · simp only [Except.error.injEq, exists_eq', true_iff]
    omega
  · simp only [reduceCtorEq, exists_false, false_iff]
    omega

/-- Non-vacuity: five saved times of a unit wave fail. -/
example : ∃ e, emFrequency 5 (fun _ => 1) (fun i => i) = .error e :=
  (em_needs_six 5 (fun _ => 1) _ ⟨4, by norm_num, by decide, by norm_num⟩).2 (by norm_num)

/-- **C216 (exact).**  A travelling light wave with `|ω| dt < π` is reported at `|ω|`. -/
theorem em_frequency_exact (n : ℕ) (hn : 6 ≤ n) (r t : ℕ → ℝ) (ω φ t0 dt : ℝ) (d0 : 0 < dt) (ht : ∀ i, t i = t0 + i * dt)
    (hr : ∀ i < n, 0 < r i) (big : ∃ i < n, emStart n ≤ i ∧ 1e-30 < r i) (resolved : |ω| * dt < π) :
    emFrequency n (travelling r ω φ dt) t = .ok (some |ω|) := by
  obtain ⟨i, hi, hs, hb⟩ := big
  have w := em_window n (by omega)
  unfold emFrequency
  dsimp only
  generalize emStart n = s at *
  rw [if_neg (by omega), if_neg (by
    push Not
    refine ⟨i - s, by omega, ?_⟩
    rw [show s + (i - s) = i by omega]
    unfold travelling
    rw [norm_mul, Complex.norm_exp_ofReal_mul_I, mul_one, Complex.norm_real, Real.norm_of_nonneg (hr i hi).le]
    exact hb)]
  obtain ⟨f, hf, hv⟩ := linear_phase (n - s) (by omega) (fun i => travelling r ω φ dt (s + i)) (fun i => t (s + i))
    (fun i => r (s + i)) (ω * dt) (φ - ω * (s * dt)) dt (by rw [ht, ht]; push_cast; ring) d0 (fun i hi => hr _ (by omega))
    (by rw [abs_mul, abs_of_pos d0]; exact resolved) (by
      intro i
      unfold travelling
      congr 4
      push_cast
      ring)
  rw [hf]
  simp only
  rw [mean_const (n - s) (by omega) _ |ω|]
  intro i hi
  rw [hv i hi, mul_div_assoc, div_self d0.ne', mul_one]

/-- Non-vacuity: a light wave of frequency `-√2`-like `-1.4` saved every `0.5`. -/
example : emFrequency 10 (travelling (fun _ => 1) (-1.4) 0 0.5) (fun i => 0 + i * 0.5) = .ok (some |(-1.4)|) :=
  em_frequency_exact 10 (by norm_num) _ _ _ _ 0 0.5 (by norm_num) (fun _ => rfl) (fun _ _ => one_pos)
    ⟨9, by norm_num, by decide, by norm_num⟩ (by rw [abs_of_neg (by norm_num)]; linarith [Real.pi_gt_three])

/-- The size of the reported frequency of a standing wave, at each point, from the sign changes next to it. -/
theorem standing_abs (n : ℕ) (a : ℕ → ℝ) (ha : ∀ i, a i ≠ 0) (c : ℂ) (hc : c ≠ 0) (i : ℕ) :
    |unwrap (fun j => Complex.arg (a j * c)) (i + 1) - unwrap (fun j => Complex.arg (a j * c)) i| = if a i * a (i + 1) < 0 then π else 0 := by
  have hp := Real.pi_pos
  obtain ⟨α, hα⟩ := arg_two c hc
  rw [unwrap_two _ α fun i => hα (a i) (ha i), unwrap_two _ α fun i => hα (a i) (ha i)]
  have pos : ∀ x : ℝ, 0 < x → Complex.arg (x * c) = Complex.arg c := fun x h => Complex.arg_real_mul _ h
  have neg : ∀ x : ℝ, x < 0 → Complex.arg (x * c) = Complex.arg (-c) := fun x h => by
    rw [show (x : ℂ) * c = ((-x : ℝ) : ℂ) * (-c) by push_cast; ring]
    exact Complex.arg_real_mul _ (by linarith)
  have key : |Complex.arg (-c) - Complex.arg c| = π := by
    have h1 := hα 1 one_ne_zero
    have h2 := hα (-1) (by norm_num)
    rw [pos 1 one_pos] at h1
    rw [neg (-1) (by norm_num)] at h2
    have ne : Complex.arg (-c) ≠ Complex.arg c := by
      intro e
      have := Complex.arg_neg_coe_angle hc
      rw [e] at this
      have q := Real.Angle.pi_ne_zero
      apply q
      have t := congrArg (fun x => x - ((Complex.arg c : ℝ) : Real.Angle)) this
      simpa using t.symm
    rcases h1 with h1 | h1 <;> rcases h2 with h2 | h2
    · exact absurd (h2.trans h1.symm) ne
    · rw [h1, h2, add_sub_cancel_left, abs_of_pos hp]
    · rw [h1, h2, show α - (α + π) = -π by ring, abs_neg, abs_of_pos hp]
    · exact absurd (h2.trans h1.symm) ne
  rcases lt_or_gt_of_ne (ha i) with h | h <;> rcases lt_or_gt_of_ne (ha (i + 1)) with g | g
  · rw [neg _ h, neg _ g, if_neg (not_lt.2 (mul_pos_of_neg_of_neg h g).le)]; simp
  · rw [neg _ h, pos _ g, if_pos (mul_neg_of_neg_of_pos h g), abs_sub_comm]; exact key
  · rw [pos _ h, neg _ g, if_pos (mul_neg_of_pos_of_neg h g)]; exact key
  · rw [pos _ h, pos _ g, if_neg (not_lt.2 (mul_pos h g).le)]; simp

/-- **C216 (standing waves).**  For a standing light wave, real amplitudes `a` times a fixed complex number, whose sign
changes are separated and away from the ends, the mean size of the reported frequency is `π` times the number of sign
changes over the length `n dt` of the window: half a turn per zero. -/
theorem em_standing (n : ℕ) (a : ℕ → ℝ) (ha : ∀ i, a i ≠ 0) (c : ℂ) (hc : c ≠ 0) (t : ℕ → ℝ) (dt : ℝ) (hdt : t 1 - t 0 = dt)
    (d0 : 0 < dt) (hn : 2 ≤ n) (sep : ∀ i, i + 2 < n → ¬ (a i * a (i + 1) < 0 ∧ a (i + 1) * a (i + 2) < 0))
    (first : ¬ a 0 * a 1 < 0) (last : ¬ a (n - 2) * a (n - 1) < 0) :
    ∃ f, frequencies n (fun i => a i * c) t = .ok f ∧
      mean n (fun i => |f i|) = π * ((Finset.range (n - 1)).filter fun i => a i * a (i + 1) < 0).card / (n * dt) := by
  have hp := Real.pi_pos
  obtain ⟨m, rfl⟩ : ∃ m, n = m + 2 := ⟨n - 2, by omega⟩
  have e1 : m + 2 - 1 = m + 1 := by omega
  have e2 : m + 2 - 2 = m := by omega
  rw [e1, e2] at last
  refine ⟨_, by rw [frequencies, if_neg (by omega)], ?_⟩
  have st := standing_abs (m + 2) a ha c hc
  set u := unwrap (fun j => Complex.arg (a j * c)) with hu
  let b : ℕ → ℝ := fun i => if a i * a (i + 1) < 0 then 1 else 0
  have st' : ∀ i, |u (i + 1) - u i| = π * b i := by
    intro i
    rw [st i]
    simp only [b]
    split_ifs <;> simp
  have b0 : b 0 = 0 := by simp only [b]; rw [if_neg first]
  have bm : b m = 0 := by simp only [b]; rw [if_neg last]
  have g0 : |-(Vfp2d.Recon.gradient (m + 2) (t 1 - t 0) u 0)| = 0 := by
    rw [Vfp2d.Recon.gradient, if_pos rfl, abs_neg, abs_div]
    have := st' 0
    rw [b0, mul_zero, zero_add] at this
    rw [this, zero_div]
  have gm : |-(Vfp2d.Recon.gradient (m + 2) (t 1 - t 0) u (m + 1))| = 0 := by
    rw [Vfp2d.Recon.gradient, if_neg (by omega), if_pos (by omega), abs_neg, abs_div, e1, e2, st' m, bm, mul_zero, zero_div]
  have gi : ∀ i < m, |-(Vfp2d.Recon.gradient (m + 2) (t 1 - t 0) u (i + 1))| = π / (2 * dt) * (b i + b (i + 1)) := by
    intro i hi
    rw [Vfp2d.Recon.gradient, if_neg (by omega), if_neg (by omega), abs_neg, abs_div, Nat.add_sub_cancel, hdt,
      abs_of_pos (by positivity : (0:ℝ) < 2 * dt)]
    have s1 := st' i
    have s2 := st' (i + 1)
    have : |u (i + 1 + 1) - u i| = π * (b i + b (i + 1)) := by
      by_cases h : a i * a (i + 1) < 0
      · have h' : ¬ a (i + 1) * a (i + 1 + 1) < 0 := fun g => sep i (by omega) ⟨h, g⟩
        have z : b (i + 1) = 0 := by simp only [b]; rw [if_neg h']
        rw [z, mul_zero, abs_eq_zero, sub_eq_zero] at s2
        rw [z, s2, s1, add_zero]
      · have z : b i = 0 := by simp only [b]; rw [if_neg h]
        rw [z, mul_zero, abs_eq_zero, sub_eq_zero] at s1
        rw [z, ← s1, s2, zero_add]
    rw [this]
    ring
  have cnt : (((Finset.range (m + 1)).filter fun i => a i * a (i + 1) < 0).card : ℝ) = ∑ i ∈ Finset.range (m + 1), b i := by
    simp only [b]
    rw [Finset.sum_ite, Finset.sum_const_zero, add_zero, Finset.sum_const, nsmul_eq_mul, mul_one]
  have tel : ∑ i ∈ Finset.range m, (b i + b (i + 1)) = 2 * ∑ i ∈ Finset.range (m + 1), b i := by
    rw [Finset.sum_add_distrib]
    have h1 := Finset.sum_range_succ b m
    have h2 := Finset.sum_range_succ' b m
    rw [bm] at h1
    rw [b0] at h2
    linarith
  unfold mean
  rw [Finset.sum_range_succ', Finset.sum_range_succ, g0, gm, add_zero, add_zero,
    Finset.sum_congr rfl fun i hi => gi i (Finset.mem_range.1 hi), ← Finset.mul_sum, tel, e1, cnt]
  have n0 : ((m + 2 : ℕ) : ℝ) ≠ 0 := by positivity
  field_simp

/-- Non-vacuity: amplitudes `1, 1, -1, -1` at unit spacing: one sign change. -/
example : ∃ f, frequencies 4 (fun i => (if i < 2 then (1 : ℝ) else -1 : ℝ) * (1 : ℂ)) (fun i => i) = .ok f ∧
    mean 4 (fun i => |f i|) = π * ((Finset.range (4 - 1)).filter fun i => (if i < 2 then (1 : ℝ) else -1) * (if i + 1 < 2 then (1 : ℝ) else -1) < 0).card / ((4 : ℕ) * 1) :=
  em_standing 4 (fun i => if i < 2 then (1 : ℝ) else -1) (fun i => by split_ifs <;> norm_num) 1 one_ne_zero _ 1 (by norm_num) one_pos
    (by norm_num) (fun i hi => by
      have : i = 0 ∨ i = 1 := by omega
      rcases this with rfl | rfl <;> norm_num) (by norm_num) (by norm_num)

theorem foldl_max_spec (l : List ℝ) (a : ℝ) : a ≤ l.foldl max a ∧ (∀ x ∈ l, x ≤ l.foldl max a) ∧ (l.foldl max a = a ∨ l.foldl max a ∈ l) := by
  induction l generalizing a with
  | nil => simp
  | cons b l ih =>
    obtain ⟨h1, h2, h3⟩ := ih (max a b)
    rw [List.foldl_cons]
    refine ⟨le_trans (le_max_left _ _) h1, ?_, ?_⟩
    · intro x hx
      rcases List.mem_cons.1 hx with rfl | hx
      · exact le_trans (le_max_right _ _) h1
      · exact h2 x hx
    · rcases h3 with h | h
      · rcases max_choice a b with m | m
        · left; rw [h, m]
        · right; rw [h, m]; simp
      · right; simp [h]

/-- The peak is the largest saved energy. -/
theorem peak_spec (e : List ℝ) (ne : e ≠ []) : peak e ∈ e ∧ ∀ x ∈ e, x ≤ peak e := by
  cases e with
  | nil => exact absurd rfl ne
  | cons a l =>
    obtain ⟨h1, h2, h3⟩ := foldl_max_spec l a
    refine ⟨?_, ?_⟩
    · rcases h3 with h | h
      · simp [peak, h]
      · simp [peak, h]
    · intro x hx
      rcases List.mem_cons.1 hx with rfl | hx
      · exact h1
      · exact h2 x hx

theorem listMean_between (l : List ℝ) (ne : l ≠ []) (lo hi : ℝ) (h : ∀ x ∈ l, lo ≤ x ∧ x ≤ hi) : lo ≤ listMean l ∧ listMean l ≤ hi := by
  have len : (0 : ℝ) < l.length := by
    have := List.length_pos_iff.2 ne
    exact_mod_cast this
  have : lo * l.length ≤ l.sum ∧ l.sum ≤ hi * l.length := by
    clear ne len
    induction l with
    | nil => simp
    | cons a l ih =>
      have := ih fun x hx => h x (List.mem_cons_of_mem _ hx)
      have ha := h a (by simp)
      rw [List.sum_cons, List.length_cons]
      push_cast
      constructor <;> nlinarith [this.1, this.2, ha.1, ha.2]
  unfold listMean
  constructor
  · rw [le_div_iff₀ len]; exact this.1
  · rw [div_le_iff₀ len]; exact this.2

/-- The tail averaged by `final_em_energy`: the last fifth of the saved energies, rounded down but at least one. -/
theorem em_tail_length (e : List ℝ) (ne : e ≠ []) : (e.drop (e.length - nFinal e.length)).length = max 1 (e.length / 5) := by
  have := List.length_pos_iff.2 ne
  rw [List.length_drop]
  unfold nFinal
  omega

/-- **C216 (ratio).**  For non-negative energies the absorption ratio is between `0` and `1`. -/
theorem absorption_range (e : List ℝ) (ne : e ≠ []) (pos : ∀ x ∈ e, 0 ≤ x) : 0 ≤ absorption e ∧ absorption e ≤ 1 := by
  unfold absorption
  split_ifs with h
  · have tail : e.drop (e.length - nFinal e.length) ≠ [] := by
      intro c
      have := em_tail_length e ne
      rw [c, List.length_nil] at this
      omega
    have := listMean_between _ tail 0 (peak e) fun x hx => ⟨pos x (List.mem_of_mem_drop hx), (peak_spec e ne).2 x (List.mem_of_mem_drop hx)⟩
    unfold finalEm
    exact ⟨div_nonneg this.1 h.le, (div_le_one h).2 this.2⟩
  · norm_num

/-- **C216 (meaning).**  If the last fifth of the energies all equal `q` times the peak, the ratio is `q`; in particular
a wave that keeps its energy has ratio `1` and one fully absorbed has ratio `0`. -/
theorem absorption_of_tail (e : List ℝ) (ne : e ≠ []) (q : ℝ) (h : 0 < peak e)
    (tail : ∀ x ∈ e.drop (e.length - max 1 (e.length / 5)), x = q * peak e) : absorption e = q := by
  have tl : e.drop (e.length - nFinal e.length) ≠ [] := by
    intro c
    have := em_tail_length e ne
    rw [c, List.length_nil] at this
    omega
  have := listMean_between _ tl (q * peak e) (q * peak e) fun x hx => by
    have := tail x hx
    exact ⟨this.ge, this.le⟩
  unfold absorption finalEm
  rw [if_pos h, le_antisymm this.2 this.1]
  exact mul_div_cancel_right₀ q h.ne'

/-- Non-vacuity: an absorbed wave. -/
example : absorption [1, 4, 2, 0, 0] = 0 :=
  absorption_of_tail [1, 4, 2, 0, 0] (by simp) 0 (by norm_num [peak]) (by intro x hx; simpa using hx)

/-- A field that was never excited is reported as not absorbed. -/
theorem absorption_no_wave (e : List ℝ) (h : ∀ x ∈ e, x = 0) : absorption e = 1 := by
  unfold absorption
  rw [if_neg]
  intro hp
  rcases eq_or_ne e [] with rfl | ne
  · simp [peak] at hp
  · rw [h _ (peak_spec e ne).1] at hp
    exact lt_irrefl _ hp

/-! ## Plots -/

/-- **C216 (mode curves).**  The curves drawn are the labels `1` to `5` below the number of cells. -/
theorem mode_curves (nx k : ℕ) : k ∈ modeCurves nx ↔ 1 ≤ k ∧ k ≤ 5 ∧ k < nx := by
  unfold modeCurves
  rw [List.mem_filter, List.mem_range'_1, decide_eq_true_eq]
  omega

/-- With eleven or more cells each curve shows the mode it is labelled with. -/
theorem mode_labels (nx : ℕ) (h : 11 ≤ nx) (k : ℕ) (hk : k ∈ modeCurves nx) : fftMode nx k = k := by
  rw [mode_curves] at hk
  unfold fftMode
  rw [if_pos (by omega)]

/-- **C216 (mode labels, the code violates the claim).**  With fewer cells the upper labels are wrong: the curve labelled
`k` with `2k > nx` shows mode `k - nx`. -/
theorem mode_labels_partial (nx k : ℕ) (hk : k ∈ modeCurves nx) (h : nx ≤ 2 * k) : fftMode nx k = (k : ℤ) - nx ∧ fftMode nx k ≠ k := by
  rw [mode_curves] at hk
  unfold fftMode
  rw [if_neg (by omega)]
  refine ⟨rfl, ?_⟩
  omega

/-- Non-vacuity: with `6` cells the curve `k=4` is drawn and shows mode `-2`. -/
example : 4 ∈ modeCurves 6 ∧ fftMode 6 4 = -2 := by decide

/-- **C216 (facets, the code violates the claim).**  The plane drawn by the facet plot is the uniform mode in `ky` only with
one or two cells in `y`; otherwise it is another mode. -/
theorem facet_mode_partial (n : ℕ) (h : 0 < n) : fftMode n (facetCentre n) = 0 ↔ n ≤ 2 := by
  unfold fftMode facetCentre
  rw [if_pos (by omega)]
  omega

/-- **C216 (frequency panel).**  What the panel shows: the times from the start of the driver's plateau to `50` before
the end. -/
theorem panel_times (n : ℕ) (t : ℕ → ℝ) (c w r : ℝ) (i : ℕ) :
    i ∈ panelTimes n t (some (c, w, r)) ↔ i < n ∧ c - w / 2 + r ≤ t i ∧ t i ≤ t (n - 1) - 50 := by
  unfold panelTimes
  rw [Finset.mem_filter, Finset.mem_range]
  rfl

/-- Without a driver and with a run of less than `66`, the panel is empty. -/
theorem panel_empty (n : ℕ) (t : ℕ → ℝ) (short : t (n - 1) < 66) : panelTimes n t none = ∅ := by
  unfold panelTimes
  rw [Finset.filter_eq_empty_iff]
  rintro i - ⟨a, b⟩
  simp only [panelStart] at a
  linarith

/-- Without a driver the panel of a longer run starts at a quarter of it. -/
theorem panel_no_driver (n : ℕ) (t : ℕ → ℝ) (i : ℕ) :
    i ∈ panelTimes n t none ↔ i < n ∧ t (n - 1) / 4 ≤ t i ∧ t i ≤ t (n - 1) - 50 := by
  unfold panelTimes
  rw [Finset.mem_filter, Finset.mem_range, show panelStart none (t (n - 1)) = t (n - 1) / 4 by unfold panelStart; ring]

end Verif.SpectraxWaves
