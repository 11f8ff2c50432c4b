import Verif.Props.Beta
import Mathlib.Analysis.Complex.ExponentialBounds

/-! C183: the Newton refinement; C184: the analytic temperature of the shapes. -/
namespace Verif.Beta
open Finset

/-! ### Newton steps -/

theorem tilt_cov_pos {s : Finset ℕ} {a q p : ℕ → ℝ} (ha : ∀ i ∈ s, 0 ≤ a i)
    (hco : ∀ i ∈ s, ∀ j ∈ s, p i < p j → q i < q j) {k l : ℕ} (hk : k ∈ s) (hl : l ∈ s) (hak : 0 < a k) (hal : 0 < a l)
    (hkl : p k < p l) (β : ℝ) :
    0 < tilt s a (fun i => q i * p i) p β - tilt s a q p β * tilt s a p p β := by
  have hd := den_pos (p := p) ha hk hak β
  let w : ℕ → ℝ := fun i => a i * Real.exp (-β * p i)
  have hw : ∀ i ∈ s, 0 ≤ w i := fun i hi => mul_nonneg (ha i hi) (Real.exp_pos _).le
  have e : ∀ r : ℕ → ℝ, tilt s a r p β = (∑ i ∈ s, w i * r i) / ∑ i ∈ s, w i := by
    intro r; unfold tilt; congr 1
    exact sum_congr rfl fun i _ => by simp only [w]; ring
  have hd' : 0 < ∑ i ∈ s, w i := hd
  rw [e, e, e]
  have r : ∀ A B C D : ℝ, D ≠ 0 → A / D - B / D * (C / D) = (A * D - B * C) / D ^ 2 := by
    intro A B C D hD; field_simp
  rw [r _ _ _ _ hd'.ne']
  refine div_pos ?_ (pow_pos hd' 2)
  have e1 : 2 * ((∑ i ∈ s, w i * (q i * p i)) * (∑ j ∈ s, w j) - (∑ i ∈ s, w i * q i) * ∑ j ∈ s, w j * p j) =
      ∑ i ∈ s, ∑ j ∈ s, w i * w j * ((q i - q j) * (p i - p j)) := by
    have h1 : (∑ i ∈ s, w i * (q i * p i)) * (∑ j ∈ s, w j) = ∑ i ∈ s, ∑ j ∈ s, w i * w j * (q i * p i) := by
      rw [sum_mul_sum]; exact sum_congr rfl fun i _ => sum_congr rfl fun j _ => by ring
    have h2 : (∑ i ∈ s, w i * (q i * p i)) * (∑ j ∈ s, w j) = ∑ i ∈ s, ∑ j ∈ s, w i * w j * (q j * p j) := by
      rw [h1, sum_comm]; exact sum_congr rfl fun i _ => sum_congr rfl fun j _ => by ring
    have h3 : (∑ i ∈ s, w i * q i) * (∑ j ∈ s, w j * p j) = ∑ i ∈ s, ∑ j ∈ s, w i * w j * (q i * p j) := by
      rw [sum_mul_sum]; exact sum_congr rfl fun i _ => sum_congr rfl fun j _ => by ring
    have h4 : (∑ i ∈ s, w i * q i) * (∑ j ∈ s, w j * p j) = ∑ i ∈ s, ∑ j ∈ s, w i * w j * (q j * p i) := by
      rw [h3, sum_comm]; exact sum_congr rfl fun i _ => sum_congr rfl fun j _ => by ring
    have : ∑ i ∈ s, ∑ j ∈ s, w i * w j * ((q i - q j) * (p i - p j)) =
        (∑ i ∈ s, ∑ j ∈ s, w i * w j * (q i * p i)) + (∑ i ∈ s, ∑ j ∈ s, w i * w j * (q j * p j)) -
        (∑ i ∈ s, ∑ j ∈ s, w i * w j * (q i * p j)) - ∑ i ∈ s, ∑ j ∈ s, w i * w j * (q j * p i) := by
      simp only [← sum_add_distrib, ← sum_sub_distrib]
      exact sum_congr rfl fun i _ => sum_congr rfl fun j _ => by ring
    rw [this, ← h1, ← h2, ← h3, ← h4]; ring
  have nn : ∀ i ∈ s, ∀ j ∈ s, 0 ≤ w i * w j * ((q i - q j) * (p i - p j)) := by
    intro i hi j hj
    refine mul_nonneg (mul_nonneg (hw i hi) (hw j hj)) ?_
    rcases lt_trichotomy (p i) (p j) with h | h | h
    · exact (mul_pos_of_neg_of_neg (sub_neg.2 (hco i hi j hj h)) (sub_neg.2 h)).le
    · rw [h, sub_self, mul_zero]
    · exact (mul_pos (sub_pos.2 (hco j hj i hi h)) (sub_pos.2 h)).le
  have : 0 < ∑ i ∈ s, ∑ j ∈ s, w i * w j * ((q i - q j) * (p i - p j)) :=
    sum_pos' (fun i hi => sum_nonneg (nn i hi)) ⟨k, hk, sum_pos' (nn k hk) ⟨l, hl,
      mul_pos (mul_pos (mul_pos hak (Real.exp_pos _)) (mul_pos hal (Real.exp_pos _)))
        (mul_pos_of_neg_of_neg (sub_neg.2 (hco k hk l hl hkl)) (sub_neg.2 hkl))⟩⟩
  linarith

/-- The slope of the residual exists and is negative: every Newton step is defined. -/
theorem residual_slope (g : VGrid) (hg : g.Ok) (vbar : Option ℝ) (hs : Spread g vbar) (m : ℝ) (hm : 0 < m) (T β : ℝ) :
    DifferentiableAt ℝ (residual g vbar m T) β ∧ deriv (residual g vbar m T) β < 0 := by
  obtain ⟨i, j, hi, hj, hij⟩ := hs
  have vi := (volume_pos_iff hg vbar hi.1).2 hi
  have vj := (volume_pos_iff hg vbar hj.1).2 hj
  have hd := (tilt_hasDerivAt (q := cellT g vbar) (p := fun i => |shifted g vbar i| ^ m) (volume_nonneg hg vbar)
    (mem_range.2 hi.1) vi β).sub_const T
  have hc := tilt_cov_pos (q := cellT g vbar) (p := fun i => |shifted g vbar i| ^ m) (volume_nonneg hg vbar)
    (fun i _ j _ h => (cellT_lt g vbar i j).2 ((pow_lt g vbar hm i j).1 h)) (mem_range.2 hi.1) (mem_range.2 hj.1) vi vj
    ((pow_lt g vbar hm i j).2 hij) β
  have e : residual g vbar m T = fun x => tilt (range g.n) (volume g vbar) (cellT g vbar) (fun i => |shifted g vbar i| ^ m) x - T := by
    funext x; unfold residual; rw [model_tilt]
  rw [e]
  exact ⟨hd.differentiableAt, by rw [hd.deriv]; linarith⟩

/-- C183: Newton's iteration rests exactly at the self-consistent parameter. -/
theorem newton_rests_iff (g : VGrid) (hg : g.Ok) (vbar : Option ℝ) (hs : Spread g vbar) (m : ℝ) (hm : 0 < m) (T β : ℝ) :
    newtonStep (residual g vbar m T) β = β ↔ temperature g vbar (model g vbar m β) = T := by
  have h := (residual_slope g hg vbar hs m hm T β).2
  unfold newtonStep
  rw [sub_eq_self, div_eq_zero_iff, or_iff_left h.ne]
  unfold residual
  exact sub_eq_zero

/-- C183: if the first guess has the temperature of the distribution, it is what is returned,
whatever the number of iterations. -/
theorem find_of_exact_guess (g : VGrid) (hg : g.Ok) (f : ℕ → ℝ) (vbar : Option ℝ) (hs : Spread g vbar) (n : ℕ) (m : ℝ)
    (hm : 0 < m)
    (h : temperature g vbar (model g vbar m (init m g.spherical (temperature g vbar f))) = temperature g vbar f)
    (β : ℝ) (hβ : Find g f vbar n m β) : β = init m g.spherical (temperature g vbar f) := by
  unfold Find at hβ
  dsimp only at hβ
  split_ifs at hβ with h0
  · exact hβ
  · obtain ⟨k, _, _, rfl⟩ := hβ
    have fix := (newton_rests_iff g hg vbar hs m hm _ _).2 h
    exact Function.iterate_fixed fix k

/-- Without iterations (the default) the analytic relation is used. -/
theorem find_default (g : VGrid) (f : ℕ → ℝ) (vbar : Option ℝ) (β : ℝ) :
    Find g f vbar 0 2 β ↔ β * (2 * temperature g vbar f) = 1 ∨ (temperature g vbar f = 0 ∧ β = 0) := by
  unfold Find init
  simp only [if_true]
  by_cases h : temperature g vbar f = 0
  · simp [h]
  · rw [eq_div_iff (mul_ne_zero two_ne_zero h)]
    simp [h]

/-- The number of iterations: none unless enabled, three unless configured. -/
theorem steps_spec (c : Option ScCfg) :
    scSteps c = match c with
      | some ⟨some true, some k⟩ => k
      | some ⟨some true, none⟩ => 3
      | _ => 0 := by
  rcases c with _ | ⟨_ | _ | _, _ | k⟩ <;> rfl

/-- Newton's method on a convex decreasing function, started before the root: the iterates
increase and stay before the root. -/
theorem newton_convex (r : ℝ → ℝ) (y0 b : ℝ) (hd : ∀ y, DifferentiableAt ℝ r y) (hneg : ∀ y, deriv r y < 0)
    (hc : ConvexOn ℝ (Set.Ici y0) r) (hb : r b = 0) (h0 : y0 ≤ b) (k : ℕ) :
    y0 ≤ (newtonStep r)^[k] y0 ∧ (newtonStep r)^[k] y0 ≤ (newtonStep r)^[k + 1] y0 ∧ (newtonStep r)^[k + 1] y0 ≤ b := by
  have anti : StrictAnti r := strictAnti_of_deriv_neg hneg
  have step : ∀ y, y0 ≤ y → y ≤ b → y ≤ newtonStep r y ∧ newtonStep r y ≤ b := by
    intro y hy hyb
    have hr : 0 ≤ r y := hb ▸ anti.antitone hyb
    have hs := hneg y
    constructor
    · unfold newtonStep
      have : r y / deriv r y ≤ 0 := div_nonpos_of_nonneg_of_nonpos hr hs.le
      linarith
    · rcases hyb.eq_or_lt with rfl | hlt
      · unfold newtonStep; rw [hb]; simp
      · have hsl := hc.deriv_le_slope (Set.mem_Ici.2 hy) (Set.mem_Ici.2 h0) hlt (hd y)
        rw [slope_def_field, hb, zero_sub, le_div_iff₀ (sub_pos.2 hlt)] at hsl
        unfold newtonStep
        have : r y / deriv r y ≥ y - b := by
          rw [ge_iff_le, le_div_iff_of_neg hs]
          nlinarith
        linarith
  have inv : ∀ k, y0 ≤ (newtonStep r)^[k] y0 ∧ (newtonStep r)^[k] y0 ≤ b := by
    intro k
    induction k with
    | zero => exact ⟨le_rfl, h0⟩
    | succ k ih =>
      rw [Function.iterate_succ_apply']
      have := step _ ih.1 ih.2
      exact ⟨ih.1.trans this.1, this.2⟩
  refine ⟨(inv k).1, ?_, (inv (k + 1)).2⟩
  rw [Function.iterate_succ_apply']
  exact (step _ (inv k).1 (inv k).2).1

/-- C183 (part): where the temperature is a convex function of the parameter beyond the first
guess, and the first guess is hotter than the distribution, the refined parameter lies between
the first guess and the self-consistent one, so it is never worse than the first guess. -/
theorem find_between_partial (g : VGrid) (hg : g.Ok) (f : ℕ → ℝ) (vbar : Option ℝ) (hs : Spread g vbar) (n : ℕ) (m : ℝ)
    (hm : 0 < m) (b : ℝ) (hb : temperature g vbar (model g vbar m b) = temperature g vbar f)
    (hc : ConvexOn ℝ (Set.Ici (init m g.spherical (temperature g vbar f))) fun y => temperature g vbar (model g vbar m y))
    (h0 : init m g.spherical (temperature g vbar f) ≤ b) (β : ℝ) (hβ : Find g f vbar n m β) :
    init m g.spherical (temperature g vbar f) ≤ β ∧ β ≤ b ∧
      temperature g vbar f ≤ temperature g vbar (model g vbar m β) := by
  have main : init m g.spherical (temperature g vbar f) ≤ β ∧ β ≤ b := by
    unfold Find at hβ
    dsimp only at hβ
    split_ifs at hβ with hn
    · rw [hβ]; exact ⟨le_rfl, h0⟩
    · obtain ⟨k, _, _, rfl⟩ := hβ
      have hsl := residual_slope g hg vbar hs m hm (temperature g vbar f)
      have hc' : ConvexOn ℝ (Set.Ici (init m g.spherical (temperature g vbar f))) (residual g vbar m (temperature g vbar f)) := by
        have := hc.add_const (-temperature g vbar f)
        exact this
      have h := newton_convex _ _ b (fun y => (hsl y).1) (fun y => (hsl y).2) hc' (by unfold residual; rw [hb, sub_self]) h0 k
      exact ⟨h.1, h.2.1.trans h.2.2⟩
  refine ⟨main.1, main.2, ?_⟩
  rw [← hb]
  exact (shape_colder g hg vbar hs m hm).antitone main.2

/-! ### Three iterations are not always enough -/

/-- A cold distribution on the four cells. -/
noncomputable def cold : ℕ → ℝ := fun i => if i = 1 ∨ i = 2 then 99999 else 1

theorem cold_temperature : temperature four none cold = 1 / 4 + 2 / 100000 := by
  simp [temperature, four, sum_range_succ, shifted, cold]; norm_num

theorem four_step (T y : ℝ) :
    newtonStep (residual four none 2 T) y =
      y + (1 / 4 + 2 / (1 + Real.exp (2 * y)) - T) * (1 + Real.exp (2 * y)) ^ 2 / (4 * Real.exp (2 * y)) := by
  have h := Real.exp_pos (2 * y)
  have e : residual four none 2 T = fun y => 1 / 4 + 2 / (1 + Real.exp (2 * y)) - T := by
    funext y; unfold residual; rw [four_temperature]
  have he : HasDerivAt (fun y : ℝ => 1 + Real.exp (2 * y)) (2 * Real.exp (2 * y)) y := by
    have := (((hasDerivAt_id y).const_mul 2).exp).const_add 1
    simp only [id, mul_one] at this
    exact this.congr_deriv (by ring)
  have hd : HasDerivAt (fun y : ℝ => 1 / 4 + 2 / (1 + Real.exp (2 * y)) - T)
      (-(4 * Real.exp (2 * y)) / (1 + Real.exp (2 * y)) ^ 2) y := by
    have := (((hasDerivAt_const y (2 : ℝ)).div he (by positivity)).const_add (1 / 4)).sub_const T
    exact this.congr_deriv (by ring)
  unfold newtonStep
  rw [e, hd.deriv]
  dsimp only
  generalize Real.exp (2 * y) = u at *
  have : 1 + u ≠ 0 := by positivity
  field_simp
  ring

theorem exp_ten : Real.exp (2 * 5) < 22500 := by
  have h1 : Real.exp (2 * 5) = Real.exp 1 ^ 10 := by rw [← Real.exp_nat_mul]; norm_num
  rw [h1]
  have := Real.exp_one_lt_d9
  calc Real.exp 1 ^ 10 < 2.7182818286 ^ 10 := by gcongr
    _ < 22500 := by norm_num

/-- C183: the default number of iterations can end far from the self-consistent parameter, and
no error is raised: the returned shape is hotter than the distribution by more than three times
its excess over the coldest cell. -/
theorem newton_unconverged (β : ℝ) (hβ : Find four cold none 3 2 β) :
    β ≤ 5 ∧ temperature four none (model four none 2 β) - 1 / 4 > 4 * (temperature four none cold - 1 / 4) := by
  have main : β ≤ 5 := by
    unfold Find at hβ
    dsimp only at hβ
    rw [if_neg (by norm_num)] at hβ
    obtain ⟨k, _, hk, rfl⟩ := hβ
    rw [cold_temperature]
    have hi : init 2 four.spherical (1 / 4 + 2 / 100000) ≤ 2 ∧ 0 ≤ init 2 four.spherical (1 / 4 + 2 / 100000) := by
      unfold init; norm_num
    generalize init 2 four.spherical (1 / 4 + 2 / 100000) = y0 at hi
    have inv : ∀ k ≤ 3, 0 ≤ (newtonStep (residual four none 2 (1 / 4 + 2 / 100000)))^[k] y0 ∧
        (newtonStep (residual four none 2 (1 / 4 + 2 / 100000)))^[k] y0 ≤ 2 + k := by
      intro k
      induction k with
      | zero => intro _; simpa using ⟨hi.2, hi.1⟩
      | succ k ih =>
        intro hk
        obtain ⟨h1, h2⟩ := ih (by omega)
        rw [Function.iterate_succ_apply', four_step]
        generalize (newtonStep (residual four none 2 (1 / 4 + 2 / 100000)))^[k] y0 = y at *
        have hk' : (k : ℝ) ≤ 2 := by exact_mod_cast (show k ≤ 2 by omega)
        have u1 : 1 ≤ Real.exp (2 * y) := Real.one_le_exp (by linarith)
        have u2 : Real.exp (2 * y) < 22500 := lt_of_le_of_lt (Real.exp_le_exp.2 (by linarith)) exp_ten
        generalize Real.exp (2 * y) = u at *
        have hu : 0 < u := by linarith
        have e : (1 / 4 + 2 / (1 + u) - (1 / 4 + 2 / 100000)) * (1 + u) ^ 2 / (4 * u) =
            (1 - (1 + u) / 100000) * ((1 + u) / (2 * u)) := by
          have : 1 + u ≠ 0 := by positivity
          field_simp
          ring
        rw [e]
        have f1 : 0 ≤ 1 - (1 + u) / 100000 := by
          rw [sub_nonneg, div_le_one (by norm_num)]; linarith
        have f2 : 1 - (1 + u) / 100000 ≤ 1 := by
          have : 0 ≤ (1 + u) / 100000 := by positivity
          linarith
        have g1 : 0 ≤ (1 + u) / (2 * u) := by positivity
        have g2 : (1 + u) / (2 * u) ≤ 1 := by rw [div_le_one (by positivity)]; linarith
        have p1 : 0 ≤ (1 - (1 + u) / 100000) * ((1 + u) / (2 * u)) := mul_nonneg f1 g1
        have p2 : (1 - (1 + u) / 100000) * ((1 + u) / (2 * u)) ≤ 1 := mul_le_one₀ f2 g1 g2
        push_cast
        exact ⟨by linarith, by linarith⟩
    have := (inv k hk).2
    have hk' : (k : ℝ) ≤ 3 := by exact_mod_cast hk
    linarith
  refine ⟨main, ?_⟩
  rw [cold_temperature, four_temperature]
  have u2 : Real.exp (2 * β) < 22500 := lt_of_le_of_lt (Real.exp_le_exp.2 (by linarith)) exp_ten
  have hp := Real.exp_pos (2 * β)
  have : 2 / (1 + 22500 : ℝ) < 2 / (1 + Real.exp (2 * β)) := by
    apply div_lt_div_of_pos_left <;> linarith
  norm_num at this ⊢
  linarith

/-- The cold distribution does have a self-consistent parameter, and the iteration does return
something. -/
example : (∃! β, residual four none 2 (temperature four none cold) β = 0) ∧ ∃ β, Find four cold none 3 2 β := by
  constructor
  · refine beta_of_distribution four four_ok none 2 two_pos _ (fun i _ => by unfold cold; split_ifs <;> norm_num) 0 1
      ⟨by decide, by simp [four]⟩ ⟨by decide, by simp [four]⟩ (by norm_num [cold]) (by norm_num [cold]) ?_
    simp only [shifted, four]
    norm_num [abs_of_neg]
  · exact ⟨_, by unfold Find RootFind; rw [if_neg (by norm_num)]; exact ⟨3, by norm_num, le_rfl, rfl⟩⟩

/-! ### C184: continuum temperatures -/

open MeasureTheory Set

theorem ratio_gamma (m : ℝ) (hm : 0 < m) :
    ratio m false = Real.Gamma (3 / m) / Real.Gamma (1 / m) ∧ ratio m true = Real.Gamma (5 / m) / Real.Gamma (3 / m) / 3 := by
  have h1 := Real.Gamma_pos_of_pos (show 0 < 1 / m by positivity)
  have h3 := Real.Gamma_pos_of_pos (show 0 < 3 / m by positivity)
  have h5 := Real.Gamma_pos_of_pos (show 0 < 5 / m by positivity)
  unfold ratio
  simp only [Bool.false_eq_true, if_false, if_true]
  constructor
  · rw [Real.exp_sub, Real.exp_log h3, Real.exp_log h1]
  · rw [Real.exp_sub, Real.exp_log h5, Real.exp_log h3]

theorem half_integral (m β : ℝ) (hm : 0 < m) (hβ : 0 < β) (k : ℕ) :
    ∫ x in Ioi (0 : ℝ), x ^ k * Real.exp (-β * x ^ m) = β ^ (-((k : ℝ) + 1) / m) * (1 / m) * Real.Gamma ((k + 1) / m) := by
  rw [← integral_rpow_mul_exp_neg_mul_rpow hm (lt_of_lt_of_le (by norm_num) (Nat.cast_nonneg k)) hβ]
  refine setIntegral_congr_fun measurableSet_Ioi fun x _ => ?_
  simp only [Real.rpow_natCast]

theorem full_integral (m β : ℝ) (k : ℕ) (hk : Even k) :
    ∫ x, x ^ k * Real.exp (-β * |x| ^ m) = 2 * ∫ x in Ioi (0 : ℝ), x ^ k * Real.exp (-β * x ^ m) := by
  rw [← integral_comp_abs (f := fun x => x ^ k * Real.exp (-β * x ^ m))]
  congr 1; funext x
  rw [hk.pow_abs]

theorem rpow_quot (β : ℝ) (hβ : 0 < β) (m p q : ℝ) (hpq : p + 2 = q) : β ^ (-q / m) = β ^ (-p / m) * β ^ (-2 / m) := by
  rw [← Real.rpow_add hβ]; congr 1; rw [← hpq]; ring

/-- C184: the diffusion coefficient of the super-Gaussian model is the mean square velocity of
its equilibrium `exp(-β|v|^m)`. -/
theorem diffusion_is_temperature (m β : ℝ) (hm : 0 < m) (hβ : 0 < β) :
    diffusion m β = (∫ x, x ^ 2 * Real.exp (-β * |x| ^ m)) / ∫ x, Real.exp (-β * |x| ^ m) := by
  have h2 := full_integral m β 2 (by norm_num)
  have h0 := full_integral m β 0 (by norm_num)
  simp only [pow_zero, one_mul] at h0
  have i2 := half_integral m β hm hβ 2
  have i0 := half_integral m β hm hβ 0
  simp only [pow_zero, one_mul] at i0
  rw [h2, h0, i2, i0]
  norm_num
  unfold diffusion
  rw [(ratio_gamma m hm).1, rpow_quot β hβ m 1 3 (by norm_num)]
  have g1 := Real.Gamma_pos_of_pos (show 0 < 1 / m by positivity)
  have b1 := Real.rpow_pos_of_pos hβ (-1 / m)
  simp only [one_div] at *
  generalize Real.Gamma m⁻¹ = G1 at *
  generalize Real.Gamma (3 / m) = G3 at *
  generalize β ^ (-1 / m) = B at *
  generalize β ^ (-2 / m) = B2 at *
  field_simp

/-- The same on a speed grid: `⟨v⁴⟩ / (3 ⟨v²⟩)`. -/
theorem spherical_is_temperature (m β : ℝ) (hm : 0 < m) (hβ : 0 < β) :
    β ^ (-2 / m) * ratio m true = (∫ x in Ioi (0 : ℝ), x ^ 4 * Real.exp (-β * x ^ m)) /
      (3 * ∫ x in Ioi (0 : ℝ), x ^ 2 * Real.exp (-β * x ^ m)) := by
  rw [half_integral m β hm hβ 4, half_integral m β hm hβ 2, (ratio_gamma m hm).2]
  norm_num
  rw [rpow_quot β hβ m 3 5 (by norm_num)]
  have g3 := Real.Gamma_pos_of_pos (show 0 < 3 / m by positivity)
  have b1 := Real.rpow_pos_of_pos hβ (-3 / m)
  generalize Real.Gamma (3 / m) = G3 at *
  generalize Real.Gamma (5 / m) = G5 at *
  generalize β ^ (-3 / m) = B at *
  generalize β ^ (-2 / m) = B2 at *
  field_simp

/-- At `m = 2` both ratios are one half, as documented. -/
theorem ratio_two (s : Bool) : ratio 2 s = 1 / 2 := by
  have g1 := Real.Gamma_pos_of_pos (show (0 : ℝ) < 1 / 2 by norm_num)
  have h3 : Real.Gamma (3 / 2) = 1 / 2 * Real.Gamma (1 / 2) := by
    rw [← Real.Gamma_add_one (by norm_num)]; norm_num
  have h5 : Real.Gamma (5 / 2) = 3 / 2 * Real.Gamma (3 / 2) := by
    rw [← Real.Gamma_add_one (by norm_num)]; norm_num
  cases s
  · rw [(ratio_gamma 2 two_pos).1, h3]; field_simp
  · rw [(ratio_gamma 2 two_pos).2, h5]
    have : 0 < Real.Gamma (3 / 2) := Real.Gamma_pos_of_pos (by norm_num)
    field_simp

theorem ratio_pos (m : ℝ) (hm : 0 < m) (s : Bool) : 0 < ratio m s := by
  have h1 := Real.Gamma_pos_of_pos (show 0 < 1 / m by positivity)
  have h3 := Real.Gamma_pos_of_pos (show 0 < 3 / m by positivity)
  have h5 := Real.Gamma_pos_of_pos (show 0 < 5 / m by positivity)
  cases s
  · rw [(ratio_gamma m hm).1]; positivity
  · rw [(ratio_gamma m hm).2]; positivity

/-- C184: the first guess is the parameter for which the continuum shape has the wanted
temperature, for every exponent, on both kinds of grid. -/
theorem guess_is_continuum (m T : ℝ) (hm : 0 < m) (hT : 0 < T) :
    (0 < init m false T ∧ (∫ x, x ^ 2 * Real.exp (-init m false T * |x| ^ m)) / (∫ x, Real.exp (-init m false T * |x| ^ m)) = T) ∧
    (0 < init m true T ∧ (∫ x in Ioi (0 : ℝ), x ^ 4 * Real.exp (-init m true T * x ^ m)) /
      (3 * ∫ x in Ioi (0 : ℝ), x ^ 2 * Real.exp (-init m true T * x ^ m)) = T) := by
  have key : ∀ s, 0 < init m s T ∧ init m s T ^ (-2 / m) * ratio m s = T := by
    intro s
    have hr := ratio_pos m hm s
    have e : init m s T = (T / ratio m s) ^ (-m / 2) := by
      unfold init
      split_ifs with h
      · subst h
        rw [ratio_two]
        rw [show (-2 / 2 : ℝ) = -1 by norm_num, Real.rpow_neg_one]
        field_simp
      · rfl
    have hq : 0 < T / ratio m s := div_pos hT hr
    refine ⟨by rw [e]; exact Real.rpow_pos_of_pos hq _, ?_⟩
    rw [e, ← Real.rpow_mul hq.le, show -m / 2 * (-2 / m) = 1 by field_simp, Real.rpow_one]
    field_simp
  refine ⟨⟨(key false).1, ?_⟩, (key true).1, ?_⟩
  · rw [← diffusion_is_temperature m _ hm (key false).1]; exact (key false).2
  · rw [← spherical_is_temperature m _ hm (key true).1]; exact (key true).2

end Verif.Beta
