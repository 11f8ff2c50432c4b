import Verif.Props.BetaNewton
import Verif.Props.Collisions
import Mathlib.Analysis.Convex.SpecificFunctions.Basic

/-! C185: the energy-conserving parameter of the super-Gaussian collision operator. -/
namespace Verif.Beta
open Finset FP

/-- C185: at `m = 2` the closure is `1/(2T)`, the parameter of the Dougherty operator. -/
theorem closure_two (n : ℕ) (v : ℕ → ℝ) (dv : ℝ) (hdv : dv ≠ 0) (f : ℕ → ℝ) :
    closure n v 2 f = betaInit n v dv (vbarOf n v f) f := by
  have e : ∀ i, psi v (vbarOf n v f) 2 i = (v i - vbarOf n v f) ^ 2 := by
    intro i
    unfold psi
    rw [show (2 : ℝ) = ((2 : ℕ) : ℝ) by norm_num, Real.rpow_natCast, sq_abs]
  unfold closure betaInit discreteT
  simp only [e, ← sum_mul]
  rw [mul_div_mul_right _ _ hdv]
  generalize (∑ i ∈ range n, f i * (v i - vbarOf n v f) ^ 2) = A
  generalize ∑ i ∈ range n, f i = B
  rw [one_div, mul_inv, inv_div, div_eq_mul_inv, mul_inv]
  ring

/-- C185: at `m = 2` the diffusion is `1/(2β)`. -/
theorem diffusion_two (β : ℝ) (hβ : 0 < β) : diffusion 2 β = 1 / (2 * β) := by
  unfold diffusion
  rw [ratio_two, show (-2 / 2 : ℝ) = -1 by norm_num, Real.rpow_neg_one]
  field_simp

/-- C185: at `m = 2` on a uniform grid the drift is the one of the Dougherty operator. -/
theorem drift_two (n : ℕ) (v : ℕ → ℝ) (dv vbar β : ℝ) (hdv : dv ≠ 0) (hu : Uniform n dv v) (e : ℕ) (he : e + 1 < n) :
    superGaussianModel v dv vbar β 2 (1 / (2 * β)) e = (betaModel v vbar β).1 e := by
  have h2 : ∀ x : ℝ, |x| ^ (2 : ℝ) = x ^ 2 := by
    intro x; rw [show (2 : ℝ) = ((2 : ℕ) : ℝ) by norm_num, Real.rpow_natCast, sq_abs]
  unfold superGaussianModel betaModel
  simp only [h2]
  rw [hu e he]
  field_simp
  ring

/-- The flux of the super-Gaussian operator through an edge. -/
theorem super_flux (v : ℕ → ℝ) (dv vbar β m D : ℝ) (hdv : dv ≠ 0) (hD : 1 / 10 ^ 30 ≤ D) (f : ℕ → ℝ) (e : ℕ) :
    flux (superGaussianModel v dv vbar β m D) (safeD fun _ => D)
      (fun e => ccDelta (superGaussianModel v dv vbar β m D e * dv / safeD (fun _ => D) e)) dv f e =
    D / dv * (β * (psi v vbar m (e + 1) - psi v vbar m e) *
      (ccDelta (β * (psi v vbar m (e + 1) - psi v vbar m e)) * f e +
        (1 - ccDelta (β * (psi v vbar m (e + 1) - psi v vbar m e))) * f (e + 1)) + (f (e + 1) - f e)) := by
  have hD0 : D ≠ 0 := by rintro rfl; norm_num at hD
  have hs : safeD (fun _ => D) e = D := max_eq_left hD
  have hw : superGaussianModel v dv vbar β m D e * dv / D = β * (psi v vbar m (e + 1) - psi v vbar m e) := by
    unfold superGaussianModel psi
    field_simp
  unfold flux
  dsimp only
  rw [hs, hw]
  rw [← hw]
  field_simp

/-- C185: the energy given to the plasma in one collision step is proportional to the condition
that the closure solves, evaluated on the new distribution; for the right-hand side of the step
(the instantaneous rate) it is the condition on the current distribution. -/
theorem energy_rate (n : ℕ) (v : ℕ → ℝ) (dv vbar β m D ν dt : ℝ) (hdv : dv ≠ 0) (hD : 1 / 10 ^ 30 ≤ D)
    (hu : Uniform n dv v) (f : ℕ → ℝ) :
    ∑ i ∈ range n, v i ^ 2 * (f i - (changCooper n dv (superGaussianModel v dv vbar β m D) (fun _ => D) (fun _ => ν) dt).mv n f i) =
      -(2 * D * dt * ν / dv) * betaResidual n v vbar m f β := by
  let F := flux (superGaussianModel v dv vbar β m D) (safeD fun _ => D)
      (fun e => ccDelta (superGaussianModel v dv vbar β m D e * dv / safeD (fun _ => D) e)) dv
  have h1 : ∀ i < n, f i - (changCooper n dv (superGaussianModel v dv vbar β m D) (fun _ => D) (fun _ => ν) dt).mv n f i =
      dt * ν * (netFlux n (F f) i / dv) := by
    intro i hi
    have := (chang_cooper_is_finite_volume n dv (superGaussianModel v dv vbar β m D) (fun _ => D) (fun _ => ν) dt
      (fun i => (changCooper n dv (superGaussianModel v dv vbar β m D) (fun _ => D) (fun _ => ν) dt).mv n f i) f).1
      ((solve_iff ..).2 fun _ _ => rfl) i hi
    dsimp only at this
    rw [this]
    simp only [F]
    ring
  have h2 : ∑ i ∈ range n, v i ^ 2 * (f i - (changCooper n dv (superGaussianModel v dv vbar β m D) (fun _ => D) (fun _ => ν) dt).mv n f i) =
      dt * ν / dv * ∑ i ∈ range n, v i ^ 2 * netFlux n (F f) i := by
    rw [mul_sum]
    exact sum_congr rfl fun i hi => by rw [h1 i (mem_range.1 hi)]; ring
  rw [h2, sum_netFlux_mul]
  unfold betaResidual
  rw [mul_sum, mul_sum]
  refine sum_congr rfl fun e he => ?_
  have he' : e + 1 < n := by rw [mem_range] at he; omega
  have hF : F f e = _ := super_flux v dv vbar β m D hdv hD f e
  rw [hF, hu e he']
  unfold psi
  field_simp
  rw [hu e he']
  ring

theorem energy_step (n : ℕ) (v : ℕ → ℝ) (dv vbar β m D ν dt : ℝ) (hdv : dv ≠ 0) (hD : 1 / 10 ^ 30 ≤ D)
    (hu : Uniform n dv v) (f f' : ℕ → ℝ)
    (h : SolveOneX n (changCooper n dv (superGaussianModel v dv vbar β m D) (fun _ => D) (fun _ => ν) dt) f f') :
    ∑ i ∈ range n, v i ^ 2 * f' i - ∑ i ∈ range n, v i ^ 2 * f i = -(2 * D * dt * ν / dv) * betaResidual n v vbar m f' β := by
  rw [← energy_rate n v dv vbar β m D ν dt hdv hD hu f', ← sum_sub_distrib]
  refine sum_congr rfl fun i hi => ?_
  rw [(solve_iff ..).1 h i (mem_range.1 hi)]
  ring

/-- C185: the closure conserves energy at the current distribution exactly when its condition
holds. -/
theorem energy_conserved_iff (n : ℕ) (v : ℕ → ℝ) (dv vbar β m D ν dt : ℝ) (hdv : dv ≠ 0) (hD : 1 / 10 ^ 30 ≤ D)
    (hu : Uniform n dv v) (hν : ν ≠ 0) (hdt : dt ≠ 0) (f : ℕ → ℝ) :
    ∑ i ∈ range n, v i ^ 2 * (f i - (changCooper n dv (superGaussianModel v dv vbar β m D) (fun _ => D) (fun _ => ν) dt).mv n f i) = 0 ↔
      betaResidual n v vbar m f β = 0 := by
  have hD0 : D ≠ 0 := by rintro rfl; norm_num at hD
  rw [energy_rate n v dv vbar β m D ν dt hdv hD hu f, mul_eq_zero, or_iff_right]
  rw [neg_eq_zero]
  positivity

/-! ### Uniqueness -/

/-- `(e^w - 1)/w` increases. -/
theorem secant_lt {x y : ℝ} (hxy : x < y) (hx : x ≠ 0) (hy : y ≠ 0) : (Real.exp x - 1) / x < (Real.exp y - 1) / y := by
  have := strictConvexOn_exp.secant_strict_mono (Set.mem_univ 0) (Set.mem_univ x) (Set.mem_univ y) hx hy hxy
  simpa using this

/-- The edge term of the closure, exact weight: `a`, `b` the two neighbours. -/
noncomputable def edge (a b w : ℝ) : ℝ := w * (ccDelta w * a + (1 - ccDelta w) * b) + (b - a)

theorem edge_eq (a b w : ℝ) : edge a b w = (1 + w * (1 - ccDelta w)) * b - (1 - w * ccDelta w) * a := by unfold edge; ring

theorem edge_exact {w : ℝ} (h : ExactAt w) (hw : w ≠ 0) (a b : ℝ) :
    edge a b w = (b - a) * (w / (Real.exp w - 1)) + w * b := by
  rcases h with rfl | h
  · exact absurd rfl hw
  · rw [edge_eq]
    unfold ccDelta
    rw [if_neg (not_lt.2 h), (delta_full hw).1, (delta_full hw).2]
    have : Real.exp w - 1 ≠ 0 := by
      intro h0; exact hw (Real.exp_eq_one_iff w |>.1 (by linarith))
    field_simp
    ring

theorem edge_zero (a b : ℝ) : edge a b 0 = b - a := by unfold edge; ring

/-- The function `w/(e^w - 1)`, one at zero. -/
noncomputable def bern (w : ℝ) : ℝ := if w = 0 then 1 else w / (Real.exp w - 1)

theorem bern_pos (w : ℝ) : 0 < bern w := by
  unfold bern; split_ifs with h
  · exact one_pos
  · exact exp_quot_pos h

theorem bern_anti : StrictAnti bern := by
  have sec : ∀ w : ℝ, w ≠ 0 → 0 < (Real.exp w - 1) / w := fun w hw => by
    have := exp_quot_pos hw; rw [← inv_div]; exact inv_pos.2 this
  intro x y hxy
  unfold bern
  by_cases hx : x = 0
  · have hy : 0 < y := by linarith
    rw [if_pos hx, if_neg hy.ne']
    have := Real.add_one_lt_exp hy.ne'
    rw [div_lt_one (by linarith)]; linarith
  · by_cases hy : y = 0
    · have hx' : x < 0 := by linarith
      rw [if_pos hy, if_neg hx]
      have := Real.add_one_lt_exp hx
      have h1 : Real.exp x < 1 := Real.exp_lt_one_iff.2 hx'
      rw [one_lt_div_of_neg (by linarith)]; linarith
    · rw [if_neg hx, if_neg hy, ← inv_div, ← inv_div (Real.exp x - 1)]
      exact inv_strictAnti₀ (sec x hx) (secant_lt hxy hx hy)

theorem bern_neg (w : ℝ) : bern (-w) = bern w + w := by
  unfold bern
  by_cases h : w = 0
  · simp [h]
  · rw [if_neg (neg_ne_zero.2 h), if_neg h, Real.exp_neg]
    have h1 : Real.exp w - 1 ≠ 0 := by intro h0; exact h (Real.exp_eq_one_iff w |>.1 (by linarith))
    have h2 := Real.exp_ne_zero w
    have h3 : (Real.exp w)⁻¹ - 1 ≠ 0 := by
      intro h0; apply h1; field_simp at h0; linarith
    have h4 : 1 - Real.exp w ≠ 0 := by intro h0; apply h1; linarith
    field_simp
    have : (1 - Real.exp w) = -(Real.exp w - 1) := by ring
    rw [this]
    field_simp
    ring

theorem edge_bern {w : ℝ} (h : ExactAt w) (a b : ℝ) : edge a b w = bern (-w) * b - bern w * a := by
  by_cases hw : w = 0
  · subst hw; rw [edge_zero]; simp [bern]
  · rw [bern_neg, edge_exact h hw]
    unfold bern; rw [if_neg hw]; ring

/-- The edge term grows with `w`, for positive neighbours. -/
theorem edge_mono {x y : ℝ} (hx : ExactAt x) (hy : ExactAt y) (hxy : x < y) {a b : ℝ} (ha : 0 < a) (hb : 0 < b) :
    edge a b x < edge a b y := by
  rw [edge_bern hx, edge_bern hy]
  have h1 := mul_lt_mul_of_pos_right (bern_anti hxy) ha
  have h2 := mul_lt_mul_of_pos_right (bern_anti (neg_lt_neg hxy)) hb
  linarith

theorem residual_edges (n : ℕ) (v : ℕ → ℝ) (vbar m : ℝ) (f : ℕ → ℝ) (β : ℝ) :
    betaResidual n v vbar m f β =
      ∑ e ∈ range (n - 1), (1 / 2) * (v (e + 1) + v e) * edge (f e) (f (e + 1)) (β * (psi v vbar m (e + 1) - psi v vbar m e)) := rfl

/-- Around zero drift, the potential rises away from rest. -/
theorem psi_sign (v : ℕ → ℝ) (m : ℝ) (hm : 0 < m) (e : ℕ) (hv : v e < v (e + 1)) :
    (0 < v (e + 1) + v e → psi v 0 m e < psi v 0 m (e + 1)) ∧ (v (e + 1) + v e < 0 → psi v 0 m (e + 1) < psi v 0 m e) := by
  unfold psi
  simp only [sub_zero]
  constructor
  · intro h
    refine Real.rpow_lt_rpow (abs_nonneg _) ?_ hm
    rw [← sq_lt_sq]; nlinarith
  · intro h
    refine Real.rpow_lt_rpow (abs_nonneg _) ?_ hm
    rw [← sq_lt_sq]; nlinarith

/-- C185 (part): for a positive distribution without mean flow the energy-conserving parameter
is unique. -/
theorem closure_unique_partial (n : ℕ) (hn : 3 ≤ n) (v : ℕ → ℝ) (m : ℝ) (hm : 0 < m) (f : ℕ → ℝ)
    (hv : ∀ e, e + 1 < n → v e < v (e + 1)) (hf : ∀ i < n, 0 < f i) (x y : ℝ)
    (hx : ∀ e, e + 1 < n → ExactAt (x * (psi v 0 m (e + 1) - psi v 0 m e)))
    (hy : ∀ e, e + 1 < n → ExactAt (y * (psi v 0 m (e + 1) - psi v 0 m e)))
    (h1 : betaResidual n v 0 m f x = 0) (h2 : betaResidual n v 0 m f y = 0) : x = y := by
  have mono : ∀ x y : ℝ, (∀ e, e + 1 < n → ExactAt (x * (psi v 0 m (e + 1) - psi v 0 m e))) →
      (∀ e, e + 1 < n → ExactAt (y * (psi v 0 m (e + 1) - psi v 0 m e))) → x < y →
      betaResidual n v 0 m f x < betaResidual n v 0 m f y := by
    intro x y hx hy hxy
    rw [residual_edges, residual_edges]
    have strict : ∀ e, e + 1 < n → v (e + 1) + v e ≠ 0 →
        (1 / 2) * (v (e + 1) + v e) * edge (f e) (f (e + 1)) (x * (psi v 0 m (e + 1) - psi v 0 m e)) <
        (1 / 2) * (v (e + 1) + v e) * edge (f e) (f (e + 1)) (y * (psi v 0 m (e + 1) - psi v 0 m e)) := by
      intro e he h0
      have ps := psi_sign v m hm e (hv e he)
      rcases lt_or_gt_of_ne h0 with h | h
      · have := ps.2 h
        refine mul_lt_mul_of_neg_left ?_ (by linarith)
        exact edge_mono (hy e he) (hx e he) (by nlinarith) (hf e (by omega)) (hf (e + 1) he)
      · have := ps.1 h
        refine mul_lt_mul_of_pos_left ?_ (by linarith)
        exact edge_mono (hx e he) (hy e he) (by nlinarith) (hf e (by omega)) (hf (e + 1) he)
    have weak : ∀ e ∈ range (n - 1),
        (1 / 2) * (v (e + 1) + v e) * edge (f e) (f (e + 1)) (x * (psi v 0 m (e + 1) - psi v 0 m e)) ≤
        (1 / 2) * (v (e + 1) + v e) * edge (f e) (f (e + 1)) (y * (psi v 0 m (e + 1) - psi v 0 m e)) := by
      intro e he
      have he' : e + 1 < n := by rw [mem_range] at he; omega
      by_cases h0 : v (e + 1) + v e = 0
      · rw [h0]; simp
      · exact (strict e he' h0).le
    refine sum_lt_sum weak ?_
    by_cases h0 : v 1 + v 0 = 0
    · refine ⟨1, mem_range.2 (by omega), strict 1 (by omega) ?_⟩
      have a := hv 0 (by omega)
      have b := hv 1 (by omega)
      norm_num at a b ⊢
      intro h; linarith
    · exact ⟨0, mem_range.2 (by omega), strict 0 (by omega) (by simpa using h0)⟩
  rcases lt_trichotomy x y with h | h | h
  · have := mono x y hx hy h; rw [h1, h2] at this; exact absurd this (lt_irrefl _)
  · exact h
  · have := mono y x hy hx h; rw [h1, h2] at this; exact absurd this (lt_irrefl _)

/-- C185: for a distribution without mean flow that falls with speed the energy-conserving
parameter is positive, so the diffusion is. -/
theorem closure_positive (n : ℕ) (hn : 3 ≤ n) (v : ℕ → ℝ) (m : ℝ) (hm : 0 < m) (f : ℕ → ℝ)
    (hv : ∀ e, e + 1 < n → v e < v (e + 1)) (hf : ∀ i < n, 0 < f i)
    (hdec : ∀ i < n, ∀ j < n, |v i| < |v j| → f j < f i) (x : ℝ)
    (hx : ∀ e, e + 1 < n → ExactAt (x * (psi v 0 m (e + 1) - psi v 0 m e)))
    (h : betaResidual n v 0 m f x = 0) : 0 < x ∧ 0 < diffusion m x := by
  have hpos : 0 < x := by
    by_contra hle
    push Not at hle
    have term : ∀ e, e + 1 < n → v (e + 1) + v e ≠ 0 →
        (1 / 2) * (v (e + 1) + v e) * edge (f e) (f (e + 1)) (x * (psi v 0 m (e + 1) - psi v 0 m e)) < 0 := by
      intro e he h0
      have ps := psi_sign v m hm e (hv e he)
      have sq := hv e he
      have z0 : ExactAt (0 : ℝ) := Or.inl rfl
      have le : ∀ w w' : ℝ, ExactAt w → ExactAt w' → w ≤ w' → edge (f e) (f (e + 1)) w ≤ edge (f e) (f (e + 1)) w' := by
        intro w w' hw hw' hle
        rcases hle.eq_or_lt with rfl | hlt
        · exact le_rfl
        · exact (edge_mono hw hw' hlt (hf e (by omega)) (hf (e + 1) he)).le
      rcases lt_or_gt_of_ne h0 with h | h
      · have p := ps.2 h
        have := le 0 _ z0 (hx e he) (by nlinarith)
        rw [edge_zero] at this
        have hd := hdec (e + 1) he e (by omega) (by rw [← sq_lt_sq]; nlinarith)
        exact mul_neg_of_neg_of_pos (by linarith) (by linarith)
      · have p := ps.1 h
        have := le _ 0 (hx e he) z0 (by nlinarith)
        rw [edge_zero] at this
        have hd := hdec e (by omega) (e + 1) he (by rw [← sq_lt_sq]; nlinarith)
        exact mul_neg_of_pos_of_neg (by linarith) (by linarith)
    have : betaResidual n v 0 m f x < 0 := by
      rw [residual_edges]
      refine lt_of_lt_of_eq (sum_lt_sum (g := fun _ => (0 : ℝ)) ?_ ?_) (by simp)
      · intro e he
        have he' : e + 1 < n := by rw [mem_range] at he; omega
        by_cases h0 : v (e + 1) + v e = 0
        · rw [h0]; simp
        · exact (term e he' h0).le
      · by_cases h0 : v 1 + v 0 = 0
        · refine ⟨1, mem_range.2 (by omega), term 1 (by omega) ?_⟩
          have a := hv 0 (by omega)
          have b := hv 1 (by omega)
          norm_num at a b ⊢
          intro h; linarith
        · exact ⟨0, mem_range.2 (by omega), term 0 (by omega) (by simpa using h0)⟩
    linarith
  exact ⟨hpos, mul_pos (Real.rpow_pos_of_pos hpos _) (ratio_pos m hm false)⟩

/-- Non-vacuous: the sampled super-Gaussian of order 4 on three cells is its own root. -/
example : betaResidual 3 (fun i => (i : ℝ) - 1) 0 4 (fun i => Real.exp (-(1 * |(i : ℝ) - 1 - 0| ^ (4 : ℝ)))) 1 = 0 ∧
    (∀ e, e + 1 < 3 → ExactAt (1 * (psi (fun i => (i : ℝ) - 1) 0 4 (e + 1) - psi (fun i => (i : ℝ) - 1) 0 4 e))) ∧
    vbarOf 3 (fun i => (i : ℝ) - 1) (fun i => Real.exp (-(1 * |(i : ℝ) - 1 - 0| ^ (4 : ℝ)))) = 0 := by
  have hE : ∀ e, e + 1 < 3 → ExactAt (1 * (psi (fun i => (i : ℝ) - 1) 0 4 (e + 1) - psi (fun i => (i : ℝ) - 1) 0 4 e)) := by
    intro e he
    right
    have : e < 2 := by omega
    unfold psi
    interval_cases e <;> norm_num
  refine ⟨super_gaussian_root 3 _ 0 4 1 1 _ (fun i _ => (one_mul _).symm) hE, hE, ?_⟩
  unfold vbarOf
  simp [sum_range_succ]
  norm_num

/-! ### An example for `find_between_partial` -/

/-- On the four cells the temperature is convex for positive parameters. -/
theorem four_convex : ConvexOn ℝ (Set.Ici 0) fun y => temperature four none (model four none 2 y) := by
  have hd : ∀ y : ℝ, HasDerivAt (fun y : ℝ => temperature four none (model four none 2 y))
      (-(4 * Real.exp (2 * y)) / (1 + Real.exp (2 * y)) ^ 2) y := by
    intro y
    have h := Real.exp_pos (2 * y)
    have he : HasDerivAt (fun y : ℝ => 1 + Real.exp (2 * y)) (2 * Real.exp (2 * y)) y := by
      have := (((hasDerivAt_id y).const_mul 2).exp).const_add 1
      simp only [id, mul_one] at this
      exact this.congr_deriv (by ring)
    have := ((hasDerivAt_const y (2 : ℝ)).div he (by positivity)).const_add (1 / 4)
    simp only [four_temperature]
    exact this.congr_deriv (by ring)
  refine MonotoneOn.convexOn_of_deriv (convex_Ici 0) (fun y _ => (hd y).continuousAt.continuousWithinAt)
    (fun y _ => (hd y).differentiableAt.differentiableWithinAt) ?_
  intro x hx y hy hxy
  rw [interior_Ici, Set.mem_Ioi] at hx hy
  rw [(hd x).deriv, (hd y).deriv]
  have hu : 1 ≤ Real.exp (2 * x) := Real.one_le_exp (by linarith)
  have hw : Real.exp (2 * x) ≤ Real.exp (2 * y) := Real.exp_le_exp.2 (by linarith)
  have hw0 := Real.exp_pos (2 * y)
  generalize Real.exp (2 * x) = u at *
  generalize Real.exp (2 * y) = w at *
  rw [neg_div, neg_div, neg_le_neg_iff, div_le_div_iff₀ (by positivity) (by positivity)]
  nlinarith [mul_nonneg (sub_nonneg.2 hw) (show 0 ≤ u * w - 1 by nlinarith)]

/-- The hypotheses of `find_between_partial` hold for the cold distribution. -/
example : ∃ b, temperature four none (model four none 2 b) = temperature four none cold ∧
    ConvexOn ℝ (Set.Ici (init 2 four.spherical (temperature four none cold)))
      (fun y => temperature four none (model four none 2 y)) ∧
    init 2 four.spherical (temperature four none cold) ≤ b := by
  have hi : init 2 four.spherical (temperature four none cold) ≤ 2 ∧ 0 ≤ init 2 four.spherical (temperature four none cold) := by
    rw [cold_temperature]; unfold init; norm_num
  refine ⟨Real.log 99999 / 2, ?_, four_convex.subset (Set.Ici_subset_Ici.2 hi.2) (convex_Ici _), ?_⟩
  · rw [four_temperature, cold_temperature, show 2 * (Real.log 99999 / 2) = Real.log 99999 by ring,
      Real.exp_log (by norm_num)]
    norm_num
  · refine hi.1.trans ?_
    have : Real.exp (2 * 5) ≤ 99999 := exp_ten.le.trans (by norm_num)
    have := (Real.le_log_iff_exp_le (by norm_num)).2 this
    linarith

end Verif.Beta
