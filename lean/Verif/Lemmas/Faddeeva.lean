import Mathlib.Analysis.SpecialFunctions.Gaussian.FourierTransform
import Mathlib.Analysis.SpecialFunctions.ImproperIntegrals
import Mathlib.Analysis.Calculus.ParametricIntegral
import Mathlib.MeasureTheory.Integral.Prod

/-! The Faddeeva function exists: `w(z) = 1/√π ∫_0^∞ exp(-s²/4 + i z s) ds` is entire and equals `i/π ∫ exp(-t²)/(z - t) dt` above the real axis. -/
namespace Verif.Faddeeva
open Complex MeasureTheory Set

/-- The Faddeeva function as a half-line Fourier integral. -/
noncomputable def w (z : ℂ) : ℂ := 1 / Real.sqrt Real.pi * ∫ s in Ioi (0 : ℝ), cexp (-(1/4) * (s : ℂ) ^ 2 + I * z * s)

theorem kernel_int (z : ℂ) : Integrable fun s : ℝ => cexp (-(1/4) * (s : ℂ) ^ 2 + I * z * s) := by
  have h := integrable_cexp_quadratic' (b := -(1/4)) (by norm_num) (I * z) 0
  simpa using h

theorem entire : Differentiable ℂ w := by
  intro z
  refine DifferentiableAt.const_mul ?_ _
  have hb : Integrable (fun s : ℝ => ‖cexp (-(1/4) * (s : ℂ) ^ 2 + I * (-I * (‖z‖ + 2 : ℝ)) * s)‖) (volume.restrict (Ioi 0)) :=
    ((kernel_int _).norm).restrict
  refine (hasDerivAt_integral_of_dominated_loc_of_deriv_le (F := fun z (s : ℝ) => cexp (-(1/4) * (s : ℂ) ^ 2 + I * z * s))
    (F' := fun z (s : ℝ) => cexp (-(1/4) * (s : ℂ) ^ 2 + I * z * s) * (I * s)) (x₀ := z) (s := Metric.ball z 1)
    (Metric.ball_mem_nhds z one_pos) (Filter.Eventually.of_forall fun z => ?_) (kernel_int z).restrict ?_ ?_ hb ?_).2.differentiableAt
  · exact (Continuous.aestronglyMeasurable (by fun_prop))
  · exact (Continuous.aestronglyMeasurable (by fun_prop))
  · filter_upwards [ae_restrict_mem measurableSet_Ioi] with s hs x hx
    have hs : 0 < s := hs
    rw [norm_mul, norm_exp, norm_exp, norm_mul, norm_I, one_mul, norm_real, Real.norm_of_nonneg hs.le]
    have e1 : (-(1/4) * (s : ℂ) ^ 2 + I * x * s).re = -(1/4) * s ^ 2 - x.im * s := by
      have : (-(1/4) * (s : ℂ) ^ 2 + I * x * s) = ((-(1/4) * s ^ 2 : ℝ) : ℂ) + (I * x) * (s : ℝ) := by push_cast; ring
      rw [this, add_re, ofReal_re, re_mul_ofReal]; simp; ring
    have e2 : (-(1/4) * (s : ℂ) ^ 2 + I * (-I * (‖z‖ + 2 : ℝ)) * s).re = -(1/4) * s ^ 2 + (‖z‖ + 2) * s := by
      have : (-(1/4) * (s : ℂ) ^ 2 + I * (-I * (‖z‖ + 2 : ℝ)) * s) = ((-(1/4) * s ^ 2 + (‖z‖ + 2) * s : ℝ) : ℂ) := by
        push_cast; linear_combination (-(‖z‖ + 2 : ℂ) * s) * I_sq
      rw [this, ofReal_re]
    rw [e1, e2]
    have hxn : -x.im ≤ ‖z‖ + 1 := by
      have h1 := abs_im_le_norm x
      have h2 : ‖x‖ ≤ ‖z‖ + 1 := by
        have := norm_le_norm_add_norm_sub' x z
        have h3 : ‖x - z‖ < 1 := by simpa [dist_eq_norm] using hx
        rw [norm_sub_rev] at h3
        have h4 : ‖z - x‖ = ‖x - z‖ := norm_sub_rev _ _
        linarith [h4]
      linarith [neg_abs_le x.im]
    calc Real.exp (-(1/4) * s ^ 2 - x.im * s) * s ≤ Real.exp (-(1/4) * s ^ 2 + (‖z‖ + 1) * s) * Real.exp s := by
          gcongr
          · nlinarith
          · linarith [Real.add_one_le_exp s]
      _ = _ := by rw [← Real.exp_add]; ring_nf
  · refine Filter.Eventually.of_forall fun s x _ => ?_
    have h : HasDerivAt (fun z : ℂ => -(1/4) * (s : ℂ) ^ 2 + I * z * s) (I * s) x := by
      have := (((hasDerivAt_id x).const_mul I).mul_const (s : ℂ)).const_add (-(1/4) * (s : ℂ) ^ 2)
      simpa using this
    exact h.cexp

theorem upper (z : ℂ) (hz : 0 < z.im) : w z = I / Real.pi * ∫ t : ℝ, (Real.exp (-t ^ 2) : ℂ) / (z - t) := by
  have hzt : ∀ t : ℝ, z - t ≠ 0 := by
    intro t h
    have := congrArg Complex.im h
    simp at this
    linarith
  have hre : ∀ t : ℝ, (I * (z - t)).re < 0 := by intro t; simp [hz]
  have h1 : ∀ t : ℝ, (Real.exp (-t ^ 2) : ℂ) / (z - t) = ∫ s in Ioi (0 : ℝ), -I * (Real.exp (-t ^ 2) : ℂ) * cexp (I * (z - t) * s) := by
    intro t
    rw [integral_const_mul, integral_exp_mul_complex_Ioi (hre t)]
    have := hzt t
    simp only [ofReal_zero, mul_zero, Complex.exp_zero]
    field_simp
  simp only [h1]
  have hint : Integrable (Function.uncurry fun (t s : ℝ) => -I * (Real.exp (-t ^ 2) : ℂ) * cexp (I * (z - t) * s)) (volume.prod (volume.restrict (Ioi 0))) := by
    have hg : Integrable fun t : ℝ => Real.exp (-t ^ 2) := by
      have := integrable_exp_neg_mul_sq (b := 1) one_pos
      simpa using this
    have he : Integrable (fun s : ℝ => Real.exp (-z.im * s)) (volume.restrict (Ioi 0)) := integrableOn_exp_mul_Ioi (by linarith) 0
    refine (hg.mul_prod he).mono' (Continuous.aestronglyMeasurable (by unfold Function.uncurry; fun_prop)) (Filter.Eventually.of_forall fun p => ?_)
    obtain ⟨t, s⟩ := p
    show ‖-I * (Real.exp (-t ^ 2) : ℂ) * cexp (I * (z - t) * s)‖ ≤ Real.exp (-t ^ 2) * Real.exp (-z.im * s)
    rw [norm_mul, norm_mul, norm_neg, norm_I, one_mul, norm_real, Real.norm_of_nonneg (Real.exp_pos _).le, norm_exp, re_mul_ofReal]
    simp
  rw [integral_integral_swap hint]
  have h2 : ∀ s : ℝ, ∫ t : ℝ, -I * (Real.exp (-t ^ 2) : ℂ) * cexp (I * (z - t) * s) = -I * (Real.sqrt Real.pi) * cexp (-(1/4) * (s : ℂ) ^ 2 + I * z * s) := by
    intro s
    have hf := fourierIntegral_gaussian (b := 1) (by norm_num) (-(s : ℂ))
    have e : ∀ t : ℝ, -I * (Real.exp (-t ^ 2) : ℂ) * cexp (I * (z - t) * s) = (-I * cexp (I * z * s)) * (cexp (I * -(s : ℂ) * t) * cexp (-1 * (t : ℂ) ^ 2)) := by
      intro t
      rw [ofReal_exp, mul_assoc, ← Complex.exp_add, mul_assoc (-I), ← Complex.exp_add, ← Complex.exp_add]
      congr 2
      push_cast; ring
    simp only [e]
    rw [integral_const_mul, hf]
    have hp : ((Real.pi : ℂ) / 1) ^ (1 / 2 : ℂ) = Real.sqrt Real.pi := by
      rw [div_one, Real.sqrt_eq_rpow, ofReal_cpow Real.pi_pos.le]; norm_num
    rw [hp, Complex.exp_add]
    have e2 : -(-(s : ℂ)) ^ 2 / (4 * 1) = -(1/4) * (s : ℂ) ^ 2 := by ring
    rw [e2]; ring
  simp only [h2]
  rw [integral_const_mul]
  unfold w
  obtain ⟨J, hJ⟩ : ∃ J : ℂ, J = ∫ s in Ioi (0 : ℝ), cexp (-(1/4) * (s : ℂ) ^ 2 + I * z * s) := ⟨_, rfl⟩
  rw [← hJ]
  have hp : (Real.sqrt Real.pi : ℂ) ≠ 0 := by exact_mod_cast (Real.sqrt_pos.2 Real.pi_pos).ne'
  have hq : (Real.sqrt Real.pi : ℂ) * Real.sqrt Real.pi = Real.pi := by exact_mod_cast Real.mul_self_sqrt Real.pi_pos.le
  rw [← hq]
  field_simp
  rw [I_sq]; ring

/-- Reflection: `w(z) + w(-z) = 2 exp(-z²)`. -/
theorem reflection (z : ℂ) : w z + w (-z) = 2 * cexp (-z ^ 2) := by
  have hp : (Real.sqrt Real.pi : ℂ) ≠ 0 := by exact_mod_cast (Real.sqrt_pos.2 Real.pi_pos).ne'
  have h1 : ∫ s in Ioi (0 : ℝ), cexp (-(1/4) * (s : ℂ) ^ 2 + I * (-z) * s) = ∫ s in Iic (0 : ℝ), cexp (-(1/4) * (s : ℂ) ^ 2 + I * z * s) := by
    have := integral_comp_neg_Ioi (0 : ℝ) fun s : ℝ => cexp (-(1/4) * (s : ℂ) ^ 2 + I * z * s)
    rw [neg_zero] at this
    rw [← this]
    congr 1
    funext s
    congr 1
    push_cast; ring
  have hf := fourierIntegral_gaussian (b := 1/4) (by norm_num) z
  have h2 : ∫ s : ℝ, cexp (-(1/4) * (s : ℂ) ^ 2 + I * z * s) = 2 * Real.sqrt Real.pi * cexp (-z ^ 2) := by
    have e : ∀ s : ℝ, cexp (-(1/4) * (s : ℂ) ^ 2 + I * z * s) = cexp (I * z * s) * cexp (-(1/4) * (s : ℂ) ^ 2) := by
      intro s; rw [← Complex.exp_add]; congr 1; ring
    simp only [e]
    rw [hf]
    have hq : ((Real.pi : ℂ) / (1/4)) ^ (1 / 2 : ℂ) = 2 * Real.sqrt Real.pi := by
      have h4 : (Real.pi : ℂ) / (1/4) = ((4 * Real.pi : ℝ) : ℂ) := by push_cast; ring
      have h5 : Real.sqrt (4 * Real.pi) = 2 * Real.sqrt Real.pi := by
        rw [Real.sqrt_mul (by norm_num), show (4 : ℝ) = 2 ^ 2 by norm_num, Real.sqrt_sq (by norm_num)]
      rw [h4, ← ofReal_ofNat, ← ofReal_mul, ← h5, Real.sqrt_eq_rpow, ofReal_cpow (by positivity)]; norm_num
    rw [hq]
    congr 2
    ring
  unfold w
  rw [h1, ← mul_add, add_comm, intervalIntegral.integral_Iic_add_Ioi (kernel_int z).integrableOn (kernel_int z).integrableOn, h2]
  field_simp

end Verif.Faddeeva
