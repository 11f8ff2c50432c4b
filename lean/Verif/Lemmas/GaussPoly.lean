import Verif.Lemmas.HermitePoly
import Verif.Model.HermiteLegendre
import Mathlib.Analysis.SpecialFunctions.Gaussian.GaussianIntegral
import Mathlib.MeasureTheory.Integral.IntegralEqImproper
import Mathlib.Analysis.Calculus.Deriv.Polynomial

/-! Integrals of a polynomial against a Gaussian. -/
namespace Verif.HermiteLegendre
open Polynomial MeasureTheory Verif.Hermite

theorem integrable_pow_gauss (n : ℕ) : Integrable fun x : ℝ => x ^ n * Real.exp (-x ^ 2) := by
  have h0 : (-1 : ℝ) < n := by have : (0 : ℝ) ≤ n := by positivity
                               linarith
  have h := integrable_rpow_mul_exp_neg_mul_sq (b := 1) one_pos h0
  simpa [Real.rpow_natCast] using h

theorem integrable_poly_gauss (p : ℝ[X]) : Integrable fun x : ℝ => p.eval x * Real.exp (-x ^ 2) := by
  induction p using Polynomial.induction_on' with
  | add p q hp hq => simp only [eval_add, add_mul]; exact hp.add hq
  | monomial n a =>
    simp only [eval_monomial, mul_assoc]
    exact (integrable_pow_gauss n).const_mul a

/-- The Gaussian of the Hermite basis. -/
noncomputable def bell (alpha u v : ℝ) : ℝ := 1 / Real.sqrt Real.pi * Real.exp (-((v - u) / alpha) ^ 2)

theorem integrable_bell {alpha : ℝ} (ha : alpha ≠ 0) (u : ℝ) (p : ℝ[X]) : Integrable fun v : ℝ => p.eval v * bell alpha u v := by
  have h := (integrable_poly_gauss (p.comp (C u + C alpha * X)))
  have h2 : Integrable fun v : ℝ => (p.comp (C u + C alpha * X)).eval ((v - u) / alpha) * Real.exp (-((v - u) / alpha) ^ 2) :=
    (h.comp_div ha).comp_sub_right u
  refine (h2.const_mul (1 / Real.sqrt Real.pi)).congr (Filter.Eventually.of_forall fun v => ?_)
  have e : (p.comp (C u + C alpha * X)).eval ((v - u) / alpha) = p.eval v := by
    rw [eval_comp]; congr 1; simp only [eval_add, eval_mul, eval_C, eval_X]; field_simp; ring
  simp only [e, bell]; ring

/-- `∫ p(v) bell(v) dv`. -/
noncomputable def gint {alpha : ℝ} (ha : alpha ≠ 0) (u : ℝ) : ℝ[X] →ₗ[ℝ] ℝ where
  toFun p := ∫ v, p.eval v * bell alpha u v
  map_add' p q := by
    simp only [eval_add, add_mul]
    exact integral_add (integrable_bell ha u p) (integrable_bell ha u q)
  map_smul' c p := by
    simp only [eval_smul, smul_eq_mul, RingHom.id_apply, mul_assoc]
    exact integral_const_mul _ _

theorem gint_def {alpha : ℝ} (ha : alpha ≠ 0) (u : ℝ) (p : ℝ[X]) : gint ha u p = ∫ v, p.eval v * bell alpha u v := rfl

theorem gint_C_mul {alpha : ℝ} (ha : alpha ≠ 0) (u c : ℝ) (p : ℝ[X]) : gint ha u (C c * p) = c * gint ha u p := by
  rw [← smul_eq_C_mul, map_smul, smul_eq_mul]

theorem gint_one {alpha : ℝ} (ha : alpha ≠ 0) (u : ℝ) : gint ha u 1 = |alpha| := by
  rw [gint_def]
  simp only [eval_one, one_mul, bell]
  rw [integral_const_mul]
  have h1 : (∫ v : ℝ, Real.exp (-((v - u) / alpha) ^ 2)) = ∫ v : ℝ, Real.exp (-(v / alpha) ^ 2) :=
    integral_sub_right_eq_self (fun v : ℝ => Real.exp (-(v / alpha) ^ 2)) u
  have h2 : (∫ v : ℝ, Real.exp (-(v / alpha) ^ 2)) = |alpha| • ∫ v : ℝ, Real.exp (-v ^ 2) :=
    Measure.integral_comp_div (fun v : ℝ => Real.exp (-v ^ 2)) alpha
  have h3 : (∫ v : ℝ, Real.exp (-v ^ 2)) = Real.sqrt Real.pi := by
    have := integral_gaussian 1
    simpa using this
  rw [h1, h2, h3, smul_eq_mul]
  have : Real.sqrt Real.pi ≠ 0 := (Real.sqrt_pos.mpr Real.pi_pos).ne'
  field_simp

theorem bell_deriv {alpha : ℝ} (u v : ℝ) : HasDerivAt (bell alpha u) (-(2 / alpha ^ 2) * (v - u) * bell alpha u v) v := by
  have h := ((((hasDerivAt_id v).sub_const u).div_const alpha).pow 2).neg.exp.const_mul (1 / Real.sqrt Real.pi)
  have e : (fun y => 1 / Real.sqrt Real.pi * Real.exp ((-(fun x => (id x - u) / alpha) ^ 2) y)) = bell alpha u := by
    funext y; simp [bell]
  rw [e] at h
  refine h.congr_deriv ?_
  simp only [bell, id, Nat.cast_ofNat, Pi.neg_apply, Pi.pow_apply]
  ring

/-- Integration by parts: the mean of `(v - u) p` is `alpha²/2` that of `p'`. -/
theorem gint_parts {alpha : ℝ} (ha : alpha ≠ 0) (u : ℝ) (p : ℝ[X]) :
    gint ha u ((X - C u) * p) = alpha ^ 2 / 2 * gint ha u (derivative p) := by
  have hd : ∀ v : ℝ, HasDerivAt (fun v => p.eval v * bell alpha u v)
      ((derivative p - C (2 / alpha ^ 2) * ((X - C u) * p)).eval v * bell alpha u v) v := by
    intro v
    refine ((p.hasDerivAt v).mul (bell_deriv (alpha := alpha) u v)).congr_deriv ?_
    simp only [eval_sub, eval_mul, eval_C, eval_X]; ring
  have h := integral_eq_zero_of_hasDerivAt_of_integrable hd (integrable_bell ha u _) (integrable_bell ha u p)
  rw [← gint_def ha, map_sub, gint_C_mul] at h
  have h2 : alpha ^ 2 ≠ 0 := pow_ne_zero 2 ha
  field_simp at h
  linarith

theorem basis_mul (alpha u : ℝ) (ha : alpha ≠ 0) (n : ℕ) : C (alpha * Real.sqrt (((n : ℝ) + 1) / 2)) * basis alpha u (n + 1)
    = (X - C u) * basis alpha u n - C (alpha ^ 2 / 2) * derivative (basis alpha u n) := by
  cases n with
  | zero =>
    have h := basis_three_zero alpha u ha
    rw [basis_zero, derivative_one, mul_zero, sub_zero]
    rw [basis_zero] at h
    simp only [Nat.cast_zero, zero_add] at *
    linear_combination -h
  | succ n =>
    have h := basis_three alpha u ha n
    rw [basis_deriv, ← mul_assoc, ← C_mul]
    push_cast at *
    have e : alpha ^ 2 / 2 * (Real.sqrt 2 / alpha * Real.sqrt ((n : ℝ) + 1)) = alpha * Real.sqrt (((n : ℝ) + 1) / 2) := by
      rw [Real.sqrt_div' _ (by norm_num : (0 : ℝ) ≤ 2)]
      have h2 : Real.sqrt 2 ≠ 0 := by positivity
      have h3 := two_sq
      field_simp
      linear_combination h3
    rw [e]
    linear_combination -h

theorem gint_raise {alpha : ℝ} (ha : alpha ≠ 0) (u : ℝ) (n : ℕ) (q : ℝ[X]) :
    Real.sqrt (2 * ((n : ℝ) + 1)) * gint ha u (basis alpha u (n + 1) * q) = alpha * gint ha u (basis alpha u n * derivative q) := by
  have h := congrArg (fun p => gint ha u (p * q)) (basis_mul alpha u ha n)
  have e1 : gint ha u (C (alpha * Real.sqrt (((n : ℝ) + 1) / 2)) * basis alpha u (n + 1) * q)
      = alpha * Real.sqrt (((n : ℝ) + 1) / 2) * gint ha u (basis alpha u (n + 1) * q) := by rw [mul_assoc, gint_C_mul]
  have e2 : gint ha u (((X - C u) * basis alpha u n - C (alpha ^ 2 / 2) * derivative (basis alpha u n)) * q)
      = alpha ^ 2 / 2 * gint ha u (basis alpha u n * derivative q) := by
    rw [sub_mul, map_sub, mul_assoc, mul_assoc, gint_C_mul, gint_parts ha, derivative_mul, map_add]; ring
  simp only [e1, e2] at h
  have e3 : Real.sqrt (2 * ((n : ℝ) + 1)) = 2 * Real.sqrt (((n : ℝ) + 1) / 2) := by
    rw [show 2 * ((n : ℝ) + 1) = 2 ^ 2 * (((n : ℝ) + 1) / 2) by ring, Real.sqrt_mul (by norm_num), Real.sqrt_sq (by norm_num)]
  rw [e3]
  apply mul_left_cancel₀ ha
  linear_combination 2 * h

/-- The Hermite basis is dual to the Hermite functions. -/
theorem gint_orth {alpha : ℝ} (ha : alpha ≠ 0) (u : ℝ) (m n : ℕ) :
    gint ha u (basis alpha u m * basis alpha u n) = if m = n then |alpha| else 0 := by
  induction m generalizing n with
  | zero =>
    cases n with
    | zero => rw [if_pos rfl, basis_zero, mul_one, gint_one]
    | succ n =>
      rw [if_neg (by omega), mul_comm]
      have h := gint_raise ha u n (basis alpha u 0)
      rw [basis_zero, derivative_one, mul_zero, map_zero, mul_zero] at h
      rw [basis_zero]
      exact (mul_eq_zero.mp h).resolve_left (Real.sqrt_pos.mpr (by positivity)).ne'
  | succ m ih =>
    have hm : Real.sqrt (2 * ((m : ℝ) + 1)) ≠ 0 := (Real.sqrt_pos.mpr (by positivity)).ne'
    apply mul_left_cancel₀ hm
    rw [gint_raise]
    cases n with
    | zero => rw [basis_zero, derivative_one, mul_zero, map_zero, if_neg (by omega)]; ring
    | succ n =>
      rw [basis_deriv, mul_left_comm, gint_C_mul, ih]
      by_cases h : m = n
      · subst h
        rw [if_pos rfl, if_pos rfl, Real.sqrt_mul (by norm_num)]
        field_simp
      · rw [if_neg h, if_neg (by omega)]; ring

/-- The Hermite functions of the code are basis polynomials times the Gaussian. -/
theorem psi_eq {alpha : ℝ} (ha : alpha ≠ 0) (u v : ℝ) (n : ℕ) : psi alpha u v n = (basis alpha u n).eval v * bell alpha u v := by
  induction n using Nat.strong_induction_on with
  | _ n ih =>
    match n with
    | 0 => rw [psi, basis_zero]; simp [bell]
    | 1 =>
      rw [psi, ih 0 (by omega), basis_zero, basis_one]
      simp only [eval_one, eval_mul, eval_C, eval_sub, eval_X, one_mul]
      ring
    | n + 2 =>
      rw [psi, ih (n + 1) (by omega), ih n (by omega)]
      have h := congrArg (eval v) (basis_three alpha u ha n)
      simp only [eval_add, eval_mul, eval_C, eval_X] at h
      have hn : (n : ℝ) + 1 + 1 = n + 2 := by ring
      rw [hn] at h
      rw [Real.sqrt_div' _ (by norm_num : (0 : ℝ) ≤ 2), Real.sqrt_div' _ (by norm_num : (0 : ℝ) ≤ 2)] at h
      rw [Real.sqrt_div' _ (by positivity), Real.sqrt_div' _ (by positivity)]
      have s2 : Real.sqrt 2 ≠ 0 := by positivity
      have sn : Real.sqrt ((n : ℝ) + 2) ≠ 0 := (Real.sqrt_pos.mpr (by positivity)).ne'
      field_simp
      field_simp at h
      linear_combination (bell alpha u v) * h

end Verif.HermiteLegendre
