import Verif.Model.HermiteLegendre
import Mathlib.Analysis.SpecialFunctions.Integrals.Basic
import Mathlib.Analysis.Calculus.Deriv.Polynomial
import Mathlib.MeasureTheory.Integral.IntervalIntegral.FundThmCalculus

/-! Legendre polynomials: the recurrence of the code, derivatives, end values, orthogonality. -/
namespace Verif.HermiteLegendre
open Polynomial Finset MeasureTheory

theorem legP_rec (k : ℕ) : C ((k : ℝ) + 2) * legP (k + 2) = C (2 * (k : ℝ) + 3) * X * legP (k + 1) - C ((k : ℝ) + 1) * legP k := by
  have h : ((k : ℝ) + 2) ≠ 0 := by positivity
  rw [legP, ← mul_assoc, ← C_mul, mul_one_div_cancel h, C_1, one_mul]
  congr 3
  congr 1; ring

/-- `(n+1) L_{n+1} = (2n+1) x L_n - n L_{n-1}` for `n ≥ 1`, and with any `L_{-1}` for `n = 0`. -/
noncomputable def prev (n : ℕ) : ℝ[X] := if n = 0 then 0 else legP (n - 1)

theorem legP_rec' (n : ℕ) : C ((n : ℝ) + 1) * legP (n + 1) = C (2 * (n : ℝ) + 1) * X * legP n - C (n : ℝ) * prev n := by
  cases n with
  | zero => simp [legP, prev]
  | succ n =>
    have := legP_rec n
    simp only [prev, Nat.succ_ne_zero, if_false, Nat.add_sub_cancel]
    push_cast
    rw [show (n : ℝ) + 1 + 1 = n + 2 by ring, show 2 * ((n : ℝ) + 1) + 1 = 2 * n + 3 by ring]
    exact this

theorem legP_one (n : ℕ) : (legP n).eval 1 = 1 := by
  induction n using Nat.strong_induction_on with
  | _ n ih =>
    match n with
    | 0 => simp [legP]
    | 1 => simp [legP]
    | n + 2 =>
      have h := congrArg (eval 1) (legP_rec n)
      simp only [eval_mul, eval_C, eval_sub, eval_X, ih (n + 1) (by omega), ih n (by omega)] at h
      have h2 : ((n : ℝ) + 2) ≠ 0 := by positivity
      apply mul_left_cancel₀ h2
      rw [h]; ring

theorem legP_neg_one (n : ℕ) : (legP n).eval (-1) = (-1) ^ n := by
  induction n using Nat.strong_induction_on with
  | _ n ih =>
    match n with
    | 0 => simp [legP]
    | 1 => simp [legP]
    | n + 2 =>
      have h := congrArg (eval (-1)) (legP_rec n)
      simp only [eval_mul, eval_C, eval_sub, eval_X, ih (n + 1) (by omega), ih n (by omega)] at h
      have h2 : ((n : ℝ) + 2) ≠ 0 := by positivity
      apply mul_left_cancel₀ h2
      rw [h]; ring

theorem C_inj_mul {a : ℝ} (h : a ≠ 0) {p q : ℝ[X]} (e : C a * p = C a * q) : p = q :=
  mul_left_cancel₀ (C_ne_zero.mpr h) e

theorem C_two : (C (2 : ℝ) : ℝ[X]) = 2 := map_ofNat C 2
theorem C_three : (C (3 : ℝ) : ℝ[X]) = 3 := map_ofNat C 3

/-- `x L_n' - L_{n-1}' = n L_n`, `L_{n+1}' = (n+1) L_n + x L_n'` and `(x² - 1) L_n' = n (x L_n - L_{n-1})`. -/
theorem legP_deriv (n : ℕ) : X * derivative (legP n) - derivative (prev n) = C (n : ℝ) * legP n ∧
    derivative (legP (n + 1)) = C ((n : ℝ) + 1) * legP n + X * derivative (legP n) ∧
    X ^ 2 * derivative (legP n) - derivative (legP n) = C (n : ℝ) * X * legP n - C (n : ℝ) * prev n := by
  induction n with
  | zero => simp [legP, prev]
  | succ n ih =>
    obtain ⟨hB, hA, hC⟩ := ih
    have hp : prev (n + 1) = legP n := by simp [prev]
    have r1 := legP_rec' n
    have r2 := legP_rec' (n + 1)
    rw [hp] at r2
    have e : (C (2 * (n : ℝ) + 1) : ℝ[X]) = 2 * C (n : ℝ) + 1 := by
      rw [C_add, C_mul, C_1, C_two]
    have e1 : (C ((n : ℝ) + 1) : ℝ[X]) = C (n : ℝ) + 1 := by rw [C_add, C_1]
    have hB' : X * derivative (legP (n + 1)) - derivative (prev (n + 1)) = C (((n + 1 : ℕ) : ℝ)) * legP (n + 1) := by
      rw [hp]; push_cast
      rw [r1, hA, e, e1]
      linear_combination hC
    refine ⟨hB', ?_, ?_⟩
    · have d2 := congrArg derivative r2
      simp only [derivative_mul, derivative_sub, derivative_C, derivative_X, zero_mul, zero_add, mul_one] at d2
      rw [hp] at hB'
      push_cast at *
      have hne : ((n : ℝ) + 1 + 1) ≠ 0 := by positivity
      apply C_inj_mul hne
      have e3 : (C (2 * ((n : ℝ) + 1) + 1) : ℝ[X]) = 2 * C (n : ℝ) + 3 := by
        rw [show 2 * ((n : ℝ) + 1) + 1 = 2 * n + 3 by ring, C_add, C_mul, C_two, C_three]
      have e2 : (C ((n : ℝ) + 1 + 1) : ℝ[X]) = C (n : ℝ) + 2 := by
        rw [show (n : ℝ) + 1 + 1 = n + 2 by ring, C_add, C_two]
      rw [d2, e3, e1, e2]
      rw [e1] at hB'
      linear_combination (C (n : ℝ) + 1) * hB'
    · rw [hp] at hB' ⊢
      push_cast at *
      linear_combination X * hB' - hA

/-- `L_{n+2}' = (2n+3) L_{n+1} + L_n'`. -/
theorem legP_deriv_two (n : ℕ) : derivative (legP (n + 2)) = C (2 * (n : ℝ) + 3) * legP (n + 1) + derivative (legP n) := by
  have h1 := (legP_deriv (n + 1)).2.1
  have h2 := (legP_deriv (n + 1)).1
  have hp : prev (n + 1) = legP n := by simp [prev]
  rw [hp] at h2
  rw [h1]
  have e : (C (2 * (n : ℝ) + 3) : ℝ[X]) = C (((n + 1 : ℕ) : ℝ)) + C (((n + 1 : ℕ) : ℝ) + 1) := by
    rw [← C_add]; push_cast; congr 1; ring
  rw [e]
  linear_combination h2

/-- The derivative in the basis: all lower orders of the other parity. -/
theorem legP_deriv_sum (n : ℕ) : derivative (legP n) = ∑ i ∈ range n, if (n - i) % 2 = 1 then C (2 * (i : ℝ) + 1) * legP i else 0 := by
  induction n using Nat.strong_induction_on with
  | _ n ih =>
    match n with
    | 0 => simp [legP]
    | 1 => simp [legP]
    | n + 2 =>
      rw [legP_deriv_two, ih n (by omega), sum_range_succ, sum_range_succ]
      rw [if_neg (show ¬ (n + 2 - n) % 2 = 1 by omega), if_pos (show (n + 2 - (n + 1)) % 2 = 1 by omega), add_zero]
      rw [add_comm]
      congr 1
      · refine sum_congr rfl fun i hi => ?_
        have : (n + 2 - i) % 2 = (n - i) % 2 := by have := mem_range.mp hi; omega
        rw [this]
      · push_cast; congr 2; ring

theorem legP_degree (n : ℕ) : (legP n).natDegree ≤ n := by
  induction n using Nat.strong_induction_on with
  | _ n ih =>
    match n with
    | 0 => simp [legP]
    | 1 => simp [legP]
    | n + 2 =>
      rw [legP]
      refine (natDegree_C_mul_le _ _).trans ?_
      refine (natDegree_sub_le _ _).trans (max_le ?_ ?_)
      · rw [mul_assoc]
        refine (natDegree_C_mul_le _ _).trans ?_
        refine natDegree_mul_le.trans ?_
        have := ih (n + 1) (by omega)
        rw [natDegree_X]; omega
      · refine (natDegree_C_mul_le _ _).trans ?_
        have := ih n (by omega)
        omega

/-! ### Integrals of polynomials -/

/-- The integral of a polynomial over an interval. -/
noncomputable def integ (a b : ℝ) : ℝ[X] →ₗ[ℝ] ℝ where
  toFun p := ∫ v in a..b, p.eval v
  map_add' p q := by
    simp only [eval_add]
    exact intervalIntegral.integral_add (p.continuous.intervalIntegrable _ _) (q.continuous.intervalIntegrable _ _)
  map_smul' c p := by
    simp only [eval_smul, smul_eq_mul, RingHom.id_apply]
    exact intervalIntegral.integral_const_mul _ _

theorem integ_def (a b : ℝ) (p : ℝ[X]) : integ a b p = ∫ v in a..b, p.eval v := rfl

theorem integ_C_mul (a b c : ℝ) (p : ℝ[X]) : integ a b (C c * p) = c * integ a b p := by
  rw [← smul_eq_C_mul, map_smul, smul_eq_mul]

theorem integ_derivative (a b : ℝ) (p : ℝ[X]) : integ a b (derivative p) = p.eval b - p.eval a := by
  rw [integ_def]
  exact intervalIntegral.integral_eq_sub_of_hasDerivAt (fun x _ => p.hasDerivAt x) ((derivative p).continuous.intervalIntegrable _ _)

theorem legP_sturm (n : ℕ) : derivative ((1 - X ^ 2) * derivative (legP n)) = -(C ((n : ℝ) * (n + 1)) * legP n) := by
  obtain ⟨hB, _, hC⟩ := legP_deriv n
  have h : (1 - X ^ 2) * derivative (legP n) = C (n : ℝ) * prev n - C (n : ℝ) * X * legP n := by linear_combination -hC
  rw [h]
  simp only [derivative_sub, derivative_mul, derivative_C, derivative_X, zero_mul, zero_add, mul_one]
  rw [C_mul, C_add, C_1]
  linear_combination (-C (n : ℝ)) * hB

theorem legP_orth {m n : ℕ} (h : m ≠ n) : integ (-1) 1 (legP m * legP n) = 0 := by
  have e : derivative ((1 - X ^ 2) * (derivative (legP m) * legP n - derivative (legP n) * legP m)) =
      C ((n : ℝ) * (n + 1) - m * (m + 1)) * (legP m * legP n) := by
    have hm := legP_sturm m
    have hn := legP_sturm n
    rw [derivative_mul] at hm hn
    simp only [derivative_mul, derivative_sub] at hm hn ⊢
    rw [C_sub]
    linear_combination (legP n) * hm - legP m * hn
  have h1 := integ_derivative (-1) 1 ((1 - X ^ 2) * (derivative (legP m) * legP n - derivative (legP n) * legP m))
  rw [e, integ_C_mul] at h1
  simp only [eval_mul, eval_sub, eval_one, eval_pow, eval_X] at h1
  norm_num at h1
  rcases h1 with h1 | h1
  · exfalso
    have : ((n : ℝ) - m) * (n + m + 1) = 0 := by linear_combination h1
    rcases mul_eq_zero.mp this with h2 | h2
    · exact h (by exact_mod_cast (sub_eq_zero.mp h2).symm)
    · have : (0 : ℝ) < n + m + 1 := by positivity
      linarith
  · exact h1

theorem legP_norm (n : ℕ) : integ (-1) 1 (legP n * legP n) = 2 / (2 * n + 1) := by
  have e : derivative (X * (legP n * legP n)) = C (2 * (n : ℝ) + 1) * (legP n * legP n) + C 2 * (derivative (prev n) * legP n) := by
    have hB := (legP_deriv n).1
    simp only [derivative_mul, derivative_X, one_mul]
    rw [C_add, C_mul, C_1, C_two]
    linear_combination (2 * legP n) * hB
  have hz : integ (-1) 1 (derivative (prev n) * legP n) = 0 := by
    cases n with
    | zero => simp [prev]
    | succ n =>
      have hp : prev (n + 1) = legP n := by simp [prev]
      rw [hp, legP_deriv_sum, sum_mul, map_sum]
      refine sum_eq_zero fun i hi => ?_
      split_ifs
      · rw [mul_assoc, integ_C_mul, legP_orth (by have := mem_range.mp hi; omega), mul_zero]
      · simp
  have h1 := integ_derivative (-1) 1 (X * (legP n * legP n))
  rw [e, map_add, integ_C_mul, integ_C_mul, hz] at h1
  simp only [eval_mul, eval_X, legP_one, legP_neg_one] at h1
  have hp : (2 * (n : ℝ) + 1) ≠ 0 := by positivity
  have hs : ((-1 : ℝ) ^ n) * (-1) ^ n = 1 := by rw [← mul_pow]; norm_num
  field_simp
  linarith [h1, hs]

/-! ### The basis of the window -/

/-- The affine map of the window to `[-1, 1]`. -/
noncomputable def aff (a b : ℝ) : ℝ[X] := C (1 / (b - a)) * (C 2 * X - C (a + b))

theorem xi_eq (a b : ℝ) (m : ℕ) : xi a b m = C (Real.sqrt (2 * m + 1)) * (legP m).comp (aff a b) := rfl

theorem integ_comp (a b : ℝ) (h : a ≠ b) (p : ℝ[X]) : integ a b (p.comp (aff a b)) = (b - a) / 2 * integ (-1) 1 p := by
  have hw : b - a ≠ 0 := sub_ne_zero.mpr h.symm
  rw [integ_def, integ_def]
  have hev : ∀ v : ℝ, (p.comp (aff a b)).eval v = p.eval (2 / (b - a) * v - (a + b) / (b - a)) := by
    intro v
    rw [eval_comp]; congr 1
    simp only [aff, eval_mul, eval_C, eval_sub, eval_X]; field_simp
  simp only [hev]
  rw [intervalIntegral.integral_comp_mul_sub (fun s => p.eval s) (div_ne_zero two_ne_zero hw)]
  rw [smul_eq_mul]
  congr 1
  · field_simp
  · congr 1 <;> field_simp <;> ring

theorem sqrt_mul_self' (n : ℕ) : Real.sqrt (2 * n + 1) * Real.sqrt (2 * n + 1) = 2 * n + 1 := Real.mul_self_sqrt (by positivity)
theorem sqrt_odd_pos (n : ℕ) : 0 < Real.sqrt (2 * (n : ℝ) + 1) := Real.sqrt_pos.mpr (by positivity)

/-- The basis is orthonormal for the mean over the window. -/
theorem xi_orth (a b : ℝ) (h : a ≠ b) (m n : ℕ) : integ a b (xi a b m * xi a b n) = if m = n then b - a else 0 := by
  have e : xi a b m * xi a b n = C (Real.sqrt (2 * m + 1) * Real.sqrt (2 * n + 1)) * (legP m * legP n).comp (aff a b) := by
    rw [xi_eq, xi_eq, mul_comp, C_mul]; ring
  rw [e, integ_C_mul, integ_comp a b h]
  split_ifs with hmn
  · subst hmn
    rw [legP_norm, sqrt_mul_self']
    have : (2 * (m : ℝ) + 1) ≠ 0 := by positivity
    field_simp
  · rw [legP_orth hmn]; ring

theorem xi_b (a b : ℝ) (h : a ≠ b) (m : ℕ) : (xi a b m).eval b = xiB m := by
  have hw : b - a ≠ 0 := sub_ne_zero.mpr h.symm
  have : (aff a b).eval b = 1 := by simp only [aff, eval_mul, eval_C, eval_sub, eval_X]; field_simp; ring
  rw [xi_eq, eval_mul, eval_C, eval_comp, this, legP_one, mul_one, xiB]

theorem xi_a (a b : ℝ) (h : a ≠ b) (m : ℕ) : (xi a b m).eval a = xiA m := by
  have hw : b - a ≠ 0 := sub_ne_zero.mpr h.symm
  have : (aff a b).eval a = -1 := by simp only [aff, eval_mul, eval_C, eval_sub, eval_X]; field_simp; ring
  rw [xi_eq, eval_mul, eval_C, eval_comp, this, legP_neg_one, xiA]

theorem xi_degree (a b : ℝ) (m : ℕ) : (xi a b m).natDegree ≤ m := by
  rw [xi_eq]
  refine (natDegree_C_mul_le _ _).trans ?_
  refine natDegree_comp_le.trans ?_
  have h : (aff a b).natDegree ≤ 1 := by
    rw [aff]
    refine (natDegree_C_mul_le _ _).trans ?_
    refine (natDegree_sub_le _ _).trans (max_le ?_ (by simp))
    exact (natDegree_C_mul_le _ _).trans natDegree_X_le
  calc _ ≤ m * 1 := Nat.mul_le_mul (legP_degree m) h
    _ = m := mul_one m

theorem xi_zero (a b : ℝ) : xi a b 0 = 1 := by simp [xi, legP]

/-- Multiplication by the velocity. -/
theorem xi_mul (a b : ℝ) (h : a ≠ b) (m : ℕ) : X * xi a b m = C (sigma (b - a) (m + 1)) * xi a b (m + 1) + C ((a + b) / 2) * xi a b m
    + C (sigma (b - a) m) * (if m = 0 then 0 else xi a b (m - 1)) := by
  have hw : b - a ≠ 0 := sub_ne_zero.mpr h.symm
  have hX : X = C ((b - a) / 2) * aff a b + C ((a + b) / 2) := by
    rw [aff, ← mul_assoc, ← C_mul, mul_sub, ← mul_assoc, ← C_mul, ← C_mul]
    have e1 : (b - a) / 2 * (1 / (b - a)) * 2 = 1 := by field_simp
    have e2 : (b - a) / 2 * (1 / (b - a)) * (a + b) = (a + b) / 2 := by field_simp
    rw [e1, e2]; simp
  have hr := congrArg (fun p => p.comp (aff a b)) (legP_rec' m)
  simp only [mul_comp, C_comp, X_comp, sub_comp] at hr
  have hs1 : sigma (b - a) (m + 1) * Real.sqrt (2 * ((m + 1 : ℕ) : ℝ) + 1) = (b - a) / 2 * ((m : ℝ) + 1) / Real.sqrt (2 * m + 1) := by
    rw [sigma, if_neg (by omega)]
    push_cast
    rw [show 2 * ((m : ℝ) + 1) - 1 = 2 * m + 1 by ring, Real.sqrt_mul (by positivity)]
    have h1 : Real.sqrt (2 * ((m : ℝ) + 1) + 1) ≠ 0 := (Real.sqrt_pos.mpr (by positivity)).ne'
    have h2 : Real.sqrt (2 * (m : ℝ) + 1) ≠ 0 := (Real.sqrt_pos.mpr (by positivity)).ne'
    field_simp
  have hm0 : Real.sqrt (2 * (m : ℝ) + 1) ≠ 0 := (sqrt_odd_pos m).ne'
  -- the coefficient of the lower neighbour
  have hs2 : C (sigma (b - a) m) * (if m = 0 then 0 else xi a b (m - 1)) =
      C ((b - a) / 2 * m / Real.sqrt (2 * m + 1)) * (prev m).comp (aff a b) := by
    cases m with
    | zero => simp [sigma, prev]
    | succ k =>
      simp only [Nat.succ_ne_zero, if_false, Nat.add_sub_cancel, prev]
      rw [xi_eq, ← mul_assoc, ← C_mul]
      congr 2
      rw [sigma, if_neg (by omega)]
      push_cast
      rw [show 2 * ((k : ℝ) + 1) - 1 = 2 * k + 1 by ring, Real.sqrt_mul (by positivity)]
      have h1 : Real.sqrt (2 * ((k : ℝ) + 1) + 1) ≠ 0 := (Real.sqrt_pos.mpr (by positivity)).ne'
      have h2 : Real.sqrt (2 * (k : ℝ) + 1) ≠ 0 := (Real.sqrt_pos.mpr (by positivity)).ne'
      field_simp
  rw [hs2, xi_eq a b (m + 1), ← mul_assoc, ← C_mul, hs1, xi_eq]
  have e1 : (C ((b - a) / 2 * ((m : ℝ) + 1) / Real.sqrt (2 * m + 1)) : ℝ[X]) = C ((b - a) / 2 / Real.sqrt (2 * m + 1)) * C ((m : ℝ) + 1) := by
    rw [← C_mul]; congr 1; ring
  have e2 : (C ((b - a) / 2 * (m : ℝ) / Real.sqrt (2 * m + 1)) : ℝ[X]) = C ((b - a) / 2 / Real.sqrt (2 * m + 1)) * C (m : ℝ) := by
    rw [← C_mul]; congr 1; ring
  have e3 : (C ((b - a) / 2) * C (Real.sqrt (2 * m + 1)) : ℝ[X]) = C ((b - a) / 2 / Real.sqrt (2 * m + 1)) * C (2 * (m : ℝ) + 1) := by
    rw [← C_mul, ← C_mul]; congr 1
    have := sqrt_mul_self' m
    field_simp
    nlinarith [this]
  rw [e1, e2, mul_assoc, hr]
  conv_lhs => rw [hX]
  linear_combination (aff a b * (legP m).comp (aff a b)) * e3

/-- The derivative in the basis of the window. -/
theorem xi_deriv (a b : ℝ) (m : ℕ) : derivative (xi a b m) =
    ∑ i ∈ range m, if (m - i) % 2 = 1 then C (2 * Real.sqrt ((2 * m + 1) * (2 * i + 1)) / (b - a)) * xi a b i else 0 := by
  have ha : derivative (aff a b) = C (2 / (b - a)) := by
    simp only [aff, derivative_mul, derivative_C, derivative_sub, derivative_X, zero_mul, zero_add, mul_one, sub_zero]
    rw [← C_mul]; congr 1; ring
  rw [xi_eq, derivative_mul, derivative_C, zero_mul, zero_add, derivative_comp, ha, legP_deriv_sum,
    show ∀ s : Finset ℕ, ∀ f : ℕ → ℝ[X], (∑ i ∈ s, f i).comp (aff a b) = ∑ i ∈ s, (f i).comp (aff a b) from
      fun s f => map_sum (compRingHom (aff a b)) f s, mul_sum, mul_sum]
  refine sum_congr rfl fun i _ => ?_
  split_ifs
  · rw [mul_comp, C_comp, xi_eq, ← mul_assoc, ← mul_assoc, ← mul_assoc, ← C_mul, ← C_mul, ← C_mul]
    congr 2
    rw [Real.sqrt_mul (by positivity)]
    linear_combination (2 / (b - a) * Real.sqrt (2 * m + 1)) * (-(sqrt_mul_self' i))
  · simp

end Verif.HermiteLegendre
