import Verif.Spec.Hermite
import Mathlib.Algebra.Polynomial.Roots
import Mathlib.Tactic.FieldSimp
import Mathlib.Tactic.LinearCombination

/-! Recurrences of the normalised Hermite polynomials. -/
namespace Verif.Hermite
open Polynomial

theorem hermite_deriv (n : ℕ) : derivative (hermite (n + 1)) = C ((n : ℤ) + 1) * hermite n := by
  induction n with
  | zero => simp
  | succ n ih =>
    rw [hermite_succ (n + 1), derivative_sub, derivative_mul, derivative_X, ih, derivative_mul, derivative_C]
    have h := hermite_succ n
    have h2 : derivative (hermite n) = X * hermite n - hermite (n + 1) := by rw [h]; ring
    rw [h2]
    simp only [Nat.cast_add, Nat.cast_one, map_add, map_one]
    ring

theorem hermite_three (n : ℕ) : X * hermite (n + 1) = hermite (n + 2) + C ((n : ℤ) + 1) * hermite n := by
  rw [hermite_succ (n + 1), hermite_deriv]; ring

theorem hn_zero : hn 0 = 1 := by simp [hn]

theorem hn_one : hn 1 = C (Real.sqrt 2) * X := by simp [hn]

theorem two_sq : Real.sqrt 2 * Real.sqrt 2 = 2 := Real.mul_self_sqrt (by norm_num)

theorem sqrt_fact_succ (n : ℕ) : Real.sqrt ((n + 1).factorial) = Real.sqrt ((n : ℝ) + 1) * Real.sqrt (n.factorial) := by
  rw [← Real.sqrt_mul (by positivity), Nat.factorial_succ]; push_cast; ring_nf

theorem sqrt_fact_ne (n : ℕ) : Real.sqrt (n.factorial : ℝ) ≠ 0 := (Real.sqrt_pos.mpr (by positivity)).ne'

theorem sqrt_succ_ne (n : ℕ) : Real.sqrt ((n : ℝ) + 1) ≠ 0 := (Real.sqrt_pos.mpr (by positivity)).ne'

/-- `h_n' = sqrt(2n) h_{n-1}`. -/
theorem hn_deriv (n : ℕ) : derivative (hn (n + 1)) = C (Real.sqrt 2 * Real.sqrt ((n : ℝ) + 1)) * hn n := by
  rw [hn, hn, derivative_mul, derivative_C, zero_mul, zero_add, derivative_comp, derivative_map, hermite_deriv]
  simp only [derivative_mul, derivative_C, derivative_X, Polynomial.map_mul, Polynomial.map_C, mul_comp, C_comp]
  simp only [zero_mul, mul_one, zero_add, ← mul_assoc, ← C_mul]
  congr 2
  rw [sqrt_fact_succ]
  have h1 := sqrt_fact_ne n
  have h2 := sqrt_succ_ne n
  have h3 := Real.mul_self_sqrt (show (0 : ℝ) ≤ (n : ℝ) + 1 by positivity)
  simp only [eq_intCast, Int.cast_add, Int.cast_natCast, Int.cast_one]
  field_simp
  nlinarith [h3]

theorem hn_deriv_zero : derivative (hn 0) = 0 := by rw [hn_zero]; simp

/-- `sqrt 2 x h_{n} = sqrt(n+1) h_{n+1} + sqrt n h_{n-1}`. -/
theorem hn_three (n : ℕ) : X * hn (n + 1) = C (Real.sqrt (((n : ℝ) + 1 + 1) / 2)) * hn (n + 2) + C (Real.sqrt (((n : ℝ) + 1) / 2)) * hn n := by
  have h := congrArg (fun p : ℤ[X] => (p.map (Int.castRingHom ℝ)).comp (C (Real.sqrt 2) * X)) (hermite_three n)
  simp only [Polynomial.map_mul, Polynomial.map_add, Polynomial.map_X, Polynomial.map_C, mul_comp, add_comp, X_comp, C_comp] at h
  have hs : Real.sqrt 2 ≠ 0 := (Real.sqrt_pos.mpr (by norm_num)).ne'
  have h1 := sqrt_fact_ne n
  have h2 := sqrt_succ_ne n
  have h2' : Real.sqrt ((n : ℝ) + 1 + 1) ≠ 0 := (Real.sqrt_pos.mpr (by positivity)).ne'
  have h3 := Real.mul_self_sqrt (show (0 : ℝ) ≤ (n : ℝ) + 1 by positivity)
  have h3' := Real.mul_self_sqrt (show (0 : ℝ) ≤ (n : ℝ) + 1 + 1 by positivity)
  have e1 : Real.sqrt ((n + 1).factorial) = Real.sqrt ((n : ℝ) + 1) * Real.sqrt (n.factorial) := sqrt_fact_succ n
  have e2 : Real.sqrt ((n + 2).factorial) = Real.sqrt ((n : ℝ) + 1 + 1) * (Real.sqrt ((n : ℝ) + 1) * Real.sqrt (n.factorial)) := by
    rw [← e1, sqrt_fact_succ (n + 1)]; push_cast; rfl
  have key : ∀ (A B D : ℝ[X]), C (Real.sqrt 2) * X * A = B + C ((n : ℝ) + 1) * D →
      X * (C (1 / (Real.sqrt ((n : ℝ) + 1) * Real.sqrt (n.factorial))) * A) =
        C (Real.sqrt (((n : ℝ) + 1 + 1) / 2)) * (C (1 / (Real.sqrt ((n : ℝ) + 1 + 1) * (Real.sqrt ((n : ℝ) + 1) * Real.sqrt (n.factorial)))) * B)
          + C (Real.sqrt (((n : ℝ) + 1) / 2)) * (C (1 / Real.sqrt (n.factorial)) * D) := by
    intro A B D hA
    have hA' : X * A = C (1 / Real.sqrt 2) * (B + C ((n : ℝ) + 1) * D) := by
      rw [← hA, ← mul_assoc, ← mul_assoc, ← C_mul]
      rw [one_div_mul_cancel hs, C_1, one_mul]
    rw [show X * (C (1 / (Real.sqrt ((n : ℝ) + 1) * Real.sqrt (n.factorial))) * A) =
      C (1 / (Real.sqrt ((n : ℝ) + 1) * Real.sqrt (n.factorial))) * (X * A) by ring, hA', mul_add, mul_add]
    simp only [← mul_assoc, ← C_mul]
    have r1 : 1 / (Real.sqrt ((n : ℝ) + 1) * Real.sqrt (n.factorial)) * (1 / Real.sqrt 2) =
        Real.sqrt (((n : ℝ) + 1 + 1) / 2) * (1 / (Real.sqrt ((n : ℝ) + 1 + 1) * (Real.sqrt ((n : ℝ) + 1) * Real.sqrt (n.factorial)))) := by
      rw [Real.sqrt_div (by positivity)]; field_simp
    have r2 : 1 / (Real.sqrt ((n : ℝ) + 1) * Real.sqrt (n.factorial)) * (1 / Real.sqrt 2) * ((n : ℝ) + 1) =
        Real.sqrt (((n : ℝ) + 1) / 2) * (1 / Real.sqrt (n.factorial)) := by
      rw [Real.sqrt_div (by positivity)]; field_simp; nlinarith [h3]
    rw [r2, r1]; simp only [← mul_assoc]
  rw [hn, hn, hn, e1, e2]
  refine key _ _ _ ?_
  rw [h]; congr 2; simp

theorem hn_three_zero : X * hn 0 = C (Real.sqrt (1 / 2)) * hn 1 := by
  rw [hn_zero, hn_one, ← mul_assoc, ← C_mul, ← Real.sqrt_mul (by norm_num)]; norm_num

/-- `v h_n((v-u)/alpha)` in terms of the neighbours. -/
theorem basis_three (alpha u : ℝ) (ha : alpha ≠ 0) (n : ℕ) :
    X * basis alpha u (n + 1) = C (alpha * Real.sqrt (((n : ℝ) + 1 + 1) / 2)) * basis alpha u (n + 2)
      + C (alpha * Real.sqrt (((n : ℝ) + 1) / 2)) * basis alpha u n + C u * basis alpha u (n + 1) := by
  have h := congrArg (fun p : ℝ[X] => p.comp (C (1 / alpha) * (X - C u))) (hn_three n)
  simp only [mul_comp, add_comp, X_comp, C_comp] at h
  have hx : (X : ℝ[X]) = C alpha * (C (1 / alpha) * (X - C u)) + C u := by
    rw [← mul_assoc, ← C_mul, mul_one_div_cancel ha, C_1]; ring
  obtain ⟨Y, hY⟩ : ∃ Y : ℝ[X], Y = C (1 / alpha) * (X - C u) := ⟨_, rfl⟩
  rw [basis, basis, basis]
  rw [← hY] at hx h ⊢
  rw [hx, add_mul, mul_assoc, h]; simp only [C_mul]; ring

theorem basis_three_zero (alpha u : ℝ) (ha : alpha ≠ 0) :
    X * basis alpha u 0 = C (alpha * Real.sqrt (1 / 2)) * basis alpha u 1 + C u * basis alpha u 0 := by
  have h := congrArg (fun p : ℝ[X] => p.comp (C (1 / alpha) * (X - C u))) hn_three_zero
  simp only [mul_comp, X_comp, C_comp] at h
  have hx : (X : ℝ[X]) = C alpha * (C (1 / alpha) * (X - C u)) + C u := by
    rw [← mul_assoc, ← C_mul, mul_one_div_cancel ha, C_1]; ring
  obtain ⟨Y, hY⟩ : ∃ Y : ℝ[X], Y = C (1 / alpha) * (X - C u) := ⟨_, rfl⟩
  rw [basis, basis]
  rw [← hY] at hx h ⊢
  rw [hx, add_mul, mul_assoc, h]; simp only [C_mul]; ring

theorem basis_deriv (alpha u : ℝ) (n : ℕ) :
    derivative (basis alpha u (n + 1)) = C (Real.sqrt 2 / alpha * Real.sqrt ((n : ℝ) + 1)) * basis alpha u n := by
  rw [basis, derivative_comp, hn_deriv]
  simp only [derivative_mul, derivative_C, derivative_sub, derivative_X, mul_comp, C_comp, basis]
  simp only [zero_mul, zero_add, sub_zero, mul_one, ← mul_assoc, ← C_mul]
  congr 2; ring

theorem basis_zero (alpha u : ℝ) : basis alpha u 0 = 1 := by rw [basis, hn_zero]; simp

theorem basis_one (alpha u : ℝ) : basis alpha u 1 = C (Real.sqrt 2 / alpha) * (X - C u) := by
  rw [basis, hn_one]; simp only [mul_comp, C_comp, X_comp, ← mul_assoc, ← C_mul]; congr 2; ring

/-- All derivatives: `h_n^{(k)} = (sqrt 2/alpha)^k sqrt(n!/(n-k)!) h_{n-k}`. -/
theorem basis_iterate (alpha u : ℝ) (k n : ℕ) (h : k ≤ n) :
    derivative^[k] (basis alpha u n) =
      C ((Real.sqrt 2 / alpha) ^ k * (Real.sqrt n.factorial / Real.sqrt (n - k).factorial)) * basis alpha u (n - k) := by
  induction k with
  | zero => simp [div_self (sqrt_fact_ne n)]
  | succ k ih =>
    obtain ⟨m, hm⟩ : ∃ m, n - k = m + 1 := ⟨n - k - 1, by omega⟩
    rw [Function.iterate_succ_apply', ih (by omega), hm, derivative_C_mul, basis_deriv, show n - (k + 1) = m by omega, ← mul_assoc, ← C_mul,
      sqrt_fact_succ]
    congr 2
    have h1 := sqrt_fact_ne m
    have h2 := sqrt_succ_ne m
    rw [pow_succ]; field_simp

theorem basis_degree (alpha u : ℝ) (n : ℕ) : (basis alpha u n).natDegree ≤ n := by
  rw [basis]
  refine (natDegree_comp_le).trans ?_
  have h1 : (hn n).natDegree ≤ n := by
    rw [hn]
    refine (natDegree_C_mul_le _ _).trans (natDegree_comp_le.trans ?_)
    have e1 : ((hermite n).map (Int.castRingHom ℝ)).natDegree ≤ n := natDegree_map_le.trans natDegree_hermite.le
    have e2 : (C (Real.sqrt 2) * X : ℝ[X]).natDegree ≤ 1 := (natDegree_C_mul_le _ _).trans natDegree_X_le
    exact (Nat.mul_le_mul e1 e2).trans (by simp)
  have e2 : (C (1 / alpha) * (X - C u) : ℝ[X]).natDegree ≤ 1 := (natDegree_C_mul_le _ _).trans (natDegree_X_sub_C_le _)
  exact (Nat.mul_le_mul h1 e2).trans (by simp)

/-- Taylor's formula for the basis. -/
theorem basis_taylor (alpha u d : ℝ) (n : ℕ) :
    taylor d (basis alpha u n) = ∑ k ∈ Finset.range (n + 1),
      C ((Real.sqrt 2 * d / alpha) ^ k / k.factorial * (Real.sqrt n.factorial / Real.sqrt (n - k).factorial)) * basis alpha u (n - k) := by
  have h : taylor d (basis alpha u n) = ∑ k ∈ Finset.range (n + 1), C (d ^ k / k.factorial) * derivative^[k] (basis alpha u n) := by
    obtain ⟨p, hp⟩ : ∃ p, p = basis alpha u n := ⟨_, rfl⟩
    have hd : p.natDegree < n + 1 := by rw [hp]; exact Nat.lt_succ_of_le (basis_degree alpha u n)
    rw [← hp]
    rw [taylor_apply, add_comm X (C d)]
    have key : ∀ x : ℝ, (p.comp (C d + X)).eval x = (∑ k ∈ Finset.range (n + 1), C (d ^ k / k.factorial) * derivative^[k] p).eval x := by
      intro x
      rw [eval_comp, eval_add, eval_C, eval_X, add_comm d x, eval_finsetSum]
      have h1 : p.eval (x + d) = (taylor x p).eval d := by rw [taylor_eval, add_comm]
      rw [h1, eval_eq_sum_range' (n := n + 1) (by rw [natDegree_taylor]; exact hd)]
      refine Finset.sum_congr rfl fun k _ => ?_
      rw [taylor_coeff, eval_mul, eval_C]
      have h2 : ((derivative^[k]) p).eval x = (k.factorial : ℝ) * ((hasseDeriv k) p).eval x := by
        rw [← factorial_smul_hasseDeriv]; simp
      rw [h2]
      have := (Nat.cast_ne_zero (R := ℝ)).mpr k.factorial_ne_zero
      field_simp
    exact Polynomial.funext key
  rw [h]
  refine Finset.sum_congr rfl fun k hk => ?_
  rw [basis_iterate alpha u k n (by rw [Finset.mem_range] at hk; omega), ← mul_assoc, ← C_mul]
  congr 2
  rw [show Real.sqrt 2 * d / alpha = d * (Real.sqrt 2 / alpha) by ring, mul_pow]; ring
end Verif.Hermite
