import Verif.Model.HermiteLegendre
import Verif.Lemmas.HermitePoly
import Mathlib.RingTheory.PowerSeries.Derivative
import Mathlib.RingTheory.PowerSeries.Substitution

/-! The coefficients of `exp(p z + q z²)`. -/
namespace Verif.HermiteLegendre
open PowerSeries Verif.Hermite

/-- `exp(p z + q z²)` as a formal power series. -/
noncomputable def expSeries (p q : ℝ) : ℝ⟦X⟧ := PowerSeries.mk (expCoeff p q)

theorem expCoeff_step (p q : ℝ) (k : ℕ) : ((k : ℝ) + 1) * expCoeff p q (k + 1) = p * expCoeff p q k + if k = 0 then 0 else 2 * q * expCoeff p q (k - 1) := by
  cases k with
  | zero => simp [expCoeff]
  | succ k =>
    have : ((k : ℝ) + 2) ≠ 0 := by positivity
    rw [expCoeff, if_neg (by omega), Nat.add_sub_cancel]
    push_cast
    field_simp
    ring

theorem coeff_lin (p q : ℝ) (F : ℝ⟦X⟧) (k : ℕ) : coeff k ((C p + C (2 * q) * X) * F) = p * coeff k F + if k = 0 then 0 else 2 * q * coeff (k - 1) F := by
  rw [add_mul, map_add, coeff_C_mul, mul_assoc, coeff_C_mul]
  cases k with
  | zero => simp
  | succ k => rw [coeff_succ_X_mul]; simp

theorem expSeries_deriv (p q : ℝ) : d⁄dX ℝ (expSeries p q) = (C p + C (2 * q) * X) * expSeries p q := by
  ext k
  rw [coeff_lin, coeff_derivative, expSeries, coeff_mk, coeff_mk, mul_comm, expCoeff_step, coeff_mk]

theorem expSeries_unique (p q : ℝ) (F : ℝ⟦X⟧) (h0 : coeff 0 F = 1) (h : d⁄dX ℝ F = (C p + C (2 * q) * X) * F) : F = expSeries p q := by
  ext k
  induction k using Nat.strong_induction_on with
  | _ k ih =>
    cases k with
    | zero => rw [h0, expSeries, coeff_mk, expCoeff]
    | succ k =>
      have hk : ((k : ℝ) + 1) ≠ 0 := by positivity
      have e := congrArg (coeff k) h
      have e' := congrArg (coeff k) (expSeries_deriv p q)
      rw [coeff_lin, coeff_derivative] at e e'
      rw [ih k (by omega)] at e
      have : (if k = 0 then (0 : ℝ) else 2 * q * coeff (k - 1) F) = if k = 0 then 0 else 2 * q * coeff (k - 1) (expSeries p q) := by
        split_ifs with hz
        · rfl
        · rw [ih (k - 1) (by omega)]
      rw [this, ← e'] at e
      exact mul_right_cancel₀ hk e

theorem expSeries_mul (p q p' q' : ℝ) : expSeries p q * expSeries p' q' = expSeries (p + p') (q + q') := by
  refine expSeries_unique _ _ _ ?_ ?_
  · rw [coeff_zero_eq_constantCoeff, map_mul, ← coeff_zero_eq_constantCoeff, expSeries, expSeries, coeff_mk, coeff_mk]; simp [expCoeff]
  · rw [Derivation.leibniz, expSeries_deriv, expSeries_deriv]
    simp only [smul_eq_mul, map_add, mul_add]
    ring

theorem expCoeff_scale (p q r : ℝ) (k : ℕ) : expCoeff (r * p) (r ^ 2 * q) k = r ^ k * expCoeff p q k := by
  induction k using Nat.strong_induction_on with
  | _ k ih =>
    match k with
    | 0 => simp [expCoeff]
    | 1 => simp [expCoeff]
    | k + 2 =>
      rw [expCoeff, expCoeff, ih (k + 1) (by omega), ih k (by omega)]
      ring

theorem expSeries_rescale (p q r : ℝ) : rescale r (expSeries p q) = expSeries (r * p) (r ^ 2 * q) := by
  ext k
  rw [coeff_rescale, expSeries, expSeries, coeff_mk, coeff_mk, expCoeff_scale]

theorem expCoeff_zero (k : ℕ) : expCoeff 0 0 k = if k = 0 then 1 else 0 := by
  match k with
  | 0 => rfl
  | 1 => simp [expCoeff]
  | k + 2 => simp [expCoeff]

theorem expSeries_zero : expSeries 0 0 = 1 := by
  ext k
  rw [expSeries, coeff_mk, expCoeff_zero, coeff_one]

theorem maxwell_eq (p q : ℝ) (n : ℕ) : maxwell p q n = Real.sqrt n.factorial * expCoeff p q n := by
  induction n using Nat.strong_induction_on with
  | _ n ih =>
    match n with
    | 0 => simp [maxwell, expCoeff]
    | 1 => simp [maxwell, expCoeff]
    | n + 2 =>
      rw [maxwell, expCoeff, ih (n + 1) (by omega), ih n (by omega), sqrt_fact_succ (n + 1), sqrt_fact_succ n]
      have h2 : 0 < Real.sqrt ((n : ℝ) + 2) := Real.sqrt_pos.mpr (by positivity)
      have h1 : Real.sqrt (((n : ℝ) + 1) / ((n : ℝ) + 2)) = Real.sqrt ((n : ℝ) + 1) / Real.sqrt ((n : ℝ) + 2) := Real.sqrt_div (by positivity) _
      have h3 : ((n : ℝ) + 2) = Real.sqrt ((n : ℝ) + 2) * Real.sqrt ((n : ℝ) + 2) := (Real.mul_self_sqrt (by positivity)).symm
      have h4 : Real.sqrt (((n + 1 : ℕ) : ℝ) + 1) = Real.sqrt ((n : ℝ) + 2) := by push_cast; ring_nf
      rw [h1, h4]
      generalize hs : Real.sqrt ((n : ℝ) + 2) = s at *
      rw [h3]
      field_simp

/-- The derivatives of the coefficients along a curve. -/
theorem expCoeff_deriv {P Q : ℝ → ℝ} {p' q' s : ℝ} (hp : HasDerivAt P p' s) (hq : HasDerivAt Q q' s) (k : ℕ) :
    HasDerivAt (fun s => expCoeff (P s) (Q s) k)
      ((if k = 0 then 0 else p' * expCoeff (P s) (Q s) (k - 1)) + if k < 2 then 0 else q' * expCoeff (P s) (Q s) (k - 2)) s := by
  induction k using Nat.strong_induction_on with
  | _ k ih =>
    match k with
    | 0 => simpa [expCoeff] using hasDerivAt_const s (1 : ℝ)
    | 1 => simpa [expCoeff] using hp
    | k + 2 =>
      have h1 := (hp.mul (ih (k + 1) (by omega))).add ((hq.const_mul 2).mul (ih k (by omega)))
      have h2 := h1.div_const ((k : ℝ) + 2)
      have hk : ((k : ℝ) + 2) ≠ 0 := by positivity
      refine h2.congr_deriv ?_
      have e1 := expCoeff_step (P s) (Q s) (k + 1)
      have e0 := expCoeff_step (P s) (Q s) k
      rw [if_neg (show ¬ k + 1 = 0 by omega), Nat.add_sub_cancel] at e1
      rw [if_neg (show ¬ k + 1 = 0 by omega), if_neg (show ¬ k + 2 = 0 by omega), if_neg (show ¬ k + 2 < 2 by omega), Nat.add_sub_cancel,
        show k + 2 - 1 = k + 1 from rfl, Nat.add_sub_cancel]
      push_cast at e1
      by_cases hz : k = 0
      · subst hz
        simp [expCoeff]; ring
      · rw [if_neg hz, if_neg (show ¬ k + 1 < 2 by omega)]
        rw [if_neg hz] at e0
        rw [div_eq_iff hk, show k + 1 - 2 = k - 1 from by omega]
        by_cases h1 : k = 1
        · subst h1
          simp [expCoeff] at e0 e1 ⊢
          linear_combination 0 * e0
        · rw [if_neg (show ¬ k < 2 by omega)]
          have e2 := expCoeff_step (P s) (Q s) (k - 1)
          rw [if_neg (show ¬ k - 1 = 0 by omega), show k - 1 + 1 = k from by omega, show k - 1 - 1 = k - 2 from by omega] at e2
          have hc : ((k - 1 : ℕ) : ℝ) + 1 = k := by
            have : 1 ≤ k := by omega
            push_cast [Nat.cast_sub this]; ring
          rw [hc] at e2
          linear_combination (-p') * e0 - q' * e2

end Verif.HermiteLegendre
