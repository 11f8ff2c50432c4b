import Mathlib.MeasureTheory.Integral.IntervalIntegral.Basic
import Mathlib.Topology.UniformSpace.HeineCantor
import Mathlib.Topology.Algebra.Order.Archimedean
import Mathlib.Analysis.SpecificLimits.Basic

/-! The midpoint rule converges for every continuous integrand. -/
namespace Verif.Midpoint
open Finset MeasureTheory intervalIntegral

/-- The midpoint sum with `n` cells on `[0, b]`. -/
noncomputable def mid (F : ℝ → ℝ) (b : ℝ) (n : ℕ) : ℝ := ∑ j ∈ range n, F (b / n / 2 + j * (b / n)) * (b / n)

theorem cells (F : ℝ → ℝ) (hF : Continuous F) (b : ℝ) (n : ℕ) (hn : 0 < n) :
    ∫ x in (0 : ℝ)..b, F x = ∑ j ∈ range n, ∫ x in ((j : ℝ) * (b / n))..((j + 1 : ℕ) : ℝ) * (b / n), F x := by
  rw [sum_integral_adjacent_intervals (a := fun k : ℕ => (k : ℝ) * (b / n)) fun k _ => hF.intervalIntegrable _ _]
  have : (n : ℝ) ≠ 0 := by exact_mod_cast hn.ne'
  rw [show (n : ℝ) * (b / n) = b by field_simp]
  simp

theorem tendsto_mid (F : ℝ → ℝ) (hF : Continuous F) (b : ℝ) (hb : 0 < b) :
    Filter.Tendsto (mid F b) Filter.atTop (nhds (∫ x in (0 : ℝ)..b, F x)) := by
  rw [Metric.tendsto_atTop]
  intro ε hε
  have huc := (isCompact_Icc (a := (0 : ℝ)) (b := b)).uniformContinuousOn_of_continuous hF.continuousOn
  rw [Metric.uniformContinuousOn_iff] at huc
  obtain ⟨δ, hδ, hd⟩ := huc (ε / (2 * b)) (by positivity)
  obtain ⟨N, hN⟩ := exists_nat_gt (b / δ)
  refine ⟨N + 1, fun n hn => ?_⟩
  have hn0 : 0 < n := by omega
  have hnr : (0 : ℝ) < n := by exact_mod_cast hn0
  have hnN : (N : ℝ) < n := by exact_mod_cast (by omega : N < n)
  have hh : b / n < δ := by
    rw [div_lt_iff₀ hnr]
    have := (div_lt_iff₀ hδ).1 (hN.trans hnN)
    linarith [mul_comm δ (n : ℝ)]
  have hh0 : 0 < b / n := by positivity
  rw [Real.dist_eq, cells F hF b n hn0, mid, ← sum_sub_distrib]
  set h := b / n with hdef
  have hnh : (n : ℝ) * h = b := by rw [hdef]; field_simp
  have each : ∀ j ∈ range n, |F (h / 2 + j * h) * h - ∫ x in ((j : ℝ) * h)..((j + 1 : ℕ) : ℝ) * h, F x| ≤ ε / (2 * b) * h := by
    intro j hj
    have hjn : ((j : ℝ) + 1) ≤ n := by exact_mod_cast (mem_range.1 hj)
    have e1 : F (h / 2 + j * h) * h = ∫ _ in ((j : ℝ) * h)..((j + 1 : ℕ) : ℝ) * h, F (h / 2 + j * h) := by
      rw [intervalIntegral.integral_const]; push_cast; rw [smul_eq_mul]; ring
    rw [e1, ← integral_sub intervalIntegrable_const (hF.intervalIntegrable _ _), ← Real.norm_eq_abs]
    refine (norm_integral_le_of_norm_le_const (C := ε / (2 * b)) fun x hx => ?_).trans ?_
    · rw [Set.uIoc_of_le (by push_cast; nlinarith)] at hx
      obtain ⟨h1, h2⟩ := hx
      push_cast at h2
      have j0 : (0 : ℝ) ≤ (j : ℝ) * h := by positivity
      have top : ((j : ℝ) + 1) * h ≤ b := by rw [← hnh]; exact mul_le_mul_of_nonneg_right hjn hh0.le
      have := hd (h / 2 + j * h) ⟨by positivity, by nlinarith⟩ x ⟨by linarith, by linarith⟩ (by
        rw [Real.dist_eq, abs_lt]; constructor <;> nlinarith)
      rw [Real.dist_eq] at this
      exact this.le
    · refine le_of_eq ?_
      push_cast
      rw [show ((j : ℝ) + 1) * h - j * h = h by ring, abs_of_pos hh0]
  refine lt_of_le_of_lt (abs_sum_le_sum_abs _ _) (lt_of_le_of_lt (sum_le_sum each) ?_)
  rw [sum_const, card_range, nsmul_eq_mul, show (n : ℝ) * (ε / (2 * b) * h) = ε / (2 * b) * (n * h) by ring, hnh]
  rw [show ε / (2 * b) * b = ε / 2 by field_simp]
  linarith

end Verif.Midpoint
