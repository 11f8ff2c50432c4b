import Verif.Props.HLLinear
import Mathlib.LinearAlgebra.Matrix.Block
import Mathlib.Analysis.Calculus.Deriv.Polynomial

/-!
C118: the force terms and the coupling of the mixed solver.  C119: the implicit force solves.
-/
namespace Verif.HermiteLegendre
open Finset Complex MeasureTheory Verif.Spectral Verif.Hermite
open scoped Matrix ComplexConjugate

variable {N : ℕ} [NeZero N] {nh nl n : ℕ}

/-! ### C118 -/

theorem mode_weak (a b : ℝ) (h : a < b) (m j : Fin nl) :
    (b - a) * deriv nl a b m j = ∫ v in a..b, (Polynomial.derivative (xi a b m.val)).eval v * (xi a b j.val).eval v := by
  have hw : b - a ≠ 0 := sub_ne_zero.mpr h.ne'
  rw [derivative_matrix a b h]; field_simp

/-- The force on the Legendre coefficients is the weak form of the velocity derivative: integration by parts, the
boundary term weighted by the penalty. -/
theorem legendre_weak (a b : ℝ) (h : a < b) (gamma : Fin nl → ℝ) (B : Fin nl → ℝ) (m : Fin nl) :
    (b - a) * (GB a b gamma *ᵥ B) m =
      gamma m * ((∑ j, B j * (xi a b j.val).eval b) * (xi a b m.val).eval b - (∑ j, B j * (xi a b j.val).eval a) * (xi a b m.val).eval a)
      - ∫ v in a..b, (∑ j, B j * (xi a b j.val).eval v) * (Polynomial.derivative (xi a b m.val)).eval v := by
  have hw : b - a ≠ 0 := sub_ne_zero.mpr h.ne'
  have e : (∫ v in a..b, (∑ j, B j * (xi a b j.val).eval v) * (Polynomial.derivative (xi a b m.val)).eval v) = ∑ j, B j * ((b - a) * deriv nl a b m j) := by
    have e1 : ∀ v, (∑ j, B j * (xi a b j.val).eval v) * (Polynomial.derivative (xi a b m.val)).eval v =
        (∑ j : Fin nl, Polynomial.C (B j) * (Polynomial.derivative (xi a b m.val) * xi a b j.val)).eval v := by
      intro v
      rw [Polynomial.eval_finsetSum, sum_mul]
      refine sum_congr rfl fun j _ => ?_
      simp only [Polynomial.eval_mul, Polynomial.eval_C]; ring
    simp only [e1]
    rw [← integ_def, map_sum]
    refine sum_congr rfl fun j _ => ?_
    rw [integ_C_mul, mode_weak a b h, integ_def]; simp only [Polynomial.eval_mul]
  rw [e]
  simp only [← (end_values a b h _).1, ← (end_values a b h _).2, Matrix.mulVec, dotProduct, GB]
  rw [sum_mul, sum_mul, ← sum_sub_distrib, mul_sum, mul_sum, ← sum_sub_distrib]
  refine sum_congr rfl fun j _ => ?_
  field_simp

/-- At a position the force is the field times that operator. -/
theorem legendre_rate (a b : ℝ) (gamma : Fin nl → ℝ) (E : ℝ) (f : Fin nl → ℂ) (i : Fin nl) :
    legendreRate a b gamma E f i = (E : ℂ) * ((GB a b gamma).map ofReal *ᵥ f) i := by
  rw [legendreRate]
  simp only [Matrix.mulVec, dotProduct, Matrix.map_apply, GB]
  rw [mul_sum, mul_sum, ← sum_sub_distrib, mul_sum, ← sum_sub_distrib, mul_sum, mul_sum]
  refine sum_congr rfl fun j _ => ?_
  push_cast; ring

theorem psi_deriv {alpha : ℝ} (ha : 0 < alpha) (u v : ℝ) (n : ℕ) :
    HasDerivAt (fun v => psi alpha u v n) (-(Real.sqrt (2 * ((n : ℝ) + 1)) / alpha) * psi alpha u v (n + 1)) v := by
  have e : (fun v => psi alpha u v n) = fun v => (basis alpha u n).eval v * bell alpha u v := by funext v; rw [psi_eq ha.ne']
  rw [e, psi_eq ha.ne']
  refine ((Polynomial.hasDerivAt (basis alpha u n) v).mul (bell_deriv u v)).congr_deriv ?_
  have h := congrArg (Polynomial.eval v) (basis_mul alpha u ha.ne' n)
  simp only [Polynomial.eval_mul, Polynomial.eval_sub, Polynomial.eval_C, Polynomial.eval_X] at h
  have hs : Real.sqrt (2 * ((n : ℝ) + 1)) = 2 * Real.sqrt (((n : ℝ) + 1) / 2) := by
    rw [show 2 * ((n : ℝ) + 1) = 2 ^ 2 * (((n : ℝ) + 1) / 2) by ring, Real.sqrt_mul (by positivity), Real.sqrt_sq (by norm_num)]
  have ha' := ha.ne'
  rw [hs]
  field_simp
  field_simp at h
  linear_combination (bell alpha u v) * h

theorem GC_mulVec (alpha : ℝ) (C : Fin nh → ℝ) (i : Fin nh) :
    (GC nh alpha *ᵥ C) i = if h : i.val = 0 then 0 else -Real.sqrt (2 * i.val) / alpha * C ⟨i.val - 1, by omega⟩ := by
  simp only [Matrix.mulVec, dotProduct, GC]
  by_cases h : i.val = 0
  · rw [dif_pos h]
    refine sum_eq_zero fun j _ => ?_
    rw [if_neg (by omega), zero_mul]
  · rw [dif_neg h, sum_eq_single ⟨i.val - 1, by omega⟩]
    · rw [if_pos (by dsimp only; omega)]
    · intro j _ hj
      rw [if_neg (fun h' => hj (Fin.ext (by dsimp only; omega))), zero_mul]
    · intro h; exact absurd (mem_univ _) h

variable [NeZero nh] [NeZero nl]

theorem last_sum (f : ℕ → ℝ) (C : Fin nh → ℝ) :
    ∑ n : Fin nh, C n * f (n.val + 1) = (∑ n : Fin nh, (if h : n.val = 0 then 0 else C ⟨n.val - 1, by omega⟩) * f n.val) + C lastH * f nh := by
  obtain ⟨k, rfl⟩ : ∃ k, nh = k + 1 := ⟨nh - 1, by have := NeZero.pos nh; omega⟩
  rw [Fin.sum_univ_castSucc, Fin.sum_univ_succ (n := k)]
  have e1 : (lastH : Fin (k + 1)) = Fin.last k := rfl
  rw [e1, dif_pos (Fin.val_zero _), zero_mul, zero_add]
  refine congrArg₂ (· + ·) ?_ rfl
  refine sum_congr rfl fun j _ => ?_
  rw [dif_neg (by simp)]
  rfl

/-- The Hermite part: the velocity derivative of the expansion, up to one term beyond it. -/
theorem hermite_derivative {alpha : ℝ} (ha : 0 < alpha) (u v : ℝ) (C : Fin nh → ℝ) :
    HasDerivAt (fun v => ∑ n, C n * psi alpha u v n.val)
      ((∑ n, (GC nh alpha *ᵥ C) n * psi alpha u v n.val) - Real.sqrt (2 * nh) / alpha * C lastH * psi alpha u v nh) v := by
  refine (HasDerivAt.fun_sum (u := univ) fun n (_ : n ∈ univ) => (psi_deriv ha u v n.val).const_mul (C n)).congr_deriv ?_
  have h := last_sum (fun k => -(Real.sqrt (2 * (k : ℝ)) / alpha) * psi alpha u v k) C
  have e : ∀ n : Fin nh, C n * (-(Real.sqrt (2 * ((n.val : ℝ) + 1)) / alpha) * psi alpha u v (n.val + 1)) =
      C n * (fun k : ℕ => -(Real.sqrt (2 * (k : ℝ)) / alpha) * psi alpha u v k) (n.val + 1) := by
    intro n; push_cast; rfl
  rw [sum_congr rfl fun n _ => e n, h]
  have e2 : ∀ n : Fin nh, (GC nh alpha *ᵥ C) n * psi alpha u v n.val =
      (if h : n.val = 0 then 0 else C ⟨n.val - 1, by omega⟩) * (-(Real.sqrt (2 * (n.val : ℝ)) / alpha) * psi alpha u v n.val) := by
    intro n; rw [GC_mulVec]; split_ifs <;> ring
  rw [sum_congr rfl fun n _ => e2 n]; ring

/-- Multiplication by the velocity: the expansion with the streaming matrix, up to one term beyond it. -/
theorem hermite_flux {alpha : ℝ} (ha : 0 < alpha) (u v : ℝ) (C : Fin nh → ℝ) :
    v * ∑ n, C n * psi alpha u v n.val =
      (∑ n, (alpha * (streamMatrix nh alpha u *ᵥ C) n) * psi alpha u v n.val) + alpha * Real.sqrt (nh / 2) * C lastH * psi alpha u v nh := by
  -- both sides: polynomials times the bell
  have hv : ∀ n, v * psi alpha u v n = alpha * Real.sqrt (((n : ℝ) + 1) / 2) * psi alpha u v (n + 1) +
      (if n = 0 then 0 else alpha * Real.sqrt ((n : ℝ) / 2) * psi alpha u v (n - 1)) + u * psi alpha u v n := by
    intro n
    cases n with
    | zero =>
      have h := congrArg (Polynomial.eval v) (basis_three_zero alpha u ha.ne')
      simp only [Polynomial.eval_add, Polynomial.eval_mul, Polynomial.eval_C, Polynomial.eval_X] at h
      rw [if_pos rfl, psi_eq ha.ne', psi_eq ha.ne']
      simp only [Nat.cast_zero, zero_add, add_zero]
      linear_combination bell alpha u v * h
    | succ n =>
      have h := congrArg (Polynomial.eval v) (basis_three alpha u ha.ne' n)
      simp only [Polynomial.eval_add, Polynomial.eval_mul, Polynomial.eval_C, Polynomial.eval_X] at h
      rw [if_neg (by omega), psi_eq ha.ne', psi_eq ha.ne', psi_eq ha.ne', Nat.add_sub_cancel]
      push_cast
      linear_combination bell alpha u v * h
  have hT : ∀ n : Fin nh, alpha * (streamMatrix nh alpha u *ᵥ C) n = (if h : n.val = 0 then 0 else C ⟨n.val - 1, by omega⟩) * (alpha * Real.sqrt ((n.val : ℝ) / 2))
      + (if h : n.val + 1 < nh then C ⟨n.val + 1, h⟩ else 0) * (alpha * Real.sqrt (((n.val : ℝ) + 1) / 2)) + u * C n := by
    intro i
    simp only [Matrix.mulVec, dotProduct, streamMatrix, add_mul, sum_add_distrib]
    have s1 : (∑ j : Fin nh, (if j.val = i.val + 1 then Real.sqrt (((i.val : ℝ) + 1) / 2) else 0) * C j) =
        (if h : i.val + 1 < nh then C ⟨i.val + 1, h⟩ else 0) * Real.sqrt (((i.val : ℝ) + 1) / 2) := by
      by_cases h : i.val + 1 < nh
      · rw [dif_pos h, sum_eq_single ⟨i.val + 1, h⟩]
        · rw [if_pos rfl]; ring
        · intro j _ hj; rw [if_neg (fun h' => hj (Fin.ext h')), zero_mul]
        · intro h; exact absurd (mem_univ _) h
      · rw [dif_neg h, zero_mul]
        refine sum_eq_zero fun j _ => ?_
        rw [if_neg (by omega), zero_mul]
    have s2 : (∑ j : Fin nh, (if i.val = j.val + 1 then Real.sqrt (((j.val : ℝ) + 1) / 2) else 0) * C j) =
        (if h : i.val = 0 then 0 else C ⟨i.val - 1, by omega⟩) * Real.sqrt ((i.val : ℝ) / 2) := by
      by_cases h : i.val = 0
      · rw [dif_pos h, zero_mul]
        refine sum_eq_zero fun j _ => ?_
        rw [if_neg (by omega), zero_mul]
      · rw [dif_neg h, sum_eq_single ⟨i.val - 1, by omega⟩]
        · rw [if_pos (by dsimp only; omega)]
          have : (((i.val - 1 : ℕ) : ℝ)) + 1 = i.val := by rw [Nat.cast_sub (by omega)]; push_cast; ring
          dsimp only
          rw [this]; ring
        · intro j _ hj; rw [if_neg (fun h' => hj (Fin.ext (by dsimp only; omega))), zero_mul]
        · intro h; exact absurd (mem_univ _) h
    have s3 : (∑ j : Fin nh, u / alpha * (if i = j then 1 else 0) * C j) = u / alpha * C i := by simp
    rw [s1, s2, s3]
    have ha' := ha.ne'
    field_simp; ring
  have h1 := last_sum (fun k => alpha * Real.sqrt ((k : ℝ) / 2) * psi alpha u v k) C
  have h2 : (∑ n : Fin nh, C n * (if n.val = 0 then 0 else alpha * Real.sqrt ((n.val : ℝ) / 2) * psi alpha u v (n.val - 1))) =
      ∑ n : Fin nh, (if h : n.val + 1 < nh then C ⟨n.val + 1, h⟩ else 0) * (alpha * Real.sqrt (((n.val : ℝ) + 1) / 2)) * psi alpha u v n.val := by
    obtain ⟨k, rfl⟩ : ∃ k, nh = k + 1 := ⟨nh - 1, by have := NeZero.pos nh; omega⟩
    rw [Fin.sum_univ_succ (n := k), Fin.sum_univ_castSucc]
    simp only [Fin.val_castSucc, Fin.val_last, Fin.val_zero, if_true, mul_zero, zero_add, Fin.val_succ, lt_self_iff_false, dif_neg, not_false_eq_true, zero_mul, add_zero]
    refine sum_congr rfl fun j _ => ?_
    rw [if_neg (by omega), dif_pos (by omega), Nat.add_sub_cancel]
    have : (⟨j.val + 1, by omega⟩ : Fin (k + 1)) = j.succ := rfl
    rw [this]; push_cast; ring
  rw [mul_sum]
  have e1 : ∀ n : Fin nh, v * (C n * psi alpha u v n.val) = C n * (fun k : ℕ => alpha * Real.sqrt ((k : ℝ) / 2) * psi alpha u v k) (n.val + 1)
      + C n * (if n.val = 0 then 0 else alpha * Real.sqrt ((n.val : ℝ) / 2) * psi alpha u v (n.val - 1)) + u * (C n * psi alpha u v n.val) := by
    intro n
    have := hv n.val
    push_cast
    linear_combination C n * this
  rw [sum_congr rfl fun n _ => e1 n, sum_add_distrib, sum_add_distrib, h1, h2]
  have e2 : ∀ n : Fin nh, alpha * (streamMatrix nh alpha u *ᵥ C) n * psi alpha u v n.val =
      (if h : n.val = 0 then 0 else C ⟨n.val - 1, by omega⟩) * (alpha * Real.sqrt ((n.val : ℝ) / 2) * psi alpha u v n.val)
      + (if h : n.val + 1 < nh then C ⟨n.val + 1, h⟩ else 0) * (alpha * Real.sqrt (((n.val : ℝ) + 1) / 2)) * psi alpha u v n.val
      + u * (C n * psi alpha u v n.val) := by
    intro n; rw [hT]; ring
  rw [sum_congr rfl fun n _ => e2 n, sum_add_distrib, sum_add_distrib]
  ring

omit [NeZero nh] [NeZero nl] in
/-- The coupling of the two expansions: the Legendre coefficients receive the projection of exactly those two terms beyond
the Hermite expansion, for every coefficient the conservation gate leaves open. -/
theorem coupling_closure {alpha : ℝ} (ha : 0 < alpha) (u a b : ℝ) (enforce : Bool) (J : Fin nl → ℝ)
    (hJ : ∀ m : Fin nl, J m = ∫ v in a..b, psi alpha u v nh * (xi a b m.val).eval v) (m : Fin nl) (hm : enforce = false ∨ 3 ≤ m.val) (C dC E : ℝ) :
    couplingVec nh alpha (b - a) enforce J m * (dC + 2 / alpha ^ 2 * E * C) =
      1 / (b - a) * ∫ v in a..b, (xi a b m.val).eval v *
        (-(alpha * Real.sqrt (nh / 2) * dC * psi alpha u v nh) + E * -(Real.sqrt (2 * nh) / alpha * C * psi alpha u v nh)) := by
  have hs : Real.sqrt (2 * (nh : ℝ)) = 2 * Real.sqrt ((nh : ℝ) / 2) := by
    rw [show 2 * (nh : ℝ) = 2 ^ 2 * ((nh : ℝ) / 2) by ring, Real.sqrt_mul (by positivity), Real.sqrt_sq (by norm_num)]
  have e : ∀ v, (xi a b m.val).eval v *
        (-(alpha * Real.sqrt (nh / 2) * dC * psi alpha u v nh) + E * -(Real.sqrt (2 * nh) / alpha * C * psi alpha u v nh)) =
      -(alpha * Real.sqrt (nh / 2) * dC + E * (Real.sqrt (2 * nh) / alpha * C)) * (psi alpha u v nh * (xi a b m.val).eval v) := by intro v; ring
  simp only [e]
  rw [intervalIntegral.integral_const_mul, ← hJ, couplingVec, if_neg (by rintro ⟨h1, h2⟩; rw [h1] at hm; simp at hm; omega), hs]
  have ha' := ha.ne'
  field_simp

omit [NeZero nh] [NeZero nl] in
/-- Half the penalty on every coefficient makes the operator skew. -/
theorem half_penalty_skew (a b : ℝ) (h : a < b) (m j : Fin nl) : GB (nl := nl) a b (fun _ => 1 / 2) m j = -GB (nl := nl) a b (fun _ => 1 / 2) j m := by
  have hw : b - a ≠ 0 := sub_ne_zero.mpr h.ne'
  have h1 : (b - a) * (deriv nl a b m j + deriv nl a b j m) = xiB m.val * xiB j.val - xiA m.val * xiA j.val := by
    have hi : ∀ p q : Polynomial ℝ, IntervalIntegrable (fun v => p.eval v * q.eval v) volume a b := fun p q =>
      ((p.continuous.mul q.continuous).intervalIntegrable _ _)
    rw [mul_add, mode_weak a b h, mode_weak a b h, ← intervalIntegral.integral_add (hi _ _) (hi _ _)]
    rw [(end_values a b h _).1, (end_values a b h _).1, (end_values a b h _).2, (end_values a b h _).2]
    have e : ∀ v, (Polynomial.derivative (xi a b m.val)).eval v * (xi a b j.val).eval v + (Polynomial.derivative (xi a b j.val)).eval v * (xi a b m.val).eval v =
        (Polynomial.derivative (xi a b m.val * xi a b j.val)).eval v := by
      intro v; rw [Polynomial.derivative_mul]; simp only [Polynomial.eval_add, Polynomial.eval_mul]; ring
    simp only [e]
    rw [← integ_def, integ_derivative]; simp only [Polynomial.eval_mul]
  have h2 : deriv nl a b m j + deriv nl a b j m = (xiB m.val * xiB j.val - xiA m.val * xiA j.val) / (b - a) := by rw [← h1]; field_simp
  rw [GB, GB]
  linear_combination -h2

theorem deriv_low (a b : ℝ) (hl : 3 ≤ nl) (B : Fin nl → ℝ) (gamma : Fin nl → ℝ) (hg : ∀ m : Fin nl, m.val < 3 → gamma m = 0) :
    (GB a b gamma *ᵥ B) ⟨0, by omega⟩ = 0 ∧ (GB a b gamma *ᵥ B) ⟨1, by omega⟩ = -(2 * Real.sqrt 3 / (b - a) * B ⟨0, by omega⟩) ∧
      (GB a b gamma *ᵥ B) ⟨2, by omega⟩ = -(2 * Real.sqrt 15 / (b - a) * B ⟨1, by omega⟩) := by
  have e : ∀ m : Fin nl, m.val < 3 → (GB a b gamma *ᵥ B) m = ∑ j, -(deriv nl a b m j * B j) := by
    intro m hm
    simp only [Matrix.mulVec, dotProduct, GB, hg m hm]
    exact sum_congr rfl fun j _ => by ring
  refine ⟨?_, ?_, ?_⟩
  · rw [e _ (by norm_num)]
    refine sum_eq_zero fun j _ => ?_
    rw [deriv, if_neg (by simp), zero_mul, neg_zero]
  · rw [e _ (by norm_num), sum_eq_single ⟨0, by omega⟩]
    · rw [deriv, if_pos (by simp)]; norm_num
    · intro j _ hj
      have : j.val ≠ 0 := fun h => hj (Fin.ext h)
      rw [deriv, if_neg (by dsimp only; omega), zero_mul, neg_zero]
    · intro h; exact absurd (mem_univ _) h
  · rw [e _ (by norm_num), sum_eq_single ⟨1, by omega⟩]
    · rw [deriv, if_pos (by simp)]; norm_num
    · intro j _ hj
      have : j.val ≠ 1 := fun h => hj (Fin.ext h)
      rw [deriv, if_neg (by dsimp only; omega), zero_mul, neg_zero]
    · intro h; exact absurd (mem_univ _) h

theorem TL_low (a b : ℝ) (hl : 3 ≤ nl) : TL nl a b (clampIx 0) (clampIx 0) = (a + b) / 2 ∧ TL nl a b (clampIx 0) (clampIx 1) = (b - a) / (2 * Real.sqrt 3) ∧
    TL nl a b (clampIx 1) (clampIx 2) = (b - a) / Real.sqrt 15 := by
  refine ⟨?_, ?_, ?_⟩
  · rw [clampIx_val 0 (by omega)]; simp [TL]; ring
  · rw [clampIx_val 0 (by omega), clampIx_val 1 (by omega)]; simp [TL, sigma]; norm_num; field_simp
  · rw [clampIx_val 1 (by omega), clampIx_val 2 (by omega)]; simp [TL, sigma]; norm_num

theorem moments_low (hh : 3 ≤ nh) (hl : 3 ≤ nl) (alpha u a b : ℝ) (C : Fin nh → ℝ) (B : Fin nl → ℝ) :
    (momentMatrix alpha u (TL nl a b) (b - a) *ᵥ low C B) 0 = alpha * C ⟨0, by omega⟩ + (b - a) * B ⟨0, by omega⟩ ∧
    (momentMatrix alpha u (TL nl a b) (b - a) *ᵥ low C B) 1 = u * alpha * C ⟨0, by omega⟩ + alpha ^ 2 / Real.sqrt 2 * C ⟨1, by omega⟩
      + (b - a) * ((a + b) / 2) * B ⟨0, by omega⟩ + (b - a) * ((b - a) / (2 * Real.sqrt 3)) * B ⟨1, by omega⟩ ∧
    (momentMatrix alpha u (TL nl a b) (b - a) *ᵥ low C B) 2 = 1 / 2 * alpha * (alpha ^ 2 / 2 + u ^ 2) * C ⟨0, by omega⟩ + alpha ^ 2 * u / Real.sqrt 2 * C ⟨1, by omega⟩
      + alpha ^ 3 / (2 * Real.sqrt 2) * C ⟨2, by omega⟩
      + 1 / 2 * (b - a) * (((b - a) / (2 * Real.sqrt 3)) ^ 2 + ((a + b) / 2) ^ 2) * B ⟨0, by omega⟩
      + (b - a) * ((b - a) / (2 * Real.sqrt 3)) * ((a + b) / 2) * B ⟨1, by omega⟩
      + 1 / 2 * (b - a) * ((b - a) / Real.sqrt 15) * ((b - a) / (2 * Real.sqrt 3)) * B ⟨2, by omega⟩ := by
  obtain ⟨t00, t01, t12⟩ := TL_low (nl := nl) a b hl
  have c0 := clampIx_val (nl := nh) 0 (by omega)
  have c1 := clampIx_val (nl := nh) 1 (by omega)
  have c2 := clampIx_val (nl := nh) 2 (by omega)
  have d0 := clampIx_val (nl := nl) 0 (by omega)
  have d1 := clampIx_val (nl := nl) 1 (by omega)
  have d2 := clampIx_val (nl := nl) 2 (by omega)
  refine ⟨?_, ?_, ?_⟩ <;>
  · simp only [momentMatrix, low, Matrix.mulVec, dotProduct, Fin.sum_univ_six, t00, t01, t12]
    simp only [c0, c1, c2, d0, d1, d2]
    simp
    try ring

/-- With no penalty on the first three coefficients the force moves no particles, changes the momentum by minus the density
and the kinetic energy by minus the momentum (times the field: the charge is -1). -/
theorem force_moments (hh : 3 ≤ nh) (hl : 3 ≤ nl) (alpha u a b : ℝ) (h : a < b) (gamma : Fin nl → ℝ) (hg : ∀ m : Fin nl, m.val < 3 → gamma m = 0)
    (C : Fin nh → ℝ) (B : Fin nl → ℝ) :
    (momentMatrix alpha u (TL nl a b) (b - a) *ᵥ low (GC nh alpha *ᵥ C) (GB a b gamma *ᵥ B)) 0 = 0 ∧
    (momentMatrix alpha u (TL nl a b) (b - a) *ᵥ low (GC nh alpha *ᵥ C) (GB a b gamma *ᵥ B)) 1 = -(momentMatrix alpha u (TL nl a b) (b - a) *ᵥ low C B) 0 ∧
    (momentMatrix alpha u (TL nl a b) (b - a) *ᵥ low (GC nh alpha *ᵥ C) (GB a b gamma *ᵥ B)) 2 = -(momentMatrix alpha u (TL nl a b) (b - a) *ᵥ low C B) 1 := by
  have hw : b - a ≠ 0 := sub_ne_zero.mpr h.ne'
  obtain ⟨b0, b1, b2⟩ := deriv_low a b hl B gamma hg
  obtain ⟨m0, m1, m2⟩ := moments_low hh hl alpha u a b (GC nh alpha *ᵥ C) (GB a b gamma *ᵥ B)
  obtain ⟨k0, k1, _⟩ := moments_low hh hl alpha u a b C B
  have c0 : (GC nh alpha *ᵥ C) ⟨0, by omega⟩ = 0 := by rw [GC_mulVec]; rfl
  have c1 : (GC nh alpha *ᵥ C) ⟨1, by omega⟩ = -Real.sqrt 2 / alpha * C ⟨0, by omega⟩ := by rw [GC_mulVec, dif_neg (by simp)]; norm_num
  have c2 : (GC nh alpha *ᵥ C) ⟨2, by omega⟩ = -2 / alpha * C ⟨1, by omega⟩ := by
    rw [GC_mulVec, dif_neg (by simp)]
    have : Real.sqrt (2 * ((2 : ℕ) : ℝ)) = 2 := by
      rw [show (2 * ((2 : ℕ) : ℝ)) = 2 ^ 2 by norm_num, Real.sqrt_sq (by norm_num)]
    dsimp only; rw [this]
  rw [m0, m1, m2, k0, k1, b0, b1, b2, c0, c1, c2]
  have h2 : Real.sqrt 2 ≠ 0 := by positivity
  have h3 : Real.sqrt 3 ≠ 0 := by positivity
  have h15 : Real.sqrt 15 ≠ 0 := by positivity
  refine ⟨by ring, ?_, ?_⟩ <;> field_simp <;> ring

example : ∀ m : Fin 4, m.val < 3 → gammaVec (nl := 4) (1 / 2) false m = 0 := by
  intro m hm; rw [gammaVec, if_neg (by simp), if_neg (by omega)]

end Verif.HermiteLegendre
