import Verif.Lemmas.Legendre
import Verif.Lemmas.GaussPoly
import Verif.Spec.HermiteLegendre
import Mathlib.MeasureTheory.Integral.Bochner.Set

/-!
C114: the Legendre constants.  C115: the moment map.
-/
namespace Verif.HermiteLegendre
open Polynomial Finset MeasureTheory Verif.Hermite
open scoped Matrix

variable {nh nl : ℕ}

/-! ### C114 -/

/-- The basis functions are orthonormal polynomials of the window (for the mean over it), of increasing degree, and
positive at the upper end: so they are its normalised Legendre polynomials. -/
theorem legendre_basis (a b : ℝ) (h : a < b) (m n : ℕ) :
    1 / (b - a) * (∫ v in a..b, (xi a b m).eval v * (xi a b n).eval v) = (if m = n then 1 else 0) ∧ (xi a b m).natDegree = m ∧
      0 < (xi a b m).eval b := by
  have hw : b - a ≠ 0 := sub_ne_zero.mpr h.ne'
  have ho : ∀ m n, (∫ v in a..b, (xi a b m).eval v * (xi a b n).eval v) = if m = n then b - a else 0 := by
    intro m n
    rw [← xi_orth a b h.ne m n, integ_def]; simp only [eval_mul]
  refine ⟨?_, ?_, ?_⟩
  · rw [ho]; split_ifs
    · field_simp
    · rw [mul_zero]
  · refine le_antisymm (xi_degree a b m) ?_
    by_contra hlt
    push Not at hlt
    -- of lower degree it would be a combination of the earlier ones and orthogonal to itself
    have hspan : ∀ k : ℕ, ∀ q : ℝ[X], q.natDegree ≤ k → (∀ j ≤ k, (xi a b j).natDegree = j) →
        ∃ c : ℕ → ℝ, q = ∑ j ∈ range (k + 1), C (c j) * xi a b j := by
      intro k
      induction k with
      | zero =>
        intro q hq _
        refine ⟨fun _ => q.coeff 0, ?_⟩
        rw [sum_range_one, xi_zero, mul_one]
        exact eq_C_of_natDegree_le_zero hq
      | succ k ih =>
        intro q hq hd
        have hk := hd (k + 1) le_rfl
        have hl : (xi a b (k + 1)).coeff (k + 1) ≠ 0 := by
          have h0 : xi a b (k + 1) ≠ 0 := by intro h0; rw [h0, natDegree_zero] at hk; omega
          have := leadingCoeff_ne_zero.mpr h0
          rwa [leadingCoeff, hk] at this
        obtain ⟨r, hr⟩ : ∃ r : ℝ, r = q.coeff (k + 1) / (xi a b (k + 1)).coeff (k + 1) := ⟨_, rfl⟩
        obtain ⟨c, hc⟩ := ih (q - C r * xi a b (k + 1)) (by
          rw [natDegree_le_iff_coeff_eq_zero]
          intro i hi
          rw [coeff_sub, coeff_C_mul]
          rcases Nat.lt_or_ge (k + 1) i with hi2 | hi2
          · rw [coeff_eq_zero_of_natDegree_lt (by omega), coeff_eq_zero_of_natDegree_lt (by omega)]; ring
          · have : i = k + 1 := by omega
            subst this
            rw [hr]; field_simp; ring) (fun j hj => hd j (by omega))
        refine ⟨fun j => if j = k + 1 then r else c j, ?_⟩
        rw [sum_range_succ]
        beta_reduce
        rw [if_pos rfl]
        rw [sub_eq_iff_eq_add] at hc
        conv_lhs => rw [hc]
        congr 1
        refine sum_congr rfl fun j hj => ?_
        rw [if_neg (by have := mem_range.mp hj; omega)]
    -- take the least such degree
    classical
    have hex : ∃ m, (xi a b m).natDegree < m := ⟨m, hlt⟩
    obtain ⟨m0, hm0, hmin⟩ : ∃ m0, (xi a b m0).natDegree < m0 ∧ ∀ j < m0, (xi a b j).natDegree = j :=
      ⟨Nat.find hex, Nat.find_spec hex, fun j hj => le_antisymm (xi_degree a b j) (not_lt.mp (Nat.find_min hex hj))⟩
    cases m0 with
    | zero => omega
    | succ k =>
      obtain ⟨c, hc⟩ := hspan k (xi a b (k + 1)) (by omega) (fun j hj => hmin j (by omega))
      have h1 := xi_orth a b h.ne (k + 1) (k + 1)
      rw [if_pos rfl] at h1
      have h2 : integ a b (xi a b (k + 1) * xi a b (k + 1)) = 0 := by
        conv_lhs => rw [hc]
        rw [sum_mul, map_sum]
        refine sum_eq_zero fun j hj => ?_
        rw [mul_assoc, integ_C_mul, ← hc, xi_orth a b h.ne, if_neg (by have := mem_range.mp hj; omega), mul_zero]
      exact hw (h1.symm.trans h2)
  · rw [xi_b a b h.ne]; exact sqrt_odd_pos m

/-- The matrix used for streaming is multiplication by the velocity. -/
theorem velocity_matrix (a b : ℝ) (h : a < b) (i j : Fin nl) :
    TL nl a b i j = 1 / (b - a) * ∫ v in a..b, v * (xi a b i.val).eval v * (xi a b j.val).eval v := by
  have hw : b - a ≠ 0 := sub_ne_zero.mpr h.ne'
  have e : (∫ v in a..b, v * (xi a b i.val).eval v * (xi a b j.val).eval v) = integ a b (X * xi a b i.val * xi a b j.val) := by
    rw [integ_def]; simp only [eval_mul, eval_X]
  rw [e, xi_mul a b h.ne, add_mul, add_mul, map_add, map_add, mul_assoc, integ_C_mul, mul_assoc, integ_C_mul, mul_assoc, integ_C_mul,
    xi_orth a b h.ne, xi_orth a b h.ne, TL]
  have e3 : sigma (b - a) i.val * integ a b ((if i.val = 0 then 0 else xi a b (i.val - 1)) * xi a b j.val) =
      if i.val = j.val + 1 then sigma (b - a) i.val * (b - a) else 0 := by
    by_cases h0 : i.val = 0
    · rw [if_pos h0, if_neg (by omega), zero_mul, map_zero, mul_zero]
    · rw [if_neg h0, xi_orth a b h.ne]
      by_cases h1 : i.val = j.val + 1
      · rw [if_pos (by omega), if_pos h1]
      · rw [if_neg (by omega), if_neg h1, mul_zero]
  rw [e3]
  by_cases h1 : i = j
  · subst h1
    simp; field_simp; ring
  · have h1' : i.val ≠ j.val := fun h => h1 (Fin.ext h)
    rw [if_neg h1, if_neg h1']
    by_cases h2 : j.val = i.val + 1
    · rw [if_pos h2, if_pos h2.symm, if_neg (by omega), if_neg (by omega), h2]; field_simp; ring
    · rw [if_neg h2, if_neg (Ne.symm h2)]
      by_cases h3 : i.val = j.val + 1
      · rw [if_pos h3, if_pos h3]; field_simp; ring
      · rw [if_neg h3, if_neg h3]; ring

/-- The derivative matrix is the derivative in the velocity. -/
theorem derivative_matrix (a b : ℝ) (h : a < b) (m i : Fin nl) :
    deriv nl a b m i = 1 / (b - a) * ∫ v in a..b, (derivative (xi a b m.val)).eval v * (xi a b i.val).eval v := by
  have hw : b - a ≠ 0 := sub_ne_zero.mpr h.ne'
  have e : (∫ v in a..b, (derivative (xi a b m.val)).eval v * (xi a b i.val).eval v) = integ a b (derivative (xi a b m.val) * xi a b i.val) := by
    rw [integ_def]; simp only [eval_mul]
  rw [e, xi_deriv, sum_mul, map_sum, deriv]
  have e2 : ∀ j ∈ range m.val, integ a b ((if (m.val - j) % 2 = 1 then C (2 * Real.sqrt ((2 * m.val + 1) * (2 * j + 1)) / (b - a)) * xi a b j else 0) * xi a b i.val)
      = if j = i.val then (if (m.val - j) % 2 = 1 then 2 * Real.sqrt ((2 * m.val + 1) * (2 * j + 1)) else 0) else 0 := by
    intro j _
    split_ifs with h1 h2
    · rw [mul_assoc, integ_C_mul, xi_orth a b h.ne, if_pos h2]; field_simp
    · rw [mul_assoc, integ_C_mul, xi_orth a b h.ne, if_neg h2, mul_zero]
    · simp
    · simp
  rw [sum_congr rfl e2, sum_ite_eq']
  by_cases h1 : i.val < m.val
  · rw [if_pos (mem_range.mpr h1)]
    by_cases h2 : (m.val - i.val) % 2 = 1
    · rw [if_pos ⟨h1, h2⟩, if_pos h2]; field_simp
    · rw [if_neg (fun h => h2 h.2), if_neg h2]; ring
  · rw [if_neg (fun h : i.val < m.val ∧ _ => h1 h.1), if_neg (fun h => h1 (mem_range.mp h))]; ring

/-- The whole derivative: nothing is lost by the truncation (the order drops). -/
theorem derivative_expansion (a b : ℝ) (m : Fin nl) :
    derivative (xi a b m.val) = ∑ i : Fin nl, C (deriv nl a b m i) * xi a b i.val := by
  rw [xi_deriv]
  have h2 : (∑ i : Fin nl, C (deriv nl a b m i) * xi a b i.val) =
      ∑ i ∈ range nl, (if i < m.val ∧ (m.val - i) % 2 = 1 then C (2 * Real.sqrt ((2 * m.val + 1) * (2 * i + 1)) / (b - a)) * xi a b i else 0) := by
    rw [Finset.sum_range]
    refine sum_congr rfl fun i _ => ?_
    rw [deriv]; split_ifs <;> simp
  rw [h2]
  have h3 : range m.val ⊆ range nl := by intro j hj; simp at *; omega
  refine (sum_subset h3 ?_).symm.trans ?_ |>.symm
  · intro j _ hj
    rw [if_neg (by simp at hj; omega)]
  · refine sum_congr rfl fun j hj => ?_
    have := mem_range.mp hj
    by_cases hp : (m.val - j) % 2 = 1
    · rw [if_pos ⟨this, hp⟩, if_pos hp]
    · rw [if_neg (fun h => hp h.2), if_neg hp]

/-- The end values. -/
theorem end_values (a b : ℝ) (h : a < b) (m : ℕ) : xiB m = (xi a b m).eval b ∧ xiA m = (xi a b m).eval a :=
  ⟨(xi_b a b h.ne m).symm, (xi_a a b h.ne m).symm⟩

example : (1 : ℝ) / (6 - 2) * (∫ v in (2 : ℝ)..6, (xi 2 6 3).eval v * (xi 2 6 3).eval v) = 1 ∧ TL 4 2 6 0 0 = 4 := by
  refine ⟨by simpa using (legendre_basis 2 6 (by norm_num) 3 3).1, ?_⟩
  simp [TL]; norm_num

/-! ### C115 -/

/-- The distribution function of a set of coefficients at one position, as the run reports it
(modules.py:81-93): Hermite functions, plus Legendre functions inside the window. -/
noncomputable def dist (alpha u a b : ℝ) (Cc : Fin nh → ℝ) (B : Fin nl → ℝ) (v : ℝ) : ℝ :=
  ∑ n, Cc n * psi alpha u v n.val + if v ∈ Set.Ioc a b then ∑ m, B m * (xi a b m.val).eval v else 0

theorem integral_dist {alpha : ℝ} (ha : alpha ≠ 0) (u a b : ℝ) (h : a ≤ b) (Cc : Fin nh → ℝ) (B : Fin nl → ℝ) (q : ℝ[X]) :
    ∫ v, q.eval v * dist alpha u a b Cc B v =
      ∑ n, Cc n * gint ha u (basis alpha u n.val * q) + ∑ m, B m * integ a b (xi a b m.val * q) := by
  have e : ∀ v, q.eval v * dist alpha u a b Cc B v = (∑ n : Fin nh, Cc n * ((basis alpha u n.val * q).eval v * bell alpha u v))
      + (Set.Ioc a b).indicator (fun v => (∑ m : Fin nl, C (B m) * (xi a b m.val * q)).eval v) v := by
    intro v
    rw [dist, mul_add, Set.indicator]
    congr 1
    · rw [mul_sum]; refine sum_congr rfl fun n _ => ?_
      rw [psi_eq ha, eval_mul]; ring
    · split_ifs
      · rw [eval_finsetSum, mul_sum]
        refine sum_congr rfl fun m _ => ?_
        simp only [eval_mul, eval_C]; ring
      · ring
  simp only [e]
  rw [integral_add, integral_finsetSum, integral_indicator measurableSet_Ioc, ← intervalIntegral.integral_of_le h, ← integ_def, map_sum]
  · congr 1
    · refine sum_congr rfl fun n _ => ?_
      rw [integral_const_mul, gint_def]
    · exact sum_congr rfl fun m _ => integ_C_mul _ _ _ _
  · intro n _
    exact (integrable_bell ha u _).const_mul _
  · exact integrable_finsetSum _ fun n _ => (integrable_bell ha u _).const_mul _
  · rw [integrable_indicator_iff measurableSet_Ioc]
    exact ((∑ m : Fin nl, C (B m) * (xi a b m.val * q)).continuous.integrableOn_Icc).mono_set Set.Ioc_subset_Icc_self

theorem pair_hermite {alpha : ℝ} (ha : 0 < alpha) (u : ℝ) (Cc : Fin nh → ℝ) (k : ℕ) (hk : k < nh) :
    ∑ n : Fin nh, Cc n * gint ha.ne' u (basis alpha u n.val * basis alpha u k) = alpha * Cc ⟨k, hk⟩ := by
  rw [sum_eq_single ⟨k, hk⟩]
  · rw [gint_orth, if_pos rfl, abs_of_pos ha]; ring
  · intro n _ hn
    rw [gint_orth, if_neg (fun h => hn (Fin.ext h)), mul_zero]
  · intro h; exact absurd (mem_univ _) h

theorem pair_legendre (a b : ℝ) (h : a < b) (B : Fin nl → ℝ) (k : ℕ) (hk : k < nl) :
    ∑ m : Fin nl, B m * integ a b (xi a b m.val * xi a b k) = (b - a) * B ⟨k, hk⟩ := by
  rw [sum_eq_single ⟨k, hk⟩]
  · rw [xi_orth a b h.ne, if_pos rfl]; ring
  · intro n _ hn
    rw [xi_orth a b h.ne, if_neg (fun h => hn (Fin.ext h)), mul_zero]
  · intro h; exact absurd (mem_univ _) h

theorem pairH_lin {alpha : ℝ} (ha : alpha ≠ 0) (u : ℝ) (Cc : Fin nh → ℝ) (c d : ℝ) (p q : ℝ[X]) :
    ∑ n : Fin nh, Cc n * gint ha u (basis alpha u n.val * (C c * p + C d * q)) =
      c * (∑ n : Fin nh, Cc n * gint ha u (basis alpha u n.val * p)) + d * (∑ n : Fin nh, Cc n * gint ha u (basis alpha u n.val * q)) := by
  rw [mul_sum, mul_sum, ← sum_add_distrib]
  refine sum_congr rfl fun n _ => ?_
  rw [mul_add, map_add, mul_left_comm, gint_C_mul, mul_left_comm, gint_C_mul]; ring

theorem pairL_lin (a b : ℝ) (B : Fin nl → ℝ) (c d : ℝ) (p q : ℝ[X]) :
    ∑ m : Fin nl, B m * integ a b (xi a b m.val * (C c * p + C d * q)) =
      c * (∑ m : Fin nl, B m * integ a b (xi a b m.val * p)) + d * (∑ m : Fin nl, B m * integ a b (xi a b m.val * q)) := by
  rw [mul_sum, mul_sum, ← sum_add_distrib]
  refine sum_congr rfl fun n _ => ?_
  rw [mul_add, map_add, mul_left_comm, integ_C_mul, mul_left_comm, integ_C_mul]; ring

theorem clampIx_val [NeZero nl] (i : ℕ) (h : i < nl) : (clampIx i : Fin nl) = ⟨i, h⟩ := by
  apply Fin.ext; simp only [clampIx]; omega

theorem sigma_one (w : ℝ) : sigma w 1 = w / 2 / Real.sqrt 3 := by
  rw [sigma, if_neg (by omega)]; norm_num

/-- The moment map gives density, momentum and kinetic energy of the distribution function. -/
theorem moments_are_integrals [NeZero nh] [NeZero nl] (hh : 3 ≤ nh) (hl : 3 ≤ nl) {alpha : ℝ} (ha : 0 < alpha) (u a b : ℝ) (h : a < b)
    (Cc : Fin nh → ℝ) (B : Fin nl → ℝ) :
    (momentMatrix alpha u (TL nl a b) (b - a) *ᵥ low Cc B) 0 = densityInt (dist alpha u a b Cc B) ∧
    (momentMatrix alpha u (TL nl a b) (b - a) *ᵥ low Cc B) 1 = momentumInt (dist alpha u a b Cc B) ∧
    (momentMatrix alpha u (TL nl a b) (b - a) *ᵥ low Cc B) 2 = energyInt (dist alpha u a b Cc B) := by
  have h0 := pair_hermite ha u Cc 0 (by omega)
  have h1 := pair_hermite ha u Cc 1 (by omega)
  have h2 := pair_hermite ha u Cc 2 (by omega)
  have g0 := pair_legendre a b h B 0 (by omega)
  have g1 := pair_legendre a b h B 1 (by omega)
  have g2 := pair_legendre a b h B 2 (by omega)
  have t00 : TL nl a b (clampIx 0) (clampIx 0) = (a + b) / 2 := by
    rw [clampIx_val 0 (by omega)]; simp [TL]; ring
  have t01 : TL nl a b (clampIx 0) (clampIx 1) = sigma (b - a) 1 := by
    rw [clampIx_val 0 (by omega), clampIx_val 1 (by omega)]; simp [TL]
  have t12 : TL nl a b (clampIx 1) (clampIx 2) = sigma (b - a) 2 := by
    rw [clampIx_val 1 (by omega), clampIx_val 2 (by omega)]; simp [TL]
  -- the velocity and its square in the two bases
  have hx : (X : ℝ[X]) = C (alpha * Real.sqrt (1 / 2)) * basis alpha u 1 + C u * basis alpha u 0 := by
    rw [← basis_three_zero alpha u ha.ne', basis_zero, mul_one]
  have hx1 := basis_three alpha u ha.ne' 0
  have lx : (X : ℝ[X]) = C (sigma (b - a) 1) * xi a b 1 + C ((a + b) / 2) * xi a b 0 := by
    have := xi_mul a b h.ne 0
    rw [if_pos rfl, mul_zero, add_zero, xi_zero, mul_one] at this
    rw [xi_zero]; exact this
  have lx1 := xi_mul a b h.ne 1
  rw [if_neg (by omega)] at lx1
  have pH1 : ∑ n : Fin nh, Cc n * gint ha.ne' u (basis alpha u n.val * X) =
      alpha * Real.sqrt (1 / 2) * (alpha * Cc ⟨1, by omega⟩) + u * (alpha * Cc ⟨0, by omega⟩) := by
    conv_lhs => rw [hx]
    rw [pairH_lin, h0, h1]
  have pL1 : ∑ m : Fin nl, B m * integ a b (xi a b m.val * X) =
      sigma (b - a) 1 * ((b - a) * B ⟨1, by omega⟩) + (a + b) / 2 * ((b - a) * B ⟨0, by omega⟩) := by
    conv_lhs => rw [lx]
    rw [pairL_lin, g0, g1]
  have pH2 : ∑ n : Fin nh, Cc n * gint ha.ne' u (basis alpha u n.val * X ^ 2) =
      alpha * Real.sqrt (1 / 2) * (alpha * Real.sqrt 1 * (alpha * Cc ⟨2, by omega⟩) + (alpha * Real.sqrt (1 / 2) * (alpha * Cc ⟨0, by omega⟩)
        + u * (alpha * Cc ⟨1, by omega⟩))) + u * (alpha * Real.sqrt (1 / 2) * (alpha * Cc ⟨1, by omega⟩) + u * (alpha * Cc ⟨0, by omega⟩)) := by
    have e : (X ^ 2 : ℝ[X]) = C (alpha * Real.sqrt (1 / 2)) * (X * basis alpha u 1) + C u * X := by
      have : (X ^ 2 : ℝ[X]) = X * X := sq X
      rw [this]
      nth_rewrite 2 [hx]
      rw [basis_zero]; ring
    have e2 : (X * basis alpha u 1 : ℝ[X]) = C (alpha * Real.sqrt 1) * basis alpha u 2 + C 1 * (C (alpha * Real.sqrt (1 / 2)) * basis alpha u 0 + C u * basis alpha u 1) := by
      have := hx1
      simp only [Nat.cast_zero, zero_add] at this
      rw [this, C_1]; norm_num; ring
    rw [e, pairH_lin, pH1, e2, pairH_lin, pairH_lin, h2, h0, h1]; ring
  have pL2 : ∑ m : Fin nl, B m * integ a b (xi a b m.val * X ^ 2) =
      sigma (b - a) 1 * (sigma (b - a) 2 * ((b - a) * B ⟨2, by omega⟩) + ((a + b) / 2 * ((b - a) * B ⟨1, by omega⟩)
        + sigma (b - a) 1 * ((b - a) * B ⟨0, by omega⟩)))
        + (a + b) / 2 * (sigma (b - a) 1 * ((b - a) * B ⟨1, by omega⟩) + (a + b) / 2 * ((b - a) * B ⟨0, by omega⟩)) := by
    have e : (X ^ 2 : ℝ[X]) = C (sigma (b - a) 1) * (X * xi a b 1) + C ((a + b) / 2) * X := by
      have : (X ^ 2 : ℝ[X]) = X * X := sq X
      rw [this]
      nth_rewrite 2 [lx]
      rw [xi_zero]; ring
    have e2 : (X * xi a b 1 : ℝ[X]) = C (sigma (b - a) 2) * xi a b 2 + C 1 * (C ((a + b) / 2) * xi a b 1 + C (sigma (b - a) 1) * xi a b 0) := by
      rw [lx1, C_1]; norm_num; ring
    rw [e, pairL_lin, pL1, e2, pairL_lin, pairL_lin, g2, g0, g1]; ring
  have hs : Real.sqrt (1 / 2) = 1 / Real.sqrt 2 := by rw [Real.sqrt_div (by norm_num), Real.sqrt_one]
  have hs2 : Real.sqrt 2 ≠ 0 := by positivity
  have hs3 := two_sq
  have c0 := clampIx_val (nl := nh) 0 (by omega)
  have c1 := clampIx_val (nl := nh) 1 (by omega)
  have c2 := clampIx_val (nl := nh) 2 (by omega)
  have d0 := clampIx_val (nl := nl) 0 (by omega)
  have d1 := clampIx_val (nl := nl) 1 (by omega)
  have d2 := clampIx_val (nl := nl) 2 (by omega)
  refine ⟨?_, ?_, ?_⟩
  · have := integral_dist ha.ne' u a b h.le Cc B 1
    simp only [eval_one, one_mul] at this
    rw [densityInt, this, ← basis_zero alpha u, h0]
    rw [basis_zero, ← xi_zero a b, g0]
    simp only [momentMatrix, low, Matrix.mulVec, dotProduct, Fin.sum_univ_six]
    simp [c0, d0]
  · have := integral_dist ha.ne' u a b h.le Cc B X
    simp only [eval_X] at this
    rw [momentumInt, this, pH1, pL1, hs]
    simp only [momentMatrix, low, Matrix.mulVec, dotProduct, Fin.sum_univ_six, t00, t01, t12]
    simp [c0, c1, d0, d1]
    ring
  · have := integral_dist ha.ne' u a b h.le Cc B (X ^ 2)
    simp only [eval_pow, eval_X] at this
    rw [energyInt, this, pH2, pL2, hs, Real.sqrt_one]
    simp only [momentMatrix, low, Matrix.mulVec, dotProduct, Fin.sum_univ_six, t00, t01, t12]
    simp [c0, c1, c2, d0, d1, d2]
    field_simp
    have hq : Real.sqrt 2 ^ 2 = 2 := Real.sq_sqrt (by norm_num)
    ring_nf
    rw [hq]
    ring

/-- A concrete case: the moments of a filled window and one of the Hermite functions: density 4, momentum 18. -/
example : densityInt (dist 1 0 2 6 (fun i : Fin 3 => if i = 1 then 2 * Real.sqrt 2 else 0) fun i : Fin 3 => if i = 0 then 1 else 0) = 4 ∧
    momentumInt (dist 1 0 2 6 (fun i : Fin 3 => if i = 1 then 2 * Real.sqrt 2 else 0) fun i : Fin 3 => if i = 0 then 1 else 0) = 18 := by
  obtain ⟨h0, h1, _⟩ := moments_are_integrals (nh := 3) (nl := 3) le_rfl le_rfl (alpha := 1) one_pos 0 2 6 (by norm_num)
    (fun i : Fin 3 => if i = 1 then 2 * Real.sqrt 2 else 0) (fun i : Fin 3 => if i = 0 then 1 else 0)
  rw [← h0, ← h1]
  have s3 : Real.sqrt 2 ≠ 0 := by positivity
  have k0 : (clampIx 0 : Fin 3) = 0 := rfl
  have k1 : (clampIx 1 : Fin 3) = 1 := rfl
  have k2 : (clampIx 2 : Fin 3) = 2 := rfl
  simp only [Matrix.mulVec, dotProduct, Fin.sum_univ_six, momentMatrix, low, k0, k1, k2, TL]
  constructor
  · simp; norm_num
  · simp; field_simp; norm_num

end Verif.HermiteLegendre
