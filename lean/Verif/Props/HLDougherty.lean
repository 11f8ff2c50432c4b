import Verif.Props.HLBgk

/-!
C122: the Dougherty collisions of the mixed solver.
-/
namespace Verif.HermiteLegendre
open Finset Verif.Spectral Verif.Hermite MeasureTheory
open scoped Matrix

variable {N : ℕ} [NeZero N] {nh nl : ℕ}

/-! ### The Hermite part -/

/-- The generating function of the coefficients. -/
noncomputable def series (C : Fin nh → ℝ) : PowerSeries ℝ := PowerSeries.mk fun j => if h : j < nh then C ⟨j, h⟩ / Real.sqrt (j.factorial) else 0

theorem ou_series (p : Params) (U T s : ℝ) (C : Fin nh → ℝ) (n : Fin nh) :
    ouHermite p U T s C n = Real.sqrt (n.val.factorial) * PowerSeries.coeff n.val (PowerSeries.rescale (Real.exp (-(p.nu * s))) (series C) *
      expSeries (-(Real.sqrt 2 * (p.u - U) / p.alpha) * (1 - Real.exp (-(p.nu * s)))) (-0.5 * (1 - 2 * T / p.alpha ^ 2) * (1 - Real.exp (-(p.nu * s)) ^ 2))) := by
  rw [ouHermite]
  congr 1
  rw [PowerSeries.coeff_mul, Finset.Nat.sum_antidiagonal_eq_sum_range_succ_mk]
  obtain ⟨F, hF⟩ : ∃ F : ℕ → ℝ, F = fun j => if j ≤ n.val then (if h : j < nh then C ⟨j, h⟩ / Real.sqrt (j.factorial) else 0) * Real.exp (-(p.nu * s)) ^ j *
      expCoeff (-(Real.sqrt 2 * (p.u - U) / p.alpha) * (1 - Real.exp (-(p.nu * s)))) (-0.5 * (1 - 2 * T / p.alpha ^ 2) * (1 - Real.exp (-(p.nu * s)) ^ 2)) (n.val - j) else 0 := ⟨_, rfl⟩
  have e1 : ∀ j : Fin nh, (if j.val ≤ n.val then C j / Real.sqrt (j.val.factorial) * Real.exp (-(p.nu * s)) ^ j.val *
      expCoeff (-(Real.sqrt 2 * (p.u - U) / p.alpha) * (1 - Real.exp (-(p.nu * s)))) (-0.5 * (1 - 2 * T / p.alpha ^ 2) * (1 - Real.exp (-(p.nu * s)) ^ 2)) (n.val - j.val) else 0) = F j.val := by
    intro j
    rw [hF]
    simp only [dif_pos j.2]
  rw [sum_congr rfl fun j _ => e1 j, Fin.sum_univ_eq_sum_range F nh]
  have hsub : range (n.val + 1) ⊆ range nh := by intro j hj; rw [mem_range] at hj ⊢; have := n.2; omega
  rw [← sum_subset hsub (fun j _ hj => ?_)]
  · refine sum_congr rfl fun j hj => ?_
    rw [mem_range] at hj
    rw [hF]
    simp only [if_pos (show j ≤ n.val by omega)]
    rw [PowerSeries.coeff_rescale, series, PowerSeries.coeff_mk, expSeries, PowerSeries.coeff_mk]
    ring
  · rw [mem_range] at hj
    rw [hF]
    simp only [if_neg (show ¬ j ≤ n.val by omega)]

theorem series_ou (p : Params) (U T s : ℝ) (C : Fin nh → ℝ) (j : ℕ) (hj : j < nh) : PowerSeries.coeff j (series (ouHermite p U T s C)) =
    PowerSeries.coeff j (PowerSeries.rescale (Real.exp (-(p.nu * s))) (series C) *
      expSeries (-(Real.sqrt 2 * (p.u - U) / p.alpha) * (1 - Real.exp (-(p.nu * s)))) (-0.5 * (1 - 2 * T / p.alpha ^ 2) * (1 - Real.exp (-(p.nu * s)) ^ 2))) := by
  rw [series, PowerSeries.coeff_mk, dif_pos hj, ou_series]
  have := sqrt_fact_ne j
  field_simp

theorem coeff_congr {A B E : PowerSeries ℝ} (r : ℝ) (n : ℕ) (h : ∀ j ≤ n, PowerSeries.coeff j A = PowerSeries.coeff j B) :
    PowerSeries.coeff n (PowerSeries.rescale r A * E) = PowerSeries.coeff n (PowerSeries.rescale r B * E) := by
  rw [PowerSeries.coeff_mul, PowerSeries.coeff_mul]
  refine sum_congr rfl fun q hq => ?_
  rw [mem_antidiagonal] at hq
  rw [PowerSeries.coeff_rescale, PowerSeries.coeff_rescale, h q.1 (by omega)]

/-- With fixed mean velocity and temperature the Hermite part is a flow. -/
theorem ou_flow (p : Params) (U T s t : ℝ) (C : Fin nh → ℝ) :
    ouHermite p U T t (ouHermite p U T s C) = ouHermite p U T (s + t) C ∧ ouHermite p U T 0 C = C := by
  constructor
  · funext n
    rw [ou_series, ou_series, coeff_congr _ _ (fun j hj => series_ou p U T s C j (by have := n.2; omega))]
    congr 1
    have hexp : Real.exp (-(p.nu * (s + t))) = Real.exp (-(p.nu * s)) * Real.exp (-(p.nu * t)) := by rw [← Real.exp_add]; congr 1; ring
    rw [RingHom.map_mul, mul_assoc, expSeries_rescale, expSeries_mul, hexp, PowerSeries.rescale_mul, RingHom.comp_apply]
    congr 3 <;> ring
  · funext n
    rw [ou_series]
    simp only [mul_zero, neg_zero, Real.exp_zero, sub_self, one_pow]
    rw [expSeries_zero, mul_one, PowerSeries.rescale_one, RingHom.id_apply, series, PowerSeries.coeff_mk, dif_pos n.2]
    have := sqrt_fact_ne n.val
    field_simp

/-- The Maxwellian of that mean velocity and temperature stays. -/
theorem ou_maxwell (p : Params) (ha : 0 < p.alpha) (n U T s : ℝ) (hT : 0 < T) : ouHermite p U T s (maxwellCoef nh p.alpha p.u n U T) = maxwellCoef nh p.alpha p.u n U T := by
  have hm : ∀ i : ℕ, 1 / p.alpha * ∫ v, (basis p.alpha p.u i).eval v * maxwellian n U T v =
      n / p.alpha * (Real.sqrt i.factorial * expCoeff (Real.sqrt 2 * (U - p.u) / p.alpha) (T / p.alpha ^ 2 - 0.5) i) := by
    intro i; rw [← maxwell_coefficients ha p.u n U T hT, maxwell_eq]
  funext i
  have hser : ∀ j ≤ i.val, PowerSeries.coeff j (series (maxwellCoef nh p.alpha p.u n U T)) =
      PowerSeries.coeff j (PowerSeries.C (n / p.alpha) * expSeries (Real.sqrt 2 * (U - p.u) / p.alpha) (T / p.alpha ^ 2 - 0.5)) := by
    intro j hj
    rw [series, PowerSeries.coeff_mk, dif_pos (by have := i.2; omega), maxwellCoef, hm, PowerSeries.coeff_C_mul, expSeries, PowerSeries.coeff_mk]
    have := sqrt_fact_ne j
    field_simp
  rw [ou_series, coeff_congr _ _ hser, RingHom.map_mul, expSeries_rescale]
  have hC : PowerSeries.rescale (Real.exp (-(p.nu * s))) (PowerSeries.C (n / p.alpha)) = PowerSeries.C (n / p.alpha) := by
    ext k; rw [PowerSeries.coeff_rescale, PowerSeries.coeff_C]; split_ifs with h
    · rw [h]; simp
    · simp
  rw [hC, mul_assoc, expSeries_mul, PowerSeries.coeff_C_mul, maxwellCoef, hm]
  have e1 : Real.exp (-(p.nu * s)) * (Real.sqrt 2 * (U - p.u) / p.alpha) + -(Real.sqrt 2 * (p.u - U) / p.alpha) * (1 - Real.exp (-(p.nu * s))) = Real.sqrt 2 * (U - p.u) / p.alpha := by ring
  have e2 : Real.exp (-(p.nu * s)) ^ 2 * (T / p.alpha ^ 2 - 0.5) + -0.5 * (1 - 2 * T / p.alpha ^ 2) * (1 - Real.exp (-(p.nu * s)) ^ 2) = T / p.alpha ^ 2 - 0.5 := by ring
  rw [e1, e2, expSeries, PowerSeries.coeff_mk]
  ring

/-- The shifted sums of the proof of the rate. -/
noncomputable def shifted (C : Fin nh → ℝ) (r P Q : ℝ) (n d : ℕ) : ℝ :=
  ∑ j : Fin nh, if j.val + d ≤ n then C j / Real.sqrt (j.val.factorial) * r ^ j.val * expCoeff P Q (n - d - j.val) else 0

theorem ou_coefficients (p : Params) (U T s : ℝ) (C : Fin nh → ℝ) (n : Fin nh) :
    HasDerivAt (fun s => ouHermite p U T s C n)
      (-p.nu * (n.val * ouHermite p U T s C n
        + (if h : n.val = 0 then 0 else Real.sqrt 2 * (p.u - U) / p.alpha * Real.sqrt n.val * ouHermite p U T s C ⟨n.val - 1, by omega⟩)
        + (if h : n.val < 2 then 0 else (1 - 2 * T / p.alpha ^ 2) * (Real.sqrt n.val * Real.sqrt ((n.val - 1 : ℕ) : ℝ)) * ouHermite p U T s C ⟨n.val - 2, by omega⟩))) s := by
  obtain ⟨A, hA⟩ : ∃ A, A = Real.sqrt 2 * (p.u - U) / p.alpha := ⟨_, rfl⟩
  obtain ⟨B, hB⟩ : ∃ B, B = 1 - 2 * T / p.alpha ^ 2 := ⟨_, rfl⟩
  obtain ⟨r, hr⟩ : ∃ r : ℝ → ℝ, r = fun s => Real.exp (-(p.nu * s)) := ⟨_, rfl⟩
  obtain ⟨P, hP⟩ : ∃ P : ℝ → ℝ, P = fun s => -A * (1 - r s) := ⟨_, rfl⟩
  obtain ⟨Q, hQ⟩ : ∃ Q : ℝ → ℝ, Q = fun s => -0.5 * B * (1 - r s ^ 2) := ⟨_, rfl⟩
  have hou : ∀ (s : ℝ) (m : Fin nh), ouHermite p U T s C m = Real.sqrt (m.val.factorial) * shifted C (r s) (P s) (Q s) m.val 0 := by
    intro s m; rw [hP, hQ, hr, hA, hB]; rfl
  have dr : HasDerivAt r (-p.nu * r s) s := by
    rw [hr]
    have := (((hasDerivAt_id s).const_mul p.nu).neg).exp
    refine this.congr_deriv ?_
    simp; ring
  have dP : HasDerivAt P (-p.nu * A * r s) s := by
    rw [hP]
    have := ((dr.const_sub 1).const_mul (-A))
    refine this.congr_deriv ?_
    ring
  have dQ : HasDerivAt Q (-p.nu * B * r s ^ 2) s := by
    rw [hQ]
    have := (((dr.pow 2).const_sub 1).const_mul (-0.5 * B))
    refine this.congr_deriv ?_
    norm_num; ring
  have key : HasDerivAt (fun s => shifted C (r s) (P s) (Q s) n.val 0)
      (-p.nu * (n.val * shifted C (r s) (P s) (Q s) n.val 0 + A * shifted C (r s) (P s) (Q s) n.val 1 + B * shifted C (r s) (P s) (Q s) n.val 2)) s := by
    have hj : ∀ j : Fin nh, HasDerivAt (fun s => if j.val + 0 ≤ n.val then C j / Real.sqrt (j.val.factorial) * r s ^ j.val * expCoeff (P s) (Q s) (n.val - 0 - j.val) else 0)
        (-p.nu * (n.val * (if j.val + 0 ≤ n.val then C j / Real.sqrt (j.val.factorial) * r s ^ j.val * expCoeff (P s) (Q s) (n.val - 0 - j.val) else 0)
          + A * (if j.val + 1 ≤ n.val then C j / Real.sqrt (j.val.factorial) * r s ^ j.val * expCoeff (P s) (Q s) (n.val - 1 - j.val) else 0)
          + B * (if j.val + 2 ≤ n.val then C j / Real.sqrt (j.val.factorial) * r s ^ j.val * expCoeff (P s) (Q s) (n.val - 2 - j.val) else 0))) s := by
      intro j
      by_cases hjn : j.val + 0 ≤ n.val
      · simp only [if_pos hjn]
        obtain ⟨k, hk⟩ : ∃ k, n.val = j.val + k := ⟨n.val - j.val, by omega⟩
        have d1 := ((dr.pow j.val).const_mul (C j / Real.sqrt (j.val.factorial))).mul (expCoeff_deriv dP dQ (n.val - 0 - j.val))
        refine d1.congr_deriv ?_
        have hpow : (j.val : ℝ) * r s ^ (j.val - 1) * (-p.nu * r s) = -p.nu * j.val * r s ^ j.val := by
          rcases Nat.eq_zero_or_pos j.val with h0 | h0
          · rw [h0]; simp
          · have : r s ^ j.val = r s ^ (j.val - 1) * r s := by rw [← pow_succ]; congr 1; omega
            rw [this]; ring
        have hx : n.val - 0 - j.val = k := by omega
        have hx1 : n.val - 1 - j.val = k - 1 := by omega
        have hx2 : n.val - 2 - j.val = k - 2 := by omega
        rw [hx, hx1, hx2]
        have hc : ((n.val : ℕ) : ℝ) = j.val + k := by rw [hk]; push_cast; ring
        have hstep : (k : ℝ) * expCoeff (P s) (Q s) k = (if k = 0 then 0 else P s * expCoeff (P s) (Q s) (k - 1)) + if k < 2 then 0 else 2 * Q s * expCoeff (P s) (Q s) (k - 2) := by
          match k with
          | 0 => simp
          | 1 => simp [expCoeff]
          | k + 2 =>
            have := expCoeff_step (P s) (Q s) (k + 1)
            rw [if_neg (show ¬ k + 1 = 0 by omega), Nat.add_sub_cancel] at this
            rw [if_neg (show ¬ k + 2 = 0 by omega), if_neg (show ¬ k + 2 < 2 by omega), Nat.add_sub_cancel, show k + 2 - 1 = k + 1 from rfl, ← this]
            push_cast; ring
        have hPs : P s = -A * (1 - r s) := by rw [hP]
        have hQs : 2 * Q s = -B * (1 - r s ^ 2) := by rw [hQ]; ring
        rw [hpow, hc]
        simp only [Pi.pow_apply, show (j.val + 1 ≤ n.val) ↔ ¬ k = 0 by omega, show (j.val + 2 ≤ n.val) ↔ ¬ k < 2 by omega]
        by_cases h0 : k = 0
        · simp [h0]; ring
        · by_cases h1 : k < 2
          · simp only [h0, h1, if_true, if_false, not_false_eq_true, not_true_eq_false, mul_zero, add_zero] at hstep ⊢
            linear_combination (p.nu * (C j / Real.sqrt (j.val.factorial) * r s ^ j.val)) * hstep + (p.nu * (C j / Real.sqrt (j.val.factorial) * r s ^ j.val) * expCoeff (P s) (Q s) (k - 1)) * hPs
          · simp only [h0, h1, if_false, not_false_eq_true, if_true] at hstep ⊢
            linear_combination (p.nu * (C j / Real.sqrt (j.val.factorial) * r s ^ j.val)) * hstep + (p.nu * (C j / Real.sqrt (j.val.factorial) * r s ^ j.val) * expCoeff (P s) (Q s) (k - 1)) * hPs
              + (p.nu * (C j / Real.sqrt (j.val.factorial) * r s ^ j.val) * expCoeff (P s) (Q s) (k - 2)) * hQs
      · have h1 : ¬ j.val + 1 ≤ n.val := by omega
        have h2 : ¬ j.val + 2 ≤ n.val := by omega
        simp only [if_neg hjn, if_neg h1, if_neg h2]
        simpa using hasDerivAt_const s (0 : ℝ)
    have hsum := HasDerivAt.fun_sum (u := univ) fun (j : Fin nh) _ => hj j
    refine hsum.congr_deriv ?_
    rw [shifted, shifted, shifted, ← mul_sum, sum_add_distrib, sum_add_distrib, ← mul_sum, ← mul_sum, ← mul_sum]
  have hfin := key.const_mul (Real.sqrt (n.val.factorial))
  have hfun : (fun s => ouHermite p U T s C n) = fun s => Real.sqrt (n.val.factorial) * shifted C (r s) (P s) (Q s) n.val 0 := by funext s; rw [hou]
  rw [hfun]
  refine hfin.congr_deriv ?_
  have g1 : Real.sqrt (n.val.factorial) * shifted C (r s) (P s) (Q s) n.val 1 = if h : n.val = 0 then 0 else Real.sqrt n.val * ouHermite p U T s C ⟨n.val - 1, by omega⟩ := by
    by_cases h : n.val = 0
    · rw [dif_pos h, shifted, sum_eq_zero, mul_zero]
      intro j _; rw [if_neg (by omega)]
    · rw [dif_neg h, hou, ← mul_assoc]
      obtain ⟨m, hm⟩ : ∃ m, n.val = m + 1 := ⟨n.val - 1, by omega⟩
      simp only [hm, Nat.add_sub_cancel]
      rw [sqrt_fact_succ]
      push_cast
      congr 1
      simp only [shifted]
      refine sum_congr rfl fun j _ => ?_
      simp only [Nat.add_sub_cancel, Nat.sub_zero, add_zero, Nat.add_le_add_iff_right]
  have g2 : Real.sqrt (n.val.factorial) * shifted C (r s) (P s) (Q s) n.val 2 = if h : n.val < 2 then 0 else Real.sqrt n.val * Real.sqrt ((n.val - 1 : ℕ) : ℝ) * ouHermite p U T s C ⟨n.val - 2, by omega⟩ := by
    by_cases h : n.val < 2
    · rw [dif_pos h, shifted, sum_eq_zero, mul_zero]
      intro j _; rw [if_neg (by omega)]
    · rw [dif_neg h, hou, ← mul_assoc]
      obtain ⟨m, hm⟩ : ∃ m, n.val = m + 2 := ⟨n.val - 2, by omega⟩
      simp only [hm, Nat.add_sub_cancel, show m + 2 - 1 = m + 1 from rfl]
      rw [sqrt_fact_succ (m + 1), sqrt_fact_succ m]
      push_cast
      rw [show (m : ℝ) + 1 + 1 = m + 2 by ring]
      have hsh : shifted C (r s) (P s) (Q s) (m + 2) 2 = shifted C (r s) (P s) (Q s) m 0 := by
        simp only [shifted]
        refine sum_congr rfl fun j _ => ?_
        simp only [Nat.add_sub_cancel, Nat.sub_zero, add_zero, Nat.add_le_add_iff_right]
      rw [hsh]; ring
  rw [← hA, ← hB, hou s n]
  have a1 : (if h : n.val = 0 then 0 else A * Real.sqrt n.val * ouHermite p U T s C ⟨n.val - 1, by omega⟩) = A * (Real.sqrt (n.val.factorial) * shifted C (r s) (P s) (Q s) n.val 1) := by
    rw [g1]; split_ifs <;> ring
  have a2 : (if h : n.val < 2 then 0 else B * (Real.sqrt n.val * Real.sqrt ((n.val - 1 : ℕ) : ℝ)) * ouHermite p U T s C ⟨n.val - 2, by omega⟩) = B * (Real.sqrt (n.val.factorial) * shifted C (r s) (P s) (Q s) n.val 2) := by
    rw [g2]; split_ifs <;> ring
  rw [a1, a2]; ring

/-- In the language of distribution functions: every Hermite coefficient of the part `f = Σ C_j psi_j` changes at the rate the Dougherty
operator `nu d/dv[(v - U) f + T df/dv]` gives it (weak form, tested with the basis polynomial). -/
theorem ou_rate (p : Params) (ha : 0 < p.alpha) (U T s : ℝ) (C : Fin nh → ℝ) (n : Fin nh) :
    HasDerivAt (fun s => ouHermite p U T s C n)
      (p.nu * (1 / p.alpha * ∫ v, (T * (Polynomial.derivative (Polynomial.derivative (basis p.alpha p.u n.val))).eval v
        - (v - U) * (Polynomial.derivative (basis p.alpha p.u n.val)).eval v) * ∑ j, ouHermite p U T s C j * psi p.alpha p.u v j.val)) s := by
  refine (ou_coefficients p U T s C n).congr_deriv ?_
  obtain ⟨K, hK⟩ : ∃ K, K = ouHermite p U T s C := ⟨_, rfl⟩
  rw [← hK]
  have ha' := ha.ne'
  obtain ⟨q, hq⟩ : ∃ q : Polynomial ℝ, q = Polynomial.C T * Polynomial.derivative (Polynomial.derivative (basis p.alpha p.u n.val))
      - (Polynomial.X - Polynomial.C U) * Polynomial.derivative (basis p.alpha p.u n.val) := ⟨_, rfl⟩
  have hint : (∫ v, (T * (Polynomial.derivative (Polynomial.derivative (basis p.alpha p.u n.val))).eval v
        - (v - U) * (Polynomial.derivative (basis p.alpha p.u n.val)).eval v) * ∑ j, K j * psi p.alpha p.u v j.val) = ∑ j : Fin nh, K j * gint ha' p.u (basis p.alpha p.u j.val * q) := by
    have h1 := integral_dist (nl := 0) ha' p.u 0 1 zero_le_one K Fin.elim0 q
    rw [Finset.univ_eq_empty (α := Fin 0), sum_empty, add_zero] at h1
    rw [← h1]
    refine integral_congr_ae (Filter.Eventually.of_forall fun v => ?_)
    simp only [dist, hq, Polynomial.eval_sub, Polynomial.eval_mul, Polynomial.eval_C, Polynomial.eval_X]
    simp
  rw [hint]
  have h2 := two_sq
  have hs2 : Real.sqrt 2 ≠ 0 := (Real.sqrt_pos.mpr (by norm_num)).ne'
  rcases n with ⟨_ | k, hk1⟩
  · have hq0 : q = 0 := by rw [hq]; simp [basis_zero]
    rw [hq0]; simp
  · dsimp only at hq ⊢
    have hroot : Real.sqrt (((k : ℝ) + 1) / 2) = Real.sqrt ((k : ℝ) + 1) / Real.sqrt 2 := Real.sqrt_div (by positivity) _
    have hbm := basis_mul p.alpha p.u ha' k
    -- the polynomial in the basis
    have hq' : q = Polynomial.C (-((k : ℝ) + 1)) * basis p.alpha p.u (k + 1) + Polynomial.C (-(Real.sqrt 2 / p.alpha * Real.sqrt ((k : ℝ) + 1) * (p.u - U))) * basis p.alpha p.u k
        + Polynomial.C (Real.sqrt 2 / p.alpha * Real.sqrt ((k : ℝ) + 1) * (T - p.alpha ^ 2 / 2)) * Polynomial.derivative (basis p.alpha p.u k) := by
      rw [hq, basis_deriv, Polynomial.derivative_mul, Polynomial.derivative_C, zero_mul, zero_add]
      have e1 : Polynomial.C (-((k : ℝ) + 1)) * basis p.alpha p.u (k + 1) = Polynomial.C (-(Real.sqrt 2 / p.alpha * Real.sqrt ((k : ℝ) + 1))) *
          (Polynomial.C (p.alpha * Real.sqrt (((k : ℝ) + 1) / 2)) * basis p.alpha p.u (k + 1)) := by
        rw [← mul_assoc, ← Polynomial.C_mul]
        congr 2
        rw [hroot]
        have h3 : Real.sqrt ((k : ℝ) + 1) * Real.sqrt ((k : ℝ) + 1) = k + 1 := Real.mul_self_sqrt (by positivity)
        field_simp
        linarith
      rw [e1, hbm]
      simp only [Polynomial.C_mul, Polynomial.C_sub, Polynomial.C_neg]
      ring
    have hpair : ∀ m (hm : m < nh), ∑ j : Fin nh, K j * gint ha' p.u (basis p.alpha p.u j.val * basis p.alpha p.u m) = p.alpha * K ⟨m, hm⟩ := fun m hm => pair_hermite ha p.u K m hm
    have hlin : ∑ j : Fin nh, K j * gint ha' p.u (basis p.alpha p.u j.val * q) =
        -((k : ℝ) + 1) * (p.alpha * K ⟨k + 1, hk1⟩) + -(Real.sqrt 2 / p.alpha * Real.sqrt ((k : ℝ) + 1) * (p.u - U)) * (p.alpha * K ⟨k, by omega⟩)
        + Real.sqrt 2 / p.alpha * Real.sqrt ((k : ℝ) + 1) * (T - p.alpha ^ 2 / 2) * ∑ j : Fin nh, K j * gint ha' p.u (basis p.alpha p.u j.val * Polynomial.derivative (basis p.alpha p.u k)) := by
      rw [hq', ← hpair, ← hpair, mul_sum, mul_sum, mul_sum, ← sum_add_distrib, ← sum_add_distrib]
      refine sum_congr rfl fun j _ => ?_
      have : ∀ c h, gint ha' p.u (basis p.alpha p.u j.val * (Polynomial.C c * h)) = c * gint ha' p.u (basis p.alpha p.u j.val * h) := by
        intro c h; rw [← gint_C_mul]; congr 1; ring
      rw [mul_add, mul_add, map_add, map_add, this, this, this]; ring
    rw [hlin]
    rw [dif_neg (show ¬ k + 1 = 0 by omega)]
    simp only [Nat.add_sub_cancel]
    push_cast
    rcases k with _ | m
    · rw [dif_pos (show 0 + 1 < 2 by omega), basis_zero]
      simp only [Polynomial.derivative_one, mul_zero, map_zero, sum_const_zero, add_zero]
      push_cast
      field_simp
      ring
    · rw [dif_neg (show ¬ m + 1 + 1 < 2 by omega), basis_deriv]
      have hl2 : ∑ j : Fin nh, K j * gint ha' p.u (basis p.alpha p.u j.val * (Polynomial.C (Real.sqrt 2 / p.alpha * Real.sqrt ((m : ℝ) + 1)) * basis p.alpha p.u m)) =
          Real.sqrt 2 / p.alpha * Real.sqrt ((m : ℝ) + 1) * (p.alpha * K ⟨m, by omega⟩) := by
        rw [← hpair, mul_sum]
        refine sum_congr rfl fun j _ => ?_
        have : gint ha' p.u (basis p.alpha p.u j.val * (Polynomial.C (Real.sqrt 2 / p.alpha * Real.sqrt ((m : ℝ) + 1)) * basis p.alpha p.u m)) =
            Real.sqrt 2 / p.alpha * Real.sqrt ((m : ℝ) + 1) * gint ha' p.u (basis p.alpha p.u j.val * basis p.alpha p.u m) := by
          rw [← gint_C_mul]; congr 1; ring
        rw [this]; ring
      rw [hl2]
      push_cast
      generalize Real.sqrt ((m : ℝ) + 1 + 1) = r2
      generalize Real.sqrt ((m : ℝ) + 1) = r1
      have hsq : Real.sqrt 2 ^ 2 = 2 := by rw [sq]; exact h2
      field_simp
      rw [hsq]
      ring

end Verif.HermiteLegendre
