import Verif.Model.Vlasov2V
import Mathlib.Analysis.Calculus.Deriv.MeanValue
import Mathlib.MeasureTheory.Integral.IntervalIntegral.FundThmCalculus
import Mathlib.Analysis.SpecialFunctions.Sqrt
import Mathlib.Tactic.Positivity
import Mathlib.Tactic.FieldSimp

/-!
C144: the diffusion coefficients of the cylindrical collision operator are positive and its tensor is positive
semidefinite.
-/
namespace Verif.Vlasov2V
open Finset

theorem erf_deriv (y : ℝ) : HasDerivAt erf (2 / Real.sqrt Real.pi * Real.exp (-y ^ 2)) y := by
  have hc : Continuous fun t : ℝ => Real.exp (-t ^ 2) := by fun_prop
  exact (intervalIntegral.integral_hasDerivAt_right (hc.intervalIntegrable 0 y) (hc.stronglyMeasurableAtFilter _ _) hc.continuousAt).const_mul _

theorem erf_zero : erf 0 = 0 := by unfold erf; simp

/-- `√(2/π)`. -/
noncomputable def kap : ℝ := Real.sqrt (2 / Real.pi)

theorem kap_pos : 0 < kap := Real.sqrt_pos.2 (by positivity)

theorem erf_scaled_deriv (s : ℝ) : HasDerivAt (fun s => erf (s / Real.sqrt 2)) (kap * Real.exp (-s ^ 2 / 2)) s := by
  have h := (erf_deriv (s / Real.sqrt 2)).comp s ((hasDerivAt_id s).div_const (Real.sqrt 2))
  refine h.congr_deriv ?_
  have h2 : Real.sqrt 2 ^ 2 = 2 := Real.sq_sqrt (by norm_num)
  have hp : Real.sqrt Real.pi ≠ 0 := (Real.sqrt_pos.2 Real.pi_pos).ne'
  have h2' : Real.sqrt 2 ≠ 0 := (Real.sqrt_pos.2 (by norm_num)).ne'
  rw [div_pow, h2, kap, Real.sqrt_div (by norm_num)]
  have : -(s ^ 2 / 2) = -s ^ 2 / 2 := by ring
  rw [this]
  field_simp
  rw [h2]

theorem erf_scaled_pos {s : ℝ} (hs : 0 < s) : 0 < erf (s / Real.sqrt 2) := by
  have hm : StrictMonoOn (fun s => erf (s / Real.sqrt 2)) (Set.Ici 0) := by
    refine strictMonoOn_of_deriv_pos (convex_Ici 0) (fun x _ => (erf_scaled_deriv x).continuousAt.continuousWithinAt) fun x _ => ?_
    rw [(erf_scaled_deriv x).deriv]
    exact mul_pos kap_pos (Real.exp_pos _)
  have := hm (Set.mem_Ici.2 (le_refl 0)) (Set.mem_Ici.2 hs.le) hs
  simpa [erf_zero] using this

theorem gauss_deriv (s : ℝ) : HasDerivAt (fun s : ℝ => Real.exp (-s ^ 2 / 2)) (-s * Real.exp (-s ^ 2 / 2)) s := by
  have h : HasDerivAt (fun s : ℝ => -s ^ 2 / 2) (-s) s := by
    have := (((hasDerivAt_pow 2 s).neg).div_const 2)
    refine this.congr_deriv ?_
    push_cast; ring
  exact h.exp.congr_deriv (by ring)

/-- `psi` in terms of the speed. -/
theorem psi_speed {s : ℝ} (hs : 0 ≤ s) : psi (s ^ 2 / 2) = erf (s / Real.sqrt 2) - kap * s * Real.exp (-s ^ 2 / 2) := by
  unfold psi kap
  have h1 : Real.sqrt (s ^ 2 / 2) = s / Real.sqrt 2 := by rw [Real.sqrt_div (sq_nonneg s), Real.sqrt_sq hs]
  have h2 : 2 * Real.sqrt (s ^ 2 / 2 / Real.pi) = Real.sqrt (2 / Real.pi) * s := by
    rw [show s ^ 2 / 2 / Real.pi = (s / 2) ^ 2 * (2 / Real.pi) by ring, Real.sqrt_mul (sq_nonneg _), Real.sqrt_sq (by positivity)]
    ring
  rw [h1, h2, neg_div]

/-- C144: `psi > 0`. -/
theorem psi_pos {s : ℝ} (hs : 0 < s) : 0 < psi (s ^ 2 / 2) := by
  rw [psi_speed hs.le]
  have hd : ∀ x, HasDerivAt (fun s => erf (s / Real.sqrt 2) - kap * s * Real.exp (-s ^ 2 / 2)) (kap * x ^ 2 * Real.exp (-x ^ 2 / 2)) x := by
    intro x
    have := (erf_scaled_deriv x).sub ((((hasDerivAt_id x).const_mul kap)).mul (gauss_deriv x))
    refine this.congr_deriv ?_
    simp only [id]
    ring
  have hm : StrictMonoOn (fun s => erf (s / Real.sqrt 2) - kap * s * Real.exp (-s ^ 2 / 2)) (Set.Ici 0) := by
    refine strictMonoOn_of_deriv_pos (convex_Ici 0) (fun x _ => (hd x).continuousAt.continuousWithinAt) fun x hx => ?_
    rw [interior_Ici] at hx
    have hx : 0 < x := hx
    rw [(hd x).deriv]
    have := kap_pos
    positivity
  have := hm (Set.mem_Ici.2 (le_refl 0)) (Set.mem_Ici.2 hs.le) hs
  simpa [erf_zero] using this

theorem lorentz_numerator_pos {s : ℝ} (hs : 0 < s) : 0 < (s ^ 2 - 1) * erf (s / Real.sqrt 2) + kap * s * Real.exp (-s ^ 2 / 2) := by
  have hd : ∀ x, HasDerivAt (fun s => (s ^ 2 - 1) * erf (s / Real.sqrt 2) + kap * s * Real.exp (-s ^ 2 / 2)) (2 * x * erf (x / Real.sqrt 2)) x := by
    intro x
    have := ((((hasDerivAt_pow 2 x).sub_const 1)).mul (erf_scaled_deriv x)).add ((((hasDerivAt_id x).const_mul kap)).mul (gauss_deriv x))
    refine this.congr_deriv ?_
    simp only [id]
    push_cast
    ring
  have hm : StrictMonoOn (fun s => (s ^ 2 - 1) * erf (s / Real.sqrt 2) + kap * s * Real.exp (-s ^ 2 / 2)) (Set.Ici 0) := by
    refine strictMonoOn_of_deriv_pos (convex_Ici 0) (fun x _ => (hd x).continuousAt.continuousWithinAt) fun x hx => ?_
    rw [interior_Ici] at hx
    have hx : 0 < x := hx
    rw [(hd x).deriv]
    have := erf_scaled_pos hx
    positivity
  have := hm (Set.mem_Ici.2 (le_refl 0)) (Set.mem_Ici.2 hs.le) hs
  simpa [erf_zero] using this

/-- C144: both diffusion coefficients are positive at every speed. -/
theorem dhat_pos (s : ℝ) : 0 < dhatPar s ∧ 0 < dhatPerp s := by
  have hm : 0 < max s 1e-6 := lt_max_of_lt_right (by norm_num)
  unfold dhatPar dhatPerp
  dsimp only
  obtain ⟨r, hr⟩ : ∃ r, r = max s 1e-6 := ⟨_, rfl⟩
  rw [← hr] at hm ⊢
  refine ⟨div_pos (psi_pos hm) (by positivity), div_pos ?_ (by positivity)⟩
  have h := lorentz_numerator_pos hm
  rw [psi_speed hm.le]
  have e : (1 - 1 / r ^ 2) * (erf (r / Real.sqrt 2) - kap * r * Real.exp (-r ^ 2 / 2)) + Real.sqrt (2 / Real.pi) * r * Real.exp (-(r ^ 2 / 2)) =
      ((r ^ 2 - 1) * erf (r / Real.sqrt 2) + kap * r * Real.exp (-r ^ 2 / 2)) / r ^ 2 := by
    have : -(r ^ 2 / 2) = -r ^ 2 / 2 := by ring
    rw [this, show Real.sqrt (2 / Real.pi) = kap from rfl]
    field_simp
    ring
  rw [e]
  exact div_pos h (by positivity)

/-- C144: above the floor of the code the coefficients solve the Rosenbluth relations: `psi` is the speed integral
`∫ √(2/π) t² e^{-t²/2} dt`, and the sum of `psi` and its derivative in `s²/2` is the error function. -/
theorem psi_relations {s : ℝ} (hs : 0 < s) :
    HasDerivAt (fun s : ℝ => psi (s ^ 2 / 2)) (Real.sqrt (2 / Real.pi) * s ^ 2 * Real.exp (-s ^ 2 / 2)) s ∧
    psi (s ^ 2 / 2) + Real.sqrt (2 / Real.pi) * s * Real.exp (-s ^ 2 / 2) = erf (s / Real.sqrt 2) ∧
    (1e-6 ≤ s → dhatPerp s = (erf (s / Real.sqrt 2) - psi (s ^ 2 / 2) / s ^ 2) / (2 * s)) ∧
    (1e-6 ≤ s → dhatPar s = psi (s ^ 2 / 2) / s ^ 3) := by
  refine ⟨?_, ?_, fun h => ?_, fun h => ?_⟩
  · have hd : HasDerivAt (fun s => erf (s / Real.sqrt 2) - kap * s * Real.exp (-s ^ 2 / 2)) (kap * s ^ 2 * Real.exp (-s ^ 2 / 2)) s := by
      have := (erf_scaled_deriv s).sub ((((hasDerivAt_id s).const_mul kap)).mul (gauss_deriv s))
      refine this.congr_deriv ?_
      simp only [id]
      ring
    refine hd.congr_of_eventuallyEq ?_
    filter_upwards [lt_mem_nhds hs] with x hx
    exact psi_speed hx.le
  · rw [psi_speed hs.le, kap]; ring
  · unfold dhatPerp
    dsimp only
    rw [max_eq_left h]
    congr 1
    have e : erf (s / Real.sqrt 2) = psi (s ^ 2 / 2) + kap * s * Real.exp (-s ^ 2 / 2) := by rw [psi_speed hs.le]; ring
    have : -(s ^ 2 / 2) = -s ^ 2 / 2 := by ring
    rw [e, this, show Real.sqrt (2 / Real.pi) = kap from rfl]
    ring
  · unfold dhatPar
    dsimp only
    rw [max_eq_left h]

namespace Cyl

/-- C144: the tensor at a point with `vperp > 0`: its quadratic form is a sum of squares along and across the velocity
relative to the bulk, weighted by the speed and the Lorentz coefficients. -/
theorem tensor_form (c : Cyl) (w v T a b : ℝ) (hv : 0 < v) :
    let t := c.tensor w v T
    let s := Real.sqrt (w ^ 2 + v ^ 2 + 1e-30) / Real.sqrt T
    a ^ 2 * t.1 + 2 * a * b * t.2.1 + b ^ 2 * t.2.2 =
      (c.alphaSpeed * dhatPar s * (a * w + b * v) ^ 2 + c.alphaLorentz * dhatPerp s * (a * v - b * w) ^ 2) / (w ^ 2 + v ^ 2) := by
  intro t s
  have h : w ^ 2 + v ^ 2 ≠ 0 := by positivity
  simp only [t, tensor]
  field_simp
  ring

/-- C144: with non-negative channel weights the tensor is positive semidefinite; with positive ones it is positive
definite. -/
theorem tensor_psd (c : Cyl) (w v T : ℝ) (hv : 0 < v) (ha : 0 ≤ c.alphaSpeed) (hl : 0 ≤ c.alphaLorentz) :
    let t := c.tensor w v T
    (∀ a b, 0 ≤ a ^ 2 * t.1 + 2 * a * b * t.2.1 + b ^ 2 * t.2.2) ∧ 0 ≤ t.1 ∧ 0 ≤ t.2.2 ∧ t.2.1 ^ 2 ≤ t.1 * t.2.2 ∧
    (0 < c.alphaSpeed → 0 < c.alphaLorentz → 0 < t.1 ∧ 0 < t.2.2 ∧ t.2.1 ^ 2 < t.1 * t.2.2) := by
  intro t
  have hs : 0 < w ^ 2 + v ^ 2 := by positivity
  obtain ⟨s, hse⟩ : ∃ s, s = Real.sqrt (w ^ 2 + v ^ 2 + 1e-30) / Real.sqrt T := ⟨_, rfl⟩
  have hp := (dhat_pos s).1
  have hq := (dhat_pos s).2
  have form : ∀ a b, a ^ 2 * t.1 + 2 * a * b * t.2.1 + b ^ 2 * t.2.2 =
      (c.alphaSpeed * dhatPar s * (a * w + b * v) ^ 2 + c.alphaLorentz * dhatPerp s * (a * v - b * w) ^ 2) / (w ^ 2 + v ^ 2) := by
    intro a b
    have := c.tensor_form w v T a b hv
    dsimp only at this
    rw [← hse] at this
    exact this
  have det : t.1 * t.2.2 - t.2.1 ^ 2 = c.alphaSpeed * dhatPar s * (c.alphaLorentz * dhatPerp s) := by
    have h : w ^ 2 + v ^ 2 ≠ 0 := hs.ne'
    simp only [t, tensor]
    rw [← hse]
    field_simp
    ring
  have e1 := form 1 0
  have e2 := form 0 1
  norm_num at e1 e2
  refine ⟨fun a b => ?_, ?_, ?_, ?_, fun ha' hl' => ⟨?_, ?_, ?_⟩⟩
  · rw [form]; positivity
  · rw [e1]; positivity
  · rw [e2]; positivity
  · have : 0 ≤ c.alphaSpeed * dhatPar s * (c.alphaLorentz * dhatPerp s) := by positivity
    linarith
  · rw [e1]; positivity
  · rw [e2]; positivity
  · have : 0 < c.alphaSpeed * dhatPar s * (c.alphaLorentz * dhatPerp s) := by positivity
    linarith

end Cyl
end Verif.Vlasov2V
