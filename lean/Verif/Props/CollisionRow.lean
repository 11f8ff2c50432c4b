import Verif.Props.VlasovRun
import Verif.Props.BetaNewton

/-!
What one collision step solves in one cell (C225): for every plain kind the drift is `v - u` and
the diffusion the temperature about `u`, with `u = 0` for Lenard-Bernstein and the mean velocity
for Dougherty; and the condition on the velocity grid under which the cubic spline runs.
-/
namespace Verif.VlasovShard
open Verif.Spectral Finset FP

/-- **The spline push runs exactly when every species has at least two velocity cells**. -/
theorem splined_refused {nx : ℕ} (e pond : ZMod nx → ℝ) (dt : ℝ) (ss : List (Species nx)) :
    (∃ ts, spline e pond dt ss = .ok ts) ↔ ∀ s ∈ ss, 2 ≤ s.nv := by
  unfold spline splineOk
  split_ifs with h
  · simpa using h
  · simpa using h

/-- The temperature of a row about the mean velocity `u`. -/
noncomputable def spread (n : ℕ) (v : ℕ → ℝ) (u : ℝ) (f : ℕ → ℝ) : ℝ :=
  (∑ i ∈ range n, f i * (v i - u) ^ 2) / ∑ i ∈ range n, f i

/-- The mean velocity of a row. -/
noncomputable def mean (n : ℕ) (v f : ℕ → ℝ) : ℝ := (∑ i ∈ range n, f i * v i) / ∑ i ∈ range n, f i

theorem discrete_spread {n : ℕ} {v : ℕ → ℝ} {dv : ℝ} (hdv : dv ≠ 0) (u : ℝ) (f : ℕ → ℝ) : discreteT n v dv u f = spread n v u f := by
  unfold discreteT spread
  rw [← sum_mul, ← sum_mul, mul_div_mul_right _ _ hdv]

/-- Without the self-consistent iteration `beta` is that of the temperature about the velocity the
kind of operator uses. -/
theorem beta_plain {c : CollCfg} (hc : c.steps = 0) (hk : c.kind ≠ .superGaussian) {n : ℕ} {v : ℕ → ℝ} {dv : ℝ} (hdv : dv ≠ 0)
    (f : ℕ → ℝ) (beta : ℝ) :
    BetaOf c n v dv f beta ↔ beta = 1 / (2 * spread n v ((vbar c.kind n v f).getD 0) f) := by
  have key : ∀ u : Option ℝ, Beta.Find ⟨n, v, fun _ => dv, false⟩ f u 0 2 beta ↔ beta = 1 / (2 * spread n v (u.getD 0) f) := by
    intro u
    have hT : Beta.temperature ⟨n, v, fun _ => dv, false⟩ u f = spread n v (u.getD 0) f := by
      rw [← discrete_spread hdv]
      cases u <;> simp [Beta.temperature, Beta.shifted, discreteT]
    rw [Beta.find_default, hT]
    by_cases h0 : spread n v (u.getD 0) f = 0
    · simp [h0]
    · rw [eq_div_iff (by simpa using h0)]
      simp [h0]
  unfold BetaOf
  rw [hc]
  cases h : c.kind <;> simp only [h] at hk ⊢ <;> first | exact absurd rfl hk | exact key _

/-- **A Lenard-Bernstein step solves the backward Euler system with drift `v` and the
temperature about rest**. -/
theorem fp_lenard_bernstein {c : CollCfg} (hc : c.steps = 0) {n : ℕ} {v : ℕ → ℝ} {dv : ℝ} (hdv : dv ≠ 0) (nu dt : ℝ) (f f' : ℕ → ℝ)
    (hT : spread n v 0 f ≠ 0) :
    (c.kind = .lenardBernsteinCentral → (FpRow c n v dv nu dt f f' ↔
      SolveOneX n (central n dv (fun e => (v (e + 1) + v e) / 2) (fun _ => spread n v 0 f) (fun _ => nu) dt) f f')) ∧
    (c.kind = .lenardBernsteinCC → (FpRow c n v dv nu dt f f' ↔
      SolveOneX n (changCooper n dv (fun e => (v (e + 1) + v e) / 2) (fun _ => spread n v 0 f) (fun _ => nu) dt) f f')) := by
  have hm : betaModel v 0 (1 / (2 * spread n v 0 f)) = (fun e => (v (e + 1) + v e) / 2, spread n v 0 f) := by
    unfold betaModel
    refine Prod.ext (funext fun e => ?_) ?_
    · field_simp
      ring
    · field_simp
  constructor
  all_goals
    intro hk
    unfold FpRow
    simp only [beta_plain hc (by rw [hk]; simp) hdv, exists_eq_left, hk, vbar, Option.getD_none, hm]

/-- **A Dougherty step solves the backward Euler system with drift relative to the mean velocity
and the temperature about it**. -/
theorem fp_dougherty {c : CollCfg} (hc : c.steps = 0) {n : ℕ} {v : ℕ → ℝ} {dv : ℝ} (hdv : dv ≠ 0) (nu dt : ℝ) (f f' : ℕ → ℝ)
    (hT : spread n v (mean n v f) f ≠ 0) :
    (c.kind = .doughertyCentral → (FpRow c n v dv nu dt f f' ↔
      SolveOneX n (central n dv (fun e => (v (e + 1) + v e) / 2 - mean n v f) (fun _ => spread n v (mean n v f) f) (fun _ => nu) dt) f f')) ∧
    (c.kind = .doughertyCC → (FpRow c n v dv nu dt f f' ↔
      SolveOneX n (changCooper n dv (fun e => (v (e + 1) + v e) / 2 - mean n v f) (fun _ => spread n v (mean n v f) f) (fun _ => nu) dt) f f')) := by
  have hm : betaModel v (mean n v f) (1 / (2 * spread n v (mean n v f) f)) =
      (fun e => (v (e + 1) + v e) / 2 - mean n v f, spread n v (mean n v f) f) := by
    unfold betaModel
    refine Prod.ext (funext fun e => ?_) ?_
    · field_simp
    · field_simp
  have hu : vbarOf n v f = mean n v f := rfl
  constructor
  all_goals
    intro hk
    unfold FpRow
    simp only [beta_plain hc (by rw [hk]; simp) hdv, exists_eq_left, hk, vbar, hu, Option.getD_some, hm]

/-! ### Non-vacuity: two equal cells at velocities ±1 -/

example : spread 2 (fun i => if i = 0 then -1 else 1) 0 (fun _ => 1) ≠ 0 := by
  norm_num [spread, sum_range_succ]

example : spread 2 (fun i => if i = 0 then -1 else 1) (mean 2 (fun i => if i = 0 then -1 else 1) fun _ => 1) (fun _ => 1) ≠ 0 := by
  norm_num [spread, mean, sum_range_succ]

end Verif.VlasovShard
