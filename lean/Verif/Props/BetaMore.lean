import Verif.Props.BetaClosure

/-! More on C182, C183 and C185: the mean flow. -/
namespace Verif.Beta
open Finset

/-- C182: the temperature about a flow is the second moment of the velocities measured from it. -/
theorem temperature_flow (g : VGrid) (u : ℝ) (f : ℕ → ℝ) :
    temperature g (some u) f = temperature { g with v := fun i => g.v i - u } none f := by
  rfl

theorem temperature_flow_explicit (n : ℕ) (v dv : ℕ → ℝ) (u : ℝ) (f : ℕ → ℝ) :
    temperature ⟨n, v, dv, false⟩ (some u) f =
      (∑ i ∈ range n, f i * (v i - u) ^ 2 * dv i) / ∑ i ∈ range n, f i * dv i := rfl

/-- C182: about the mean velocity it is the variance. -/
theorem temperature_variance (n : ℕ) (v dv : ℕ → ℝ) (f : ℕ → ℝ) (u : ℝ) (hN : ∑ i ∈ range n, f i * dv i ≠ 0)
    (hu : u = (∑ i ∈ range n, f i * v i * dv i) / ∑ i ∈ range n, f i * dv i) :
    temperature ⟨n, v, dv, false⟩ (some u) f = temperature ⟨n, v, dv, false⟩ none f - u ^ 2 := by
  have e0 : temperature ⟨n, v, dv, false⟩ none f = (∑ i ∈ range n, f i * v i ^ 2 * dv i) / ∑ i ∈ range n, f i * dv i := rfl
  rw [temperature_flow_explicit, e0]
  have e1 : ∑ i ∈ range n, f i * (v i - u) ^ 2 * dv i =
      ∑ i ∈ range n, f i * v i ^ 2 * dv i - 2 * u * ∑ i ∈ range n, f i * v i * dv i + u ^ 2 * ∑ i ∈ range n, f i * dv i := by
    rw [mul_sum, mul_sum, ← sum_sub_distrib, ← sum_add_distrib]
    exact sum_congr rfl fun i _ => by ring
  rw [e1]
  have e2 : ∑ i ∈ range n, f i * v i * dv i = u * ∑ i ∈ range n, f i * dv i := by rw [hu]; field_simp
  rw [e2]
  field_simp
  ring

/-- C183: the inverse temperature does not depend on the frame: moving the grid and the flow together changes nothing. -/
theorem find_galilean (g : VGrid) (f : ℕ → ℝ) (u w : ℝ) (k : ℕ) (m β : ℝ) :
    Find { g with v := fun i => g.v i + w } f (some (u + w)) k m β ↔ Find g f (some u) k m β := by
  have hs : ∀ i, shifted { g with v := fun i => g.v i + w } (some (u + w)) i = shifted g (some u) i := fun i => by
    unfold shifted; ring
  have ht : ∀ f, temperature { g with v := fun i => g.v i + w } (some (u + w)) f = temperature g (some u) f := fun f => by
    unfold temperature; simp only [hs]
  have hr : ∀ T, residual { g with v := fun i => g.v i + w } (some (u + w)) m T = residual g (some u) m T := fun T => by
    funext b
    unfold residual
    rw [ht]
    congr 2
    funext i
    unfold model
    rw [hs]
  unfold Find
  dsimp only
  rw [ht, hr]

/-- C185: without refinement the shape parameter is `n / (m ⟨|v - v̄|^m⟩)` with the mean velocity `v̄`. -/
theorem compute_default (n : ℕ) (v : ℕ → ℝ) (m : ℝ) (f : ℕ → ℝ) (β vbar : ℝ) (hv : vbar = (∑ i ∈ range n, f i * v i) / ∑ i ∈ range n, f i) :
    ComputeBeta n v m f 0 β ↔ β = (∑ i ∈ range n, f i) / (m * ∑ i ∈ range n, f i * |v i - vbar| ^ m) := by
  subst hv
  unfold ComputeBeta
  rw [if_pos rfl]
  rfl

theorem newton_rest (r : ℝ → ℝ) (y : ℝ) (h : r y = 0) (k : ℕ) : (newtonStep r)^[k] y = y := by
  induction k with
  | zero => rfl
  | succ k ih => rw [Function.iterate_succ_apply', ih, newtonStep, h, zero_div, sub_zero]

/-- C185: when the closure already makes the discrete energy flux about the mean velocity vanish, the refinement returns it,
however many steps are taken. -/
theorem compute_rests (n : ℕ) (v : ℕ → ℝ) (m : ℝ) (f : ℕ → ℝ) (β vbar : ℝ) (k : ℕ) (hv : vbar = (∑ i ∈ range n, f i * v i) / ∑ i ∈ range n, f i)
    (h0 : FP.betaResidual n v vbar m f ((∑ i ∈ range n, f i) / (m * ∑ i ∈ range n, f i * |v i - vbar| ^ m)) = 0)
    (h : ComputeBeta n v m f k β) : β = (∑ i ∈ range n, f i) / (m * ∑ i ∈ range n, f i * |v i - vbar| ^ m) := by
  by_cases hk : k = 0
  · subst hk; exact (compute_default n v m f β vbar hv).1 h
  · unfold ComputeBeta at h
    rw [if_neg hk] at h
    obtain ⟨j, _, _, rfl⟩ := h
    subst hv
    exact newton_rest _ _ h0 j

/-- C185: the closure does not depend on the frame. -/
theorem closure_galilean (n : ℕ) (v : ℕ → ℝ) (m w : ℝ) (f : ℕ → ℝ) (hN : ∑ i ∈ range n, f i ≠ 0) :
    closure n (fun i => v i + w) m f = closure n v m f := by
  have hv : FP.vbarOf n (fun i => v i + w) f = FP.vbarOf n v f + w := by
    unfold FP.vbarOf
    have : ∑ i ∈ range n, f i * (v i + w) = ∑ i ∈ range n, f i * v i + w * ∑ i ∈ range n, f i := by
      rw [mul_sum, ← sum_add_distrib]
      exact sum_congr rfl fun i _ => by ring
    rw [this]
    field_simp
  unfold closure psi
  rw [hv]
  simp only [add_sub_add_right_eq_sub]

example (k : ℕ) (β : ℝ) (h : ComputeBeta 2 (fun i => 2 * (i : ℝ) + 2) 3 (fun _ => 1) k β) : β = 1 / 3 := by
  have hv : (3 : ℝ) = (∑ i ∈ range 2, (1 : ℝ) * (2 * (i : ℝ) + 2)) / ∑ i ∈ range 2, (1 : ℝ) := by norm_num [sum_range_succ]
  have e : ((∑ i ∈ range 2, (1 : ℝ)) / (3 * ∑ i ∈ range 2, (1 : ℝ) * |2 * (i : ℝ) + 2 - 3| ^ (3 : ℝ))) = 1 / 3 := by
    simp only [sum_range_succ, sum_range_zero]
    norm_num
  have := compute_rests 2 (fun i => 2 * (i : ℝ) + 2) 3 (fun _ => 1) β 3 k hv (by
    unfold FP.betaResidual
    simp only [sum_range_succ, sum_range_zero]
    norm_num) h
  rw [e] at this
  exact this

example : temperature ⟨2, fun i => 2 * (i : ℝ) + 2, fun _ => 1, false⟩ (some 3) (fun _ => 1) = 1 := by
  rw [temperature_variance 2 _ _ _ 3 (by norm_num) (by norm_num [sum_range_succ])]
  unfold temperature
  norm_num [sum_range_succ, shifted]

end Verif.Beta
