import Verif.Spec.FokkerPlanck
import Mathlib.Tactic.Ring
import Mathlib.Tactic.Linarith
import Mathlib.Tactic.FieldSimp
import Mathlib.Tactic.Positivity
import Mathlib.Tactic.NormNum
import Mathlib.Tactic.IntervalCases
import Mathlib.LinearAlgebra.FiniteDimensional.Basic
import Mathlib.LinearAlgebra.FiniteDimensional.Lemmas
import Mathlib.Algebra.BigOperators.Field

/-! C31-C35: collision operators. -/
namespace Verif.FP
open Finset

/-! ### The tridiagonal systems are closed finite volume steps -/

theorem mv_linear (n : ℕ) (op : Tri) (f d : ℕ → ℝ) (i : ℕ) :
    op.mv n (fun j => f j + d j) i = op.mv n f i + op.mv n d i := by
  unfold Tri.mv; split <;> split <;> ring

theorem mv_congr (n : ℕ) (op : Tri) {f g : ℕ → ℝ} (h : ∀ i < n, f i = g i) (i : ℕ) (hi : i < n) :
    op.mv n f i = op.mv n g i := by
  unfold Tri.mv
  rw [h i hi]
  by_cases h1 : i + 1 < n
  · rw [if_pos h1, if_pos h1, h _ h1]
    by_cases h2 : 0 < i
    · rw [if_pos h2, if_pos h2, h (i - 1) (by omega)]
    · rw [if_neg h2, if_neg h2]
  · rw [if_neg h1, if_neg h1]
    by_cases h2 : 0 < i
    · rw [if_pos h2, if_pos h2, h (i - 1) (by omega)]
    · rw [if_neg h2, if_neg h2]

theorem mv_smul (n : ℕ) (op : Tri) (c : ℝ) (f : ℕ → ℝ) (i : ℕ) :
    op.mv n (fun j => c * f j) i = c * op.mv n f i := by
  unfold Tri.mv; split <;> split <;> ring

/-- Solving for the increment is solving for the new distribution. -/
theorem solve_iff (n : ℕ) (op : Tri) (f f' : ℕ → ℝ) : SolveOneX n op f f' ↔ ∀ i < n, op.mv n f' i = f i := by
  constructor
  · rintro ⟨d, h1, h2⟩ i hi
    rw [mv_congr n op h2 i hi, mv_linear, h1 i hi]; ring
  · intro h
    refine ⟨fun i => f' i - f i, fun i hi => ?_, fun i _ => by ring⟩
    have := mv_linear n op f (fun j => f' j - f j) i
    have e : (fun j => f j + (f' j - f j)) = f' := by funext j; ring
    rw [e] at this
    rw [← h i hi]; linarith

theorem assemble_mv (n : ℕ) (nu : ℕ → ℝ) (dt : ℝ) (p q u l : ℕ → ℝ) (f : ℕ → ℝ) (i : ℕ) :
    (assemble nu dt (addEdges n p q) u l).mv n f i =
      f i - dt * nu i * ((if i + 1 < n then p i * f i + u i * f (i + 1) else 0) +
        (if 0 < i then q (i - 1) * f i + l (i - 1) * f (i - 1) else 0)) := by
  unfold Tri.mv assemble addEdges
  simp only
  by_cases h1 : i + 1 < n <;> by_cases h2 : 0 < i
  · have : i - 1 + 1 = i := by omega
    simp only [h1, h2, if_true, this]; ring
  · simp only [h1, h2, if_true, if_false]; ring
  · have : i - 1 + 1 = i := by omega
    simp only [h1, h2, if_true, if_false, this]; ring
  · simp only [h1, h2, if_false]; ring

/-- C31: the central scheme solves exactly the closed finite volume step with the
edge value in the middle. -/
theorem central_is_finite_volume (n : ℕ) (dv : ℝ) (C D nu : ℕ → ℝ) (dt : ℝ) (f f' : ℕ → ℝ) :
    SolveOneX n (central n dv C D nu dt) f f' ↔ ImplicitStep n nu dt dv (flux C D (fun _ => 1 / 2) dv) f f' := by
  rw [solve_iff]
  refine forall_congr' fun i => forall_congr' fun _ => ?_
  unfold central
  rw [assemble_mv]
  have e : (if i + 1 < n then (C i / 2 - D i / dv) / dv * f' i + (C i / 2 + D i / dv) / dv * f' (i + 1) else 0) +
      (if 0 < i then -(C (i - 1) / 2 + D (i - 1) / dv) / dv * f' i + (-C (i - 1) / 2 + D (i - 1) / dv) / dv * f' (i - 1)
        else 0) = netFlux n (flux C D (fun _ => 1 / 2) dv f') i / dv := by
    unfold netFlux flux
    by_cases h1 : i + 1 < n <;> by_cases h2 : 0 < i
    · have : i - 1 + 1 = i := by omega
      simp only [h1, h2, if_true, this]; ring
    · simp only [h1, h2, if_true, if_false]; ring
    · have : i - 1 + 1 = i := by omega
      simp only [h1, h2, if_true, if_false, this]; ring
    · simp only [h1, h2, if_false]; ring
  rw [e]
  constructor <;> intro h <;> linarith

theorem weighted_is_finite_volume (n : ℕ) (dv : ℝ) (C D nu : ℕ → ℝ) (dt : ℝ) (δ f f' : ℕ → ℝ) :
    SolveOneX n (weighted n dv C D nu dt δ) f f' ↔ ImplicitStep n nu dt dv (flux C (safeD D) δ dv) f f' := by
  rw [solve_iff]
  refine forall_congr' fun i => forall_congr' fun _ => ?_
  unfold weighted
  simp only
  rw [assemble_mv]
  have e : (if i + 1 < n then -(-C i * δ i + safeD D i / dv) / dv * f' i + -(-C i * (1 - δ i) - safeD D i / dv) / dv * f' (i + 1)
        else 0) +
      (if 0 < i then (-C (i - 1) * (1 - δ (i - 1)) - safeD D (i - 1) / dv) / dv * f' i +
        (-C (i - 1) * δ (i - 1) + safeD D (i - 1) / dv) / dv * f' (i - 1) else 0) =
      netFlux n (flux C (safeD D) δ dv f') i / dv := by
    unfold netFlux flux
    by_cases h1 : i + 1 < n <;> by_cases h2 : 0 < i
    · have : i - 1 + 1 = i := by omega
      simp only [h1, h2, if_true, this]; ring
    · simp only [h1, h2, if_true, if_false]; ring
    · have : i - 1 + 1 = i := by omega
      simp only [h1, h2, if_true, if_false, this]; ring
    · simp only [h1, h2, if_false]; ring
  rw [e]
  constructor <;> intro h <;> linarith

/-- C31: the Chang-Cooper scheme, edge value weighted by the cell Peclet number. -/
theorem chang_cooper_is_finite_volume (n : ℕ) (dv : ℝ) (C D nu : ℕ → ℝ) (dt : ℝ) (f f' : ℕ → ℝ) :
    SolveOneX n (changCooper n dv C D nu dt) f f' ↔
      ImplicitStep n nu dt dv (flux C (safeD D) (fun e => ccDelta (C e * dv / safeD D e)) dv) f f' :=
  weighted_is_finite_volume ..

/-! ### Conservation -/

theorem sum_netFlux (n : ℕ) (F : ℕ → ℝ) : ∑ i ∈ range n, netFlux n F i = 0 := by
  cases n with
  | zero => simp
  | succ m =>
    unfold netFlux
    rw [sum_sub_distrib, sum_range_succ, sum_range_succ']
    simp only [lt_self_iff_false, if_false, add_zero, Nat.add_sub_cancel, Nat.succ_pos, if_true]
    rw [sub_eq_zero]
    refine sum_congr rfl fun i hi => ?_
    rw [if_pos (by rw [mem_range] at hi; omega)]

/-- C31: every closed finite volume step conserves density; with a velocity dependent
rate it conserves the density weighted by its inverse. -/
theorem step_conserves {n : ℕ} {nu : ℕ → ℝ} {dt dv : ℝ} {F : (ℕ → ℝ) → ℕ → ℝ} {f f' : ℕ → ℝ}
    (h : ImplicitStep n nu dt dv F f f') :
    (∀ ν, (∀ i < n, nu i = ν) → ∑ i ∈ range n, f' i = ∑ i ∈ range n, f i) ∧
    ((∀ i < n, nu i ≠ 0) → ∑ i ∈ range n, f' i / nu i = ∑ i ∈ range n, f i / nu i) := by
  have hs := sum_netFlux n (F f')
  constructor
  · intro ν hν
    have e : ∑ i ∈ range n, f' i = ∑ i ∈ range n, (f i + dt * ν / dv * netFlux n (F f') i) := by
      refine sum_congr rfl fun i hi => ?_
      rw [h i (mem_range.1 hi), hν i (mem_range.1 hi)]; ring
    rw [e, sum_add_distrib, ← mul_sum, hs]; ring
  · intro hν
    have e : ∑ i ∈ range n, f' i / nu i = ∑ i ∈ range n, (f i / nu i + dt / dv * netFlux n (F f') i) := by
      refine sum_congr rfl fun i hi => ?_
      have := hν i (mem_range.1 hi)
      rw [h i (mem_range.1 hi)]; field_simp
    rw [e, sum_add_distrib, ← mul_sum, hs]; ring

/-- C31 for the three schemes. -/
theorem collisions_conserve_density (n : ℕ) (dv : ℝ) (C D : ℕ → ℝ) (ν dt : ℝ) (g f f' : ℕ → ℝ)
    (h : SolveOneX n (central n dv C D (fun _ => ν) dt) f f' ∨ SolveOneX n (changCooper n dv C D (fun _ => ν) dt) f f' ∨
      SolveOneX n (logMean n dv C D (fun _ => ν) dt g) f f') :
    ∑ i ∈ range n, f' i = ∑ i ∈ range n, f i := by
  rcases h with h | h | h
  · exact (step_conserves ((central_is_finite_volume ..).1 h)).1 ν fun _ _ => rfl
  · exact (step_conserves ((chang_cooper_is_finite_volume ..).1 h)).1 ν fun _ _ => rfl
  · exact (step_conserves ((weighted_is_finite_volume ..).1 h)).1 ν fun _ _ => rfl

/-- C31 with a rate per velocity cell. -/
theorem collisions_conserve_weighted (n : ℕ) (dv : ℝ) (C D nu : ℕ → ℝ) (dt : ℝ) (g f f' : ℕ → ℝ) (hν : ∀ i < n, nu i ≠ 0)
    (h : SolveOneX n (central n dv C D nu dt) f f' ∨ SolveOneX n (changCooper n dv C D nu dt) f f' ∨
      SolveOneX n (logMean n dv C D nu dt g) f f') :
    ∑ i ∈ range n, f' i / nu i = ∑ i ∈ range n, f i / nu i := by
  rcases h with h | h | h
  · exact (step_conserves ((central_is_finite_volume ..).1 h)).2 hν
  · exact (step_conserves ((chang_cooper_is_finite_volume ..).1 h)).2 hν
  · exact (step_conserves ((weighted_is_finite_volume ..).1 h)).2 hν

/-! ### Positivity -/

theorem sum_netFlux_mul (n : ℕ) (F χ : ℕ → ℝ) :
    ∑ i ∈ range n, χ i * netFlux n F i = ∑ e ∈ range (n - 1), F e * (χ e - χ (e + 1)) := by
  cases n with
  | zero => simp
  | succ m =>
    unfold netFlux
    simp only [mul_sub, sum_sub_distrib, Nat.add_sub_cancel]
    congr 1
    · rw [sum_range_succ]
      simp only [lt_self_iff_false, if_false, mul_zero, add_zero]
      refine sum_congr rfl fun i hi => ?_
      rw [if_pos (by rw [mem_range] at hi; omega)]; ring
    · rw [sum_range_succ']
      simp only [lt_self_iff_false, if_false, mul_zero, add_zero, Nat.add_sub_cancel, Nat.succ_pos, if_true]
      refine sum_congr rfl fun i _ => by ring

/-- A step whose flux is `γ f_{e+1} - α f_e` with non-negative `α`, `γ` keeps a
non-negative distribution non-negative, for every step size. -/
theorem positive_step {n : ℕ} {nu : ℕ → ℝ} {dt dv : ℝ} {F : (ℕ → ℝ) → ℕ → ℝ} {f f' : ℕ → ℝ} (α γ : ℕ → ℝ)
    (h : ImplicitStep n nu dt dv F f f') (hdt : 0 ≤ dt) (hdv : 0 < dv) (hnu : ∀ i < n, 0 ≤ nu i)
    (hα : ∀ e, e + 1 < n → 0 ≤ α e) (hγ : ∀ e, e + 1 < n → 0 ≤ γ e)
    (hF : ∀ e, e + 1 < n → F f' e = γ e * f' (e + 1) - α e * f' e) (hf : ∀ i < n, 0 ≤ f i) : ∀ i < n, 0 ≤ f' i := by
  classical
  by_contra hcon
  push Not at hcon
  obtain ⟨k, hk, hneg⟩ := hcon
  let χ : ℕ → ℝ := fun i => if f' i < 0 then 1 else 0
  have hnuχ : ∀ i < n, f' i < 0 → 0 < nu i := by
    intro i hi hl
    rcases (hnu i hi).lt_or_eq with h1 | h1
    · exact h1
    · have := h i hi
      rw [← h1] at this
      have := hf i hi
      linarith
  have e1 : 0 ≤ ∑ i ∈ range n, χ i * netFlux n (F f') i := by
    rw [sum_netFlux_mul]
    refine sum_nonneg fun e he => ?_
    have hen : e + 1 < n := by rw [mem_range] at he; omega
    rw [hF e hen]
    have ha := hα e hen
    have hg := hγ e hen
    simp only [χ]
    by_cases h1 : f' e < 0 <;> by_cases h2 : f' (e + 1) < 0
    · simp [h1, h2]
    · simp only [h1, h2, if_true, if_false, sub_zero, mul_one]
      have := mul_nonneg hg (not_lt.1 h2)
      have := mul_nonneg ha (neg_nonneg.2 h1.le)
      linarith
    · simp only [h1, h2, if_true, if_false, zero_sub, mul_neg, mul_one]
      have := mul_nonneg ha (not_lt.1 h1)
      have := mul_nonneg hg (neg_nonneg.2 h2.le)
      linarith
    · simp [h1, h2]
  have e2 : dt / dv * ∑ i ∈ range n, χ i * netFlux n (F f') i = ∑ i ∈ range n, χ i * ((f' i - f i) / nu i) := by
    rw [mul_sum]
    refine sum_congr rfl fun i hi => ?_
    simp only [χ]
    split
    · rename_i hl
      have h0 := hnuχ i (mem_range.1 hi) hl
      have h1 := h i (mem_range.1 hi)
      have h2 : f' i - f i = dt * nu i * (netFlux n (F f') i / dv) := by linarith
      rw [h2]
      field_simp
    · ring
  have e3 : ∑ i ∈ range n, χ i * ((f' i - f i) / nu i) < 0 := by
    refine sum_neg' (fun i hi => ?_) ⟨k, mem_range.2 hk, ?_⟩
    · simp only [χ]
      split
      · rename_i hl
        have h0 := hnuχ i (mem_range.1 hi) hl
        have := hf i (mem_range.1 hi)
        rw [one_mul]
        exact div_nonpos_of_nonpos_of_nonneg (by linarith) h0.le
      · simp
    · simp only [χ, if_pos hneg, one_mul]
      have := hf k hk
      exact div_neg_of_neg_of_pos (by linarith) (hnuχ k hk hneg)
  have e4 : 0 ≤ dt / dv * ∑ i ∈ range n, χ i * netFlux n (F f') i := mul_nonneg (div_nonneg hdt hdv.le) e1
  linarith

/-- The Chang-Cooper weights away from the series. -/
theorem delta_full {w : ℝ} (hw : w ≠ 0) :
    1 - w * (1 / w - 1 / (Real.exp w - 1)) = w / (Real.exp w - 1) ∧
    1 + w * (1 - (1 / w - 1 / (Real.exp w - 1))) = w / (Real.exp w - 1) * Real.exp w := by
  have h : Real.exp w - 1 ≠ 0 := by
    intro h0
    have : Real.exp w = 1 := by linarith
    exact hw (Real.exp_eq_one_iff w |>.1 this)
  constructor <;> (field_simp; ring)

theorem exp_quot_pos {w : ℝ} (hw : w ≠ 0) : 0 < w / (Real.exp w - 1) := by
  rcases lt_or_gt_of_ne hw with h | h
  · have : Real.exp w < 1 := Real.exp_lt_one_iff.2 h
    exact div_pos_of_neg_of_neg h (by linarith)
  · have : 1 < Real.exp w := Real.one_lt_exp_iff.2 h
    exact div_pos h (by linarith)

theorem small_delta {w : ℝ} (h : |w| < 1 / 10 ^ 8) : |1 / 2 - w / 12 + w ^ 3 / 720| < 1 := by
  rw [abs_lt] at h ⊢
  have h2 : w ^ 2 ≤ 1 := by nlinarith
  have h3 : |w ^ 3| ≤ 1 := by
    have : |w| ≤ 1 := by rw [abs_le]; constructor <;> linarith
    rw [abs_pow]; exact pow_le_one₀ (abs_nonneg _) this
  rw [abs_le] at h3
  constructor <;> linarith

/-- Both coefficients of the Chang-Cooper flux have a sign: `1 - w δ > 0` and
`1 + w (1 - δ) > 0`, for every Peclet number. -/
theorem delta_sign (w : ℝ) : 0 < 1 - w * ccDelta w ∧ 0 < 1 + w * (1 - ccDelta w) := by
  unfold ccDelta
  split
  · rename_i h
    have h1 := small_delta h
    set δ := 1 / 2 - w / 12 + w ^ 3 / 720
    have hw : |w| < 1 / 4 := h.trans (by norm_num)
    have h2 : |w * δ| < 1 / 4 := by
      rw [abs_mul]
      calc |w| * |δ| ≤ |w| * 1 := by gcongr
        _ < 1 / 4 := by linarith
    rw [abs_lt] at h2 hw
    constructor
    · linarith
    · have : w * (1 - δ) = w - w * δ := by ring
      rw [this]; linarith
  · rename_i h
    have hw : w ≠ 0 := by
      rintro rfl; norm_num at h
    rw [(delta_full hw).1, (delta_full hw).2]
    exact ⟨exp_quot_pos hw, mul_pos (exp_quot_pos hw) (Real.exp_pos w)⟩

/-- The edge value of the Chang-Cooper scheme is a genuine average of its neighbours. -/
theorem chang_cooper_average (w : ℝ) : 0 < ccDelta w ∧ ccDelta w < 1 := by
  unfold ccDelta
  split
  · rename_i h
    have h3 : |w ^ 3| ≤ 1 := by
      have : |w| ≤ 1 := h.le.trans (by norm_num)
      rw [abs_pow]; exact pow_le_one₀ (abs_nonneg _) this
    rw [abs_lt] at h
    rw [abs_le] at h3
    constructor <;> linarith
  · rename_i h
    have hw : w ≠ 0 := by
      rintro rfl; norm_num at h
    have pos : ∀ x : ℝ, 0 < x → 0 < 1 / x - 1 / (Real.exp x - 1) ∧ 1 / x - 1 / (Real.exp x - 1) < 1 := by
      intro x hx
      have h1 : x + 1 < Real.exp x := Real.add_one_lt_exp hx.ne'
      have h2 : -x + 1 < Real.exp (-x) := Real.add_one_lt_exp (neg_ne_zero.2 hx.ne')
      rw [Real.exp_neg] at h2
      have he : 0 < Real.exp x - 1 := by linarith
      constructor
      · rw [sub_pos]; exact one_div_lt_one_div_of_lt hx (by linarith)
      · have h3 : (1 - x) * Real.exp x < 1 := by
          have := mul_lt_mul_of_pos_right h2 (Real.exp_pos x)
          rw [inv_mul_cancel₀ (Real.exp_pos x).ne'] at this
          linarith
        have h4 : 1 / x - 1 / (Real.exp x - 1) = (Real.exp x - 1 - x) / (x * (Real.exp x - 1)) := by
          field_simp
        rw [h4, div_lt_one (by positivity)]
        nlinarith
    rcases lt_or_gt_of_ne hw with h1 | h1
    · obtain ⟨p, q⟩ := pos (-w) (by linarith)
      have he : Real.exp w - 1 ≠ 0 := by
        have := Real.exp_lt_one_iff.2 h1; intro h0; linarith
      have e : 1 / (-w) - 1 / (Real.exp (-w) - 1) = 1 - (1 / w - 1 / (Real.exp w - 1)) := by
        rw [Real.exp_neg]
        have hx := (Real.exp_pos w).ne'
        have h5 : (Real.exp w)⁻¹ - 1 = -(Real.exp w - 1) / Real.exp w := by field_simp; ring
        rw [h5]
        field_simp
        ring
      rw [e] at p q
      constructor <;> linarith
    · exact pos w h1

theorem safeD_pos (D : ℕ → ℝ) (e : ℕ) : 0 < safeD D e := lt_max_of_lt_right (by norm_num)

/-- The Chang-Cooper flux in terms of its two (positive) coefficients. -/
theorem cc_flux (dv : ℝ) (hdv : 0 < dv) (C D : ℕ → ℝ) (f : ℕ → ℝ) (e : ℕ) :
    flux C (safeD D) (fun e => ccDelta (C e * dv / safeD D e)) dv f e =
      safeD D e / dv * (1 + C e * dv / safeD D e * (1 - ccDelta (C e * dv / safeD D e))) * f (e + 1) -
      safeD D e / dv * (1 - C e * dv / safeD D e * ccDelta (C e * dv / safeD D e)) * f e := by
  have := (safeD_pos D e).ne'
  unfold flux
  field_simp
  ring

/-- C32: the Chang-Cooper step keeps `f ≥ 0`, for every drift, diffusion (also
negative or zero: it is floored), rate and step size. -/
theorem chang_cooper_positive (n : ℕ) (dv : ℝ) (C D nu : ℕ → ℝ) (dt : ℝ) (f f' : ℕ → ℝ) (hdv : 0 < dv) (hdt : 0 ≤ dt)
    (hnu : ∀ i < n, 0 ≤ nu i) (hf : ∀ i < n, 0 ≤ f i) (h : SolveOneX n (changCooper n dv C D nu dt) f f') :
    ∀ i < n, 0 ≤ f' i := by
  refine positive_step _ _ ((chang_cooper_is_finite_volume ..).1 h) hdt hdv hnu ?_ ?_ (fun e _ => cc_flux dv hdv C D f' e) hf
  · intro e _
    exact mul_nonneg (div_nonneg (safeD_pos D e).le hdv.le) (delta_sign _).1.le
  · intro e _
    exact mul_nonneg (div_nonneg (safeD_pos D e).le hdv.le) (delta_sign _).2.le

/-- The central scheme does so when the cell Peclet number is at most 2. -/
theorem central_positive_partial (n : ℕ) (dv : ℝ) (C D nu : ℕ → ℝ) (dt : ℝ) (f f' : ℕ → ℝ) (hdv : 0 < dv) (hdt : 0 ≤ dt)
    (hnu : ∀ i < n, 0 ≤ nu i) (hf : ∀ i < n, 0 ≤ f i) (hpe : ∀ e, e + 1 < n → |C e| * dv ≤ 2 * D e)
    (h : SolveOneX n (central n dv C D nu dt) f f') : ∀ i < n, 0 ≤ f' i := by
  have hab : ∀ e, e + 1 < n → 0 ≤ D e / dv - C e / 2 ∧ 0 ≤ D e / dv + C e / 2 := by
    intro e he
    have h1 := hpe e he
    have h2 : |C e| ≤ 2 * (D e / dv) := by rw [← mul_div_assoc, le_div_iff₀ hdv]; exact h1
    rw [abs_le] at h2
    constructor <;> linarith
  refine positive_step (fun e => D e / dv - C e / 2) (fun e => D e / dv + C e / 2) ((central_is_finite_volume ..).1 h) hdt hdv
    hnu (fun e he => (hab e he).1) (fun e he => (hab e he).2) (fun e _ => ?_) hf
  unfold flux; ring

/-! ### Existence and uniqueness -/

/-- The operator on vectors. -/
noncomputable def onFin (n : ℕ) (op : Tri) : (Fin n → ℝ) →ₗ[ℝ] (Fin n → ℝ) where
  toFun x i := op.mv n (fun j => if h : j < n then x ⟨j, h⟩ else 0) i
  map_add' x y := by
    funext i
    simp only [Pi.add_apply]
    rw [← mv_linear]
    congr 1
    funext j; split <;> simp
  map_smul' c x := by
    funext i
    simp only [Pi.smul_apply, smul_eq_mul, RingHom.id_apply]
    rw [← mv_smul]
    congr 1
    funext j; split <;> simp

/-- A tridiagonal system with trivial kernel has exactly one solution. -/
theorem unique_of_kernel (n : ℕ) (op : Tri) (hker : ∀ x : ℕ → ℝ, (∀ i < n, op.mv n x i = 0) → ∀ i < n, x i = 0) (f : ℕ → ℝ) :
    (∃ f', SolveOneX n op f f') ∧ ∀ f' f'', SolveOneX n op f f' → SolveOneX n op f f'' → ∀ i < n, f' i = f'' i := by
  have hinj : Function.Injective (onFin n op) := by
    rw [← LinearMap.ker_eq_bot, LinearMap.ker_eq_bot']
    intro x hx
    funext ⟨i, hi⟩
    have := hker (fun j => if h : j < n then x ⟨j, h⟩ else 0) (fun j hj => congrFun hx ⟨j, hj⟩) i hi
    simpa [hi] using this
  have hsurj := LinearMap.injective_iff_surjective.1 hinj
  constructor
  · obtain ⟨x, hx⟩ := hsurj (fun i => f i)
    refine ⟨fun j => if h : j < n then x ⟨j, h⟩ else 0, (solve_iff ..).2 fun i hi => ?_⟩
    exact congrFun hx ⟨i, hi⟩
  · intro f' f'' h1 h2 i hi
    rw [solve_iff] at h1 h2
    have := hker (fun j => f' j + (-1) * f'' j) (fun j hj => by
      rw [mv_linear, h1 j hj]
      have : op.mv n (fun j => (-1) * f'' j) j = -(op.mv n f'' j) := by
        unfold Tri.mv; split <;> split <;> ring
      rw [this, h2 j hj]; ring) i hi
    linarith

/-- C32: the Chang-Cooper step has exactly one result. -/
theorem chang_cooper_unique (n : ℕ) (dv : ℝ) (C D nu : ℕ → ℝ) (dt : ℝ) (hdv : 0 < dv) (hdt : 0 ≤ dt)
    (hnu : ∀ i < n, 0 ≤ nu i) (f : ℕ → ℝ) :
    (∃ f', SolveOneX n (changCooper n dv C D nu dt) f f') ∧
    ∀ f' f'', SolveOneX n (changCooper n dv C D nu dt) f f' → SolveOneX n (changCooper n dv C D nu dt) f f'' →
      ∀ i < n, f' i = f'' i := by
  refine unique_of_kernel n _ (fun x hx i hi => le_antisymm ?_ ?_) f
  · have := chang_cooper_positive n dv C D nu dt (fun _ => 0) (fun j => -x j) hdv hdt hnu (fun _ _ => le_refl _)
      ((solve_iff ..).2 fun i hi => by
        have : ∀ op : Tri, op.mv n (fun j => -x j) i = -(op.mv n x i) := by
          intro op; unfold Tri.mv; split <;> split <;> ring
        rw [this, hx i hi, neg_zero]) i hi
    linarith
  · exact chang_cooper_positive n dv C D nu dt (fun _ => 0) x hdv hdt hnu (fun _ _ => le_refl _)
      ((solve_iff ..).2 hx) i hi

/-- The premises of the Chang-Cooper theorems hold for a strong drift (Peclet number 40)
and a zero diffusion alike: a non-negative step result exists. -/
example : ∃ f', SolveOneX 3 (changCooper 3 1 (fun _ => 40) (fun _ => 1) (fun i => 1 + i) 5) (fun i => i) f' ∧
    ∀ i < 3, 0 ≤ f' i := by
  obtain ⟨f', h⟩ := (chang_cooper_unique 3 1 (fun _ => 40) (fun _ => 1) (fun i => 1 + i) 5 one_pos (by norm_num)
    (fun i _ => by positivity) (fun i => i)).1
  exact ⟨f', h, chang_cooper_positive _ _ _ _ _ _ _ _ one_pos (by norm_num) (fun i _ => by positivity)
    (fun i _ => by positivity) h⟩

example : ∃ f', SolveOneX 3 (changCooper 3 1 (fun _ => -7) (fun _ => 0) (fun _ => 1) 5) (fun i => i) f' :=
  (chang_cooper_unique 3 1 (fun _ => -7) (fun _ => 0) (fun _ => 1) 5 one_pos (by norm_num) (fun _ _ => by norm_num) _).1

/-- The central step has exactly one result when the cell Peclet number is at most 2. -/
theorem central_unique_partial (n : ℕ) (dv : ℝ) (C D nu : ℕ → ℝ) (dt : ℝ) (hdv : 0 < dv) (hdt : 0 ≤ dt)
    (hnu : ∀ i < n, 0 ≤ nu i) (hpe : ∀ e, e + 1 < n → |C e| * dv ≤ 2 * D e) (f : ℕ → ℝ) :
    (∃ f', SolveOneX n (central n dv C D nu dt) f f') ∧
    ∀ f' f'', SolveOneX n (central n dv C D nu dt) f f' → SolveOneX n (central n dv C D nu dt) f f'' →
      ∀ i < n, f' i = f'' i := by
  refine unique_of_kernel n _ (fun x hx i hi => le_antisymm ?_ ?_) f
  · have := central_positive_partial n dv C D nu dt (fun _ => 0) (fun j => (-1) * x j) hdv hdt hnu (fun _ _ => le_refl _) hpe
      ((solve_iff ..).2 fun i hi => by rw [mv_smul, hx i hi, mul_zero]) i hi
    linarith
  · exact central_positive_partial n dv C D nu dt (fun _ => 0) x hdv hdt hnu (fun _ _ => le_refl _) hpe
      ((solve_iff ..).2 hx) i hi

/-- Above that number the central scheme does produce negative values: two cells, drift -4,
diffusion 1, one step of length 1 from `(0, 1)`. -/
theorem central_negative : ∃ f' : ℕ → ℝ,
    SolveOneX 2 (central 2 1 (fun _ => -4) (fun _ => 1) (fun _ => 1) 1) (fun i => if i = 0 then 0 else 1) f' ∧ f' 0 < 0 := by
  refine ⟨fun i => if i = 0 then -1 / 3 else 4 / 3, (solve_iff ..).2 ?_, by norm_num⟩
  intro i hi
  interval_cases i <;> simp [Tri.mv, central, assemble, addEdges] <;> norm_num

/-- C32: larger distributions stay larger. -/
theorem chang_cooper_monotone (n : ℕ) (dv : ℝ) (C D nu : ℕ → ℝ) (dt : ℝ) (hdv : 0 < dv) (hdt : 0 ≤ dt)
    (hnu : ∀ i < n, 0 ≤ nu i) (f g f' g' : ℕ → ℝ) (hfg : ∀ i < n, f i ≤ g i)
    (hf : SolveOneX n (changCooper n dv C D nu dt) f f') (hg : SolveOneX n (changCooper n dv C D nu dt) g g') :
    ∀ i < n, f' i ≤ g' i := by
  intro i hi
  rw [solve_iff] at hf hg
  have := chang_cooper_positive n dv C D nu dt (fun j => g j - f j) (fun j => g' j + (-1) * f' j) hdv hdt hnu
    (fun j hj => sub_nonneg.2 (hfg j hj)) ((solve_iff ..).2 fun j hj => by
      rw [mv_linear, hg j hj]
      have : ∀ op : Tri, op.mv n (fun j => (-1) * f' j) j = -(op.mv n f' j) := by
        intro op; unfold Tri.mv; split <;> split <;> ring
      rw [this, hf j hj]; ring) i hi
  linarith

end Verif.FP
