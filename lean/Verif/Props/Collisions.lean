import Verif.Props.FokkerPlanck
import Mathlib.Tactic.IntervalCases

/-! C33-C35, C56: equilibria of the collision operators, budgets, Krook, species. -/
namespace Verif.FP
open Finset

/-! ### Stationary states of the Chang-Cooper scheme (C33) -/

/-- The weight is exact (not the truncated series) at `w`. -/
def ExactAt (w : ℝ) : Prop := w = 0 ∨ 1 / 10 ^ 8 ≤ |w|

theorem cc_flux_exact {w : ℝ} (h : ExactAt w) :
    ∃ K, 0 < K ∧ ∀ a b : ℝ, (1 + w * (1 - ccDelta w)) * b - (1 - w * ccDelta w) * a = K * (Real.exp w * b - a) := by
  rcases h with rfl | h
  · exact ⟨1, one_pos, fun a b => by simp⟩
  · have hw : w ≠ 0 := by rintro rfl; norm_num at h
    refine ⟨w / (Real.exp w - 1), exp_quot_pos hw, fun a b => ?_⟩
    unfold ccDelta
    rw [if_neg (not_lt.2 h), (delta_full hw).1, (delta_full hw).2]; ring

/-- A state is stationary exactly when no interior flux is left. -/
theorem stationary_iff_no_flux {n : ℕ} {nu : ℕ → ℝ} {dt dv : ℝ} {F : (ℕ → ℝ) → ℕ → ℝ} {f : ℕ → ℝ} (hdt : 0 < dt)
    (hdv : 0 < dv) (hnu : ∀ i < n, 0 < nu i) : ImplicitStep n nu dt dv F f f ↔ ∀ e, e + 1 < n → F f e = 0 := by
  constructor
  · intro h e
    induction e with
    | zero =>
      intro h0
      have := h 0 (by omega)
      have hn := hnu 0 (by omega)
      have h1 : netFlux n (F f) 0 = 0 := by
        have h2 : dt * nu 0 * (netFlux n (F f) 0 / dv) = 0 := by linarith
        have h3 : netFlux n (F f) 0 / dv = 0 := by
          rcases mul_eq_zero.1 h2 with h4 | h4
          · exact absurd h4 (mul_pos hdt hn).ne'
          · exact h4
        exact (div_eq_zero_iff.1 h3).resolve_right hdv.ne'
      unfold netFlux at h1
      rw [if_pos h0, if_neg (lt_irrefl 0), sub_zero] at h1
      exact h1
    | succ e ih =>
      intro h0
      have ihe := ih (by omega)
      have := h (e + 1) (by omega)
      have hn := hnu (e + 1) (by omega)
      have h1 : netFlux n (F f) (e + 1) = 0 := by
        have h2 : dt * nu (e + 1) * (netFlux n (F f) (e + 1) / dv) = 0 := by linarith
        have h3 : netFlux n (F f) (e + 1) / dv = 0 := by
          rcases mul_eq_zero.1 h2 with h4 | h4
          · exact absurd h4 (mul_pos hdt hn).ne'
          · exact h4
        exact (div_eq_zero_iff.1 h3).resolve_right hdv.ne'
      unfold netFlux at h1
      rw [if_pos h0, if_pos (Nat.succ_pos e), Nat.add_sub_cancel, ihe, sub_zero] at h1
      exact h1
  · intro h i hi
    have h1 : netFlux n (F f) i = 0 := by
      unfold netFlux
      by_cases h1 : i + 1 < n
      · rw [if_pos h1, h i h1]
        by_cases h2 : 0 < i
        · rw [if_pos h2, h (i - 1) (by omega), sub_zero]
        · rw [if_neg h2, sub_zero]
      · rw [if_neg h1]
        by_cases h2 : 0 < i
        · rw [if_pos h2, h (i - 1) (by omega), sub_zero]
        · rw [if_neg h2, sub_zero]
    rw [h1]; ring

/-- C33: when the drift is `D ∂φ/∂v` across every edge, the states unchanged by a
Chang-Cooper step are exactly the multiples of `exp (-φ)`, for every step size and rate.
Partial: cell Peclet numbers with `0 < |w| < 1e-8`, where the code evaluates a truncated
series, are excluded here; `chang_cooper_almost_fixed` covers them. -/
theorem chang_cooper_fixed_partial (n : ℕ) (dv : ℝ) (C D nu φ : ℕ → ℝ) (dt : ℝ) (hn : 0 < n) (hdv : 0 < dv) (hdt : 0 < dt)
    (hnu : ∀ i < n, 0 < nu i) (hD : ∀ e, e + 1 < n → 1 / 10 ^ 30 ≤ D e)
    (hφ : ∀ e, e + 1 < n → C e = D e * (φ (e + 1) - φ e) / dv)
    (hex : ∀ e, e + 1 < n → ExactAt (φ (e + 1) - φ e)) (f : ℕ → ℝ) :
    SolveOneX n (changCooper n dv C D nu dt) f f ↔ ∃ c, ∀ i < n, f i = c * Real.exp (-φ i) := by
  rw [chang_cooper_is_finite_volume, stationary_iff_no_flux hdt hdv hnu]
  have key : ∀ e, e + 1 < n →
      (flux C (safeD D) (fun e => ccDelta (C e * dv / safeD D e)) dv f e = 0 ↔
        f (e + 1) = Real.exp (-(φ (e + 1) - φ e)) * f e) := by
    intro e he
    rw [cc_flux dv hdv]
    have hs : safeD D e = D e := max_eq_left (hD e he)
    have hDp : 0 < D e := lt_of_lt_of_le (by norm_num) (hD e he)
    have hw : C e * dv / safeD D e = φ (e + 1) - φ e := by
      rw [hs, hφ e he]; field_simp
    rw [hw, hs]
    obtain ⟨K, hK, hab⟩ := cc_flux_exact (hex e he)
    have e1 := hab (f e) (f (e + 1))
    have e2 : D e / dv * (1 + (φ (e + 1) - φ e) * (1 - ccDelta (φ (e + 1) - φ e))) * f (e + 1) -
        D e / dv * (1 - (φ (e + 1) - φ e) * ccDelta (φ (e + 1) - φ e)) * f e =
        D e / dv * K * (Real.exp (φ (e + 1) - φ e) * f (e + 1) - f e) := by
      rw [mul_assoc, mul_assoc, ← mul_sub, e1]; ring
    rw [e2]
    have hne : D e / dv * K ≠ 0 := (mul_pos (div_pos hDp hdv) hK).ne'
    rw [mul_eq_zero, or_iff_right hne, sub_eq_zero, Real.exp_neg]
    have hx := (Real.exp_pos (φ (e + 1) - φ e)).ne'
    constructor
    · intro h; rw [← h]; field_simp
    · intro h; rw [h]; field_simp
  constructor
  · intro h
    refine ⟨f 0 * Real.exp (φ 0), fun i => ?_⟩
    induction i with
    | zero => intro _; rw [mul_assoc, ← Real.exp_add]; simp
    | succ i ih =>
      intro hi
      rw [(key i hi).1 (h i hi), ih (by omega)]
      rw [mul_left_comm, ← Real.exp_add]
      congr 2; ring
  · rintro ⟨c, hc⟩ e he
    rw [key e he, hc _ he, hc e (by omega), mul_left_comm, ← Real.exp_add]
    congr 2; ring

/-- A uniform grid. -/
def Uniform (n : ℕ) (dv : ℝ) (v : ℕ → ℝ) : Prop := ∀ e, e + 1 < n → v (e + 1) = v e + dv

/-- C33 for the Lenard-Bernstein and Dougherty models on a uniform grid: exactly the
Maxwellians of inverse temperature `β` and mean `vbar` are stationary. -/
theorem maxwellian_fixed_partial (n : ℕ) (v : ℕ → ℝ) (dv vbar β : ℝ) (nu : ℕ → ℝ) (dt : ℝ) (hn : 0 < n) (hdv : 0 < dv)
    (hdt : 0 < dt) (hnu : ∀ i < n, 0 < nu i) (hβ : 0 < β) (hT : β ≤ 10 ^ 30 / 2) (hv : Uniform n dv v)
    (hex : ∀ e, e + 1 < n → ExactAt (β * (v (e + 1) - vbar) ^ 2 - β * (v e - vbar) ^ 2)) (f : ℕ → ℝ) :
    SolveOneX n (changCooper n dv (betaModel v vbar β).1 (fun _ => (betaModel v vbar β).2) nu dt) f f ↔
      ∃ c, ∀ i < n, f i = c * Real.exp (-(β * (v i - vbar) ^ 2)) := by
  refine chang_cooper_fixed_partial n dv _ _ nu (fun i => β * (v i - vbar) ^ 2) dt hn hdv hdt hnu ?_ ?_ hex f
  · intro e _
    simp only [betaModel]
    rw [div_le_div_iff₀ (by norm_num) (by linarith)]
    linarith
  · intro e he
    simp only [betaModel]
    rw [hv e he]
    field_simp
    ring

/-- C33 for the super-Gaussian model, on any grid. -/
theorem super_gaussian_fixed_partial (n : ℕ) (v : ℕ → ℝ) (dv vbar β m D : ℝ) (nu : ℕ → ℝ) (dt : ℝ) (hn : 0 < n)
    (hdv : 0 < dv) (hdt : 0 < dt) (hnu : ∀ i < n, 0 < nu i) (hD : 1 / 10 ^ 30 ≤ D)
    (hex : ∀ e, e + 1 < n → ExactAt (β * |v (e + 1) - vbar| ^ m - β * |v e - vbar| ^ m)) (f : ℕ → ℝ) :
    SolveOneX n (changCooper n dv (superGaussianModel v dv vbar β m D) (fun _ => D) nu dt) f f ↔
      ∃ c, ∀ i < n, f i = c * Real.exp (-(β * |v i - vbar| ^ m)) :=
  chang_cooper_fixed_partial n dv _ _ nu (fun i => β * |v i - vbar| ^ m) dt hn hdv hdt hnu (fun _ _ => hD)
    (fun _ _ => rfl) hex f

/-- Non-vacuous: five cells, unit spacing, `β = 1`, `vbar = 0`. -/
example : ∀ e, e + 1 < 5 → ExactAt (1 * (((e + 1 : ℕ) : ℝ) - 2 - 0) ^ 2 - 1 * ((e : ℝ) - 2 - 0) ^ 2) := by
  intro e he
  right
  have : e < 4 := by omega
  interval_cases e <;> norm_num

example : Uniform 5 1 fun i => (i : ℝ) - 2 := fun e _ => by push_cast; ring

/-- The flux left over at an edge with a tiny Peclet number. -/
theorem cc_flux_small {w a : ℝ} (h : |w| ≤ 1 / 10 ^ 8) (ha : 0 ≤ a) :
    |(1 + w * (1 - ccDelta w)) * (Real.exp (-w) * a) - (1 - w * ccDelta w) * a| ≤ 3 / 10 ^ 16 * a := by
  have h1 : |w| ≤ 1 := h.trans (by norm_num)
  have hd := chang_cooper_average w
  have hx : |Real.exp (-w) - 1| ≤ 2 * |w| := by
    have := Real.abs_exp_sub_one_le (x := -w) (by rwa [abs_neg])
    rwa [abs_neg] at this
  have hb : |Real.exp (-w) - 1 + w| ≤ |w| * |w| := by
    have := Real.abs_exp_sub_one_sub_id_le (x := -w) (by rwa [abs_neg])
    rw [sub_neg_eq_add] at this
    rwa [abs_mul_abs_self, ← sq, ← neg_sq]
  have key : (1 + w * (1 - ccDelta w)) * (Real.exp (-w) * a) - (1 - w * ccDelta w) * a =
      ((Real.exp (-w) - 1 + w) + w * (1 - ccDelta w) * (Real.exp (-w) - 1)) * a := by ring
  rw [key, abs_mul, abs_of_nonneg ha]
  refine mul_le_mul_of_nonneg_right ?_ ha
  have h2 : |w * (1 - ccDelta w) * (Real.exp (-w) - 1)| ≤ |w| * (2 * |w|) := by
    rw [abs_mul, abs_mul]
    have : |1 - ccDelta w| ≤ 1 := by rw [abs_le]; constructor <;> linarith
    have h3 : |w| * |1 - ccDelta w| ≤ |w| * 1 := mul_le_mul_of_nonneg_left this (abs_nonneg w)
    calc |w| * |1 - ccDelta w| * |Real.exp (-w) - 1| ≤ |w| * |Real.exp (-w) - 1| :=
          mul_le_mul_of_nonneg_right (by linarith) (abs_nonneg _)
      _ ≤ |w| * (2 * |w|) := mul_le_mul_of_nonneg_left hx (abs_nonneg w)
  have h4 : |w| * |w| ≤ 1 / 10 ^ 8 * (1 / 10 ^ 8) := mul_le_mul h h (abs_nonneg w) (by norm_num)
  calc _ ≤ |Real.exp (-w) - 1 + w| + |w * (1 - ccDelta w) * (Real.exp (-w) - 1)| := abs_add_le _ _
    _ ≤ |w| * |w| + |w| * (2 * |w|) := add_le_add hb h2
    _ = 3 * (|w| * |w|) := by ring
    _ ≤ 3 / 10 ^ 16 := by linarith

/-- With one rate for all cells, the result of a step depends on the data without
amplification in the total variation norm. -/
theorem chang_cooper_contraction (n : ℕ) (dv : ℝ) (C D : ℕ → ℝ) (ν dt : ℝ) (hdv : 0 < dv) (hdt : 0 ≤ dt) (hν : 0 ≤ ν)
    (f g f' g' : ℕ → ℝ) (hf : SolveOneX n (changCooper n dv C D (fun _ => ν) dt) f f')
    (hg : SolveOneX n (changCooper n dv C D (fun _ => ν) dt) g g') :
    ∑ i ∈ range n, |f' i - g' i| ≤ ∑ i ∈ range n, |f i - g i| := by
  rw [solve_iff] at hf hg
  have hlin : ∀ c d : ℝ, ∀ i < n, (changCooper n dv C D (fun _ => ν) dt).mv n (fun j => c * f' j + d * g' j) i =
      c * f i + d * g i := by
    intro c d i hi
    rw [mv_linear, mv_smul, mv_smul, hf i hi, hg i hi]
  obtain ⟨h, hh⟩ := (chang_cooper_unique n dv C D (fun _ => ν) dt hdv hdt (fun _ _ => hν) (fun i => |f i - g i|)).1
  have h1 := chang_cooper_monotone n dv C D (fun _ => ν) dt hdv hdt (fun _ _ => hν) (fun i => 1 * f i + (-1) * g i)
    (fun i => |f i - g i|) (fun i => 1 * f' i + (-1) * g' i) h (fun i _ => (by ring : 1 * f i + (-1) * g i = f i - g i).le.trans (le_abs_self _))
    ((solve_iff ..).2 (hlin 1 (-1))) hh
  have h2 := chang_cooper_monotone n dv C D (fun _ => ν) dt hdv hdt (fun _ _ => hν) (fun i => (-1) * f i + 1 * g i)
    (fun i => |f i - g i|) (fun i => (-1) * f' i + 1 * g' i) h (fun i _ => (by ring : (-1) * f i + 1 * g i = -(f i - g i)).le.trans (neg_le_abs _))
    ((solve_iff ..).2 (hlin (-1) 1)) hh
  rw [← collisions_conserve_density n dv C D ν dt f _ _ (Or.inr (Or.inl hh))]
  refine sum_le_sum fun i hi => ?_
  have a := h1 i (mem_range.1 hi)
  have b := h2 i (mem_range.1 hi)
  rw [abs_le]
  constructor <;> linarith

theorem sum_abs_netFlux (n : ℕ) (F : ℕ → ℝ) : ∑ i ∈ range n, |netFlux n F i| ≤ 2 * ∑ e ∈ range (n - 1), |F e| := by
  cases n with
  | zero => simp
  | succ m =>
    have : ∀ i ∈ range (m + 1), |netFlux (m + 1) F i| ≤ (if i + 1 < m + 1 then |F i| else 0) + (if 0 < i then |F (i - 1)| else 0) := by
      intro i _
      unfold netFlux
      refine (abs_sub _ _).trans ?_
      gcongr
      · split <;> simp
      · split <;> simp
    refine (sum_le_sum this).trans ?_
    rw [sum_add_distrib, sum_range_succ, sum_range_succ']
    simp only [lt_self_iff_false, if_false, add_zero, Nat.add_sub_cancel, Nat.succ_pos, if_true]
    have e : ∑ x ∈ range m, (if x + 1 < m + 1 then |F x| else 0) = ∑ x ∈ range m, |F x| :=
      sum_congr rfl fun i hi => by rw [if_pos (by rw [mem_range] at hi; omega)]
    rw [e]; linarith

/-- C33 without the restriction: whatever the cell Peclet numbers, one step moves
`exp (-φ)` by at most `6e-16 dt ν D / dv²` of its density (in total variation). -/
theorem chang_cooper_almost_fixed (n : ℕ) (dv : ℝ) (C φ : ℕ → ℝ) (D ν dt : ℝ) (hdv : 0 < dv) (hdt : 0 < dt)
    (hν : 0 ≤ ν) (hD : 1 / 10 ^ 30 ≤ D) (hφ : ∀ e, e + 1 < n → C e = D * (φ (e + 1) - φ e) / dv) (c : ℝ) (hc : 0 ≤ c)
    (f f' : ℕ → ℝ) (hf : ∀ i < n, f i = c * Real.exp (-φ i))
    (h : SolveOneX n (changCooper n dv C (fun _ => D) (fun _ => ν) dt) f f') :
    ∑ i ∈ range n, |f' i - f i| ≤ 6 / 10 ^ 16 * (dt * ν * D / dv ^ 2) * ∑ i ∈ range n, f i := by
  have hDp : 0 < D := lt_of_lt_of_le (by norm_num) hD
  have hfn : ∀ i < n, 0 ≤ f i := fun i hi => by rw [hf i hi]; exact mul_nonneg hc (Real.exp_pos _).le
  set F := flux C (safeD fun _ => D) (fun e => ccDelta (C e * dv / safeD (fun _ => D) e)) dv f with hF
  -- every edge flux is tiny
  have hflux : ∀ e, e + 1 < n → |F e| ≤ D / dv * (3 / 10 ^ 16 * f e) := by
    intro e he
    have hs : safeD (fun _ => D) e = D := max_eq_left hD
    have hw : C e * dv / safeD (fun _ => D) e = φ (e + 1) - φ e := by rw [hs, hφ e he]; field_simp
    have hfe : f (e + 1) = Real.exp (-(φ (e + 1) - φ e)) * f e := by
      rw [hf _ he, hf e (by omega), mul_left_comm, ← Real.exp_add]; congr 2; ring
    rw [hF, cc_flux dv hdv, hw, hs]
    have e2 : ∀ w, D / dv * (1 + w * (1 - ccDelta w)) * f (e + 1) - D / dv * (1 - w * ccDelta w) * f e =
        D / dv * ((1 + w * (1 - ccDelta w)) * f (e + 1) - (1 - w * ccDelta w) * f e) := fun w => by ring
    rw [e2, abs_mul, abs_of_pos (div_pos hDp hdv)]
    refine mul_le_mul_of_nonneg_left ?_ (div_pos hDp hdv).le
    have hfe0 := hfn e (by omega)
    by_cases hx : ExactAt (φ (e + 1) - φ e)
    · obtain ⟨K, _, hab⟩ := cc_flux_exact hx
      rw [hab, hfe, ← mul_assoc, ← Real.exp_add]
      simp only [add_neg_cancel, Real.exp_zero, one_mul, sub_self, mul_zero, abs_zero]
      exact mul_nonneg (by norm_num) hfe0
    · rw [hfe]
      refine cc_flux_small ?_ hfe0
      unfold ExactAt at hx
      push Not at hx
      exact hx.2.le
  -- the data for which `f` itself is the result
  have hself : SolveOneX n (changCooper n dv C (fun _ => D) (fun _ => ν) dt) (fun i => f i - dt * ν * (netFlux n F i / dv)) f := by
    rw [chang_cooper_is_finite_volume]
    intro i _
    simp only [hF]; ring
  refine (chang_cooper_contraction n dv C _ ν dt hdv hdt.le hν _ _ _ _ h hself).trans ?_
  have e1 : ∑ i ∈ range n, |f i - (f i - dt * ν * (netFlux n F i / dv))| = dt * ν / dv * ∑ i ∈ range n, |netFlux n F i| := by
    rw [mul_sum]
    refine sum_congr rfl fun i _ => ?_
    have : f i - (f i - dt * ν * (netFlux n F i / dv)) = dt * ν / dv * netFlux n F i := by ring
    rw [this, abs_mul, abs_of_nonneg (div_nonneg (mul_nonneg hdt.le hν) hdv.le)]
  rw [e1]
  have e2 : ∑ e ∈ range (n - 1), |F e| ≤ D / dv * (3 / 10 ^ 16) * ∑ i ∈ range n, f i := by
    have : ∑ e ∈ range (n - 1), |F e| ≤ ∑ e ∈ range (n - 1), D / dv * (3 / 10 ^ 16) * f e := by
      refine sum_le_sum fun e he => ?_
      have := hflux e (by rw [mem_range] at he; omega)
      linarith
    refine this.trans ?_
    rw [← mul_sum]
    refine mul_le_mul_of_nonneg_left ?_ (by positivity)
    exact sum_le_sum_of_subset_of_nonneg (range_mono (by omega)) fun i hi _ => hfn i (mem_range.1 hi)
  have e3 := sum_abs_netFlux n F
  calc dt * ν / dv * ∑ i ∈ range n, |netFlux n F i| ≤ dt * ν / dv * (2 * (D / dv * (3 / 10 ^ 16) * ∑ i ∈ range n, f i)) :=
        mul_le_mul_of_nonneg_left (by linarith) (by positivity)
    _ = _ := by field_simp; ring

/-! ### Log-mean weights and the closures -/

/-- C33: the edge value of the log-mean scheme is the logarithmic mean of its
neighbours. -/
theorem log_mean_edge {a b : ℝ} (ha : 0 < a) (hb : 0 < b) (hab : a ≠ b) (hex : 1 / 10 ^ 8 ≤ |Real.log (b / a)|) :
    ccDelta (-Real.log (b / a)) * a + (1 - ccDelta (-Real.log (b / a))) * b = (b - a) / Real.log (b / a) := by
  obtain ⟨K, _, h⟩ := cc_flux_exact (w := -Real.log (b / a)) (Or.inr (by rwa [abs_neg]))
  have h1 := h a b
  have hl : Real.log (b / a) ≠ 0 := by
    intro h0; rw [h0] at hex; norm_num at hex
  rw [Real.exp_neg, Real.exp_log (div_pos hb ha)] at h1
  have h2 : (b / a)⁻¹ * b - a = 0 := by field_simp; ring
  rw [h2, mul_zero] at h1
  rw [eq_div_iff hl]
  linarith

/-- C33 for the log-mean scheme: `exp (-φ)` is stationary (all its values above the
floor `1e-200`). -/
theorem log_mean_fixed (n : ℕ) (dv : ℝ) (C D nu φ : ℕ → ℝ) (dt : ℝ) (hdv : 0 < dv)
    (hD : ∀ e, e + 1 < n → 1 / 10 ^ 30 ≤ D e) (hφ : ∀ e, e + 1 < n → C e = D e * (φ (e + 1) - φ e) / dv)
    (hex : ∀ e, e + 1 < n → ExactAt (φ (e + 1) - φ e)) (c : ℝ) (f : ℕ → ℝ) (hf : ∀ i < n, f i = c * Real.exp (-φ i))
    (hfl : ∀ i < n, 1 / 10 ^ 200 ≤ f i) : SolveOneX n (logMean n dv C D nu dt f) f f := by
  unfold logMean
  rw [weighted_is_finite_volume]
  have hz : ∀ e, e + 1 < n → flux C (safeD D) (fun e =>
      ccDelta (-Real.log (max (f (e + 1)) (1 / 10 ^ 200) / max (f e) (1 / 10 ^ 200)))) dv f e = 0 := by
    intro e he
    have hs : safeD D e = D e := max_eq_left (hD e he)
    have hDp : 0 < D e := lt_of_lt_of_le (by norm_num) (hD e he)
    have hc : c ≠ 0 := by
      rintro rfl
      have h1 := hfl e (by omega)
      rw [hf e (by omega), zero_mul] at h1
      have : (0 : ℝ) < 1 / 10 ^ 200 := by positivity
      linarith
    have hlog : -Real.log (f (e + 1) / f e) = φ (e + 1) - φ e := by
      rw [hf _ he, hf e (by omega), mul_div_mul_left _ _ hc, ← Real.exp_sub, Real.log_exp]; ring
    have hfe : f (e + 1) = Real.exp (-(φ (e + 1) - φ e)) * f e := by
      rw [hf _ he, hf e (by omega), mul_left_comm, ← Real.exp_add]; congr 2; ring
    obtain ⟨K, _, hab⟩ := cc_flux_exact (hex e he)
    have h1 := hab (f e) (f (e + 1))
    have h2 : Real.exp (φ (e + 1) - φ e) * f (e + 1) - f e = 0 := by
      rw [hfe, ← mul_assoc, ← Real.exp_add]; simp
    rw [h2, mul_zero] at h1
    unfold flux
    simp only [max_eq_left (hfl _ he), max_eq_left (hfl e (by omega)), hlog, hs]
    rw [hφ e he]
    have h3 : D e * (φ (e + 1) - φ e) / dv * (ccDelta (φ (e + 1) - φ e) * f e + (1 - ccDelta (φ (e + 1) - φ e)) * f (e + 1)) +
        D e * (f (e + 1) - f e) / dv = D e / dv * ((1 + (φ (e + 1) - φ e) * (1 - ccDelta (φ (e + 1) - φ e))) * f (e + 1) -
          (1 - (φ (e + 1) - φ e) * ccDelta (φ (e + 1) - φ e)) * f e) := by ring
    rw [h3, h1, mul_zero]
  intro i hi
  have h1 : netFlux n (flux C (safeD D) (fun e =>
      ccDelta (-Real.log (max (f (e + 1)) (1 / 10 ^ 200) / max (f e) (1 / 10 ^ 200)))) dv f) i = 0 := by
    unfold netFlux
    by_cases h1 : i + 1 < n
    · rw [if_pos h1, hz i h1]
      by_cases h2 : 0 < i
      · rw [if_pos h2, hz (i - 1) (by omega), sub_zero]
      · rw [if_neg h2, sub_zero]
    · rw [if_neg h1]
      by_cases h2 : 0 < i
      · rw [if_pos h2, hz (i - 1) (by omega), sub_zero]
      · rw [if_neg h2, sub_zero]
  rw [h1]; ring

/-- C33: the sampled super-Gaussian is an exact root of the discrete energy-flux
condition. -/
theorem super_gaussian_root (n : ℕ) (v : ℕ → ℝ) (vbar m β c : ℝ) (f : ℕ → ℝ)
    (hf : ∀ i < n, f i = c * Real.exp (-(β * |v i - vbar| ^ m)))
    (hex : ∀ e, e + 1 < n → ExactAt (β * (|v (e + 1) - vbar| ^ m - |v e - vbar| ^ m))) :
    betaResidual n v vbar m f β = 0 := by
  unfold betaResidual
  refine sum_eq_zero fun e he => ?_
  have he' : e + 1 < n := by rw [mem_range] at he; omega
  obtain ⟨K, _, hab⟩ := cc_flux_exact (hex e he')
  have h1 := hab (f e) (f (e + 1))
  have h2 : Real.exp (β * (|v (e + 1) - vbar| ^ m - |v e - vbar| ^ m)) * f (e + 1) - f e = 0 := by
    rw [hf _ he', hf e (by omega), mul_left_comm, ← Real.exp_add, sub_eq_zero]
    congr 2; ring
  rw [h2, mul_zero] at h1
  simp only
  rw [mul_eq_zero]; right
  linarith

/-- C33: the Maxwellian is an exact root of the self-consistent temperature condition. -/
theorem maxwellian_root (n : ℕ) (v : ℕ → ℝ) (dv vbar β c : ℝ) (hc : c ≠ 0) (f : ℕ → ℝ)
    (hf : ∀ i < n, f i = c * Real.exp (-β * (v i - vbar) ^ 2)) : selfConsistentResidual n v dv vbar f β = 0 := by
  unfold selfConsistentResidual discreteT
  have e1 : ∑ i ∈ range n, f i * (v i - vbar) ^ 2 * dv =
      c * ∑ i ∈ range n, Real.exp (-β * (v i - vbar) ^ 2) * (v i - vbar) ^ 2 * dv := by
    rw [mul_sum]; exact sum_congr rfl fun i hi => by rw [hf i (mem_range.1 hi)]; ring
  have e2 : ∑ i ∈ range n, f i * dv = c * ∑ i ∈ range n, Real.exp (-β * (v i - vbar) ^ 2) * dv := by
    rw [mul_sum]; exact sum_congr rfl fun i hi => by rw [hf i (mem_range.1 hi)]; ring
  rw [e1, e2, mul_div_mul_left _ _ hc, sub_self]

end Verif.FP
