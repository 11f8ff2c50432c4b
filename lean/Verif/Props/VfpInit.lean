import Verif.Model.VfpInit
import Verif.Props.BetaNewton
import Verif.Lemmas.Midpoint
import Mathlib.MeasureTheory.Integral.IntegralEqImproper
import Mathlib.Analysis.SpecialFunctions.Gaussian.GaussianIntegral

/-! C186: the VFP-1D initial super-Gaussian has the configured density and temperature. -/
namespace Verif.VfpInit
open Finset MeasureTheory Set

theorem alpha_pos (m : ℝ) (hm : 0 < m) : 0 < alpha m := by
  have h3 := Real.Gamma_pos_of_pos (show 0 < 3 / m by positivity)
  have h5 := Real.Gamma_pos_of_pos (show 0 < 5 / m by positivity)
  unfold alpha
  exact Real.sqrt_pos.2 (by positivity)

theorem alpha_sq (m : ℝ) (hm : 0 < m) : alpha m ^ 2 = 3 * Real.Gamma (3 / m) / 2 / Real.Gamma (5 / m) := by
  have h3 := Real.Gamma_pos_of_pos (show 0 < 3 / m by positivity)
  have h5 := Real.Gamma_pos_of_pos (show 0 < 5 / m by positivity)
  unfold alpha
  exact Real.sq_sqrt (by positivity)

/-- The Gamma integral for the scaled super-Gaussian. -/
theorem scaled_integral (m s : ℝ) (hm : 0 < m) (hs : 0 < s) (k : ℕ) :
    ∫ x in Ioi (0 : ℝ), x ^ k * Real.exp (-(x / s) ^ m) = s ^ (k + 1) * (1 / m) * Real.Gamma ((k + 1) / m) := by
  have hβ : 0 < s ^ (-m) := Real.rpow_pos_of_pos hs _
  have h := Beta.half_integral m (s ^ (-m)) hm hβ k
  have e : (s ^ (-m)) ^ (-((k : ℝ) + 1) / m) = s ^ (k + 1) := by
    rw [← Real.rpow_mul hs.le, ← Real.rpow_natCast]
    congr 1
    push_cast
    field_simp
  rw [e] at h
  rw [← h]
  refine setIntegral_congr_fun measurableSet_Ioi fun x hx => ?_
  beta_reduce
  congr 2
  rw [Real.div_rpow (le_of_lt hx) hs.le, Real.rpow_neg hs.le]
  ring

/-- The `k`-th moment of `dist`. -/
theorem dist_moment (m vth n T : ℝ) (hm : 0 < m) (hv : 0 < vth) (hT : 0 < T) (k : ℕ) :
    ∫ v in Ioi (0 : ℝ), v ^ k * dist m vth n T v =
      n * (cst m / (Real.sqrt T * vth) ^ 3) * ((alpha m * (Real.sqrt T * vth)) ^ (k + 1) * (1 / m) * Real.Gamma ((k + 1) / m)) := by
  have ha := alpha_pos m hm
  have hs : 0 < Real.sqrt T * vth := mul_pos (Real.sqrt_pos.2 hT) hv
  rw [← scaled_integral m _ hm (mul_pos ha hs), ← integral_const_mul]
  congr 1
  funext v
  unfold dist
  dsimp only
  rw [div_div]
  ring

/-- C186: the density of the initial distribution is the configured one, whatever the exponent. -/
theorem density_continuum (m vth n T : ℝ) (hm : 0 < m) (hv : 0 < vth) (hT : 0 < T) :
    4 * Real.pi * ∫ v in Ioi (0 : ℝ), v ^ 2 * dist m vth n T v = n := by
  rw [dist_moment m vth n T hm hv hT]
  have ha := alpha_pos m hm
  have hs : 0 < Real.sqrt T * vth := mul_pos (Real.sqrt_pos.2 hT) hv
  have h3 := Real.Gamma_pos_of_pos (show 0 < 3 / m by positivity)
  unfold cst
  norm_num
  generalize Real.sqrt T * vth = s at *
  generalize Real.Gamma (3 / m) = G at *
  generalize alpha m = a at *
  have := Real.pi_pos
  field_simp

/-- C186: its energy is that of the configured temperature, whatever the exponent: `⟨v²⟩ = 3 T vth² / 2`. -/
theorem energy_continuum (m vth n T : ℝ) (hm : 0 < m) (hv : 0 < vth) (hT : 0 < T) :
    4 * Real.pi * ∫ v in Ioi (0 : ℝ), v ^ 4 * dist m vth n T v = 3 * n * (T * vth ^ 2 / 2) := by
  rw [dist_moment m vth n T hm hv hT]
  have ha := alpha_pos m hm
  have ha2 := alpha_sq m hm
  have hs : 0 < Real.sqrt T * vth := mul_pos (Real.sqrt_pos.2 hT) hv
  have hs2 : (Real.sqrt T * vth) ^ 2 = T * vth ^ 2 := by rw [mul_pow, Real.sq_sqrt hT.le]
  have h3 := Real.Gamma_pos_of_pos (show 0 < 3 / m by positivity)
  have h5 := Real.Gamma_pos_of_pos (show 0 < 5 / m by positivity)
  rw [← hs2]
  unfold cst
  norm_num
  generalize Real.sqrt T * vth = s at *
  generalize Real.Gamma (3 / m) = G at *
  generalize Real.Gamma (5 / m) = G5 at *
  generalize alpha m = a at *
  have hp := Real.pi_pos
  have e : 4 * Real.pi * (n * (m / (4 * Real.pi * a ^ 3 * G) / s ^ 3) * ((a * s) ^ 5 * m⁻¹ * G5)) = n * s ^ 2 * (a ^ 2 * G5 / G) := by
    field_simp
  rw [e, ha2]
  field_simp

/-- C186: at `m = 2` the distribution is the Maxwellian. -/
theorem maxwellian (vth n T v : ℝ) (hv : 0 < vth) (hT : 0 < T) :
    dist 2 vth n T v = n / (Real.pi * T * vth ^ 2) ^ (3 / 2 : ℝ) * Real.exp (-v ^ 2 / (T * vth ^ 2)) := by
  have hp := Real.pi_pos
  have g1 : Real.Gamma (3 / 2) = Real.sqrt Real.pi / 2 := by
    rw [show (3 / 2 : ℝ) = 1 / 2 + 1 by norm_num, Real.Gamma_add_one (by norm_num), Real.Gamma_one_half_eq]; ring
  have g2 : Real.Gamma (5 / 2) = 3 * Real.sqrt Real.pi / 4 := by
    rw [show (5 / 2 : ℝ) = 3 / 2 + 1 by norm_num, Real.Gamma_add_one (by norm_num), g1]; ring
  have hq := Real.sqrt_pos.2 hp
  have ha : alpha 2 = 1 := by
    unfold alpha
    rw [g1, g2, Real.sqrt_eq_one]
    field_simp
    norm_num
  have hs : 0 < Real.sqrt T * vth := mul_pos (Real.sqrt_pos.2 hT) hv
  have hs2 : (Real.sqrt T * vth) ^ 2 = T * vth ^ 2 := by rw [mul_pow, Real.sq_sqrt hT.le]
  have hr : (Real.pi * T * vth ^ 2) ^ (3 / 2 : ℝ) = (Real.sqrt Real.pi * (Real.sqrt T * vth)) ^ 3 := by
    have hx : (Real.pi * T * vth ^ 2) = (Real.sqrt Real.pi * (Real.sqrt T * vth)) ^ (2 : ℝ) := by
      rw [Real.rpow_two, mul_pow, hs2, Real.sq_sqrt hp.le]; ring
    rw [hx, ← Real.rpow_mul (mul_pos hq hs).le, ← Real.rpow_natCast]
    norm_num
  rw [hr]
  unfold dist cst
  dsimp only
  rw [ha, g1]
  have ee : (v / 1 / (Real.sqrt T * vth)) ^ (2 : ℝ) = v ^ 2 / (T * vth ^ 2) := by
    rw [Real.rpow_two, div_one, div_pow, hs2]
  rw [ee, neg_div]
  have hpi : Real.pi = Real.sqrt Real.pi ^ 2 := (Real.sq_sqrt hp.le).symm
  generalize Real.sqrt T * vth = s at *
  rw [mul_pow]
  generalize Real.exp (-(v ^ 2 / (T * vth ^ 2))) = E
  have e : ∀ q : ℝ, 0 < q → n * (2 / (4 * q ^ 2 * 1 ^ 3 * (q / 2)) / s ^ 3 * E) = n / (q ^ 3 * s ^ 3) * E := by
    intro q hq; field_simp; ring
  have := e _ hq
  rwa [← hpi] at this

theorem dist_pos (m vth n T v : ℝ) (hm : 0 < m) (hv : 0 < vth) (hn : 0 < n) (hT : 0 < T) : 0 < dist m vth n T v := by
  have ha := alpha_pos m hm
  have hs : 0 < Real.sqrt T * vth := mul_pos (Real.sqrt_pos.2 hT) hv
  have h3 := Real.Gamma_pos_of_pos (show 0 < 3 / m by positivity)
  unfold dist cst
  have := Real.pi_pos
  positivity

/-- The initial distribution decreases with the speed. -/
theorem dist_anti (m vth n T : ℝ) (hm : 0 < m) (hv : 0 < vth) (hn : 0 < n) (hT : 0 < T) {a b : ℝ} (ha0 : 0 ≤ a) (hab : a < b) :
    dist m vth n T b < dist m vth n T a := by
  have ha := alpha_pos m hm
  have hs : 0 < Real.sqrt T * vth := mul_pos (Real.sqrt_pos.2 hT) hv
  have h3 := Real.Gamma_pos_of_pos (show 0 < 3 / m by positivity)
  have hp := Real.pi_pos
  have hc : 0 < cst m / (Real.sqrt T * vth) ^ 3 := by unfold cst; positivity
  unfold dist
  have hlt : (a / alpha m / (Real.sqrt T * vth)) ^ m < (b / alpha m / (Real.sqrt T * vth)) ^ m := by
    refine Real.rpow_lt_rpow (by positivity) ?_ hm
    gcongr
  have := Real.exp_lt_exp.2 (neg_lt_neg hlt)
  exact mul_lt_mul_of_pos_left (mul_lt_mul_of_pos_left this hc) hn

theorem dist_continuous (m vth n T : ℝ) (hm : 0 < m) : Continuous (dist m vth n T) := by
  unfold dist
  dsimp only
  have h : Continuous fun v : ℝ => (v / alpha m / (Real.sqrt T * vth)) ^ m :=
    (Real.continuous_rpow_const hm.le).comp (by fun_prop)
  fun_prop

theorem dist_integrable (m vth n T : ℝ) (hm : 0 < m) (hv : 0 < vth) (hT : 0 < T) (hn : 0 < n) (k : ℕ) :
    IntegrableOn (fun v => v ^ k * dist m vth n T v) (Ioi 0) := by
  have h := dist_moment m vth n T hm hv hT k
  by_contra hc
  rw [IntegrableOn] at hc
  rw [integral_undef hc] at h
  have ha := alpha_pos m hm
  have hs : 0 < Real.sqrt T * vth := mul_pos (Real.sqrt_pos.2 hT) hv
  have hg := Real.Gamma_pos_of_pos (show 0 < ((k : ℝ) + 1) / m by positivity)
  have h3 := Real.Gamma_pos_of_pos (show 0 < 3 / m by positivity)
  have hp := Real.pi_pos
  have : 0 < n * (cst m / (Real.sqrt T * vth) ^ 3) * ((alpha m * (Real.sqrt T * vth)) ^ (k + 1) * (1 / m) * Real.Gamma ((k + 1) / m)) := by
    unfold cst; positivity
  linarith

/-- A grid with the given resolution; the other entries are irrelevant for the moments. -/
noncomputable def speedGrid (g : Vfp.Grid) (vmax : ℝ) (nv : ℕ) : Vfp.Grid := { g with vmax := vmax, nv := nv }

theorem moment0_mid (g : Vfp.Grid) (vmax : ℝ) (nv : ℕ) (F : ℝ → ℝ) :
    moment0 (speedGrid g vmax nv) (fun j => F ((speedGrid g vmax nv).v j)) =
      4 * Real.pi * Midpoint.mid (fun v => v ^ 2 * F v) vmax nv := by
  unfold moment0 Midpoint.mid speedGrid Vfp.Grid.v Vfp.Grid.dv
  dsimp only
  rw [mul_assoc, sum_mul]
  congr 1
  exact sum_congr rfl fun j _ => by ring

/-- C186: the density and the energy saved for the initial state converge, as the speed grid is refined,
to the integrals up to the end of the grid. -/
theorem saved_converges (g : Vfp.Grid) (m vth n T vmax : ℝ) (hm : 0 < m) (hvm : 0 < vmax) :
    Filter.Tendsto (fun nv => savedN (speedGrid g vmax nv) fun j => dist m vth n T ((speedGrid g vmax nv).v j)) Filter.atTop
      (nhds (4 * Real.pi * ∫ v in (0 : ℝ)..vmax, v ^ 2 * dist m vth n T v)) ∧
    Filter.Tendsto (fun nv => savedU (speedGrid g vmax nv) fun j => dist m vth n T ((speedGrid g vmax nv).v j)) Filter.atTop
      (nhds (4 * Real.pi * ∫ v in (0 : ℝ)..vmax, v ^ 4 * dist m vth n T v)) := by
  have hc := dist_continuous m vth n T hm
  constructor
  · have e : (fun nv => savedN (speedGrid g vmax nv) fun j => dist m vth n T ((speedGrid g vmax nv).v j)) =
        fun nv => 4 * Real.pi * Midpoint.mid (fun v => v ^ 2 * dist m vth n T v) vmax nv := by
      funext nv; exact moment0_mid g vmax nv _
    rw [e]
    exact (Midpoint.tendsto_mid _ (by fun_prop) vmax hvm).const_mul _
  · have e : (fun nv => savedU (speedGrid g vmax nv) fun j => dist m vth n T ((speedGrid g vmax nv).v j)) =
        fun nv => 4 * Real.pi * Midpoint.mid (fun v => v ^ 4 * dist m vth n T v) vmax nv := by
      funext nv
      have := moment0_mid g vmax nv fun v => dist m vth n T v * v ^ 2
      have e2 : (fun v : ℝ => v ^ 2 * (dist m vth n T v * v ^ 2)) = fun v => v ^ 4 * dist m vth n T v := by funext v; ring
      rw [e2] at this
      exact this
    rw [e]
    exact (Midpoint.tendsto_mid _ (by fun_prop) vmax hvm).const_mul _

/-- C186: on a long and fine enough speed grid the saved density, energy and temperature of the initial state are as
close to the configured ones as you like. -/
theorem saved_accurate (g : Vfp.Grid) (m vth n T : ℝ) (hm : 0 < m) (hv : 0 < vth) (hn : 0 < n) (hT : 0 < T) (ε : ℝ) (hε : 0 < ε) :
    ∃ V : ℝ, ∀ vmax ≥ V, ∃ N : ℕ, ∀ nv ≥ N,
      |savedN (speedGrid g vmax nv) (fun j => dist m vth n T ((speedGrid g vmax nv).v j)) - n| < ε ∧
      |savedU (speedGrid g vmax nv) (fun j => dist m vth n T ((speedGrid g vmax nv).v j)) - 3 * n * (T * vth ^ 2 / 2)| < ε ∧
      |savedT (speedGrid g vmax nv) (fun j => dist m vth n T ((speedGrid g vmax nv).v j)) - T * vth ^ 2 / 2| < ε := by
  have hp := Real.pi_pos
  have lim : ∀ k : ℕ, Filter.Tendsto (fun b : ℝ => 4 * Real.pi * ∫ v in (0 : ℝ)..b, v ^ k * dist m vth n T v) Filter.atTop
      (nhds (4 * Real.pi * ∫ v in Ioi (0 : ℝ), v ^ k * dist m vth n T v)) := fun k =>
    (intervalIntegral_tendsto_integral_Ioi 0 (dist_integrable m vth n T hm hv hT hn k) Filter.tendsto_id).const_mul _
  have l2 := lim 2
  have l4 := lim 4
  rw [density_continuum m vth n T hm hv hT] at l2
  rw [energy_continuum m vth n T hm hv hT] at l4
  have lT : Filter.Tendsto (fun b : ℝ => (4 * Real.pi * ∫ v in (0 : ℝ)..b, v ^ 4 * dist m vth n T v) / 3 /
      (4 * Real.pi * ∫ v in (0 : ℝ)..b, v ^ 2 * dist m vth n T v)) Filter.atTop (nhds (3 * n * (T * vth ^ 2 / 2) / 3 / n)) :=
    (l4.div_const 3).div l2 hn.ne'
  rw [show 3 * n * (T * vth ^ 2 / 2) / 3 / n = T * vth ^ 2 / 2 by field_simp] at lT
  obtain ⟨V, hV⟩ := Filter.eventually_atTop.1 ((l2.eventually (Metric.ball_mem_nhds _ hε)).and
    ((l4.eventually (Metric.ball_mem_nhds _ hε)).and ((lT.eventually (Metric.ball_mem_nhds _ hε)).and
      (l2.eventually (lt_mem_nhds hn)))))
  refine ⟨max V 1, fun vmax hvm => ?_⟩
  have hv1 : 0 < vmax := lt_of_lt_of_le one_pos ((le_max_right V 1).trans hvm)
  obtain ⟨h2, h4, hTt, hpos⟩ := hV vmax ((le_max_left V 1).trans hvm)
  obtain ⟨c2, c4⟩ := saved_converges g m vth n T vmax hm hv1
  have cT : Filter.Tendsto (fun nv => savedT (speedGrid g vmax nv) fun j => dist m vth n T ((speedGrid g vmax nv).v j)) Filter.atTop
      (nhds ((4 * Real.pi * ∫ v in (0 : ℝ)..vmax, v ^ 4 * dist m vth n T v) / 3 /
        (4 * Real.pi * ∫ v in (0 : ℝ)..vmax, v ^ 2 * dist m vth n T v))) := (c4.div_const 3).div c2 hpos.ne'
  obtain ⟨N, hN⟩ := Filter.eventually_atTop.1 ((c2.eventually (Metric.isOpen_ball.mem_nhds h2)).and
    ((c4.eventually (Metric.isOpen_ball.mem_nhds h4)).and (cT.eventually (Metric.isOpen_ball.mem_nhds hTt))))
  refine ⟨N, fun nv hnv => ?_⟩
  obtain ⟨a, b, c⟩ := hN nv hnv
  rw [Real.dist_eq] at a b c
  exact ⟨a, b, c⟩

theorem moment1_mid (g : Vfp.Grid) (vmax : ℝ) (nv : ℕ) (F : ℝ → ℝ) :
    moment1 (speedGrid g vmax nv) (fun j => F ((speedGrid g vmax nv).v j)) =
      4 / 3 * Real.pi * Midpoint.mid (fun v => v ^ 3 * F v) vmax nv := by
  unfold moment1 Midpoint.mid speedGrid Vfp.Grid.v Vfp.Grid.dv
  dsimp only
  rw [mul_assoc, sum_mul]
  congr 1
  exact sum_congr rfl fun j _ => by ring

/-- The anisotropic part of a distribution that moves with the small velocity `u`: `-u ∂f/∂v` for a Maxwellian. -/
noncomputable def drifting (vth n T u v : ℝ) : ℝ := u * (2 * v / (T * vth ^ 2)) * dist 2 vth n T v

/-- C189: the anisotropic part of a moving Maxwellian is the derivative of the isotropic part. -/
theorem drifting_deriv (vth n T u v : ℝ) (hv : 0 < vth) (hT : 0 < T) : HasDerivAt (fun w => -u * dist 2 vth n T w) (drifting vth n T u v) v := by
  have e : (fun w => -u * dist 2 vth n T w) = fun w => -u * (n / (Real.pi * T * vth ^ 2) ^ (3 / 2 : ℝ) * Real.exp (-w ^ 2 / (T * vth ^ 2))) := by
    funext w; rw [maxwellian vth n T w hv hT]
  rw [e]
  have h1 : HasDerivAt (fun w : ℝ => -w ^ 2 / (T * vth ^ 2)) (-(2 * v) / (T * vth ^ 2)) v := by
    have := ((hasDerivAt_pow 2 v).neg).div_const (T * vth ^ 2)
    exact this.congr_deriv (by norm_num)
  have h2 := (h1.exp.const_mul (n / (Real.pi * T * vth ^ 2) ^ (3 / 2 : ℝ))).const_mul (-u)
  refine h2.congr_deriv ?_
  unfold drifting
  rw [maxwellian vth n T v hv hT]
  ring

/-- C189: the saved `v` of a Maxwellian of density `n` that moves with velocity `u` is the flux `n u` as the speed grid is refined and
extended. -/
theorem saved_flow (g : Vfp.Grid) (vth n T u : ℝ) (hv : 0 < vth) (hn : 0 < n) (hT : 0 < T) (ε : ℝ) (hε : 0 < ε) (i : ℕ) :
    ∃ V : ℝ, ∀ vmax ≥ V, ∃ N : ℕ, ∀ nv ≥ N,
      |savedV (speedGrid g vmax nv) (fun _ j => drifting vth n T u ((speedGrid g vmax nv).v j)) i - n * u| < ε := by
  have e0 : ∀ vmax nv, savedV (speedGrid g vmax nv) (fun _ j => drifting vth n T u ((speedGrid g vmax nv).v j)) i
      = u * (2 / (T * vth ^ 2)) / 3 * (4 * Real.pi * Midpoint.mid (fun v => v ^ 4 * dist 2 vth n T v) vmax nv) := fun vmax nv => by
    have h := moment1_mid g vmax nv (drifting vth n T u)
    have e : savedV (speedGrid g vmax nv) (fun _ j => drifting vth n T u ((speedGrid g vmax nv).v j)) i
        = moment1 (speedGrid g vmax nv) (fun j => drifting vth n T u ((speedGrid g vmax nv).v j)) := by
      unfold savedV Vfp.e2c; ring
    rw [e, h]
    have e2 : Midpoint.mid (fun v => v ^ 3 * drifting vth n T u v) vmax nv
        = u * (2 / (T * vth ^ 2)) * Midpoint.mid (fun v => v ^ 4 * dist 2 vth n T v) vmax nv := by
      unfold Midpoint.mid
      rw [mul_sum]
      exact sum_congr rfl fun j _ => by unfold drifting; ring
    rw [e2]; ring
  have l4 := (intervalIntegral_tendsto_integral_Ioi 0 (dist_integrable 2 vth n T two_pos hv hT hn 4) Filter.tendsto_id).const_mul (4 * Real.pi)
  rw [energy_continuum 2 vth n T two_pos hv hT] at l4
  have l4' := l4.const_mul (u * (2 / (T * vth ^ 2)) / 3)
  rw [show u * (2 / (T * vth ^ 2)) / 3 * (3 * n * (T * vth ^ 2 / 2)) = n * u by field_simp] at l4'
  obtain ⟨V, hV⟩ := Filter.eventually_atTop.1 (l4'.eventually (Metric.ball_mem_nhds _ hε))
  refine ⟨max V 1, fun vmax hvm => ?_⟩
  have hv1 : 0 < vmax := lt_of_lt_of_le one_pos ((le_max_right V 1).trans hvm)
  have hc := dist_continuous 2 vth n T two_pos
  have c := ((Midpoint.tendsto_mid (fun v => v ^ 4 * dist 2 vth n T v) (by fun_prop) vmax hv1).const_mul (4 * Real.pi)).const_mul
    (u * (2 / (T * vth ^ 2)) / 3)
  obtain ⟨N, hN⟩ := Filter.eventually_atTop.1 (c.eventually (Metric.isOpen_ball.mem_nhds (hV vmax ((le_max_left V 1).trans hvm))))
  refine ⟨N, fun nv hnv => ?_⟩
  have a := hN nv hnv
  rw [Real.dist_eq] at a
  rw [e0]
  exact a

/-- C186: a speed grid of finite length loses particles: the limit of the saved density is below the configured one. -/
theorem truncated_lt (m vth n T vmax : ℝ) (hm : 0 < m) (hv : 0 < vth) (hn : 0 < n) (hT : 0 < T) (hvm : 0 < vmax) :
    4 * Real.pi * ∫ v in (0 : ℝ)..vmax, v ^ 2 * dist m vth n T v < n := by
  have hi := dist_integrable m vth n T hm hv hT hn 2
  have hp := Real.pi_pos
  conv_rhs => rw [← density_continuum m vth n T hm hv hT]
  refine mul_lt_mul_of_pos_left ?_ (by positivity)
  have hc := dist_continuous m vth n T hm
  have split := intervalIntegral.integral_Ioi_sub_Ioi (f := fun v => v ^ 2 * dist m vth n T v) hi hvm.le
  have pos : 0 < ∫ v in Ioi vmax, v ^ 2 * dist m vth n T v := by
    rw [setIntegral_pos_iff_support_of_nonneg_ae]
    · have : Function.support (fun v => v ^ 2 * dist m vth n T v) ∩ Ioi vmax = Ioi vmax := by
        rw [Set.inter_eq_right]
        intro x hx
        have hx' : vmax < x := hx
        have := dist_pos m vth n T x hm hv hn hT
        have : 0 < x := hvm.trans hx'
        exact ne_of_gt (by positivity)
      rw [this, Real.volume_Ioi]
      exact ENNReal.zero_lt_top
    · exact Filter.Eventually.of_forall fun v => mul_nonneg (sq_nonneg _) (dist_pos m vth n T v hm hv hn hT).le
    · exact hi.mono_set fun x hx => hvm.trans hx
  rw [← split] 
  linarith

example : 4 * Real.pi * ∫ v in Ioi (0 : ℝ), v ^ 2 * dist 3.5 0.1 0.25 2 v = 0.25 :=
  density_continuum 3.5 0.1 0.25 2 (by norm_num) (by norm_num) (by norm_num)

end Verif.VfpInit
