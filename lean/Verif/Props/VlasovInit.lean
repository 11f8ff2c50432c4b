import Verif.Model.VlasovInit
import Verif.Props.VfpInit
import Verif.Props.Vlasov2dCollide
import Mathlib.MeasureTheory.Integral.IntegralEqImproper

/-! C190: the initial distribution of Vlasov-1D. -/
namespace Verif.VlasovInit
open Finset MeasureTheory Verif.Spectral

/-! ### The velocity grid -/

/-- C190: the velocities are the centres of `nv` equal cells of `[vmin, vmax]`. -/
theorem vax_eq (vmin vmax : ℝ) (nv j : ℕ) (hj : j < nv) : vax vmin vmax nv j = vmin + (j + 1 / 2) * dv vmin vmax nv := by
  unfold vax Grid.linspaceAt
  have h0 : (0 : ℝ) < nv := by exact_mod_cast (by omega : 0 < nv)
  split
  · next h =>
    have : j = 0 := by omega
    subst this
    simp; ring
  · next h =>
    have h1 : (nv : ℝ) - 1 ≠ 0 := by
      have : (2 : ℝ) ≤ nv := by exact_mod_cast (by omega : 2 ≤ nv)
      intro hc; linarith
    unfold dv
    field_simp
    ring

theorem dv_pos (vmin vmax : ℝ) (h : vmin < vmax) (nv : ℕ) (hn : 0 < nv) : 0 < dv vmin vmax nv := by
  unfold dv
  have : (0 : ℝ) < nv := by exact_mod_cast hn
  exact div_pos (by linarith) this

/-- C190: the cells tile the interval. -/
theorem grid_ends (vmin vmax : ℝ) (nv : ℕ) (hn : 0 < nv) :
    vax vmin vmax nv 0 - dv vmin vmax nv / 2 = vmin ∧ vax vmin vmax nv (nv - 1) + dv vmin vmax nv / 2 = vmax := by
  have h0 : (0 : ℝ) < nv := by exact_mod_cast hn
  rw [vax_eq _ _ _ _ hn, vax_eq _ _ _ _ (by omega)]
  constructor
  · push_cast; ring
  · rw [Nat.cast_sub (by omega)]
    unfold dv
    push_cast
    field_simp
    ring

/-! ### Density, sign and drift on the grid -/

theorem shape_pos (v0 m T0 mass v : ℝ) : 0 < shape v0 m T0 mass v := Real.exp_pos _

theorem sum_unit (vmin vmax : ℝ) (h : vmin < vmax) (nv : ℕ) (hn : 0 < nv) (g : ℝ → ℝ) (hg : ∀ v, 0 < g v) :
    (∑ j ∈ range nv, unit vmin vmax nv g j) * dv vmin vmax nv = 1 := by
  have hd := dv_pos vmin vmax h nv hn
  have hs : 0 < ∑ i ∈ range nv, g (vax vmin vmax nv i) := sum_pos (fun _ _ => hg _) (by simpa using hn.ne')
  unfold unit
  rw [← sum_div, ← sum_div]
  field_simp

/-- C190: on every grid with at least two cells the density of a component is the configured profile, exactly,
whatever the drift, temperature, exponent and velocity grid. -/
theorem component_density {nx : ℕ} (hnx : 1 < nx) (c : Comp nx) (mass vmin vmax : ℝ) (h : vmin < vmax) (nv : ℕ) (hn : 0 < nv) (x : ZMod nx) :
    (∑ j ∈ range nv, c.f mass vmin vmax nv x j) * dv vmin vmax nv = c.n x := by
  unfold Comp.f
  simp only [hnx, if_true]
  rw [← mul_sum, mul_assoc, sum_unit vmin vmax h nv hn _ (shape_pos _ _ _ _), mul_one]

/-- On a single cell the configured density is ignored: the density is always one. -/
theorem single_cell_density_partial (c : Comp 1) (mass vmin vmax : ℝ) (h : vmin < vmax) (nv : ℕ) (hn : 0 < nv) (x : ZMod 1) :
    (∑ j ∈ range nv, c.f mass vmin vmax nv x j) * dv vmin vmax nv = 1 := by
  unfold Comp.f
  simp only [lt_irrefl, if_false]
  exact sum_unit vmin vmax h nv hn _ (shape_pos _ _ _ _)

theorem unit_pos (vmin vmax : ℝ) (h : vmin < vmax) (nv : ℕ) (hn : 0 < nv) (g : ℝ → ℝ) (hg : ∀ v, 0 < g v) (j : ℕ) :
    0 < unit vmin vmax nv g j :=
  div_pos (div_pos (hg _) (sum_pos (fun _ _ => hg _) (by simpa using hn.ne'))) (dv_pos vmin vmax h nv hn)

/-- C190: where the configured density is positive, so is the distribution. -/
theorem component_pos {nx : ℕ} (c : Comp nx) (mass vmin vmax : ℝ) (h : vmin < vmax) (nv : ℕ) (hn : 0 < nv) (x : ZMod nx)
    (hc : 0 < c.n x) (j : ℕ) : 0 < c.f mass vmin vmax nv x j := by
  have hu := unit_pos vmin vmax h nv hn _ (shape_pos c.v0 c.m c.T0 mass) j
  unfold Comp.f
  dsimp only
  split
  · exact mul_pos hc hu
  · exact hu

theorem vax_reflect (vmin vmax : ℝ) (nv j : ℕ) (hj : j < nv) : vax vmin vmax nv (nv - 1 - j) = vmin + vmax - vax vmin vmax nv j := by
  have h0 : (0 : ℝ) < nv := by exact_mod_cast (by omega : 0 < nv)
  rw [vax_eq _ _ _ _ hj, vax_eq _ _ _ _ (by omega), Nat.cast_sub (by omega), Nat.cast_sub (by omega)]
  unfold dv
  push_cast
  field_simp
  ring

theorem shape_reflect (v0 m T0 mass v : ℝ) : shape v0 m T0 mass (2 * v0 - v) = shape v0 m T0 mass v := by
  unfold shape
  rw [show 2 * v0 - v - v0 = -(v - v0) by ring, neg_div, abs_neg]

/-- C190: if the velocity grid is centred on the drift velocity, the mean velocity of the component is the drift velocity,
exactly. -/
theorem component_drift {nx : ℕ} (hnx : 1 < nx) (c : Comp nx) (mass vmin vmax : ℝ) (h : vmin < vmax) (nv : ℕ) (hn : 0 < nv)
    (hv : vmin + vmax = 2 * c.v0) (x : ZMod nx) :
    (∑ j ∈ range nv, vax vmin vmax nv j * c.f mass vmin vmax nv x j) * dv vmin vmax nv = c.v0 * c.n x := by
  have hd := component_density hnx c mass vmin vmax h nv hn x
  have refl : ∑ j ∈ range nv, (vax vmin vmax nv j - c.v0) * c.f mass vmin vmax nv x j = 0 := by
    have e := sum_range_reflect (fun j => (vax vmin vmax nv j - c.v0) * c.f mass vmin vmax nv x j) nv
    have n : ∑ j ∈ range nv, (vax vmin vmax nv (nv - 1 - j) - c.v0) * c.f mass vmin vmax nv x (nv - 1 - j) =
        -∑ j ∈ range nv, (vax vmin vmax nv j - c.v0) * c.f mass vmin vmax nv x j := by
      rw [← sum_neg_distrib]
      refine sum_congr rfl fun j hj => ?_
      have hj' := mem_range.1 hj
      have r := vax_reflect vmin vmax nv j hj'
      have ef : c.f mass vmin vmax nv x (nv - 1 - j) = c.f mass vmin vmax nv x j := by
        unfold Comp.f unit
        rw [r, hv, shape_reflect]
      rw [ef, r, hv]
      ring
    rw [n] at e
    linarith
  have : ∑ j ∈ range nv, vax vmin vmax nv j * c.f mass vmin vmax nv x j = c.v0 * ∑ j ∈ range nv, c.f mass vmin vmax nv x j := by
    rw [mul_sum, ← sub_eq_zero, ← sum_sub_distrib, ← refl]
    exact sum_congr rfl fun j _ => by ring
  rw [this, mul_assoc, hd]

/-- C190: a density of zero gives an empty component, and components add up: the density of a species is the sum of the
configured profiles. -/
theorem species_density {nx : ℕ} (hnx : 1 < nx) (l : Loaded nx) (hv : l.cfg.lower < l.cfg.vmax) (p : String × Species nx)
    (hp : l.kinetic = .ok p) (x : ZMod nx) : p.2.density x = l.profile x := by
  unfold Loaded.kinetic at hp
  split at hp
  · cases hp
  · next h0 =>
    injection hp with hp
    subst hp
    haveI : NeZero l.cfg.nv := ⟨h0⟩
    unfold Species.density
    dsimp only
    rw [Vlasov2d.sum_val (n := l.cfg.nv) (fun j => l.f x j)]
    unfold Loaded.f Loaded.profile
    have hn : 0 < l.cfg.nv := Nat.pos_of_ne_zero h0
    generalize l.comps = cs
    induction cs with
    | nil => simp
    | cons c cs ih =>
      simp only [List.map_cons, List.sum_cons, sum_add_distrib, add_mul]
      rw [ih, component_density hnx c _ _ _ hv _ hn x]

/-! ### The continuum -/

/-- The shape around zero with scale `s`. -/
noncomputable def core (m s u : ℝ) : ℝ := Real.exp (-(|u / s| ^ m))

theorem shape_core (v0 m T0 mass v : ℝ) : shape v0 m T0 mass v = core m (alpha m * Real.sqrt (T0 / mass)) (v - v0) := rfl

theorem core_full (m s : ℝ) (hm : 0 < m) (hs : 0 < s) (k : ℕ) (hk : Even k) :
    ∫ u, u ^ k * core m s u = 2 * (s ^ (k + 1) * (1 / m) * Real.Gamma ((k + 1) / m)) := by
  rw [← VfpInit.scaled_integral m s hm hs k, ← integral_comp_abs (f := fun x => x ^ k * Real.exp (-(x / s) ^ m))]
  congr 1
  funext u
  unfold core
  rw [hk.pow_abs, abs_div, abs_of_pos hs]

theorem core_integrable_even (m s : ℝ) (hm : 0 < m) (hs : 0 < s) (k : ℕ) (hk : Even k) : Integrable fun u => u ^ k * core m s u := by
  by_contra hc
  have h := core_full m s hm hs k hk
  rw [integral_undef hc] at h
  have := Real.Gamma_pos_of_pos (show 0 < ((k : ℝ) + 1) / m by positivity)
  have : 0 < 2 * (s ^ (k + 1) * (1 / m) * Real.Gamma ((k + 1) / m)) := by positivity
  linarith

theorem core_continuous (m s : ℝ) (hm : 0 < m) : Continuous (core m s) := by
  unfold core
  have : Continuous fun u : ℝ => |u / s| ^ m := Continuous.rpow_const (by fun_prop) fun _ => Or.inr hm.le
  fun_prop

theorem core_pos (m s u : ℝ) : 0 < core m s u := Real.exp_pos _

theorem core_integrable_one (m s : ℝ) (hm : 0 < m) (hs : 0 < s) : Integrable fun u => u ^ 1 * core m s u := by
  have h0 := core_integrable_even m s hm hs 0 (by norm_num)
  have h2 := core_integrable_even m s hm hs 2 (by norm_num)
  have hc := core_continuous m s hm
  refine (h0.add h2).mono' (by fun_prop) (Filter.Eventually.of_forall fun u => ?_)
  have := core_pos m s u
  simp only [Pi.add_apply, pow_zero, one_mul, pow_one, norm_mul, Real.norm_eq_abs, abs_of_pos this]
  have : |u| ≤ 1 + u ^ 2 := by
    rcases abs_cases u with ⟨e, _⟩ | ⟨e, _⟩ <;> rw [e] <;> nlinarith [sq_nonneg (u - 1), sq_nonneg (u + 1)]
  nlinarith

theorem core_odd (m s : ℝ) : ∫ u, u ^ 1 * core m s u = 0 := by
  have e := integral_neg_eq_self (fun u : ℝ => u ^ 1 * core m s u) volume
  have : (fun u : ℝ => (-u) ^ 1 * core m s (-u)) = fun u => -(u ^ 1 * core m s u) := by
    funext u
    unfold core
    rw [neg_div, abs_neg]
    ring
  rw [this, integral_neg] at e
  linarith

theorem alpha_pos (m : ℝ) (hm : 0 < m) : 0 < alpha m := by
  have h3 := Real.Gamma_pos_of_pos (show 0 < 3 / m by positivity)
  have h5 := Real.Gamma_pos_of_pos (show 0 < 5 / m by positivity)
  unfold alpha
  exact Real.sqrt_pos.2 (by positivity)

theorem alpha_sq (m : ℝ) (hm : 0 < m) : alpha m ^ 2 = 3 * Real.Gamma (3 / m) / Real.Gamma (5 / m) := by
  have h3 := Real.Gamma_pos_of_pos (show 0 < 3 / m by positivity)
  have h5 := Real.Gamma_pos_of_pos (show 0 < 5 / m by positivity)
  unfold alpha
  exact Real.sq_sqrt (by positivity)

/-- C190: the temperature of the deck fixes the ratio of the fourth and second moment of the shape, whatever the exponent. -/
theorem fourth_over_second (v0 m T0 mass : ℝ) (hm : 0 < m) (hT : 0 < T0) (hM : 0 < mass) :
    ∫ v, (v - v0) ^ 4 * shape v0 m T0 mass v = 3 * (T0 / mass) * ∫ v, (v - v0) ^ 2 * shape v0 m T0 mass v := by
  have hs : 0 < Real.sqrt (T0 / mass) := Real.sqrt_pos.2 (by positivity)
  have ha := alpha_pos m hm
  have e : ∀ k : ℕ, ∫ v, (v - v0) ^ k * shape v0 m T0 mass v = ∫ u, u ^ k * core m (alpha m * Real.sqrt (T0 / mass)) u := fun k =>
    integral_sub_right_eq_self (fun u => u ^ k * core m (alpha m * Real.sqrt (T0 / mass)) u) v0
  rw [e, e, core_full m _ hm (mul_pos ha hs) 4 (by decide), core_full m _ hm (mul_pos ha hs) 2 (by decide)]
  have h2 : (alpha m * Real.sqrt (T0 / mass)) ^ 2 = 3 * Real.Gamma (3 / m) / Real.Gamma (5 / m) * (T0 / mass) := by
    rw [mul_pow, alpha_sq m hm, Real.sq_sqrt (by positivity)]
  have h5 := Real.Gamma_pos_of_pos (show 0 < 5 / m by positivity)
  norm_num
  rw [show (alpha m * Real.sqrt (T0 / mass)) ^ 5 = (alpha m * Real.sqrt (T0 / mass)) ^ 3 * (alpha m * Real.sqrt (T0 / mass)) ^ 2 by ring, h2]
  generalize alpha m * Real.sqrt (T0 / mass) = s
  generalize Real.Gamma (3 / m) = G3 at *
  generalize Real.Gamma (5 / m) = G5 at *
  field_simp

/-- The factor by which the variance of the shape differs from `T0 / mass`. -/
noncomputable def excess (m : ℝ) : ℝ := 3 * Real.Gamma (3 / m) ^ 2 / (Real.Gamma (5 / m) * Real.Gamma (1 / m))

/-- C190: the variance of the shape. -/
theorem variance (v0 m T0 mass : ℝ) (hm : 0 < m) (hT : 0 < T0) (hM : 0 < mass) :
    ∫ v, (v - v0) ^ 2 * shape v0 m T0 mass v = excess m * (T0 / mass) * ∫ v, (v - v0) ^ 0 * shape v0 m T0 mass v := by
  have hs : 0 < Real.sqrt (T0 / mass) := Real.sqrt_pos.2 (by positivity)
  have ha := alpha_pos m hm
  have e : ∀ k : ℕ, ∫ v, (v - v0) ^ k * shape v0 m T0 mass v = ∫ u, u ^ k * core m (alpha m * Real.sqrt (T0 / mass)) u := fun k =>
    integral_sub_right_eq_self (fun u => u ^ k * core m (alpha m * Real.sqrt (T0 / mass)) u) v0
  rw [e, e, core_full m _ hm (mul_pos ha hs) 2 (by decide), core_full m _ hm (mul_pos ha hs) 0 (by decide)]
  have h2 : (alpha m * Real.sqrt (T0 / mass)) ^ 2 = 3 * Real.Gamma (3 / m) / Real.Gamma (5 / m) * (T0 / mass) := by
    rw [mul_pow, alpha_sq m hm, Real.sq_sqrt (by positivity)]
  have h5 := Real.Gamma_pos_of_pos (show 0 < 5 / m by positivity)
  have h1 := Real.Gamma_pos_of_pos (show 0 < 1 / m by positivity)
  unfold excess
  norm_num
  rw [show (alpha m * Real.sqrt (T0 / mass)) ^ 3 = (alpha m * Real.sqrt (T0 / mass)) * (alpha m * Real.sqrt (T0 / mass)) ^ 2 by ring, h2]
  generalize alpha m * Real.sqrt (T0 / mass) = s
  simp only [one_div] at *
  generalize Real.Gamma (3 / m) = G3 at *
  generalize Real.Gamma (5 / m) = G5 at *
  generalize Real.Gamma m⁻¹ = G1 at *
  field_simp

/-- C190: for a Maxwellian the variance is `T0 / mass`. -/
theorem excess_two : excess 2 = 1 := by
  unfold excess
  have e3 : Real.Gamma (3 / 2) = 1 / 2 * Real.Gamma (1 / 2) := by
    rw [show (3 : ℝ) / 2 = 1 / 2 + 1 by norm_num, Real.Gamma_add_one (by norm_num)]
  have e5 : Real.Gamma (5 / 2) = 3 / 2 * Real.Gamma (3 / 2) := by
    rw [show (5 : ℝ) / 2 = 3 / 2 + 1 by norm_num, Real.Gamma_add_one (by norm_num)]
  have h := Real.Gamma_pos_of_pos (show (0 : ℝ) < 1 / 2 by norm_num)
  rw [e5, e3]
  generalize Real.Gamma (1 / 2) = G at *
  field_simp

/-- For other exponents it is not: with `m = 1` the plasma has half the configured temperature. -/
theorem excess_one_partial : excess 1 = 1 / 2 := by
  unfold excess
  have e3 : Real.Gamma (3 / 1) = 2 := by
    rw [show (3 : ℝ) / 1 = (2 : ℕ) + 1 by norm_num, Real.Gamma_nat_eq_factorial]; norm_num
  have e5 : Real.Gamma (5 / 1) = 24 := by
    rw [show (5 : ℝ) / 1 = (4 : ℕ) + 1 by norm_num, Real.Gamma_nat_eq_factorial]; norm_num [Nat.factorial]
  have e1 : Real.Gamma (1 / 1) = 1 := by norm_num
  rw [e3, e5, e1]
  norm_num

/-! ### Refinement -/

theorem sum_mid (vmin vmax : ℝ) (nv : ℕ) (G : ℝ → ℝ) :
    (∑ j ∈ range nv, G (vax vmin vmax nv j)) * dv vmin vmax nv = Midpoint.mid (fun y => G (vmin + y)) (vmax - vmin) nv := by
  unfold Midpoint.mid
  rw [sum_mul]
  refine sum_congr rfl fun j hj => ?_
  rw [vax_eq _ _ _ _ (mem_range.1 hj)]
  unfold dv
  congr 2
  ring

theorem sum_tendsto (vmin vmax : ℝ) (h : vmin < vmax) (G : ℝ → ℝ) (hG : Continuous G) :
    Filter.Tendsto (fun nv => (∑ j ∈ range nv, G (vax vmin vmax nv j)) * dv vmin vmax nv) Filter.atTop (nhds (∫ v in vmin..vmax, G v)) := by
  have e : (fun nv => (∑ j ∈ range nv, G (vax vmin vmax nv j)) * dv vmin vmax nv) = Midpoint.mid (fun y => G (vmin + y)) (vmax - vmin) := by
    funext nv; exact sum_mid vmin vmax nv G
  rw [e]
  have t := Midpoint.tendsto_mid (fun y => G (vmin + y)) (by fun_prop) (vmax - vmin) (by linarith)
  rw [intervalIntegral.integral_comp_add_left (fun v => G v) vmin] at t
  simpa using t

/-- The moment of order `k` about the drift of one component at the cell `x`. -/
noncomputable def savedMoment {nx : ℕ} (c : Comp nx) (mass vmin vmax : ℝ) (nv : ℕ) (x : ZMod nx) (k : ℕ) : ℝ :=
  (∑ j ∈ range nv, (vax vmin vmax nv j - c.v0) ^ k * c.f mass vmin vmax nv x j) * dv vmin vmax nv

theorem savedMoment_eq {nx : ℕ} (hnx : 1 < nx) (c : Comp nx) (mass vmin vmax : ℝ) (h : vmin < vmax) (nv : ℕ) (hn : 0 < nv) (x : ZMod nx) (k : ℕ) :
    savedMoment c mass vmin vmax nv x k =
      c.n x * (((∑ j ∈ range nv, (fun v => (v - c.v0) ^ k * shape c.v0 c.m c.T0 mass v) (vax vmin vmax nv j)) * dv vmin vmax nv) /
        ((∑ j ∈ range nv, shape c.v0 c.m c.T0 mass (vax vmin vmax nv j)) * dv vmin vmax nv)) := by
  have hd := dv_pos vmin vmax h nv hn
  have hs : 0 < ∑ i ∈ range nv, shape c.v0 c.m c.T0 mass (vax vmin vmax nv i) :=
    sum_pos (fun _ _ => shape_pos _ _ _ _ _) (by simpa using hn.ne')
  unfold savedMoment Comp.f unit
  simp only [hnx, if_true]
  set S := ∑ i ∈ range nv, shape c.v0 c.m c.T0 mass (vax vmin vmax nv i) with hS
  have e : ∀ j, (vax vmin vmax nv j - c.v0) ^ k * (c.n x * (shape c.v0 c.m c.T0 mass (vax vmin vmax nv j) / S / dv vmin vmax nv)) =
      ((vax vmin vmax nv j - c.v0) ^ k * shape c.v0 c.m c.T0 mass (vax vmin vmax nv j)) * (c.n x / S / dv vmin vmax nv) := fun j => by ring
  rw [sum_congr rfl fun j _ => e j, ← sum_mul]
  generalize ∑ j ∈ range nv, (vax vmin vmax nv j - c.v0) ^ k * shape c.v0 c.m c.T0 mass (vax vmin vmax nv j) = A
  field_simp

theorem shape_continuous (v0 m T0 mass : ℝ) (hm : 0 < m) : Continuous (shape v0 m T0 mass) := by
  have : shape v0 m T0 mass = fun v => core m (alpha m * Real.sqrt (T0 / mass)) (v - v0) := by
    funext v; exact shape_core _ _ _ _ _
  rw [this]
  exact (core_continuous m _ hm).comp (by fun_prop)

theorem shape_integrable (v0 m T0 mass : ℝ) (hm : 0 < m) (hT : 0 < T0) (hM : 0 < mass) (k : ℕ) (hk : k = 1 ∨ Even k) :
    Integrable fun v => (v - v0) ^ k * shape v0 m T0 mass v := by
  have hs : 0 < alpha m * Real.sqrt (T0 / mass) := mul_pos (alpha_pos m hm) (Real.sqrt_pos.2 (by positivity))
  have base : Integrable fun u => u ^ k * core m (alpha m * Real.sqrt (T0 / mass)) u := by
    rcases hk with rfl | hk
    · exact core_integrable_one m _ hm hs
    · exact core_integrable_even m _ hm hs k hk
  exact base.comp_sub_right v0

/-- The limits of the moments about the drift, per particle. -/
noncomputable def target (m T0 mass : ℝ) : ℕ → ℝ
  | 0 => 1
  | 1 => 0
  | 2 => excess m * (T0 / mass)
  | 4 => 3 * (T0 / mass) * (excess m * (T0 / mass))
  | _ => 0

theorem moment_target (v0 m T0 mass : ℝ) (hm : 0 < m) (hT : 0 < T0) (hM : 0 < mass) (k : ℕ) (hk : k = 0 ∨ k = 1 ∨ k = 2 ∨ k = 4) :
    (∫ v, (v - v0) ^ k * shape v0 m T0 mass v) / (∫ v, (v - v0) ^ 0 * shape v0 m T0 mass v) = target m T0 mass k ∧
      0 < ∫ v, (v - v0) ^ 0 * shape v0 m T0 mass v := by
  have hs : 0 < alpha m * Real.sqrt (T0 / mass) := mul_pos (alpha_pos m hm) (Real.sqrt_pos.2 (by positivity))
  have e : ∀ k : ℕ, ∫ v, (v - v0) ^ k * shape v0 m T0 mass v = ∫ u, u ^ k * core m (alpha m * Real.sqrt (T0 / mass)) u := fun k =>
    integral_sub_right_eq_self (fun u => u ^ k * core m (alpha m * Real.sqrt (T0 / mass)) u) v0
  have pos : 0 < ∫ v, (v - v0) ^ 0 * shape v0 m T0 mass v := by
    rw [e, core_full m _ hm hs 0 (by decide)]
    have := Real.Gamma_pos_of_pos (show 0 < (((0 : ℕ) : ℝ) + 1) / m by positivity)
    positivity
  refine ⟨?_, pos⟩
  rcases hk with rfl | rfl | rfl | rfl
  · exact div_self pos.ne'
  · rw [show ∫ v, (v - v0) ^ 1 * shape v0 m T0 mass v = 0 by rw [e]; exact core_odd _ _, zero_div]; rfl
  · rw [variance v0 m T0 mass hm hT hM, mul_div_assoc, div_self pos.ne', mul_one]; rfl
  · rw [fourth_over_second v0 m T0 mass hm hT hM, variance v0 m T0 mass hm hT hM, ← mul_assoc, mul_div_assoc, div_self pos.ne', mul_one]; rfl

/-- C190: on a long and fine enough velocity grid, centred or not, every component has as closely as you like the configured
drift, the variance `excess m * T0 / mass` and the fourth moment `3 T0 / mass` times the variance. -/
theorem initial_accurate {nx : ℕ} (hnx : 1 < nx) (c : Comp nx) (mass : ℝ) (hm : 0 < c.m) (hT : 0 < c.T0) (hM : 0 < mass) (x : ZMod nx)
    (k : ℕ) (hk : k = 0 ∨ k = 1 ∨ k = 2 ∨ k = 4) (ε : ℝ) (hε : 0 < ε) :
    ∃ V : ℝ, ∀ vmin ≤ -V, ∀ vmax ≥ V, ∃ N : ℕ, ∀ nv ≥ N,
      |savedMoment c mass vmin vmax nv x k - c.n x * target c.m c.T0 mass k| < ε := by
  have hk' : k = 1 ∨ Even k := by rcases hk with rfl | rfl | rfl | rfl <;> [right; left; right; right] <;> first | rfl | decide
  have lim : ∀ k : ℕ, (k = 1 ∨ Even k) → Filter.Tendsto (fun p : ℝ × ℝ => ∫ v in p.1..p.2, (v - c.v0) ^ k * shape c.v0 c.m c.T0 mass v)
      (Filter.atBot ×ˢ Filter.atTop) (nhds (∫ v, (v - c.v0) ^ k * shape c.v0 c.m c.T0 mass v)) := fun k hk =>
    intervalIntegral_tendsto_integral (shape_integrable c.v0 c.m c.T0 mass hm hT hM k hk) Filter.tendsto_fst Filter.tendsto_snd
  obtain ⟨ht, pos⟩ := moment_target c.v0 c.m c.T0 mass hm hT hM k hk
  have l : Filter.Tendsto (fun p : ℝ × ℝ => c.n x * ((∫ v in p.1..p.2, (v - c.v0) ^ k * shape c.v0 c.m c.T0 mass v) /
      ∫ v in p.1..p.2, (v - c.v0) ^ 0 * shape c.v0 c.m c.T0 mass v)) (Filter.atBot ×ˢ Filter.atTop)
      (nhds (c.n x * target c.m c.T0 mass k)) := by
    rw [← ht]
    exact ((lim k hk').div (lim 0 (Or.inr (by decide))) pos.ne').const_mul _
  have ev := (l.eventually (Metric.ball_mem_nhds _ hε)).and ((lim 0 (Or.inr (by decide))).eventually (lt_mem_nhds pos))
  rw [Filter.eventually_prod_iff] at ev
  obtain ⟨p, hp, q, hq, hpq⟩ := ev
  obtain ⟨A, hA⟩ := Filter.eventually_atBot.1 hp
  obtain ⟨B, hB⟩ := Filter.eventually_atTop.1 hq
  refine ⟨max (max (-A) B) 1, fun vmin h1 vmax h2 => ?_⟩
  have a1 : vmin ≤ A := by
    have := (le_max_left (-A) B).trans (le_max_left (max (-A) B) 1)
    linarith
  have a2 : B ≤ vmax := ((le_max_right (-A) B).trans (le_max_left _ 1)).trans h2
  have a3 : (1 : ℝ) ≤ max (max (-A) B) 1 := le_max_right _ _
  have hv : vmin < vmax := by linarith
  obtain ⟨hb, hpos⟩ := hpq (hA vmin a1) (hB vmax a2)
  have hc := shape_continuous c.v0 c.m c.T0 mass hm
  have t := (((sum_tendsto vmin vmax hv (fun v => (v - c.v0) ^ k * shape c.v0 c.m c.T0 mass v) (by fun_prop)).div
    (sum_tendsto vmin vmax hv (fun v => (v - c.v0) ^ 0 * shape c.v0 c.m c.T0 mass v) (by fun_prop)) hpos.ne').const_mul (c.n x))
  obtain ⟨N, hN⟩ := Filter.eventually_atTop.1 (t.eventually (Metric.isOpen_ball.mem_nhds hb))
  refine ⟨N + 1, fun nv hnv => ?_⟩
  have := hN nv (by omega)
  rw [Real.dist_eq] at this
  rw [savedMoment_eq hnx c mass vmin vmax hv nv (by omega) x k]
  simpa using this

/-- A drifting flat-topped component on 64 cells meets the hypotheses. -/
noncomputable def flatTop : Comp 64 := { n := fun _ => 2, v0 := 1, T0 := 3, m := 4 }

example (x : ZMod 64) (j : ℕ) : 0 < flatTop.f 2 (-5) 7 32 x j :=
  component_pos flatTop 2 (-5) 7 (by norm_num) 32 (by norm_num) x (by show (0 : ℝ) < 2; norm_num) j

end Verif.VlasovInit
