import Verif.Model.Electrostatic
import Verif.Lemmas.Faddeeva
import Mathlib.MeasureTheory.Integral.Bochner.Basic
import Mathlib.Analysis.SpecialFunctions.Gaussian.GaussianIntegral
import Mathlib.MeasureTheory.Measure.Haar.NormedSpace
import Mathlib.Analysis.Calculus.Deriv.Star
import Mathlib.Analysis.Complex.CauchyIntegral
import Mathlib.Analysis.Analytic.Uniqueness
import Mathlib.MeasureTheory.Integral.Bochner.Set
import Mathlib.Topology.Order.Real

/-! C138: the plasma dispersion function, the dielectric function, and the absence of growing roots. -/
namespace Verif.Electrostatic
open Complex MeasureTheory
open scoped ComplexConjugate

/-- The Faddeeva function: entire, and `i/π ∫ exp(-t²)/(z - t) dt` in the upper half plane. -/
structure IsFaddeeva (w : ℂ → ℂ) : Prop where
  entire : Differentiable ℂ w
  upper : ∀ z : ℂ, 0 < z.im → w z = I / Real.pi * ∫ t : ℝ, (Real.exp (-t ^ 2) : ℂ) / (z - t)

/-- A Maxwellian whose thermal velocity `vth` obeys the convention `f`: `exp(-v²/(f vth²))`, normalised. -/
noncomputable def maxwellian (vth f v : ℝ) : ℝ := Real.exp (-v ^ 2 / (f * vth ^ 2)) / (Real.sqrt (Real.pi * f) * vth)

/-- The dielectric function of the linearised Vlasov-Poisson system for an unstable or driven frequency `w` (`Im (w/k) > 0`):
`1 - wp²/k² ∫ f0'(v) / (v - w/k) dv`. -/
noncomputable def vlasovEpsilon (wp k : ℝ) (f0 : ℝ → ℝ) (u : ℂ) : ℂ :=
  1 - (wp ^ 2 / k ^ 2 : ℝ) * ∫ v : ℝ, ((deriv f0 v : ℝ) : ℂ) / (v - u)

theorem ne_of_im {z : ℂ} (hz : 0 < z.im) (t : ℝ) : z - t ≠ 0 := by
  intro h
  have := congrArg Complex.im h
  simp at this
  linarith

theorem dist_im {z : ℂ} (hz : 0 < z.im) (t : ℝ) : z.im ≤ ‖z - t‖ := by
  have := abs_im_le_norm (z - t)
  simp only [sub_im, ofReal_im, sub_zero] at this
  exact (le_abs_self _).trans this

theorem integrable_gauss : Integrable fun t : ℝ => Real.exp (-t ^ 2) := by
  have := integrable_exp_neg_mul_sq (b := 1) one_pos
  simpa using this

theorem integrable_kernel {z : ℂ} (hz : 0 < z.im) : Integrable fun t : ℝ => (Real.exp (-t ^ 2) : ℂ) / (z - t) := by
  refine (integrable_gauss.div_const z.im).mono' ?_ (Filter.Eventually.of_forall fun t => ?_)
  · exact (Continuous.div (by fun_prop) (by fun_prop) fun t => ne_of_im hz t).aestronglyMeasurable
  · rw [norm_div, norm_real, Real.norm_of_nonneg (Real.exp_pos _).le]
    gcongr
    exact dist_im hz t

theorem integral_gauss_one : ∫ t : ℝ, Real.exp (-t ^ 2) = Real.sqrt Real.pi := by
  have := integral_gaussian 1
  simpa using this

theorem sqrt_pi_mul : (Real.sqrt Real.pi : ℂ) * Real.sqrt Real.pi = Real.pi := by
  exact_mod_cast Real.mul_self_sqrt Real.pi_pos.le

/-- The plasma dispersion function as an integral. -/
theorem dispersion_integral {w : ℂ → ℂ} (hw : IsFaddeeva w) {x : ℂ} (hx : 0 < x.im) :
    plasmaDispersion w x = 1 / Real.sqrt Real.pi * ∫ t : ℝ, (Real.exp (-t ^ 2) : ℂ) / (t - x) := by
  have hp : (Real.sqrt Real.pi : ℂ) ≠ 0 := by exact_mod_cast (Real.sqrt_pos.2 Real.pi_pos).ne'
  have hpi : (Real.pi : ℂ) ≠ 0 := by exact_mod_cast Real.pi_ne_zero
  unfold plasmaDispersion
  rw [hw.upper x hx]
  have e : ∫ t : ℝ, (Real.exp (-t ^ 2) : ℂ) / (t - x) = -∫ t : ℝ, (Real.exp (-t ^ 2) : ℂ) / (x - t) := by
    rw [← integral_neg]
    congr 1
    funext t
    rw [← neg_sub x (t : ℂ), div_neg]
  rw [e]
  obtain ⟨J, hJ⟩ : ∃ J : ℂ, J = ∫ t : ℝ, (Real.exp (-t ^ 2) : ℂ) / (x - t) := ⟨_, rfl⟩
  rw [← hJ, ← sqrt_pi_mul]
  field_simp
  rw [I_sq]; ring

/-- Its derivative as an integral. -/
theorem prime_integral {w : ℂ → ℂ} (hw : IsFaddeeva w) {x : ℂ} (hx : 0 < x.im) :
    plasmaDispersionPrime w x = -2 / Real.sqrt Real.pi * ∫ t : ℝ, (t : ℂ) * (Real.exp (-t ^ 2) : ℂ) / (t - x) := by
  have hp : (Real.sqrt Real.pi : ℂ) ≠ 0 := by exact_mod_cast (Real.sqrt_pos.2 Real.pi_pos).ne'
  unfold plasmaDispersionPrime
  rw [dispersion_integral hw hx]
  have hk : Integrable fun t : ℝ => (Real.exp (-t ^ 2) : ℂ) / (t - x) := by
    have := (integrable_kernel hx).neg
    refine this.congr (Filter.Eventually.of_forall fun t => ?_)
    show -((Real.exp (-t ^ 2) : ℂ) / (x - t)) = (Real.exp (-t ^ 2) : ℂ) / (t - x)
    rw [← neg_sub x (t : ℂ), div_neg]
  have hg : ∫ t : ℝ, (Real.exp (-t ^ 2) : ℂ) = Real.sqrt Real.pi := by
    rw [← integral_gauss_one]
    exact integral_ofReal
  have hi : Integrable fun t : ℝ => (Real.exp (-t ^ 2) : ℂ) := integrable_gauss.ofReal
  have e : ∫ t : ℝ, (t : ℂ) * (Real.exp (-t ^ 2) : ℂ) / (t - x) = Real.sqrt Real.pi + x * ∫ t : ℝ, (Real.exp (-t ^ 2) : ℂ) / (t - x) := by
    rw [← hg, ← integral_const_mul, ← integral_add hi (hk.const_mul x)]
    congr 1
    funext t
    have h : (t : ℂ) - x ≠ 0 := by
      rw [← neg_sub, neg_ne_zero]; exact ne_of_im hx t
    field_simp
    ring
  rw [e]
  obtain ⟨J, hJ⟩ : ∃ J : ℂ, J = ∫ t : ℝ, (Real.exp (-t ^ 2) : ℂ) / (t - x) := ⟨_, rfl⟩
  rw [← hJ]
  field_simp

/-- Two entire functions that agree in the upper half plane are equal. -/
theorem entire_eq {f g : ℂ → ℂ} (hf : Differentiable ℂ f) (hg : Differentiable ℂ g) (h : ∀ z : ℂ, 0 < z.im → f z = g z) : f = g := by
  have hopen : IsOpen {z : ℂ | 0 < z.im} := isOpen_lt continuous_const continuous_im
  have hev : f =ᶠ[nhds I] g := by
    filter_upwards [hopen.mem_nhds (show (0 : ℝ) < I.im by simp)] with z hz
    exact h z hz
  exact (Complex.analyticOnNhd_univ_iff_differentiable.2 hf).eq_of_eventuallyEq (Complex.analyticOnNhd_univ_iff_differentiable.2 hg) hev

/-- The Faddeeva function is unique: the hypothesis names one function. -/
theorem faddeeva_unique {w w' : ℂ → ℂ} (h : IsFaddeeva w) (h' : IsFaddeeva w') : w = w' :=
  entire_eq h.entire h'.entire fun z hz => by rw [h.upper z hz, h'.upper z hz]

/-- The hypothesis `IsFaddeeva` is met by exactly one function. -/
theorem faddeeva_exists : ∃! w : ℂ → ℂ, IsFaddeeva w :=
  ⟨Faddeeva.w, ⟨Faddeeva.entire, Faddeeva.upper⟩, fun _ h => faddeeva_unique h ⟨Faddeeva.entire, Faddeeva.upper⟩⟩

theorem maxwellian_deriv (vth f : ℝ) (v : ℝ) : deriv (maxwellian vth f) v = -2 * v / (f * vth ^ 2) * maxwellian vth f v := by
  have h : HasDerivAt (fun v : ℝ => -v ^ 2 / (f * vth ^ 2)) (-(2 * v) / (f * vth ^ 2)) v := by
    have := (((hasDerivAt_id v).pow 2).neg).div_const (f * vth ^ 2)
    simpa using this
  have h2 := (h.exp).div_const (Real.sqrt (Real.pi * f) * vth)
  have : deriv (maxwellian vth f) v = Real.exp (-v ^ 2 / (f * vth ^ 2)) * (-(2 * v) / (f * vth ^ 2)) / (Real.sqrt (Real.pi * f) * vth) := h2.deriv
  rw [this]
  unfold maxwellian
  ring

/-- C138: the dielectric function the code solves, at `x = w / (k vth √f)`, is that of the linearised Vlasov-Poisson system of a Maxwellian with
the stated convention for the thermal velocity, for every plasma and every growing or driven frequency. -/
theorem epsilon_vlasov {w : ℂ → ℂ} (hw : IsFaddeeva w) (wp vth k f : ℝ) (hv : 0 < vth) (hf : 0 < f) (hk : 0 < k) (x : ℂ) (hx : 0 < x.im) :
    plasmaEpsilon w wp vth k f x = vlasovEpsilon wp k (maxwellian vth f) (Real.sqrt f * vth * x) := by
  have hs : 0 < Real.sqrt f := Real.sqrt_pos.2 hf
  have hc : 0 < Real.sqrt f * vth := mul_pos hs hv
  have hp : 0 < Real.sqrt Real.pi := Real.sqrt_pos.2 Real.pi_pos
  unfold plasmaEpsilon vlasovEpsilon
  congr 1
  rw [prime_integral hw hx]
  have hsf : Real.sqrt f ^ 2 = f := Real.sq_sqrt hf.le
  -- substitution v = √f vth t
  have hsub := Measure.integral_comp_mul_left (fun v : ℝ => ((deriv (maxwellian vth f) v : ℝ) : ℂ) / (v - Real.sqrt f * vth * x)) (Real.sqrt f * vth)
  rw [abs_of_pos (inv_pos.2 hc)] at hsub
  have hpt : ∀ t : ℝ, ((deriv (maxwellian vth f) (Real.sqrt f * vth * t) : ℝ) : ℂ) / (((Real.sqrt f * vth * t : ℝ) : ℂ) - Real.sqrt f * vth * x)
      = ((-2 / (f * vth ^ 2 * (Real.sqrt Real.pi * Real.sqrt f * vth)) : ℝ) : ℂ) * ((t : ℂ) * (Real.exp (-t ^ 2) : ℂ) / (t - x)) := by
    intro t
    have ht : (t : ℂ) - x ≠ 0 := by rw [← neg_sub, neg_ne_zero]; exact ne_of_im hx t
    rw [maxwellian_deriv vth f]
    unfold maxwellian
    have he : -(Real.sqrt f * vth * t) ^ 2 / (f * vth ^ 2) = -t ^ 2 := by
      rw [mul_pow, mul_pow, hsf]; field_simp
    rw [he, Real.sqrt_mul Real.pi_pos.le]
    have hden : (((Real.sqrt f * vth * t : ℝ) : ℂ) - Real.sqrt f * vth * x) = ((Real.sqrt f * vth : ℝ) : ℂ) * (t - x) := by push_cast; ring
    rw [hden]
    have hcc : ((Real.sqrt f * vth : ℝ) : ℂ) ≠ 0 := by exact_mod_cast hc.ne'
    have h1 : (f : ℂ) ≠ 0 := by exact_mod_cast hf.ne'
    have h2 : (vth : ℂ) ≠ 0 := by exact_mod_cast hv.ne'
    have h3 : (Real.sqrt Real.pi : ℂ) ≠ 0 := by exact_mod_cast hp.ne'
    have h4 : (Real.sqrt f : ℂ) ≠ 0 := by exact_mod_cast hs.ne'
    push_cast
    field_simp
  simp only [hpt] at hsub
  rw [integral_const_mul] at hsub
  obtain ⟨J, hJ⟩ : ∃ J : ℂ, J = ∫ t : ℝ, (t : ℂ) * (Real.exp (-t ^ 2) : ℂ) / (t - x) := ⟨_, rfl⟩
  obtain ⟨K, hK⟩ : ∃ K : ℂ, K = ∫ v : ℝ, ((deriv (maxwellian vth f) v : ℝ) : ℂ) / (v - Real.sqrt f * vth * x) := ⟨_, rfl⟩
  rw [← hJ, ← hK] at hsub
  rw [← hJ, ← hK]
  have hcc : ((Real.sqrt f * vth : ℝ) : ℂ) ≠ 0 := by exact_mod_cast hc.ne'
  have hKv : K = ((Real.sqrt f * vth : ℝ) : ℂ) * (((-2 / (f * vth ^ 2 * (Real.sqrt Real.pi * Real.sqrt f * vth)) : ℝ) : ℂ) * J) := by
    rw [hsub, Complex.real_smul, ofReal_inv, ← mul_assoc, mul_inv_cancel₀ hcc, one_mul]
  rw [hKv]
  unfold chi
  have h1 : (f : ℂ) ≠ 0 := by exact_mod_cast hf.ne'
  have h2 : (vth : ℂ) ≠ 0 := by exact_mod_cast hv.ne'
  have h3 : (Real.sqrt Real.pi : ℂ) ≠ 0 := by exact_mod_cast hp.ne'
  have h4 : (Real.sqrt f : ℂ) ≠ 0 := by exact_mod_cast hs.ne'
  have h5 : (k : ℂ) ≠ 0 := by exact_mod_cast hk.ne'
  push_cast
  field_simp

/-- C138: a Maxwellian plasma has no growing wave: no root of the code's dielectric function lies above the real axis, for any wave number and any parameters;
an exact root therefore has `Im w ≤ 0`. -/
theorem no_growth {w : ℂ → ℂ} (hw : IsFaddeeva w) (wp vth k f : ℝ) (hf : 0 < f) (x : ℂ) (h0 : plasmaEpsilon w wp vth k f x = 0) : x.im ≤ 0 := by
  by_contra hx
  push Not at hx
  have hp : 0 < Real.sqrt Real.pi := Real.sqrt_pos.2 Real.pi_pos
  obtain ⟨a, b, rfl⟩ : ∃ a b : ℝ, x = ⟨a, b⟩ := ⟨x.re, x.im, rfl⟩
  have hb : 0 < b := hx
  -- the positive weight
  let g : ℝ → ℝ := fun t => Real.exp (-t ^ 2) / ((t - a) ^ 2 + b ^ 2)
  have hgpos : ∀ t, 0 < g t := fun t => by dsimp only [g]; positivity
  have hcont : Continuous g := by
    dsimp only [g]
    exact Continuous.div (by fun_prop) (by fun_prop) fun t => by positivity
  have hint : Integrable fun t : ℝ => (t : ℂ) * (Real.exp (-t ^ 2) : ℂ) / (t - ⟨a, b⟩) := by
    have hk := integrable_kernel (z := ⟨a, b⟩) hx
    have hsum := integrable_gauss.ofReal (𝕜 := ℂ) |>.sub (hk.const_mul ⟨a, b⟩)
    refine hsum.congr (Filter.Eventually.of_forall fun t => ?_)
    have h1 := ne_of_im (z := ⟨a, b⟩) hx t
    have h2 : (t : ℂ) - ⟨a, b⟩ ≠ 0 := by rw [← neg_sub, neg_ne_zero]; exact h1
    show ((Real.exp (-t ^ 2) : ℝ) : ℂ) - ⟨a, b⟩ * ((Real.exp (-t ^ 2) : ℂ) / (⟨a, b⟩ - t)) = (t : ℂ) * (Real.exp (-t ^ 2) : ℂ) / (t - ⟨a, b⟩)
    rw [← neg_sub (t : ℂ) ⟨a, b⟩, div_neg]
    field_simp
    ring
  have hre : ∀ t : ℝ, ((t : ℂ) * (Real.exp (-t ^ 2) : ℂ) / (t - ⟨a, b⟩)).re = t * (t - a) * g t := by
    intro t
    rw [div_re]
    have hn : normSq ((t : ℂ) - ⟨a, b⟩) = (t - a) ^ 2 + b ^ 2 := by
      rw [normSq_apply]; simp; ring
    rw [hn, ← ofReal_mul, ofReal_re, ofReal_im]
    simp only [sub_re, ofReal_re, g]
    ring
  have him : ∀ t : ℝ, ((t : ℂ) * (Real.exp (-t ^ 2) : ℂ) / (t - ⟨a, b⟩)).im = b * (t * g t) := by
    intro t
    rw [div_im]
    have hn : normSq ((t : ℂ) - ⟨a, b⟩) = (t - a) ^ 2 + b ^ 2 := by
      rw [normSq_apply]; simp; ring
    rw [hn, ← ofReal_mul, ofReal_re, ofReal_im]
    simp only [sub_im, ofReal_im, g]
    ring
  obtain ⟨J, hJ⟩ : ∃ J : ℂ, J = ∫ t : ℝ, (t : ℂ) * (Real.exp (-t ^ 2) : ℂ) / (t - ⟨a, b⟩) := ⟨_, rfl⟩
  have hJre : J.re = ∫ t : ℝ, t * (t - a) * g t := by
    have h : (∫ t : ℝ, ((t : ℂ) * (Real.exp (-t ^ 2) : ℂ) / (t - ⟨a, b⟩)).re) = J.re := by rw [hJ]; exact integral_re hint
    rw [← h]; simp only [hre]
  have hJim : J.im = b * ∫ t : ℝ, t * g t := by
    have h : (∫ t : ℝ, ((t : ℂ) * (Real.exp (-t ^ 2) : ℂ) / (t - ⟨a, b⟩)).im) = J.im := by rw [hJ]; exact integral_im hint
    rw [← h]; simp only [him]; rw [integral_const_mul]
  have i1 : Integrable fun t : ℝ => t * (t - a) * g t := by
    have := hint.re
    refine this.congr (Filter.Eventually.of_forall fun t => ?_)
    exact hre t
  have i2 : Integrable fun t : ℝ => t * g t := by
    have := hint.im.const_mul b⁻¹
    refine this.congr (Filter.Eventually.of_forall fun t => ?_)
    show b⁻¹ * ((t : ℂ) * (Real.exp (-t ^ 2) : ℂ) / (t - ⟨a, b⟩)).im = _
    rw [him t]; field_simp
  -- the equation
  unfold plasmaEpsilon at h0
  rw [prime_integral hw hx, ← hJ] at h0
  have hchi : 0 ≤ chi wp vth k f := by unfold chi; positivity
  obtain ⟨c, hc⟩ : ∃ c : ℝ, c = chi wp vth k f * (2 / Real.sqrt Real.pi) := ⟨_, rfl⟩
  have hc0 : 0 ≤ c := by rw [hc]; positivity
  have heq : (1 : ℂ) + c * J = 0 := by
    rw [hc, ← h0]; push_cast; ring
  have hR := congrArg Complex.re heq
  have hI := congrArg Complex.im heq
  simp only [add_re, one_re, re_ofReal_mul, zero_re, add_im, one_im, im_ofReal_mul, zero_im, zero_add] at hR hI
  have hcne : c ≠ 0 := by
    intro h; rw [h] at hR; simp at hR
  have hJ0 : J.im = 0 := (mul_eq_zero.1 hI).resolve_left hcne
  rw [hJim] at hJ0
  have ht0 : ∫ t : ℝ, t * g t = 0 := (mul_eq_zero.1 hJ0).resolve_left hb.ne'
  have hsq : J.re = ∫ t : ℝ, t ^ 2 * g t := by
    have e : (fun t : ℝ => t ^ 2 * g t) = fun t => t * (t - a) * g t + a * (t * g t) := by funext t; ring
    rw [e, integral_add i1 (i2.const_mul a), integral_const_mul, ht0, hJre]; ring
  have hpos : 0 ≤ J.re := by
    rw [hsq]
    exact integral_nonneg fun t => mul_nonneg (sq_nonneg t) (hgpos t).le
  nlinarith

/-- C138: waves come in pairs running left and right: with `x` also `-conj x` is a root. -/
theorem faddeeva_symm {w : ℂ → ℂ} (hw : IsFaddeeva w) (z : ℂ) : w (-conj z) = conj (w z) := by
  have hd : Differentiable ℂ fun z => conj (w (-conj z)) := by
    intro z
    have h1 : DifferentiableAt ℂ (fun z => w (-z)) (conj z) := (hw.entire.comp differentiable_neg).differentiableAt
    have := h1.conj_conj
    simpa [Function.comp_def] using this
  have h : (fun z => conj (w (-conj z))) = w := by
    refine entire_eq hd hw.entire fun z hz => ?_
    have hz' : 0 < (-conj z).im := by simpa using hz
    rw [hw.upper z hz, hw.upper _ hz', map_mul, map_div₀, conj_I, conj_ofReal, ← integral_conj, ← integral_neg_eq_self]
    rw [neg_div, neg_mul, ← mul_neg, ← integral_neg]
    congr 2
    funext t
    rw [map_div₀, conj_ofReal]
    have e : conj (-conj z - ((-t : ℝ) : ℂ)) = -(z - t) := by simp; ring
    rw [e, div_neg, neg_neg, neg_sq]
  have := congrFun h z
  rw [← this, conj_conj]

/-- C138: every root is strictly damped: no wave of a Maxwellian plasma grows or rings for ever. -/
theorem strictly_damped {w : ℂ → ℂ} (hw : IsFaddeeva w) (wp vth k f : ℝ) (hf : 0 < f) (x : ℂ) (h0 : plasmaEpsilon w wp vth k f x = 0) : x.im < 0 := by
  refine lt_of_le_of_ne (no_growth hw wp vth k f hf x h0) fun him => ?_
  obtain ⟨a, rfl⟩ : ∃ a : ℝ, x = (a : ℂ) := ⟨x.re, by apply Complex.ext <;> simp [him]⟩
  have hp : 0 < Real.sqrt Real.pi := Real.sqrt_pos.2 Real.pi_pos
  have hchi : 0 ≤ chi wp vth k f := by unfold chi; positivity
  have hwe : w = Faddeeva.w := faddeeva_unique hw ⟨Faddeeva.entire, Faddeeva.upper⟩
  have hsym : w (-(a : ℂ)) = conj (w a) := by
    have := faddeeva_symm hw (a : ℂ)
    rwa [conj_ofReal] at this
  have hr : (w a).re = Real.exp (-a ^ 2) := by
    have := Faddeeva.reflection (a : ℂ)
    rw [← hwe, hsym, add_conj] at this
    have e : 2 * cexp (-(a : ℂ) ^ 2) = ((2 * Real.exp (-a ^ 2) : ℝ) : ℂ) := by push_cast; rfl
    rw [e] at this
    have h : 2 * (w a).re = 2 * Real.exp (-a ^ 2) := by exact_mod_cast this
    linarith
  obtain ⟨c, hc⟩ : ∃ c : ℝ, c = chi wp vth k f := ⟨_, rfl⟩
  obtain ⟨u, v, huv⟩ : ∃ u v : ℝ, w a = ⟨u, v⟩ := ⟨_, _, rfl⟩
  have heq : plasmaEpsilon w wp vth k f a = ((1 + 2 * c * (1 - a * v * Real.sqrt Real.pi) : ℝ) : ℂ) + ((2 * c * a * u * Real.sqrt Real.pi : ℝ) : ℂ) * I := by
    unfold plasmaEpsilon plasmaDispersionPrime plasmaDispersion
    rw [← hc, huv]
    apply Complex.ext <;> simp <;> ring
  rw [heq] at h0
  have hR := congrArg Complex.re h0
  have hI := congrArg Complex.im h0
  simp only [add_re, add_im, ofReal_re, ofReal_im, re_ofReal_mul, im_ofReal_mul, I_re, I_im, mul_zero, mul_one, add_zero, zero_add, zero_re, zero_im] at hR hI
  have hu : 0 < u := by
    rw [huv] at hr
    have : u = Real.exp (-a ^ 2) := hr
    rw [this]; exact Real.exp_pos _
  have hca : c * a = 0 := by
    have h1 : (c * a) * (2 * u * Real.sqrt Real.pi) = 0 := by linarith
    exact (mul_eq_zero.1 h1).resolve_right (by positivity)
  have : 1 + 2 * c * (1 - a * v * Real.sqrt Real.pi) = 1 + 2 * c := by
    have : 1 + 2 * c * (1 - a * v * Real.sqrt Real.pi) = 1 + 2 * c - 2 * (c * a) * v * Real.sqrt Real.pi := by ring
    rw [this, hca]; ring
  rw [this] at hR
  rw [← hc] at hchi
  linarith

/-- C138: if `newton` converged, what `get_roots_to_electrostatic_dispersion` returns is strictly damped. -/
theorem roots_damped {w : ℂ → ℂ} (hw : IsFaddeeva w) (newton : (ℂ → ℂ) → ℂ → ℂ) (wp vth k f : ℝ) (hv : 0 < vth) (hk : 0 < k) (hf : 0 < f)
    (given : Option ℂ) (hn : plasmaEpsilon w wp vth k f (newton (plasmaEpsilon w wp vth k f) (guess wp vth k given)) = 0) : (roots w newton wp vth k f given).im < 0 := by
  obtain ⟨x, hx⟩ : ∃ x, x = newton (plasmaEpsilon w wp vth k f) (guess wp vth k given) := ⟨_, rfl⟩
  have h := strictly_damped hw wp vth k f hf x (by rw [hx]; exact hn)
  unfold roots
  rw [← hx]
  have e : x * k * vth * (Real.sqrt f : ℝ) = ((k * vth * Real.sqrt f : ℝ) : ℂ) * x := by push_cast; ring
  rw [e, im_ofReal_mul]
  exact mul_neg_of_pos_of_neg (by positivity) h

/-- C138: a given guess is used as it is; without one the search starts on the real axis at the positive Bohm-Gross
frequency `ω² = ωp² + 3 (k vth)²`. -/
theorem guess_bohm_gross (wp vth k : ℝ) (g : ℂ) : guess wp vth k (some g) = g ∧ (guess wp vth k none).im = 0 ∧
    0 ≤ (guess wp vth k none).re ∧ guess wp vth k none ^ 2 = ((wp ^ 2 + 3 * k ^ 2 * vth ^ 2 : ℝ) : ℂ) := by
  refine ⟨rfl, ofReal_im _, ?_, ?_⟩
  · exact Real.sqrt_nonneg _
  · unfold guess
    rw [← ofReal_pow, Real.sq_sqrt (by positivity)]
    push_cast; ring

theorem epsilon_symm {w : ℂ → ℂ} (hw : IsFaddeeva w) (wp vth k f : ℝ) (x : ℂ) :
    plasmaEpsilon w wp vth k f (-conj x) = conj (plasmaEpsilon w wp vth k f x) ∧
    (plasmaEpsilon w wp vth k f x = 0 ↔ plasmaEpsilon w wp vth k f (-conj x) = 0) := by
  have h : plasmaEpsilon w wp vth k f (-conj x) = conj (plasmaEpsilon w wp vth k f x) := by
    unfold plasmaEpsilon plasmaDispersionPrime plasmaDispersion
    rw [faddeeva_symm hw]
    simp only [map_sub, map_mul, map_add, map_one, map_neg, conj_ofReal, conj_I, map_ofNat]
    ring
  refine ⟨h, ?_⟩
  rw [h, map_eq_zero]

/-- C138: the roots depend on the plasma through `k vth / wp` alone. -/
theorem epsilon_scaling (w : ℂ → ℂ) (wp vth k f wp' vth' k' : ℝ) (h : wp / (vth * k) = wp' / (vth' * k')) (x : ℂ) :
    plasmaEpsilon w wp vth k f x = plasmaEpsilon w wp' vth' k' f x := by
  unfold plasmaEpsilon chi; rw [h]

/-- Non-vacuity: the plasma of the code's own table (`wp = vth = 1`, `f = 2`, `k = 0.3`), with the Faddeeva function built above. -/
example (x : ℂ) (hx : 0 < x.im) : plasmaEpsilon Faddeeva.w 1 1 (3/10) 2 x = vlasovEpsilon 1 (3/10) (maxwellian 1 2) (Real.sqrt 2 * (1 : ℝ) * x) :=
  epsilon_vlasov ⟨Faddeeva.entire, Faddeeva.upper⟩ 1 1 (3/10) 2 (by norm_num) (by norm_num) (by norm_num) x hx

end Verif.Electrostatic
