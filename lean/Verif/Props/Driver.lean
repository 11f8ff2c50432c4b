import Verif.Model.Driver
import Mathlib.Analysis.SpecialFunctions.Trigonometric.DerivHyp
import Mathlib.Tactic.Linarith
import Mathlib.Tactic.FieldSimp
import Mathlib.Tactic.Positivity
import Mathlib.Tactic.Ring

/-! C44 (envelopes), C64 (drivers), C65 (stochastic driver). -/
namespace Verif.Driver
open Real

theorem tanh_form (x : ℝ) : tanh x = 1 - 2 / (exp (2 * x) + 1) := by
  have h : exp (2 * x) = exp x * exp x := by rw [← exp_add]; ring_nf
  rw [tanh_eq, h, exp_neg]
  have := exp_pos x
  field_simp
  ring

theorem tanh_lt {x y : ℝ} (h : x < y) : tanh x < tanh y := by
  rw [tanh_form, tanh_form]
  have h1 : exp (2 * x) < exp (2 * y) := exp_lt_exp.2 (by linarith)
  have : 2 / (exp (2 * y) + 1) < 2 / (exp (2 * x) + 1) := by
    apply div_lt_div_of_pos_left <;> linarith [exp_pos (2 * x)]
  linarith

theorem tanh_le {x y : ℝ} (h : x ≤ y) : tanh x ≤ tanh y := by
  rcases h.lt_or_eq with h | h
  · exact (tanh_lt h).le
  · rw [h]

/-- The bare envelope: between 0 and 1, `1` inside and `0` far outside. -/
noncomputable def shape (e : Envelope) (x : ℝ) : ℝ :=
  (tanh ((x - (e.center - e.width / 2)) / e.rise) - tanh ((x - (e.center + e.width / 2)) / e.rise)) / 2

theorem eval_bump (e : Envelope) (h : e.trough = false) (x : ℝ) : e.eval x = e.baseline + e.height * shape e x := by
  unfold Envelope.eval shape
  rw [h]
  have : (0.5 : ℝ) = 1 / 2 := by norm_num
  simp only [this, Bool.false_eq_true, if_false]
  ring_nf

theorem eval_trough (e : Envelope) (h : e.trough = true) (x : ℝ) : e.eval x = e.baseline + e.height * (1 - shape e x) := by
  unfold Envelope.eval shape
  rw [h]
  have : (0.5 : ℝ) = 1 / 2 := by norm_num
  simp only [this, if_true]
  ring_nf

theorem shape_range (e : Envelope) (hr : 0 < e.rise) (hw : 0 ≤ e.width) (x : ℝ) : 0 ≤ shape e x ∧ shape e x < 1 := by
  unfold shape
  have h1 := tanh_lt_one ((x - (e.center - e.width / 2)) / e.rise)
  have h2 := neg_one_lt_tanh ((x - (e.center + e.width / 2)) / e.rise)
  have h3 : tanh ((x - (e.center + e.width / 2)) / e.rise) ≤ tanh ((x - (e.center - e.width / 2)) / e.rise) :=
    tanh_le (by gcongr ?_ / _; linarith)
  constructor <;> linarith

/-- C44: a bump or trough with non-negative height lies between its baseline and baseline plus
height. -/
theorem envelope_range (e : Envelope) (hr : 0 < e.rise) (hw : 0 ≤ e.width) (hh : 0 ≤ e.height) (x : ℝ) :
    e.baseline ≤ e.eval x ∧ e.eval x ≤ e.baseline + e.height := by
  obtain ⟨h0, h1⟩ := shape_range e hr hw x
  cases ht : e.trough
  · rw [eval_bump e ht]
    constructor <;> nlinarith
  · rw [eval_trough e ht]
    constructor <;> nlinarith

/-- C44: for negative height the interval is turned over. -/
theorem envelope_range_neg (e : Envelope) (hr : 0 < e.rise) (hw : 0 ≤ e.width) (hh : e.height ≤ 0) (x : ℝ) :
    e.baseline + e.height ≤ e.eval x ∧ e.eval x ≤ e.baseline := by
  obtain ⟨h0, h1⟩ := shape_range e hr hw x
  cases ht : e.trough
  · rw [eval_bump e ht]
    constructor <;> nlinarith
  · rw [eval_trough e ht]
    constructor <;> nlinarith

/-- C44: the trough is the complement of the bump. -/
theorem envelope_complement (e : Envelope) (x : ℝ) :
    { e with trough := true }.eval x + { e with trough := false }.eval x = 2 * e.baseline + e.height := by
  rw [eval_trough _ rfl, eval_bump _ rfl]
  unfold shape
  ring

/-- C44: the envelope is symmetric about its centre. -/
theorem envelope_symmetric (e : Envelope) (d : ℝ) : e.eval (e.center + d) = e.eval (e.center - d) := by
  have : shape e (e.center + d) = shape e (e.center - d) := by
    unfold shape
    have a1 : (e.center + d - (e.center - e.width / 2)) / e.rise = -((e.center - d - (e.center + e.width / 2)) / e.rise) := by ring
    have a2 : (e.center + d - (e.center + e.width / 2)) / e.rise = -((e.center - d - (e.center - e.width / 2)) / e.rise) := by ring
    rw [a1, a2, tanh_neg, tanh_neg]; ring
  cases ht : e.trough
  · rw [eval_bump e ht, eval_bump e ht, this]
  · rw [eval_trough e ht, eval_trough e ht, this]

/-- Difference of two `tanh`. -/
theorem tanh_sub_tanh (x y : ℝ) : tanh x - tanh y = sinh (x - y) / (cosh x * cosh y) := by
  rw [tanh_eq_sinh_div_cosh, tanh_eq_sinh_div_cosh, sinh_sub]
  have := (cosh_pos x).ne'; have := (cosh_pos y).ne'
  field_simp

/-- C44: the bump falls off on both sides of its centre. -/
theorem shape_decreasing (e : Envelope) (hr : 0 < e.rise) (hw : 0 ≤ e.width) (x y : ℝ) (h : |x - e.center| ≤ |y - e.center|) :
    shape e y ≤ shape e x := by
  have form : ∀ z, shape e z = sinh (e.width / e.rise) / (cosh (2 * (z - e.center) / e.rise) + cosh (e.width / e.rise)) := by
    intro z
    unfold shape
    rw [tanh_sub_tanh]
    have hc : cosh ((z - (e.center - e.width / 2)) / e.rise) * cosh ((z - (e.center + e.width / 2)) / e.rise) =
        (cosh (2 * (z - e.center) / e.rise) + cosh (e.width / e.rise)) / 2 := by
      have a1 : 2 * (z - e.center) / e.rise = (z - (e.center - e.width / 2)) / e.rise + (z - (e.center + e.width / 2)) / e.rise := by ring
      have a2 : e.width / e.rise = (z - (e.center - e.width / 2)) / e.rise - (z - (e.center + e.width / 2)) / e.rise := by ring
      rw [a1, a2, cosh_add, cosh_sub]; ring
    rw [hc]
    have a2 : (z - (e.center - e.width / 2)) / e.rise - (z - (e.center + e.width / 2)) / e.rise = e.width / e.rise := by ring
    rw [a2]
    have h1 := cosh_pos (2 * (z - e.center) / e.rise)
    have h2 := cosh_pos (e.width / e.rise)
    field_simp
  rw [form, form]
  have hs : 0 ≤ sinh (e.width / e.rise) := sinh_nonneg_iff.2 (by positivity)
  have hcc : cosh (2 * (x - e.center) / e.rise) ≤ cosh (2 * (y - e.center) / e.rise) := by
    rw [cosh_le_cosh, abs_div, abs_div, abs_mul, abs_mul]
    gcongr
  have h1 := cosh_pos (2 * (x - e.center) / e.rise)
  have h2 := cosh_pos (e.width / e.rise)
  gcongr

/-- C44: the largest value of a bump is at its centre; it stays below baseline plus height by the
factor `tanh (width / (2 rise))`. -/
theorem envelope_peak (e : Envelope) (hr : 0 < e.rise) (hw : 0 ≤ e.width) (hh : 0 ≤ e.height) (ht : e.trough = false) (x : ℝ) :
    e.eval x ≤ e.eval e.center ∧ e.eval e.center = e.baseline + e.height * tanh (e.width / (2 * e.rise)) := by
  constructor
  · rw [eval_bump e ht, eval_bump e ht]
    have := shape_decreasing e hr hw e.center x (by simp)
    gcongr
  · rw [eval_bump e ht]
    congr 2
    unfold shape
    have a1 : (e.center - (e.center - e.width / 2)) / e.rise = e.width / (2 * e.rise) := by field_simp; ring
    have a2 : (e.center - (e.center + e.width / 2)) / e.rise = -(e.width / (2 * e.rise)) := by field_simp; ring
    rw [a1, a2, tanh_neg]; ring

/-- C44: at the nominal edges the bump has half the value `tanh (width / rise)`. -/
theorem envelope_edge (e : Envelope) (ht : e.trough = false) :
    e.eval (e.center + e.width / 2) = e.baseline + e.height * (tanh (e.width / e.rise) / 2) := by
  rw [eval_bump e ht]
  congr 2
  unfold shape
  have a1 : (e.center + e.width / 2 - (e.center - e.width / 2)) / e.rise = e.width / e.rise := by ring
  have a2 : (e.center + e.width / 2 - (e.center + e.width / 2)) / e.rise = 0 := by ring
  rw [a1, a2, tanh_zero]; ring

/-- C44: outside its width the bump dies out exponentially. -/
theorem envelope_far (e : Envelope) (hr : 0 < e.rise) (hw : 0 ≤ e.width) (hh : 0 ≤ e.height) (ht : e.trough = false) (x : ℝ) :
    e.eval x ≤ e.baseline + e.height * exp (-2 * (|x - e.center| - e.width / 2) / e.rise) := by
  rw [eval_bump e ht]
  have key : shape e (e.center + |x - e.center|) ≤ exp (-2 * (|x - e.center| - e.width / 2) / e.rise) := by
    set d := |x - e.center|
    unfold shape
    have h1 := tanh_lt_one ((e.center + d - (e.center - e.width / 2)) / e.rise)
    rw [tanh_form ((e.center + d - (e.center + e.width / 2)) / e.rise)]
    set u := (e.center + d - (e.center + e.width / 2)) / e.rise with hu
    have hu' : -2 * (d - e.width / 2) / e.rise = -(2 * u) := by rw [hu]; ring
    rw [hu', exp_neg]
    have hp := exp_pos (2 * u)
    have : 2 / (exp (2 * u) + 1) ≤ 2 * (exp (2 * u))⁻¹ := by
      rw [div_eq_mul_inv]
      gcongr
      linarith
    linarith
  have hs : shape e x ≤ shape e (e.center + |x - e.center|) := shape_decreasing e hr hw _ _ (by simp)
  have := hs.trans key
  gcongr

/-- C44 needs a positive rise: with a negative one the bump dips below its baseline. -/
theorem envelope_negative_rise : ∃ e : Envelope, 0 ≤ e.width ∧ 0 ≤ e.height ∧ e.trough = false ∧ ∃ x, e.eval x < e.baseline := by
  refine ⟨⟨0, 2, -1, 0, 1, false⟩, by norm_num, by norm_num, rfl, 0, ?_⟩
  rw [eval_bump _ rfl]
  unfold shape
  have := tanh_lt (show (-1 : ℝ) < 1 by norm_num)
  rw [tanh_neg] at this
  norm_num
  linarith

/-- C44: the older two-sided envelope with equal rises on both sides is an ordinary bump. -/
theorem getEnvelope_bump (w pL pR x : ℝ) :
    getEnvelope w w pL pR x = (Envelope.eval ⟨(pL + pR) / 2, pR - pL, w, 0, 1, false⟩ x) := by
  unfold getEnvelope Envelope.eval
  simp only [Bool.false_eq_true, if_false]
  have : (0.5 : ℝ) = 1 / 2 := by norm_num
  rw [this]
  ring_nf

/-- C44: with different rises it is still between 0 and 1 where it is meant to be on, and between
-1 and 1 elsewhere. -/
theorem getEnvelope_inside (wL wR pL pR x : ℝ) (hL : 0 < wL) (hR : 0 < wR) :
    |getEnvelope wL wR pL pR x| < 1 ∧ (pL ≤ x → x ≤ pR → 0 ≤ getEnvelope wL wR pL pR x) := by
  unfold getEnvelope
  have a1 := tanh_lt_one ((x - pL) / wL); have a2 := neg_one_lt_tanh ((x - pL) / wL)
  have b1 := tanh_lt_one ((x - pR) / wR); have b2 := neg_one_lt_tanh ((x - pR) / wR)
  have : (0.5 : ℝ) = 1 / 2 := by norm_num
  rw [this]
  refine ⟨by rw [abs_lt]; constructor <;> linarith, fun h1 h2 => ?_⟩
  have c1 : 0 ≤ tanh ((x - pL) / wL) := by
    have := tanh_le (show (0 : ℝ) ≤ (x - pL) / wL from div_nonneg (by linarith) hL.le)
    rwa [tanh_zero] at this
  have c2 : tanh ((x - pR) / wR) ≤ 0 := by
    have := tanh_le (show (x - pR) / wR ≤ (0 : ℝ) from div_nonpos_of_nonpos_of_nonneg (by linarith) hR.le)
    rwa [tanh_zero] at this
  linarith

/-- C44 fails for different rises: outside its range the envelope becomes negative. -/
theorem getEnvelope_negative : ∃ x, getEnvelope 1 2 0 1 x < 0 := by
  refine ⟨-3, ?_⟩
  unfold getEnvelope
  have := tanh_lt (show ((-3 : ℝ) - 0) / 1 < (-3 - 1) / 2 by norm_num)
  linarith

example : ∃ e : Envelope, 0 < e.rise ∧ 0 ≤ e.width ∧ 0 ≤ e.height ∧ e.trough = false := ⟨⟨5, 4, 1, 0, 2, false⟩, by norm_num⟩

/-! ### Drivers (C64) -/

/-- C64: a driver given with both wave number and frequency keeps them. -/
theorem resolveAKW_both (c k w : ℝ) : resolveAKW c (some k) (some w) = .ok (k, w) := by
  simp [resolveAKW]

/-- C64, full statement: a missing wave number or frequency is completed from `w = c k`.  The code
does not do this: it fails for every such driver. -/
theorem resolveAKW_one_fails (c : ℝ) (k w : ℝ) :
    resolveAKW c (some k) none = .error "TypeError" ∧ resolveAKW c none (some w) = .error "TypeError" := by
  simp [resolveAKW]

theorem resolveAKW_iff (c : ℝ) (k0 w0 : Option ℝ) (kw : ℝ × ℝ) : resolveAKW c k0 w0 = .ok kw ↔ k0 = some kw.1 ∧ w0 = some kw.2 := by
  unfold resolveAKW
  cases k0 <;> cases w0 <;> simp [Prod.ext_iff]

theorem foldl_add (l : List EMDriver) (F : EMDriver → ℝ) (c : ℝ) : l.foldl (fun tot d => tot + F d) c = c + (l.map F).sum := by
  induction l generalizing c with
  | nil => simp
  | cons d l ih => simp only [List.foldl_cons, List.map_cons, List.sum_cons]; rw [ih]; ring

/-- C64: the longitudinal field is the sum of the drivers' travelling waves; the order of the
drivers does not matter. -/
theorem exField_sum (ds : List EMDriver) (x t : ℝ) : exField ds x t = (ds.map fun d => exSingle d x t).sum := by
  unfold exField; rw [foldl_add]; ring

theorem exField_perm (ds ds' : List EMDriver) (h : ds.Perm ds') (x t : ℝ) : exField ds x t = exField ds' x t := by
  rw [exField_sum, exField_sum]; exact (h.map _).sum_eq

theorem exField_append (ds ds' : List EMDriver) (x t : ℝ) : exField (ds ++ ds') x t = exField ds x t + exField ds' x t := by
  rw [exField_sum, exField_sum, exField_sum]; simp

/-- C64: a driver is a wave of amplitude `(w0 + dw0) a0`, wave number `k0` and frequency `w0 + dw0`,
under its temporal envelope at the time and its spatial envelope at the position. -/
theorem exSingle_wave (d : EMDriver) (x t : ℝ) :
    exSingle d x t = d.time.eval t * d.space.eval x * ((d.w0 + d.dw0) * d.a0 * sin (d.k0 * x - (d.w0 + d.dw0) * t)) := by
  unfold exSingle spaceTime; ring

/-- C64: the field never exceeds the sum of the amplitudes, for bumps of height at most one. -/
theorem exSingle_bound (d : EMDriver) (x t : ℝ) (h0 : 0 ≤ spaceTime d.time d.space x t) (h1 : spaceTime d.time d.space x t ≤ 1) :
    |exSingle d x t| ≤ |(d.w0 + d.dw0) * d.a0| := by
  unfold exSingle
  rw [mul_assoc (spaceTime d.time d.space x t), abs_mul, abs_mul, abs_of_nonneg h0]
  have := abs_sin_le_one (d.k0 * x - (d.w0 + d.dw0) * t)
  have hp := abs_nonneg ((d.w0 + d.dw0) * d.a0)
  calc _ ≤ 1 * |(d.w0 + d.dw0) * d.a0| * 1 := by gcongr
    _ = _ := by ring

/-- C64: no drivers, no field; and a driver is off where its envelope is zero. -/
theorem exField_off (ds : List EMDriver) (x t : ℝ) (h : ∀ d ∈ ds, spaceTime d.time d.space x t = 0) : exField ds x t = 0 := by
  rw [exField_sum]
  refine List.sum_eq_zero fun y hy => ?_
  obtain ⟨d, hd, rfl⟩ := List.mem_map.1 hy
  unfold exSingle; rw [h d hd]; ring

/-- C64: the point source sits at the axis point nearest to its centre. -/
theorem nearest_spec (c : ℝ) (l : List ℝ) (hl : l ≠ []) :
    nearest c l < l.length ∧ (∀ y ∈ l, |l.getD (nearest c l) 0 - c| ≤ |y - c|) := by
  induction l with
  | nil => exact absurd rfl hl
  | cons x l ih =>
    cases l with
    | nil => simp [nearest]
    | cons y l =>
      obtain ⟨h1, h2⟩ := ih (by simp)
      unfold nearest
      simp only
      split
      case isTrue h =>
        refine ⟨by simp, fun z hz => ?_⟩
        rw [List.getD_cons_zero]
        rcases List.mem_cons.1 hz with rfl | hz
        · exact le_rfl
        · exact h.trans (h2 z hz)
      case isFalse h =>
        refine ⟨by simp only [List.length_cons] at h1 ⊢; omega, fun z hz => ?_⟩
        rw [List.getD_cons_succ]
        rcases List.mem_cons.1 hz with rfl | hz
        · exact (not_le.1 h).le
        · exact h2 z hz

/-- C64: a point source drives exactly one point of the axis, with total strength
`2 w c a0` times its time envelope; all other points see nothing. -/
theorem eySingle_point (xax : List ℝ) (c : ℝ) (d : EMDriver) (hd : d.point = true) (t : ℝ) (hdx : xax.getD 1 0 - xax.getD 0 0 ≠ 0) (i : ℕ) :
    (i ≠ nearest d.space.center xax → eySingle xax c d t i = 0) ∧
    (i = nearest d.space.center xax → eySingle xax c d t i * (xax.getD 1 0 - xax.getD 0 0) =
      2 * (d.w0 + d.dw0) * c * d.a0 * d.time.eval t * sin ((d.w0 + d.dw0) * t)) := by
  unfold eySingle
  simp only [hd, if_true]
  constructor
  · intro h; rw [if_neg h]; ring
  · intro h; rw [if_pos h]; field_simp

/-- C64: an extended source is minus the squared frequency times the wanted wave, so that its
amplitude in the wave equation is `a0`. -/
theorem eySingle_extended (xax : List ℝ) (c : ℝ) (d : EMDriver) (hd : d.point = false) (t : ℝ) (i : ℕ) :
    eySingle xax c d t i = -(d.w0 + d.dw0) ^ 2 *
      (d.time.eval t * d.space.eval (xax.getD i 0) * (d.a0 * sin (d.k0 * xax.getD i 0 - (d.w0 + d.dw0) * t))) := by
  unfold eySingle spaceTime
  simp only [hd, Bool.false_eq_true, if_false]
  ring

theorem eySource_sum (xax : List ℝ) (c : ℝ) (ds : List EMDriver) (t : ℝ) (i : ℕ) :
    eySource xax c ds t i = (ds.map fun d => eySingle xax c d t i).sum := by
  unfold eySource; rw [foldl_add]; ring

theorem eySource_perm (xax : List ℝ) (c : ℝ) (ds ds' : List EMDriver) (h : ds.Perm ds') (t : ℝ) (i : ℕ) :
    eySource xax c ds t i = eySource xax c ds' t i := by
  rw [eySource_sum, eySource_sum]; exact (h.map _).sum_eq

example : nearest 1.2 [0, 1, 2, 3] = 1 := by
  norm_num [nearest, abs_of_nonneg, abs_of_nonpos]

/-! ### Stochastic driver (C65) -/

/-- C65: the update interval never exceeds half the correlation time. -/
theorem dtUpdate_le (tau : ℝ) (r : Option ℝ) : dtUpdate tau r ≤ tau / 2 := min_le_right _ _

theorem dtUpdate_default (tau : ℝ) (h : 0 < tau) : dtUpdate tau none = tau / 10 := by
  unfold dtUpdate; simp; linarith

theorem dtUpdate_pos (tau : ℝ) (h : 0 < tau) (r : Option ℝ) (hr : ∀ d ∈ r, 0 < d) : 0 < dtUpdate tau r := by
  unfold dtUpdate
  cases r with
  | none => simp; exact h
  | some d => simp; exact ⟨hr d rfl, by linarith⟩

/-- C65: the precomputed series covers the whole run, so interpolation in time never leaves it. -/
theorem series_covers (tmin tmax dt : ℝ) (hdt : 0 < dt) (h : tmin ≤ tmax) :
    2 ≤ nUpdates tmin tmax dt ∧ tmax ≤ tmin + dt * ((nUpdates tmin tmax dt : ℤ) - 1 : ℝ) := by
  unfold nUpdates
  have h1 := Int.le_ceil ((tmax - tmin) / dt)
  have h0 : 0 ≤ ⌈(tmax - tmin) / dt⌉ := Int.ceil_nonneg (div_nonneg (by linarith) hdt.le)
  refine ⟨by omega, ?_⟩
  rw [div_le_iff₀ hdt] at h1
  push_cast
  nlinarith

/-- C65: one update keeps the mean square: `theta² A² + kick² = A²`. -/
theorem ou_variance (A tau dt : ℝ) (htau : 0 < tau) (hdt : 0 ≤ dt) :
    theta tau dt ^ 2 * A ^ 2 + kickAmp A tau dt ^ 2 = A ^ 2 := by
  unfold kickAmp
  have h1 : theta tau dt ^ 2 ≤ 1 := by
    unfold theta
    rw [← exp_nat_mul]
    refine exp_le_one_iff.2 ?_
    have : -dt / tau ≤ 0 := div_nonpos_of_nonpos_of_nonneg (by linarith) htau.le
    push_cast
    linarith
  rw [mul_pow, sq_sqrt (by linarith)]
  ring

/-- A mean for which the first `N + 1` random numbers are uncorrelated: linear, and
`E[xi m xi n] = s δ`. -/
structure Uncorrelated (Ω : Type) (Ex : (Ω → ℝ) → ℝ) (xi : ℕ → Ω → ℝ) (s : ℝ) (N : ℕ) : Prop where
  add : ∀ f g, Ex (fun o => f o + g o) = Ex f + Ex g
  smul : ∀ (c : ℝ) f, Ex (fun o => c * f o) = c * Ex f
  cov : ∀ m n, m ≤ N → n ≤ N → Ex (fun o => xi m o * xi n o) = if m = n then s else 0

/-- C65: the amplitudes are stationary with the requested mean square, and their correlation over
`n` updates is `exp(-n dt / tau)`. -/
theorem ou_stationary {Ω : Type} {Ex : (Ω → ℝ) → ℝ} {xi : ℕ → Ω → ℝ} {s : ℝ} {N : ℕ} (hU : Uncorrelated Ω Ex xi s N) (A tau dt : ℝ)
    (htau : 0 < tau) (hdt : 0 ≤ dt) (m n : ℕ) (hN : m + n ≤ N) :
    Ex (fun o => ouAmp A tau dt (fun k => xi k o) m * ouAmp A tau dt (fun k => xi k o) (m + n)) = s * A ^ 2 * exp (-(n * dt) / tau) := by
  have hcross : ∀ m k, m < k → k ≤ N → Ex (fun o => ouAmp A tau dt (fun j => xi j o) m * xi k o) = 0 := by
    intro m
    induction m with
    | zero =>
      intro k hk hk'
      have : (fun o => ouAmp A tau dt (fun j => xi j o) 0 * xi k o) = fun o => A * (xi 0 o * xi k o) := by
        funext o; simp only [ouAmp]; ring
      rw [this, hU.smul, hU.cov _ _ (by omega) (by omega), if_neg (by omega), mul_zero]
    | succ m ih =>
      intro k hk hk'
      have : (fun o => ouAmp A tau dt (fun j => xi j o) (m + 1) * xi k o) = fun o =>
          theta tau dt * (ouAmp A tau dt (fun j => xi j o) m * xi k o) + kickAmp A tau dt * (xi (m + 1) o * xi k o) := by
        funext o; simp only [ouAmp]; ring
      rw [this, hU.add, hU.smul, hU.smul, ih k (by omega) hk', hU.cov _ _ (by omega) (by omega), if_neg (by omega)]; ring
  have hvar : ∀ m, m ≤ N → Ex (fun o => ouAmp A tau dt (fun j => xi j o) m * ouAmp A tau dt (fun j => xi j o) m) = s * A ^ 2 := by
    intro m
    induction m with
    | zero =>
      intro _
      have : (fun o => ouAmp A tau dt (fun j => xi j o) 0 * ouAmp A tau dt (fun j => xi j o) 0) = fun o => A ^ 2 * (xi 0 o * xi 0 o) := by
        funext o; simp only [ouAmp]; ring
      rw [this, hU.smul, hU.cov _ _ (by omega) (by omega), if_pos rfl]; ring
    | succ m ih =>
      intro hm
      have : (fun o => ouAmp A tau dt (fun j => xi j o) (m + 1) * ouAmp A tau dt (fun j => xi j o) (m + 1)) = fun o =>
          (theta tau dt ^ 2 * (ouAmp A tau dt (fun j => xi j o) m * ouAmp A tau dt (fun j => xi j o) m) +
          (2 * theta tau dt * kickAmp A tau dt) * (ouAmp A tau dt (fun j => xi j o) m * xi (m + 1) o)) +
          kickAmp A tau dt ^ 2 * (xi (m + 1) o * xi (m + 1) o) := by
        funext o; simp only [ouAmp]; ring
      rw [this, hU.add, hU.add, hU.smul, hU.smul, hU.smul, ih (by omega), hcross m _ (by omega) (by omega), hU.cov _ _ (by omega) (by omega), if_pos rfl]
      have := ou_variance A tau dt htau hdt
      linear_combination s * this
  induction n with
  | zero => rw [add_zero, hvar _ (by omega)]; simp
  | succ n ih =>
    have : (fun o => ouAmp A tau dt (fun j => xi j o) m * ouAmp A tau dt (fun j => xi j o) (m + (n + 1))) = fun o =>
        theta tau dt * (ouAmp A tau dt (fun j => xi j o) m * ouAmp A tau dt (fun j => xi j o) (m + n)) +
        kickAmp A tau dt * (ouAmp A tau dt (fun j => xi j o) m * xi (m + n + 1) o) := by
      funext o
      rw [show m + (n + 1) = (m + n) + 1 by ring]
      simp only [ouAmp]; ring
    rw [this, hU.add, hU.smul, hU.smul, ih (by omega), hcross m _ (by omega) (by omega)]
    unfold theta
    rw [mul_zero, add_zero, mul_left_comm, ← exp_add]
    congr 2
    push_cast; ring

/-- C65: the forcing is periodic in the box. -/
theorem stochField_periodic (L : ℝ) (hL : L ≠ 0) (modes : List (ℕ × ℝ × ℝ)) (x : ℝ) : stochField L modes (x + L) = stochField L modes x := by
  unfold stochField
  congr 1
  refine List.map_congr_left fun m _ => ?_
  have : 2 * π * m.1 / L * (x + L) = 2 * π * m.1 / L * x + m.1 * (2 * π) := by field_simp
  rw [this, cos_add_nat_mul_two_pi, sin_add_nat_mul_two_pi]

/-- For every length there are such random numbers. -/
theorem uncorrelated_exists (N : ℕ) : Uncorrelated (Fin (N + 1)) (fun f => (∑ o, f o) / (N + 1))
    (fun k o => if o.val = k then Real.sqrt (N + 1) else 0) 1 N where
  add f g := by rw [Finset.sum_add_distrib]; ring
  smul c f := by rw [← Finset.mul_sum]; ring
  cov m n hm hn := by
    have hN : (0 : ℝ) < N + 1 := by positivity
    by_cases h : m = n
    · subst h
      rw [if_pos rfl, Finset.sum_eq_single (⟨m, by omega⟩ : Fin (N + 1))]
      · rw [if_pos rfl, mul_self_sqrt hN.le, div_self hN.ne']
      · intro o _ ho
        rw [if_neg (fun e => ho (Fin.ext e)), mul_zero]
      · intro h; exact absurd (Finset.mem_univ _) h
    · rw [if_neg h, Finset.sum_eq_zero, zero_div]
      intro o _
      by_cases ho : o.val = m
      · rw [if_neg (by omega : ¬o.val = n), mul_zero]
      · rw [if_neg ho, zero_mul]

example : 0 < (3 : ℝ) ∧ dtUpdate 3 (some 100) = 3 / 2 ∧ nUpdates 0 10 (3 / 2) = 9 := by
  refine ⟨by norm_num, by unfold dtUpdate; norm_num, ?_⟩
  unfold nUpdates
  have : ⌈((10 : ℝ) - 0) / (3 / 2)⌉ = 7 := by rw [Int.ceil_eq_iff]; norm_num
  rw [this]; norm_num

end Verif.Driver
