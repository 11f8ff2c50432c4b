import Verif.Props.TwoFluid
import Mathlib.Analysis.Calculus.Deriv.Inv
import Mathlib.Analysis.Calculus.Deriv.Mul
import Mathlib.Analysis.Calculus.Deriv.Add
import Mathlib.Analysis.Calculus.Deriv.Pi
import Mathlib.Analysis.Calculus.MeanValue
import Mathlib.Topology.Algebra.Module.FiniteDimension
import Mathlib.Analysis.SpecialFunctions.ExpDeriv

/-! C133-C136: small waves of the two-fluid solver: dispersion, damping, the mass in the pressure equation, trapping, symmetry. -/
namespace Verif.TwoFluid
open Finset ZMod Complex Verif.Spectral
open scoped ComplexConjugate

variable {N : ℕ} [NeZero N]

instance : Fintype Sp := ⟨{.ion, .electron}, fun a => by cases a <;> simp⟩
instance : Fintype Q := ⟨{.n, .u, .p, .delta}, fun a => by cases a <;> simp⟩

/-! ### Linear parts -/

theorem filterRow_add (m : ℕ → ℂ) (a b : ZMod N → ℝ) (x : ZMod N) : filterRow m (fun j => a j + b j) x = filterRow m a x + filterRow m b x := by
  have : filterRow m (fun j => a j + b j) = fun x => filterRow m a x + filterRow m b x := by
    refine fft_inj fun k => ?_
    have e : ∀ f g : ZMod N → ℝ, fft (fun j => ((f j + g j : ℝ) : ℂ)) k = fft (fun j => (f j : ℂ)) k + fft (fun j => (g j : ℂ)) k := by
      intro f g
      unfold fft
      rw [dft_apply, dft_apply, dft_apply, ← sum_add_distrib]
      exact sum_congr rfl fun j _ => by push_cast; simp only [smul_eq_mul]; ring
    rw [fft_filterRow, e, e, fft_filterRow, fft_filterRow]; ring
  exact congrFun this x

theorem filterRow_smul (m : ℕ → ℂ) (c : ℝ) (a : ZMod N → ℝ) (x : ZMod N) : filterRow m (fun j => c * a j) x = c * filterRow m a x := by
  have : filterRow m (fun j => c * a j) = fun x => c * filterRow m a x := by
    refine fft_inj fun k => ?_
    have e : ∀ f : ZMod N → ℝ, fft (fun j => ((c * f j : ℝ) : ℂ)) k = c * fft (fun j => (f j : ℂ)) k := by
      intro f
      unfold fft
      rw [dft_apply, dft_apply, Finset.mul_sum]
      exact sum_congr rfl fun j _ => by push_cast; simp only [smul_eq_mul]; ring
    rw [fft_filterRow, e, e, fft_filterRow]; ring
  exact congrFun this x

/-- A filter is a fixed matrix. -/
noncomputable def filterL (m : ℕ → ℂ) : (ZMod N → ℝ) →ₗ[ℝ] (ZMod N → ℝ) where
  toFun := filterRow m
  map_add' a b := by funext x; exact filterRow_add m a b x
  map_smul' c a := by funext x; exact filterRow_smul m c a x

theorem filterRow_deriv (m : ℕ → ℂ) (f : ℝ → ZMod N → ℝ) (f' : ZMod N → ℝ) (t : ℝ) (h : ∀ y, HasDerivAt (fun e => f e y) (f' y) t) (x : ZMod N) :
    HasDerivAt (fun e => filterRow m (f e) x) (filterRow m f' x) t := by
  have key : ∀ g : ZMod N → ℝ, filterRow m g x = ∑ y, g y * filterL m (fun j => if y = j then 1 else 0) x := by
    intro g
    have := congrFun (LinearMap.pi_apply_eq_sum_univ (filterL m) g) x
    rw [show filterL m g x = filterRow m g x from rfl] at this
    rw [this, Finset.sum_apply]
    simp
  have e : (fun e => filterRow m (f e) x) = fun e => ∑ y, f e y * filterL m (fun j => if y = j then 1 else 0) x := by
    funext e; rw [key]
  rw [e, key]
  exact HasDerivAt.fun_sum fun y _ => (h y).mul_const _

theorem poissonField_add (dx : ℝ) (a b : ZMod N → ℝ) (x : ZMod N) : poissonField dx (fun j => a j + b j) x = poissonField dx a x + poissonField dx b x := by
  unfold poissonField
  rw [← add_re, ← ifft_add]
  congr 3
  funext k
  have : fft (fun j => ((a j + b j : ℝ) : ℂ)) k = fft (fun j => (a j : ℂ)) k + fft (fun j => (b j : ℂ)) k := by
    unfold fft
    rw [dft_apply, dft_apply, dft_apply, ← sum_add_distrib]
    exact sum_congr rfl fun j _ => by push_cast; simp only [smul_eq_mul]; ring
  rw [this]; ring

theorem poissonField_smul (dx c : ℝ) (a : ZMod N → ℝ) (x : ZMod N) : poissonField dx (fun j => c * a j) x = c * poissonField dx a x := by
  unfold poissonField
  rw [← re_ofReal_mul, ← ifft_smul]
  congr 3
  funext k
  have : fft (fun j => ((c * a j : ℝ) : ℂ)) k = c * fft (fun j => (a j : ℂ)) k := by
    unfold fft
    rw [dft_apply, dft_apply, Finset.mul_sum]
    exact sum_congr rfl fun j _ => by push_cast; simp only [smul_eq_mul]; ring
  rw [this]; ring

/-- A uniform plasma at rest plus `ε` times a disturbance. -/
def disturbed (n0 p0 : Sp → ℝ) (y1 : State N) (ε : ℝ) : State N := fun sp q x =>
  (match q with
    | .n => n0 sp
    | .u => 0
    | .p => p0 sp
    | .delta => 0) + ε * y1 sp q x

/-- The response of a species that is on. -/
noncomputable def linearOn (s : Setup N) (n0 p0 : Sp → ℝ) (y1 : State N) (sp : Sp) : Q → ZMod N → ℝ
  | .n => fun x => -(n0 sp * gradient s.dx (y1 sp .u) x)
  | .u => fun x => -(restoring (wrCorr s.root s.klds s.dx N (s.ph sp)) (gradient s.dx (y1 sp .p)) x / ((s.ph sp).mass * n0 sp))
      - (s.ph sp).charge / (s.ph sp).mass * s.e y1 x
      + 2 * coeff (trapModel (s.ph sp)) 0 * filterRow (fun k => (wi s.root s.klds s.dx N (s.ph sp) k : ℂ)) (y1 sp .u) x
  | .p => fun x => -(gammaOf (s.ph sp) * (p0 sp / (s.ph sp).mass) * gradient s.dx (y1 sp .u) x)
  | .delta => fun _ => 0

theorem gradient_disturbed (dx c ε : ℝ) (a : ZMod N → ℝ) (x : ZMod N) : gradient dx (fun j => c + ε * a j) x = ε * gradient dx a x := by
  have h1 := gradient_add dx (fun _ => c) (fun j => ε * a j) x
  rw [h1, gradient_const, gradient_smul]; ring

theorem coeff_continuous (model : String) (d : ℝ) : ContinuousAt (fun e : ℝ => coeff model (e * d)) 0 := by
  unfold coeff
  split
  · exact continuousAt_const
  · split
    · have : ∀ e : ℝ, (1 + (e * d) ^ 2) ≠ 0 := fun e => by positivity
      exact (continuous_const.div (by fun_prop) this).continuousAt
    · exact continuousAt_const

/-- The response to the disturbance to first order: that of the species that are on. -/
noncomputable def linear (s : Setup N) (n0 p0 : Sp → ℝ) (y1 : State N) (sp : Sp) (q : Q) : ZMod N → ℝ :=
  if (s.ph sp).isOn then linearOn s n0 p0 y1 sp q else fun _ => 0

/-- C133: `linear` is the derivative of the code's right-hand side at a uniform plasma at rest, in every cell and for every disturbance
(a driver, if any, adds its own acceleration, which does not depend on the plasma). -/
theorem linear_response (s : Setup N) (n0 p0 : Sp → ℝ) (hn : ∀ sp, n0 sp ≠ 0) (y1 : State N) (t : ℝ) (sp : Sp)
    (q : Q) (hq : q ≠ .delta) (x : ZMod N) :
    HasDerivAt (fun ε => s.vf t (disturbed n0 p0 y1 ε) sp q x) (linear s n0 p0 y1 sp q x) 0 := by
  by_cases ho : (s.ph sp).isOn = true
  swap
  · have e : (fun ε => s.vf t (disturbed n0 p0 y1 ε) sp q x) = fun _ => 0 := by
      funext ε
      unfold Setup.vf
      cases q with
      | delta => exact absurd rfl hq
      | n => dsimp only; rw [if_neg ho]
      | u => dsimp only; rw [if_neg ho]
      | p => dsimp only; rw [if_neg ho]
    rw [e]
    unfold linear
    rw [if_neg ho]
    exact hasDerivAt_const _ _
  unfold linear
  rw [if_pos ho]
  have he : ∀ ε x, s.e (disturbed n0 p0 y1 ε) x = ε * s.e y1 x := by
    intro ε x
    unfold Setup.e
    have hsplit : (fun x : ZMod N => (s.ph .ion).charge * disturbed n0 p0 y1 ε .ion .n x + (s.ph .electron).charge * disturbed n0 p0 y1 ε .electron .n x) =
        fun x => (fun _ : ZMod N => (s.ph .ion).charge * n0 .ion + (s.ph .electron).charge * n0 .electron) x +
          (fun x => ε * ((s.ph .ion).charge * y1 .ion .n x + (s.ph .electron).charge * y1 .electron .n x)) x := by
      funext x; simp only [disturbed]; ring
    rw [hsplit, poissonField_add, poissonField_const, poissonField_smul, zero_add]
  have gn : ∀ ε x, gradient s.dx (disturbed n0 p0 y1 ε sp .n) x = ε * gradient s.dx (y1 sp .n) x := fun ε x =>
    gradient_disturbed s.dx (n0 sp) ε (y1 sp .n) x
  have gu : ∀ ε x, gradient s.dx (disturbed n0 p0 y1 ε sp .u) x = ε * gradient s.dx (y1 sp .u) x := fun ε x =>
    gradient_disturbed s.dx 0 ε (y1 sp .u) x
  have gp : ∀ ε x, gradient s.dx (fun x => disturbed n0 p0 y1 ε sp .p x / (s.ph sp).mass) x = ε * (gradient s.dx (y1 sp .p) x / (s.ph sp).mass) := by
    intro ε x
    have e1 : (fun x : ZMod N => disturbed n0 p0 y1 ε sp .p x / (s.ph sp).mass) =
        fun x => p0 sp / (s.ph sp).mass + (ε / (s.ph sp).mass) * y1 sp .p x := by
      funext x; simp only [disturbed]; ring
    rw [e1, gradient_disturbed]; ring
  have hid := hasDerivAt_id (0 : ℝ)
  have hlin : ∀ c d : ℝ, HasDerivAt (fun ε : ℝ => c + ε * d) d 0 := fun c d => by
    simpa using (hid.mul_const d).const_add c
  have hquad : ∀ c : ℝ, HasDerivAt (fun ε : ℝ => ε * ε * c) 0 0 := fun c => by
    simpa using (hid.mul hid).mul_const c
  cases q with
  | delta => exact absurd rfl hq
  | n =>
    have e : (fun ε => s.vf t (disturbed n0 p0 y1 ε) sp .n x) = fun ε : ℝ =>
        (0 + ε * (-(n0 sp * gradient s.dx (y1 sp .u) x))) + ε * ε * (-(y1 sp .u x * gradient s.dx (y1 sp .n) x + y1 sp .n x * gradient s.dx (y1 sp .u) x)) := by
      funext ε
      unfold Setup.vf
      dsimp only
      rw [if_pos ho]
      unfold pushN
      rw [gn, gu]
      simp only [disturbed]
      ring
    rw [e]
    exact ((hlin 0 _).add (hquad _)).congr_deriv (by simp [linearOn])
  | p =>
    have e : (fun ε => s.vf t (disturbed n0 p0 y1 ε) sp .p x) = fun ε : ℝ =>
        (0 + ε * (-(gammaOf (s.ph sp) * (p0 sp / (s.ph sp).mass) * gradient s.dx (y1 sp .u) x)))
        + ε * ε * (-(y1 sp .u x * (gradient s.dx (y1 sp .p) x / (s.ph sp).mass) + gammaOf (s.ph sp) * (y1 sp .p x / (s.ph sp).mass) * gradient s.dx (y1 sp .u) x
            + 2 * n0 sp * y1 sp .u x * ((s.ph sp).charge / (s.ph sp).mass * s.e y1 x)))
        + ε * (ε * ε * (-(2 * y1 sp .n x * y1 sp .u x * ((s.ph sp).charge / (s.ph sp).mass * s.e y1 x)))) := by
      funext ε
      unfold Setup.vf
      dsimp only
      rw [if_pos ho]
      unfold pushE
      rw [gp, gu]
      beta_reduce
      rw [he]
      simp only [disturbed]
      ring
    rw [e]
    refine (((hlin 0 _).add (hquad _)).add (hid.mul (hquad _))).congr_deriv ?_
    simp [linearOn]
  | u =>
    have e : (fun ε => s.vf t (disturbed n0 p0 y1 ε) sp .u x) = fun ε : ℝ =>
        (-((s.ph sp).charge / (s.ph sp).mass * s.ed t x) + ε * (-((s.ph sp).charge / (s.ph sp).mass * s.e y1 x)))
        + ε * ε * (-(y1 sp .u x * gradient s.dx (y1 sp .u) x))
        - filterRow (fun k => (wrCorr s.root s.klds s.dx N (s.ph sp) k : ℂ)) (fun y => ε * (gradient s.dx (y1 sp .p) y / (s.ph sp).mass) / (n0 sp + ε * y1 sp .n y)) x
        + ε * (2 * filterRow (fun k => (wi s.root s.klds s.dx N (s.ph sp) k : ℂ)) (y1 sp .u) x * coeff (trapModel (s.ph sp)) (ε * y1 sp .delta x)) := by
      funext ε
      unfold Setup.vf
      dsimp only
      rw [if_pos ho]
      unfold pushU restoring landauTerm
      have hd : disturbed n0 p0 y1 ε sp .delta x = ε * y1 sp .delta x := by simp only [disturbed]; ring
      have hu : disturbed n0 p0 y1 ε sp .u = fun x => ε * y1 sp .u x := by funext x; simp only [disturbed]; ring
      have hg : (fun y => gradient s.dx (fun x => disturbed n0 p0 y1 ε sp .p x / (s.ph sp).mass) y / disturbed n0 p0 y1 ε sp .n y) =
          fun y => ε * (gradient s.dx (y1 sp .p) y / (s.ph sp).mass) / (n0 sp + ε * y1 sp .n y) := by
        funext y; rw [gp]; simp only [disturbed]
      rw [hg, gu, hd, hu, filterRow_smul]
      beta_reduce
      rw [he]
      ring
    rw [e]
    have hr : HasDerivAt (fun ε : ℝ => filterRow (fun k => (wrCorr s.root s.klds s.dx N (s.ph sp) k : ℂ))
        (fun y => ε * (gradient s.dx (y1 sp .p) y / (s.ph sp).mass) / (n0 sp + ε * y1 sp .n y)) x)
        (filterRow (fun k => (wrCorr s.root s.klds s.dx N (s.ph sp) k : ℂ)) (fun y => (1 / ((s.ph sp).mass * n0 sp)) * gradient s.dx (y1 sp .p) y) x) 0 := by
      refine filterRow_deriv _ _ _ 0 (fun y => ?_) x
      have hd := ((hid.mul_const (gradient s.dx (y1 sp .p) y / (s.ph sp).mass)).div (hlin (n0 sp) (y1 sp .n y)) (by simpa using hn sp))
      refine hd.congr_deriv ?_
      have := hn sp
      simp only [id, zero_mul, add_zero, one_mul, sub_zero]
      by_cases hm : (s.ph sp).mass = 0
      · simp [hm]
      · field_simp
    have hl : HasDerivAt (fun ε : ℝ => ε * (2 * filterRow (fun k => (wi s.root s.klds s.dx N (s.ph sp) k : ℂ)) (y1 sp .u) x * coeff (trapModel (s.ph sp)) (ε * y1 sp .delta x)))
        (2 * filterRow (fun k => (wi s.root s.klds s.dx N (s.ph sp) k : ℂ)) (y1 sp .u) x * coeff (trapModel (s.ph sp)) 0) 0 := by
      have hc : ContinuousAt (fun ε : ℝ => 2 * filterRow (fun k => (wi s.root s.klds s.dx N (s.ph sp) k : ℂ)) (y1 sp .u) x * coeff (trapModel (s.ph sp)) (ε * y1 sp .delta x)) 0 :=
        continuousAt_const.mul (coeff_continuous _ _)
      refine hasDerivAt_iff_tendsto_slope.2 ?_
      have hc' := hc.tendsto.mono_left (nhdsWithin_le_nhds (s := {0}ᶜ))
      rw [zero_mul] at hc'
      refine hc'.congr' ?_
      filter_upwards [self_mem_nhdsWithin] with ε hε
      rw [slope_def_field]
      have : ε ≠ 0 := hε
      field_simp
      ring
    refine ((((hlin _ _).add (hquad _)).sub hr).add hl).congr_deriv ?_
    simp only [linearOn, restoring, filterRow_smul]
    ring

/-! ### Dispersion -/

theorem mode_filter (m : ℕ → ℝ) (f : ZMod N → ℝ) {p : ℤ} (hp : Resolved N p) :
    mode (filterRow (fun k => (m k : ℂ)) f) p = (m p.natAbs : ℂ) * mode f p := by
  rw [mode_eq, mode_eq, fft_filterRow]
  congr 1
  by_cases h0 : p = 0
  · subst h0
    unfold hermitian
    simp
  · obtain ⟨hz, hk, h⟩ := resolved_index hp h0
    have hl := (p : ZMod N).val_lt
    unfold Resolved at hp
    unfold hermitian
    rw [if_neg hz, if_neg hk]
    rcases h with ⟨hpos, hv⟩ | ⟨hneg, hv⟩
    · rw [abs_of_pos hpos] at hp
      rw [if_pos (by omega)]
      have : (p : ZMod N).val = p.natAbs := by omega
      rw [this]
    · rw [abs_of_neg hneg] at hp
      rw [if_neg (by omega), conj_ofReal]
      have : N - (p : ZMod N).val = p.natAbs := by omega
      rw [this]

theorem mode_add (f g : ZMod N → ℝ) (p : ℤ) : mode (fun x => f x + g x) p = mode f p + mode g p := by
  unfold mode
  rw [← sum_add_distrib]
  exact sum_congr rfl fun j _ => by push_cast; ring

theorem mode_smul (c : ℝ) (f : ZMod N → ℝ) (p : ℤ) : mode (fun x => c * f x) p = c * mode f p := by
  unfold mode
  rw [Finset.mul_sum]
  exact sum_congr rfl fun j _ => by push_cast; ring

theorem mode_poisson (dx : ℝ) (hdx : dx ≠ 0) (f : ZMod N → ℝ) {p : ℤ} (hp : Resolved N p) (h0 : p ≠ 0) :
    mode (poissonField dx f) p = I / (waveNumber N dx p : ℂ) * mode f p := by
  have h := (poisson_field dx hdx f).1 p hp h0
  unfold gaussError at h
  have e : poissonField dx f = fun x => (-1 : ℝ) * poisson dx f x := by funext x; rw [poissonField_eq]; ring
  obtain ⟨hz, _, _⟩ := resolved_index hp h0
  have hk : (waveNumber N dx p : ℂ) ≠ 0 := by
    rw [← kfull_eq dx hp]
    exact_mod_cast kfull_ne_zero hdx hz
  rw [e, mode_smul]
  have h' : mode f p = I * (waveNumber N dx p : ℂ) * mode (poisson dx f) p := by linear_combination -h
  rw [h']
  field_simp
  push_cast
  linear_combination (-mode (poisson dx f) p) * I_sq

/-- The square of the frequency of a small electrostatic wave of wave number `k` of one fluid (charge `q`, mass `m`, adiabatic index
`gamma`) over a fixed background, without damping: the Bohm-Gross relation. -/
noncomputable def bohmGross (q m gamma n0 p0 k : ℝ) : ℝ := q ^ 2 * n0 / m + gamma * p0 / (m * n0) * k ^ 2

/-- C133: the small waves of a single mobile species.  In every resolved mode the velocity of the linear response obeys the equation of a
damped oscillator, with damping `-wi` and the frequency of the formula below.  The pressure part carries `1/m²`. -/
theorem oscillator (s : Setup N) (hdx : s.dx ≠ 0) (n0 p0 : Sp → ℝ) (y1 : State N) (sp : Sp)
    (ho : (s.ph sp).isOn = true) (honly : ∀ sp', sp' ≠ sp → (s.ph sp').isOn = false) {p : ℤ} (hp : Resolved N p) (h0 : p ≠ 0) :
    let ph := s.ph sp
    let k := waveNumber N s.dx p
    let y2 : State N := fun sp' q => linear s n0 p0 y1 sp' q
    mode (linear s n0 p0 y2 sp .u) p = 2 * (coeff (trapModel ph) 0 * wi s.root s.klds s.dx N ph p.natAbs : ℝ) * mode (linear s n0 p0 y1 sp .u) p
      - (ph.charge ^ 2 * n0 sp / ph.mass + wrCorr s.root s.klds s.dx N ph p.natAbs * gammaOf ph * p0 sp / (ph.mass ^ 2 * n0 sp) * k ^ 2 : ℝ) * mode (y1 sp .u) p := by
  intro ph k y2
  have hk : (k : ℂ) ≠ 0 := by
    obtain ⟨hz, _, _⟩ := resolved_index hp h0
    show (waveNumber N s.dx p : ℂ) ≠ 0
    rw [← kfull_eq s.dx hp]
    exact_mod_cast kfull_ne_zero hdx hz
  -- the velocity part of the response in mode space
  have hu : ∀ y : State N, (∀ sp', sp' ≠ sp → y sp' .n = fun _ => 0) → mode (linear s n0 p0 y sp .u) p =
      -((wrCorr s.root s.klds s.dx N ph p.natAbs / (ph.mass * n0 sp) : ℝ) : ℂ) * (I * k * mode (y sp .p) p)
      - ((ph.charge / ph.mass : ℝ) : ℂ) * (I / k * ((ph.charge : ℂ) * mode (y sp .n) p))
      + 2 * (coeff (trapModel ph) 0 * wi s.root s.klds s.dx N ph p.natAbs : ℝ) * mode (y sp .u) p := by
    intro y hy
    have he : mode (s.e y) p = I / k * ((ph.charge : ℂ) * mode (y sp .n) p) := by
      unfold Setup.e
      rw [mode_poisson s.dx hdx _ hp h0]
      congr 1
      cases sp with
      | ion =>
        have h := hy .electron (by decide)
        simp only [h, mul_zero, add_zero]
        exact mode_smul _ _ _
      | electron =>
        have h := hy .ion (by decide)
        simp only [h, mul_zero, zero_add]
        exact mode_smul _ _ _
    have e : linear s n0 p0 y sp .u = fun x =>
        ((-1 / (ph.mass * n0 sp)) * restoring (wrCorr s.root s.klds s.dx N ph) (gradient s.dx (y sp .p)) x
        + (-(ph.charge / ph.mass)) * s.e y x)
        + (2 * coeff (trapModel ph) 0) * filterRow (fun k => (wi s.root s.klds s.dx N ph k : ℂ)) (y sp .u) x := by
      funext x; unfold linear; rw [if_pos ho]; simp only [linearOn, ph]; ring
    rw [e, mode_add, mode_add, mode_smul, mode_smul, mode_smul, he, restoring, mode_filter _ _ hp, mode_filter _ _ hp, mode_gradient _ _ hp]
    push_cast
    ring
  have hn : ∀ sp', sp' ≠ sp → y2 sp' .n = fun _ => 0 := by
    intro sp' h
    show linear s n0 p0 y1 sp' .n = fun _ => 0
    unfold linear
    rw [honly sp' h, if_neg (by decide)]
  have h2n : mode (y2 sp .n) p = -((n0 sp : ℂ) * (I * k * mode (y1 sp .u) p)) := by
    have e : y2 sp .n = fun x => (-n0 sp) * gradient s.dx (y1 sp .u) x := by funext x; simp only [y2, linear]; rw [if_pos ho]; simp only [linearOn]; ring
    rw [e, mode_smul, mode_gradient _ _ hp]; push_cast; ring
  have h2p : mode (y2 sp .p) p = -(((gammaOf ph * (p0 sp / ph.mass) : ℝ) : ℂ) * (I * k * mode (y1 sp .u) p)) := by
    have e : y2 sp .p = fun x => (-(gammaOf ph * (p0 sp / ph.mass))) * gradient s.dx (y1 sp .u) x := by funext x; simp only [y2, linear, ph]; rw [if_pos ho]; simp only [linearOn]; ring
    rw [e, mode_smul, mode_gradient _ _ hp]; push_cast; ring
  have h2u : mode (y2 sp .u) p = mode (linear s n0 p0 y1 sp .u) p := rfl
  rw [hu y2 hn, h2n, h2p, h2u]
  push_cast
  by_cases hm : (ph.mass : ℂ) = 0
  · simp [hm]
  · by_cases hnn : (n0 sp : ℂ) = 0
    · simp [hnn]
    · field_simp
      rw [I_sq]
      ring

/-- The linear response as a linear map. -/
noncomputable def linearL (s : Setup N) (n0 p0 : Sp → ℝ) : State N →ₗ[ℝ] State N where
  toFun y := fun sp q => linear s n0 p0 y sp q
  map_add' a b := by
    have he : ∀ x, s.e (a + b) x = s.e a x + s.e b x := by
      intro x
      unfold Setup.e
      rw [← poissonField_add]
      congr 1
      funext z
      simp only [Pi.add_apply]
      ring
    have hg : ∀ sp q x, gradient s.dx ((a + b) sp q) x = gradient s.dx (a sp q) x + gradient s.dx (b sp q) x := fun sp q x => gradient_add s.dx (a sp q) (b sp q) x
    funext sp q x
    show linear s n0 p0 (a + b) sp q x = linear s n0 p0 a sp q x + linear s n0 p0 b sp q x
    unfold linear
    split
    swap
    · simp
    cases q with
    | n => simp only [linearOn, hg]; ring
    | p => simp only [linearOn, hg]; ring
    | delta => simp [linearOn]
    | u =>
      have h1 : gradient s.dx ((a + b) sp .p) = fun x => gradient s.dx (a sp .p) x + gradient s.dx (b sp .p) x := funext fun x => hg sp .p x
      have h2 : ((a + b) sp .u : ZMod N → ℝ) = fun x => a sp .u x + b sp .u x := rfl
      simp only [linearOn, restoring, h1, h2, he, filterRow_add]; ring
  map_smul' c a := by
    have he : ∀ x, s.e (c • a) x = c * s.e a x := by
      intro x
      unfold Setup.e
      rw [← poissonField_smul]
      congr 1
      funext z
      simp only [Pi.smul_apply, smul_eq_mul]
      ring
    have hg : ∀ sp q x, gradient s.dx ((c • a) sp q) x = c * gradient s.dx (a sp q) x := fun sp q x => gradient_smul s.dx c (a sp q) x
    funext sp q x
    show linear s n0 p0 (c • a) sp q x = c * linear s n0 p0 a sp q x
    unfold linear
    split
    swap
    · simp
    cases q with
    | n => simp only [linearOn, hg]; ring
    | p => simp only [linearOn, hg]; ring
    | delta => simp [linearOn]
    | u =>
      have h1 : gradient s.dx ((c • a) sp .p) = fun x => c * gradient s.dx (a sp .p) x := funext fun x => hg sp .p x
      have h2 : ((c • a) sp .u : ZMod N → ℝ) = fun x => c * a sp .u x := rfl
      simp only [linearOn, restoring, h1, h2, he, filterRow_smul]; ring

/-- The amplitude of the velocity of species `sp` in mode `p`, as a linear map. -/
noncomputable def ampL (sp : Sp) (p : ℤ) : State N →ₗ[ℝ] ℂ where
  toFun y := mode (y sp .u) p
  map_add' a b := mode_add (a sp .u) (b sp .u) p
  map_smul' c a := by
    rw [RingHom.id_apply, Complex.real_smul]
    exact mode_smul c (a sp .u) p

theorem comp_deriv {E F : Type*} [NormedAddCommGroup E] [NormedSpace ℝ E] [FiniteDimensional ℝ E] [NormedAddCommGroup F] [NormedSpace ℝ F]
    (L : E →ₗ[ℝ] F) (Y : ℝ → E) (Y' : E) (t : ℝ) (h : HasDerivAt Y Y' t) : HasDerivAt (fun t => L (Y t)) (L Y') t := by
  have := (LinearMap.toContinuousLinearMap L).hasFDerivAt.comp_hasDerivAt t h
  exact this

theorem exp_of_rate (W : ℝ → ℂ) (l : ℂ) (h : ∀ t, HasDerivAt W (l * W t) t) (t : ℝ) : W t = W 0 * cexp (l * t) := by
  have hd : ∀ t : ℝ, HasDerivAt (fun t : ℝ => W t * cexp (-l * t)) 0 t := by
    intro t
    have h1 : HasDerivAt (fun t : ℝ => (-l * t : ℂ)) (-l) t := by
      simpa using (Complex.ofRealCLM.hasDerivAt (x := t)).const_mul (-l)
    refine ((h t).mul h1.cexp).congr_deriv ?_
    ring
  have hc := is_const_of_deriv_eq_zero (fun t => (hd t).differentiableAt) (fun t => (hd t).deriv) t 0
  simp only [ofReal_zero, mul_zero, Complex.exp_zero, mul_one] at hc
  rw [← hc, mul_assoc, ← Complex.exp_add]
  simp

/-- The solutions of `U'' = 2 g U' - W U`. -/
theorem two_roots (U V : ℝ → ℂ) (g W : ℂ) (h1 : ∀ t, HasDerivAt U (V t) t) (h2 : ∀ t, HasDerivAt V (2 * g * V t - W * U t) t) (a b : ℂ)
    (hs : a + b = 2 * g) (hp : a * b = W) (hab : a ≠ b) : ∃ A B, ∀ t : ℝ, U t = A * cexp (a * t) + B * cexp (b * t) := by
  have key : ∀ a b : ℂ, a + b = 2 * g → a * b = W → ∀ t, V t - b * U t = (V 0 - b * U 0) * cexp (a * t) := by
    intro a b hs hp
    refine exp_of_rate (fun t => V t - b * U t) a fun t => ?_
    refine ((h2 t).sub ((h1 t).const_mul b)).congr_deriv ?_
    rw [← hs, ← hp]; ring
  refine ⟨(V 0 - b * U 0) / (a - b), -(V 0 - a * U 0) / (a - b), fun t => ?_⟩
  have e1 := key a b hs hp t
  have e2 := key b a (by rw [add_comm, hs]) (by rw [mul_comm, hp]) t
  have hne : a - b ≠ 0 := sub_ne_zero.2 hab
  field_simp
  linear_combination e1 - e2

/-- C133: every solution of the linear equations of one mobile species, in every resolved mode: two exponentials, whose
rates are the roots of the oscillator.  Nothing else is in the response. -/
theorem waves (s : Setup N) (hdx : s.dx ≠ 0) (n0 p0 : Sp → ℝ) (sp : Sp) (Y : ℝ → State N)
    (hY : ∀ t, HasDerivAt Y (fun sp' q => linear s n0 p0 (Y t) sp' q) t) (ho : (s.ph sp).isOn = true) (honly : ∀ sp', sp' ≠ sp → (s.ph sp').isOn = false)
    {p : ℤ} (hp : Resolved N p) (h0 : p ≠ 0) (a b : ℂ) (hab : a ≠ b)
    (hs : a + b = 2 * (coeff (trapModel (s.ph sp)) 0 * wi s.root s.klds s.dx N (s.ph sp) p.natAbs : ℝ))
    (hpr : a * b = ((s.ph sp).charge ^ 2 * n0 sp / (s.ph sp).mass + wrCorr s.root s.klds s.dx N (s.ph sp) p.natAbs * gammaOf (s.ph sp) * p0 sp
      / ((s.ph sp).mass ^ 2 * n0 sp) * waveNumber N s.dx p ^ 2 : ℝ)) :
    ∃ A B, ∀ t : ℝ, mode (Y t sp .u) p = A * cexp (a * t) + B * cexp (b * t) := by
  refine two_roots (fun t => mode (Y t sp .u) p) (fun t => mode (linear s n0 p0 (Y t) sp .u) p) _ _ (fun t => ?_) (fun t => ?_) a b hs hpr hab
  · exact comp_deriv (ampL sp p) Y _ t (hY t)
  · have h := comp_deriv ((ampL sp p).comp (linearL s n0 p0)) Y _ t (hY t)
    refine h.congr_deriv ?_
    exact oscillator s hdx n0 p0 (Y t) sp ho honly hp h0

/-- C133: kinetic electrons (charge ±1, mass 1, density 1, temperature 1, Landau damping on, no trapping): each mode oscillates and decays like
`exp(wi t)`, exactly the tabulated damping rate, at the frequency `sqrt(wr² - wi²)`. -/
theorem kinetic_waves (s : Setup N) (hdx : s.dx ≠ 0) (sp : Sp) (Y : ℝ → State N) (hg : (s.ph sp).gamma = none)
    (hq : (s.ph sp).charge ^ 2 = 1) (hm : (s.ph sp).mass = 1) (ht : (s.ph sp).trapping = none)
    (hY : ∀ t, HasDerivAt Y (fun sp' q => linear s (fun _ => 1) (fun _ => 1) (Y t) sp' q) t) (ho : (s.ph sp).isOn = true) (honly : ∀ sp', sp' ≠ sp → (s.ph sp').isOn = false)
    {p : ℤ} (hp : Resolved N p) (h0 : p ≠ 0) :
    let k := kr N s.dx p.natAbs
    let g := wi s.root s.klds s.dx N (s.ph sp) p.natAbs
    let w := Real.sqrt (wr s.root s.klds (s.ph sp) k ^ 2 - g ^ 2)
    g ^ 2 < wr s.root s.klds (s.ph sp) k ^ 2 →
    ∃ A B, ∀ t : ℝ, mode (Y t sp .u) p = cexp (g * t) * (A * cexp (I * w * t) + B * cexp (-(I * w * t))) := by
  intro k g w hgw
  have hw : 0 < w := Real.sqrt_pos.2 (by linarith)
  have hw2 : w ^ 2 = wr s.root s.klds (s.ph sp) k ^ 2 - g ^ 2 := Real.sq_sqrt (by linarith)
  have hkp : waveNumber N s.dx p ^ 2 = k ^ 2 := by
    show _ = (kr N s.dx p.natAbs) ^ 2
    unfold waveNumber kr Grid.rfftfreqAt
    rw [Nat.cast_natAbs, Int.cast_abs, mul_pow, div_pow, div_pow, mul_pow, mul_pow, sq_abs]
    ring
  have hk0 : k ≠ 0 := by
    intro h
    have hN : (N : ℝ) ≠ 0 := Nat.cast_ne_zero.2 (NeZero.ne N)
    have : waveNumber N s.dx p = 0 := by
      have := hkp; rw [h] at this; simpa using this
    unfold waveNumber at this
    have hpz : (p : ℝ) ≠ 0 := Int.cast_ne_zero.2 h0
    have hpi := Real.pi_ne_zero
    rw [div_eq_zero_iff] at this
    rcases this with h | h
    · simp [hpi, hpz, h0] at h
    · simp [hN, hdx] at h
  have hone : coeff (trapModel (s.ph sp)) 0 = 1 := by unfold trapModel; rw [ht]; rfl
  have hcorr : wrCorr s.root s.klds s.dx N (s.ph sp) p.natAbs * k ^ 2 = wr s.root s.klds (s.ph sp) k ^ 2 - 1 := by
    unfold wrCorr
    rw [hg]
    dsimp only
    rw [if_neg (by omega)]
    show (wr s.root s.klds (s.ph sp) k ^ 2 - 1) * (1 / k) ^ 2 * k ^ 2 = _
    field_simp
  have hgam : gammaOf (s.ph sp) = 1 := by unfold gammaOf; rw [hg]
  obtain ⟨A, B, h⟩ := waves s hdx (fun _ => 1) (fun _ => 1) sp Y hY ho honly hp h0 ((g : ℂ) + I * w) ((g : ℂ) - I * w)
    (fun h => by
      have : (2 * I * w : ℂ) = 0 := by linear_combination h
      have hw' : (w : ℂ) ≠ 0 := by exact_mod_cast hw.ne'
      simp [hw'] at this)
    (by rw [hone]; push_cast; ring)
    (by
      rw [hq, hm, hgam, hkp]
      have : ((1 : ℝ) * 1 / 1 + wrCorr s.root s.klds s.dx N (s.ph sp) p.natAbs * 1 * 1 / (1 ^ 2 * 1) * k ^ 2) = g ^ 2 + w ^ 2 := by
        rw [hw2]; linear_combination hcorr
      rw [this]
      push_cast
      linear_combination (-(w : ℂ) ^ 2) * I_sq)
  refine ⟨A, B, fun t => ?_⟩
  rw [h t, mul_add, mul_left_comm, mul_left_comm (cexp (↑g * ↑t)), ← Complex.exp_add, ← Complex.exp_add]
  congr 3 <;> ring_nf

/-- C133: the decay is the tabulated one, but the complex frequency is not the root of the dispersion relation the table was made from unless it is undamped: the oscillation
is slower. -/
theorem frequency_shift (wr wi : ℝ) (hr : 0 < wr) (hi : wi ^ 2 < wr ^ 2) :
    ((wi : ℂ) - I * wr) ^ 2 - 2 * wi * ((wi : ℂ) - I * wr) + (wr : ℂ) ^ 2 = -(wi : ℂ) ^ 2 ∧
    (wi ≠ 0 → Real.sqrt (wr ^ 2 - wi ^ 2) < wr) ∧ wr - Real.sqrt (wr ^ 2 - wi ^ 2) ≤ wi ^ 2 / wr := by
  have hs := Real.sq_sqrt (show 0 ≤ wr ^ 2 - wi ^ 2 by linarith)
  have hp := Real.sqrt_nonneg (wr ^ 2 - wi ^ 2)
  refine ⟨by linear_combination (wr : ℂ) ^ 2 * I_sq, fun h => ?_, ?_⟩
  · have : 0 < wi ^ 2 := by positivity
    nlinarith
  · rw [le_div_iff₀ hr]
    nlinarith

/-- C134 for mass 1: a fluid species obeys the Bohm-Gross relation with its adiabatic index. -/
theorem fluid_waves_partial (s : Setup N) (hdx : s.dx ≠ 0) (n0 p0 : Sp → ℝ) (sp : Sp) (Y : ℝ → State N) (gamma : ℝ) (hg : (s.ph sp).gamma = some gamma)
    (hm : (s.ph sp).mass = 1) (hl : (s.ph sp).landau = false)
    (hY : ∀ t, HasDerivAt Y (fun sp' q => linear s n0 p0 (Y t) sp' q) t) (ho : (s.ph sp).isOn = true) (honly : ∀ sp', sp' ≠ sp → (s.ph sp').isOn = false)
    {p : ℤ} (hp : Resolved N p) (h0 : p ≠ 0) :
    let W := bohmGross (s.ph sp).charge (s.ph sp).mass gamma (n0 sp) (p0 sp) (waveNumber N s.dx p)
    0 < W → ∃ A B, ∀ t : ℝ, mode (Y t sp .u) p = A * cexp (I * Real.sqrt W * t) + B * cexp (-(I * Real.sqrt W * t)) := by
  intro W hW
  have hw2 := Real.sq_sqrt hW.le
  have hwp := Real.sqrt_pos.2 hW
  have hwi : wi s.root s.klds s.dx N (s.ph sp) p.natAbs = 0 := by unfold wi; rw [hl]; rfl
  have hco : wrCorr s.root s.klds s.dx N (s.ph sp) p.natAbs = 1 := by unfold wrCorr; rw [hg]
  have hgam : gammaOf (s.ph sp) = gamma := by unfold gammaOf; rw [hg]
  obtain ⟨A, B, h⟩ := waves s hdx n0 p0 sp Y hY ho honly hp h0 (I * Real.sqrt W) (-(I * Real.sqrt W))
    (fun h => by
      have : (2 * I * Real.sqrt W : ℂ) = 0 := by linear_combination h
      have hw' : (Real.sqrt W : ℂ) ≠ 0 := by exact_mod_cast hwp.ne'
      simp [hw'] at this)
    (by rw [hwi]; push_cast; ring)
    (by
      have : ((s.ph sp).charge ^ 2 * n0 sp / (s.ph sp).mass + wrCorr s.root s.klds s.dx N (s.ph sp) p.natAbs * gammaOf (s.ph sp) * p0 sp
          / ((s.ph sp).mass ^ 2 * n0 sp) * waveNumber N s.dx p ^ 2) = Real.sqrt W ^ 2 := by
        rw [hw2, hco, hgam]; show _ = bohmGross _ _ _ _ _ _; unfold bohmGross; rw [hm]; ring
      rw [this]
      push_cast
      linear_combination (-(Real.sqrt W : ℂ) ^ 2) * I_sq)
  refine ⟨A, B, fun t => ?_⟩
  rw [h t]
  congr 3; ring

/-- C134: the rate of the pressure is the textbook one (advection, compression, work of the field) divided once more by the mass. -/
theorem pressure_rate (s : Setup N) (t : ℝ) (y : State N) (sp : Sp) (ho : (s.ph sp).isOn = true) (x : ZMod N) :
    s.vf t y sp .p x = (-y sp .u x * gradient s.dx (y sp .p) x - gammaOf (s.ph sp) * y sp .p x * gradient s.dx (y sp .u) x
      - 2 * y sp .n x * y sp .u x * ((s.ph sp).charge * s.e y x)) / (s.ph sp).mass := by
  unfold Setup.vf
  dsimp only
  rw [if_pos ho]
  unfold pushE
  have : gradient s.dx (fun x => y sp .p x / (s.ph sp).mass) x = gradient s.dx (y sp .p) x / (s.ph sp).mass := by
    have e : (fun x : ZMod N => y sp .p x / (s.ph sp).mass) = fun x => (1 / (s.ph sp).mass) * y sp .p x := by funext x; ring
    rw [e, gradient_smul]; ring
  rw [this]
  beta_reduce
  ring

/-- C134 fails for other masses: the linear response of the velocity is not an oscillation at the Bohm-Gross frequency, in any mode, from any
disturbance with some velocity in it, whenever the mass is not 1 and there is a pressure. -/
theorem mass_matters (s : Setup N) (hdx : s.dx ≠ 0) (n0 p0 : Sp → ℝ) (sp : Sp) (gamma : ℝ) (hg : (s.ph sp).gamma = some gamma) (hl : (s.ph sp).landau = false)
    (hm : 0 < (s.ph sp).mass) (hm1 : (s.ph sp).mass ≠ 1) (hn : 0 < n0 sp) (hp0 : 0 < p0 sp) (hgp : 0 < gamma)
    (ho : (s.ph sp).isOn = true) (honly : ∀ sp', sp' ≠ sp → (s.ph sp').isOn = false) {p : ℤ} (hp : Resolved N p) (h0 : p ≠ 0) (hk : waveNumber N s.dx p ≠ 0)
    (y : State N) (hy : mode (y sp .u) p ≠ 0) :
    mode (linear s n0 p0 (linear s n0 p0 y) sp .u) p ≠
      -(bohmGross (s.ph sp).charge (s.ph sp).mass gamma (n0 sp) (p0 sp) (waveNumber N s.dx p) : ℂ) * mode (y sp .u) p := by
  have hwi : wi s.root s.klds s.dx N (s.ph sp) p.natAbs = 0 := by unfold wi; rw [hl]; rfl
  have hco : wrCorr s.root s.klds s.dx N (s.ph sp) p.natAbs = 1 := by unfold wrCorr; rw [hg]
  have hgam : gammaOf (s.ph sp) = gamma := by unfold gammaOf; rw [hg]
  have h := oscillator s hdx n0 p0 y sp ho honly hp h0
  dsimp only at h
  rw [hwi, hco, hgam] at h
  obtain ⟨m, hmm⟩ : ∃ m, m = (s.ph sp).mass := ⟨_, rfl⟩
  obtain ⟨q, hq⟩ : ∃ q, q = (s.ph sp).charge := ⟨_, rfl⟩
  obtain ⟨k, hkk⟩ : ∃ k, k = waveNumber N s.dx p := ⟨_, rfl⟩
  rw [← hmm, ← hq, ← hkk] at h
  rw [← hmm] at hm hm1
  rw [← hkk] at hk
  rw [← hmm, ← hq, ← hkk]
  intro hb
  rw [hb] at h
  have h2 : ((q ^ 2 * n0 sp / m + 1 * gamma * p0 sp / (m ^ 2 * n0 sp) * k ^ 2 : ℝ) : ℂ) = (bohmGross q m gamma (n0 sp) (p0 sp) k : ℂ) := by
    refine mul_right_cancel₀ hy ?_
    push_cast at h ⊢
    linear_combination h
  have h3 : q ^ 2 * n0 sp / m + 1 * gamma * p0 sp / (m ^ 2 * n0 sp) * k ^ 2 = bohmGross q m gamma (n0 sp) (p0 sp) k := by exact_mod_cast h2
  unfold bohmGross at h3
  have h1 : 1 * gamma * p0 sp / (m ^ 2 * n0 sp) * k ^ 2 = gamma * p0 sp / (m * n0 sp) * k ^ 2 := by linarith
  field_simp at h1
  exact hm1 (by linarith)

end Verif.TwoFluid
