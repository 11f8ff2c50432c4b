import Verif.Lemmas.Lpse
import Verif.Spec.Lpse
import Mathlib.Analysis.SpecialFunctions.Pow.Real

/-! C164-C166, C179: plasma waves of the envelope solver. -/
namespace Verif.Lpse
open Finset Complex Verif.Spectral
open scoped ComplexConjugate

variable {nx ny : ℕ} [NeZero nx] [NeZero ny]

/-- C164: the recorded wave energy is the sum over modes of `k^2 |phi_k|^2`. -/
theorem energy_modes (p : Epw nx ny) (phi : Arr nx ny ℂ) :
    eSq p.dx p.dy phi = p.dx * p.dy / (nx * ny) * ∑ a, ∑ b, p.ksq a b * ‖phi a b‖ ^ 2 := by
  have hn : ∀ (k : ℝ) (z : ℂ), ‖-I * (k : ℂ) * z‖ ^ 2 = k ^ 2 * ‖z‖ ^ 2 := by
    intro k z
    rw [norm_mul, norm_mul, norm_neg, norm_I, one_mul, norm_real, mul_pow, Real.norm_eq_abs, sq_abs]
  unfold eSq
  have e : ∀ x y, (‖ifft2 (fun a b => -I * (kax p.dx a : ℂ) * phi a b) x y‖ ^ 2 + ‖ifft2 (fun a b => -I * (kax p.dy b : ℂ) * phi a b) x y‖ ^ 2) * p.dx * p.dy
      = p.dx * p.dy * ‖ifft2 (fun a b => -I * (kax p.dx a : ℂ) * phi a b) x y‖ ^ 2 + p.dx * p.dy * ‖ifft2 (fun a b => -I * (kax p.dy b : ℂ) * phi a b) x y‖ ^ 2 :=
    fun _ _ => by ring
  simp only [e, sum_add_distrib, ← mul_sum]
  rw [norm_ifft2, norm_ifft2]
  simp only [hn]
  unfold Epw.ksq
  simp only [add_mul, sum_add_distrib]
  ring

theorem eSq_nonneg (p : Epw nx ny) (hp : Physical p) (phi : Arr nx ny ℂ) : 0 ≤ eSq p.dx p.dy phi := by
  have := hp.dx; have := hp.dy
  unfold eSq; positivity

theorem landau_nonneg (p : Epw nx ny) (hp : Physical p) (a : ZMod nx) (b : ZMod ny) : 0 ≤ p.landau a b := by
  have hw := hp.wp0; have hv := hp.vte
  have hk := ksq_nonneg p a b
  unfold Epw.landau Epw.zeroMask
  by_cases h : 0 < p.ksq a b
  · simp only [if_pos h]; positivity
  · simp [h]

/-- C165: the damping rate is the textbook one. -/
theorem landau_spec (p : Epw nx ny) (hp : Physical p) (a : ZMod nx) (b : ZMod ny) (h : ¬(a = 0 ∧ b = 0)) :
    p.landau a b = landauRate p.wp0 (Real.sqrt (p.ksq a b) * Real.sqrt p.vteSq / p.wp0) := by
  have hk : 0 < p.ksq a b := (ksq_pos_iff hp.dx.ne' hp.dy.ne' a b).2 h
  have hw := hp.wp0; have hv := hp.vte
  unfold Epw.landau Epw.zeroMask landauRate
  simp only [if_pos hk, mul_one]
  obtain ⟨k, hk0, hks⟩ : ∃ k, 0 < k ∧ p.ksq a b = k ^ 2 := ⟨_, Real.sqrt_pos.2 hk, (Real.sq_sqrt hk.le).symm⟩
  obtain ⟨v, hv0, hvs⟩ : ∃ v, 0 < v ∧ p.vteSq = v ^ 2 := ⟨_, Real.sqrt_pos.2 hv, (Real.sq_sqrt hv.le).symm⟩
  have hpow : ∀ z : ℝ, 0 < z → (z ^ 2) ^ (1.5 : ℝ) = z ^ 3 := by
    intro z hz
    rw [← Real.rpow_natCast z 2, ← Real.rpow_mul hz.le, ← Real.rpow_natCast z 3]
    norm_num
  rw [hks, hvs, Real.sqrt_sq hk0.le, Real.sqrt_sq hv0.le, hpow k hk0, hpow v hv0]
  have e1 : -(1.5 + 0.5 * p.wp0 ^ 2 / (k ^ 2 * v ^ 2)) = -(3 / 2) - 1 / (2 * (k * v / p.wp0) ^ 2) := by
    field_simp; ring
  rw [e1]
  field_simp
  ring

/-- C164: collisionless and collisional damping only: every step without sources loses wave energy, at least at twice the
collision rate, whatever the density profile, boundaries and filter. -/
theorem step_energy (p : Epw nx ny) (hp : Physical p) (hn : p.noise = false) (ht : p.tpd = false) (t : ℝ) (phi E0y : Arr nx ny ℂ) :
    eSq p.dx p.dy (p.step t phi E0y) ≤ Real.exp (-2 * p.nuColl * p.dt) * eSq p.dx p.dy phi := by
  obtain ⟨phi1, h1⟩ : ∃ q, q = p.linear t phi := ⟨_, rfl⟩
  have hdx := hp.dx; have hdy := hp.dy; have hdt := hp.dt
  have hlin : ∀ a b, ‖phi1 a b‖ ^ 2 ≤ Real.exp (-2 * p.nuColl * p.dt) * ‖phi a b‖ ^ 2 := by
    intro a b
    rw [h1]
    unfold Epw.linear
    simp only [hn, Bool.false_eq_true, if_false, add_zero]
    rw [norm_mul, norm_mul, norm_mul]
    have e0 : ‖cexp (-I * ((1.5 * p.vteSq / p.wp0 * p.ksq a b * p.dt : ℝ) : ℂ))‖ = 1 := by
      rw [norm_exp]; simp
    rw [e0, norm_real, norm_real, mul_one, Real.norm_eq_abs, Real.norm_eq_abs, abs_of_nonneg (hp.low a b).1, Real.abs_exp]
    have hl := (hp.low a b).2
    have hl0 := (hp.low a b).1
    have hg := landau_nonneg p hp a b
    have he : Real.exp (-(p.landau a b + p.nuColl) * p.dt) ≤ Real.exp (-p.nuColl * p.dt) :=
      Real.exp_le_exp.2 (by nlinarith)
    have e2 : Real.exp (-2 * p.nuColl * p.dt) = Real.exp (-p.nuColl * p.dt) ^ 2 := by
      rw [← Real.exp_nat_mul]; congr 1; push_cast; ring
    rw [e2, ← mul_pow]
    refine pow_le_pow_left₀ (by positivity) ?_ 2
    calc ‖phi a b‖ * Real.exp (-(p.landau a b + p.nuColl) * p.dt) * p.lowPass a b
        ≤ ‖phi a b‖ * Real.exp (-(p.landau a b + p.nuColl) * p.dt) * 1 := by gcongr
      _ ≤ Real.exp (-p.nuColl * p.dt) * ‖phi a b‖ := by rw [mul_one, mul_comm]; gcongr
  have hloc : ∀ (E : Arr nx ny ℂ) x y, ‖p.local E x y‖ ^ 2 ≤ ‖E x y‖ ^ 2 := by
    intro E x y
    unfold Epw.local
    rw [norm_mul, norm_real, Real.norm_eq_abs, abs_of_nonneg (hp.bnd x y).1, mul_pow]
    have : ‖(if p.densityGradient then E x y * cexp (-I * ((p.wp0 / 2 * (p.density x y / p.envelopeDensity - 1) * p.dt : ℝ) : ℂ)) else E x y)‖ = ‖E x y‖ := by
      split
      · rw [norm_mul]
        have : ‖cexp (-I * ((p.wp0 / 2 * (p.density x y / p.envelopeDensity - 1) * p.dt : ℝ) : ℂ))‖ = 1 := by
          rw [norm_exp]; simp
        rw [this, mul_one]
      · rfl
    rw [this]
    have h2 := (hp.bnd x y).2
    have h0 := (hp.bnd x y).1
    have : p.boundary x y ^ 2 ≤ 1 := by nlinarith
    nlinarith [sq_nonneg ‖E x y‖]
  obtain ⟨Ex, hEx⟩ : ∃ q, q = p.local (p.exOf phi1) := ⟨_, rfl⟩
  obtain ⟨Ey, hEy⟩ : ∃ q, q = p.local (p.eyOf phi1) := ⟨_, rfl⟩
  have hstep : p.step t phi E0y = p.phiOf Ex Ey := by
    unfold Epw.step
    simp only [ht, Bool.false_eq_true, if_false, add_zero]
    rw [hEx, hEy, h1]
  have hproj : ∀ a b, p.ksq a b * ‖p.phiOf Ex Ey a b‖ ^ 2 ≤ ‖fft2 Ex a b‖ ^ 2 + ‖fft2 Ey a b‖ ^ 2 := by
    intro a b
    unfold Epw.phiOf Epw.invKsq Epw.zeroMask
    by_cases hk : 0 < p.ksq a b
    · simp only [if_pos hk]
      rw [norm_mul, norm_mul, norm_mul, norm_mul, norm_I, one_mul, norm_real, norm_real, norm_real, Real.norm_eq_abs, Real.norm_eq_abs,
        abs_of_nonneg (hp.low a b).1, abs_of_pos (by positivity : (0:ℝ) < 1 / p.ksq a b), norm_one, mul_one]
      have hl2 : p.lowPass a b ^ 2 ≤ 1 := by nlinarith [(hp.low a b).1, (hp.low a b).2]
      have hc : ‖(kax p.dx a : ℂ) * fft2 Ex a b + (kax p.dy b : ℂ) * fft2 Ey a b‖ ^ 2 ≤ p.ksq a b * (‖fft2 Ex a b‖ ^ 2 + ‖fft2 Ey a b‖ ^ 2) := by
        have h := norm_add_le ((kax p.dx a : ℂ) * fft2 Ex a b) ((kax p.dy b : ℂ) * fft2 Ey a b)
        rw [norm_mul, norm_mul, norm_real, norm_real, Real.norm_eq_abs, Real.norm_eq_abs] at h
        have h2 := pow_le_pow_left₀ (norm_nonneg _) h 2
        refine h2.trans ?_
        unfold Epw.ksq
        have s1 := sq_abs (kax p.dx a)
        have s2 := sq_abs (kax p.dy b)
        nlinarith [sq_nonneg (|kax p.dx a| * ‖fft2 Ey a b‖ - |kax p.dy b| * ‖fft2 Ex a b‖)]
      have hX : 0 ≤ ‖fft2 Ex a b‖ ^ 2 + ‖fft2 Ey a b‖ ^ 2 := by positivity
      calc p.ksq a b * (‖(kax p.dx a : ℂ) * fft2 Ex a b + (kax p.dy b : ℂ) * fft2 Ey a b‖ * p.lowPass a b * (1 / p.ksq a b)) ^ 2
          = ‖(kax p.dx a : ℂ) * fft2 Ex a b + (kax p.dy b : ℂ) * fft2 Ey a b‖ ^ 2 * p.lowPass a b ^ 2 / p.ksq a b := by field_simp
        _ ≤ p.ksq a b * (‖fft2 Ex a b‖ ^ 2 + ‖fft2 Ey a b‖ ^ 2) * 1 / p.ksq a b := by gcongr
        _ = _ := by field_simp
    · have : p.ksq a b = 0 := le_antisymm (not_lt.1 hk) (ksq_nonneg p a b)
      rw [this, zero_mul]; positivity
  have hxy : (0 : ℝ) < nx * ny := by
    have := Nat.pos_of_ne_zero (NeZero.ne nx); have := Nat.pos_of_ne_zero (NeZero.ne ny)
    positivity
  have hfin : ∑ a, ∑ b, p.ksq a b * ‖p.phiOf Ex Ey a b‖ ^ 2 ≤ ∑ a, ∑ b, p.ksq a b * ‖phi1 a b‖ ^ 2 := by
    calc ∑ a, ∑ b, p.ksq a b * ‖p.phiOf Ex Ey a b‖ ^ 2
        ≤ ∑ a, ∑ b, (‖fft2 Ex a b‖ ^ 2 + ‖fft2 Ey a b‖ ^ 2) := sum_le_sum fun a _ => sum_le_sum fun b _ => hproj a b
      _ = (nx * ny : ℝ) * ∑ x, ∑ y, (‖Ex x y‖ ^ 2 + ‖Ey x y‖ ^ 2) := by
          simp only [sum_add_distrib]; rw [parseval2, parseval2]; ring
      _ ≤ (nx * ny : ℝ) * ∑ x, ∑ y, (‖p.exOf phi1 x y‖ ^ 2 + ‖p.eyOf phi1 x y‖ ^ 2) := by
          refine mul_le_mul_of_nonneg_left (sum_le_sum fun x _ => sum_le_sum fun y _ => ?_) hxy.le
          rw [hEx, hEy]
          exact add_le_add (hloc _ x y) (hloc _ x y)
      _ = ∑ a, ∑ b, p.ksq a b * ‖phi1 a b‖ ^ 2 := by
          have h := energy_modes p phi1
          unfold eSq at h
          have e : ∀ x y, (‖ifft2 (fun a b => -I * (kax p.dx a : ℂ) * phi1 a b) x y‖ ^ 2 + ‖ifft2 (fun a b => -I * (kax p.dy b : ℂ) * phi1 a b) x y‖ ^ 2) * p.dx * p.dy
              = p.dx * p.dy * (‖p.exOf phi1 x y‖ ^ 2 + ‖p.eyOf phi1 x y‖ ^ 2) := fun x y => by unfold Epw.exOf Epw.eyOf; ring
          simp only [e, ← mul_sum] at h
          have hd : p.dx * p.dy ≠ 0 := by positivity
          have h' := mul_left_cancel₀ hd (h.trans (by rw [div_mul_eq_mul_div, mul_div_assoc] : _ = p.dx * p.dy * ((∑ a, ∑ b, p.ksq a b * ‖phi1 a b‖ ^ 2) / (nx * ny))))
          rw [h', mul_div_cancel₀ _ hxy.ne']
  rw [hstep, energy_modes, energy_modes, ← mul_assoc, mul_comm (Real.exp _), mul_assoc]
  refine mul_le_mul_of_nonneg_left (hfin.trans ?_) (by positivity)
  rw [mul_sum]
  refine sum_le_sum fun a _ => ?_
  rw [mul_sum]
  refine sum_le_sum fun b _ => ?_
  have := mul_le_mul_of_nonneg_left (hlin a b) (ksq_nonneg p a b)
  linarith

/-- C164: in a run without noise and two-plasmon source the recorded wave energy never grows. -/
theorem run_energy (p : Epw nx ny) (hp : Physical p) (hn : p.noise = false) (ht : p.tpd = false) (l : Light nx ny) (pump : Option (Pump ny))
    (s : State nx ny) (n : ℕ) :
    eSq p.dx p.dy (run p l pump s (n + 1)).epw ≤ Real.exp (-2 * p.nuColl * p.dt) * eSq p.dx p.dy (run p l pump s n).epw ∧
    eSq p.dx p.dy (run p l pump s (n + 1)).epw ≤ eSq p.dx p.dy (run p l pump s n).epw ∧
    eSq p.dx p.dy (run p l pump s n).epw ≤ Real.exp (-2 * p.nuColl * (n * p.dt)) * eSq p.dx p.dy s.epw := by
  have h : ∀ n, eSq p.dx p.dy (run p l pump s (n + 1)).epw ≤ Real.exp (-2 * p.nuColl * p.dt) * eSq p.dx p.dy (run p l pump s n).epw :=
    fun n => step_energy p hp hn ht _ _ _
  refine ⟨h n, (h n).trans ?_, ?_⟩
  · have h1 : Real.exp (-2 * p.nuColl * p.dt) ≤ 1 := by
      rw [Real.exp_le_one_iff]
      have := mul_nonneg hp.nu hp.dt
      linarith
    exact mul_le_of_le_one_left (eSq_nonneg p hp _) h1
  · induction n with
    | zero => simp [run]
    | succ n ih =>
      refine (h n).trans ?_
      refine (mul_le_mul_of_nonneg_left ih (Real.exp_pos _).le).trans (le_of_eq ?_)
      rw [← mul_assoc, ← Real.exp_add]
      congr 2; push_cast; ring

/-- C166: field and potential: the potential recovered from the field of a potential is that potential without its mean and
the filtered modes. -/
theorem round_trip (p : Epw nx ny) (phi : Arr nx ny ℂ) (a : ZMod nx) (b : ZMod ny) :
    p.phiOf (p.exOf phi) (p.eyOf phi) a b = if 0 < p.ksq a b then phi a b * (p.lowPass a b : ℂ) else 0 := by
  unfold Epw.phiOf Epw.exOf Epw.eyOf Epw.invKsq Epw.zeroMask
  rw [fft2_ifft2, fft2_ifft2]
  by_cases h : 0 < p.ksq a b
  · simp only [if_pos h]
    have hk : ((kax p.dx a : ℂ) ^ 2 + (kax p.dy b : ℂ) ^ 2) = ((p.ksq a b : ℝ) : ℂ) := by unfold Epw.ksq; push_cast; ring
    have hne : ((p.ksq a b : ℝ) : ℂ) ≠ 0 := ofReal_ne_zero.2 h.ne'
    push_cast
    have : I * ((kax p.dx a : ℂ) * (-I * (kax p.dx a : ℂ) * phi a b) + (kax p.dy b : ℂ) * (-I * (kax p.dy b : ℂ) * phi a b))
        = ((p.ksq a b : ℝ) : ℂ) * phi a b := by
      rw [← hk]; ring_nf; rw [I_sq]; ring
    rw [this]; field_simp
  · simp [h]

/-- C166: the mean potential and the modes the filter removes are zero after every step, with every source on. -/
theorem filtered_zero (p : Epw nx ny) (hx : p.dx ≠ 0) (hy : p.dy ≠ 0) (l : Light nx ny) (pump : Option (Pump ny)) (s : State nx ny) (n : ℕ)
    (a : ZMod nx) (b : ZMod ny) (h : p.lowPass a b = 0 ∨ (a = 0 ∧ b = 0)) : (run p l pump s (n + 1)).epw a b = 0 := by
  have hz : (p.lowPass a b : ℂ) = 0 ∨ ((p.zeroMask a b : ℝ) : ℂ) = 0 := by
    rcases h with h | h
    · left; rw [h]; simp
    · right
      have : ¬ 0 < p.ksq a b := fun hk => (ksq_pos_iff hx hy a b).1 hk h
      simp [Epw.zeroMask, this]
  show p.step _ _ _ a b = 0
  unfold Epw.step Epw.phiOf Epw.tpdSource
  simp only
  rcases hz with hz | hz <;> simp [hz]

/-- The envelope frequency and the total frequency of a wave. -/
theorem bohm_gross (wp0 vteSq n n0 ksq : ℝ) (hw : wp0 ≠ 0) :
    let d := 1.5 * vteSq / wp0 * ksq + wp0 / 2 * (n / n0 - 1)
    (wp0 + d) ^ 2 - d ^ 2 = bohmGross wp0 vteSq (n / n0) ksq := by
  intro d
  have : (wp0 + d) ^ 2 - d ^ 2 = wp0 ^ 2 + 2 * wp0 * d := by ring
  rw [this]
  simp only [d, bohmGross]
  field_simp
  ring

/-- C165: in a uniform periodic plasma every retained mode is the exact damped wave for every number of steps and every step
size; the frequency is `bohm_gross`, the damping `landau_spec` plus the collision rate. -/
theorem exact_wave (p : Epw nx ny) (n : ℝ) (hu : Uniform p n) (hg : p.densityGradient = true) (hn : p.noise = false) (ht : p.tpd = false)
    (hx : p.dx ≠ 0) (hy : p.dy ≠ 0) (l : Light nx ny) (pump : Option (Pump ny)) (s : State nx ny) (m : ℕ)
    (a : ZMod nx) (b : ZMod ny) (ha : ¬(a = 0 ∧ b = 0)) (hl : p.lowPass a b = 1) :
    (run p l pump s m).epw a b = s.epw a b *
      cexp (-I * (((1.5 * p.vteSq / p.wp0 * p.ksq a b + p.wp0 / 2 * (n / p.envelopeDensity - 1)) * (m * p.dt) : ℝ) : ℂ)) *
      ((Real.exp (-(p.landau a b + p.nuColl) * (m * p.dt)) : ℝ) : ℂ) := by
  induction m with
  | zero => simp [run]
  | succ m ih =>
    have hk : 0 < p.ksq a b := (ksq_pos_iff hx hy a b).2 ha
    obtain ⟨phi, hphi⟩ : ∃ q, q = (run p l pump s m).epw := ⟨_, rfl⟩
    obtain ⟨E0y, hE⟩ : ∃ E0y, (run p l pump s (m + 1)).epw = p.step ((m : ℝ) * p.dt) phi E0y := ⟨_, by rw [hphi]; rfl⟩
    rw [hE]
    rw [← hphi] at ih
    unfold Epw.step
    simp only [ht, Bool.false_eq_true, if_false, add_zero]
    obtain ⟨c, hc⟩ : ∃ c, c = cexp (-I * ((p.wp0 / 2 * (n / p.envelopeDensity - 1) * p.dt : ℝ) : ℂ)) := ⟨_, rfl⟩
    have hloc : ∀ F : Arr nx ny ℂ, p.local (ifft2 F) = ifft2 (fun a b => c * F a b) := by
      intro F
      funext x y
      rw [ifft2_smul]
      unfold Epw.local
      rw [hu.density, hu.boundary, hg, if_pos rfl, ofReal_one, mul_one, hc, mul_comm]
    have e1 : p.local (p.exOf (p.linear ((m : ℝ) * p.dt) phi)) = p.exOf (fun a b => c * p.linear ((m : ℝ) * p.dt) phi a b) := by
      unfold Epw.exOf; rw [hloc]; congr 1; funext a b; ring
    have e2 : p.local (p.eyOf (p.linear ((m : ℝ) * p.dt) phi)) = p.eyOf (fun a b => c * p.linear ((m : ℝ) * p.dt) phi a b) := by
      unfold Epw.eyOf; rw [hloc]; congr 1; funext a b; ring
    rw [e1, e2, round_trip, if_pos hk, hl, ofReal_one, mul_one]
    unfold Epw.linear
    simp only [hn, Bool.false_eq_true, if_false, add_zero]
    rw [hl, ofReal_one, mul_one, ih, hc]
    have hexp : ∀ z w : ℂ, cexp z * cexp w = cexp (z + w) := fun z w => (Complex.exp_add z w).symm
    rw [show cexp (-I * ((p.wp0 / 2 * (n / p.envelopeDensity - 1) * p.dt : ℝ) : ℂ)) *
        (s.epw a b * cexp (-I * (((1.5 * p.vteSq / p.wp0 * p.ksq a b + p.wp0 / 2 * (n / p.envelopeDensity - 1)) * (m * p.dt) : ℝ) : ℂ)) *
          ((Real.exp (-(p.landau a b + p.nuColl) * (m * p.dt)) : ℝ) : ℂ) *
          cexp (-I * ((1.5 * p.vteSq / p.wp0 * p.ksq a b * p.dt : ℝ) : ℂ)) * ((Real.exp (-(p.landau a b + p.nuColl) * p.dt) : ℝ) : ℂ))
        = s.epw a b * (cexp (-I * ((p.wp0 / 2 * (n / p.envelopeDensity - 1) * p.dt : ℝ) : ℂ)) *
          cexp (-I * (((1.5 * p.vteSq / p.wp0 * p.ksq a b + p.wp0 / 2 * (n / p.envelopeDensity - 1)) * (m * p.dt) : ℝ) : ℂ)) *
          cexp (-I * ((1.5 * p.vteSq / p.wp0 * p.ksq a b * p.dt : ℝ) : ℂ))) *
          (((Real.exp (-(p.landau a b + p.nuColl) * (m * p.dt)) * Real.exp (-(p.landau a b + p.nuColl) * p.dt) : ℝ)) : ℂ) by push_cast; ring]
    rw [hexp, hexp, ← Real.exp_add]
    congr 3
    · push_cast; ring
    · push_cast; ring

/-- C179: without the noise source nothing ever happens: the plasma waves, started from zero, stay zero in every run with every
pump (the `density.noise` section has no effect); the Raman field is always zero. -/
theorem silent (p : Epw nx ny) (hn : p.noise = false) (l : Light nx ny) (pump : Option (Pump ny)) (m : ℕ) :
    (run p l pump initial m).epw = fun _ _ => 0 := by
  have hi : ∀ F : Arr nx ny ℂ, (∀ a b, F a b = 0) → ∀ x y, ifft2 F x y = 0 := by
    intro F hF x y
    have : F = fun a b => 0 * F a b := by funext a b; rw [hF]; ring
    rw [this, ifft2_smul, zero_mul]
  have hf : ∀ F : Arr nx ny ℂ, (∀ a b, F a b = 0) → ∀ x y, fft2 F x y = 0 := by
    intro F hF x y
    have : F = fun a b => 0 * F a b := by funext a b; rw [hF]; ring
    rw [this, fft2_smul, zero_mul]
  induction m with
  | zero => rfl
  | succ m ih =>
    show p.step _ (run p l pump initial m).epw _ = _
    rw [ih]
    funext a b
    have hlin : ∀ t, p.linear t (fun _ _ => 0) = fun _ _ => 0 := by
      intro t; funext a b; unfold Epw.linear; simp [hn]
    unfold Epw.step
    simp only [hlin]
    have hx : ∀ x y, p.exOf (fun _ _ => 0) x y = 0 := hi _ (by simp)
    have hy : ∀ x y, p.eyOf (fun _ _ => 0) x y = 0 := hi _ (by simp)
    have h1 : ∀ a b, p.phiOf (p.local (p.exOf fun _ _ => 0)) (p.local (p.eyOf fun _ _ => 0)) a b = 0 := by
      intro a b
      unfold Epw.phiOf
      rw [hf _ (by intro a b; unfold Epw.local; simp [hx]), hf _ (by intro a b; unfold Epw.local; simp [hy])]
      simp
    rw [h1, zero_add]
    split
    · unfold Epw.tpdSource
      simp only
      rw [hf _ (by intro a b; simp [hy]), hf _ (by intro x y; rw [hi _ (by simp)]; simp)]
      simp
    · rfl

theorem raman_silent (p : Epw nx ny) (l : Light nx ny) (pump : Option (Pump ny)) (m : ℕ) : (run p l pump initial m).E1 = fun _ _ _ => 0 := by
  induction m with
  | zero => rfl
  | succ m ih =>
    funext i x y
    show (run p l pump initial m).E1 i x y * _ = 0
    rw [ih]; simp

end Verif.Lpse
