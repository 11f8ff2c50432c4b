import Verif.Model.SpeckleSeries
import Verif.Props.Speckle
import Verif.Props.Spectral
import Mathlib.Tactic.Linarith

/-!
Spectrum of the random series of the smoothed beam (C176).
-/
namespace Verif.Speckle
open Finset Complex ZMod Spectral

variable {N : ℕ} [NeZero N]

/-- Content of a series of `N` samples at `p` oscillations over the whole series. -/
noncomputable def tone (z : ZMod N → ℂ) (p : ℤ) : ℂ := ∑ j, z j * Complex.exp (-(2 * Real.pi * p * j.val / N) * I)

theorem tone_eq (z : ZMod N → ℂ) (p : ℤ) : tone z p = fft z (p : ZMod N) := by
  unfold tone fft
  rw [dft_apply]
  refine sum_congr rfl fun j _ => ?_
  rw [smul_eq_mul, mul_comm]
  congr 1
  have : -(j * (p : ZMod N)) = ((-(p * (j.val : ℤ)) : ℤ) : ZMod N) := by
    push_cast
    rw [natCast_zmod_val]; ring
  rw [this, stdAddChar_coe]
  congr 1
  push_cast
  ring

/-- A shift in time changes no tone's size. -/
theorem fft_roll (z : ZMod N → ℂ) (s k : ZMod N) : ‖fft (fun j => z (j + s)) k‖ = ‖fft z k‖ := by
  unfold fft
  rw [dft_apply, dft_apply]
  have : ∑ j, stdAddChar (-(j * k)) • z (j + s) = (stdAddChar (s * k) : ℂ) * ∑ j, stdAddChar (-(j * k)) • z j := by
    rw [← Equiv.sum_comp (Equiv.addRight s) fun j => stdAddChar (-(j * k)) • z j, mul_sum]
    refine sum_congr rfl fun j _ => ?_
    rw [Equiv.coe_addRight, smul_eq_mul, smul_eq_mul, ← mul_assoc, ← AddChar.map_add_eq_mul]
    congr 2
    ring
  rw [this, norm_mul]
  have : ‖(stdAddChar (s * k) : ℂ)‖ = 1 := by
    rw [stdAddChar_apply]
    exact Circle.norm_coe _
  rw [this, one_mul]

/-- The size of each tone of the raw series. -/
theorem raw_tone (dt fwhm : ℝ) (noise : ZMod N → ℂ) (k : ZMod N) :
    ‖fft (rawSeries dt fwhm noise) k‖ = N * ‖spectral dt fwhm noise (-k - ((N / 2 : ℕ) : ZMod N))‖ := by
  have := fft_roll (fft (fftshift (spectral dt fwhm noise))) ((N / 2 : ℕ) : ZMod N) k
  unfold rawSeries ifftshift
  rw [this]
  unfold fft
  rw [dft_dft]
  beta_reduce
  rw [norm_smul, Complex.norm_natCast]
  rfl

theorem psd_even (fwhm f : ℝ) : psd fwhm (-f) = psd fwhm f := by
  unfold psd
  congr 2
  ring

theorem psd_pos (fwhm f : ℝ) : 0 < psd fwhm f := Real.exp_pos _

theorem psd_freq (dt fwhm : ℝ) (p : ℤ) (hp : Resolved N p) : psd fwhm (Grid.fftfreqAt N dt (p : ZMod N).val) = psd fwhm (p / (N * dt)) := by
  have h := kfull_eq (N := N) dt hp
  unfold kfull waveNumber at h
  congr 1
  have hp := Real.pi_pos
  have : Grid.fftfreqAt N dt (p : ZMod N).val * (2 * Real.pi) = (p / (N * dt)) * (2 * Real.pi) := by rw [h]; ring
  exact mul_right_cancel₀ (by positivity) this

/-- Size of a tone of the raw series: the Gaussian at the frequency displaced by `s` bins, `s = N - 2 (N / 2)`. -/
theorem raw_gauss (dt fwhm : ℝ) (noise : ZMod N → ℂ) (p q : ℤ) (hq : Resolved N q)
    (h : ((-p : ℤ) : ZMod N) - ((N / 2 : ℕ) : ZMod N) - ((N / 2 : ℕ) : ZMod N) = ((q : ℤ) : ZMod N)) :
    ‖fft (rawSeries dt fwhm noise) (p : ZMod N)‖ = N * psd fwhm (q / (N * dt)) * ‖noise (-(p : ZMod N) - ((N / 2 : ℕ) : ZMod N))‖ := by
  rw [raw_tone]
  unfold spectral
  rw [norm_mul, Complex.norm_real, Real.norm_of_nonneg (psd_pos _ _).le]
  have e : fftshift (fun k : ZMod N => Grid.fftfreqAt N dt k.val) (-(p : ZMod N) - ((N / 2 : ℕ) : ZMod N)) = Grid.fftfreqAt N dt (q : ZMod N).val := by
    unfold fftshift
    rw [← h]
    push_cast
    rfl
  rw [e, psd_freq dt fwhm q hq]
  ring

theorem half_twice_even (h : Even N) : ((N / 2 : ℕ) : ZMod N) + ((N / 2 : ℕ) : ZMod N) = 0 := by
  obtain ⟨m, hm⟩ := h
  have : N / 2 + N / 2 = N := by omega
  have e : ((N / 2 + N / 2 : ℕ) : ZMod N) = ((N : ℕ) : ZMod N) := by rw [this]
  push_cast at e
  rw [e]
  exact natCast_self N

theorem half_twice_odd (h : Odd N) : ((N / 2 : ℕ) : ZMod N) + ((N / 2 : ℕ) : ZMod N) = -1 := by
  obtain ⟨m, hm⟩ := h
  have : N / 2 + N / 2 + 1 = N := by omega
  have e : ((N / 2 + N / 2 + 1 : ℕ) : ZMod N) = ((N : ℕ) : ZMod N) := by rw [this]
  push_cast at e
  rw [natCast_self N] at e
  exact eq_neg_of_add_eq_zero_left e

/-- The factor applied to the raw series at the end. -/
noncomputable def scale (dt fwhm rms : ℝ) (noise : ZMod N → ℂ) : ℝ :=
  rms / Real.sqrt ((∑ i ∈ range N, ‖rawSeries dt fwhm noise (i : ZMod N)‖ ^ 2) / N)

theorem series_scaled (dt fwhm rms : ℝ) (hf : fwhm ≠ 0) (noise : ZMod N → ℂ) (i : ZMod N) :
    series dt fwhm rms noise i = (scale dt fwhm rms noise : ℂ) * rawSeries dt fwhm noise i := by
  unfold series normalise scale
  rw [if_neg hf]
  beta_reduce
  rw [natCast_zmod_val]
  push_cast
  ring

theorem series_tone (dt fwhm rms : ℝ) (hf : fwhm ≠ 0) (noise : ZMod N → ℂ) (p : ℤ) :
    ‖tone (series dt fwhm rms noise) p‖ = |scale dt fwhm rms noise| * ‖fft (rawSeries dt fwhm noise) (p : ZMod N)‖ := by
  rw [tone_eq]
  have : fft (series dt fwhm rms noise) (p : ZMod N) = (scale dt fwhm rms noise : ℂ) * fft (rawSeries dt fwhm noise) (p : ZMod N) := by
    unfold fft
    rw [dft_apply, dft_apply, mul_sum]
    refine sum_congr rfl fun j _ => ?_
    rw [series_scaled dt fwhm rms hf, smul_eq_mul, smul_eq_mul]
    ring
  rw [this, norm_mul, Complex.norm_real, Real.norm_eq_abs]

/-- **C176 (spectrum).**  With an even number of samples each tone of the series is one of the random numbers times the
Gaussian at the tone's own frequency, with a common factor. -/
theorem series_spectrum (even : Even N) (dt fwhm rms : ℝ) (hf : fwhm ≠ 0) (noise : ZMod N → ℂ) :
    ∃ c : ℝ, ∃ σ : ZMod N → ZMod N, Function.Bijective σ ∧ ∀ p : ℤ, 2 * |p| < N →
      ‖tone (series dt fwhm rms noise) p‖ = c * Real.exp (-(Real.log 2 / 2) * (2 * Real.pi * (p / (N * dt)) / fwhm) ^ 2) * ‖noise (σ p)‖ := by
  refine ⟨|scale dt fwhm rms noise| * N, fun k => -k - ((N / 2 : ℕ) : ZMod N), ?_, ?_⟩
  · refine (Finite.injective_iff_bijective).1 ?_
    intro a b h
    simpa using h
  · intro p hp
    rw [series_tone dt fwhm rms hf, raw_gauss dt fwhm noise p (-p) (by unfold Resolved; rw [abs_neg]; exact hp) (by
      rw [sub_sub, half_twice_even even, sub_zero])]
    have : psd fwhm (((-p : ℤ) : ℝ) / (N * dt)) = Real.exp (-(Real.log 2 / 2) * (2 * Real.pi * (p / (N * dt)) / fwhm) ^ 2) := by
      rw [Int.cast_neg, neg_div, psd_even]
      unfold psd
      congr 1
      ring
    rw [this]
    ring

/-- **C176 (spectrum, odd lengths; the code violates the claim).**  With an odd number of samples the Gaussian is
displaced by one bin: the tone at `p` carries the factor of the frequency `p - 1`, so the mean frequency is not zero. -/
theorem series_spectrum_odd_partial (odd : Odd N) (dt fwhm rms : ℝ) (hf : fwhm ≠ 0) (noise : ZMod N → ℂ) :
    ∃ c : ℝ, ∃ σ : ZMod N → ZMod N, Function.Bijective σ ∧ ∀ p : ℤ, 2 * |p - 1| < N →
      ‖tone (series dt fwhm rms noise) p‖ = c * Real.exp (-(Real.log 2 / 2) * (2 * Real.pi * ((p - 1) / (N * dt)) / fwhm) ^ 2) * ‖noise (σ p)‖ := by
  refine ⟨|scale dt fwhm rms noise| * N, fun k => -k - ((N / 2 : ℕ) : ZMod N), ?_, ?_⟩
  · refine (Finite.injective_iff_bijective).1 ?_
    intro a b h
    simpa using h
  · intro p hp
    rw [series_tone dt fwhm rms hf, raw_gauss dt fwhm noise p (-(p - 1)) (by unfold Resolved; rw [abs_neg]; exact hp) (by
      rw [sub_sub, half_twice_odd odd]
      push_cast
      ring)]
    have : psd fwhm (((-(p - 1) : ℤ) : ℝ) / (N * dt)) = Real.exp (-(Real.log 2 / 2) * (2 * Real.pi * ((p - 1) / (N * dt)) / fwhm) ^ 2) := by
      rw [Int.cast_neg, neg_div, psd_even]
      unfold psd
      push_cast
      congr 1
      ring
    rw [this]
    ring

/-- The common factor vanishes only for a vanishing request or noise: with non-zero noise and request, both theorems above
speak about a series that is not zero. -/
theorem scale_pos (dt fwhm rms : ℝ) (hr : 0 < rms) (noise : ZMod N → ℂ) (hn : ∃ i, noise i ≠ 0) :
    0 < scale dt fwhm rms noise := by
  obtain ⟨i, hi⟩ := hn
  have ne : ∃ j : ZMod N, rawSeries dt fwhm noise j ≠ 0 := by
    by_contra hc
    push Not at hc
    have z : rawSeries dt fwhm noise = 0 := funext hc
    have := raw_tone dt fwhm noise (-(i + ((N / 2 : ℕ) : ZMod N)))
    rw [z] at this
    have f0 : fft (0 : ZMod N → ℂ) (-(i + ((N / 2 : ℕ) : ZMod N))) = 0 := by unfold fft; simp
    rw [f0, norm_zero, neg_neg, add_sub_cancel_right] at this
    unfold spectral at this
    rw [norm_mul, Complex.norm_real, Real.norm_of_nonneg (psd_pos _ _).le] at this
    have h1 := psd_pos fwhm (fftshift (fun k : ZMod N => Grid.fftfreqAt N dt k.val) i)
    have h2 := norm_pos_iff.2 hi
    have h3 : (0 : ℝ) < N := by exact_mod_cast NeZero.pos N
    have := mul_pos h3 (mul_pos h1 h2)
    linarith
  obtain ⟨j, hj⟩ := ne
  have h3 : (0 : ℝ) < N := by exact_mod_cast NeZero.pos N
  have s : 0 < ∑ i ∈ range N, ‖rawSeries dt fwhm noise (i : ZMod N)‖ ^ 2 := by
    refine sum_pos' (fun _ _ => by positivity) ⟨j.val, mem_range.2 (val_lt j), ?_⟩
    rw [natCast_zmod_val]
    have := norm_pos_iff.2 hj
    positivity
  unfold scale
  exact div_pos hr (Real.sqrt_pos.2 (div_pos s h3))

/-- **C176 (width, the code violates its documentation).**  The power of a tone falls to half at the angular frequency
`fwhm`: the parameter is the half width, not the documented full width at half maximum. -/
theorem half_power_partial (fwhm f : ℝ) (hw : 0 < fwhm) : psd fwhm f ^ 2 = 1 / 2 ↔ 2 * Real.pi * |f| = fwhm := by
  have hp := Real.pi_pos
  have l2 : 0 < Real.log 2 := Real.log_pos (by norm_num)
  have e : psd fwhm f ^ 2 = Real.exp (-Real.log 2 * (2 * Real.pi * |f| / fwhm) ^ 2) := by
    unfold psd
    rw [← Real.exp_nat_mul]
    congr 1
    rw [div_pow, mul_pow (2 * Real.pi), sq_abs]
    push_cast
    ring
  have half : (1 / 2 : ℝ) = Real.exp (-Real.log 2) := by rw [Real.exp_neg, Real.exp_log (by norm_num)]; norm_num
  rw [e, half, Real.exp_eq_exp]
  have nn : 0 ≤ 2 * Real.pi * |f| / fwhm := by positivity
  constructor
  · intro h
    have : (2 * Real.pi * |f| / fwhm) ^ 2 = 1 := by nlinarith
    have : 2 * Real.pi * |f| / fwhm = 1 := by nlinarith
    rwa [div_eq_one_iff_eq hw.ne'] at this
  · intro h
    rw [h, div_self hw.ne']
    ring

/-- **C176 (stored phase).**  The real phase stored for SSD is never larger than the complex series it comes from, so its
root-mean-square is at most the requested amplitude. -/
theorem stored_phase_rms (dt fwhm rms : ℝ) (hf : fwhm ≠ 0) (hr : 0 ≤ rms) (noise : ZMod N → ℂ) (h : ∃ i, rawSeries dt fwhm noise i ≠ 0) :
    Real.sqrt ((∑ i ∈ range N, storedPhase (series dt fwhm rms noise (i : ZMod N)) ^ 2) / N) ≤ rms := by
  obtain ⟨j, hj⟩ := h
  have r := Speckle.rms N fwhm rms (fun k => rawSeries dt fwhm noise (k : ZMod N)) hf hr ⟨j.val, val_lt j, by rw [natCast_zmod_val]; exact hj⟩
  refine le_trans (Real.sqrt_le_sqrt ?_) r.le
  refine div_le_div_of_nonneg_right (sum_le_sum fun i hi => ?_) (Nat.cast_nonneg N)
  have e : series dt fwhm rms noise (i : ZMod N) = normalise N fwhm rms (fun k => rawSeries dt fwhm noise (k : ZMod N)) i := by
    unfold series
    rw [val_natCast, Nat.mod_eq_of_lt (mem_range.1 hi)]
  rw [← e]
  generalize series dt fwhm rms noise (i : ZMod N) = z
  unfold storedPhase
  rw [div_pow, Real.sq_sqrt (by norm_num), Complex.sq_norm, Complex.normSq_apply, div_le_iff₀ (by norm_num)]
  nlinarith [sq_nonneg (z.re - z.im)]

/-- **C176 (stored phase, the code violates the claim).**  The stored phase need not have the requested root-mean-square:
a single real sample is stored `√2` times too small. -/
theorem stored_phase_partial (dt rms : ℝ) (hr : 0 < rms) :
    storedPhase (series (N := 1) dt 1 rms (fun _ => 1) 0) = rms / Real.sqrt 2 := by
  have raw : rawSeries (N := 1) dt 1 (fun _ => 1) 0 = 1 := by
    unfold rawSeries ifftshift fft fftshift
    rw [dft_apply]
    have d : ∀ x : ZMod 1, x = 0 := fun x => Subsingleton.elim _ _
    have v : ∀ x : ZMod 1, x.val = 0 := fun x => by rw [d x]; rfl
    simp [spectral, psd, fftshift, Grid.fftfreqAt, v]
  have s : series (N := 1) dt 1 rms (fun _ => 1) 0 = rms := by
    rw [series_scaled dt 1 rms one_ne_zero]
    unfold scale
    rw [Finset.sum_range_one, Nat.cast_zero, raw]
    simp
  rw [s]
  simp [storedPhase]

/-- Non-vacuity of the spectrum: four samples of unit noise give a series that is not zero. -/
example : 0 < scale (N := 4) 1 1 1 (fun _ => 1) := scale_pos 1 1 1 one_pos _ ⟨0, one_ne_zero⟩

end Verif.Speckle
