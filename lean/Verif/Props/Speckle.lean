import Verif.Model.Speckle
import Verif.Props.Spectral
import Verif.Props.Pic
import Verif.Props.SpectraxInit
import Verif.Props.Vlasov2V
import Mathlib.Algebra.Order.Chebyshev

/-! C175, C176, C177: the speckled beam. -/
namespace Verif.Speckle
open Finset Complex Verif.Spectral
open scoped ComplexConjugate

/-- C175: the beamlets are one unit apart and centred. -/
theorem lens_eq (n i : ℕ) (hi : i < n) : lens n i = i - ((n : ℝ) - 1) / 2 := by
  unfold lens Grid.linspaceAt
  split
  · have h1 : n = 1 := by omega
    have h2 : i = 0 := by omega
    subst h1 h2; norm_num
  · have h : (n : ℝ) - 1 ≠ 0 := by
      have : (1 : ℝ) < n := by exact_mod_cast (by omega : 1 < n)
      linarith
    field_simp; ring

theorem norm_phase (r : ℝ) : ‖cexp (I * (r : ℂ))‖ = 1 := by rw [mul_comm]; exact norm_exp_ofReal_mul_I r

theorem norm_kernel (n : ℕ) (a b : ℝ) : ‖cexp (-2 * Real.pi * I / n * (a : ℂ) * (b : ℂ))‖ = 1 := by
  have : -2 * Real.pi * I / n * (a : ℂ) * (b : ℂ) = I * ((-2 * Real.pi / n * a * b : ℝ) : ℂ) := by push_cast; ring
  rw [this, norm_phase]

theorem sinc_le (x : ℝ) : |sinc x| ≤ 1 := Real.abs_sinc_le_one _

/-- C175: nowhere does the field exceed the sum of the beamlets' amplitudes. -/
theorem pattern_bound (b : Beam) (B : ℕ → ℕ → ℂ) (x y : ℝ) : ‖b.pattern B x y‖ ≤ ∑ j ∈ range b.nY, ∑ i ∈ range b.nX, ‖B i j‖ := by
  have h : ‖∑ j ∈ range b.nY, (∑ i ∈ range b.nX, B i j * cexp (I * (b.plate i j : ℂ)) *
      cexp (-2 * Real.pi * I / b.nX * (lens b.nX i : ℂ) * ((x / b.spotX : ℝ) : ℂ))) *
      cexp (-2 * Real.pi * I / b.nY * (lens b.nY j : ℂ) * ((y / b.spotY : ℝ) : ℂ))‖ ≤ ∑ j ∈ range b.nY, ∑ i ∈ range b.nX, ‖B i j‖ := by
    refine (norm_sum_le _ _).trans (sum_le_sum fun j _ => ?_)
    rw [norm_mul, norm_kernel, mul_one]
    refine (norm_sum_le _ _).trans (sum_le_sum fun i _ => ?_)
    rw [norm_mul, norm_mul, norm_kernel, norm_phase]; simp
  unfold Beam.pattern
  split
  · rw [norm_mul, norm_mul, norm_real, norm_real]
    have h1 := sinc_le (x / b.spotX / b.nX)
    have h2 := sinc_le (y / b.spotY / b.nY)
    rw [Real.norm_eq_abs, Real.norm_eq_abs]
    have h3 : |sinc (x / b.spotX / b.nX)| * |sinc (y / b.spotY / b.nY)| ≤ 1 := mul_le_one₀ h1 (abs_nonneg _) h2
    exact (mul_le_of_le_one_left (norm_nonneg _) h3).trans h
  · exact h

/-- Discrete Plancherel for a trigonometric sum sampled at `M` points, `M` at least the number of terms. -/
theorem plancherel (N M : ℕ) (hM : N ≤ M) (h0 : 0 < M) (c : ℕ → ℂ) :
    ∑ s ∈ range M, ‖∑ i ∈ range N, c i * cexp (-2 * Real.pi * I * i * s / M)‖ ^ 2 = M * ∑ i ∈ range N, ‖c i‖ ^ 2 := by
  have : NeZero M := ⟨h0.ne'⟩
  let f : ZMod M → ℂ := fun k => if k.val < N then c k.val else 0
  have hv : ∀ i < M, ((i : ZMod M)).val = i := fun i hi => ZMod.val_cast_of_lt hi
  have hz : ∀ g : ZMod M → ℂ, ∑ j, g j = ∑ i ∈ range M, g i := by
    intro g
    refine (sum_bij (fun (i : ℕ) _ => (i : ZMod M)) (fun _ _ => mem_univ _) ?_ ?_ (fun _ _ => rfl)).symm
    · intro a ha b hb h
      have := congrArg ZMod.val h
      rwa [hv _ (mem_range.1 ha), hv _ (mem_range.1 hb)] at this
    · intro b _
      exact ⟨b.val, mem_range.2 (ZMod.val_lt b), ZMod.natCast_zmod_val b⟩
  have hf : ∀ s < M, fft f (s : ZMod M) = ∑ i ∈ range N, c i * cexp (-2 * Real.pi * I * i * s / M) := by
    intro s hs
    unfold fft
    rw [ZMod.dft_apply, hz]
    rw [← sum_subset (range_subset_range.2 hM)]
    · refine sum_congr rfl fun i hi => ?_
      have hi' := mem_range.1 hi
      have hiM : i < M := by omega
      simp only [f, hv i hiM, if_pos hi', smul_eq_mul]
      rw [mul_comm]
      congr 1
      have e : (-((i : ZMod M) * (s : ZMod M))) = (((-(i : ℤ) : ℤ)) : ZMod M) * (s : ZMod M) := by push_cast; ring
      rw [e, Spectrax.char_exp, hv s hs]
      congr 1; push_cast; ring
    · intro i hi hn
      have hi' := mem_range.1 hi
      have hn' : ¬ i < N := fun h => hn (mem_range.2 h)
      simp only [f, hv i hi', if_neg hn', smul_zero]
  have hp := parseval f f
  have hq : ∀ z : ℂ, conj z * z = ((‖z‖ ^ 2 : ℝ) : ℂ) := fun z => by rw [mul_comm, mul_conj, normSq_eq_norm_sq]
  simp only [hq] at hp
  rw [hz, hz] at hp
  have hp' : ∑ s ∈ range M, ‖fft f (s : ZMod M)‖ ^ 2 = M * ∑ i ∈ range M, ‖f (i : ZMod M)‖ ^ 2 := by exact_mod_cast hp
  rw [sum_congr rfl fun s hs => by rw [hf s (mem_range.1 hs)]] at hp'
  rw [hp']
  congr 1
  rw [← sum_subset (range_subset_range.2 hM)]
  · refine sum_congr rfl fun i hi => ?_
    have hi' := mem_range.1 hi
    simp only [f, hv i (by omega), if_pos hi']
  · intro i hi hn
    have hi' := mem_range.1 hi
    have hn' : ¬ i < N := fun h => hn (mem_range.2 h)
    simp [f, hv i hi', if_neg hn']

/-- A shifted trigonometric sum: the position of the lens elements and the origin of the samples only enter as phases. -/
theorem plancherel_lens (N M : ℕ) (hM : N ≤ M) (hN : 0 < N) (spot x0 : ℝ) (hs : spot ≠ 0) (c : ℕ → ℂ) :
    ∑ s ∈ range M, ‖∑ i ∈ range N, c i * cexp (-2 * Real.pi * I / N * (lens N i : ℂ) * (((x0 + N * spot * s / M) / spot : ℝ) : ℂ))‖ ^ 2 =
      M * ∑ i ∈ range N, ‖c i‖ ^ 2 := by
  have hM0 : 0 < M := by omega
  have hMc : (M : ℂ) ≠ 0 := Nat.cast_ne_zero.2 hM0.ne'
  have hNc : (N : ℂ) ≠ 0 := Nat.cast_ne_zero.2 hN.ne'
  have hsc : (spot : ℂ) ≠ 0 := ofReal_ne_zero.2 hs
  let c' : ℕ → ℂ := fun i => c i * cexp (-2 * Real.pi * I / N * (lens N i : ℂ) * ((x0 / spot : ℝ) : ℂ))
  have hc : ∀ i, ‖c' i‖ = ‖c i‖ := fun i => by simp only [c', norm_mul, norm_kernel, mul_one]
  have key : ∀ s : ℕ, ‖∑ i ∈ range N, c i * cexp (-2 * Real.pi * I / N * (lens N i : ℂ) * (((x0 + N * spot * s / M) / spot : ℝ) : ℂ))‖ =
      ‖∑ i ∈ range N, c' i * cexp (-2 * Real.pi * I * i * s / M)‖ := by
    intro s
    have e : ∀ i ∈ range N, c i * cexp (-2 * Real.pi * I / N * (lens N i : ℂ) * (((x0 + N * spot * s / M) / spot : ℝ) : ℂ)) =
        cexp (I * ((Real.pi * (N - 1) * s / M : ℝ) : ℂ)) * (c' i * cexp (-2 * Real.pi * I * i * s / M)) := by
      intro i hi
      simp only [c']
      have r : ∀ u v w z : ℂ, w * (u * v * z) = u * (v * (w * z)) := fun u v w z => by ring
      rw [r, ← Complex.exp_add, ← Complex.exp_add]
      congr 2
      rw [lens_eq N i (mem_range.1 hi)]
      push_cast
      field_simp
      ring
    rw [sum_congr rfl e, ← mul_sum, norm_mul, norm_phase, one_mul]
  simp only [key]
  rw [plancherel N M hM hM0]
  simp only [hc]

/-- C175: power is conserved from the lens to the focal plane: over any uniform sampling of one period of the pattern (at least
as many points as beamlets, from any origin) the mean intensity is the sum of the beamlets' intensities. -/
theorem power (b : Beam) (B : ℕ → ℕ → ℂ) (hs : b.withSinc = false) (hX : 0 < b.nX) (hY : 0 < b.nY) (h1 : b.spotX ≠ 0) (h2 : b.spotY ≠ 0)
    (M M' : ℕ) (hM : b.nX ≤ M) (hM' : b.nY ≤ M') (x0 y0 : ℝ) :
    (∑ s ∈ range M, ∑ s' ∈ range M', ‖b.pattern B (x0 + b.nX * b.spotX * s / M) (y0 + b.nY * b.spotY * s' / M')‖ ^ 2) / (M * M') =
      ∑ i ∈ range b.nX, ∑ j ∈ range b.nY, ‖B i j‖ ^ 2 := by
  have hM0 : (M : ℝ) ≠ 0 := Nat.cast_ne_zero.2 (by omega)
  have hM0' : (M' : ℝ) ≠ 0 := Nat.cast_ne_zero.2 (by omega)
  rw [div_eq_iff (mul_ne_zero hM0 hM0')]
  unfold Beam.pattern
  simp only [hs, Bool.false_eq_true, if_false]
  have e : ∀ s ∈ range M, ∑ s' ∈ range M', ‖∑ j ∈ range b.nY, (∑ i ∈ range b.nX, B i j * cexp (I * (b.plate i j : ℂ)) *
      cexp (-2 * Real.pi * I / b.nX * (lens b.nX i : ℂ) * (((x0 + b.nX * b.spotX * s / M) / b.spotX : ℝ) : ℂ))) *
      cexp (-2 * Real.pi * I / b.nY * (lens b.nY j : ℂ) * (((y0 + b.nY * b.spotY * s' / M') / b.spotY : ℝ) : ℂ))‖ ^ 2 =
      M' * ∑ j ∈ range b.nY, ‖∑ i ∈ range b.nX, B i j * cexp (I * (b.plate i j : ℂ)) *
      cexp (-2 * Real.pi * I / b.nX * (lens b.nX i : ℂ) * (((x0 + b.nX * b.spotX * s / M) / b.spotX : ℝ) : ℂ))‖ ^ 2 := by
    intro s _
    exact plancherel_lens b.nY M' hM' hY b.spotY y0 h2 _
  rw [sum_congr rfl e, ← mul_sum, sum_comm]
  have e2 : ∀ j ∈ range b.nY, ∑ s ∈ range M, ‖∑ i ∈ range b.nX, B i j * cexp (I * (b.plate i j : ℂ)) *
      cexp (-2 * Real.pi * I / b.nX * (lens b.nX i : ℂ) * (((x0 + b.nX * b.spotX * s / M) / b.spotX : ℝ) : ℂ))‖ ^ 2 =
      M * ∑ i ∈ range b.nX, ‖B i j‖ ^ 2 := by
    intro j _
    rw [plancherel_lens b.nX M hM hX b.spotX x0 h1 (fun i => B i j * cexp (I * (b.plate i j : ℂ)))]
    congr 1
    exact sum_congr rfl fun i _ => by rw [norm_mul, norm_phase, mul_one]
  rw [sum_congr rfl e2, ← mul_sum, sum_comm]
  ring

/-- C175: without ISI the beamlets only carry phases; the mean focal intensity is then the number of beamlets at all times. -/
theorem unimodular (b : Beam) (s : Smoothing) (hs : ∀ h f, s ≠ .isi h f) (t : ℝ) (i j : ℕ) : ‖b.nearField s t i j‖ = 1 := by
  cases s with
  | static => simp [Beam.nearField]
  | fm x y => unfold Beam.nearField; rw [norm_phase]
  | rpm x y h n sx sy => unfold Beam.nearField; rw [norm_phase]
  | isi h f => exact absurd rfl (hs h f)

theorem mean_intensity (b : Beam) (s : Smoothing) (hi : ∀ h f, s ≠ .isi h f) (hs : b.withSinc = false) (hX : 0 < b.nX) (hY : 0 < b.nY)
    (h1 : b.spotX ≠ 0) (h2 : b.spotY ≠ 0) (M M' : ℕ) (hM : b.nX ≤ M) (hM' : b.nY ≤ M') (c x0 y0 t : ℝ) :
    (∑ m ∈ range M, ∑ m' ∈ range M', ‖b.evaluate c s (x0 + b.nX * b.spotX * m / M) (y0 + b.nY * b.spotY * m' / M') t‖ ^ 2) / (M * M') =
      b.nX * b.nY := by
  unfold Beam.evaluate
  rw [power b _ hs hX hY h1 h2 M M' hM hM']
  simp [unimodular b s hi]

theorem exp_nat (n : ℕ) : cexp (-2 * Real.pi * I * n) = 1 := by
  have : -2 * Real.pi * I * n = ((-(n : ℤ) : ℤ) : ℂ) * (2 * Real.pi * I) := by push_cast; ring
  rw [this, Complex.exp_int_mul_two_pi_mul_I]

/-- C175: the intensity repeats with the width `n lambda f / D` of the focal spot in each direction. -/
theorem periodic (b : Beam) (B : ℕ → ℕ → ℂ) (hs : b.withSinc = false) (h1 : b.spotX ≠ 0) (h2 : b.spotY ≠ 0) (x y : ℝ) :
    ‖b.pattern B (x + b.nX * b.spotX) y‖ = ‖b.pattern B x y‖ ∧ ‖b.pattern B x (y + b.nY * b.spotY)‖ = ‖b.pattern B x y‖ := by
  have key : ∀ (n : ℕ) (spot z : ℝ) (i : ℕ), spot ≠ 0 → i < n → cexp (-2 * Real.pi * I / n * (lens n i : ℂ) * (((z + n * spot) / spot : ℝ) : ℂ)) =
      cexp (I * ((Real.pi * (n - 1) : ℝ) : ℂ)) * cexp (-2 * Real.pi * I / n * (lens n i : ℂ) * ((z / spot : ℝ) : ℂ)) := by
    intro n spot z i hsp hi
    have hn : (n : ℂ) ≠ 0 := Nat.cast_ne_zero.2 (by omega)
    have hsc : (spot : ℂ) ≠ 0 := ofReal_ne_zero.2 hsp
    rw [← one_mul (cexp (-2 * Real.pi * I / n * (lens n i : ℂ) * (((z + n * spot) / spot : ℝ) : ℂ))), ← exp_nat 0, ← Complex.exp_add, ← Complex.exp_add]
    rw [lens_eq n i hi]
    have e : (-2 * Real.pi * I * ((0 : ℕ) : ℂ) + -2 * Real.pi * I / n * (((i : ℝ) - ((n : ℝ) - 1) / 2 : ℝ) : ℂ) * (((z + n * spot) / spot : ℝ) : ℂ)) =
        (I * ((Real.pi * (n - 1) : ℝ) : ℂ) + -2 * Real.pi * I / n * (((i : ℝ) - ((n : ℝ) - 1) / 2 : ℝ) : ℂ) * ((z / spot : ℝ) : ℂ)) + -2 * Real.pi * I * i := by
      push_cast
      field_simp
      ring
    rw [e, Complex.exp_add, exp_nat, mul_one]
  unfold Beam.pattern
  simp only [hs, Bool.false_eq_true, if_false]
  constructor
  · have e : ∀ j, ∑ i ∈ range b.nX, B i j * cexp (I * (b.plate i j : ℂ)) *
        cexp (-2 * Real.pi * I / b.nX * (lens b.nX i : ℂ) * (((x + b.nX * b.spotX) / b.spotX : ℝ) : ℂ)) =
        cexp (I * ((Real.pi * (b.nX - 1) : ℝ) : ℂ)) * ∑ i ∈ range b.nX, B i j * cexp (I * (b.plate i j : ℂ)) *
        cexp (-2 * Real.pi * I / b.nX * (lens b.nX i : ℂ) * ((x / b.spotX : ℝ) : ℂ)) := by
      intro j
      rw [mul_sum]
      exact sum_congr rfl fun i hi => by rw [key b.nX b.spotX x i h1 (mem_range.1 hi)]; ring
    simp only [e]
    rw [sum_congr rfl fun j _ => mul_assoc _ _ _, ← mul_sum, norm_mul, norm_phase, one_mul]
  · rw [sum_congr rfl fun j hj => by rw [key b.nY b.spotY y j h2 (mem_range.1 hj), mul_left_comm], ← mul_sum, norm_mul, norm_phase, one_mul]

/-- C175: random and continuous phase plates alone give a pattern that does not change in time. -/
theorem static_pattern (b : Beam) (c x y t t' : ℝ) : b.evaluate c .static x y t = b.evaluate c .static x y t' := rfl

/-- C175: the phase modulations of the two directions share the requested bandwidth: full widths `2 * amplitude * frequency`
adding in quadrature. -/
theorem ssd_bandwidth (bw u v a a' : ℝ) (ha : a ≠ 0) (ha' : a' ≠ 0) (h : u ≠ 0 ∨ v ≠ 0) :
    (2 * a * ssdFreq bw u v a) ^ 2 + (2 * a' * ssdFreq bw v u a') ^ 2 = bw ^ 2 := by
  unfold ssdFreq
  have hp : 0 < u ^ 2 + v ^ 2 := by rcases h with h | h <;> positivity
  have hq : v ^ 2 + u ^ 2 = u ^ 2 + v ^ 2 := add_comm _ _
  have hs : Real.sqrt (u ^ 2 + v ^ 2) ^ 2 = u ^ 2 + v ^ 2 := Real.sq_sqrt hp.le
  have hn : Real.sqrt (u ^ 2 + v ^ 2) ≠ 0 := (Real.sqrt_pos.2 hp).ne'
  rw [hq]
  have e1 : 2 * a * (bw * (u / Real.sqrt (u ^ 2 + v ^ 2)) * 0.5 / a) = bw * u / Real.sqrt (u ^ 2 + v ^ 2) := by field_simp; ring
  have e2 : 2 * a' * (bw * (v / Real.sqrt (u ^ 2 + v ^ 2)) * 0.5 / a') = bw * v / Real.sqrt (u ^ 2 + v ^ 2) := by field_simp; ring
  rw [e1, e2, div_pow, div_pow, hs, ← add_div, div_eq_iff hp.ne']
  ring

/-- C175: from one edge of the aperture to the other the modulation runs through the requested number of colour cycles. -/
theorem colour_cycles (cycles freq : ℝ) (h : 0 < freq) : freq * ssdDelay cycles freq = cycles := by
  unfold ssdDelay
  rw [if_pos h]; field_simp

/-- C176: the ISI look-up never leaves the stored series during the simulated time. -/
theorem isi_index (T h t : ℝ) (hh : 0 < h) (h0 : 0 ≤ t) (hT : t ≤ T) :
    0 ≤ Pic.roundEven (t / h) ∧ (Pic.roundEven (t / h)).toNat < seriesLen T h := by
  have hr := Pic.roundEven_near (t / h)
  rw [abs_le] at hr
  have ht : 0 ≤ t / h := by positivity
  have ht' : t / h ≤ T / h := by gcongr
  have hc : T / h ≤ ⌈T / h⌉₊ := Nat.le_ceil _
  have h1 : 0 ≤ Pic.roundEven (t / h) := by
    by_contra hn
    have : Pic.roundEven (t / h) ≤ -1 := by omega
    have : (Pic.roundEven (t / h) : ℝ) ≤ -1 := by exact_mod_cast this
    linarith [hr.2]
  have h2 : seriesLen T h = ⌈T / h⌉₊ + 1 := by
    unfold seriesLen arangeLen
    rw [add_div, div_self hh.ne', Nat.ceil_add_one (by linarith)]
  refine ⟨h1, ?_⟩
  rw [h2]
  have h3 : Pic.roundEven (t / h) < ((⌈T / h⌉₊ + 1 : ℕ) : ℤ) := by
    by_contra hn
    have : ((⌈T / h⌉₊ + 1 : ℕ) : ℤ) ≤ Pic.roundEven (t / h) := by omega
    have : (((⌈T / h⌉₊ + 1 : ℕ) : ℤ) : ℝ) ≤ Pic.roundEven (t / h) := by exact_mod_cast this
    push_cast at this
    linarith [hr.1]
  omega

/-- C176: the SSD series and its time axis have the same length. -/
theorem ssd_lengths (T h D : ℝ) (hh : 0 < h) (hD : 0 ≤ D) (hT : 0 ≤ T) : ssdTimes T h D = ssdPoints T h D := by
  unfold ssdTimes
  refine min_eq_left ?_
  have h2 : seriesLen T h = ⌈T / h⌉₊ + 1 := by
    unfold seriesLen arangeLen
    rw [add_div, div_self hh.ne', Nat.ceil_add_one (by positivity)]
  unfold ssdPoints arangeLen
  rw [h2, Nat.add_sub_cancel]
  have h3 : ((⌈T / h⌉₊ : ℝ) * h + D + 3 * h) / h = ⌈T / h⌉₊ + D / h + 3 := by field_simp
  rw [h3]
  have h4 : ((⌊D / h⌋₊ : ℕ) : ℝ) ≤ D / h := Nat.floor_le (by positivity)
  have h5 := Nat.le_ceil ((⌈T / h⌉₊ : ℝ) + D / h + 3)
  have : ((⌈T / h⌉₊ + 1 + ⌊D / h⌋₊ + 2 : ℕ) : ℝ) ≤ ((⌈(⌈T / h⌉₊ : ℝ) + D / h + 3⌉₊ : ℕ) : ℝ) := by push_cast; linarith
  exact_mod_cast this

/-- C176: every delayed time the smoothing asks for lies inside the stored axis, so the interpolation never clamps. -/
theorem rpm_inside (T h d d' t : ℝ) (n i : ℕ) (hh : 0 < h) (hd : 0 ≤ d) (hd' : 0 ≤ d') (h0 : 0 ≤ t) (hT : t ≤ T) (hi : i < n) :
    0 ≤ t + i * d / n ∧ t + i * d / n ≤ ((ssdTimes T h (d + d') - 1 : ℕ) : ℝ) * h := by
  have hn : (0 : ℝ) < n := by exact_mod_cast (by omega : 0 < n)
  have hin : (i : ℝ) ≤ n := by exact_mod_cast hi.le
  have h1 : i * d / n ≤ d := by rw [div_le_iff₀ hn]; nlinarith
  refine ⟨by positivity, ?_⟩
  rw [ssd_lengths T h (d + d') hh (by linarith) (by linarith)]
  have h2 : seriesLen T h = ⌈T / h⌉₊ + 1 := by
    unfold seriesLen arangeLen
    rw [add_div, div_self hh.ne', Nat.ceil_add_one (by have : 0 ≤ T := by linarith
                                                       positivity)]
  have h3 : ssdPoints T h (d + d') - 1 = ⌈T / h⌉₊ + ⌊(d + d') / h⌋₊ + 2 := by unfold ssdPoints; omega
  rw [h3]
  have h4 := Nat.lt_floor_add_one ((d + d') / h)
  have h5 := Nat.le_ceil (T / h)
  rw [div_le_iff₀ hh] at h5
  rw [div_lt_iff₀ hh] at h4
  push_cast
  nlinarith

theorem interp_range (h : ℝ) (n : ℕ) (f : ℕ → ℝ) (lo hi : ℝ) (hn : 0 < n) (hh : 0 < h) (hf : ∀ k < n, lo ≤ f k ∧ f k ≤ hi) (t : ℝ) :
    lo ≤ interp h n f t ∧ interp h n f t ≤ hi := by
  unfold interp
  split
  · exact hf 0 hn
  split
  · exact hf _ (by omega)
  · rename_i h1 h2
    push Not at h1 h2
    have hp : 0 ≤ t / h := by positivity
    have hl := Nat.floor_le hp
    have hu := Nat.lt_floor_add_one (t / h)
    have hlt : ⌊t / h⌋₊ < n - 1 := by
      rw [Nat.floor_lt hp, div_lt_iff₀ hh]; exact h2
    obtain ⟨a1, a2⟩ := hf ⌊t / h⌋₊ (by omega)
    obtain ⟨b1, b2⟩ := hf (⌊t / h⌋₊ + 1) (by omega)
    constructor <;> nlinarith

theorem interp_node (h : ℝ) (n : ℕ) (f : ℕ → ℝ) (hh : 0 < h) (k : ℕ) (hk : k < n) : interp h n f (k * h) = f k := by
  unfold interp
  by_cases hk0 : k = 0
  · subst hk0; simp
  have hkp : (0 : ℝ) < k := by exact_mod_cast Nat.pos_of_ne_zero hk0
  rw [if_neg (by push Not; positivity)]
  split
  · rename_i h1
    have : ((n - 1 : ℕ) : ℝ) ≤ k := le_of_mul_le_mul_right h1 hh
    have : n - 1 ≤ k := by exact_mod_cast this
    have : n - 1 = k := by omega
    rw [this]
  · have : (k : ℝ) * h / h = k := by field_simp
    rw [this, Nat.floor_natCast]; ring

/-- C176: the interpolated phases take the stored values at the stored times and stay within the range of the series. -/
theorem rpm_interpolates (h : ℝ) (n : ℕ) (f : ℕ → ℝ) (hh : 0 < h) : (∀ k < n, interp h n f (k * h) = f k) ∧
    ∀ lo hi, 0 < n → (∀ k < n, lo ≤ f k ∧ f k ≤ hi) → ∀ t, lo ≤ interp h n f t ∧ interp h n f t ≤ hi :=
  ⟨fun k hk => interp_node h n f hh k hk, fun lo hi hn hf t => interp_range h n f lo hi hn hh hf t⟩

/-- C176: the stored series has exactly the requested root-mean-square. -/
theorem rms (n : ℕ) (fwhm r : ℝ) (raw : ℕ → ℂ) (hf : fwhm ≠ 0) (hr : 0 ≤ r) (h : ∃ i < n, raw i ≠ 0) :
    Real.sqrt ((∑ i ∈ range n, ‖normalise n fwhm r raw i‖ ^ 2) / n) = r := by
  obtain ⟨i, hi, hne⟩ := h
  have hn : (0 : ℝ) < n := by exact_mod_cast (by omega : 0 < n)
  have hS : 0 < ∑ i ∈ range n, ‖raw i‖ ^ 2 := sum_pos' (fun _ _ => by positivity) ⟨i, mem_range.2 hi, by have := norm_pos_iff.2 hne; positivity⟩
  have hq : Real.sqrt ((∑ i ∈ range n, ‖raw i‖ ^ 2) / n) ^ 2 = (∑ i ∈ range n, ‖raw i‖ ^ 2) / n := Real.sq_sqrt (by positivity)
  have e : ∀ k, ‖normalise n fwhm r raw k‖ ^ 2 = ‖raw k‖ ^ 2 * (r ^ 2 * n / ∑ i ∈ range n, ‖raw i‖ ^ 2) := by
    intro k
    unfold normalise
    rw [if_neg hf, norm_div, norm_mul, norm_real, norm_real, div_pow, mul_pow, Real.norm_eq_abs, Real.norm_eq_abs, sq_abs, sq_abs, hq]
    field_simp
  simp only [e, ← sum_mul]
  have : (∑ i ∈ range n, ‖raw i‖ ^ 2) * (r ^ 2 * n / ∑ i ∈ range n, ‖raw i‖ ^ 2) / n = r ^ 2 := by field_simp
  rw [this, Real.sqrt_sq hr]

/-- C176: a direction without bandwidth is not modulated. -/
theorem no_modulation (n : ℕ) (r : ℝ) (raw : ℕ → ℂ) (k : ℕ) : normalise n 0 r raw k = 0 := by simp [normalise]

/-- C176: which beams can be built. -/
theorem construct_ok (sm : String) (bw : ℚ) (dist amp cycles : Bool) (tmax : ℚ) :
    construct sm bw dist amp cycles tmax = .ok () ↔ 0 < bw ∧ sm ∈ ["RPP", "CPP", "FM SSD", "GP RPM SSD", "GP ISI"] ∧
      (sm = "FM SSD" ∨ sm = "GP RPM SSD" → dist = true ∧ amp = true ∧ cycles = true) ∧ (sm = "GP RPM SSD" ∨ sm = "GP ISI" → 0 < tmax) := by
  unfold construct
  simp only
  split
  · rename_i h; subst h; simp
  split
  · rename_i h1 h2
    obtain ⟨h2, h3⟩ := h2
    simp only [reduceCtorEq, false_iff]
    rintro ⟨_, _, h, _⟩
    obtain ⟨a, b, c⟩ := h h2
    simp [a, b, c] at h3
  split
  · rename_i h
    simp only [reduceCtorEq, false_iff]
    exact fun h' => h h'.2.1
  split
  · rename_i h
    simp only [reduceCtorEq, false_iff]
    exact fun h' => absurd h'.1 (not_lt.2 h.le)
  rename_i h0 hssd hm hneg
  split
  · rename_i h
    simp only [reduceCtorEq, false_iff]
    exact fun h' => absurd (h'.2.2.2 h.1) (not_lt.2 h.2)
  · rename_i h
    refine ⟨fun _ => ⟨lt_of_le_of_ne (not_lt.1 hneg) (Ne.symm h0), not_not.1 hm, fun hs => ?_, fun hs => ?_⟩, fun _ => rfl⟩
    · by_contra hc
      refine hssd ⟨hs, ?_⟩
      cases dist <;> cases amp <;> cases cycles <;> simp_all
    · by_contra hc
      exact h ⟨hs, not_lt.1 hc⟩

/-- C176: the documented messages for missing SSD options and a zero bandwidth are never shown: the arithmetic before the checks
fails first. -/
theorem checks_too_late_partial (sm : String) (dist amp cycles : Bool) (tmax : ℚ) :
    construct sm 0 dist amp cycles tmax = .error "ZeroDivisionError" ∧
    ∀ bw : ℚ, bw ≠ 0 → (sm = "FM SSD" ∨ sm = "GP RPM SSD") → (dist && amp && cycles) = false → construct sm bw dist amp cycles tmax = .error "TypeError" := by
  unfold construct
  refine ⟨by simp, fun bw hb hs h => ?_⟩
  simp only
  rw [if_neg hb, if_pos ⟨hs, by rw [h]; rfl⟩]

/-- C177: dividing by the mean amplitude makes the mean amplitude one ... -/
theorem mean_amplitude {ι : Type} (pts : Finset ι) (E : ι → ℂ) (h : normalisation pts E ≠ 0) :
    (∑ i ∈ pts, ‖factor pts E (E i)‖) / #pts = 1 := by
  have hp : 0 ≤ normalisation pts E := by unfold normalisation; positivity
  have e : ∀ i, ‖factor pts E (E i)‖ = ‖E i‖ / normalisation pts E := fun i => by
    unfold factor; rw [norm_div, norm_real, Real.norm_eq_abs, abs_of_nonneg hp]
  simp only [e, ← sum_div]
  rw [div_right_comm]
  have : (∑ i ∈ pts, ‖E i‖) / #pts = normalisation pts E := rfl
  rw [this, div_self h]

/-- C177: ... so the mean intensity of the speckled pump is never below the configured one, and equal to it only if the amplitude
is the same everywhere. -/
theorem mean_excess_partial {ι : Type} (pts : Finset ι) (E : ι → ℂ) (h : normalisation pts E ≠ 0) :
    1 ≤ (∑ i ∈ pts, ‖factor pts E (E i)‖ ^ 2) / #pts ∧
    ((∑ i ∈ pts, ‖factor pts E (E i)‖ ^ 2) / #pts = 1 ↔ ∀ i ∈ pts, ‖E i‖ = normalisation pts E) := by
  have hp : 0 ≤ normalisation pts E := by unfold normalisation; positivity
  have hpos : 0 < normalisation pts E := lt_of_le_of_ne hp (Ne.symm h)
  have hc : (0 : ℝ) < #pts := by
    rcases pts.eq_empty_or_nonempty with rfl | hne
    · simp [normalisation] at h
    · exact_mod_cast hne.card_pos
  have e : ∀ i, ‖factor pts E (E i)‖ = ‖E i‖ / normalisation pts E := fun i => by
    unfold factor; rw [norm_div, norm_real, Real.norm_eq_abs, abs_of_nonneg hp]
  have hm := mean_amplitude pts E h
  have key : (∑ i ∈ pts, ‖factor pts E (E i)‖ ^ 2) / #pts = 1 + (∑ i ∈ pts, (‖factor pts E (E i)‖ - 1) ^ 2) / #pts := by
    have : ∑ i ∈ pts, (‖factor pts E (E i)‖ - 1) ^ 2 = ∑ i ∈ pts, ‖factor pts E (E i)‖ ^ 2 - 2 * ∑ i ∈ pts, ‖factor pts E (E i)‖ + #pts := by
      rw [mul_sum, ← sum_sub_distrib, card_eq_sum_ones]
      push_cast
      rw [← sum_add_distrib]
      exact sum_congr rfl fun _ _ => by ring
    rw [this]
    rw [div_eq_iff hc.ne'] at hm
    field_simp
    linarith
  have hn : 0 ≤ ∑ i ∈ pts, (‖factor pts E (E i)‖ - 1) ^ 2 := sum_nonneg fun _ _ => sq_nonneg _
  refine ⟨by rw [key]; have := div_nonneg hn hc.le; linarith, ?_⟩
  rw [key]
  constructor
  · intro he i hi
    have h0 : ∑ i ∈ pts, (‖factor pts E (E i)‖ - 1) ^ 2 = 0 := by
      have : (∑ i ∈ pts, (‖factor pts E (E i)‖ - 1) ^ 2) / (#pts : ℝ) = 0 := by linarith
      rwa [div_eq_zero_iff, or_iff_left hc.ne'] at this
    have := (sum_eq_zero_iff_of_nonneg fun i _ => sq_nonneg _).1 h0 i hi
    have : ‖factor pts E (E i)‖ = 1 := by nlinarith
    rw [e, div_eq_one_iff_eq h] at this
    exact this
  · intro he
    have : ∑ i ∈ pts, (‖factor pts E (E i)‖ - 1) ^ 2 = 0 := sum_eq_zero fun i hi => by rw [e, he i hi, div_self h]; norm_num
    rw [this]; norm_num

/-- A beam of two beamlets. -/
noncomputable def twoBeamlets : Beam := { lam := 1, focal := 1, apX := 1, apY := 1, nX := 2, nY := 1, plate := fun _ _ => 0, withSinc := false }

theorem twoBeamlets_pattern (x y : ℝ) : twoBeamlets.pattern (fun _ _ => 1) x y = 2 * Real.cos (Real.pi * x / 2) := by
  unfold Beam.pattern twoBeamlets Beam.spotX Beam.spotY
  simp only [Bool.false_eq_true, if_false, sum_range_succ, range_zero, sum_empty]
  rw [lens_eq 2 0 (by norm_num), lens_eq 2 1 (by norm_num), lens_eq 1 0 (by norm_num), ofReal_cos]
  rw [Complex.cos]
  have e1 : -2 * Real.pi * I / ((2 : ℕ) : ℂ) * ((((0 : ℕ) : ℝ) - (((2 : ℕ) : ℝ) - 1) / 2 : ℝ) : ℂ) * ((x / (1 * 1 / 1) : ℝ) : ℂ) = ((Real.pi * x / 2 : ℝ) : ℂ) * I := by
    push_cast; ring
  have e2 : -2 * Real.pi * I / ((2 : ℕ) : ℂ) * ((((1 : ℕ) : ℝ) - (((2 : ℕ) : ℝ) - 1) / 2 : ℝ) : ℂ) * ((x / (1 * 1 / 1) : ℝ) : ℂ) = -((Real.pi * x / 2 : ℝ) : ℂ) * I := by
    push_cast; ring
  rw [e1, e2]
  simp
  ring

/-- Two beamlets: the excess is strict (a factor two on these points). -/
theorem excess_witness : normalisation {(0 : ℝ), 1} (fun x => twoBeamlets.pattern (fun _ _ => 1) x 0) = 1 ∧
    (∑ x ∈ ({(0 : ℝ), 1} : Finset ℝ), ‖factor {(0 : ℝ), 1} (fun x => twoBeamlets.pattern (fun _ _ => 1) x 0) (twoBeamlets.pattern (fun _ _ => 1) x 0)‖ ^ 2) /
      #({(0 : ℝ), 1} : Finset ℝ) = 2 := by
  have hc : #({(0 : ℝ), 1} : Finset ℝ) = 2 := card_pair (by norm_num)
  have hn : normalisation {(0 : ℝ), 1} (fun x => twoBeamlets.pattern (fun _ _ => 1) x 0) = 1 := by
    unfold normalisation
    rw [hc, sum_pair (by norm_num)]
    beta_reduce
    rw [twoBeamlets_pattern, twoBeamlets_pattern]
    simp
  refine ⟨hn, ?_⟩
  unfold factor
  rw [hn, hc, sum_pair (by norm_num), twoBeamlets_pattern, twoBeamlets_pattern]
  simp
  norm_num

/-- The hypotheses of `power` hold for this beam: three samples across the period. -/
example : (∑ s ∈ range 3, ∑ s' ∈ range 1, ‖twoBeamlets.pattern (fun _ _ => 1) (0 + 2 * 1 * s / 3) (0 + 1 * 1 * s' / 1)‖ ^ 2) / (3 * 1) = 2 := by
  have h := power twoBeamlets (fun _ _ => 1) rfl (by norm_num [twoBeamlets]) (by norm_num [twoBeamlets]) (by norm_num [twoBeamlets, Beam.spotX])
    (by norm_num [twoBeamlets, Beam.spotY]) 3 1 (by norm_num [twoBeamlets]) (by norm_num [twoBeamlets]) 0 0
  have hx : twoBeamlets.spotX = 1 := by norm_num [twoBeamlets, Beam.spotX]
  have hy : twoBeamlets.spotY = 1 := by norm_num [twoBeamlets, Beam.spotY]
  have a : twoBeamlets.nX = 2 := rfl
  have b : twoBeamlets.nY = 1 := rfl
  rw [hx, hy, a, b] at h
  push_cast at h
  rw [h]; norm_num

example : construct "FM SSD" (1 / 100) true true true 0 = .ok () := (construct_ok ..).2 ⟨by norm_num, by simp, by simp, by simp⟩

end Verif.Speckle
