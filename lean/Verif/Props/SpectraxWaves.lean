import Verif.Model.SpectraxWaves
import Mathlib.Analysis.SpecialFunctions.Complex.Circle
import Mathlib.Analysis.SpecialFunctions.Trigonometric.Angle
import Mathlib.Analysis.Real.Pi.Bounds
import Mathlib.Analysis.Real.Pi.Irrational
import Mathlib.Tactic.Linarith
import Mathlib.Tactic.NormNum

/-!
Frequency of the first Fourier mode from the phase of its saved samples (C214).
-/

namespace Verif.SpectraxWaves

open Real

/-- An increment of `unwrap` differs from the raw one by whole turns and is at most half a turn. -/
theorem wrapStep_spec (d : ℝ) : (∃ k : ℤ, wrapStep d = d + 2 * π * k) ∧ |wrapStep d| ≤ π := by
  have hp := Real.pi_pos
  unfold wrapStep
  split_ifs with h1 h2
  · exact ⟨⟨0, by simp⟩, h1.le⟩
  · refine ⟨⟨-⌊(d + π) / (2 * π)⌋ + 1, ?_⟩, ?_⟩
    · push_cast
      linarith [h2.1]
    · rw [abs_of_pos hp]
  · refine ⟨⟨-⌊(d + π) / (2 * π)⌋, ?_⟩, ?_⟩
    · push_cast; ring
    · have a := Int.floor_le ((d + π) / (2 * π))
      have b := Int.lt_floor_add_one ((d + π) / (2 * π))
      rw [le_div_iff₀ (by positivity)] at a
      rw [div_lt_iff₀ (by positivity)] at b
      rw [abs_le]
      constructor <;> nlinarith

/-- Two angles a whole number of turns apart, one under half a turn and the other at most half a turn, are equal. -/
theorem turn_unique (w d : ℝ) (k : ℤ) (h : w = d + 2 * π * k) (hw : |w| ≤ π) (hd : |d| < π) : w = d := by
  have hp := Real.pi_pos
  rw [abs_le] at hw
  rw [abs_lt] at hd
  have k0 : k = 0 := by
    have h1 : (k : ℝ) < 1 := by
      by_contra hc
      push Not at hc
      nlinarith
    have h2 : (-1 : ℝ) < k := by
      by_contra hc
      push Not at hc
      nlinarith
    have h1' : k < 1 := by exact_mod_cast h1
    have h2' : -1 < k := by exact_mod_cast h2
    omega
  rw [h, k0]
  simp

/-- `unwrap` recovers a phase that moves by less than half a turn between samples. -/
theorem unwrap_phase (p θ : ℕ → ℝ) (n : ℕ) (turns : ∀ i < n, ∃ k : ℤ, p i = θ i + 2 * π * k)
    (slow : ∀ i, i + 1 < n → |θ (i + 1) - θ i| < π) (i : ℕ) (hi : i < n) : unwrap p i = θ i + (p 0 - θ 0) := by
  induction i with
  | zero => simp [unwrap]
  | succ i ih =>
    rw [unwrap, ih (by omega)]
    obtain ⟨⟨k, hk⟩, hw⟩ := wrapStep_spec (p (i + 1) - p i)
    obtain ⟨a, ha⟩ := turns i (by omega)
    obtain ⟨b, hb⟩ := turns (i + 1) hi
    have := turn_unique _ (θ (i + 1) - θ i) (k + b - a) (by rw [hk, ha, hb]; push_cast; ring) hw (slow i hi)
    rw [this]
    ring

/-- The phase read from a sample of amplitude `r > 0` and phase `θ` is `θ` up to whole turns. -/
theorem arg_turns (r θ : ℝ) (hr : 0 < r) : ∃ k : ℤ, Complex.arg (r * Complex.exp (θ * Complex.I)) = θ + 2 * π * k := by
  have h : ((Complex.arg (r * Complex.exp (θ * Complex.I)) : ℝ) : Real.Angle) = θ := by
    rw [Complex.arg_real_mul _ hr, Complex.exp_mul_I]
    have := Complex.arg_cos_add_sin_mul_I_coe_angle (θ : Real.Angle)
    rw [Real.Angle.cos_coe, Real.Angle.sin_coe, Complex.ofReal_cos, Complex.ofReal_sin] at this
    exact this
  rw [Real.Angle.angle_eq_iff_two_pi_dvd_sub] at h
  obtain ⟨k, hk⟩ := h
  exact ⟨k, by linarith⟩

/-- **C214 (phase).**  For samples of positive amplitude whose phase `θ` turns by less than half a turn per saved
interval, the reported frequency is minus the centred difference of `θ` inside and minus the one-sided difference at
the two ends. -/
theorem frequency_of_phase (n : ℕ) (hn : 2 ≤ n) (r θ t : ℕ → ℝ) (hr : ∀ i < n, 0 < r i)
    (slow : ∀ i, i + 1 < n → |θ (i + 1) - θ i| < π) :
    ∃ f, frequencies n (fun i => r i * Complex.exp (θ i * Complex.I)) t = .ok f ∧
      f 0 = -(θ 1 - θ 0) / (t 1 - t 0) ∧
      f (n - 1) = -(θ (n - 1) - θ (n - 2)) / (t 1 - t 0) ∧
      ∀ i, i + 2 < n → f (i + 1) = -(θ (i + 2) - θ i) / (2 * (t 1 - t 0)) := by
  have u : ∀ i < n, unwrap (fun j => Complex.arg (r j * Complex.exp (θ j * Complex.I))) i =
      θ i + (Complex.arg (r 0 * Complex.exp (θ 0 * Complex.I)) - θ 0) := fun i hi =>
    unwrap_phase _ θ n (fun i hi => arg_turns _ _ (hr i hi)) slow i hi
  refine ⟨_, by rw [frequencies, if_neg (by omega)], ?_, ?_, ?_⟩
  · simp only [Vfp2d.Recon.gradient, if_pos]
    rw [u 0 (by omega), u 1 (by omega)]
    ring
  · simp only [Vfp2d.Recon.gradient, if_neg (show n - 1 ≠ 0 by omega), if_pos]
    rw [u (n - 1) (by omega), u (n - 2) (by omega)]
    ring
  · intro i hi
    simp only [Vfp2d.Recon.gradient, if_neg (show i + 1 ≠ 0 by omega), if_neg (show i + 1 ≠ n - 1 by omega), Nat.add_sub_cancel]
    rw [u (i + 1 + 1) (by omega), u i (by omega)]
    ring

/-- Reported frequencies when the phase advances by `-α` per saved interval, `|α| < π`. -/
theorem linear_phase (n : ℕ) (hn : 2 ≤ n) (z : ℕ → ℂ) (t r : ℕ → ℝ) (α φ dt : ℝ) (hdt : t 1 - t 0 = dt) (d0 : 0 < dt)
    (hr : ∀ i < n, 0 < r i) (hα : |α| < π) (hz : ∀ i, z i = r i * Complex.exp ((φ - α * i : ℝ) * Complex.I)) :
    ∃ f, frequencies n z t = .ok f ∧ ∀ i < n, f i = α / dt := by
  obtain ⟨f, hf, h0, h1, h2⟩ := frequency_of_phase n hn r (fun i => φ - α * i) t hr (by
    intro i _
    rw [show φ - α * ((i + 1 : ℕ) : ℝ) - (φ - α * i) = -α by push_cast; ring, abs_neg]
    exact hα)
  refine ⟨f, ?_, ?_⟩
  · rw [← hf]
    congr 1
    funext i
    exact hz i
  · intro i hi
    rw [hdt] at h0 h1 h2
    rcases Nat.eq_zero_or_pos i with rfl | hp
    · rw [h0]; push_cast; congr 1; ring
    · rcases Nat.lt_or_ge (i + 1) n with hlt | hge
      · obtain ⟨j, rfl⟩ : ∃ j, i = j + 1 := ⟨i - 1, by omega⟩
        rw [h2 j (by omega)]
        push_cast
        field_simp
        ring
      · obtain rfl : i = n - 1 := by omega
        obtain ⟨m, rfl⟩ : ∃ m, n = m + 2 := ⟨n - 2, by omega⟩
        rw [h1]
        have e1 : m + 2 - 1 = m + 1 := by omega
        have e2 : m + 2 - 2 = m := by omega
        rw [e1, e2]
        push_cast
        congr 1
        ring

theorem mean_const (n : ℕ) (hn : 0 < n) (f : ℕ → ℝ) (c : ℝ) (h : ∀ i < n, f i = c) : mean n f = c := by
  have : (n : ℝ) ≠ 0 := by positivity
  unfold mean
  rw [Finset.sum_congr rfl fun i hi => h i (Finset.mem_range.1 hi)]
  simp
  field_simp

/-- The samples of a travelling wave: amplitude `r` at each saved time, frequency `ω`, phase `φ`, saved every `dt`. -/
noncomputable def travelling (r : ℕ → ℝ) (ω φ dt : ℝ) (i : ℕ) : ℂ := r i * Complex.exp ((φ - ω * (i * dt) : ℝ) * Complex.I)

/-- **C214 (exact).**  A travelling wave `A(t) exp(i(φ - ωt))` of any positive, time-dependent amplitude, saved every `dt`
with `|ω| dt < π`, has both the mean and the final reported frequency equal to `ω`, sign included. -/
theorem epw_frequency_exact (n : ℕ) (hn : 2 ≤ n) (r t : ℕ → ℝ) (ω φ t0 dt : ℝ) (d0 : 0 < dt) (ht : ∀ i, t i = t0 + i * dt)
    (hr : ∀ i < n, 0 < r i) (resolved : |ω| * dt < π) : epwFrequency n (travelling r ω φ dt) t = .ok (ω, ω) := by
  obtain ⟨f, hf, hv⟩ := linear_phase n hn (travelling r ω φ dt) t r (ω * dt) φ dt (by rw [ht, ht]; push_cast; ring) d0 hr
    (by rw [abs_mul, abs_of_pos d0]; exact resolved) (by
      intro i
      unfold travelling
      congr 4
      ring)
  have hv' : ∀ i < n, f i = ω := fun i hi => by rw [hv i hi]; field_simp
  simp only [epwFrequency, hf]
  rw [mean_const n (by omega) f ω hv', hv' (n - 1) (by omega)]

/-- Non-vacuity: a growing wave of frequency `1.2` saved every `0.5` at `100` times reports `1.2`. -/
example : epwFrequency 100 (travelling (fun i => 1 + i) 1.2 0 0.5) (fun i => 10 + i * 0.5) = .ok (1.2, 1.2) :=
  epw_frequency_exact 100 (by norm_num) _ _ _ _ 10 0.5 (by norm_num) (fun _ => rfl) (fun i _ => by positivity)
    (by rw [abs_of_pos (by norm_num)]; linarith [Real.pi_gt_three])

/-- **C214 (alias, the code violates the claim).**  A wave saved too seldom, `π < ω dt < 3π`, is reported at `ω - 2π/dt`,
with no error. -/
theorem epw_frequency_alias_partial (n : ℕ) (hn : 2 ≤ n) (r t : ℕ → ℝ) (ω φ t0 dt : ℝ) (d0 : 0 < dt)
    (ht : ∀ i, t i = t0 + i * dt) (hr : ∀ i < n, 0 < r i) (lo : π < ω * dt) (hi : ω * dt < 3 * π) :
    epwFrequency n (travelling r ω φ dt) t = .ok (ω - 2 * π / dt, ω - 2 * π / dt) := by
  have hp := Real.pi_pos
  have e : travelling r ω φ dt = travelling r (ω - 2 * π / dt) φ dt := by
    funext i
    unfold travelling
    congr 1
    rw [Complex.exp_eq_exp_iff_exists_int]
    refine ⟨-i, ?_⟩
    have : (dt : ℂ) ≠ 0 := by exact_mod_cast d0.ne'
    push_cast
    field_simp
    ring
  rw [e]
  refine epw_frequency_exact n hn r t _ φ t0 dt d0 ht hr ?_
  rw [← abs_of_pos d0, ← abs_mul, abs_of_pos d0, abs_lt]
  have : (ω - 2 * π / dt) * dt = ω * dt - 2 * π := by field_simp
  rw [this]
  constructor <;> linarith

/-- Non-vacuity: a plasma wave of frequency `1` saved every `4` plasma periods (over `2π`). -/
example : epwFrequency 50 (travelling (fun _ => 1) 1 0 4) (fun i => 0 + i * 4) = .ok (1 - 2 * π / 4, 1 - 2 * π / 4) :=
  epw_frequency_alias_partial 50 (by norm_num) _ _ _ _ 0 4 (by norm_num) (fun _ => rfl) (fun _ _ => by norm_num)
    (by linarith [Real.pi_lt_four]) (by linarith [Real.pi_gt_three])

/-- **C214 (bound).**  No reported frequency exceeds `π / dt` in size, whatever the samples. -/
theorem frequency_bound (n : ℕ) (z : ℕ → ℂ) (t : ℕ → ℝ) (dt : ℝ) (hdt : t 1 - t 0 = dt) (d0 : 0 < dt) (f : ℕ → ℝ)
    (h : frequencies n z t = .ok f) (i : ℕ) (hi : i < n) : |f i| ≤ π / dt := by
  have hp := Real.pi_pos
  unfold frequencies at h
  split_ifs at h with hn
  injection h with h
  set p : ℕ → ℝ := fun j => Complex.arg (z j) with hpd
  have step : ∀ j, |unwrap p (j + 1) - unwrap p j| ≤ π := by
    intro j
    rw [unwrap, add_sub_cancel_left]
    exact (wrapStep_spec _).2
  rw [← h]
  beta_reduce
  rw [abs_neg, hdt]
  unfold Vfp2d.Recon.gradient
  split_ifs with h0 h1
  · rw [abs_div, abs_of_pos d0]
    gcongr
    exact step 0
  · obtain ⟨m, rfl⟩ : ∃ m, n = m + 2 := ⟨n - 2, by omega⟩
    have e1 : m + 2 - 1 = m + 1 := by omega
    have e2 : m + 2 - 2 = m := by omega
    rw [e1, e2, abs_div, abs_of_pos d0]
    gcongr
    exact step m
  · obtain ⟨j, rfl⟩ : ∃ j, i = j + 1 := ⟨i - 1, by omega⟩
    rw [Nat.add_sub_cancel, abs_div, abs_of_pos (by positivity : (0:ℝ) < 2 * dt), div_le_div_iff₀ (by positivity) d0]
    have a := step j
    have b := step (j + 1)
    rw [abs_le] at a b
    have c : |unwrap p (j + 1 + 1) - unwrap p j| ≤ 2 * π := by
      rw [abs_le]
      constructor <;> linarith [a.1, a.2, b.1, b.2]
    nlinarith

/-- Non-vacuity: any series of two samples yields frequencies. -/
example : ∃ f, frequencies 2 (fun _ => Complex.I) (fun i => i) = .ok f := ⟨_, by rw [frequencies, if_neg (by norm_num)]⟩

/-- **C214 (two samples).**  The metric needs two saved times: with one, the post-processing stops with an exception. -/
theorem one_sample_fails (n : ℕ) (z : ℕ → ℂ) (t : ℕ → ℝ) : (∃ e, epwFrequency n z t = .error e) ↔ n < 2 := by
  unfold epwFrequency frequencies
  split_ifs with h <;> simp [h]

/-- The sum of `np.gradient` over all points. -/
theorem gradient_sum (m : ℕ) (u : ℕ → ℝ) (dt : ℝ) (d0 : dt ≠ 0) :
    ∑ i ∈ Finset.range (m + 2), Vfp2d.Recon.gradient (m + 2) dt u i = (3 * u (m + 1) - u m + u 1 - 3 * u 0) / (2 * dt) := by
  have inner : ∀ k ≤ m, ∑ i ∈ Finset.range k, Vfp2d.Recon.gradient (m + 2) dt u (i + 1) = (u (k + 1) + u k - u 1 - u 0) / (2 * dt) := by
    intro k hk
    induction k with
    | zero => simp
    | succ k ih =>
      rw [Finset.sum_range_succ, ih (by omega), Vfp2d.Recon.gradient, if_neg (by omega), if_neg (by omega), Nat.add_sub_cancel]
      ring
  rw [Finset.sum_range_succ', Finset.sum_range_succ, inner m le_rfl]
  simp only [Vfp2d.Recon.gradient, if_pos, if_neg (show m + 1 ≠ 0 by omega), if_pos (show m + 1 = m + 2 - 1 by omega)]
  have e1 : m + 2 - 1 = m + 1 := by omega
  have e2 : m + 2 - 2 = m := by omega
  rw [e1, e2]
  field_simp
  ring

/-- A phase that only takes the values `α` and `α + π` is left alone by `unwrap`. -/
theorem unwrap_two (p : ℕ → ℝ) (α : ℝ) (h : ∀ i, p i = α ∨ p i = α + π) (i : ℕ) : unwrap p i = p i := by
  have hp := Real.pi_pos
  have w0 : wrapStep 0 = 0 := by unfold wrapStep; rw [if_pos (by simpa using hp)]
  have w1 : wrapStep π = π := by
    unfold wrapStep
    rw [if_neg (by rw [abs_of_pos hp]; exact lt_irrefl _)]
    have : (π + π) / (2 * π) = 1 := by field_simp; ring
    rw [this]
    rw [if_pos ⟨by simp; ring, hp⟩]
  have w2 : wrapStep (-π) = -π := by
    unfold wrapStep
    rw [if_neg (by rw [abs_neg, abs_of_pos hp]; exact lt_irrefl _), if_neg (by rintro ⟨_, h⟩; linarith)]
    simp
  induction i with
  | zero => rfl
  | succ i ih =>
    rw [unwrap, ih]
    rcases h i with a | a <;> rcases h (i + 1) with b | b <;> rw [a, b]
    · simp [w0]
    · rw [add_sub_cancel_left, w1]
    · rw [show α - (α + π) = -π by ring, w2]; ring
    · simp [w0]

/-- The phases of real multiples of one complex number take two values half a turn apart. -/
theorem arg_two (c : ℂ) (hc : c ≠ 0) : ∃ α, ∀ a : ℝ, a ≠ 0 → Complex.arg (a * c) = α ∨ Complex.arg (a * c) = α + π := by
  have pos : ∀ a : ℝ, 0 < a → Complex.arg (a * c) = Complex.arg c := fun a h => Complex.arg_real_mul _ h
  have neg : ∀ a : ℝ, a < 0 → Complex.arg (a * c) = Complex.arg (-c) := fun a h => by
    rw [show (a : ℂ) * c = ((-a : ℝ) : ℂ) * (-c) by push_cast; ring]
    exact Complex.arg_real_mul _ (by linarith)
  have key : Complex.arg (-c) = Complex.arg c + π ∨ Complex.arg (-c) = Complex.arg c - π := by
    rcases lt_trichotomy c.im 0 with h | h | h
    · exact Or.inl (Complex.arg_neg_eq_arg_add_pi_of_im_neg h)
    · rcases lt_trichotomy c.re 0 with g | g | g
      · right
        rw [Complex.arg_eq_pi_iff.2 ⟨g, h⟩, sub_self, Complex.arg_eq_zero_iff]
        simp [h, g.le]
      · exact absurd (Complex.ext g h) hc
      · left
        rw [Complex.arg_eq_zero_iff.2 ⟨g.le, h⟩, zero_add, Complex.arg_eq_pi_iff]
        simp [h, g]
    · exact Or.inr (Complex.arg_neg_eq_arg_sub_pi_of_im_pos h)
  rcases key with k | k
  · refine ⟨Complex.arg c, fun a ha => ?_⟩
    rcases lt_or_gt_of_ne ha with h | h
    · exact Or.inr (by rw [neg a h, k])
    · exact Or.inl (pos a h)
  · refine ⟨Complex.arg c - π, fun a ha => ?_⟩
    rcases lt_or_gt_of_ne ha with h | h
    · exact Or.inl (by rw [neg a h, k])
    · exact Or.inr (by rw [pos a h]; ring)

/-- **C214 (standing waves, the code violates the claim).**  A standing wave, whose first mode is a real oscillating
amplitude times a fixed complex number, has a reported mean frequency of at most `2π / (n dt)` in size whatever its true
frequency: it goes to zero as more times are saved. -/
theorem standing_wave_partial (n : ℕ) (hn : 2 ≤ n) (a : ℕ → ℝ) (ha : ∀ i, a i ≠ 0) (c : ℂ) (hc : c ≠ 0) (t : ℕ → ℝ) (dt : ℝ)
    (hdt : t 1 - t 0 = dt) (d0 : 0 < dt) : ∃ avg last, epwFrequency n (fun i => a i * c) t = .ok (avg, last) ∧ |avg| ≤ 2 * π / (n * dt) := by
  have hp := Real.pi_pos
  obtain ⟨α, hα⟩ := arg_two c hc
  obtain ⟨m, rfl⟩ : ∃ m, n = m + 2 := ⟨n - 2, by omega⟩
  have run : epwFrequency (m + 2) (fun i => a i * c) t = .ok (mean (m + 2) fun i => -Vfp2d.Recon.gradient (m + 2) (t 1 - t 0) (unwrap fun j => (a j * c).arg) i,
      -Vfp2d.Recon.gradient (m + 2) (t 1 - t 0) (unwrap fun j => (a j * c).arg) (m + 2 - 1)) := by
    simp only [epwFrequency, frequencies, if_neg (show ¬ m + 2 < 2 by omega)]
  refine ⟨_, _, run, ?_⟩
  unfold mean
  rw [Finset.sum_neg_distrib, hdt, gradient_sum m _ dt d0.ne']
  simp only [unwrap_two (fun j => Complex.arg (a j * c)) α fun i => hα (a i) (ha i)]
  have v : ∀ i, 0 ≤ Complex.arg (a i * c) - α ∧ Complex.arg (a i * c) - α ≤ π := by
    intro i
    rcases hα (a i) (ha i) with h | h <;> rw [h] <;> constructor <;> linarith
  have n0 : (0 : ℝ) < ((m + 2 : ℕ) : ℝ) := by positivity
  rw [neg_div, abs_neg, div_div, abs_div, abs_of_pos (by positivity : (0:ℝ) < 2 * dt * ((m + 2 : ℕ) : ℝ)),
    div_le_div_iff₀ (by positivity) (by positivity)]
  have b : |3 * Complex.arg (a (m + 1) * c) - Complex.arg (a m * c) + Complex.arg (a 1 * c) - 3 * Complex.arg (a 0 * c)| ≤ 4 * π := by
    have h1 := v (m + 1)
    have h2 := v m
    have h3 := v 1
    have h4 := v 0
    rw [abs_le]
    constructor <;> linarith [h1.1, h1.2, h2.1, h2.2, h3.1, h3.2, h4.1, h4.2]
  calc _ ≤ 4 * π * (((m + 2 : ℕ) : ℝ) * dt) := by gcongr
    _ = _ := by ring

/-- Non-vacuity: a Langmuir oscillation `cos t` at `1000` saved times `1` apart is reported below `0.0063`, not at `1`. -/
example : ∃ avg last, epwFrequency 1000 (fun i => (Real.cos (i : ℝ) : ℝ) * (1 : ℂ)) (fun i => i) = .ok (avg, last) ∧ |avg| ≤ 2 * π / ((1000 : ℕ) * 1) :=
  standing_wave_partial 1000 (by norm_num) (fun i => Real.cos (i : ℝ)) (fun i h => by
    rw [Real.cos_eq_zero_iff] at h
    obtain ⟨k, hk⟩ := h
    have : ((2 * i : ℕ) : ℝ) = ((2 * k + 1 : ℤ) : ℝ) * π := by push_cast; linarith
    have ne : (2 * k + 1 : ℤ) ≠ 0 := by omega
    have ne' : ((2 * k + 1 : ℤ) : ℝ) ≠ 0 := by exact_mod_cast ne
    exact irrational_pi ⟨((2 * i : ℕ) : ℚ) / ((2 * k + 1 : ℤ) : ℚ), by
      rw [Rat.cast_div, Rat.cast_natCast, Rat.cast_intCast, this]
      field_simp⟩) 1 one_ne_zero _ 1 (by norm_num) (by norm_num)

end Verif.SpectraxWaves
