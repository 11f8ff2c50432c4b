import Verif.Props.LpseTpd
import Verif.Props.LpseDeck
import Verif.Props.Speckle

/-! More on C167-C169, C173, C176, C179, C180. -/
namespace Verif.Lpse
open Finset Complex Verif.Spectral
open scoped ComplexConjugate

variable {nx ny : ℕ} [NeZero nx] [NeZero ny]

/-- C173: at every cell the local part of the step multiplies the size of the field by the boundary factor and nothing else. -/
theorem boundary_pointwise (p : Epw nx ny) (hb : ∀ x y, 0 ≤ p.boundary x y) (E : Arr nx ny ℂ) (x : ZMod nx) (y : ZMod ny) :
    ‖p.local E x y‖ = p.boundary x y * ‖E x y‖ := by
  unfold Epw.local
  have h1 : ∀ r : ℝ, ‖cexp (-I * (r : ℂ))‖ = 1 := fun r => by
    rw [show -I * (r : ℂ) = ((-r : ℝ) : ℂ) * I by push_cast; ring, norm_exp_ofReal_mul_I]
  rw [norm_mul, norm_real, Real.norm_eq_abs, abs_of_nonneg (hb x y)]
  split
  · rw [norm_mul, h1]; ring
  · ring

/-- C167: the step adds `dt` times the source of the waves that have just been advanced by dispersion and damping. -/
theorem step_source (p : Epw nx ny) (hn : p.tpd = true) (t : ℝ) (phi E : Arr nx ny ℂ) (a : ZMod nx) (b : ZMod ny) :
    p.step t phi E a b = ({ p with tpd := false } : Epw nx ny).step t phi E a b + (p.dt : ℂ) * source p t (p.linear t phi) E a b := by
  have e : p.step t phi E a b = p.phiOf (p.local (p.exOf (p.linear t phi))) (p.local (p.eyOf (p.linear t phi))) a b +
      if p.tpd then (p.dt : ℂ) * p.tpdSource t (p.linear t phi) (p.eyOf (p.linear t phi)) E a b else 0 := rfl
  have e' : ({ p with tpd := false } : Epw nx ny).step t phi E a b =
      p.phiOf (p.local (p.exOf (p.linear t phi))) (p.local (p.eyOf (p.linear t phi))) a b + 0 := by
    unfold Epw.step
    simp only [Bool.false_eq_true, if_false]
    rfl
  rw [e, e', hn, if_pos rfl, add_zero]
  rfl

/-- C179: the noise source has the same amplitude in every retained mode, none in the mean and in the filtered modes. -/
theorem noise_amplitude (p : Epw nx ny) (hx : p.dx ≠ 0) (hy : p.dy ≠ 0) (t : ℝ) (a : ZMod nx) (b : ZMod ny) :
    (p.lowPass a b = 1 → ¬(a = 0 ∧ b = 0) → ‖p.noiseAt t a b‖ = 1e-10) ∧ (p.lowPass a b = 0 ∨ (a = 0 ∧ b = 0) → p.noiseAt t a b = 0) := by
  have hz : p.zeroMask a b = if ¬(a = 0 ∧ b = 0) then 1 else 0 := by unfold Epw.zeroMask; rw [if_congr (ksq_pos_iff hx hy a b) rfl rfl]
  unfold Epw.noiseAt
  constructor
  · intro hl hab
    rw [hz, if_pos hab, hl, norm_mul, norm_mul, norm_mul, norm_real, Speckle.norm_phase]
    norm_num
  · rintro (h | h)
    · rw [h]; simp
    · rw [hz, if_neg (not_not.2 h)]; simp

omit [NeZero nx] [NeZero ny] in
/-- C169: a colour's phase and frequency enter as they should: adding to the phase turns the amplitude, time turns it backwards at the colour's frequency
shift. -/
theorem amp_phase (l : Light nx ny) (t s d : ℝ) (q : Colour ny) (y : ZMod ny) :
    l.amp t { q with phase := fun y => q.phase y + d } y = l.amp t q y * cexp (I * (d : ℂ)) ∧
    l.amp (t + s) q y = l.amp t q y * cexp (-I * ((q.deltaOmega * l.w0 * s : ℝ) : ℂ)) := by
  unfold Light.amp
  refine ⟨?_, ?_⟩
  · rw [mul_assoc _ (cexp _) (cexp _), ← Complex.exp_add]
    congr 2
    push_cast; ring
  · rw [mul_assoc _ (cexp _) (cexp _), ← Complex.exp_add]
    congr 2
    push_cast; ring

/-- C173: the filter never favours shorter waves. -/
theorem isotropic_antitone (dx dy lp taper : ℝ) (a a' : ZMod nx) (b b' : ZMod ny) (hk : kmag dx dy a b ≤ kmag dx dy a' b') :
    isotropic dx dy lp taper a' b' ≤ isotropic dx dy lp taper a b := by
  obtain ⟨h0, h1, -, -, -⟩ := isotropic_range dx dy lp taper a b
  obtain ⟨h0', h1', -, -, -⟩ := isotropic_range dx dy lp taper a' b'
  unfold isotropic at *
  simp only at *
  revert h0 h1 h0' h1'
  generalize lp * kmax nx dx = c at *
  generalize kmag dx dy a b = k at *
  generalize kmag dx dy a' b' = k' at *
  intro h0 h1 h0' h1'
  by_cases hc : c ≤ 0
  · rw [if_pos hc, if_pos hc]
  simp only [if_neg hc] at h0 h1 h0' h1' ⊢
  by_cases ht : taper ≤ 0
  · rw [if_pos ht, if_pos ht]
    split
    · rw [if_pos (by linarith)]
    · split <;> norm_num
  simp only [if_neg ht] at h0 h1 h0' h1' ⊢
  by_cases hck' : c ≤ k'
  · rw [if_pos hck']; exact h0
  have hck : ¬ c ≤ k := by push Not at hck' ⊢; linarith
  simp only [if_neg hck'] at h0' h1' ⊢
  simp only [if_neg hck] at h0 h1 ⊢
  generalize max (c * (1 - taper)) 0 = s at *
  push Not at hck hck'
  by_cases hs : s ≤ k ∧ s < c
  · have hs' : s ≤ k' ∧ s < c := ⟨hs.1.trans hk, hs.2⟩
    rw [if_pos hs, if_pos hs']
    have hd : 0 < c - s := by linarith [hs.2]
    have ha : 0 ≤ (k - s) / (c - s) := div_nonneg (by linarith [hs.1]) hd.le
    have hb : (k' - s) / (c - s) ≤ 1 := by rw [div_le_one hd]; linarith
    have hab : (k - s) / (c - s) ≤ (k' - s) / (c - s) := by gcongr
    have hp := Real.pi_pos
    have := Real.cos_le_cos_of_nonneg_of_le_pi (x := Real.pi * ((k - s) / (c - s))) (y := Real.pi * ((k' - s) / (c - s)))
      (by positivity) (by nlinarith) (by gcongr)
    linarith
  · rw [if_neg hs]; exact h1'

/-- C168: and the transverse extent of the pump is kept free, too. -/
theorem transverse_room (dx dy lp taper : ℝ) (sup : ℝ × ℝ) (F : Arr nx ny ℝ) (hF : filterGrid dx dy lp taper "shifted-band" sup = .ok F)
    (a : ZMod nx) (b : ZMod ny) (hr : F a b ≠ 0) : |kax dx a| + sup.1 ≤ nyquist nx dx ∧ |kax dy b| + sup.2 ≤ nyquist ny dy := by
  unfold filterGrid at hF
  rw [if_pos rfl] at hF
  simp only at hF
  split at hF
  · cases hF
  · cases hF
    by_contra hn
    apply hr
    simp only
    rw [if_neg, mul_zero]
    rintro ⟨h1, h2⟩
    exact hn ⟨by linarith, by linarith⟩

/-- C180: `collisions: false` and numbers mean what they say. -/
theorem collisions_off (T Z x : ℝ) (f : Bool → ℝ) : nuColl (.bool false) T Z f = .ok 0 ∧ nuColl (.int 0) T Z f = .ok 0 ∧ nuColl (.float x) T Z f = .ok x :=
  ⟨rfl, rfl, rfl⟩

end Verif.Lpse

namespace Verif.Speckle
open Complex

/-- C176: fifty samples of the random series per inverse bandwidth. -/
theorem sampling (bw : ℝ) (h : 0 < bw) : 0 < dtUpdate bw ∧ 50 * dtUpdate bw = 1 / bw := by
  unfold dtUpdate
  exact ⟨by positivity, by field_simp⟩

/-- C175: with both modulations at one frequency the FM pattern repeats after one modulation period, `lambda / (c f)` in seconds. -/
theorem fm_period (b : Beam) (c x y t : ℝ) (sx sy : Ssd) (hc : c ≠ 0) (hl : b.lam ≠ 0) (hf : sx.freq ≠ 0) (he : sy.freq = sx.freq) :
    b.evaluate c (.fm sx sy) x y (t + b.lam / (c * sx.freq)) = b.evaluate c (.fm sx sy) x y t := by
  unfold Beam.evaluate
  congr 1
  funext i j
  unfold Beam.nearField
  have e : (t + b.lam / (c * sx.freq)) * c / b.lam = t * c / b.lam + 1 / sx.freq := by field_simp
  have ex : ∀ A : ℝ, Real.sin (sx.dephase + 2 * Real.pi * sx.freq * ((t + b.lam / (c * sx.freq)) * c / b.lam - A)) =
      Real.sin (sx.dephase + 2 * Real.pi * sx.freq * (t * c / b.lam - A)) := fun A => by
    rw [e, ← Real.sin_add_two_pi (sx.dephase + 2 * Real.pi * sx.freq * (t * c / b.lam - A))]
    congr 1; field_simp; ring
  have ey : ∀ A : ℝ, Real.sin (sy.dephase + 2 * Real.pi * sy.freq * ((t + b.lam / (c * sx.freq)) * c / b.lam - A)) =
      Real.sin (sy.dephase + 2 * Real.pi * sy.freq * (t * c / b.lam - A)) := fun A => by
    rw [e, he, ← Real.sin_add_two_pi (sy.dephase + 2 * Real.pi * sx.freq * (t * c / b.lam - A))]
    congr 1; field_simp; ring
  simp only
  rw [ex, ey]

/-- C175: along x, the modulation of a beamlet is that of its neighbour delayed by `delay / n`: the colours sweep over the aperture. -/
theorem fm_sweep (b : Beam) (sx sy : Ssd) (hy : sy.amp = 0) (t : ℝ) (i j : ℕ) (hi : i + 1 < b.nX) :
    b.nearField (.fm sx sy) t (i + 1) j = b.nearField (.fm sx sy) (t - sx.delay / b.nX) i j := by
  unfold Beam.nearField
  simp only [hy, zero_mul, add_zero]
  rw [lens_eq _ _ hi, lens_eq _ _ (by omega : i < b.nX)]
  have hn : (b.nX : ℝ) ≠ 0 := Nat.cast_ne_zero.2 (by omega)
  congr 6
  push_cast
  field_simp
  ring

/-- C175: with random phase modulation the neighbour is *ahead* by `delay / n`. -/
theorem rpm_sweep (b : Beam) (sx sy : Ssd) (h : ℝ) (n : ℕ) (f : ℕ → ℝ) (t : ℝ) (i j : ℕ) :
    b.nearField (.rpm sx sy h n f fun _ => 0) t (i + 1) j = b.nearField (.rpm sx sy h n f fun _ => 0) (t + sx.delay / b.nX) i j := by
  unfold Beam.nearField
  have z : ∀ s, interp h n (fun _ => 0) s = 0 := fun s => by unfold interp; simp
  simp only [z, add_zero]
  congr 4
  push_cast
  ring

/-- C175: the ISI amplitudes are the stored ones, each for the update interval centred on its time. -/
theorem isi_nearest (b : Beam) (h : ℝ) (series : ℕ → ℕ → ℕ → ℂ) (hh : 0 < h) (t : ℝ) (k : ℕ) (hk : |t - k * h| < h / 2) (i j : ℕ) :
    b.nearField (.isi h series) t i j = series i j k := by
  unfold Beam.nearField
  have hr := Pic.roundEven_near (t / h)
  have h2 : |t / h - k| < 1 / 2 := by
    have : t / h - k = (t - k * h) / h := by field_simp
    rw [this, abs_div, abs_of_pos hh, div_lt_iff₀ hh]; linarith
  rw [abs_le] at hr
  rw [abs_lt] at h2
  have a1 : (Pic.roundEven (t / h) : ℝ) < k + 1 := by linarith [hr.1, h2.2]
  have a2 : (k : ℝ) - 1 < Pic.roundEven (t / h) := by linarith [hr.2, h2.1]
  have b1 : Pic.roundEven (t / h) < (k : ℤ) + 1 := by exact_mod_cast a1
  have b2 : (k : ℤ) - 1 < Pic.roundEven (t / h) := by exact_mod_cast a2
  have : Pic.roundEven (t / h) = k := by omega
  simp only [this, Int.toNat_natCast]

end Verif.Speckle
