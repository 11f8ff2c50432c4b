import Verif.Props.LpseWave

/-! C167: the two-plasmon-decay source. -/
namespace Verif.Lpse
open Finset Complex Verif.Spectral
open scoped ComplexConjugate

variable {nx ny : ℕ} [NeZero nx] [NeZero ny]

/-- The pump `A exp(i m 2 pi x / nx)`: a plane wave along `x`. -/
noncomputable def planePump (A : ℂ) (m : ZMod nx) : Arr nx ny ℂ := fun x _ => A * (ZMod.stdAddChar (m * x) : ℂ)

/-- The source of the wave `k = (a, b)` with the field `ey` of the potential `phi`, as the step computes it. -/
noncomputable def source (p : Epw nx ny) (t : ℝ) (phi E0y : Arr nx ny ℂ) : Arr nx ny ℂ := p.tpdSource t phi (p.eyOf phi) E0y

theorem ky_neg {p : Epw nx ny} {b : ZMod ny} (hb : 2 * b.val ≠ ny) : kax p.dy (-b) = -kax p.dy b := by
  rw [kax_eq, kax_eq]
  by_cases h : b.val = 0
  · rw [(ZMod.val_eq_zero b).1 h]; simp [kfull_zero]
  · exact kfull_odd _ _ h hb

/-- C167: with a plane-wave pump the wave `k` is driven by the wave `q = k0 - k` alone, with the textbook coupling
`k_y (q^2 - k^2) / k^2` and the beat of the pump with twice the plasma frequency. -/
theorem coupling (p : Epw nx ny) (t : ℝ) (phi : Arr nx ny ℂ) (A : ℂ) (m a : ZMod nx) (b : ZMod ny) (hb : 2 * b.val ≠ ny)
    (hk : 0 < p.ksq a b) (hl : p.lowPass a b = 1) :
    source p t phi (planePump A m) a b =
      -((p.e / (8 * p.wp0 * p.me) : ℝ) : ℂ) * cexp (-I * (((p.w0 - 2 * p.wp0) * t : ℝ) : ℂ)) * A *
        ((kax p.dy b * (p.ksq (m - a) (-b) - p.ksq a b) / p.ksq a b : ℝ) : ℂ) * conj (phi (m - a) (-b)) := by
  have hpull : ∀ f : Arr nx ny ℂ, fft2 (fun x y => planePump A m x y * conj (f x y)) a b = A * conj (fft2 f (m - a) (-b)) := by
    intro f
    rw [← fft2_wave_conj, ← fft2_smul]
    congr 1; funext x y; unfold planePump; ring
  unfold source Epw.tpdSource
  simp only
  rw [hpull, hpull]
  unfold Epw.eyOf Epw.invKsq Epw.zeroMask
  rw [fft2_ifft2, fft2_ifft2, if_pos hk, if_pos hk, hl, ky_neg hb]
  have hne : ((p.ksq a b : ℝ) : ℂ) ≠ 0 := ofReal_ne_zero.2 hk.ne'
  simp only [map_mul, map_neg, conj_I, conj_ofReal]
  push_cast
  field_simp
  ring_nf
  rw [I_sq]
  ring

/-- C167 (Manley-Rowe): the two daughter waves receive exactly the same energy, whatever the pump amplitude and the phases. -/
theorem manley_rowe (p : Epw nx ny) (t : ℝ) (phi : Arr nx ny ℂ) (A : ℂ) (m a : ZMod nx) (b : ZMod ny) (hb : 2 * b.val ≠ ny)
    (hk : 0 < p.ksq a b) (hq : 0 < p.ksq (m - a) (-b)) (hl : p.lowPass a b = 1) (hm : p.lowPass (m - a) (-b) = 1) :
    (p.ksq a b : ℂ) * conj (phi a b) * source p t phi (planePump A m) a b =
    (p.ksq (m - a) (-b) : ℂ) * conj (phi (m - a) (-b)) * source p t phi (planePump A m) (m - a) (-b) := by
  have hb' : 2 * (-b).val ≠ ny := by
    by_cases h : b.val = 0
    · rw [(ZMod.val_eq_zero b).1 h, neg_zero, ZMod.val_zero]
      have := NeZero.ne ny; omega
    · rw [neg_val_ne h]
      have := b.val_lt; omega
  rw [coupling p t phi A m a b hb hk hl, coupling p t phi A m (m - a) (-b) hb' hq hm]
  rw [show m - (m - a) = a by ring, neg_neg, ky_neg hb]
  have h1 : ((p.ksq a b : ℝ) : ℂ) ≠ 0 := ofReal_ne_zero.2 hk.ne'
  have h2 : ((p.ksq (m - a) (-b) : ℝ) : ℂ) ≠ 0 := ofReal_ne_zero.2 hq.ne'
  push_cast
  field_simp
  ring

/-- The textbook homogeneous growth rate of two-plasmon decay: quiver velocity `v` of the pump (at frequency `2 wp`), transverse
wave number `ky`, wave numbers `k`, `q` of the daughters. -/
noncomputable def tpdRate (v ky k q : ℝ) : ℝ := |ky| * v / 4 * (|q ^ 2 - k ^ 2| / (k * q))

/-- C167: the source is amplifying, at the textbook rate: the amplitudes `k phi_k` of the daughters drive each other with the
growth rate, and the loop gain is real and positive. -/
theorem growth_rate (p : Epw nx ny) (t : ℝ) (phi : Arr nx ny ℂ) (A : ℂ) (m a : ZMod nx) (b : ZMod ny) (hb : 2 * b.val ≠ ny)
    (hk : 0 < p.ksq a b) (hq : 0 < p.ksq (m - a) (-b)) (hl : p.lowPass a b = 1) (hm : p.lowPass (m - a) (-b) = 1)
    (he : 0 < p.e) (hw : 0 < p.wp0) (hme : 0 < p.me) :
    Real.sqrt (p.ksq a b) * ‖source p t phi (planePump A m) a b‖ =
      tpdRate (p.e * ‖A‖ / (p.me * (2 * p.wp0))) (kax p.dy b) (Real.sqrt (p.ksq a b)) (Real.sqrt (p.ksq (m - a) (-b))) *
        (Real.sqrt (p.ksq (m - a) (-b)) * ‖phi (m - a) (-b)‖) ∧
    ∃ c d : ℂ, source p t phi (planePump A m) a b = c * conj (phi (m - a) (-b)) ∧
      source p t phi (planePump A m) (m - a) (-b) = d * conj (phi a b) ∧
      c * conj d = ((tpdRate (p.e * ‖A‖ / (p.me * (2 * p.wp0))) (kax p.dy b) (Real.sqrt (p.ksq a b)) (Real.sqrt (p.ksq (m - a) (-b))) ^ 2 : ℝ) : ℂ) := by
  have hb' : 2 * (-b).val ≠ ny := by
    by_cases h : b.val = 0
    · rw [(ZMod.val_eq_zero b).1 h, neg_zero, ZMod.val_zero]
      have := NeZero.ne ny; omega
    · rw [neg_val_ne h]
      have := b.val_lt; omega
  have c1 := coupling p t phi A m a b hb hk hl
  have c2 := coupling p t phi A m (m - a) (-b) hb' hq hm
  rw [show m - (m - a) = a by ring, neg_neg, ky_neg hb] at c2
  have hph : ‖cexp (-I * (((p.w0 - 2 * p.wp0) * t : ℝ) : ℂ))‖ = 1 := by rw [norm_exp]; simp
  obtain ⟨k, hk0, hks⟩ : ∃ k, 0 < k ∧ p.ksq a b = k ^ 2 := ⟨_, Real.sqrt_pos.2 hk, (Real.sq_sqrt hk.le).symm⟩
  obtain ⟨q, hq0, hqs⟩ : ∃ k, 0 < k ∧ p.ksq (m - a) (-b) = k ^ 2 := ⟨_, Real.sqrt_pos.2 hq, (Real.sq_sqrt hq.le).symm⟩
  rw [hks, hqs] at c1 c2
  rw [hks, hqs, Real.sqrt_sq hk0.le, Real.sqrt_sq hq0.le]
  have hg : (0 : ℝ) < p.e / (8 * p.wp0 * p.me) := by positivity
  obtain ⟨P, hP⟩ : ∃ P, P = cexp (-I * (((p.w0 - 2 * p.wp0) * t : ℝ) : ℂ)) := ⟨_, rfl⟩
  rw [← hP] at c1 c2 hph
  refine ⟨?_, _, _, c1, c2, ?_⟩
  · rw [c1, norm_mul, norm_mul, norm_mul, norm_mul, norm_neg, hph, norm_real, norm_real, norm_conj, Real.norm_eq_abs, Real.norm_eq_abs,
      abs_of_pos hg, abs_div, abs_mul, abs_of_pos (by positivity : 0 < k ^ 2)]
    unfold tpdRate
    field_simp
    ring
  · simp only [map_mul, map_neg, conj_ofReal]
    have hPP : P * conj P = 1 := by rw [mul_conj, normSq_eq_norm_sq, hph]; simp
    have hAA : A * conj A = ((‖A‖ ^ 2 : ℝ) : ℂ) := by rw [mul_conj, normSq_eq_norm_sq]
    have e2 : tpdRate (p.e * ‖A‖ / (p.me * (2 * p.wp0))) (kax p.dy b) k q ^ 2 =
        (p.e / (8 * p.wp0 * p.me)) ^ 2 * ‖A‖ ^ 2 * (kax p.dy b * (q ^ 2 - k ^ 2) / k ^ 2) * (-kax p.dy b * (k ^ 2 - q ^ 2) / q ^ 2) := by
      unfold tpdRate
      simp only [mul_pow, div_pow, sq_abs]
      field_simp
      ring
    rw [e2]
    push_cast
    rw [show ∀ g z w : ℂ, -g * P * A * z * (-g * conj P * conj A * w) = g ^ 2 * (P * conj P) * (A * conj A) * z * w by intros; ring, hPP, hAA]
    push_cast; ring

/-- C167: the growth rate never exceeds `k0 v / 2` when the daughters' wave vectors add up to the pump's (no aliasing). -/
theorem rate_bound (v kx ky k0 : ℝ) (hv : 0 ≤ v) (hk0 : 0 ≤ k0) (hk : 0 < kx ^ 2 + ky ^ 2) (hq : 0 < (k0 - kx) ^ 2 + ky ^ 2) :
    tpdRate v ky (Real.sqrt (kx ^ 2 + ky ^ 2)) (Real.sqrt ((k0 - kx) ^ 2 + ky ^ 2)) ≤ k0 * v / 2 := by
  obtain ⟨k, hk0', hks⟩ : ∃ k, 0 < k ∧ kx ^ 2 + ky ^ 2 = k ^ 2 := ⟨_, Real.sqrt_pos.2 hk, (Real.sq_sqrt hk.le).symm⟩
  obtain ⟨q, hq0', hqs⟩ : ∃ k, 0 < k ∧ (k0 - kx) ^ 2 + ky ^ 2 = k ^ 2 := ⟨_, Real.sqrt_pos.2 hq, (Real.sq_sqrt hq.le).symm⟩
  rw [hks, hqs, Real.sqrt_sq hk0'.le, Real.sqrt_sq hq0'.le]
  have hyk : |ky| ≤ k := abs_le_of_sq_le_sq (by nlinarith [sq_nonneg kx]) hk0'.le
  have hyq : |ky| ≤ q := abs_le_of_sq_le_sq (by nlinarith [sq_nonneg (k0 - kx)]) hq0'.le
  have hxk : |kx| ≤ k := abs_le_of_sq_le_sq (by nlinarith [sq_nonneg ky]) hk0'.le
  have hxq : |k0 - kx| ≤ q := abs_le_of_sq_le_sq (by nlinarith [sq_nonneg ky]) hq0'.le
  have hd : |q ^ 2 - k ^ 2| ≤ k0 * (q + k) := by
    have e : q ^ 2 - k ^ 2 = k0 * ((k0 - kx) - kx) := by rw [← hks, ← hqs]; ring
    rw [e, abs_mul, abs_of_nonneg hk0]
    refine mul_le_mul_of_nonneg_left ?_ hk0
    exact (abs_sub _ _).trans (add_le_add hxq hxk)
  unfold tpdRate
  have hy := abs_nonneg ky
  have hmain : |ky| * (k0 * (q + k)) ≤ 2 * k0 * (k * q) := by
    have : |ky| * (q + k) ≤ 2 * (k * q) := by nlinarith
    nlinarith
  have h1 : |ky| * |q ^ 2 - k ^ 2| / (k * q) ≤ 2 * k0 := by
    rw [div_le_iff₀ (by positivity)]
    exact (mul_le_mul_of_nonneg_left hd hy).trans hmain
  calc |ky| * v / 4 * (|q ^ 2 - k ^ 2| / (k * q)) = v / 4 * (|ky| * |q ^ 2 - k ^ 2| / (k * q)) := by ring
    _ ≤ v / 4 * (2 * k0) := by gcongr
    _ = k0 * v / 2 := by ring

/-- C167: the pump alone drives nothing: with no plasma wave there is no source; and waves along the pump are not driven. -/
theorem source_axis (p : Epw nx ny) (t : ℝ) (phi : Arr nx ny ℂ) (A : ℂ) (m a : ZMod nx) (hk : 0 < p.ksq a 0) (hl : p.lowPass a 0 = 1) :
    source p t phi (planePump A m) a 0 = 0 := by
  rw [coupling p t phi A m a 0 (by rw [ZMod.val_zero]; have := NeZero.ne ny; omega) hk hl]
  have : kax p.dy (0 : ZMod ny) = 0 := by rw [kax_eq, kfull_zero]
  rw [this]; simp

end Verif.Lpse
