import Verif.Props.LpseFilter

/-! C169: the pump laser. -/
namespace Verif.Lpse
open Finset Complex Verif.Spectral
open scoped ComplexConjugate

variable {nx ny : ℕ} [NeZero nx] [NeZero ny]

omit [NeZero nx] [NeZero ny] in
theorem spectrum_sum (l : Light nx ny) (t : ℝ) (qs : List (Colour ny)) (a : ZMod nx) (y : ZMod ny) :
    l.spectrum t qs a y = (qs.map fun q => if a = l.index q.deltaOmega then l.amp t q y else 0).sum := by
  unfold Light.spectrum
  have h : ∀ (qs : List (Colour ny)) (E : Arr nx ny ℂ),
      qs.foldl (fun E q => fun a y => if a = l.index q.deltaOmega then E a y + l.amp t q y else E a y) E a y =
      E a y + (qs.map fun q => if a = l.index q.deltaOmega then l.amp t q y else 0).sum := by
    intro qs
    induction qs with
    | nil => intro E; simp
    | cons q qs ih =>
      intro E
      rw [List.foldl_cons, ih, List.map_cons, List.sum_cons]
      split <;> ring
  rw [h]; simp

theorem ifft_sum {N : ℕ} [NeZero N] (F : ZMod N → ℂ) (x : ZMod N) : (N : ℂ) * ifft F x = ∑ a, (ZMod.stdAddChar (a * x) : ℂ) * F a := by
  have hN : (N : ℂ) ≠ 0 := Nat.cast_ne_zero.2 (NeZero.ne N)
  unfold ifft
  rw [ZMod.invDFT_apply]
  simp only [smul_eq_mul]
  rw [mul_inv_cancel_left₀ hN]

/-- The swelling factor of the field where the density is `n`. -/
theorem swelling (l : Light nx ny) (hw : l.w0 ≠ 0) (x : ZMod nx) (y : ZMod ny) (h0 : 0 ≤ l.density x y) :
    (1 - (l.w0 * Real.sqrt (l.density x y)) ^ 2 / l.w0 ^ 2) = 1 - l.density x y := by
  rw [mul_pow, Real.sq_sqrt h0]; field_simp

/-- C169: the pump is the sum over the colours of plane waves `amp * exp(2 pi i m x / nx)`, times the swelling and the speckle. -/
theorem pump_waves (l : Light nx ny) (t : ℝ) (qs : List (Colour ny)) (x : ZMod nx) (y : ZMod ny) :
    l.update t qs x y = (qs.map fun q => l.amp t q y * (ZMod.stdAddChar ((l.modeOf q.deltaOmega : ZMod nx) * x) : ℂ)).sum *
      (((1 - (l.w0 * Real.sqrt (l.density x y)) ^ 2 / l.w0 ^ 2) ^ (-(0.25 : ℝ)) : ℝ) : ℂ) *
      (match l.speckle with
       | some s => s t y
       | none => 1) := by
  unfold Light.update
  rw [ifft_sum]
  congr 2
  simp only [ifftshift, spectrum_sum]
  induction qs with
  | nil => simp
  | cons q qs ih =>
    simp only [List.map_cons, List.sum_cons]
    rw [← ih]
    simp only [mul_add, sum_add_distrib]
    congr 1
    have hidx : ∀ a : ZMod nx, (a + ((nx / 2 : ℕ) : ZMod nx) = l.index q.deltaOmega) ↔ a = (l.modeOf q.deltaOmega : ZMod nx) := by
      intro a
      unfold Light.index
      rw [Int.cast_add, Int.cast_natCast, add_left_inj]
    simp only [hidx]
    simp only [mul_ite, mul_zero]
    rw [sum_ite_eq' univ _ _, if_pos (mem_univ _)]
    ring

/-- C169: every colour's wave number is the nearest one on the grid. -/
theorem snapped (l : Light nx ny) (hx : 0 < l.dx) (dw : ℝ) : |l.modeOf dw * l.dk - l.k0 dw| ≤ l.dk / 2 := by
  have hN : 0 < (nx : ℝ) := Nat.cast_pos.2 (NeZero.pos nx)
  have hdk : 0 < l.dk := by unfold Light.dk; have := Real.pi_pos; positivity
  have h := Pic.roundEven_near (l.k0 dw / l.dk)
  have e : (l.modeOf dw : ℝ) * l.dk - l.k0 dw = -((l.k0 dw / l.dk - Pic.roundEven (l.k0 dw / l.dk)) * l.dk) := by
    unfold Light.modeOf; rw [sub_mul, div_mul_cancel₀ _ hdk.ne']; ring
  rw [e, abs_neg, abs_mul, abs_of_pos hdk]
  nlinarith

/-- The light dispersion relation at the reference density. -/
theorem dispersion (l : Light nx ny) (dw : ℝ) (hw : 0 < l.w0) (hc : 0 < l.c) (h : l.wp0 ^ 2 / l.w0 ^ 2 ≤ (1 + dw) ^ 2) :
    (l.w0 * (1 + dw)) ^ 2 = l.wp0 ^ 2 + l.c ^ 2 * l.k0 dw ^ 2 := by
  unfold Light.k0
  rw [mul_pow (l.w0 / l.c), Real.sq_sqrt (by linarith)]
  field_simp
  ring

omit [NeZero nx] [NeZero ny] in
theorem norm_amp (l : Light nx ny) (t : ℝ) (q : Colour ny) (y : ZMod ny) (hI : 0 ≤ q.intensity y) : ‖l.amp t q y‖ ^ 2 = l.E0 ^ 2 * q.intensity y := by
  unfold Light.amp
  rw [norm_mul, norm_mul, norm_real, norm_real]
  have : ‖cexp (-I * ((q.deltaOmega * l.w0 * t - (q.phase y - l.Lx / 2 * l.k0 q.deltaOmega) : ℝ) : ℂ))‖ = 1 := by rw [norm_exp]; simp
  rw [this, mul_one, mul_pow, Real.norm_eq_abs, Real.norm_eq_abs, sq_abs, sq_abs, Real.sq_sqrt hI]

/-- C169: the colours do not interfere on average: in a uniform plasma without speckle the intensity averaged over `x` is the
configured one times the swelling, when the colours occupy different grid modes; so the energy flux is the configured one. -/
theorem mean_intensity (l : Light nx ny) (t : ℝ) (qs : List (Colour ny)) (y : ZMod ny) (n : ℝ) (hn0 : 0 ≤ n) (hn : n < 1) (hw : l.w0 ≠ 0)
    (hd : ∀ x, l.density x y = n) (hs : l.speckle = none) (hI : ∀ q ∈ qs, 0 ≤ q.intensity y)
    (hdist : (qs.map fun q => l.index q.deltaOmega).Nodup) :
    (∑ x, ‖l.update t qs x y‖ ^ 2) / nx = l.E0 ^ 2 * (qs.map fun q => q.intensity y).sum / Real.sqrt (1 - n) ∧
    Real.sqrt (1 - n) * ((∑ x, ‖l.update t qs x y‖ ^ 2) / nx) = l.E0 ^ 2 * (qs.map fun q => q.intensity y).sum := by
  have hN : 0 < (nx : ℝ) := Nat.cast_pos.2 (NeZero.pos nx)
  have h1n : 0 < 1 - n := by linarith
  have key : (∑ a, ‖l.spectrum t qs a y‖ ^ 2) = l.E0 ^ 2 * (qs.map fun q => q.intensity y).sum := by
    simp only [spectrum_sum]
    clear hd
    induction qs with
    | nil => simp
    | cons q qs ih =>
      simp only [List.map_cons, List.sum_cons, List.nodup_cons] at hdist ⊢
      rw [mul_add, ← ih (fun r hr => hI r (List.mem_cons_of_mem _ hr)) hdist.2]
      have hz : (qs.map fun r => if l.index q.deltaOmega = l.index r.deltaOmega then l.amp t r y else 0).sum = 0 := by
        apply List.sum_eq_zero
        intro z hz
        obtain ⟨r, hr, rfl⟩ := List.mem_map.1 hz
        rw [if_neg]
        intro e
        exact hdist.1 (List.mem_map.2 ⟨r, hr, e.symm⟩)
      have e : ∀ a : ZMod nx, ‖(if a = l.index q.deltaOmega then l.amp t q y else 0) +
          (qs.map fun r => if a = l.index r.deltaOmega then l.amp t r y else 0).sum‖ ^ 2 =
          (if a = l.index q.deltaOmega then l.E0 ^ 2 * q.intensity y else 0) +
          ‖(qs.map fun r => if a = l.index r.deltaOmega then l.amp t r y else 0).sum‖ ^ 2 := by
        intro a
        by_cases ha : a = l.index q.deltaOmega
        · rw [if_pos ha, if_pos ha, ha, hz, add_zero, norm_zero, norm_amp l t q y (hI q List.mem_cons_self)]; ring
        · rw [if_neg ha, if_neg ha, zero_add, zero_add]
      simp only [e, sum_add_distrib]
      rw [sum_ite_eq' univ _ _, if_pos (mem_univ _)]
  have hupd : ∀ x, ‖l.update t qs x y‖ ^ 2 = ‖(nx : ℂ) * ifft (fun a => ifftshift (l.spectrum t qs) a y) x‖ ^ 2 * (1 / Real.sqrt (1 - n)) := by
    intro x
    unfold Light.update
    rw [hs]
    simp only [mul_one]
    rw [swelling l hw x y (by rw [hd]; exact hn0), hd, norm_mul, mul_pow, norm_real, Real.norm_eq_abs, sq_abs]
    congr 1
    rw [← Real.rpow_natCast, ← Real.rpow_mul h1n.le, Real.sqrt_eq_rpow, one_div, ← Real.rpow_neg h1n.le]
    norm_num
  have hpar : ∑ x, ‖(nx : ℂ) * ifft (fun a => ifftshift (l.spectrum t qs) a y) x‖ ^ 2 = nx * ∑ a, ‖l.spectrum t qs a y‖ ^ 2 := by
    have h := norm_fft (ifft fun a => ifftshift (l.spectrum t qs) a y)
    rw [fft_ifft] at h
    have e : ∀ x, ‖(nx : ℂ) * ifft (fun a => ifftshift (l.spectrum t qs) a y) x‖ ^ 2 = (nx : ℝ) * (nx * ‖ifft (fun a => ifftshift (l.spectrum t qs) a y) x‖ ^ 2) := by
      intro x; rw [norm_mul, mul_pow, Complex.norm_natCast]; ring
    simp only [e, ← mul_sum]
    rw [← h]
    congr 1
    unfold ifftshift
    exact Equiv.sum_comp (Equiv.addRight ((nx / 2 : ℕ) : ZMod nx)) fun a => ‖l.spectrum t qs a y‖ ^ 2
  have hmain : (∑ x, ‖l.update t qs x y‖ ^ 2) / nx = l.E0 ^ 2 * (qs.map fun q => q.intensity y).sum / Real.sqrt (1 - n) := by
    simp only [hupd, ← sum_mul]
    rw [hpar, key]
    field_simp
  refine ⟨hmain, ?_⟩
  rw [hmain]
  have : Real.sqrt (1 - n) ≠ 0 := (Real.sqrt_pos.2 h1n).ne'
  field_simp

/-- Colours sharing a grid mode do interfere: two equal colours of half the intensity deliver twice the configured intensity. -/
theorem interference_partial : ∃ (l : Light 4 1) (q : Colour 1), q.intensity 0 = 1 / 2 ∧ (∀ x, l.density x 0 = 0) ∧ l.speckle = none ∧ l.E0 = 1 ∧
    (∑ x, ‖l.update 0 [q, q] x 0‖ ^ 2) / 4 = 2 := by
  refine ⟨⟨1, 1, 1, 0, 1, fun _ _ => 0, none⟩, ⟨0, fun _ => 1 / 2, fun _ => 0⟩, rfl, fun _ => rfl, rfl, rfl, ?_⟩
  obtain ⟨l, hl⟩ : ∃ l : Light 4 1, l = ⟨1, 1, 1, 0, 1, fun _ _ => 0, none⟩ := ⟨_, rfl⟩
  obtain ⟨q, hq⟩ : ∃ q : Colour 1, q = ⟨0, fun _ => 1 / 2, fun _ => 0⟩ := ⟨_, rfl⟩
  rw [← hl, ← hq]
  have h : ∀ x, ‖l.update 0 [q, q] x 0‖ ^ 2 = 2 := by
    intro x
    rw [pump_waves]
    simp only [List.map_cons, List.map_nil, List.sum_cons, List.sum_nil, add_zero, ← two_mul]
    have ha := norm_amp l 0 q 0 (by rw [hq]; norm_num)
    have hc : ‖(ZMod.stdAddChar ((l.modeOf q.deltaOmega : ZMod 4) * x) : ℂ)‖ = 1 := by
      rw [ZMod.stdAddChar_apply]; exact Circle.norm_coe _
    rw [norm_mul, norm_mul, norm_mul, norm_mul, hc, mul_one, mul_pow, mul_pow, mul_pow, ha]
    rw [hl, hq]
    norm_num
  simp only [h]
  norm_num

/-- C169: the pump follows its temporal envelope: between the two edges it is the laser times a factor in `[0, 1)`. -/
theorem envelope_range (q : Pump ny) (t : ℝ) (hr : 0 < q.tr) : |q.envelope t| < 1 ∧
    (q.tc - q.tw / 2 ≤ t → t ≤ q.tc + q.tw / 2 → 0 ≤ q.envelope t) := Driver.getEnvelope_inside _ _ _ _ _ hr hr

/-- The pump field of every step after the first is the one of its own start: the field is not integrated. -/
theorem pump_history (p : Epw nx ny) (l : Light nx ny) (q : Pump ny) (s s' : State nx ny) (n : ℕ) :
    (run p l (some q) s (n + 1)).E0 = (run p l (some q) s' (n + 1)).E0 ∧
    ∀ x y, (run p l (some q) s (n + 1)).E0 1 x y = (q.envelope (n * p.dt) : ℂ) * l.update (n * p.dt) q.colours x y ∧
      (run p l (some q) s (n + 1)).E0 0 x y = 0 := by
  have hE : ∀ s : State nx ny, (run p l (some q) s (n + 1)).E0 =
      fun i x y => (q.envelope (n * p.dt) : ℂ) * if i = 1 then l.update (n * p.dt) q.colours x y else 0 := fun s => by
    rw [run, split]
  refine ⟨by rw [hE, hE], fun x y => ⟨?_, ?_⟩⟩
  · rw [hE]; simp
  · rw [hE]; simp

end Verif.Lpse
