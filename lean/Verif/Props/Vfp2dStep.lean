import Verif.Props.Vfp2d
import Verif.Lemmas.Vfp2dStep

/-! C83: fields of VFP-2D; accuracy of the derivatives (C80, C83). -/
namespace Verif.Vfp2d
open Finset Complex Verif.Spectral

local notation "conj" => starRingEnd ℂ

section
variable {N : ℕ} [NeZero N]

/-- `p` waves in the box. -/
noncomputable def wave (p : ℤ) (j : ZMod N) : ℂ := cexp (2 * Real.pi * I * p * j.val / N)

theorem wave_eq (p : ℤ) (j : ZMod N) : wave p j = ZMod.stdAddChar ((p : ZMod N) * j) := by
  have : (p : ZMod N) * j = ((p * (j.val : ℤ) : ℤ) : ZMod N) := by
    push_cast; rw [ZMod.natCast_zmod_val]
  rw [this, ZMod.stdAddChar_coe]
  unfold wave
  congr 1
  push_cast
  ring

theorem wave_add (p : ℤ) (j : ZMod N) (c : ℤ) : wave p (j + (c : ZMod N)) = wave p j * cexp (2 * Real.pi * p / N * c * I) := by
  rw [wave_eq, wave_eq, mul_add, AddChar.map_add_eq_mul]
  congr 1
  have : (p : ZMod N) * (c : ZMod N) = ((p * c : ℤ) : ZMod N) := by push_cast; ring
  rw [this, ZMod.stdAddChar_coe]
  congr 1
  push_cast
  ring

theorem fft_wave (p : ℤ) (k : ZMod N) : fft (wave (N := N) p) k = if k = (p : ZMod N) then (N : ℂ) else 0 := by
  have hN : (N : ℂ) ≠ 0 := by exact_mod_cast NeZero.ne N
  have h : wave (N := N) p = fun j => (N : ℂ) * ifft (fun k => if k = (p : ZMod N) then (1 : ℂ) else 0) j := by
    funext j
    have h1 : ifft (fun k => if k = (p : ZMod N) then (1 : ℂ) else 0) j
        = (N : ℂ)⁻¹ • ∑ i : ZMod N, ZMod.stdAddChar (i * j) • (if i = (p : ZMod N) then (1 : ℂ) else 0) := ZMod.invDFT_apply _ _
    rw [h1, wave_eq]
    simp [hN]
  rw [h, fft_smul, fft_ifft]
  split <;> simp

/-- C80, C83: what each derivative does to a wave: the Fourier derivative is exact on every
resolved wave, the differences replace the wave number `θ / h` (`θ` the phase per cell) by
`sin θ / h` and `(8 sin θ - sin 2θ) / (6 h)`. -/
theorem deriv_wave (d h : ℝ) (p : ℤ) (i : ZMod N) :
    (Resolved N p → (Deriv.spectral d).apply (wave p) i = I * (waveNumber N d p : ℂ) * wave p i) ∧
    (Deriv.second h).apply (wave p) i = I * ((Real.sin (2 * Real.pi * p / N) / h : ℝ) : ℂ) * wave p i ∧
    (Deriv.fourth h).apply (wave p) i
      = I * (((8 * Real.sin (2 * Real.pi * p / N) - Real.sin (2 * (2 * Real.pi * p / N))) / (6 * h) : ℝ) : ℂ) * wave p i := by
  have e : ∀ (θ : ℝ) (c : ℝ), cexp (((θ * c : ℝ) : ℂ) * I) = (Real.cos (θ * c) : ℂ) + (Real.sin (θ * c) : ℂ) * I := by
    intro θ c
    rw [Complex.exp_mul_I, ← Complex.ofReal_cos, ← Complex.ofReal_sin]
  have w : ∀ c : ℤ, wave p (i + (c : ZMod N)) = wave p i * ((Real.cos (2 * Real.pi * p / N * c) : ℂ) + (Real.sin (2 * Real.pi * p / N * c) : ℂ) * I) := by
    intro c
    rw [wave_add, ← e]
    push_cast
    rfl
  have w1 := w 1
  have wm1 := w (-1)
  have w2 := w 2
  have wm2 := w (-2)
  have n1 : 2 * Real.pi * p / N * ((-1 : ℤ) : ℝ) = -(2 * Real.pi * p / N) := by push_cast; ring
  have n2 : 2 * Real.pi * p / N * ((-2 : ℤ) : ℝ) = -(2 * (2 * Real.pi * p / N)) := by push_cast; ring
  have q1 : 2 * Real.pi * p / N * ((1 : ℤ) : ℝ) = 2 * Real.pi * p / N := by push_cast; ring
  have q2 : 2 * Real.pi * p / N * ((2 : ℤ) : ℝ) = 2 * (2 * Real.pi * p / N) := by push_cast; ring
  rw [n1, Real.cos_neg, Real.sin_neg] at wm1
  rw [n2, Real.cos_neg, Real.sin_neg] at wm2
  rw [q1] at w1
  rw [q2] at w2
  rw [show i + ((1 : ℤ) : ZMod N) = i + 1 by push_cast; ring] at w1
  rw [show i + ((-1 : ℤ) : ZMod N) = i - 1 by push_cast; ring] at wm1
  rw [show i + ((2 : ℤ) : ZMod N) = i + 2 by push_cast; ring] at w2
  rw [show i + ((-2 : ℤ) : ZMod N) = i - 2 by push_cast; ring] at wm2
  refine ⟨fun hp => ?_, ?_, ?_⟩
  · have : (Deriv.spectral d).apply (wave (N := N) p) = fun i => I * (waveNumber N d p : ℂ) * wave p i := by
      rw [← ifft_fft ((Deriv.spectral d).apply (wave (N := N) p)), ← ifft_fft (fun i : ZMod N => I * (waveNumber N d p : ℂ) * wave p i)]
      congr 1
      funext k
      rw [fft_specDeriv, fft_smul, fft_wave]
      split
      · next hk => rw [hk, kfull_eq d hp]
      · simp
    rw [this]
  · simp only [Deriv.apply, w1, wm1]
    push_cast
    by_cases hh : (h : ℂ) = 0
    · rw [hh]; simp
    · field_simp; ring
  · simp only [Deriv.apply, w1, wm1, w2, wm2]
    push_cast
    by_cases hh : (h : ℂ) = 0
    · rw [hh]; simp
    · field_simp; ring

example : Resolved 8 3 := by unfold Resolved; norm_num

/-! ### Derivatives of real arrays -/

/-- The real part of the derivative of a complex array: that of the real part, and what the
imaginary part leaks. -/
theorem re_deriv (D : Deriv) (a : ZMod N → ℂ) (i : ZMod N) :
    (D.apply a i).re = D.applyR (fun j => (a j).re) i - (D.apply (fun j => ((a j).im : ℂ)) i).im := by
  have h : D.apply a i = D.apply (fun j => ((a j).re : ℂ)) i + I * D.apply (fun j => ((a j).im : ℂ)) i := by
    rw [← deriv_smul, ← deriv_add]
    congr 1
    funext j
    rw [mul_comm, Complex.re_add_im]
  rw [h]
  simp [Deriv.applyR]
  ring

/-- The derivative of a real array is real, always for the differences, and for the Fourier
derivative exactly when the number of cells is odd. -/
theorem deriv_real_iff (D : Deriv) (hD : ∀ d, D = .spectral d → d ≠ 0) :
    (∀ (a : ZMod N → ℝ) i, (D.apply (fun j => (a j : ℂ)) i).im = 0) ↔ ((∃ d, D = .spectral d) → N % 2 = 1) := by
  cases D with
  | second h =>
    refine ⟨fun _ h => by simp at h, fun _ a i => ?_⟩
    simp only [Deriv.apply]
    have : ((a (i + 1) : ℂ) - a (i - 1)) / (2 * (h : ℂ)) = (((a (i + 1) - a (i - 1)) / (2 * h) : ℝ) : ℂ) := by push_cast; rfl
    rw [this, Complex.ofReal_im]
  | fourth h =>
    refine ⟨fun _ h => by simp at h, fun _ a i => ?_⟩
    simp only [Deriv.apply]
    have : ((a (i - 2) : ℂ) - 8 * a (i - 1) + 8 * a (i + 1) - a (i + 2)) / (12 * (h : ℂ))
        = (((a (i - 2) - 8 * a (i - 1) + 8 * a (i + 1) - a (i + 2)) / (12 * h) : ℝ) : ℂ) := by push_cast; rfl
    rw [this, Complex.ofReal_im]
  | spectral d =>
    have hd := hD d rfl
    constructor
    · intro h _
      by_contra hodd
      -- the alternating array
      have hN2 : N % 2 = 0 := by omega
      obtain ⟨M, hM⟩ : ∃ M, N = 2 * M := ⟨N / 2, by omega⟩
      have hMpos : 0 < M := by have := NeZero.pos N; omega
      have hreal : ∀ j : ZMod N, wave (N := N) M j = (((-1) ^ j.val : ℝ) : ℂ) := by
        intro j
        unfold wave
        have : 2 * Real.pi * I * ((M : ℤ) : ℂ) * j.val / N = (j.val : ℂ) * (Real.pi * I) := by
          have hNM : (N : ℂ) = 2 * (M : ℂ) := by exact_mod_cast congrArg (Nat.cast : ℕ → ℂ) hM
          have : (M : ℂ) ≠ 0 := by exact_mod_cast hMpos.ne'
          simp only [hNM]
          push_cast
          field_simp
        rw [this, Complex.exp_nat_mul, Complex.exp_pi_mul_I]
        push_cast; rfl
      have hf : ∀ i : ZMod N, (Deriv.spectral d).apply (wave (N := N) M) i = I * (kfull d ((M : ℤ) : ZMod N) : ℂ) * wave (N := N) M i := by
        have : (Deriv.spectral d).apply (wave (N := N) M) = fun i => I * (kfull d ((M : ℤ) : ZMod N) : ℂ) * wave (N := N) M i := by
          rw [← ifft_fft ((Deriv.spectral d).apply (wave (N := N) M)), ← ifft_fft (fun i : ZMod N => I * (kfull d ((M : ℤ) : ZMod N) : ℂ) * wave (N := N) M i)]
          congr 1
          funext k
          rw [fft_specDeriv, fft_smul, fft_wave]
          split
          · next hk => rw [hk]
          · simp
        exact congrFun this
      have h0 := h (fun j => (-1) ^ j.val) 0
      have e : (fun j : ZMod N => (((-1) ^ j.val : ℝ) : ℂ)) = wave (N := N) M := funext fun j => (hreal j).symm
      rw [e, hf, hreal] at h0
      have hv : (((M : ℤ) : ZMod N)).val ≠ 0 := by
        rw [Int.cast_natCast, ZMod.val_natCast, Nat.mod_eq_of_lt (by omega)]; omega
      have := kfull_ne_zero hd hv
      simp at h0
      exact this (by simpa using h0)
    · intro hodd a i
      have hodd := hodd ⟨d, rfl⟩
      have key : ifft (fun k => I * (kfull d k : ℂ) * fft (fun j => (a j : ℂ)) k) i
          = ((ifft (fun k => I * (kfull d k : ℂ) * fft (fun j => (a j : ℂ)) k) i).re : ℂ) := by
        rw [re_ifft]
        congr 1
        funext k
        unfold Spectral.symm
        rw [map_mul, map_mul, ← fft_real, neg_neg, conj_I, conj_ofReal]
        by_cases hz : k.val = 0
        · have : k = 0 := (ZMod.val_eq_zero k).1 hz
          simp only [this, neg_zero, kfull_zero]; simp
        · rw [kfull_odd d k hz (by omega)]; push_cast; ring
      change (ifft _ i).im = 0
      rw [key, Complex.ofReal_im]
end

/-- C82: with both radial operators replaced by one array the electric coupling is multiplication
by the component of `e` along the direction of motion, the same as in streaming, for every
harmonic: the two operators cannot disagree on the direction of a gradient and of a field. -/
theorem electric_direction (L : Layout) (e : Vec) (a : ℕ → ℂ) (l m : ℕ) :
    streamTerm L 1 (fun k => e.x * a k) (fun k => ((e.y : ℂ) - I * e.z) * a k) (fun k => ((e.y : ℂ) + I * e.z) * a k) l m
      = -electricTerm L e a a l m := by
  have g : ∀ (c : ℂ) (l m : ℤ), L.get (fun k => c * a k) l m = c * L.get a l m := by
    intro c l m
    unfold Layout.get
    split <;> simp
  unfold streamTerm electricTerm
  simp only [g]
  by_cases hm : 0 < m
  · simp only [if_pos hm]
    push_cast
    ring
  · simp only [if_neg hm]
    have : ∀ z w : ℂ, z = w → ((z.re : ℝ) : ℂ) = ((w.re : ℝ) : ℂ) := fun z w h => by rw [h]
    have h := this (-((l : ℂ) * (l - 1) / (2 * l - 1) * (((e.y : ℂ) + I * e.z) * L.get a (l - 1) 1))
        + ((l : ℂ) + 1) * (l + 2) / (2 * l + 3) * (((e.y : ℂ) + I * e.z) * L.get a (l + 1) 1))
      (((e.y : ℂ) + I * e.z) * (-((l : ℂ) * (l - 1) / (2 * l - 1) * L.get a (l - 1) 1)
        + ((l : ℂ) + 1) * (l + 2) / (2 * l + 3) * L.get a (l + 1) 1)) (by ring)
    rw [h]
    push_cast
    ring

/-! ### Maxwell's equations (C83) -/
section
variable {nx ny : ℕ} [NeZero nx] [NeZero ny]

/-- Divergence in the plane. -/
noncomputable def divergence (dX dY : Deriv) (a : Field nx ny) : Scal nx ny := fun x y =>
  ddx dX (fun x y => (a x y).x) x y + ddy dY (fun x y => (a x y).y) x y

theorem div_curl (dX dY : Deriv) (a : Field nx ny) (x : ZMod nx) (y : ZMod ny) : divergence dX dY (curl dX dY a) x y = 0 := by
  unfold divergence curl
  have h := congrFun (congrFun (ddx_ddy dX dY fun x y => (a x y).z) x) y
  have h2 := ddy_neg dY (ddx dX fun x y => (a x y).z) x y
  simp only at h2 ⊢
  rw [h2]
  change ddx dX (ddy dY fun x y => (a x y).z) x y + _ = 0
  rw [h]
  exact add_neg_cancel _

theorem div_add (dX dY : Deriv) (a b : Field nx ny) (x : ZMod nx) (y : ZMod ny) :
    divergence dX dY (fun x y => (a x y).add (b x y)) x y = divergence dX dY a x y + divergence dX dY b x y := by
  unfold divergence Vec.add
  simp only [ddx_add, ddy_add]
  ring

theorem div_smul (dX dY : Deriv) (c : ℝ) (a : Field nx ny) (x : ZMod nx) (y : ZMod ny) :
    divergence dX dY (fun x y => (a x y).smul c) x y = c * divergence dX dY a x y := by
  unfold divergence Vec.smul
  simp only [ddx_smul, ddy_smul]
  ring

/-- C83: the divergence of the magnetic field never changes. -/
theorem magnetic_divergence (dX dY : Deriv) (e : Field nx ny) (x : ZMod nx) (y : ZMod ny) : divergence dX dY (dbdt dX dY e) x y = 0 := by
  unfold dbdt
  rw [div_smul, div_curl, mul_zero]

/-- C83: the divergence of the electric field changes by minus that of the current. -/
theorem electric_divergence (dX dY : Deriv) (c2 : ℝ) (b j : Field nx ny) (x : ZMod nx) (y : ZMod ny) :
    divergence dX dY (dedt dX dY c2 b j) x y = -divergence dX dY j x y := by
  unfold dedt
  rw [div_add, div_smul, div_smul, div_curl]
  ring

/-- C83: Poynting's theorem over the box: the field energy changes by minus the work on the current. -/
theorem field_energy (dX dY : Deriv) (c2 : ℝ) (e b j : Field nx ny) :
    ∑ x, ∑ y, ((e x y).dot (dedt dX dY c2 b j x y) + c2 * (b x y).dot (dbdt dX dY e x y)) = -∑ x, ∑ y, (e x y).dot (j x y) := by
  obtain ⟨ex, hex⟩ : ∃ g : Scal nx ny, g = fun x y => (e x y).x := ⟨_, rfl⟩
  obtain ⟨ey, hey⟩ : ∃ g : Scal nx ny, g = fun x y => (e x y).y := ⟨_, rfl⟩
  obtain ⟨ez, hez⟩ : ∃ g : Scal nx ny, g = fun x y => (e x y).z := ⟨_, rfl⟩
  obtain ⟨bx, hbx⟩ : ∃ g : Scal nx ny, g = fun x y => (b x y).x := ⟨_, rfl⟩
  obtain ⟨by', hby⟩ : ∃ g : Scal nx ny, g = fun x y => (b x y).y := ⟨_, rfl⟩
  obtain ⟨bz, hbz⟩ : ∃ g : Scal nx ny, g = fun x y => (b x y).z := ⟨_, rfl⟩
  have key : ∀ x y, (e x y).dot (dedt dX dY c2 b j x y) + c2 * (b x y).dot (dbdt dX dY e x y)
      = c2 * ((ex x y * ddy dY bz x y + ddy dY ex x y * bz x y) - (ey x y * ddx dX bz x y + ddx dX ey x y * bz x y)
        + (ez x y * ddx dX by' x y + ddx dX ez x y * by' x y) - (ez x y * ddy dY bx x y + ddy dY ez x y * bx x y))
        - (e x y).dot (j x y) := by
    intro x y
    simp only [Vec.dot, dedt, dbdt, curl, Vec.add, Vec.smul, hex, hey, hez, hbx, hby, hbz]
    ring
  simp only [key, sum_sub_distrib, sum_add_distrib, ← mul_sum]
  rw [ddy_skew dY ex bz, ddx_skew dX ey bz, ddx_skew dX ez by', ddy_skew dY ez bx]
  ring

/-- C83: light: a wave with `E` along `z` travels along `x` at speed `c`, one with `E` along `x`
travels along `y`: the fields change by minus `c` times their gradient. -/
theorem light_x (dX dY : Deriv) (c : ℝ) (hc : c ≠ 0) (g : ZMod nx → ℝ) (x : ZMod nx) (y : ZMod ny) :
    let e : Field nx ny := fun x _ => ⟨0, 0, g x⟩
    let b : Field nx ny := fun x _ => ⟨0, -g x / c, 0⟩
    dedt dX dY (c ^ 2) b (fun _ _ => ⟨0, 0, 0⟩) x y = ⟨0, 0, -c * dX.applyR g x⟩ ∧
      dbdt dX dY e x y = ⟨0, -c * dX.applyR (fun x => -g x / c) x, 0⟩ := by
  have h : dX.applyR (fun x => -g x / c) x = -(1 / c) * dX.applyR g x := by
    rw [← applyR_smul]; congr 1; funext t; ring
  have z1 : ∀ (D : Deriv) (c : ℝ) (i : ZMod nx), D.applyR (fun _ => c) i = 0 := fun D c i => applyR_const D c i
  have z2 : ∀ (D : Deriv) (c : ℝ) (i : ZMod ny), D.applyR (fun _ => c) i = 0 := fun D c i => applyR_const D c i
  constructor <;> ext <;> simp only [dedt, dbdt, curl, ddx, ddy, Vec.add, Vec.smul, z1, z2, h] <;> field_simp <;> ring

theorem light_y (dX dY : Deriv) (c : ℝ) (hc : c ≠ 0) (g : ZMod ny → ℝ) (x : ZMod nx) (y : ZMod ny) :
    let e : Field nx ny := fun _ y => ⟨g y, 0, 0⟩
    let b : Field nx ny := fun _ y => ⟨0, 0, -g y / c⟩
    dedt dX dY (c ^ 2) b (fun _ _ => ⟨0, 0, 0⟩) x y = ⟨-c * dY.applyR g y, 0, 0⟩ ∧
      dbdt dX dY e x y = ⟨0, 0, -c * dY.applyR (fun y => -g y / c) y⟩ := by
  have h : dY.applyR (fun x => -g x / c) y = -(1 / c) * dY.applyR g y := by
    rw [← applyR_smul]; congr 1; funext t; ring
  have z1 : ∀ (D : Deriv) (c : ℝ) (i : ZMod nx), D.applyR (fun _ => c) i = 0 := fun D c i => applyR_const D c i
  have z2 : ∀ (D : Deriv) (c : ℝ) (i : ZMod ny), D.applyR (fun _ => c) i = 0 := fun D c i => applyR_const D c i
  constructor <;> ext <;> simp only [dedt, dbdt, curl, ddx, ddy, Vec.add, Vec.smul, z1, z2, h] <;> field_simp <;> ring

/-! ### Charge -/

theorem density_add (o : Op) (f g : Local) : o.density (fun i j => f i j + g i j) = o.density f + o.density g := by
  unfold Op.density
  simp only [Complex.add_re, add_mul, sum_add_distrib]
  ring

theorem density_smul (o : Op) (c : ℝ) (f : Local) : o.density (fun i j => (c : ℂ) * f i j) = c * o.density f := by
  unfold Op.density
  simp only [Complex.re_ofReal_mul]
  simp only [mul_assoc, ← mul_sum]
  ring

theorem vector_x (o : Op) (hl : 1 ≤ o.layout.lMax) (W : ℕ → ℝ) (f : Local) :
    (o.vector W f).x = 4 * Real.pi / 3 * ((∑ j ∈ range o.nv, (o.layout.get (fun k => f k j) 1 0).re * W j) * o.dv) := by
  have := congrArg Vec.x (vector_flux o hl W f)
  rw [this]
  simp [flux]

theorem vector_y (o : Op) (hl : 1 ≤ o.layout.lMax) (W : ℕ → ℝ) (f : Local) :
    (o.vector W f).y = 4 * Real.pi / 3 * ((∑ j ∈ range o.nv, 2 * (o.layout.get (fun k => f k j) 1 1).re * W j) * o.dv) := by
  have := congrArg Vec.y (vector_flux o hl W f)
  rw [this]
  simp [flux]

theorem applyR_lin {N : ℕ} [NeZero N] (D : Deriv) (n : ℕ) (c : ℕ → ℝ) (g : ℕ → ZMod N → ℝ) (i : ZMod N) :
    D.applyR (fun t => ∑ j ∈ range n, c j * g j t) i = ∑ j ∈ range n, c j * D.applyR (g j) i := by
  simp only [applyR_mat, mul_sum]
  rw [sum_comm]
  exact sum_congr rfl fun j _ => sum_congr rfl fun t _ => by ring

theorem streaming_iso (o : Op) (f : Flm nx ny) (x : ZMod nx) (y : ZMod ny) (j : ℕ) :
    (o.streaming f noZ x y (o.layout.index 0 0).toNat j).re
      = -(o.speed j / 3) * ((o.dX.apply (fun x' => o.layout.get (fun k => f x' y k j) 1 0) x).re
        + 2 * (o.dY.apply (fun y' => o.layout.get (fun k => f x y' k j) 1 1) y).re) := by
  have := streaming_get o f noZ x y j 0 0
  rw [if_pos (by omega)] at this
  have hz : o.layout.get (fun k => (noZ : Flm nx ny) x y k j) 1 1 = 0 := by unfold Layout.get noZ; simp
  rw [← get_zero_zero o.layout (fun k => o.streaming f noZ x y k j)]
  rw [show o.layout.get (fun k => o.streaming f noZ x y k j) 0 0 = _ from this, streaming_continuity]
  simp only [flux, hz, get_dX, get_dY]
  simp

/-- The leak of the `z` flux into the density: the imaginary part a Fourier derivative along `y`
gives a real array at the Nyquist wave. -/
noncomputable def leak (o : Op) (f : Flm nx ny) (x : ZMod nx) (y : ZMod ny) : ℝ :=
  8 * Real.pi / 3 * ((∑ j ∈ range o.nv, o.v j ^ 2 * o.speed j *
    (o.dY.apply (fun y' => ((o.layout.get (fun k => f x y' k j) 1 1).im : ℂ)) y).im) * o.dv)

/-- C83: continuity: streaming changes the electron density by the divergence of the current of
the electrons (charge -1), at every position; exactly, up to the Nyquist leak. -/
theorem charge_continuity (o : Op) (hl : 1 ≤ o.layout.lMax) (f : Flm nx ny) (hr : ∀ x y j, RealZero o.layout fun k => f x y k j)
    (x : ZMod nx) (y : ZMod ny) :
    o.density (o.streaming f noZ x y) = divergence o.dX o.dY (fun x y => o.current (-1) o.speed (f x y)) x y + leak o f x y := by
  have h1 : ∀ j, (o.streaming f noZ x y (o.layout.index 0 0).toNat j).re
      = -(o.speed j / 3) * (o.dX.applyR (fun x' => (o.layout.get (fun k => f x' y k j) 1 0).re) x
        + 2 * (o.dY.applyR (fun y' => (o.layout.get (fun k => f x y' k j) 1 1).re) y
          - (o.dY.apply (fun y' => ((o.layout.get (fun k => f x y' k j) 1 1).im : ℂ)) y).im)) := by
    intro j
    rw [streaming_iso, re_deriv, re_deriv]
    have hz : (fun x' => ((o.layout.get (fun k => f x' y k j) 1 0).im : ℂ)) = fun _ : ZMod nx => (0 : ℂ) := by
      funext x'
      rw [show (o.layout.get (fun k => f x' y k j) 1 0).im = 0 from hr x' y j 1]; rfl
    rw [hz, deriv_zero]
    simp
  have hx : ddx o.dX (fun x y => (o.current (-1) o.speed (f x y)).x) x y
      = ∑ j ∈ range o.nv, -(4 * Real.pi / 3 * o.dv * (o.v j ^ 2 * o.speed j)) * o.dX.applyR (fun x' => (o.layout.get (fun k => f x' y k j) 1 0).re) x := by
    unfold ddx
    rw [← applyR_lin o.dX o.nv (fun j => -(4 * Real.pi / 3 * o.dv * (o.v j ^ 2 * o.speed j))) (fun j x' => (o.layout.get (fun k => f x' y k j) 1 0).re)]
    congr 1
    funext x'
    unfold Op.current
    simp only [vector_x o hl]
    rw [sum_mul, mul_sum, mul_sum]
    exact sum_congr rfl fun j _ => by ring
  have hy : ddy o.dY (fun x y => (o.current (-1) o.speed (f x y)).y) x y
      = ∑ j ∈ range o.nv, -(4 * Real.pi / 3 * o.dv * (2 * (o.v j ^ 2 * o.speed j))) * o.dY.applyR (fun y' => (o.layout.get (fun k => f x y' k j) 1 1).re) y := by
    unfold ddy
    rw [← applyR_lin o.dY o.nv (fun j => -(4 * Real.pi / 3 * o.dv * (2 * (o.v j ^ 2 * o.speed j)))) (fun j y' => (o.layout.get (fun k => f x y' k j) 1 1).re)]
    congr 1
    funext y'
    unfold Op.current
    simp only [vector_y o hl]
    rw [sum_mul, mul_sum, mul_sum]
    exact sum_congr rfl fun j _ => by ring
  unfold divergence
  rw [hx, hy]
  unfold Op.density leak
  simp only [h1]
  rw [← sum_add_distrib, mul_assoc, sum_mul, mul_sum, sum_mul, mul_sum, ← sum_add_distrib]
  exact sum_congr rfl fun j _ => by ring

/-- The leak is absent for difference derivatives and for an odd number of cells. -/
theorem leak_zero (o : Op) (hD : ∀ d, o.dY = .spectral d → d ≠ 0) (hodd : (∃ d, o.dY = .spectral d) → ny % 2 = 1) (f : Flm nx ny)
    (x : ZMod nx) (y : ZMod ny) : leak o f x y = 0 := by
  have h := (deriv_real_iff (N := ny) o.dY hD).2 hodd
  unfold leak
  simp only [h]
  simp

theorem rate_density (o : Op) (f : Flm nx ny) (e b : Field nx ny) (dz : Flm nx ny) (x : ZMod nx) (y : ZMod ny) :
    o.density (o.rate f e b dz x y) = o.density (o.streaming f dz x y) + o.density (o.electric (f x y) (e x y)) := by
  have hm := fun j => (magnetic_isotropic o (f x y) (b x y) j).1
  have h00 : (o.layout.pairs.getD (o.layout.index 0 0).toNat (0, 0)).2 = 0 := by
    have := index_valid o.layout (l := 0) (m := 0) (by omega)
    rw [show o.layout.index 0 0 = _ from this.1, Int.toNat_natCast, this.2.2]
  have h : ∀ j, (o.rate f e b dz x y (o.layout.index 0 0).toNat j).re
      = (o.streaming f dz x y (o.layout.index 0 0).toNat j).re + (o.electric (f x y) (e x y) (o.layout.index 0 0).toNat j).re := by
    intro j
    unfold Op.rate
    simp only [h00, if_true, Complex.ofReal_re, Complex.add_re, hm, Complex.zero_re, add_zero]
  unfold Op.density
  simp only [h, add_mul, sum_add_distrib]
  ring

/-- C83: Gauss's law is kept by the coupled rates: the divergence of `E` plus the electron density
changes only by what the field accelerates through the top of the speed grid and by the leak. -/
theorem gauss_kept (o : Op) (hl : 1 ≤ o.layout.lMax) (c2 : ℝ) (d : Drivers nx ny) (hd : d.current = none) (t : ℝ) (s : State nx ny)
    (hr : ∀ x y j, RealZero o.layout fun k => s.f x y k j) (x : ZMod nx) (y : ZMod ny) :
    divergence o.dX o.dY (maxwellRates o c2 (-1) d t s).e x y + o.density ((maxwellRates o c2 (-1) d t s).f x y)
      = o.density (o.electric (s.f x y) ((s.e x y).add (driverAt d.externalE t x y))) + leak o s.f x y := by
  have h1 : (maxwellRates o c2 (-1) d t s).e = dedt o.dX o.dY c2 s.b fun x y => o.current (-1) o.speed (s.f x y) := by
    unfold maxwellRates
    rw [hd]
    simp [driverAt, Vec.add]
  rw [h1, electric_divergence]
  have h2 : o.density ((maxwellRates o c2 (-1) d t s).f x y) = o.density (o.streaming s.f noZ x y)
      + o.density (o.electric (s.f x y) ((s.e x y).add (driverAt d.externalE t x y))) := by
    have h3 : (maxwellRates o c2 (-1) d t s).f = o.rate s.f (fun x y => (s.e x y).add (driverAt d.externalE t x y))
        (fun x y => (s.b x y).add (driverAt d.externalB t x y)) noZ := rfl
    rw [h3, rate_density]
  rw [h2, charge_continuity o hl s.f hr]
  ring

/-- C83: external fields push the electrons but are not part of the solved fields; a driver current
enters with the sign of a current. -/
theorem drivers_enter (o : Op) (c2 charge : ℝ) (d : Drivers nx ny) (t : ℝ) (s : State nx ny) :
    (maxwellRates o c2 charge d t s).b = (maxwellRates o c2 charge ⟨none, none, none⟩ t s).b
    ∧ (∀ x y, (maxwellRates o c2 charge d t s).e x y
        = ((maxwellRates o c2 charge ⟨none, none, none⟩ t s).e x y).add ((driverAt d.current t x y).smul (-1)))
    ∧ (maxwellRates o c2 charge d t s).f
        = (maxwellRates o c2 charge ⟨none, none, none⟩ t
            { s with e := (fun x y => (s.e x y).add (driverAt d.externalE t x y)), b := (fun x y => (s.b x y).add (driverAt d.externalB t x y)) }).f := by
  refine ⟨rfl, fun x y => ?_, ?_⟩
  · ext <;> simp only [maxwellRates, dedt, driverAt, Vec.add, Vec.smul] <;> ring
  · unfold maxwellRates
    simp [driverAt, Vec.add]

/-! ### The rates at rest -/

theorem get_zero (L : Layout) (l m : ℤ) : L.get (fun _ => 0) l m = 0 := by unfold Layout.get; simp

theorem streamTerm_zero (L : Layout) (v : ℝ) (l m : ℕ) : streamTerm L v (fun _ => 0) (fun _ => 0) (fun _ => 0) l m = 0 := by
  unfold streamTerm
  simp only [get_zero]
  simp

theorem electricTerm_zero (L : Layout) (e : Vec) (l m : ℕ) : electricTerm L e (fun _ => 0) (fun _ => 0) l m = 0 := by
  unfold electricTerm
  simp only [get_zero]
  simp

theorem electricTerm_no_field (L : Layout) (g h : ℕ → ℂ) (l m : ℕ) : electricTerm L ⟨0, 0, 0⟩ g h l m = 0 := by
  unfold electricTerm
  simp

theorem magneticTerm_zero (L : Layout) (b : Vec) (l m : ℕ) : magneticTerm L b (fun _ => 0) l m = 0 := by
  unfold magneticTerm
  simp only [get_zero]
  simp

theorem ddvRow_zero (nv : ℕ) (dv : ℝ) (l j : ℕ) : ddvRow nv dv l (fun _ => 0) j = 0 := by unfold ddvRow; simp

/-- No electrons, no rate. -/
theorem rate_vacuum (o : Op) (e b : Field nx ny) : o.rate (fun _ _ _ _ => 0) e b noZ = fun _ _ _ _ => 0 := by
  funext x y i j
  have h1 : o.streaming (fun _ _ _ _ => 0) (noZ : Flm nx ny) x y i j = 0 := by
    unfold Op.streaming noZ
    simp only [deriv_zero, mul_zero, sub_zero, add_zero]
    exact streamTerm_zero _ _ _ _
  have h2 : o.electric (fun _ _ => 0) (e x y) i j = 0 := by
    unfold Op.electric
    have hg : ∀ k, o.g (fun _ _ => 0) k j = 0 := fun k => by unfold Op.g; simp [ddvRow_zero]
    have hh : ∀ k, o.h (fun _ _ => 0) k j = 0 := fun k => by unfold Op.h; simp [ddvRow_zero]
    simp only [hg, hh]
    exact electricTerm_zero _ _ _ _
  have h3 : o.magnetic (fun _ _ => 0) (b x y) i j = 0 := magneticTerm_zero _ _ _ _
  unfold Op.rate
  simp only [h1, h2, h3]
  simp

/-- C80-C82: a uniform isotropic plasma without electric field is at rest, in any magnetic field. -/
theorem rate_equilibrium (o : Op) (f0 : ℕ → ℝ) (b : Field nx ny) (x : ZMod nx) (y : ZMod ny) (i j : ℕ) :
    o.rate (fun _ _ k j => if k = (o.layout.index 0 0).toNat then (f0 j : ℂ) else 0) (fun _ _ => ⟨0, 0, 0⟩) b noZ x y i j = 0 := by
  have h1 : o.streaming (fun _ _ k j => if k = (o.layout.index 0 0).toNat then (f0 j : ℂ) else 0) (noZ : Flm nx ny) x y i j = 0 := by
    unfold Op.streaming noZ
    simp only [deriv_const, mul_zero, sub_zero, add_zero]
    exact streamTerm_zero _ _ _ _
  have h2 : ∀ f : Local, o.electric f ⟨0, 0, 0⟩ i j = 0 := fun f => electricTerm_no_field _ _ _ _ _
  have hz : ∀ (l : ℕ) (m : ℤ), 1 ≤ l → o.layout.get (fun k => if k = (o.layout.index 0 0).toNat then (f0 j : ℂ) else 0) l m = 0 := by
    intro l m hl
    by_cases hv : 0 ≤ (l : ℤ) ∧ (l : ℤ) ≤ o.layout.lMax ∧ 0 ≤ m ∧ m ≤ l ∧ m ≤ o.layout.mMax
    · obtain ⟨n, rfl⟩ : ∃ n : ℕ, m = n := ⟨m.toNat, by omega⟩
      have hi := index_valid o.layout (l := l) (m := n) (by omega)
      have h0 := index_valid o.layout (l := 0) (m := 0) (by omega)
      unfold Layout.get
      rw [hi.1, if_pos (by positivity)]
      refine if_neg ?_
      rw [show o.layout.index 0 0 = _ from h0.1, Int.toNat_natCast, Int.toNat_natCast]
      intro heq
      have := hi.2.2
      rw [heq, h0.2.2] at this
      have := (Prod.mk.inj this).1
      omega
    · exact get_invalid o.layout _ hv
  have h3 : ∀ l m : ℕ, m ≤ l → magneticTerm o.layout (b x y) (fun k => if k = (o.layout.index 0 0).toNat then (f0 j : ℂ) else 0) l m = 0 := by
    intro l m hml
    unfold magneticTerm
    by_cases hm : 0 < m
    · simp only [if_pos hm]
      rw [hz l m (by omega), hz l _ (by omega), hz l _ (by omega)]
      simp
    · simp only [if_neg hm]
      split
      · next hl => rw [hz l 1 hl]; simp
      · rfl
  have h4 : o.magnetic (fun k j => if k = (o.layout.index 0 0).toNat then (f0 j : ℂ) else 0) (b x y) i j = 0 := by
    unfold Op.magnetic
    apply h3
    by_cases hi : i < o.layout.size
    · have hmem : o.layout.pairs.getD i (0, 0) ∈ o.layout.pairs := by rw [List.getD_eq_getElem _ _ hi]; exact List.getElem_mem _
      exact ((mem_pairs o.layout _ _).1 hmem).2.1
    · rw [List.getD_eq_default _ _ (by unfold Layout.size at hi; omega)]
  unfold Op.rate
  simp only [h1, h2, h4]
  simp

/-- The stored `m = 0` harmonics stay real. -/
theorem rate_real (o : Op) (f : Flm nx ny) (e b : Field nx ny) (dz : Flm nx ny) (x : ZMod nx) (y : ZMod ny) (j : ℕ) :
    RealZero o.layout fun k => o.rate f e b dz x y k j := by
  intro l
  by_cases h : l ≤ o.layout.lMax
  · have hi := index_valid o.layout (l := l) (m := 0) (by omega)
    unfold Layout.get
    rw [show o.layout.index l 0 = _ from hi.1, if_pos (by positivity), Int.toNat_natCast]
    unfold Op.rate
    simp only [hi.2.2, if_true, Complex.ofReal_im]
  · rw [get_invalid o.layout _ (by omega)]; rfl

theorem realZero_add (L : Layout) (a b : ℕ → ℂ) (c : ℝ) (ha : RealZero L a) (hb : RealZero L b) : RealZero L fun k => a k + (c : ℂ) * b k := by
  intro l
  have h1 := ha l
  have h2 := hb l
  unfold Layout.get at *
  split
  · next h =>
    rw [if_pos h] at h1 h2
    simp [h1, h2]
  · simp

/-! ### The Maxwell-mode step -/

theorem rates_real (o : Op) (c2 charge : ℝ) (d : Drivers nx ny) (t : ℝ) (s : State nx ny) (x : ZMod nx) (y : ZMod ny) (j : ℕ) :
    RealZero o.layout fun k => (maxwellRates o c2 charge d t s).f x y k j := by
  have h : (maxwellRates o c2 charge d t s).f = o.rate s.f (fun x y => (s.e x y).add (driverAt d.externalE t x y))
        (fun x y => (s.b x y).add (driverAt d.externalB t x y)) noZ := rfl
  rw [h]
  exact rate_real o s.f _ _ noZ x y j

theorem advance_real (o : Op) (s r : State nx ny) (h : ℝ) (hs : ∀ x y j, RealZero o.layout fun k => s.f x y k j)
    (hr : ∀ x y j, RealZero o.layout fun k => r.f x y k j) (x : ZMod nx) (y : ZMod ny) (j : ℕ) :
    RealZero o.layout fun k => (s.advance r h).f x y k j := realZero_add o.layout _ _ h (hs x y j) (hr x y j)

/-- A collision operator that keeps the density at every position and the reality of the `m = 0`
harmonics. -/
def Conserving (o : Op) (c : Option (Collide nx ny)) : Prop :=
  ∀ g, c = some g → ∀ a h f, (∀ x y j, RealZero o.layout fun k => f x y k j) →
    (∀ x y, o.density (g a h f x y) = o.density (f x y)) ∧ ∀ x y j, RealZero o.layout fun k => g a h f x y k j

theorem collide_density (o : Op) (c : Option (Collide nx ny)) (hc : Conserving o c) (a : RunArgs nx ny) (t h : ℝ) (f : Flm nx ny)
    (hr : ∀ x y j, RealZero o.layout fun k => f x y k j) :
    (∀ x y, o.density (collideAt c a t h f x y) = o.density (f x y)) ∧ ∀ x y j, RealZero o.layout fun k => collideAt c a t h f x y k j := by
  unfold collideAt
  cases c with
  | none => exact ⟨fun _ _ => rfl, hr⟩
  | some g => exact hc g rfl _ _ f hr

/-- The middle of a Maxwell-mode step. -/
noncomputable def middle (o : Op) (c2 dt : ℝ) (c : Option (Collide nx ny)) (d : Drivers nx ny) (a : RunArgs nx ny) (t : ℝ) (s : State nx ny) : State nx ny :=
  State.advance { s with f := collideAt c a t (0.5 * dt) s.f } (maxwellRates o c2 (-1) d t { s with f := collideAt c a t (0.5 * dt) s.f }) (0.5 * dt)

/-- C83: over a whole step of the Maxwell mode Gauss's law is kept and the divergence of `B` does not
change, whatever the external fields, with any collisions that keep the density. -/
theorem split_gauss (o : Op) (hl : 1 ≤ o.layout.lMax) (c2 dt : ℝ) (c : Option (Collide nx ny)) (hc : Conserving o c) (d : Drivers nx ny)
    (hd : d.current = none) (a : RunArgs nx ny) (t : ℝ) (s : State nx ny) (hr : ∀ x y j, RealZero o.layout fun k => s.f x y k j)
    (x : ZMod nx) (y : ZMod ny) :
    let s' := splitStep o c2 (-1) dt c d a t s
    let m := middle o c2 dt c d a t s
    divergence o.dX o.dY s'.e x y + o.density (s'.f x y) = divergence o.dX o.dY s.e x y + o.density (s.f x y)
      + dt * (o.density (o.electric (m.f x y) ((m.e x y).add (driverAt d.externalE (t + 0.5 * dt) x y))) + leak o m.f x y)
    ∧ divergence o.dX o.dY s'.b x y = divergence o.dX o.dY s.b x y := by
  intro s' m
  obtain ⟨s1, hs1⟩ : ∃ s1 : State nx ny, s1 = { s with f := collideAt c a t (0.5 * dt) s.f } := ⟨_, rfl⟩
  have h1 := collide_density o c hc a t (0.5 * dt) s.f hr
  have hr1 : ∀ x y j, RealZero o.layout fun k => s1.f x y k j := by rw [hs1]; exact h1.2
  have hm : m = s1.advance (maxwellRates o c2 (-1) d t s1) (0.5 * dt) := by rw [hs1]; rfl
  have hrm : ∀ x y j, RealZero o.layout fun k => m.f x y k j := by
    intro x y j
    rw [hm]
    exact advance_real o s1 _ (0.5 * dt) hr1 (rates_real o c2 (-1) d t s1) x y j
  obtain ⟨s2, hs2⟩ : ∃ s2 : State nx ny, s2 = s1.advance (maxwellRates o c2 (-1) d (t + 0.5 * dt) m) dt := ⟨_, rfl⟩
  have hr2 : ∀ x y j, RealZero o.layout fun k => s2.f x y k j := by
    intro x y j
    rw [hs2]
    exact advance_real o s1 _ dt hr1 (rates_real o c2 (-1) d (t + 0.5 * dt) m) x y j
  have h2 := collide_density o c hc a (t + dt) (0.5 * dt) s2.f hr2
  have hs' : s' = { s2 with f := collideAt c a (t + dt) (0.5 * dt) s2.f } := by rw [hs2, hm, hs1]; rfl
  have g := gauss_kept o hl c2 d hd (t + 0.5 * dt) m hrm x y
  have e1 : divergence o.dX o.dY s'.e x y = divergence o.dX o.dY s.e x y + dt * divergence o.dX o.dY (maxwellRates o c2 (-1) d (t + 0.5 * dt) m).e x y := by
    rw [hs', hs2, hs1]
    change divergence o.dX o.dY (fun x y => (s.e x y).add (((maxwellRates o c2 (-1) d (t + 0.5 * dt) m).e x y).smul dt)) x y = _
    rw [div_add, div_smul]
  have e2 : o.density (s'.f x y) = o.density (s.f x y) + dt * o.density ((maxwellRates o c2 (-1) d (t + 0.5 * dt) m).f x y) := by
    have : o.density (s'.f x y) = o.density (s2.f x y) := by rw [hs']; exact h2.1 x y
    rw [this, hs2]
    change o.density (fun i j => s1.f x y i j + (dt : ℂ) * (maxwellRates o c2 (-1) d (t + 0.5 * dt) m).f x y i j) = _
    rw [density_add, density_smul]
    congr 1
    rw [hs1]
    exact h1.1 x y
  constructor
  · rw [e1, e2]
    linear_combination dt * g
  · rw [hs', hs2, hs1]
    change divergence o.dX o.dY (fun x y => (s.b x y).add (((maxwellRates o c2 (-1) d (t + 0.5 * dt) m).b x y).smul dt)) x y = _
    rw [div_add, div_smul]
    change _ + dt * divergence o.dX o.dY (dbdt o.dX o.dY m.e) x y = _
    rw [magnetic_divergence, mul_zero, add_zero]

/-- C83: the number of electrons in the box changes only through the top of the speed grid. -/
theorem split_number (o : Op) (c2 dt : ℝ) (c : Option (Collide nx ny)) (hc : Conserving o c) (d : Drivers nx ny)
    (a : RunArgs nx ny) (t : ℝ) (s : State nx ny) (hr : ∀ x y j, RealZero o.layout fun k => s.f x y k j) :
    let m := middle o c2 dt c d a t s
    ∑ x, ∑ y, o.density ((splitStep o c2 (-1) dt c d a t s).f x y) = ∑ x, ∑ y, o.density (s.f x y)
      + dt * ∑ x, ∑ y, o.density (o.electric (m.f x y) ((m.e x y).add (driverAt d.externalE (t + 0.5 * dt) x y))) := by
  intro m
  obtain ⟨s1, hs1⟩ : ∃ s1 : State nx ny, s1 = { s with f := collideAt c a t (0.5 * dt) s.f } := ⟨_, rfl⟩
  have h1 := collide_density o c hc a t (0.5 * dt) s.f hr
  have hr1 : ∀ x y j, RealZero o.layout fun k => s1.f x y k j := by rw [hs1]; exact h1.2
  have hm : m = s1.advance (maxwellRates o c2 (-1) d t s1) (0.5 * dt) := by rw [hs1]; rfl
  obtain ⟨s2, hs2⟩ : ∃ s2 : State nx ny, s2 = s1.advance (maxwellRates o c2 (-1) d (t + 0.5 * dt) m) dt := ⟨_, rfl⟩
  have hr2 : ∀ x y j, RealZero o.layout fun k => s2.f x y k j := by
    intro x y j
    rw [hs2]
    exact advance_real o s1 _ dt hr1 (rates_real o c2 (-1) d (t + 0.5 * dt) m) x y j
  have h2 := collide_density o c hc a (t + dt) (0.5 * dt) s2.f hr2
  have hs' : splitStep o c2 (-1) dt c d a t s = { s2 with f := collideAt c a (t + dt) (0.5 * dt) s2.f } := by rw [hs2, hm, hs1]; rfl
  have e2 : ∀ x y, o.density ((splitStep o c2 (-1) dt c d a t s).f x y) = o.density (s.f x y)
      + dt * (o.density (o.streaming m.f noZ x y) + o.density (o.electric (m.f x y) ((m.e x y).add (driverAt d.externalE (t + 0.5 * dt) x y)))) := by
    intro x y
    have : o.density ((splitStep o c2 (-1) dt c d a t s).f x y) = o.density (s2.f x y) := by rw [hs']; exact h2.1 x y
    rw [this, hs2]
    change o.density (fun i j => s1.f x y i j + (dt : ℂ) * (maxwellRates o c2 (-1) d (t + 0.5 * dt) m).f x y i j) = _
    have h3 : (maxwellRates o c2 (-1) d (t + 0.5 * dt) m).f = o.rate m.f (fun x y => (m.e x y).add (driverAt d.externalE (t + 0.5 * dt) x y))
        (fun x y => (m.b x y).add (driverAt d.externalB (t + 0.5 * dt) x y)) noZ := rfl
    rw [density_add, density_smul, h3, rate_density]
    congr 1
    rw [hs1]
    exact h1.1 x y
  simp only [e2, sum_add_distrib, ← mul_sum]
  rw [streaming_number, zero_add]

/-- C83: without electrons a step is the second-order Taylor expansion of Maxwell's equations, and a
uniform driver current acts with its value at the middle of the step. -/
theorem vacuum_step (o : Op) (c2 dt : ℝ) (a : RunArgs nx ny) (j : ℝ → Vec) (t : ℝ) (e b : Field nx ny) (x : ZMod nx) (y : ZMod ny) :
    let s' := splitStep o c2 (-1) dt none ⟨none, none, some fun t _ _ => j t⟩ a t ⟨fun _ _ _ _ => 0, e, b⟩
    s'.f = (fun _ _ _ _ => 0) ∧
    s'.e x y = (e x y).add ((((curl o.dX o.dY b x y).smul (dt * c2)).add
        ((curl o.dX o.dY (curl o.dX o.dY e) x y).smul (-(dt ^ 2 / 2 * c2)))).add ((j (t + 0.5 * dt)).smul (-dt))) ∧
    s'.b x y = (b x y).add (((curl o.dX o.dY e x y).smul (-dt)).add ((curl o.dX o.dY (curl o.dX o.dY b) x y).smul (-(dt ^ 2 / 2 * c2)))) := by
  intro s'
  have hcur : ∀ (x : ZMod nx) (y : ZMod ny), o.current (-1) o.speed (fun _ _ => 0) = ⟨0, 0, 0⟩ := by
    intro x y
    unfold Op.current Op.vector
    split <;> simp
  obtain ⟨s0, hs0⟩ : ∃ s0 : State nx ny, s0 = ⟨fun _ _ _ _ => 0, e, b⟩ := ⟨_, rfl⟩
  have hrf : ∀ (t : ℝ) (e b : Field nx ny), (maxwellRates o c2 (-1) ⟨none, none, some fun t _ _ => j t⟩ t ⟨fun _ _ _ _ => 0, e, b⟩).f = fun _ _ _ _ => 0 := by
    intro t e b
    exact rate_vacuum o _ _
  obtain ⟨m, hm⟩ : ∃ m : State nx ny, m = s0.advance (maxwellRates o c2 (-1) ⟨none, none, some fun t _ _ => j t⟩ t s0) (0.5 * dt) := ⟨_, rfl⟩
  have hmf : m.f = fun _ _ _ _ => 0 := by
    rw [hm]
    unfold State.advance
    simp only [hs0, hrf]
    simp
  have hme : ∀ x y, m.e x y = (e x y).add ((((curl o.dX o.dY b x y).smul c2).add ((j t).smul (-1))).smul (0.5 * dt)) := by
    intro x y
    rw [hm, hs0]
    ext <;> simp only [State.advance, maxwellRates, dedt, driverAt, hcur x y, Vec.add, Vec.smul] <;> ring
  have hmb : ∀ x y, m.b x y = (b x y).add ((curl o.dX o.dY e x y).smul (-(0.5 * dt))) := by
    intro x y
    rw [hm, hs0]
    ext <;> simp only [State.advance, maxwellRates, dbdt, Vec.add, Vec.smul] <;> ring
  have hs' : s' = s0.advance (maxwellRates o c2 (-1) ⟨none, none, some fun t _ _ => j t⟩ (t + 0.5 * dt) m) dt := by rw [hm, hs0]; rfl
  have cadd : ∀ (p q : Field nx ny) (c : ℝ) x y, curl o.dX o.dY (fun x y => (p x y).add ((q x y).smul c)) x y
      = (curl o.dX o.dY p x y).add ((curl o.dX o.dY q x y).smul c) := by
    intro p q c x y
    ext <;> simp only [curl, Vec.add, Vec.smul, ddx_add, ddy_add, ddx_smul, ddy_smul] <;> ring
  have cconst : ∀ (v : Vec) x y, curl o.dX o.dY (fun (_ : ZMod nx) (_ : ZMod ny) => v) x y = ⟨0, 0, 0⟩ := by
    intro v x y
    have z1 : ∀ (D : Deriv) (c : ℝ) (i : ZMod nx), D.applyR (fun _ => c) i = 0 := fun D c i => applyR_const D c i
    have z2 : ∀ (D : Deriv) (c : ℝ) (i : ZMod ny), D.applyR (fun _ => c) i = 0 := fun D c i => applyR_const D c i
    ext <;> simp [curl, ddx, ddy, z1, z2]
  have cmb : ∀ x y, curl o.dX o.dY m.b x y = (curl o.dX o.dY b x y).add ((curl o.dX o.dY (curl o.dX o.dY e) x y).smul (-(0.5 * dt))) := by
    intro x y
    have : m.b = fun x y => (b x y).add ((curl o.dX o.dY e x y).smul (-(0.5 * dt))) := funext fun x => funext fun y => hmb x y
    rw [this, cadd]
  have cme : ∀ x y, curl o.dX o.dY m.e x y = (curl o.dX o.dY e x y).add ((curl o.dX o.dY (curl o.dX o.dY b) x y).smul (0.5 * dt * c2)) := by
    intro x y
    have : m.e = fun x y => Vec.add ((e x y).add ((curl o.dX o.dY b x y).smul (0.5 * dt * c2))) (Vec.smul (-(0.5 * dt)) (j t)) := by
      funext x y
      rw [hme]
      ext <;> simp only [Vec.add, Vec.smul] <;> ring
    rw [this, cadd (fun x y => (e x y).add ((curl o.dX o.dY b x y).smul (0.5 * dt * c2))) (fun _ _ => j t), cadd, cconst]
    ext <;> simp only [Vec.add, Vec.smul] <;> ring
  refine ⟨?_, ?_, ?_⟩
  · rw [hs']
    unfold State.advance
    have : (maxwellRates o c2 (-1) ⟨none, none, some fun t _ _ => j t⟩ (t + 0.5 * dt) m).f = fun _ _ _ _ => 0 := by
      obtain ⟨mf, me, mb⟩ := m
      simp only at hmf
      rw [hmf]
      exact hrf _ _ _
    simp only [this, hs0]
    simp
  · rw [hs']
    have : (maxwellRates o c2 (-1) ⟨none, none, some fun t _ _ => j t⟩ (t + 0.5 * dt) m).e x y
        = ((curl o.dX o.dY m.b x y).smul c2).add ((j (t + 0.5 * dt)).smul (-1)) := by
      ext <;> simp only [maxwellRates, dedt, driverAt, hmf, hcur x y, Vec.add, Vec.smul] <;> ring
    unfold State.advance
    simp only [this, hs0, cmb]
    ext <;> simp only [Vec.add, Vec.smul] <;> ring
  · rw [hs']
    have : (maxwellRates o c2 (-1) ⟨none, none, some fun t _ _ => j t⟩ (t + 0.5 * dt) m).b x y = (curl o.dX o.dY m.e x y).smul (-1) := rfl
    unfold State.advance
    simp only [this, hs0, cme]
    ext <;> simp only [Vec.add, Vec.smul] <;> ring

end
end Verif.Vfp2d
