import Verif.Model.Lpse
import Verif.Props.Spectral

/-! Two-dimensional discrete Fourier transforms. -/
namespace Verif.Lpse
open Finset Complex Verif.Spectral
open scoped ComplexConjugate

variable {nx ny : ℕ} [NeZero nx] [NeZero ny]

theorem kax_eq {N : ℕ} (d : ℝ) (k : ZMod N) : kax d k = kfull d k := by
  unfold kax kfull Grid.fftfreqAt
  have hp := Real.pi_ne_zero
  by_cases hd : d = 0
  · subst hd; simp
  by_cases hN : (N : ℝ) = 0
  · rw [hN]; simp
  field_simp

theorem ifft2_fft2 (f : Arr nx ny ℂ) : ifft2 (fft2 f) = f := by
  funext x y
  unfold ifft2 fft2
  have h : ∀ b, ifft (fun a => fft (fun y => fft (fun x => f x y) a) b) x = fft (fun y => f x y) b := by
    intro b
    have e : (fun a => fft (fun y => fft (fun x => f x y) a) b) = fft (fun x => fft (fun y => f x y) b) := by
      funext a
      unfold fft
      simp only [ZMod.dft_apply, smul_eq_mul, mul_sum]
      rw [sum_comm]
      exact sum_congr rfl fun _ _ => sum_congr rfl fun _ _ => by ring
    rw [e, ifft_fft]
  simp only [h]
  rw [ifft_fft]

theorem fft2_ifft2 (F : Arr nx ny ℂ) : fft2 (ifft2 F) = F := by
  funext a b
  unfold ifft2 fft2
  have h : ∀ y, fft (fun x => ifft (fun b => ifft (fun a => F a b) x) y) a = ifft (fun b => F a b) y := by
    intro y
    have e : (fun x => ifft (fun b => ifft (fun a => F a b) x) y) = ifft (fun a => ifft (fun b => F a b) y) := by
      funext x
      unfold ifft
      simp only [ZMod.invDFT_apply, smul_eq_mul, mul_sum]
      rw [sum_comm]
      exact sum_congr rfl fun _ _ => sum_congr rfl fun _ _ => by ring
    rw [e, fft_ifft]
  simp only [h]
  rw [fft_ifft]

theorem norm_fft {N : ℕ} [NeZero N] (f : ZMod N → ℂ) : ∑ k, ‖fft f k‖ ^ 2 = N * ∑ j, ‖f j‖ ^ 2 := by
  have h := parseval f f
  have e : ∀ z : ℂ, conj z * z = ((‖z‖ ^ 2 : ℝ) : ℂ) := fun z => by rw [← normSq_eq_conj_mul_self, normSq_eq_norm_sq]
  simp only [e] at h
  exact_mod_cast h

theorem parseval2 (f : Arr nx ny ℂ) : ∑ a, ∑ b, ‖fft2 f a b‖ ^ 2 = (nx * ny : ℝ) * ∑ x, ∑ y, ‖f x y‖ ^ 2 := by
  unfold fft2
  simp only [norm_fft]
  rw [← mul_sum, sum_comm]
  simp only [norm_fft]
  rw [← mul_sum, sum_comm]; ring

theorem norm_ifft2 (F : Arr nx ny ℂ) : ∑ x, ∑ y, ‖ifft2 F x y‖ ^ 2 = (∑ a, ∑ b, ‖F a b‖ ^ 2) / (nx * ny) := by
  have h := parseval2 (ifft2 F)
  rw [fft2_ifft2] at h
  have hx : (nx : ℝ) ≠ 0 := Nat.cast_ne_zero.2 (NeZero.ne nx)
  have hy : (ny : ℝ) ≠ 0 := Nat.cast_ne_zero.2 (NeZero.ne ny)
  rw [h]; field_simp

theorem fft2_add (f g : Arr nx ny ℂ) (a : ZMod nx) (b : ZMod ny) : fft2 (fun x y => f x y + g x y) a b = fft2 f a b + fft2 g a b := by
  unfold fft2 fft
  simp only [ZMod.dft_apply, smul_eq_mul, ← sum_add_distrib, ← mul_add]

theorem fft2_smul (c : ℂ) (f : Arr nx ny ℂ) (a : ZMod nx) (b : ZMod ny) : fft2 (fun x y => c * f x y) a b = c * fft2 f a b := by
  unfold fft2 fft
  simp only [ZMod.dft_apply, smul_eq_mul, mul_sum]
  exact sum_congr rfl fun _ _ => sum_congr rfl fun _ _ => by ring

theorem ifft2_smul (c : ℂ) (F : Arr nx ny ℂ) (x : ZMod nx) (y : ZMod ny) : ifft2 (fun a b => c * F a b) x y = c * ifft2 F x y := by
  unfold ifft2 ifft
  simp only [ZMod.invDFT_apply, smul_eq_mul, mul_sum]
  exact sum_congr rfl fun _ _ => sum_congr rfl fun _ _ => by ring

theorem fft2_congr {f g : Arr nx ny ℂ} (h : ∀ x y, f x y = g x y) : fft2 f = fft2 g := by
  have : f = g := funext fun x => funext fun y => h x y
  rw [this]

theorem ksq_nonneg (p : Epw nx ny) (a : ZMod nx) (b : ZMod ny) : 0 ≤ p.ksq a b := by unfold Epw.ksq; positivity

theorem ksq_pos_iff {p : Epw nx ny} (hx : p.dx ≠ 0) (hy : p.dy ≠ 0) (a : ZMod nx) (b : ZMod ny) : 0 < p.ksq a b ↔ ¬(a = 0 ∧ b = 0) := by
  unfold Epw.ksq
  rw [kax_eq, kax_eq]
  constructor
  · rintro h ⟨rfl, rfl⟩
    simp [kfull_zero] at h
  · intro h
    have hz : ∀ {N : ℕ} [NeZero N] {d : ℝ} (k : ZMod N), d ≠ 0 → k ≠ 0 → 0 < kfull d k ^ 2 := by
      intro N _ d k hd hk
      have := kfull_ne_zero hd (k := k) (fun e => hk ((ZMod.val_eq_zero k).1 e))
      positivity
    by_cases ha : a = 0
    · have hb : b ≠ 0 := fun hb => h ⟨ha, hb⟩
      have := hz b hy hb
      positivity
    · have := hz a hx ha
      positivity

open ZMod in
theorem fft2_sum (f : Arr nx ny ℂ) (a : ZMod nx) (b : ZMod ny) :
    fft2 f a b = ∑ x, ∑ y, (stdAddChar (-(x * a)) : ℂ) * (stdAddChar (-(y * b)) : ℂ) * f x y := by
  unfold fft2 fft
  simp only [ZMod.dft_apply, smul_eq_mul, mul_sum]
  rw [sum_comm]
  exact sum_congr rfl fun _ _ => sum_congr rfl fun _ _ => by ring

/-- Multiplication by a plane wave along `x` and complex conjugation shift and reflect the spectrum. -/
theorem fft2_wave_conj (m : ZMod nx) (f : Arr nx ny ℂ) (a : ZMod nx) (b : ZMod ny) :
    fft2 (fun x y => (ZMod.stdAddChar (m * x) : ℂ) * conj (f x y)) a b = conj (fft2 f (m - a) (-b)) := by
  rw [fft2_sum, fft2_sum, map_sum]
  refine sum_congr rfl fun x _ => ?_
  rw [map_sum]
  refine sum_congr rfl fun y _ => ?_
  rw [RingHom.map_mul, RingHom.map_mul, conj_char, conj_char]
  have e : (ZMod.stdAddChar (-(-(x * (m - a)))) : ℂ) = (ZMod.stdAddChar (-(x * a)) : ℂ) * (ZMod.stdAddChar (m * x) : ℂ) := by
    rw [← AddChar.map_add_eq_mul]; congr 1; ring
  rw [e, show -(-(y * -b)) = -(y * b) by ring]; ring

end Verif.Lpse
