import Verif.Model.Spectral
import Mathlib.Tactic.Ring
import Mathlib.Tactic.Linarith
import Mathlib.Tactic.FieldSimp

/-! Facts about the discrete Fourier transform of real arrays. -/
namespace Verif.Spectral
open Finset ZMod Complex
open scoped ComplexConjugate

variable {N : ℕ} [NeZero N]

theorem conj_char (j : ZMod N) : conj (stdAddChar j : ℂ) = stdAddChar (-j) := by
  rw [AddChar.map_neg_eq_conj]

theorem fft_conj (x : ZMod N → ℂ) (k : ZMod N) : fft (fun j => conj (x j)) k = conj (fft x (-k)) := by
  unfold fft
  rw [dft_apply, dft_apply, map_sum]
  refine sum_congr rfl fun j _ => ?_
  rw [smul_eq_mul, smul_eq_mul, map_mul, conj_char]
  congr 2; ring

theorem fft_real (f : ZMod N → ℝ) (k : ZMod N) : fft (fun j => (f j : ℂ)) (-k) = conj (fft (fun j => (f j : ℂ)) k) := by
  have := fft_conj (fun j => (f j : ℂ)) (-k)
  simp only [conj_ofReal, neg_neg] at this
  exact this

theorem ifft_conj (H : ZMod N → ℂ) (j : ZMod N) : conj (ifft H j) = ifft (fun k => conj (H (-k))) j := by
  unfold ifft
  rw [invDFT_apply, invDFT_apply, smul_eq_mul, smul_eq_mul, map_mul, map_sum]
  congr 1
  · simp
  · rw [← Equiv.sum_comp (Equiv.neg (ZMod N))]
    refine sum_congr rfl fun k _ => ?_
    rw [smul_eq_mul, smul_eq_mul, map_mul, conj_char]
    simp only [Equiv.neg_apply]
    congr 2; ring

/-- The part of a spectrum that survives taking the real part. -/
noncomputable def symm (H : ZMod N → ℂ) (k : ZMod N) : ℂ := (H k + conj (H (-k))) / 2

theorem ifft_add (G H : ZMod N → ℂ) (j : ZMod N) : ifft (fun k => G k + H k) j = ifft G j + ifft H j := by
  unfold ifft
  exact congrFun (map_add (ZMod.dft.symm) G H) j

theorem ifft_smul (c : ℂ) (G : ZMod N → ℂ) (j : ZMod N) : ifft (fun k => c * G k) j = c * ifft G j := by
  unfold ifft
  exact congrFun (map_smul (ZMod.dft.symm) c G) j

theorem re_ifft (H : ZMod N → ℂ) (j : ZMod N) : ((ifft H j).re : ℂ) = ifft (symm H) j := by
  have e : symm H = fun k => (1 / 2 : ℂ) * (H k + conj (H (-k))) := by funext k; unfold symm; ring
  rw [e, ifft_smul, ifft_add, ← ifft_conj, re_eq_add_conj]; ring

theorem fft_ifft (H : ZMod N → ℂ) : fft (ifft H) = H := LinearEquiv.apply_symm_apply _ _
theorem ifft_fft (x : ZMod N → ℂ) : ifft (fft x) = x := LinearEquiv.symm_apply_apply _ _

theorem fft_re_ifft (H : ZMod N → ℂ) : fft (fun j => ((ifft H j).re : ℂ)) = symm H := by
  have : (fun j => ((ifft H j).re : ℂ)) = ifft (symm H) := funext fun j => re_ifft H j
  rw [this, fft_ifft]

theorem fft_zero (x : ZMod N → ℂ) : fft x 0 = ∑ j, x j := dft_apply_zero x

theorem fft_inj {f g : ZMod N → ℝ} (h : ∀ k, fft (fun j => (f j : ℂ)) k = fft (fun j => (g j : ℂ)) k) : f = g := by
  have := (ZMod.dft (N := N) (E := ℂ)).injective (funext h : fft _ = fft _)
  funext j
  exact_mod_cast congrFun this j

/-- Parseval. -/
theorem parseval (x y : ZMod N → ℂ) : ∑ k, conj (fft x k) * fft y k = N * ∑ j, conj (x j) * y j := by
  have h1 : ∀ k, conj (fft x k) * fft y k = ∑ j, conj (x j) * (stdAddChar (j * k) * fft y k) := by
    intro k
    unfold fft
    rw [dft_apply x, map_sum, sum_mul]
    refine sum_congr rfl fun j _ => ?_
    rw [smul_eq_mul, map_mul, conj_char, neg_neg]; ring
  simp_rw [h1]
  rw [sum_comm, mul_sum]
  refine sum_congr rfl fun j _ => ?_
  rw [← mul_sum]
  have h2 : ∑ k, stdAddChar (j * k) * fft y k = N * y j := by
    have := congrFun (ifft_fft y) j
    unfold ifft at this
    rw [invDFT_apply, smul_eq_mul] at this
    have hN : (N : ℂ) ≠ 0 := Nat.cast_ne_zero.2 (NeZero.ne N)
    rw [← this, mul_inv_cancel_left₀ hN]
    refine sum_congr rfl fun k _ => by rw [smul_eq_mul, mul_comm j k]
  rw [h2]; ring

theorem neg_val_ne {k : ZMod N} (hk : k.val ≠ 0) : (-k).val = N - k.val := by
  rw [neg_val, if_neg (fun h => hk (by rw [h, val_zero]))]

theorem neg_eq_self_iff {k : ZMod N} (hk : k.val ≠ 0) : -k = k ↔ 2 * k.val = N := by
  have hl := k.val_lt
  constructor
  · intro h
    have := congrArg ZMod.val h
    rw [neg_val_ne hk] at this; omega
  · intro h
    apply ZMod.val_injective
    rw [neg_val_ne hk]; omega

theorem real_of_conj {z : ℂ} (h : conj z = z) : (z.re : ℂ) = z := conj_eq_iff_re.1 h

theorem hermitian_neg (G : ℕ → ℂ) (k : ZMod N) : hermitian N G (-k) = conj (hermitian N G k) := by
  unfold hermitian
  by_cases h0 : k.val = 0
  · have : k = 0 := val_eq_zero k |>.1 h0
    subst this; simp
  · have hl := k.val_lt
    rw [neg_val_ne h0, if_neg (by omega), if_neg h0]
    by_cases h1 : 2 * k.val = N
    · rw [if_pos h1, if_pos (by omega)]
      have : N - k.val = k.val := by omega
      rw [this, conj_ofReal]
    · rw [if_neg h1, if_neg (by omega)]
      by_cases h2 : 2 * k.val < N
      · rw [if_pos h2, if_neg (by omega)]
        congr 2; omega
      · rw [if_neg h2, if_pos (by omega), conj_conj]

theorem symm_hermitian (G : ℕ → ℂ) : symm (hermitian N G) = hermitian N G := by
  funext k; unfold symm; rw [hermitian_neg, conj_conj]; ring

/-- The half-spectrum product is a product of full spectra. -/
theorem hermitian_mul (m : ℕ → ℂ) (f : ZMod N → ℝ) :
    hermitian N (fun k => m k * rfft f k) = fun k => hermitian N m k * fft (fun j => (f j : ℂ)) k := by
  funext k
  have hself : ∀ k : ZMod N, -k = k → (((fft (fun j => (f j : ℂ)) k).re : ℝ) : ℂ) = fft (fun j => (f j : ℂ)) k := by
    intro k hk
    apply real_of_conj
    rw [← fft_real, hk]
  unfold hermitian
  by_cases h0 : k.val = 0
  · have : k = 0 := val_eq_zero k |>.1 h0
    subst this
    have h := hself 0 (by simp)
    simp only [h0, if_true]
    have e : rfft f 0 = fft (fun j => (f j : ℂ)) 0 := by unfold rfft; simp
    rw [e, ← h]
    simp
  · have hl := k.val_lt
    simp only [h0, if_false]
    have hcast : ((k.val : ℕ) : ZMod N) = k := natCast_zmod_val k
    by_cases h1 : 2 * k.val = N
    · simp only [h1, if_true]
      have h := hself k ((neg_eq_self_iff h0).2 h1)
      have e : rfft f k.val = fft (fun j => (f j : ℂ)) k := by unfold rfft; rw [hcast]
      rw [e, ← h]
      simp
    · simp only [h1, if_false]
      by_cases h2 : 2 * k.val < N
      · simp only [h2, if_true]
        unfold rfft; rw [hcast]
      · simp only [h2, if_false]
        rw [map_mul]
        congr 1
        unfold rfft
        rw [← fft_real]
        congr 1
        have : ((N - k.val : ℕ) : ZMod N) = -k := by
          rw [← neg_val_ne h0, natCast_zmod_val]
        rw [this, neg_neg]

/-- The full spectrum of a filtered array. -/
theorem fft_filterRow (m : ℕ → ℂ) (f : ZMod N → ℝ) (k : ZMod N) :
    fft (fun j => (filterRow m f j : ℂ)) k = hermitian N m k * fft (fun j => (f j : ℂ)) k := by
  unfold filterRow irfft
  rw [fft_re_ifft, symm_hermitian, hermitian_mul]

end Verif.Spectral
