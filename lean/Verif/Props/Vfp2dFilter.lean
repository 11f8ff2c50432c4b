import Verif.Props.Vfp2dOhm

/-!
VFP-2D: spatial filters, and the stencils on an array divided among devices (C88).
-/
namespace Verif.Vfp2d
open Finset Complex Verif.Spectral
open scoped ComplexConjugate

section
variable {N : ℕ} [NeZero N]

/-! ### The Hou-Li filter -/

theorem fft_houLi (alpha : ℝ) (order : ℕ) (a : ZMod N → ℂ) (k : ZMod N) :
    fft (houLiRow alpha order a) k = fft a k * (houLiKernel alpha order k : ℂ) := by
  unfold houLiRow
  rw [fft_ifft]

theorem arr_ext {a b : ZMod N → ℂ} (h : ∀ k, fft a k = fft b k) : a = b := by
  rw [← ifft_fft a, ← ifft_fft b]
  congr 1
  funext k
  exact h k

theorem kernel_mem (alpha : ℝ) (ha : 0 ≤ alpha) (order : ℕ) (k : ZMod N) : 0 < houLiKernel alpha order k ∧ houLiKernel alpha order k ≤ 1 := by
  unfold houLiKernel
  refine ⟨Real.exp_pos _, Real.exp_le_one_iff.2 ?_⟩
  have : 0 ≤ |2 * Grid.fftfreqAt N (1 : ℝ) k.val| ^ (2 * order) := by positivity
  nlinarith

omit [NeZero N] in
theorem kernel_zero (alpha : ℝ) (order : ℕ) (ho : 1 ≤ order) : houLiKernel alpha order (0 : ZMod N) = 1 := by
  unfold houLiKernel Grid.fftfreqAt
  simp [show order ≠ 0 by omega]

/-- The kernel of mode `p`, up to and including the Nyquist mode. -/
theorem kernel_mode (alpha : ℝ) (order : ℕ) (p : ℤ) (hp : 2 * |p| ≤ N) :
    houLiKernel alpha order (p : ZMod N) = Real.exp (-alpha * (2 * |(p : ℝ)| / N) ^ (2 * order)) := by
  have hN : (0 : ℝ) < N := by exact_mod_cast Nat.pos_of_ne_zero (NeZero.ne N)
  have hNn : 0 < N := Nat.pos_of_ne_zero (NeZero.ne N)
  have hv : ((p : ZMod N).val : ℤ) = p % N := ZMod.val_intCast p
  have key : |2 * Grid.fftfreqAt N (1 : ℝ) (p : ZMod N).val| = 2 * |(p : ℝ)| / N := by
    unfold Grid.fftfreqAt
    rcases lt_or_ge p 0 with h | h
    · rw [abs_of_neg h] at hp
      have hm : p % (N : ℤ) = p + N := by
        rw [← Int.add_emod_right, Int.emod_eq_of_lt (by omega) (by omega)]
      rw [hm] at hv
      have hr : (((p : ZMod N).val : ℕ) : ℝ) = (p : ℝ) + N := by exact_mod_cast congrArg (Int.cast : ℤ → ℝ) hv
      rw [if_neg (by omega), hr]
      have hp' : (p : ℝ) < 0 := by exact_mod_cast h
      rw [abs_of_neg hp', show 2 * (((p : ℝ) + N - N) / (N * 1)) = -(2 * -(p : ℝ) / N) by ring, abs_neg, abs_of_nonneg]
      exact div_nonneg (by linarith) hN.le
    · rw [abs_of_nonneg h] at hp
      have hm : p % (N : ℤ) = p := Int.emod_eq_of_lt (by omega) (by omega)
      rw [hm] at hv
      have hr : (((p : ZMod N).val : ℕ) : ℝ) = (p : ℝ) := by exact_mod_cast congrArg (Int.cast : ℤ → ℝ) hv
      have hp' : (0 : ℝ) ≤ p := by exact_mod_cast h
      rw [hr, abs_of_nonneg hp']
      by_cases hc : (p : ZMod N).val < (N - 1) / 2 + 1
      · rw [if_pos hc, show 2 * ((p : ℝ) / (N * 1)) = 2 * (p : ℝ) / N by ring, abs_of_nonneg]
        exact div_nonneg (by linarith) hN.le
      · have h2 : 2 * p = N := by omega
        have h2' : 2 * (p : ℝ) = N := by exact_mod_cast h2
        rw [if_neg hc, h2', div_self hN.ne', show 2 * (((p : ℝ) - N) / (N * 1)) = (2 * (p : ℝ) - 2 * N) / N by ring, h2',
          show ((N : ℝ) - 2 * N) / N = -1 by field_simp; ring]
        norm_num
  unfold houLiKernel
  rw [key]

theorem kernel_even (alpha : ℝ) (order : ℕ) (k : ZMod N) : houLiKernel alpha order (-k) = houLiKernel alpha order k := by
  by_cases hz : k.val = 0
  · have : k = 0 := (ZMod.val_eq_zero k).1 hz
    subst this; simp
  · have hlt := k.val_lt
    have hN : (0 : ℝ) < N := by exact_mod_cast Nat.pos_of_ne_zero (NeZero.ne N)
    unfold houLiKernel
    congr 3
    unfold Grid.fftfreqAt
    rw [neg_val_ne hz, Nat.cast_sub hlt.le]
    by_cases hk : 2 * k.val = N
    · have hk' : (k.val : ℝ) = N / 2 := by
        have : 2 * (k.val : ℝ) = N := by exact_mod_cast hk
        linarith
      rw [if_neg (by omega), if_neg (by omega), hk']
      congr 1
      ring
    · by_cases h : k.val < (N - 1) / 2 + 1
      · rw [if_neg (by omega), if_pos h, ← abs_neg]
        congr 1
        ring
      · rw [if_pos (by omega), if_neg h, ← abs_neg]
        congr 1
        ring

theorem houLi_add (alpha : ℝ) (order : ℕ) (a b : ZMod N → ℂ) (i : ZMod N) :
    houLiRow alpha order (fun j => a j + b j) i = houLiRow alpha order a i + houLiRow alpha order b i := by
  have h : houLiRow alpha order (fun j => a j + b j) = fun i => houLiRow alpha order a i + houLiRow alpha order b i := by
    refine arr_ext fun k => ?_
    rw [fft_add, fft_houLi, fft_houLi, fft_houLi, fft_add]
    ring
  exact congrFun h i

theorem houLi_smul (alpha : ℝ) (order : ℕ) (c : ℂ) (a : ZMod N → ℂ) (i : ZMod N) :
    houLiRow alpha order (fun j => c * a j) i = c * houLiRow alpha order a i := by
  have h : houLiRow alpha order (fun j => c * a j) = fun i => c * houLiRow alpha order a i := by
    refine arr_ext fun k => ?_
    rw [fft_smul, fft_houLi, fft_houLi, fft_smul]
    ring
  exact congrFun h i

/-- C88: what the filter does to a wave of `p` periods per box, up to the Nyquist mode. -/
theorem houLi_wave (alpha : ℝ) (order : ℕ) (p : ℤ) (hp : 2 * |p| ≤ N) (i : ZMod N) :
    houLiRow alpha order (wave (N := N) p) i = (Real.exp (-alpha * (2 * |(p : ℝ)| / N) ^ (2 * order)) : ℂ) * wave p i := by
  have h : houLiRow alpha order (wave (N := N) p) = fun i => (Real.exp (-alpha * (2 * |(p : ℝ)| / N) ^ (2 * order)) : ℂ) * wave p i := by
    refine arr_ext fun k => ?_
    rw [fft_smul, fft_houLi, fft_wave]
    by_cases hk : k = (p : ZMod N)
    · rw [if_pos hk, hk, kernel_mode alpha order p hp]
      ring
    · rw [if_neg hk]; ring
  exact congrFun h i

theorem houLi_const (alpha : ℝ) (order : ℕ) (ho : 1 ≤ order) (c : ℂ) (i : ZMod N) : houLiRow alpha order (fun _ => c) i = c := by
  have h1 : wave (N := N) 0 = fun _ => (1 : ℂ) := by funext j; simp [wave]
  have h := houLi_smul alpha order c (wave (N := N) 0) i
  rw [houLi_wave alpha order 0 (by simp), h1] at h
  have h2 : 2 * order ≠ 0 := by omega
  simpa [h2] using h

/-- C88: it keeps the mean, turns real arrays into real arrays, and damps. -/
theorem houLi_sum (alpha : ℝ) (order : ℕ) (ho : 1 ≤ order) (a : ZMod N → ℂ) : ∑ i, houLiRow alpha order a i = ∑ i, a i := by
  rw [← fft_zero, ← fft_zero, fft_houLi, kernel_zero alpha order ho, ofReal_one, mul_one]

theorem houLi_real (alpha : ℝ) (order : ℕ) (a : ZMod N → ℝ) (i : ZMod N) : (houLiRow alpha order (fun j => (a j : ℂ)) i).im = 0 := by
  have h : (fun i => conj (houLiRow alpha order (fun j => (a j : ℂ)) i)) = houLiRow alpha order (fun j => (a j : ℂ)) := by
    refine arr_ext fun k => ?_
    rw [fft_conj, fft_houLi, fft_houLi, map_mul, conj_ofReal, kernel_even, ← fft_conj]
    simp only [conj_ofReal]
  exact conj_eq_iff_im.1 (congrFun h i)

theorem houLi_norm (alpha : ℝ) (ha : 0 ≤ alpha) (order : ℕ) (a : ZMod N → ℂ) : ∑ i, normSq (houLiRow alpha order a i) ≤ ∑ i, normSq (a i) := by
  have hN : (0 : ℝ) < N := by exact_mod_cast Nat.pos_of_ne_zero (NeZero.ne N)
  have ps : ∀ b : ZMod N → ℂ, (N : ℝ) * ∑ i, normSq (b i) = ∑ k, normSq (fft b k) := by
    intro b
    have h := parseval b b
    have e1 : ∑ k, conj (fft b k) * fft b k = ((∑ k, normSq (fft b k) : ℝ) : ℂ) := by
      push_cast
      exact sum_congr rfl fun k _ => by rw [normSq_eq_conj_mul_self]
    have e2 : (N : ℂ) * ∑ j, conj (b j) * b j = ((N * ∑ j, normSq (b j) : ℝ) : ℂ) := by
      push_cast
      congr 1
      exact sum_congr rfl fun j _ => by rw [normSq_eq_conj_mul_self]
    rw [e1, e2] at h
    exact_mod_cast h.symm
  refine le_of_mul_le_mul_left ?_ hN
  rw [ps, ps]
  refine sum_le_sum fun k _ => ?_
  rw [fft_houLi, normSq_mul, normSq_ofReal]
  have h := kernel_mem alpha ha order k
  exact mul_le_of_le_one_right (normSq_nonneg _) (by nlinarith [h.1, h.2])

/-- Shifted arrays. -/
theorem fft_shift (a : ZMod N → ℂ) (c k : ZMod N) : fft (fun j => a (j + c)) k = ZMod.stdAddChar (c * k) * fft a k := by
  unfold fft
  simp only [ZMod.dft_apply, smul_eq_mul, mul_sum]
  rw [← Equiv.sum_comp (Equiv.subRight c)]
  refine sum_congr rfl fun j _ => ?_
  rw [Equiv.subRight_apply, sub_add_cancel, ← mul_assoc, ← AddChar.map_add_eq_mul]
  congr 2
  ring

theorem houLi_shift (alpha : ℝ) (order : ℕ) (a : ZMod N → ℂ) (c i : ZMod N) : houLiRow alpha order (fun j => a (j + c)) i = houLiRow alpha order a (i + c) := by
  have h : houLiRow alpha order (fun j => a (j + c)) = fun i => houLiRow alpha order a (i + c) := by
    refine arr_ext fun k => ?_
    rw [fft_shift, fft_houLi, fft_houLi, fft_shift]
    ring
  exact congrFun h i

/-- The filter commutes with every derivative along the same axis. -/
theorem houLi_deriv (alpha : ℝ) (order : ℕ) (D : Deriv) (a : ZMod N → ℂ) (i : ZMod N) :
    houLiRow alpha order (D.apply a) i = D.apply (houLiRow alpha order a) i := by
  cases D with
  | spectral d =>
    have h : houLiRow alpha order ((Deriv.spectral d).apply a) = (Deriv.spectral d).apply (houLiRow alpha order a) := by
      refine arr_ext fun k => ?_
      rw [fft_specDeriv, fft_houLi, fft_houLi, fft_specDeriv]
      ring
    exact congrFun h i
  | second h =>
    have e : (Deriv.second h).apply a = fun j => (1 / (2 * (h : ℂ))) * (a (j + 1) + (-1 : ℂ) * a (j + (-1))) := by
      funext j; simp only [Deriv.apply, sub_eq_add_neg]; ring
    rw [e, houLi_smul, houLi_add, houLi_smul, houLi_shift, houLi_shift]
    simp only [Deriv.apply, sub_eq_add_neg]
    ring
  | fourth h =>
    have e : (Deriv.fourth h).apply a = fun j => (1 / (12 * (h : ℂ))) * ((a (j + (-2)) + (-8 : ℂ) * a (j + (-1))) + ((8 : ℂ) * a (j + 1) + (-1 : ℂ) * a (j + 2))) := by
      funext j; simp only [Deriv.apply, sub_eq_add_neg]; ring
    rw [e, houLi_smul, houLi_add alpha order (fun j => a (j + (-2)) + (-8 : ℂ) * a (j + (-1))) (fun j => (8 : ℂ) * a (j + 1) + (-1 : ℂ) * a (j + 2)),
      houLi_add, houLi_add, houLi_smul, houLi_smul, houLi_smul, houLi_shift, houLi_shift, houLi_shift, houLi_shift]
    simp only [Deriv.apply, sub_eq_add_neg]
    ring

theorem houLi_lin {ι : Type*} (s : Finset ι) (alpha : ℝ) (order : ℕ) (c : ι → ℂ) (g : ι → ZMod N → ℂ) (i : ZMod N) :
    houLiRow alpha order (fun j => ∑ t ∈ s, c t * g t j) i = ∑ t ∈ s, c t * houLiRow alpha order (g t) i := by
  classical
  induction s using Finset.induction_on with
  | empty =>
    simp only [sum_empty]
    have := houLi_smul alpha order 0 (fun _ : ZMod N => 0) i
    simpa using this
  | insert t s ht ih =>
    simp only [sum_insert ht]
    rw [houLi_add, houLi_smul, ih]

end

section
variable {nx ny : ℕ} [NeZero nx] [NeZero ny]

/-! ### On the plane -/

theorem houLi2D_split (alpha : ℝ) (order : ℕ) (dims : List String) (Q : ((ZMod nx → ZMod ny → ℂ) → ZMod nx → ZMod ny → ℂ) → Prop)
    (hid : Q fun a => a) (hx : Q fun a x y => houLiRow alpha order (fun x' => a x' y) x) (hy : Q fun a x y => houLiRow alpha order (a x) y)
    (hxy : ∀ S T, Q S → Q T → Q fun a => S (T a)) : Q (houLi2D alpha order dims) := by
  by_cases h1 : "x" ∈ dims <;> by_cases h2 : "y" ∈ dims
  · have : (houLi2D alpha order dims : (ZMod nx → ZMod ny → ℂ) → ZMod nx → ZMod ny → ℂ)
        = fun a => (fun a x y => houLiRow alpha order (a x) y) ((fun a x y => houLiRow alpha order (fun x' => a x' y) x) a) := by
      funext a; unfold houLi2D; rw [if_pos h2, if_pos h1]
    rw [this]; exact hxy _ _ hy hx
  · have : (houLi2D alpha order dims : (ZMod nx → ZMod ny → ℂ) → ZMod nx → ZMod ny → ℂ)
        = fun a x y => houLiRow alpha order (fun x' => a x' y) x := by
      funext a; unfold houLi2D; rw [if_neg h2, if_pos h1]
    rw [this]; exact hx
  · have : (houLi2D alpha order dims : (ZMod nx → ZMod ny → ℂ) → ZMod nx → ZMod ny → ℂ) = fun a x y => houLiRow alpha order (a x) y := by
      funext a; unfold houLi2D; rw [if_pos h2, if_neg h1]
    rw [this]; exact hy
  · have : (houLi2D alpha order dims : (ZMod nx → ZMod ny → ℂ) → ZMod nx → ZMod ny → ℂ) = fun a => a := by
      funext a; unfold houLi2D; rw [if_neg h2, if_neg h1]
    rw [this]; exact hid

/-- C88: on the plane the filter keeps constants and the total, turns real arrays into real ones
and does not increase the sum of squares. -/
theorem houLi2D_spec (alpha : ℝ) (ha : 0 ≤ alpha) (order : ℕ) (ho : 1 ≤ order) (dims : List String) :
    (∀ c, houLi2D (nx := nx) (ny := ny) alpha order dims (fun _ _ => c) = fun _ _ => c)
    ∧ (∀ a : ZMod nx → ZMod ny → ℂ, ∑ x, ∑ y, houLi2D alpha order dims a x y = ∑ x, ∑ y, a x y)
    ∧ (∀ (a : ZMod nx → ZMod ny → ℂ), (∀ x y, (a x y).im = 0) → ∀ x y, (houLi2D alpha order dims a x y).im = 0)
    ∧ (∀ a : ZMod nx → ZMod ny → ℂ, ∑ x, ∑ y, normSq (houLi2D alpha order dims a x y) ≤ ∑ x, ∑ y, normSq (a x y)) := by
  refine houLi2D_split alpha order dims (fun T : (ZMod nx → ZMod ny → ℂ) → ZMod nx → ZMod ny → ℂ => (∀ c, T (fun _ _ => c) = fun _ _ => c) ∧ (∀ a, ∑ x, ∑ y, T a x y = ∑ x, ∑ y, a x y)
    ∧ (∀ a, (∀ x y, (a x y).im = 0) → ∀ x y, (T a x y).im = 0) ∧ ∀ a, ∑ x, ∑ y, normSq (T a x y) ≤ ∑ x, ∑ y, normSq (a x y)) ?_ ?_ ?_ ?_
  · exact ⟨fun _ => rfl, fun _ => rfl, fun _ h => h, fun _ => le_rfl⟩
  · refine ⟨fun c => ?_, fun a => ?_, fun a h x y => ?_, fun a => ?_⟩
    · funext x y; exact houLi_const alpha order ho c x
    · rw [sum_comm, sum_comm (f := fun x y => a x y)]
      exact sum_congr rfl fun y _ => houLi_sum alpha order ho fun x' => a x' y
    · have : (fun x' => a x' y) = fun x' => (((a x' y).re : ℝ) : ℂ) := by
        funext x'; exact Complex.ext (ofReal_re _).symm (by rw [ofReal_im, h])
      change (houLiRow alpha order (fun x' => a x' y) x).im = 0
      rw [this]
      exact houLi_real alpha order _ x
    · rw [sum_comm, sum_comm (f := fun x y => normSq (a x y))]
      exact sum_le_sum fun y _ => houLi_norm alpha ha order fun x' => a x' y
  · refine ⟨fun c => ?_, fun a => ?_, fun a h x y => ?_, fun a => ?_⟩
    · funext x y; exact houLi_const alpha order ho c y
    · exact sum_congr rfl fun x _ => houLi_sum alpha order ho (a x)
    · have : a x = fun y' => (((a x y').re : ℝ) : ℂ) := by
        funext y'; exact Complex.ext (ofReal_re _).symm (by rw [ofReal_im, h])
      change (houLiRow alpha order (a x) y).im = 0
      rw [this]
      exact houLi_real alpha order _ y
    · exact sum_le_sum fun x _ => houLi_norm alpha ha order (a x)
  · rintro S T ⟨s1, s2, s3, s4⟩ ⟨t1, t2, t3, t4⟩
    exact ⟨fun c => by beta_reduce; rw [t1, s1], fun a => by beta_reduce; rw [s2, t2], fun a h => s3 _ (t3 a h), fun a => (s4 _).trans (t4 a)⟩

/-- The filter is linear and commutes with both derivatives. -/
theorem houLi2D_commute (alpha : ℝ) (order : ℕ) (dims : List String) (D : Deriv) :
    (∀ a b : ZMod nx → ZMod ny → ℂ, ∀ c : ℂ, houLi2D alpha order dims (fun x y => a x y + c * b x y)
        = fun x y => houLi2D alpha order dims a x y + c * houLi2D alpha order dims b x y)
    ∧ (∀ a : ZMod nx → ZMod ny → ℂ, houLi2D alpha order dims (fun x y => D.apply (fun x' => a x' y) x)
        = fun x y => D.apply (fun x' => houLi2D alpha order dims a x' y) x)
    ∧ (∀ a : ZMod nx → ZMod ny → ℂ, houLi2D alpha order dims (fun x y => D.apply (a x) y) = fun x y => D.apply (houLi2D alpha order dims a x) y) := by
  refine houLi2D_split alpha order dims (fun T : (ZMod nx → ZMod ny → ℂ) → ZMod nx → ZMod ny → ℂ => (∀ a b, ∀ c : ℂ, T (fun x y => a x y + c * b x y) = fun x y => T a x y + c * T b x y)
    ∧ (∀ a, T (fun x y => D.apply (fun x' => a x' y) x) = fun x y => D.apply (fun x' => T a x' y) x)
    ∧ (∀ a, T (fun x y => D.apply (a x) y) = fun x y => D.apply (T a x) y)) ?_ ?_ ?_ ?_
  · exact ⟨fun _ _ _ => rfl, fun _ => rfl, fun _ => rfl⟩
  · refine ⟨fun a b c => ?_, fun a => ?_, fun a => ?_⟩
    · funext x y
      beta_reduce
      rw [houLi_add alpha order (fun x' => a x' y) (fun x' => c * b x' y), houLi_smul]
    · funext x y
      exact houLi_deriv alpha order D (fun x' => a x' y) x
    · funext x y
      beta_reduce
      have h : (fun x' => D.apply (a x') y) = fun x' => ∑ t, D.mat y t * a x' t := by funext x'; exact deriv_mat D (a x') y
      rw [h, houLi_lin univ alpha order (fun t => D.mat y t) (fun t x' => a x' t), deriv_mat]
  · refine ⟨fun a b c => ?_, fun a => ?_, fun a => ?_⟩
    · funext x y
      beta_reduce
      rw [houLi_add alpha order (fun y' => a x y') (fun y' => c * b x y'), houLi_smul]
    · funext x y
      beta_reduce
      have h : (fun y' => D.apply (fun x' => a x' y') x) = fun y' => ∑ t, D.mat x t * a t y' := by funext y'; exact deriv_mat D (fun x' => a x' y') x
      change houLiRow alpha order (fun y' => D.apply (fun x' => a x' y') x) y = _
      rw [h, houLi_lin univ alpha order (fun t => D.mat x t) (fun t y' => a t y'), deriv_mat]
    · funext x y
      exact houLi_deriv alpha order D (a x) y
  · rintro S T ⟨s1, s2, s3⟩ ⟨t1, t2, t3⟩
    refine ⟨fun a b c => ?_, fun a => ?_, fun a => ?_⟩
    · beta_reduce
      rw [t1, s1]
    · beta_reduce
      rw [t2, s2]
    · beta_reduce
      rw [t3, s3]

/-- The filter on a real array. -/
noncomputable def filterR (alpha : ℝ) (order : ℕ) (dims : List String) (a : Scal nx ny) : Scal nx ny := fun x y =>
  (houLi2D alpha order dims (fun x y => (a x y : ℂ)) x y).re

theorem filterR_add (alpha : ℝ) (order : ℕ) (dims : List String) (a b : Scal nx ny) :
    filterR alpha order dims (fun x y => a x y + b x y) = fun x y => filterR alpha order dims a x y + filterR alpha order dims b x y := by
  have h := (houLi2D_commute (nx := nx) (ny := ny) alpha order dims (.second 1)).1 (fun x y => (a x y : ℂ)) (fun x y => (b x y : ℂ)) 1
  funext x y
  have h2 := congrFun (congrFun h x) y
  unfold filterR
  simp only [one_mul] at h2
  push_cast
  rw [h2, add_re]

theorem filterR_zero (alpha : ℝ) (order : ℕ) (dims : List String) : filterR (nx := nx) (ny := ny) alpha order dims (fun _ _ => 0) = fun _ _ => 0 := by
  have h := filterR_add (nx := nx) (ny := ny) alpha order dims (fun _ _ => 0) (fun _ _ => 0)
  funext x y
  have h2 := congrFun (congrFun h x) y
  simp only [add_zero] at h2
  linarith

theorem re_part (alpha : ℝ) (ha : 0 ≤ alpha) (order : ℕ) (ho : 1 ≤ order) (dims : List String) (a : ZMod nx → ZMod ny → ℂ) (x : ZMod nx) (y : ZMod ny) :
    (houLi2D alpha order dims a x y).re = filterR alpha order dims (fun x y => (a x y).re) x y := by
  have h := (houLi2D_commute (nx := nx) (ny := ny) alpha order dims (.second 1)).1 (fun x y => (((a x y).re : ℝ) : ℂ)) (fun x y => (((a x y).im : ℝ) : ℂ)) I
  have e : (fun x y => (((a x y).re : ℝ) : ℂ) + I * (((a x y).im : ℝ) : ℂ)) = a := by
    funext x y; rw [mul_comm, Complex.re_add_im]
  rw [e] at h
  have h2 := (houLi2D_spec (nx := nx) (ny := ny) alpha ha order ho dims).2.2.1 (fun x y => (((a x y).im : ℝ) : ℂ)) (fun x y => ofReal_im _) x y
  rw [h]
  simp only [add_re, mul_re, I_re, I_im, zero_mul, one_mul, zero_sub, h2, neg_zero, add_zero]
  rfl

theorem filterR_deriv (alpha : ℝ) (ha : 0 ≤ alpha) (order : ℕ) (ho : 1 ≤ order) (dims : List String) (D : Deriv) (a : Scal nx ny) :
    ddx D (filterR alpha order dims a) = filterR alpha order dims (ddx D a) ∧ ddy D (filterR alpha order dims a) = filterR alpha order dims (ddy D a) := by
  have hre : (fun x y => ((filterR alpha order dims a x y : ℝ) : ℂ)) = houLi2D alpha order dims (fun x y => (a x y : ℂ)) := by
    funext x y
    refine Complex.ext (ofReal_re _) ?_
    rw [ofReal_im, (houLi2D_spec (nx := nx) (ny := ny) alpha ha order ho dims).2.2.1 _ (fun x y => ofReal_im _) x y]
  obtain ⟨-, c1, c2⟩ := houLi2D_commute (nx := nx) (ny := ny) alpha order dims D
  constructor
  · funext x y
    have h1 : ddx D (filterR alpha order dims a) x y = (D.apply (fun x' => ((filterR alpha order dims a x' y : ℝ) : ℂ)) x).re := rfl
    have h2 : ∀ x', ((filterR alpha order dims a x' y : ℝ) : ℂ) = houLi2D alpha order dims (fun x y => (a x y : ℂ)) x' y := fun x' => congrFun (congrFun hre x') y
    rw [h1]
    simp only [h2]
    have h3 := congrFun (congrFun (c1 fun x y => (a x y : ℂ)) x) y
    rw [← h3, re_part alpha ha order ho dims]
    rfl
  · funext x y
    have h1 : ddy D (filterR alpha order dims a) x y = (D.apply (fun y' => ((filterR alpha order dims a x y' : ℝ) : ℂ)) y).re := rfl
    have h2 : ∀ y', ((filterR alpha order dims a x y' : ℝ) : ℂ) = houLi2D alpha order dims (fun x y => (a x y : ℂ)) x y' := fun y' => congrFun (congrFun hre x) y'
    rw [h1]
    simp only [h2]
    have h3 := congrFun (congrFun (c2 fun x y => (a x y : ℂ)) x) y
    change (D.apply (houLi2D alpha order dims (fun x y => (a x y : ℂ)) x) y).re = _
    rw [← h3, re_part alpha ha order ho dims]
    rfl

/-- C88: the filter commutes with the divergence: it cannot make a magnetic field diverge. -/
theorem filter_divergence (alpha : ℝ) (ha : 0 ≤ alpha) (order : ℕ) (ho : 1 ≤ order) (dims : List String) (dX dY : Deriv) (b : Field nx ny) :
    divergence dX dY (fun x y => ⟨filterR alpha order dims (fun x y => (b x y).x) x y, filterR alpha order dims (fun x y => (b x y).y) x y,
      filterR alpha order dims (fun x y => (b x y).z) x y⟩) = filterR alpha order dims (divergence dX dY b) := by
  have h1 := (filterR_deriv alpha ha order ho dims dX fun x y => (b x y).x).1
  have h2 := (filterR_deriv alpha ha order ho dims dY fun x y => (b x y).y).2
  have h3 := filterR_add alpha order dims (ddx dX fun x y => (b x y).x) (ddy dY fun x y => (b x y).y)
  funext x y
  unfold divergence
  rw [show ddx dX (fun x y => filterR alpha order dims (fun x y => (b x y).x) x y) x y = _ from congrFun (congrFun h1 x) y,
    show ddy dY (fun x y => filterR alpha order dims (fun x y => (b x y).y) x y) x y = _ from congrFun (congrFun h2 x) y, h3]

end

/-! ### Arrays divided among devices -/

section
variable {n P M : ℕ} [NeZero n]

omit [NeZero n] in
/-- C88: every cell belongs to one place of one device. -/
theorem shards_cover [NeZero n] (hn : n = P * M) (i : ZMod n) : ∃ r < P, ∃ k < M, i = ((r * M + k : ℕ) : ZMod n) := by
  have hlt := i.val_lt
  have hM : 0 < M := by
    rcases Nat.eq_zero_or_pos M with h | h
    · subst h; simp at hn; exact absurd hn (NeZero.ne n)
    · exact h
  refine ⟨i.val / M, (Nat.div_lt_iff_lt_mul hM).2 (by omega), i.val % M, Nat.mod_lt _ hM, ?_⟩
  rw [mul_comm, Nat.div_add_mod, ZMod.natCast_zmod_val]

omit [NeZero n] in
/-- C88: with the halo it receives, a device sees the neighbouring cells of the global array. -/
theorem padded_eq (hn : n = P * M) (a : ZMod n → ℂ) {h r p : ℕ} (hh : h ≤ M) (hr : r < P) (hp : p < M + 2 * h) :
    padded a P M h r p = a (((r * M + p : ℕ) : ZMod n) - (h : ℕ)) := by
  have key : ∀ q : ℕ, (q + h = r * M + p ∨ q + h = n + (r * M + p) ∨ q + h + n = r * M + p) → ((q : ℕ) : ZMod n) = ((r * M + p : ℕ) : ZMod n) - (h : ℕ) := by
    intro q hq
    rw [eq_sub_iff_add_eq]
    rcases hq with hq | hq | hq
    · exact_mod_cast congrArg (Nat.cast : ℕ → ZMod n) hq
    · have := congrArg (Nat.cast : ℕ → ZMod n) hq
      push_cast at this ⊢
      simpa using this
    · have := congrArg (Nat.cast : ℕ → ZMod n) hq
      push_cast at this ⊢
      simpa using this
  unfold padded
  split
  · next h1 =>
    unfold shard
    rw [key]
    rcases Nat.eq_zero_or_pos r with h0 | h0
    · right; left
      subst h0
      have e : (0 + P - 1) % P = P - 1 := by rw [Nat.zero_add]; exact Nat.mod_eq_of_lt (by omega)
      rw [e, hn]
      obtain ⟨Q, rfl⟩ : ∃ Q, P = Q + 1 := ⟨P - 1, by omega⟩
      simp only [Nat.add_sub_cancel, Nat.add_mul, Nat.one_mul]
      omega
    · left
      obtain ⟨s, rfl⟩ : ∃ s, r = s + 1 := ⟨r - 1, by omega⟩
      have e : (s + 1 + P - 1) % P = s := by
        rw [show s + 1 + P - 1 = s + P by omega, Nat.add_mod_right, Nat.mod_eq_of_lt (by omega)]
      rw [e]
      simp only [Nat.add_mul, Nat.one_mul]
      omega
  · next h1 =>
    split
    · next h2 =>
      unfold shard
      rw [key]
      left; omega
    · next h2 =>
      unfold shard
      rw [key]
      rcases Nat.lt_or_ge (r + 1) P with h0 | h0
      · left
        rw [Nat.mod_eq_of_lt h0]
        simp only [Nat.add_mul, Nat.one_mul]
        omega
      · have e : r + 1 = P := by omega
        rw [e, Nat.mod_self, hn, ← e]
        right; right
        simp only [Nat.add_mul, Nat.one_mul, Nat.zero_mul]
        omega

theorem div_size (hn : n = P * M) : n / P = M := by
  have hP : 0 < P := by
    rcases Nat.eq_zero_or_pos P with h | h
    · subst h; simp at hn; exact absurd hn (NeZero.ne n)
    · exact h
  rw [hn, Nat.mul_div_cancel_left _ hP]

/-- C88: the derivative of a divided array is a central difference of the whole array: of fourth
order when each device has two cells and the axis five, else of second order. -/
theorem partitioned_derivative (hn : n = P * M) (spacing : ℝ) (a : ZMod n → ℂ) {r i : ℕ} (hr : r < P) (hi : i < M) :
    partDeriv spacing a P r i = (if M ≥ 2 ∧ n ≥ 5 then Deriv.fourth spacing else Deriv.second spacing).apply a ((r * M + i : ℕ) : ZMod n) := by
  unfold partDeriv
  simp only [div_size hn]
  by_cases hc : M ≥ 2 ∧ n ≥ 5
  · simp only [if_pos hc]
    rw [if_neg (by norm_num), padded_eq hn a (by omega) hr (by omega), padded_eq hn a (by omega) hr (by omega), padded_eq hn a (by omega) hr (by omega),
      padded_eq hn a (by omega) hr (by omega)]
    simp only [Deriv.apply]
    push_cast
    congr 2 <;> ring_nf
  · simp only [if_neg hc, if_true]
    rw [padded_eq hn a (by omega) hr (by omega), padded_eq hn a (by omega) hr (by omega)]
    simp only [Deriv.apply]
    push_cast
    congr 2 <;> ring_nf

/-- C88: dividing the array changes the derivative exactly when the devices have a single cell of an
axis of five or more: otherwise it is the difference of the undivided run. -/
theorem partition_independent (hn : n = P * M) (spacing : ℝ) (a : ZMod n → ℂ) {r i : ℕ} (hr : r < P) (hi : i < M) (h : n < 5 ∨ 2 ≤ M) :
    partDeriv spacing a P r i = (Deriv.central n spacing).apply a ((r * M + i : ℕ) : ZMod n) := by
  rw [partitioned_derivative hn spacing a hr hi]
  unfold Deriv.central
  by_cases h5 : n < 5
  · rw [if_neg (by omega), if_pos h5]
  · rw [if_pos (by omega), if_neg h5]

/-- … and in that case it does: five devices of one cell. -/
theorem partition_dependent : ∃ a : ZMod 5 → ℂ, partDeriv 1 a 5 0 0 ≠ (Deriv.central 5 1).apply a 0 := by
  refine ⟨fun j => if j = 1 then 1 else 0, ?_⟩
  have h := partitioned_derivative (n := 5) (P := 5) (M := 1) rfl 1 (fun j => if j = 1 then (1 : ℂ) else 0) (r := 0) (i := 0) (by norm_num) (by norm_num)
  rw [h]
  rw [if_neg (by norm_num)]
  unfold Deriv.central
  rw [if_neg (by norm_num)]
  simp only [Deriv.apply]
  have e1 : ((0 * 1 + 0 : ℕ) : ZMod 5) + 1 = 1 := by decide
  have e2 : ((0 * 1 + 0 : ℕ) : ZMod 5) - 1 ≠ 1 := by decide
  have e3 : (0 : ZMod 5) - 2 ≠ 1 := by decide
  have e4 : (0 : ZMod 5) - 1 ≠ 1 := by decide
  have e5 : (0 : ZMod 5) + 1 = 1 := by decide
  have e6 : (0 : ZMod 5) + 2 ≠ 1 := by decide
  rw [if_pos e1, if_neg e2, if_neg e3, if_neg e4, if_pos e5, if_neg e6]
  intro hc
  have := congrArg Complex.re hc
  norm_num at this

/-- The filter of the whole array: eighth difference, or the three-point average. -/
noncomputable def diffFilter (eighth : Bool) (a : ZMod n → ℂ) (i : ZMod n) : ℂ :=
  if eighth then a i - (a (i - 4) - 8 * a (i - 3) + 28 * a (i - 2) - 56 * a (i - 1) + 70 * a i - 56 * a (i + 1) + 28 * a (i + 2) - 8 * a (i + 3) + a (i + 4)) / 256
  else (a (i - 1) + 2 * a i + a (i + 1)) / 4

/-- C88: the filter of a divided array is a filter of the whole array. -/
theorem partitioned_filter (hn : n = P * M) (a : ZMod n → ℂ) {r i : ℕ} (hr : r < P) (hi : i < M) :
    partFilter a P r i = diffFilter (decide (4 ≤ M)) a ((r * M + i : ℕ) : ZMod n) := by
  unfold partFilter
  simp only [div_size hn]
  by_cases hc : M ≥ 4
  · simp only [if_pos hc]
    rw [if_neg (by norm_num)]
    simp only [sum_range_succ, range_zero, sum_empty]
    rw [padded_eq hn a hc hr (by omega), padded_eq hn a hc hr (by omega), padded_eq hn a hc hr (by omega),
      padded_eq hn a hc hr (by omega), padded_eq hn a hc hr (by omega), padded_eq hn a hc hr (by omega), padded_eq hn a hc hr (by omega),
      padded_eq hn a hc hr (by omega), padded_eq hn a hc hr (by omega)]
    have e : ∀ c : ℕ, (((r * M + (i + c) : ℕ) : ZMod n) - ((4 : ℕ) : ZMod n)) = ((r * M + i : ℕ) : ZMod n) + ((c : ZMod n) - 4) := by
      intro c; push_cast; ring
    simp only [e, filterCoeff, List.getD_cons_succ, List.getD_cons_zero, shard, diffFilter, decide_eq_true hc, if_true]
    push_cast
    ring_nf
  · simp only [if_neg hc, if_true]
    rw [padded_eq hn a (by omega) hr (by omega), padded_eq hn a (by omega) hr (by omega), padded_eq hn a (by omega) hr (by omega)]
    have e : ∀ c : ℕ, (((r * M + (i + c) : ℕ) : ZMod n) - ((1 : ℕ) : ZMod n)) = ((r * M + i : ℕ) : ZMod n) + ((c : ZMod n) - 1) := by
      intro c; push_cast; ring
    have e0 : (((r * M + i : ℕ) : ZMod n) - ((1 : ℕ) : ZMod n)) = ((r * M + i : ℕ) : ZMod n) - 1 := by push_cast; ring
    simp only [e, e0, diffFilter, decide_eq_false hc, Bool.false_eq_true, if_false]
    push_cast
    ring_nf

/-- C88: what it does to a wave of phase `θ` per cell: a factor `1 - sin⁸(θ/2)`, or `cos²(θ/2)` on
devices of fewer than four cells: between 0 and 1, 1 for the mean, 0 for the Nyquist mode. -/
theorem diffFilter_wave (p : ℤ) (i : ZMod n) :
    diffFilter true (wave p) i = ((1 - Real.sin (Real.pi * p / n) ^ 8 : ℝ) : ℂ) * wave p i
    ∧ diffFilter false (wave p) i = ((Real.cos (Real.pi * p / n) ^ 2 : ℝ) : ℂ) * wave p i := by
  obtain ⟨θ, hθ⟩ : ∃ θ : ℝ, θ = Real.pi * p / n := ⟨_, rfl⟩
  obtain ⟨z, hz⟩ : ∃ z : ℂ, z = cexp ((θ : ℂ) * I) := ⟨_, rfl⟩
  have hz0 : z ≠ 0 := by rw [hz]; exact Complex.exp_ne_zero _
  have w : ∀ c : ℤ, wave p (i + (c : ZMod n)) = wave p i * (z ^ 2) ^ c := by
    intro c
    rw [wave_add, hz, ← Complex.exp_nat_mul, ← Complex.exp_int_mul, hθ]
    congr 2
    push_cast
    ring
  have w1 := w 1
  have w2 := w 2
  have w3 := w 3
  have w4 := w 4
  have m1 := w (-1)
  have m2 := w (-2)
  have m3 := w (-3)
  have m4 := w (-4)
  push_cast at w1 w2 w3 w4 m1 m2 m3 m4
  rw [← sub_eq_add_neg] at m1 m2 m3 m4
  have zs : (z - z⁻¹) = 2 * I * (Real.sin θ : ℂ) := by
    rw [hz, ← Complex.exp_neg, ← neg_mul, Complex.exp_mul_I, Complex.exp_mul_I, Complex.cos_neg, Complex.sin_neg, Complex.ofReal_sin]
    ring
  have zc : (z + z⁻¹) = 2 * (Real.cos θ : ℂ) := by
    rw [hz, ← Complex.exp_neg, ← neg_mul, Complex.exp_mul_I, Complex.exp_mul_I, Complex.cos_neg, Complex.sin_neg, Complex.ofReal_cos]
    ring
  have s8 : (Real.sin θ : ℂ) ^ 8 = (z - z⁻¹) ^ 8 / 256 := by
    rw [zs]
    have : I ^ 8 = 1 := by rw [show (8 : ℕ) = 2 * 4 from rfl, pow_mul, I_sq]; norm_num
    rw [mul_pow, mul_pow, this]
    ring
  have c2 : (Real.cos θ : ℂ) ^ 2 = (z + z⁻¹) ^ 2 / 4 := by
    rw [zc]
    ring
  unfold diffFilter
  simp only [if_true, Bool.false_eq_true, if_false, w1, w2, w3, w4, m1, m2, m3, m4, ← hθ]
  push_cast
  rw [Complex.ofReal_sin] at s8
  rw [Complex.ofReal_cos] at c2
  rw [s8, c2]
  constructor
  · simp only [zpow_neg, zpow_one, zpow_ofNat]
    field_simp
    ring
  · simp only [zpow_neg, zpow_one]
    field_simp
    ring

theorem diffFilter_sum (e : Bool) (a : ZMod n → ℂ) : ∑ i, diffFilter e a i = ∑ i, a i := by
  have sh : ∀ c : ZMod n, ∑ i, a (i + c) = ∑ i, a i := fun c => Equiv.sum_comp (Equiv.addRight c) a
  have sh' : ∀ c : ZMod n, ∑ i, a (i - c) = ∑ i, a i := fun c => Equiv.sum_comp (Equiv.subRight c) a
  cases e with
  | true =>
    unfold diffFilter
    simp only [if_true, sum_sub_distrib, sum_add_distrib, ← sum_div, ← mul_sum, sh, sh']
    ring
  | false =>
    unfold diffFilter
    simp only [Bool.false_eq_true, if_false, sum_add_distrib, ← sum_div, ← mul_sum, sh, sh']
    ring

/-- C88: the divided filter removes the oscillation from cell to cell, and only the mean is
untouched. -/
theorem diffFilter_nyquist (e : Bool) (p : ℤ) (hp : 2 * p = n) (i : ZMod n) : diffFilter e (wave p) i = 0 := by
  have hn0 : (n : ℝ) ≠ 0 := by exact_mod_cast NeZero.ne n
  have h2 : Real.pi * p / n = Real.pi / 2 := by
    have : 2 * (p : ℝ) = n := by exact_mod_cast hp
    rw [← this] at hn0 ⊢
    have hp0 : (p : ℝ) ≠ 0 := by intro h; rw [h] at hn0; simp at hn0
    field_simp
  obtain ⟨h1, h3⟩ := diffFilter_wave (n := n) p i
  rw [h2, Real.sin_pi_div_two] at h1
  rw [h2, Real.cos_pi_div_two] at h3
  cases e with
  | true => rw [h1]; simp
  | false => rw [h3]; simp

/-- C88: how many devices share the grid, and what is refused. -/
theorem sharding_iff (enabled : Bool) (axis : String) (nx devices : ℕ) (k : Option ℕ) :
    createSharding enabled axis nx devices = .ok k ↔
      (enabled = false ∧ k = none) ∨ (enabled = true ∧ axis = "x" ∧ 0 < devices ∧ devices ∣ nx ∧ k = some devices) := by
  unfold createSharding
  cases enabled with
  | false =>
    rw [if_pos rfl]
    simp [eq_comm]
  | true =>
    rw [if_neg (by simp)]
    by_cases h1 : axis ≠ "x"
    · rw [if_pos h1]; simp [h1]
    · rw [if_neg h1]
      push Not at h1
      by_cases h2 : devices = 0
      · rw [if_pos h2]; simp [h2]
      · rw [if_neg h2]
        by_cases h3 : nx % devices ≠ 0
        · rw [if_pos h3]
          have : ¬ devices ∣ nx := fun h => h3 (Nat.mod_eq_zero_of_dvd h)
          simp [this]
        · rw [if_neg h3]
          push Not at h3
          have : devices ∣ nx := Nat.dvd_of_mod_eq_zero h3
          simp only [Except.ok.injEq, Bool.true_eq_false, false_and, false_or, true_and, h1, this]
          constructor
          · intro h; exact ⟨by omega, h.symm⟩
          · intro h; exact h.2.symm

/-- C88: which Hou-Li filters are accepted. -/
theorem houLi_ok_iff (alpha : ℝ) (order : ℤ) (dims : List String) :
    houLiOk alpha order dims = .ok () ↔ 0 < alpha ∧ 1 ≤ order ∧ ∀ d ∈ dims, d = "x" ∨ d = "y" := by
  unfold houLiOk
  by_cases h1 : alpha ≤ 0
  · rw [if_pos h1]
    constructor
    · intro h; cases h
    · intro h; linarith [h.1]
  · rw [if_neg h1]
    by_cases h2 : order < 1
    · rw [if_pos h2]
      constructor
      · intro h; cases h
      · intro h; omega
    · rw [if_neg h2]
      by_cases h3 : dims.all (fun d => d = "x" ∨ d = "y") = true
      · rw [if_pos h3]
        have h4 : ∀ d ∈ dims, d = "x" ∨ d = "y" := by
          intro d hd
          have := List.all_eq_true.1 h3 d hd
          simpa using this
        exact ⟨fun _ => ⟨not_le.1 h1, by omega, h4⟩, fun _ => rfl⟩
      · rw [if_neg h3]
        constructor
        · intro h; cases h
        · intro h
          exact absurd (List.all_eq_true.2 fun d hd => by simpa using h.2.2 d hd) h3

end

/-- Eight cells on two devices. -/
example : (8 : ℕ) = 2 * 4 ∧ createSharding true "x" 8 2 = .ok (some 2) ∧ houLiOk 36 36 ["x", "y"] = .ok () :=
  ⟨rfl, rfl, (houLi_ok_iff _ _ _).2 ⟨by norm_num, by norm_num, by simp⟩⟩

end Verif.Vfp2d
