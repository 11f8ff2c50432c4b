import Verif.Lemmas.Spectral
import Verif.Spec.Spectral
import Mathlib.Tactic.Positivity
import Mathlib.Tactic.NormNum

/-! C36, C37, C58, C59: spectral advection and field solvers. -/
namespace Verif.Spectral
open Finset ZMod Complex
open scoped ComplexConjugate

variable {N : ℕ} [NeZero N]

/-! ### Modes -/

theorem mode_eq (f : ZMod N → ℝ) (p : ℤ) : mode f p = fft (fun j => (f j : ℂ)) (p : ZMod N) := by
  unfold mode fft
  rw [dft_apply]
  refine sum_congr rfl fun j _ => ?_
  rw [smul_eq_mul, mul_comm]
  congr 1
  have : -(j * (p : ZMod N)) = ((-(p * (j.val : ℤ)) : ℤ) : ZMod N) := by
    push_cast
    rw [natCast_zmod_val]; ring
  rw [this, stdAddChar_coe]
  congr 1
  push_cast
  ring

/-- Every frequency of the transform is a mode with `-N/2 ≤ p < N/2 + 1`. -/
theorem resolved_index {p : ℤ} (hp : Resolved N p) (h0 : p ≠ 0) :
    ((p : ZMod N).val ≠ 0) ∧ 2 * (p : ZMod N).val ≠ N ∧
    (((0 < p ∧ ((p : ZMod N).val : ℤ) = p) ∨ (p < 0 ∧ ((p : ZMod N).val : ℤ) = p + N))) := by
  unfold Resolved at hp
  have hv : ((p : ZMod N).val : ℤ) = p % N := val_intCast p
  rcases lt_or_gt_of_ne h0 with h | h
  · rw [abs_of_neg h] at hp
    have hm : p % (N : ℤ) = p + N := by
      rw [← Int.add_emod_right, Int.emod_eq_of_lt (by omega) (by omega)]
    rw [hm] at hv
    refine ⟨by omega, by omega, Or.inr ⟨h, hv⟩⟩
  · rw [abs_of_pos h] at hp
    have hm : p % (N : ℤ) = p := Int.emod_eq_of_lt (by omega) (by omega)
    rw [hm] at hv
    refine ⟨by omega, by omega, Or.inl ⟨h, hv⟩⟩

theorem kfull_eq (dx : ℝ) {p : ℤ} (hp : Resolved N p) : kfull dx (p : ZMod N) = waveNumber N dx p := by
  unfold kfull waveNumber Grid.fftfreqAt
  by_cases h0 : p = 0
  · subst h0
    simp
  · obtain ⟨_, _, h⟩ := resolved_index hp h0
    unfold Resolved at hp
    rcases h with ⟨h1, h2⟩ | ⟨h1, h2⟩
    · rw [abs_of_pos h1] at hp
      rw [if_pos (by omega)]
      have : (((p : ZMod N).val : ℕ) : ℝ) = (p : ℝ) := by exact_mod_cast congrArg (Int.cast : ℤ → ℝ) h2
      rw [this]; ring
    · rw [abs_of_neg h1] at hp
      rw [if_neg (by omega)]
      have : (((p : ZMod N).val : ℕ) : ℝ) = (p : ℝ) + N := by exact_mod_cast congrArg (Int.cast : ℤ → ℝ) h2
      rw [this]; ring

theorem mode_neg (f : ZMod N → ℝ) (p : ℤ) : mode f (-p) = conj (mode f p) := by
  rw [mode_eq, mode_eq, ← fft_real]; congr 1; push_cast; rfl

theorem mode_zero (f : ZMod N → ℝ) : mode f 0 = ((∑ j, f j : ℝ) : ℂ) := by
  unfold mode; push_cast; simp

/-- Two arrays with the same sum, the same resolved modes and the same alternating sum
are equal: nothing else is hidden. -/
theorem alternating_eq (f : ZMod N → ℝ) {k : ZMod N} (hk : 2 * k.val = N) :
    fft (fun j => (f j : ℂ)) k = (alternating f : ℂ) := by
  unfold fft alternating
  rw [dft_apply]
  push_cast
  refine sum_congr rfl fun j _ => ?_
  rw [smul_eq_mul]
  congr 1
  have : -(j * k) = ((-((j.val : ℤ) * (k.val : ℤ)) : ℤ) : ZMod N) := by
    push_cast
    rw [natCast_zmod_val, natCast_zmod_val]
  rw [this, stdAddChar_coe]
  have hN : (N : ℂ) ≠ 0 := Nat.cast_ne_zero.2 (NeZero.ne N)
  have hk' : (k.val : ℂ) = N / 2 := by
    have : (2 : ℂ) * k.val = N := by exact_mod_cast hk
    rw [← this]; ring
  push_cast
  rw [hk']
  have e : 2 * (Real.pi : ℂ) * I * -((j.val : ℂ) * (N / 2)) / N = (j.val : ℂ) * (-(Real.pi * I)) := by field_simp
  rw [e, Complex.exp_nat_mul, Complex.exp_neg, Complex.exp_pi_mul_I]
  norm_num

theorem eq_of_modes {f g : ZMod N → ℝ} (hm : ∀ p : ℤ, Resolved N p → mode f p = mode g p)
    (ha : 2 ∣ N → alternating f = alternating g) : f = g := by
  refine fft_inj fun k => ?_
  by_cases hk : 2 * k.val = N
  · rw [alternating_eq f hk, alternating_eq g hk, ha ⟨_, hk.symm⟩]
  · have hl := k.val_lt
    by_cases h2 : 2 * k.val < N
    · have := hm (k.val : ℤ) (by unfold Resolved; rw [abs_of_nonneg (by positivity)]; exact_mod_cast h2)
      rw [mode_eq, mode_eq] at this
      simpa using this
    · have := hm ((k.val : ℤ) - N) (by unfold Resolved; rw [abs_of_neg (by omega)]; omega)
      rw [mode_eq, mode_eq] at this
      simpa using this

/-! ### Spectral shifts (C36) -/

/-- The code calls `irfft` without a length, so a row keeps its length only when that is
even: odd grids lose a cell. -/
theorem round_trip_length (n : ℕ) (hn : 0 < n) : irfftLen (rfftLen n) = n ↔ n % 2 = 0 := by
  unfold irfftLen rfftLen; omega

theorem hermitian_shift (d s : ℝ) {k : ZMod N} (hk : 2 * k.val ≠ N) :
    hermitian N (fun k => cexp (-I * (kr N d k * s : ℝ))) k = cexp (-I * (kfull d k * s : ℝ)) := by
  have hl := k.val_lt
  unfold hermitian
  by_cases h0 : k.val = 0
  · simp [h0, kr, kfull, Grid.rfftfreqAt, Grid.fftfreqAt]
  · rw [if_neg h0, if_neg hk]
    by_cases h2 : 2 * k.val < N
    · rw [if_pos h2]
      unfold kr kfull Grid.rfftfreqAt Grid.fftfreqAt
      rw [if_pos (by omega)]
    · rw [if_neg h2, ← Complex.exp_conj]
      congr 1
      unfold kr kfull Grid.rfftfreqAt Grid.fftfreqAt
      rw [if_neg (by omega), Nat.cast_sub hl.le]
      simp only [map_mul, map_neg, conj_I, conj_ofReal]
      push_cast
      ring

theorem hermitian_shift_nyquist (d s : ℝ) {k : ZMod N} (hk : 2 * k.val = N) :
    hermitian N (fun k => cexp (-I * (kr N d k * s : ℝ))) k = (Real.cos (Real.pi / d * s) : ℂ) := by
  have hN := NeZero.ne N
  unfold hermitian
  rw [if_neg (by omega), if_pos hk]
  congr 1
  have : -I * ((kr N d k.val * s : ℝ) : ℂ) = ((-(kr N d k.val * s) : ℝ) : ℂ) * I := by push_cast; ring
  dsimp only
  rw [this, exp_ofReal_mul_I_re, Real.cos_neg]
  congr 2
  unfold kr Grid.rfftfreqAt
  have h : (N : ℝ) = 2 * k.val := by exact_mod_cast hk.symm
  have hk0 : (k.val : ℝ) ≠ 0 := Nat.cast_ne_zero.2 (by omega)
  rw [h]
  field_simp

/-- C36: what a shift does to every mode of a row. -/
theorem shift_modes (d s : ℝ) (f : ZMod N → ℝ) :
    (∀ p : ℤ, Resolved N p → mode (shift d s f) p = cexp (-I * (waveNumber N d p * s : ℝ)) * mode f p) ∧
    (2 ∣ N → alternating (shift d s f) = Real.cos (Real.pi / d * s) * alternating f) := by
  constructor
  · intro p hp
    rw [mode_eq, mode_eq]
    unfold shift
    rw [fft_filterRow, hermitian_shift, kfull_eq d hp]
    by_cases h0 : p = 0
    · subst h0
      simpa using (NeZero.ne N).symm
    · exact (resolved_index hp h0).2.1
  · rintro ⟨M, hM⟩
    have hN := NeZero.ne N
    have hk : 2 * ((M : ℕ) : ZMod N).val = N := by
      rw [val_natCast, Nat.mod_eq_of_lt (by omega)]; exact hM.symm
    have h := fft_filterRow (fun k => cexp (-I * (kr N d k * s : ℝ))) f ((M : ℕ) : ZMod N)
    rw [alternating_eq _ hk, alternating_eq _ hk, hermitian_shift_nyquist d s hk] at h
    unfold shift
    exact_mod_cast h

/-- C36: a shift keeps the number of particles in the row. -/
theorem shift_conserves (d s : ℝ) (f : ZMod N → ℝ) : ∑ j, shift d s f j = ∑ j, f j := by
  have h := (shift_modes d s f).1 0 (by unfold Resolved; simpa using Nat.pos_of_ne_zero (NeZero.ne N))
  rw [mode_zero, mode_zero] at h
  simp only [waveNumber, Int.cast_zero, mul_zero, zero_div, zero_mul, ofReal_zero, Complex.exp_zero, one_mul] at h
  exact_mod_cast h

/-- C36: no displacement, no change. -/
theorem shift_zero (d : ℝ) (f : ZMod N → ℝ) : shift d 0 f = f := by
  refine eq_of_modes (fun p hp => ?_) fun h => ?_
  · rw [(shift_modes d 0 f).1 p hp]; simp
  · rw [(shift_modes d 0 f).2 h]; simp

/-- C36: a displacement by a whole number of cells moves the row cyclically, exactly:
what leaves at one end re-enters at the other. -/
theorem shift_cells (d : ℝ) (hd : d ≠ 0) (c : ℤ) (f : ZMod N → ℝ) (j : ZMod N) :
    shift d (c * d) f j = f (j - (c : ZMod N)) := by
  have hN : (N : ℂ) ≠ 0 := Nat.cast_ne_zero.2 (NeZero.ne N)
  have hNr : (N : ℝ) ≠ 0 := Nat.cast_ne_zero.2 (NeZero.ne N)
  have key : ∀ k : ZMod N, fft (fun j => ((f (j - (c : ZMod N)) : ℝ) : ℂ)) k = stdAddChar (-((c : ZMod N) * k)) * fft (fun j => (f j : ℂ)) k := by
    intro k
    unfold fft
    rw [dft_apply, dft_apply, mul_sum, ← Equiv.sum_comp (Equiv.addRight (c : ZMod N))]
    refine sum_congr rfl fun i _ => ?_
    simp only [Equiv.coe_addRight, add_sub_cancel_right, smul_eq_mul]
    rw [← mul_assoc, ← AddChar.map_add_eq_mul]
    congr 2; ring
  refine congrFun (eq_of_modes (f := shift d (c * d) f) (g := fun j => f (j - (c : ZMod N))) (fun p hp => ?_) fun h => ?_) j
  · rw [(shift_modes d _ f).1 p hp, mode_eq, mode_eq, key]
    congr 1
    have : -((c : ZMod N) * (p : ZMod N)) = ((-(c * p) : ℤ) : ZMod N) := by push_cast; ring
    rw [this, stdAddChar_coe]
    congr 1
    unfold waveNumber
    push_cast
    have hdc : (d : ℂ) ≠ 0 := by exact_mod_cast hd
    field_simp
  · obtain ⟨M, hM⟩ := h
    have hN' := NeZero.ne N
    have hk : 2 * ((M : ℕ) : ZMod N).val = N := by
      rw [val_natCast, Nat.mod_eq_of_lt (by omega)]; exact hM.symm
    have h1 := key ((M : ℕ) : ZMod N)
    rw [alternating_eq _ hk, alternating_eq _ hk] at h1
    rw [(shift_modes d _ f).2 ⟨M, hM⟩]
    have : -((c : ZMod N) * ((M : ℕ) : ZMod N)) = ((-(c * (M : ℤ)) : ℤ) : ZMod N) := by push_cast; ring
    rw [this, stdAddChar_coe] at h1
    have e : 2 * (Real.pi : ℂ) * I * ((-(c * (M : ℤ)) : ℤ) : ℂ) / N = ((-(c * Real.pi) : ℝ) : ℂ) * I := by
      have : (N : ℂ) = 2 * M := by exact_mod_cast hM
      have hM0 : (M : ℂ) ≠ 0 := Nat.cast_ne_zero.2 (by omega)
      rw [this]; push_cast; field_simp
    rw [e, Complex.exp_mul_I, ← ofReal_cos, ← ofReal_sin, Real.cos_neg, Real.sin_neg, Real.sin_int_mul_pi] at h1
    have e2 : Real.pi / d * (c * d) = c * Real.pi := by field_simp
    rw [e2]
    simp only [neg_zero, ofReal_zero, zero_mul, add_zero] at h1
    exact_mod_cast h1.symm

/-- C36: successive displacements add, for rows without the grid-scale oscillation. -/
theorem shift_add_partial (d s t : ℝ) (f : ZMod N → ℝ) (hf : 2 ∣ N → alternating f = 0) :
    shift d t (shift d s f) = shift d (s + t) f := by
  refine eq_of_modes (fun p hp => ?_) fun h => ?_
  · rw [(shift_modes ..).1 p hp, (shift_modes ..).1 p hp, (shift_modes ..).1 p hp, ← mul_assoc, ← Complex.exp_add]
    congr 2; push_cast; ring
  · rw [(shift_modes ..).2 h, (shift_modes ..).2 h, (shift_modes ..).2 h, hf h]; simp

/-- With that oscillation they do not: two half-cell shifts erase it, one whole-cell shift
reverses its sign. -/
theorem shift_add_fails : ∃ f : ZMod 2 → ℝ, shift 1 (1 / 2) (shift 1 (1 / 2) f) ≠ shift 1 (1 / 2 + 1 / 2) f := by
  refine ⟨fun j => if j = 0 then 1 else -1, fun h => ?_⟩
  have ha := congrArg alternating h
  rw [(shift_modes ..).2 (dvd_refl 2), (shift_modes ..).2 (dvd_refl 2), (shift_modes ..).2 (dvd_refl 2)] at ha
  have e1 : Real.pi / 1 * (1 / 2) = Real.pi / 2 := by ring
  have e2 : Real.pi / 1 * (1 / 2 + 1 / 2) = Real.pi := by ring
  rw [e1, e2, Real.cos_pi_div_two, Real.cos_pi] at ha
  have : alternating (fun j : ZMod 2 => if j = 0 then (1 : ℝ) else -1) = 2 := by
    unfold alternating
    rw [show (univ : Finset (ZMod 2)) = {0, 1} by decide, sum_insert (by decide), sum_singleton]
    norm_num [show (1 : ZMod 2).val = 1 by decide]
  rw [this] at ha
  norm_num at ha

/-- Parseval for real rows. -/
theorem sum_sq (f : ZMod N → ℝ) : (N : ℝ) * ∑ j, f j ^ 2 = ∑ k, normSq (fft (fun j => (f j : ℂ)) k) := by
  have h := parseval (fun j => (f j : ℂ)) (fun j => (f j : ℂ))
  have e1 : ∑ k, conj (fft (fun j => (f j : ℂ)) k) * fft (fun j => (f j : ℂ)) k =
      ((∑ k, normSq (fft (fun j => (f j : ℂ)) k) : ℝ) : ℂ) := by
    push_cast
    exact sum_congr rfl fun k _ => by rw [normSq_eq_conj_mul_self]
  have e2 : (N : ℂ) * ∑ j, conj (f j : ℂ) * (f j : ℂ) = ((N * ∑ j, f j ^ 2 : ℝ) : ℂ) := by
    push_cast
    congr 1
    exact sum_congr rfl fun j _ => by rw [conj_ofReal]; ring
  rw [e1, e2] at h
  exact_mod_cast h.symm

theorem filterRow_sq_le (m : ℕ → ℂ) (f : ZMod N → ℝ) (hm : ∀ k, normSq (hermitian N m k) ≤ 1) :
    ∑ j, filterRow m f j ^ 2 ≤ ∑ j, f j ^ 2 := by
  have hN : (0 : ℝ) < N := Nat.cast_pos.2 (Nat.pos_of_ne_zero (NeZero.ne N))
  refine le_of_mul_le_mul_left ?_ hN
  rw [sum_sq, sum_sq]
  refine sum_le_sum fun k _ => ?_
  rw [fft_filterRow, normSq_mul]
  exact mul_le_of_le_one_left (normSq_nonneg _) (hm k)

theorem normSq_exp_I (x : ℝ) : normSq (cexp (-I * (x : ℂ))) = 1 := by
  have : -I * (x : ℂ) = ((-x : ℝ) : ℂ) * I := by push_cast; ring
  rw [this, normSq_eq_norm_sq, norm_exp_ofReal_mul_I, one_pow]

/-- C36: a shift never increases `∑ f²`, and keeps it without the grid-scale
oscillation. -/
theorem shift_sum_sq (d s : ℝ) (f : ZMod N → ℝ) :
    ∑ j, shift d s f j ^ 2 ≤ ∑ j, f j ^ 2 ∧ ((2 ∣ N → alternating f = 0) → ∑ j, shift d s f j ^ 2 = ∑ j, f j ^ 2) := by
  constructor
  · refine filterRow_sq_le _ f fun k => ?_
    by_cases hk : 2 * k.val = N
    · rw [hermitian_shift_nyquist d s hk, normSq_ofReal]
      have := Real.cos_sq_le_one (Real.pi / d * s)
      nlinarith
    · rw [hermitian_shift d s hk, normSq_exp_I]
  · intro hf
    refine le_antisymm ?_ ?_
    · refine filterRow_sq_le _ f fun k => ?_
      by_cases hk : 2 * k.val = N
      · rw [hermitian_shift_nyquist d s hk, normSq_ofReal]
        have := Real.cos_sq_le_one (Real.pi / d * s)
        nlinarith
      · rw [hermitian_shift d s hk, normSq_exp_I]
    · have h := shift_add_partial d s (-s) f hf
      rw [add_neg_cancel, shift_zero] at h
      conv_lhs => rw [← h]
      refine filterRow_sq_le _ _ fun k => ?_
      by_cases hk : 2 * k.val = N
      · rw [hermitian_shift_nyquist d (-s) hk, normSq_ofReal]
        have := Real.cos_sq_le_one (Real.pi / d * -s)
        nlinarith
      · rw [hermitian_shift d (-s) hk, normSq_exp_I]

/-! ### The pushers (C36) -/

/-- C36: velocity advection keeps the density at every position, for every field and step;
without force it does nothing. -/
theorem edfdv_density {nx nv : ℕ} [NeZero nv] (dv q m : ℝ) (e pond : ZMod nx → ℝ) (dt : ℝ) (f : ZMod nx → ZMod nv → ℝ) :
    (∀ x, ∑ j, edfdv dv q m e pond dt f x j = ∑ j, f x j) ∧
    (∀ x, e x = 0 → pond x = 0 → edfdv dv q m e pond dt f x = f x) ∧ edfdv dv q m e pond 0 f = f ∧
    edfdv dv 0 m e pond dt f = f := by
  unfold edfdv accel
  refine ⟨fun x => shift_conserves _ _ _, fun x he hp => ?_, ?_, ?_⟩
  · rw [he, hp]; simp only [mul_zero, add_zero, zero_div]; exact shift_zero _ _
  · funext x; simp only [zero_mul, shift_zero]
  · funext x; simp [shift_zero]

/-- C36: space advection keeps the number of particles of every velocity, hence all
velocity moments of the box (number, momentum, kinetic energy); it does nothing to
particles at rest. -/
theorem vdfdx_moments {nx nv : ℕ} [NeZero nx] [NeZero nv] (dx : ℝ) (v : ZMod nv → ℝ) (dt : ℝ) (f : ZMod nx → ZMod nv → ℝ) :
    (∀ j, ∑ x, vdfdx dx v dt f x j = ∑ x, f x j) ∧
    (∀ w : ZMod nv → ℝ, ∑ x, ∑ j, w j * vdfdx dx v dt f x j = ∑ x, ∑ j, w j * f x j) ∧
    (∀ j, v j = 0 → ∀ x, vdfdx dx v dt f x j = f x j) ∧ vdfdx dx v 0 f = f := by
  have h1 : ∀ j, ∑ x, vdfdx dx v dt f x j = ∑ x, f x j := fun j => shift_conserves dx (v j * dt) fun y => f y j
  refine ⟨h1, fun w => ?_, fun j hj x => ?_, ?_⟩
  · rw [sum_comm, sum_comm (f := fun x j => w j * f x j)]
    refine sum_congr rfl fun j _ => ?_
    rw [← mul_sum, ← mul_sum, h1]
  · unfold vdfdx
    rw [hj, zero_mul, shift_zero]
  · funext x j
    unfold vdfdx
    rw [mul_zero, shift_zero]

/-- C36: particles that cross a whole number of cells in a step arrive exactly there. -/
theorem vdfdx_cells {nx nv : ℕ} [NeZero nx] (dx : ℝ) (hdx : dx ≠ 0) (v : ZMod nv → ℝ) (dt : ℝ) (f : ZMod nx → ZMod nv → ℝ)
    (x : ZMod nx) (j : ZMod nv) (c : ℤ) (hc : v j * dt = c * dx) : vdfdx dx v dt f x j = f (x - (c : ZMod nx)) j := by
  unfold vdfdx
  rw [hc, shift_cells dx hdx]

example : vdfdx (nx := 8) (nv := 2) 1 (fun _ => 3) 1 (fun x _ => if x = 0 then 1 else 0) 3 0 = 1 := by
  rw [vdfdx_cells 1 one_ne_zero _ _ _ _ _ 3 (by norm_num)]
  rw [if_pos (by decide)]

/-- C36: total number of particles over one advection in space and one in velocity. -/
theorem advection_conserves {nx nv : ℕ} [NeZero nx] [NeZero nv] (dx dv q m : ℝ) (v : ZMod nv → ℝ) (e pond : ZMod nx → ℝ)
    (dt dt' : ℝ) (f : ZMod nx → ZMod nv → ℝ) :
    ∑ x, ∑ j, edfdv dv q m e pond dt' (vdfdx dx v dt f) x j = ∑ x, ∑ j, f x j := by
  have h := (vdfdx_moments dx v dt f).2.1 fun _ => 1
  simp only [one_mul] at h
  rw [← h]
  exact sum_congr rfl fun x _ => (edfdv_density ..).1 x

/-! ### The Hou-Li filter (C59) -/

/-- C59: the filter factors lie in `(0, 1]`, decrease with the mode number, and for a
positive order leave the mean alone. -/
theorem houLi_factors (nx : ℕ) (alpha : ℝ) (ha : 0 ≤ alpha) (order : ℕ) :
    (∀ k, 0 < houLi nx alpha order k ∧ houLi nx alpha order k ≤ 1) ∧
    (∀ k l, k ≤ l → houLi nx alpha order l ≤ houLi nx alpha order k) ∧ (0 < order → houLi nx alpha order 0 = 1) ∧
    houLi nx alpha 0 0 = Real.exp (-alpha) := by
  unfold houLi
  refine ⟨fun k => ⟨Real.exp_pos _, ?_⟩, fun k l hkl => ?_, fun h => ?_, by simp⟩
  · rw [Real.exp_le_one_iff]
    have : 0 ≤ ((k : ℝ) / ((nx / 2 : ℕ) : ℝ)) ^ (2 * order) := by positivity
    nlinarith
  · rw [Real.exp_le_exp]
    have : ((k : ℝ) / ((nx / 2 : ℕ) : ℝ)) ^ (2 * order) ≤ ((l : ℝ) / ((nx / 2 : ℕ) : ℝ)) ^ (2 * order) := by
      gcongr
    nlinarith
  · rw [Nat.cast_zero, zero_div, zero_pow (by omega)]; simp

theorem hermitian_real (m : ℕ → ℝ) (k : ZMod N) : ∃ i, hermitian N (fun k => (m k : ℂ)) k = (m i : ℂ) := by
  unfold hermitian
  split
  · exact ⟨0, by simp⟩
  · split
    · exact ⟨k.val, by simp⟩
    · split
      · exact ⟨k.val, rfl⟩
      · exact ⟨N - k.val, by simp⟩

/-- C59: the filter keeps the number of particles of every velocity (order at least 1) and
never increases `∑ f²`. -/
theorem houLi_filter {nx nv : ℕ} [NeZero nx] (alpha : ℝ) (ha : 0 ≤ alpha) (order : ℕ) (ho : 0 < order)
    (f : ZMod nx → ZMod nv → ℝ) (j : ZMod nv) :
    ∑ x, houLiFilter alpha order f x j = ∑ x, f x j ∧ ∑ x, houLiFilter alpha order f x j ^ 2 ≤ ∑ x, f x j ^ 2 := by
  obtain ⟨h1, _, h0, _⟩ := houLi_factors nx alpha ha order
  constructor
  · have h := fft_filterRow (fun k => (houLi nx alpha order k : ℂ)) (fun y => f y j) 0
    rw [fft_zero, fft_zero] at h
    have e : hermitian nx (fun k => (houLi nx alpha order k : ℂ)) 0 = 1 := by
      unfold hermitian; rw [if_pos val_zero]; dsimp only; rw [h0 ho]; simp
    rw [e, one_mul] at h
    unfold houLiFilter
    exact_mod_cast h
  · unfold houLiFilter
    refine filterRow_sq_le _ (fun y => f y j) fun k => ?_
    obtain ⟨i, hi⟩ := hermitian_real (N := nx) (houLi nx alpha order) k
    rw [hi, normSq_ofReal]
    obtain ⟨p, q⟩ := h1 i
    nlinarith

/-- With order 0 (accepted by the code) the filter removes particles. -/
theorem houLi_order_zero {nx nv : ℕ} [NeZero nx] (alpha : ℝ) (f : ZMod nx → ZMod nv → ℝ) (j : ZMod nv) :
    ∑ x, houLiFilter alpha 0 f x j = Real.exp (-alpha) * ∑ x, f x j := by
  have h := fft_filterRow (fun k => (houLi nx alpha 0 k : ℂ)) (fun y => f y j) 0
  rw [fft_zero, fft_zero] at h
  have e : hermitian nx (fun k => (houLi nx alpha 0 k : ℂ)) 0 = (Real.exp (-alpha) : ℂ) := by
    unfold hermitian; rw [if_pos val_zero]; dsimp only; rw [ofReal_re]; congr 1; unfold houLi; simp
  rw [e] at h
  unfold houLiFilter
  exact_mod_cast h

/-! ### Field solvers (C37) -/

/-- The spectrum of a field computed with an odd real kernel. -/
theorem fft_odd_kernel (κ : ZMod N → ℝ) (hodd : ∀ k : ZMod N, k.val ≠ 0 → 2 * k.val ≠ N → κ (-k) = -κ k) (h0 : κ 0 = 0)
    (rho : ZMod N → ℝ) (k : ZMod N) :
    fft (fun x => ((ifft (fun k => -I * (κ k : ℂ) * fft (fun j => (rho j : ℂ)) k) x).re : ℂ)) k =
      if 2 * k.val = N then 0 else -I * (κ k : ℂ) * fft (fun j => (rho j : ℂ)) k := by
  rw [fft_re_ifft]
  unfold symm
  rw [map_mul, ← fft_real, neg_neg]
  simp only [map_mul, map_neg, conj_I, conj_ofReal]
  by_cases hz : k.val = 0
  · have : k = 0 := val_eq_zero k |>.1 hz
    subst this
    have hN := NeZero.ne N
    rw [if_neg (by rw [hz]; omega), neg_zero, h0]; simp
  · by_cases hk : 2 * k.val = N
    · rw [if_pos hk, (neg_eq_self_iff hz).2 hk]; ring
    · rw [if_neg hk, hodd k hz hk]; push_cast; ring

theorem kfull_odd (dx : ℝ) (k : ZMod N) (hz : k.val ≠ 0) (hk : 2 * k.val ≠ N) : kfull dx (-k) = -kfull dx k := by
  have hl := k.val_lt
  unfold kfull Grid.fftfreqAt
  rw [neg_val_ne hz, Nat.cast_sub hl.le]
  by_cases h : 2 * k.val < N
  · rw [if_neg (by omega), if_pos (by omega)]; ring
  · rw [if_pos (by omega), if_neg (by omega)]; ring

theorem kfull_zero (dx : ℝ) : kfull dx (0 : ZMod N) = 0 := by
  unfold kfull Grid.fftfreqAt; simp

theorem kfull_ne_zero {dx : ℝ} (hdx : dx ≠ 0) {k : ZMod N} (hz : k.val ≠ 0) : kfull dx k ≠ 0 := by
  have hl := k.val_lt
  have hN : (N : ℝ) ≠ 0 := Nat.cast_ne_zero.2 (NeZero.ne N)
  unfold kfull Grid.fftfreqAt
  refine mul_ne_zero (div_ne_zero ?_ (mul_ne_zero hN hdx)) (by positivity)
  split
  · exact Nat.cast_ne_zero.2 hz
  · rw [sub_ne_zero]
    exact_mod_cast hl.ne

theorem oneOverK_odd (dx : ℝ) (k : ZMod N) (hz : k.val ≠ 0) (hk : 2 * k.val ≠ N) : oneOverK dx (-k) = -oneOverK dx k := by
  have hl := k.val_lt
  unfold oneOverK
  rw [if_neg (by rw [neg_val_ne hz]; omega), if_neg hz, kfull_odd dx k hz hk, div_neg]

/-- The net force `∑ rho E` of a field computed with an odd kernel vanishes. -/
theorem odd_kernel_force (κ : ZMod N → ℝ) (hodd : ∀ k : ZMod N, k.val ≠ 0 → 2 * k.val ≠ N → κ (-k) = -κ k) (h0 : κ 0 = 0)
    (rho : ZMod N → ℝ) :
    ∑ x, rho x * (ifft (fun k => -I * (κ k : ℂ) * fft (fun j => (rho j : ℂ)) k) x).re = 0 := by
  set E : ZMod N → ℝ := fun x => (ifft (fun k => -I * (κ k : ℂ) * fft (fun j => (rho j : ℂ)) k) x).re with hE
  have h := parseval (fun j => (rho j : ℂ)) (fun j => (E j : ℂ))
  have hF : ∀ k, fft (fun j => (E j : ℂ)) k = if 2 * k.val = N then 0 else -I * (κ k : ℂ) * fft (fun j => (rho j : ℂ)) k :=
    fft_odd_kernel κ hodd h0 rho
  set g : ZMod N → ℂ := fun k => conj (fft (fun j => (rho j : ℂ)) k) * fft (fun j => (E j : ℂ)) k with hg
  have hneg : ∀ k, g (-k) = -g k := by
    intro k
    simp only [hg]
    rw [hF, hF, fft_real, conj_conj]
    by_cases hz : k.val = 0
    · have : k = 0 := val_eq_zero k |>.1 hz
      subst this
      simp [h0]
    · by_cases hk : 2 * k.val = N
      · rw [if_pos hk, (neg_eq_self_iff hz).2 hk, if_pos hk]; simp
      · have hl := k.val_lt
        rw [if_neg hk, if_neg (by rw [neg_val_ne hz]; omega), hodd k hz hk]
        push_cast; ring
  have hs : ∑ k, g k = 0 := by
    have h1 : ∑ k, g (-k) = ∑ k, g k := Equiv.sum_comp (Equiv.neg (ZMod N)) g
    simp only [hneg, sum_neg_distrib] at h1
    have : 2 * ∑ k, g k = 0 := by linear_combination -h1
    simpa using this
  rw [hs] at h
  have hN : (N : ℂ) ≠ 0 := Nat.cast_ne_zero.2 (NeZero.ne N)
  have h2 := (mul_eq_zero.1 h.symm).resolve_left hN
  simp only [conj_ofReal] at h2
  exact_mod_cast h2

/-- C37: the Poisson field satisfies Gauss's law `i k E = rho` in every resolved mode but
the mean, has zero mean and no grid-scale oscillation, and exerts no net force. -/
theorem poisson_field (dx : ℝ) (hdx : dx ≠ 0) (rho : ZMod N → ℝ) :
    (∀ p : ℤ, Resolved N p → p ≠ 0 → gaussError dx (poisson dx rho) rho p = 0) ∧
    ∑ x, poisson dx rho x = 0 ∧ (2 ∣ N → alternating (poisson dx rho) = 0) ∧ ∑ x, rho x * poisson dx rho x = 0 := by
  have hF := fft_odd_kernel (N := N) (oneOverK dx) (oneOverK_odd dx) (by unfold oneOverK; simp) rho
  have hF' : ∀ k, fft (fun x => (poisson dx rho x : ℂ)) k = if 2 * k.val = N then 0 else
      -I * (oneOverK dx k : ℂ) * fft (fun j => (rho j : ℂ)) k := hF
  refine ⟨fun p hp h0 => ?_, ?_, ?_, odd_kernel_force (oneOverK dx) (oneOverK_odd dx) (by unfold oneOverK; simp) rho⟩
  · obtain ⟨hz, hk, _⟩ := resolved_index hp h0
    unfold gaussError
    rw [mode_eq, mode_eq, hF', if_neg hk, ← kfull_eq dx hp]
    unfold oneOverK
    rw [if_neg hz]
    have := kfull_ne_zero hdx hz
    have hc : (kfull dx (p : ZMod N) : ℂ) ≠ 0 := by exact_mod_cast this
    push_cast
    field_simp
    rw [I_sq]; ring
  · have h := hF' 0
    have hN := NeZero.ne N
    rw [if_neg (by rw [val_zero]; omega), fft_zero] at h
    unfold oneOverK at h
    simp only [val_zero, if_true, ofReal_zero, mul_zero, zero_mul] at h
    exact_mod_cast h
  · rintro ⟨M, hM⟩
    have hN := NeZero.ne N
    have hk : 2 * ((M : ℕ) : ZMod N).val = N := by
      rw [val_natCast, Nat.mod_eq_of_lt (by omega)]; exact hM.symm
    have h := hF' ((M : ℕ) : ZMod N)
    rw [if_pos hk, alternating_eq _ hk] at h
    exact_mod_cast h

/-- C37: these properties determine the field. -/
theorem poisson_unique (dx : ℝ) (hdx : dx ≠ 0) (rho E : ZMod N → ℝ)
    (hg : ∀ p : ℤ, Resolved N p → p ≠ 0 → gaussError dx E rho p = 0) (h0 : ∑ x, E x = 0) (ha : 2 ∣ N → alternating E = 0) :
    E = poisson dx rho := by
  obtain ⟨a, b, c, _⟩ := poisson_field dx hdx rho
  refine eq_of_modes (fun p hp => ?_) fun h => by rw [ha h, c h]
  by_cases hp0 : p = 0
  · subst hp0; rw [mode_zero, mode_zero, h0, b]
  · have h1 := hg p hp hp0
    have h2 := a p hp hp0
    unfold gaussError at h1 h2
    obtain ⟨hz, _, _⟩ := resolved_index hp hp0
    have hk := kfull_ne_zero hdx hz
    rw [kfull_eq dx hp] at hk
    have hc : I * (waveNumber N dx p : ℂ) ≠ 0 := mul_ne_zero I_ne_zero (by exact_mod_cast hk)
    have : I * (waveNumber N dx p : ℂ) * mode E p = I * (waveNumber N dx p : ℂ) * mode (poisson dx rho) p := by
      rw [sub_eq_zero.1 h1, sub_eq_zero.1 h2]
    exact mul_left_cancel₀ hc this

/-- C37: the field of Boltzmann electrons: screened modes, zero mean, no net force. -/
theorem boltzmann_field (dx Te : ℝ) (lambdaDe : Option ℝ) (rho : ZMod N → ℝ) :
    (∀ p : ℤ, Resolved N p → mode (boltzmann dx Te lambdaDe rho) p =
      -I * ((waveNumber N dx p * (Te / ((∑ j, rho j) / N)) /
        (1 + (lambdaDe.elim (Te / ((∑ j, rho j) / N)) (· ^ 2)) * waveNumber N dx p ^ 2) : ℝ) : ℂ) * mode rho p) ∧
    ∑ x, boltzmann dx Te lambdaDe rho x = 0 ∧ ∑ x, rho x * boltzmann dx Te lambdaDe rho x = 0 := by
  set κ : ZMod N → ℝ := fun k => kfull dx k * (Te / ((∑ j, rho j) / N)) /
    (1 + (lambdaDe.elim (Te / ((∑ j, rho j) / N)) (· ^ 2)) * kfull dx k ^ 2) with hκ
  have hodd : ∀ k : ZMod N, k.val ≠ 0 → 2 * k.val ≠ N → κ (-k) = -κ k := by
    intro k hz hk
    simp only [hκ]
    rw [kfull_odd dx k hz hk, neg_sq]; ring
  have h0 : κ 0 = 0 := by simp only [hκ]; rw [kfull_zero]; simp
  have hb : ∀ x, boltzmann dx Te lambdaDe rho x = (ifft (fun k => -I * (κ k : ℂ) * fft (fun j => (rho j : ℂ)) k) x).re := by
    intro x
    unfold boltzmann
    cases lambdaDe <;> rfl
  have hF : ∀ k, fft (fun x => (boltzmann dx Te lambdaDe rho x : ℂ)) k = if 2 * k.val = N then 0 else
      -I * (κ k : ℂ) * fft (fun j => (rho j : ℂ)) k := by
    intro k
    simp only [hb]
    exact fft_odd_kernel κ hodd h0 rho k
  refine ⟨fun p hp => ?_, ?_, ?_⟩
  · rw [mode_eq, mode_eq, hF]
    have hk : 2 * (p : ZMod N).val ≠ N := by
      by_cases hp0 : p = 0
      · subst hp0; simpa using (NeZero.ne N).symm
      · exact (resolved_index hp hp0).2.1
    rw [if_neg hk]
    simp only [hκ]
    rw [kfull_eq dx hp]
  · have h := hF 0
    have hN := NeZero.ne N
    rw [if_neg (by rw [val_zero]; omega), fft_zero, h0] at h
    simp only [ofReal_zero, mul_zero, zero_mul] at h
    exact_mod_cast h
  · simp only [hb]
    exact odd_kernel_force κ hodd h0 rho

end Verif.Spectral
