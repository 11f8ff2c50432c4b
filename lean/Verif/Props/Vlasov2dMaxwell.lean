import Verif.Model.Vlasov2d
import Verif.Lemmas.Vfp2dStep
import Verif.Spec.Spectral
import Mathlib.Analysis.Real.Pi.Bounds
import Mathlib.Analysis.SpecialFunctions.Trigonometric.Inverse
import Mathlib.Tactic.Linarith
import Mathlib.Tactic.Positivity

/-! The Maxwell solver of Vlasov-2D. -/
namespace Verif.Vlasov2d
open Finset Complex Verif.Spectral
open Verif.Vfp2d

variable {nx ny : ℕ} [NeZero nx] [NeZero ny]

/-- `∂Ey/∂x - ∂Ex/∂y`, `∂Ex/∂x + ∂Ey/∂y`. -/
noncomputable def curlZ (dx dy : ℝ) (a : Fields nx ny) : Scal nx ny := fun x y =>
  ddx (.spectral dx) a.ey x y - ddy (.spectral dy) a.ex x y
noncomputable def divE (dx dy : ℝ) (a : Fields nx ny) : Scal nx ny := fun x y =>
  ddx (.spectral dx) a.ex x y + ddy (.spectral dy) a.ey x y

/-- Sums of squares over the grid. -/
noncomputable def sq (a : Scal nx ny) : ℝ := ∑ x, ∑ y, a x y ^ 2
/-- Twice the electric plus magnetic energy over the grid. -/
noncomputable def energy (c2 : ℝ) (a : Fields nx ny) : ℝ := sq a.ex + sq a.ey + c2 * sq a.bz
/-- The quantity the step conserves. -/
noncomputable def shadow (dx dy c2 dt : ℝ) (a : Fields nx ny) : ℝ := energy c2 a - c2 * dt ^ 2 / 4 * sq (curlZ dx dy a)

theorem curl_adjoint (dx dy : ℝ) (b ux uy : Scal nx ny) :
    ∑ x, ∑ y, (ddy (.spectral dy) b x y * ux x y - ddx (.spectral dx) b x y * uy x y) =
      ∑ x, ∑ y, b x y * (ddx (.spectral dx) uy x y - ddy (.spectral dy) ux x y) := by
  have h1 := ddx_skew (.spectral dx) b uy
  have h2 := ddy_skew (.spectral dy) b ux
  simp only [mul_sub, sum_sub_distrib]
  linarith

/-- C93: Poynting's theorem of the discrete step: the conserved quantity changes by the work of the
current against the mean of the old and new electric field. -/
theorem maxwell_work (dx dy c2 dt : ℝ) (jx jy : Scal nx ny) (a : Fields nx ny) :
    shadow dx dy c2 dt (maxwell dx dy c2 dt jx jy a) = shadow dx dy c2 dt a
      - dt * ∑ x, ∑ y, (jx x y * (a.ex x y + (maxwell dx dy c2 dt jx jy a).ex x y)
          + jy x y * (a.ey x y + (maxwell dx dy c2 dt jx jy a).ey x y)) := by
  obtain ⟨a', ha'⟩ : ∃ a', a' = maxwell dx dy c2 dt jx jy a := ⟨_, rfl⟩
  obtain ⟨b1, hb1⟩ : ∃ b1, b1 = (bHalf dx dy dt a).bz := ⟨_, rfl⟩
  have hx : ∀ x y, a'.ex x y = a.ex x y + dt * (c2 * ddy (.spectral dy) b1 x y - jx x y) := by
    intro x y; rw [ha', hb1]; rfl
  have hy : ∀ x y, a'.ey x y = a.ey x y + dt * (-c2 * ddx (.spectral dx) b1 x y - jy x y) := by
    intro x y; rw [ha', hb1]; rfl
  have hb : ∀ x y, b1 x y = a.bz x y - 0.5 * dt * curlZ dx dy a x y := by intro x y; rw [hb1]; rfl
  have hb' : ∀ x y, a'.bz x y = b1 x y - 0.5 * dt * curlZ dx dy a' x y := by intro x y; rw [ha', hb1]; rfl
  rw [← ha']
  have key := curl_adjoint dx dy b1 (fun x y => a.ex x y + a'.ex x y) (fun x y => a.ey x y + a'.ey x y)
  have k2 : ∀ x y, ddx (.spectral dx) (fun x y => a.ey x y + a'.ey x y) x y - ddy (.spectral dy) (fun x y => a.ex x y + a'.ex x y) x y
      = curlZ dx dy a x y + curlZ dx dy a' x y := by
    intro x y; rw [ddx_add, ddy_add]; unfold curlZ; ring
  simp only [k2] at key
  have cell : ∀ x y, (a'.ex x y ^ 2 + a'.ey x y ^ 2 + c2 * a'.bz x y ^ 2 - c2 * dt ^ 2 / 4 * curlZ dx dy a' x y ^ 2)
      = (a.ex x y ^ 2 + a.ey x y ^ 2 + c2 * a.bz x y ^ 2 - c2 * dt ^ 2 / 4 * curlZ dx dy a x y ^ 2)
        - dt * (jx x y * (a.ex x y + a'.ex x y) + jy x y * (a.ey x y + a'.ey x y))
        + dt * c2 * ((ddy (.spectral dy) b1 x y * (a.ex x y + a'.ex x y) - ddx (.spectral dx) b1 x y * (a.ey x y + a'.ey x y))
          - b1 x y * (curlZ dx dy a x y + curlZ dx dy a' x y)) := by
    intro x y
    have e1 : a.bz x y = b1 x y + 0.5 * dt * curlZ dx dy a x y := by rw [hb]; ring
    rw [hb', e1]
    have h1 := hx x y
    have h2 := hy x y
    have d1 : a'.ex x y ^ 2 - a.ex x y ^ 2 = dt * (c2 * ddy (.spectral dy) b1 x y - jx x y) * (a.ex x y + a'.ex x y) := by
      rw [← sub_eq_iff_eq_add'] at h1
      rw [← h1]; ring
    have d2 : a'.ey x y ^ 2 - a.ey x y ^ 2 = dt * (-c2 * ddx (.spectral dx) b1 x y - jy x y) * (a.ey x y + a'.ey x y) := by
      rw [← sub_eq_iff_eq_add'] at h2
      rw [← h2]; ring
    linear_combination d1 + d2
  have tot : ∀ b : Fields nx ny, shadow dx dy c2 dt b
      = ∑ x, ∑ y, (b.ex x y ^ 2 + b.ey x y ^ 2 + c2 * b.bz x y ^ 2 - c2 * dt ^ 2 / 4 * curlZ dx dy b x y ^ 2) := by
    intro b
    unfold shadow energy sq
    simp only [sum_add_distrib, sum_sub_distrib, mul_sum]
  rw [tot, tot]
  simp only [cell]
  simp only [sum_add_distrib, sum_sub_distrib, ← mul_sum] at key ⊢
  linear_combination dt * c2 * key

/-- C93: in vacuum the step conserves the energy up to a fixed quadratic correction of order `dt²`. -/
theorem maxwell_vacuum_energy (dx dy c2 dt : ℝ) (a : Fields nx ny) :
    shadow dx dy c2 dt (maxwell dx dy c2 dt (fun _ _ => 0) (fun _ _ => 0) a) = shadow dx dy c2 dt a := by
  rw [maxwell_work]; simp

/-- C93: the same current and the opposite time step lead back. -/
theorem maxwell_reversible (dx dy c2 dt : ℝ) (jx jy : Scal nx ny) (a : Fields nx ny) :
    maxwell dx dy c2 (-dt) jx jy (maxwell dx dy c2 dt jx jy a) = a := by
  have hB : ∀ a : Fields nx ny, bHalf dx dy (-dt) (bHalf dx dy dt a) = a := by
    intro a
    ext x y <;> simp [bHalf]
  have hE : ∀ a : Fields nx ny, eFull dx dy c2 (-dt) jx jy (eFull dx dy c2 dt jx jy a) = a := by
    intro a
    ext x y <;> simp [eFull]
  unfold maxwell
  rw [hB, hE, hB]

/-- C93: the divergence of the electric field changes only by the divergence of the current. -/
theorem maxwell_div (dx dy c2 dt : ℝ) (jx jy : Scal nx ny) (a : Fields nx ny) (x : ZMod nx) (y : ZMod ny) :
    divE dx dy (maxwell dx dy c2 dt jx jy a) x y = divE dx dy a x y
      - dt * (ddx (.spectral dx) jx x y + ddy (.spectral dy) jy x y) := by
  obtain ⟨b1, hb1⟩ : ∃ b1, b1 = (bHalf dx dy dt a).bz := ⟨_, rfl⟩
  have hx : (maxwell dx dy c2 dt jx jy a).ex = fun x y => a.ex x y + dt * (c2 * ddy (.spectral dy) b1 x y - jx x y) := by
    rw [hb1]; rfl
  have hy : (maxwell dx dy c2 dt jx jy a).ey = fun x y => a.ey x y + dt * (-c2 * ddx (.spectral dx) b1 x y - jy x y) := by
    rw [hb1]; rfl
  unfold divE
  rw [hx, hy, ddx_add, ddy_add, ddx_smul, ddy_smul, ddx_sub, ddy_sub, ddx_smul, ddy_smul]
  have := congrFun (congrFun (ddx_ddy (.spectral dx) (.spectral dy) b1) x) y
  rw [this]; ring

/-- C93: the total magnetic flux never changes, and the box-averaged electric field only by the
average current. -/
theorem maxwell_means (dx dy c2 dt : ℝ) (jx jy : Scal nx ny) (a : Fields nx ny) :
    ∑ x, ∑ y, (maxwell dx dy c2 dt jx jy a).bz x y = ∑ x, ∑ y, a.bz x y ∧
    ∑ x, ∑ y, (maxwell dx dy c2 dt jx jy a).ex x y = ∑ x, ∑ y, a.ex x y - dt * ∑ x, ∑ y, jx x y ∧
    ∑ x, ∑ y, (maxwell dx dy c2 dt jx jy a).ey x y = ∑ x, ∑ y, a.ey x y - dt * ∑ x, ∑ y, jy x y := by
  have hB : ∀ a : Fields nx ny, ∑ x, ∑ y, (bHalf dx dy dt a).bz x y = ∑ x, ∑ y, a.bz x y := by
    intro a
    simp only [bHalf, sum_sub_distrib, ← mul_sum, ddx_sum, ddy_sum]; ring
  refine ⟨?_, ?_, ?_⟩
  · unfold maxwell; rw [hB]; change ∑ x, ∑ y, (bHalf dx dy dt a).bz x y = _; rw [hB]
  · simp only [maxwell, bHalf, eFull, sum_add_distrib, sum_sub_distrib, ← mul_sum, ddy_sum]; ring
  · simp only [maxwell, bHalf, eFull, sum_add_distrib, sum_sub_distrib, ← mul_sum, ddx_sum]; ring

/-! ### Stability -/

section
variable {N : ℕ} [NeZero N]

theorem kfull_bound (d : ℝ) (hd : 0 < d) (k : ZMod N) : kfull d k ^ 2 ≤ (Real.pi / d) ^ 2 := by
  have hN : (0 : ℝ) < N := Nat.cast_pos.2 (Nat.pos_of_ne_zero (NeZero.ne N))
  have hp := Real.pi_pos
  have hk := k.val_lt
  rw [sq_le_sq, abs_of_pos (by positivity : 0 < Real.pi / d)]
  unfold kfull Grid.fftfreqAt
  rw [abs_mul, abs_of_pos (by positivity : (0 : ℝ) < 2 * Real.pi), abs_div, abs_of_pos (by positivity : (0 : ℝ) < N * d)]
  have : |if k.val < (N - 1) / 2 + 1 then (k.val : ℝ) else (k.val : ℝ) - N| ≤ N / 2 := by
    split
    · next h =>
      have h' : 2 * k.val ≤ N := by omega
      have : (2 * k.val : ℝ) ≤ N := by exact_mod_cast h'
      rw [abs_of_nonneg (by positivity)]; linarith
    · next h =>
      have h' : N ≤ 2 * k.val := by omega
      have : (N : ℝ) ≤ 2 * k.val := by exact_mod_cast h'
      have h2 : (k.val : ℝ) < N := by exact_mod_cast hk
      rw [abs_of_neg (by linarith)]; linarith
  rw [div_mul_eq_mul_div, div_le_div_iff₀ (by positivity) hd]
  nlinarith [mul_le_mul_of_nonneg_right this (by positivity : (0 : ℝ) ≤ 2 * Real.pi * d)]

theorem applyR_bound (d : ℝ) (hd : 0 < d) (a : ZMod N → ℝ) :
    ∑ i, (Deriv.spectral d).applyR a i ^ 2 ≤ (Real.pi / d) ^ 2 * ∑ i, a i ^ 2 := by
  have hN : (0 : ℝ) < N := Nat.cast_pos.2 (Nat.pos_of_ne_zero (NeZero.ne N))
  have h1 : ∑ i, (Deriv.spectral d).applyR a i ^ 2 ≤ ∑ i, normSq ((Deriv.spectral d).apply (fun j => (a j : ℂ)) i) := by
    refine sum_le_sum fun i _ => ?_
    unfold Deriv.applyR
    rw [normSq_apply]
    nlinarith [mul_self_nonneg ((Deriv.spectral d).apply (fun j => (a j : ℂ)) i).im]
  have h2 : (N : ℝ) * ∑ i, normSq ((Deriv.spectral d).apply (fun j => (a j : ℂ)) i)
      = ∑ k, normSq (fft ((Deriv.spectral d).apply (fun j => (a j : ℂ))) k) := by
    have h := parseval ((Deriv.spectral d).apply (fun j => (a j : ℂ))) ((Deriv.spectral d).apply (fun j => (a j : ℂ)))
    simp only [← normSq_eq_conj_mul_self] at h
    exact_mod_cast h.symm
  have h3 : ∑ k, normSq (fft ((Deriv.spectral d).apply (fun j => (a j : ℂ))) k) ≤ (Real.pi / d) ^ 2 * ((N : ℝ) * ∑ j, a j ^ 2) := by
    rw [sum_sq, mul_sum]
    refine sum_le_sum fun k _ => ?_
    rw [fft_specDeriv, normSq_mul, normSq_mul, normSq_I, one_mul, normSq_ofReal]
    refine mul_le_mul_of_nonneg_right ?_ (normSq_nonneg _)
    have := kfull_bound d hd k
    nlinarith
  refine h1.trans (le_of_mul_le_mul_left ?_ hN)
  rw [h2]
  linarith
end

theorem ddx_bound (d : ℝ) (hd : 0 < d) (a : Scal nx ny) : sq (ddx (.spectral d) a) ≤ (Real.pi / d) ^ 2 * sq a := by
  unfold sq
  rw [sum_comm, sum_comm (f := fun x y => a x y ^ 2), mul_sum]
  exact sum_le_sum fun y _ => applyR_bound d hd fun x => a x y

theorem ddy_bound (d : ℝ) (hd : 0 < d) (a : Scal nx ny) : sq (ddy (.spectral d) a) ≤ (Real.pi / d) ^ 2 * sq a := by
  unfold sq
  rw [mul_sum]
  exact sum_le_sum fun x _ => applyR_bound d hd fun y => a x y

theorem sq_nonneg' (a : Scal nx ny) : 0 ≤ sq a := sum_nonneg fun _ _ => sum_nonneg fun _ _ => sq_nonneg _

theorem sq_sub_le (p q : Scal nx ny) (s t : ℝ) (hs : 0 < s) (ht : 0 < t) :
    sq (fun x y => p x y - q x y) ≤ (s + t) * (sq p / s + sq q / t) := by
  have : ∀ x y, (p x y - q x y) ^ 2 ≤ (s + t) * (p x y ^ 2 / s + q x y ^ 2 / t) := by
    intro x y
    have e : (s + t) * (p x y ^ 2 / s + q x y ^ 2 / t) - (p x y - q x y) ^ 2 = (t * p x y + s * q x y) ^ 2 / (s * t) := by
      field_simp; ring
    have : 0 ≤ (t * p x y + s * q x y) ^ 2 / (s * t) := by positivity
    linarith
  unfold sq
  calc ∑ x, ∑ y, (p x y - q x y) ^ 2 ≤ ∑ x, ∑ y, (s + t) * (p x y ^ 2 / s + q x y ^ 2 / t) :=
        sum_le_sum fun x _ => sum_le_sum fun y _ => this x y
    _ = _ := by simp only [← mul_sum, sum_add_distrib, ← sum_div]

/-- The largest squared wavenumber of the grid bounds the curl. -/
theorem curl_bound (dx dy : ℝ) (hx : 0 < dx) (hy : 0 < dy) (a : Fields nx ny) :
    sq (curlZ dx dy a) ≤ ((Real.pi / dx) ^ 2 + (Real.pi / dy) ^ 2) * (sq a.ex + sq a.ey) := by
  have hp := Real.pi_pos
  have A : 0 < (Real.pi / dx) ^ 2 := by positivity
  have B : 0 < (Real.pi / dy) ^ 2 := by positivity
  have h := sq_sub_le (ddx (.spectral dx) a.ey) (ddy (.spectral dy) a.ex) _ _ A B
  have h1 : sq (ddx (.spectral dx) a.ey) / (Real.pi / dx) ^ 2 ≤ sq a.ey := by
    rw [div_le_iff₀ A, mul_comm]; exact ddx_bound dx hx a.ey
  have h2 : sq (ddy (.spectral dy) a.ex) / (Real.pi / dy) ^ 2 ≤ sq a.ex := by
    rw [div_le_iff₀ B, mul_comm]; exact ddy_bound dy hy a.ex
  refine h.trans (mul_le_mul_of_nonneg_left ?_ (by positivity))
  linarith

/-- `n` vacuum steps. -/
noncomputable def vacuum (dx dy c2 dt : ℝ) (n : ℕ) (a : Fields nx ny) : Fields nx ny :=
  (maxwell dx dy c2 dt (fun _ _ => 0) (fun _ _ => 0))^[n] a

theorem vacuum_shadow (dx dy c2 dt : ℝ) (n : ℕ) (a : Fields nx ny) :
    shadow dx dy c2 dt (vacuum dx dy c2 dt n a) = shadow dx dy c2 dt a := by
  induction n with
  | zero => rfl
  | succ n ih =>
    unfold vacuum at ih ⊢
    rw [Function.iterate_succ_apply', maxwell_vacuum_energy, ih]

/-- C94 (partial): below the limit `c dt √((π/dx)² + (π/dy)²) < 2` vacuum fields stay bounded forever. -/
theorem vacuum_stable_partial (dx dy c2 dt : ℝ) (hx : 0 < dx) (hy : 0 < dy) (hc : 0 ≤ c2)
    (hcfl : c2 * dt ^ 2 * ((Real.pi / dx) ^ 2 + (Real.pi / dy) ^ 2) < 4) (a : Fields nx ny) (n : ℕ) :
    energy c2 (vacuum dx dy c2 dt n a) ≤ energy c2 a / (1 - c2 * dt ^ 2 * ((Real.pi / dx) ^ 2 + (Real.pi / dy) ^ 2) / 4) := by
  have hs := vacuum_shadow dx dy c2 dt n a
  obtain ⟨b, hb⟩ : ∃ b, b = vacuum dx dy c2 dt n a := ⟨_, rfl⟩
  rw [← hb] at hs ⊢
  obtain ⟨κ, hκ⟩ : ∃ κ, κ = (Real.pi / dx) ^ 2 + (Real.pi / dy) ^ 2 := ⟨_, rfl⟩
  have hbnd := curl_bound dx dy hx hy b
  rw [← hκ] at hcfl hbnd ⊢
  have hκ0 : 0 ≤ κ := by rw [hκ]; positivity
  have p1 : 0 < 1 - c2 * dt ^ 2 * κ / 4 := by linarith
  rw [le_div_iff₀ p1]
  unfold shadow at hs
  have c0 := sq_nonneg' (curlZ dx dy a)
  have b0 := sq_nonneg' b.bz
  have m1 : c2 * dt ^ 2 / 4 * sq (curlZ dx dy b) ≤ c2 * dt ^ 2 / 4 * (κ * (sq b.ex + sq b.ey)) :=
    mul_le_mul_of_nonneg_left hbnd (by positivity)
  have m2 : 0 ≤ c2 * dt ^ 2 / 4 * sq (curlZ dx dy a) := by positivity
  have m3 : 0 ≤ c2 * dt ^ 2 * κ / 4 * (c2 * sq b.bz) := by positivity
  have : energy c2 b * (1 - c2 * dt ^ 2 * κ / 4) = energy c2 b - c2 * dt ^ 2 / 4 * (κ * (sq b.ex + sq b.ey)) - c2 * dt ^ 2 * κ / 4 * (c2 * sq b.bz) := by
    unfold energy; ring
  linarith

/-! ### One mode -/

section
variable {N : ℕ} [NeZero N]

theorem spectral_char (d : ℝ) (p : ℤ) (hp : Resolved N p) (c : ℂ) (i : ZMod N) :
    (Deriv.spectral d).apply (fun j => c * ZMod.stdAddChar (j * (p : ZMod N))) i = I * (waveNumber N d p : ℂ) * (c * ZMod.stdAddChar (i * (p : ZMod N))) := by
  have hN : (N : ℂ) ≠ 0 := by exact_mod_cast NeZero.ne N
  let H : ZMod N → ℂ := fun k => if k = (p : ZMod N) then (N : ℂ) else 0
  have e : (fun j : ZMod N => (ZMod.stdAddChar (j * (p : ZMod N)) : ℂ)) = ifft H := by
    funext j
    unfold ifft
    rw [ZMod.invDFT_apply, smul_eq_mul]
    simp only [H, smul_eq_mul, mul_ite, mul_zero, sum_ite_eq', mem_univ, if_true]
    field_simp
    rw [mul_comm]
  rw [Vfp2d.deriv_smul]
  have h2 : (Deriv.spectral d).apply (fun j => (ZMod.stdAddChar (j * (p : ZMod N)) : ℂ)) i
      = I * (waveNumber N d p : ℂ) * ZMod.stdAddChar (i * (p : ZMod N)) := by
    simp only [Deriv.apply]
    rw [e, fft_ifft]
    have : (fun k => I * (kfull d k : ℂ) * H k) = fun k => (I * (waveNumber N d p : ℂ)) * H k := by
      funext k
      by_cases hk : k = (p : ZMod N)
      · subst hk; rw [kfull_eq d hp]
      · simp [H, hk]
    rw [this, ifft_smul, ← e]
  rw [h2]; ring

/-- The phase of mode `p` at cell `j`. -/
noncomputable def angle (N : ℕ) (p : ℤ) (j : ZMod N) : ℝ := 2 * Real.pi * p * j.val / N

theorem char_angle (p : ℤ) (j : ZMod N) : (ZMod.stdAddChar (j * (p : ZMod N)) : ℂ) = cexp ((angle N p j : ℝ) * I) := by
  have : j * (p : ZMod N) = ((p * (j.val : ℤ) : ℤ) : ZMod N) := by
    push_cast
    rw [ZMod.natCast_zmod_val]; ring
  rw [this, ZMod.stdAddChar_coe]
  congr 1
  unfold angle
  push_cast
  ring

omit [NeZero N] in
theorem resolved_neg {p : ℤ} (hp : Resolved N p) : Resolved N (-p) := by unfold Resolved at *; rwa [abs_neg]

omit [NeZero N] in
theorem waveNumber_neg (d : ℝ) (p : ℤ) : waveNumber N d (-p) = -waveNumber N d p := by unfold waveNumber; push_cast; ring

theorem applyR_cos (d : ℝ) (p : ℤ) (hp : Resolved N p) (φ : ℝ) (i : ZMod N) :
    (Deriv.spectral d).applyR (fun j => Real.cos (angle N p j + φ)) i = -waveNumber N d p * Real.sin (angle N p i + φ) := by
  have hneg : ∀ j : ZMod N, angle N (-p) j = -angle N p j := fun j => by unfold angle; push_cast; ring
  have e : (fun j : ZMod N => ((Real.cos (angle N p j + φ) : ℝ) : ℂ)) =
      fun j => (cexp (φ * I) / 2) * ZMod.stdAddChar (j * (p : ZMod N)) + (cexp (-(φ * I)) / 2) * ZMod.stdAddChar (j * ((-p : ℤ) : ZMod N)) := by
    funext j
    rw [char_angle, char_angle, hneg, ofReal_cos, Complex.cos]
    push_cast
    rw [add_mul, neg_mul, Complex.exp_add, add_mul, neg_add, Complex.exp_add]
    ring
  unfold Deriv.applyR
  rw [e, Vfp2d.deriv_add, spectral_char d p hp, spectral_char d (-p) (resolved_neg hp), char_angle, char_angle, hneg, waveNumber_neg]
  have : I * (waveNumber N d p : ℂ) * (cexp (φ * I) / 2 * cexp ((angle N p i : ℝ) * I)) +
      I * ((-waveNumber N d p : ℝ) : ℂ) * (cexp (-(φ * I)) / 2 * cexp ((-angle N p i : ℝ) * I))
      = ((-waveNumber N d p * Real.sin (angle N p i + φ) : ℝ) : ℂ) := by
    push_cast
    rw [Complex.sin]
    have e1 : cexp (((angle N p i : ℝ) + (φ : ℂ)) * I) = cexp ((angle N p i : ℝ) * I) * cexp (φ * I) := by
      rw [← Complex.exp_add]; congr 1; ring
    have e2 : cexp (-((angle N p i : ℝ) + (φ : ℂ)) * I) = cexp (-(angle N p i : ℝ) * I) * cexp (-(φ * I)) := by
      rw [← Complex.exp_add]; congr 1; ring
    rw [e1, e2]
    ring
  rw [this]
  exact ofReal_re _

theorem applyR_sin (d : ℝ) (p : ℤ) (hp : Resolved N p) (φ : ℝ) (i : ZMod N) :
    (Deriv.spectral d).applyR (fun j => Real.sin (angle N p j + φ)) i = waveNumber N d p * Real.cos (angle N p i + φ) := by
  have h := applyR_cos d p hp (φ - Real.pi / 2) i
  have e1 : ∀ t : ℝ, Real.cos (t + (φ - Real.pi / 2)) = Real.sin (t + φ) := by
    intro t; rw [show t + (φ - Real.pi / 2) = t + φ - Real.pi / 2 by ring, Real.cos_sub_pi_div_two]
  have e2 : Real.sin (angle N p i + (φ - Real.pi / 2)) = -Real.cos (angle N p i + φ) := by
    rw [show angle N p i + (φ - Real.pi / 2) = angle N p i + φ - Real.pi / 2 by ring, Real.sin_sub_pi_div_two]
  simp only [e1, e2] at h
  rw [h]; ring
end

/-- A standing wave: mode `(p, q)` with electric amplitude `e` (transverse, times `k`) and magnetic
amplitude `b`. -/
noncomputable def standing (dx dy : ℝ) (p q : ℤ) (e b : ℝ) : Fields nx ny where
  ex := fun x y => -(waveNumber ny dy q) * (e * Real.sin (angle nx p x + angle ny q y))
  ey := fun x y => waveNumber nx dx p * (e * Real.sin (angle nx p x + angle ny q y))
  bz := fun x y => b * Real.cos (angle nx p x + angle ny q y)

/-- Squared wavenumber of the mode. -/
noncomputable def k2 (nx ny : ℕ) (dx dy : ℝ) (p q : ℤ) : ℝ := waveNumber nx dx p ^ 2 + waveNumber ny dy q ^ 2

theorem ddx_sin (dx : ℝ) (p q : ℤ) (hp : Resolved nx p) (x : ZMod nx) (y : ZMod ny) :
    ddx (.spectral dx) (fun x y => Real.sin (angle nx p x + angle ny q y)) x y = waveNumber nx dx p * Real.cos (angle nx p x + angle ny q y) :=
  applyR_sin dx p hp _ x
theorem ddx_cos (dx : ℝ) (p q : ℤ) (hp : Resolved nx p) (x : ZMod nx) (y : ZMod ny) :
    ddx (.spectral dx) (fun x y => Real.cos (angle nx p x + angle ny q y)) x y = -waveNumber nx dx p * Real.sin (angle nx p x + angle ny q y) :=
  applyR_cos dx p hp _ x
theorem ddy_sin (dy : ℝ) (p q : ℤ) (hq : Resolved ny q) (x : ZMod nx) (y : ZMod ny) :
    ddy (.spectral dy) (fun x y => Real.sin (angle nx p x + angle ny q y)) x y = waveNumber ny dy q * Real.cos (angle nx p x + angle ny q y) := by
  simp only [add_comm (angle nx p _)]
  exact applyR_sin dy q hq _ y
theorem ddy_cos (dy : ℝ) (p q : ℤ) (hq : Resolved ny q) (x : ZMod nx) (y : ZMod ny) :
    ddy (.spectral dy) (fun x y => Real.cos (angle nx p x + angle ny q y)) x y = -waveNumber ny dy q * Real.sin (angle nx p x + angle ny q y) := by
  simp only [add_comm (angle nx p _)]
  exact applyR_cos dy q hq _ y

theorem bHalf_standing (dx dy dt : ℝ) (p q : ℤ) (hp : Resolved nx p) (hq : Resolved ny q) (e b : ℝ) :
    bHalf dx dy dt (standing (nx := nx) (ny := ny) dx dy p q e b) = standing dx dy p q e (b - dt / 2 * k2 nx ny dx dy p q * e) := by
  ext x y
  · rfl
  · rfl
  · simp only [bHalf, standing]
    rw [ddx_smul, ddy_smul, ddx_smul, ddy_smul, ddx_sin dx p q hp, ddy_sin dy p q hq]
    unfold k2; ring

theorem eFull_standing (dx dy c2 dt : ℝ) (p q : ℤ) (hp : Resolved nx p) (hq : Resolved ny q) (e b : ℝ) :
    eFull dx dy c2 dt (fun _ _ => 0) (fun _ _ => 0) (standing (nx := nx) (ny := ny) dx dy p q e b) = standing dx dy p q (e + dt * c2 * b) b := by
  ext x y
  · simp only [eFull, standing]
    rw [ddy_smul, ddy_cos dy p q hq]; ring
  · simp only [eFull, standing]
    rw [ddx_smul, ddx_cos dx p q hp]; ring
  · rfl

/-- One vacuum step on the amplitudes. -/
noncomputable def amp (c2 dt k : ℝ) (a : ℝ × ℝ) : ℝ × ℝ :=
  let b1 := a.2 - dt / 2 * k * a.1
  let e := a.1 + dt * c2 * b1
  (e, b1 - dt / 2 * k * e)

theorem vacuum_standing (dx dy c2 dt : ℝ) (p q : ℤ) (hp : Resolved nx p) (hq : Resolved ny q) (a : ℝ × ℝ) (n : ℕ) :
    vacuum dx dy c2 dt n (standing (nx := nx) (ny := ny) dx dy p q a.1 a.2)
      = standing dx dy p q ((amp c2 dt (k2 nx ny dx dy p q))^[n] a).1 ((amp c2 dt (k2 nx ny dx dy p q))^[n] a).2 := by
  induction n with
  | zero => rfl
  | succ n ih =>
    unfold vacuum at ih ⊢
    rw [Function.iterate_succ_apply', Function.iterate_succ_apply', ih]
    unfold maxwell
    rw [bHalf_standing dx dy dt p q hp hq, eFull_standing dx dy c2 dt p q hp hq, bHalf_standing dx dy dt p q hp hq]
    rfl

theorem amp_fst (c2 dt k : ℝ) (a : ℝ × ℝ) : (amp c2 dt k a).1 = (1 - c2 * k * dt ^ 2 / 2) * a.1 + dt * c2 * a.2 := by
  simp only [amp]; ring

theorem amp_rec (c2 dt k : ℝ) (a : ℝ × ℝ) : (amp c2 dt k (amp c2 dt k a)).1 = (2 - c2 * k * dt ^ 2) * (amp c2 dt k a).1 - a.1 := by
  simp only [amp]; ring

/-- C94: the numerical dispersion relation: below the limit every resolved standing wave oscillates
exactly at the frequency with `sin(ω dt / 2) = c k dt / 2`. -/
theorem vacuum_dispersion (dx dy c2 dt ω : ℝ) (p q : ℤ) (hp : Resolved nx p) (hq : Resolved ny q)
    (hω : Real.sin (ω * dt / 2) ^ 2 = c2 * k2 nx ny dx dy p q * dt ^ 2 / 4) (n : ℕ) (x : ZMod nx) (y : ZMod ny) :
    (vacuum dx dy c2 dt n (standing (nx := nx) (ny := ny) dx dy p q 1 0)).ex x y
        = Real.cos (n * (ω * dt)) * (standing (nx := nx) (ny := ny) dx dy p q 1 0).ex x y ∧
    (vacuum dx dy c2 dt n (standing (nx := nx) (ny := ny) dx dy p q 1 0)).ey x y
        = Real.cos (n * (ω * dt)) * (standing (nx := nx) (ny := ny) dx dy p q 1 0).ey x y := by
  obtain ⟨k, hk⟩ : ∃ k, k = k2 nx ny dx dy p q := ⟨_, rfl⟩
  have hc : Real.cos (ω * dt) = 1 - c2 * k * dt ^ 2 / 2 := by
    have h := Real.cos_sq (ω * dt / 2)
    rw [show 2 * (ω * dt / 2) = ω * dt by ring] at h
    have h2 := Real.sin_sq_add_cos_sq (ω * dt / 2)
    rw [← hk] at hω
    linarith
  have main : ∀ n : ℕ, ((amp c2 dt k)^[n] (1, 0)).1 = Real.cos (n * (ω * dt)) ∧ ((amp c2 dt k)^[n + 1] (1, 0)).1 = Real.cos ((n + 1 : ℕ) * (ω * dt)) := by
    intro n
    induction n with
    | zero =>
      refine ⟨by simp, ?_⟩
      rw [Function.iterate_succ_apply', Function.iterate_zero, id, amp_fst]
      simp only [mul_one, mul_zero, add_zero, zero_add, Nat.cast_one, one_mul]
      rw [hc]
    | succ n ih =>
      refine ⟨ih.2, ?_⟩
      rw [Function.iterate_succ_apply', Function.iterate_succ_apply', amp_rec, ← Function.iterate_succ_apply' (amp c2 dt k) n, ih.1, ih.2]
      have e1 : 2 - c2 * k * dt ^ 2 = 2 * Real.cos (ω * dt) := by rw [hc]; ring
      rw [e1]
      push_cast
      have a1 : ((n : ℝ) + 1 + 1) * (ω * dt) = ((n : ℝ) + 1) * (ω * dt) + ω * dt := by ring
      have a2 : (n : ℝ) * (ω * dt) = ((n : ℝ) + 1) * (ω * dt) - ω * dt := by ring
      rw [a1, a2, Real.cos_add, Real.cos_sub]; ring
  have hv := vacuum_standing (nx := nx) (ny := ny) dx dy c2 dt p q hp hq (1, 0) n
  rw [← hk] at hv
  dsimp only at hv
  rw [hv, (main n).1]
  simp only [standing]
  exact ⟨by ring, by ring⟩

/-- C94: above the limit the electric amplitude grows at least geometrically. -/
theorem amp_grows (c2 dt k : ℝ) (h : 4 < c2 * k * dt ^ 2) (n : ℕ) :
    (c2 * k * dt ^ 2 / 2 - 1) ^ n ≤ |((amp c2 dt k)^[n] (1, 0)).1| := by
  obtain ⟨g, hg⟩ : ∃ g, g = c2 * k * dt ^ 2 / 2 - 1 := ⟨_, rfl⟩
  have g1 : 1 < g := by rw [hg]; linarith
  have main : ∀ n : ℕ, 0 < (-1) ^ n * ((amp c2 dt k)^[n] (1, 0)).1 ∧
      g * ((-1) ^ n * ((amp c2 dt k)^[n] (1, 0)).1) ≤ (-1) ^ (n + 1) * ((amp c2 dt k)^[n + 1] (1, 0)).1 := by
    intro n
    induction n with
    | zero =>
      refine ⟨by simp, ?_⟩
      rw [Function.iterate_succ_apply', Function.iterate_zero, id, amp_fst]
      simp only [hg]; norm_num
    | succ n ih =>
      have pos : 0 < (-1) ^ (n + 1) * ((amp c2 dt k)^[n + 1] (1, 0)).1 := lt_of_lt_of_le (mul_pos (by linarith) ih.1) ih.2
      refine ⟨pos, ?_⟩
      have r : ((amp c2 dt k)^[n + 1 + 1] (1, 0)).1 = (2 - c2 * k * dt ^ 2) * ((amp c2 dt k)^[n + 1] (1, 0)).1 - ((amp c2 dt k)^[n] (1, 0)).1 := by
        simp only [Function.iterate_succ_apply']
        exact amp_rec _ _ _ _
      rw [r]
      have e : (-1 : ℝ) ^ (n + 1 + 1) * ((2 - c2 * k * dt ^ 2) * ((amp c2 dt k)^[n + 1] (1, 0)).1 - ((amp c2 dt k)^[n] (1, 0)).1)
          = 2 * g * ((-1) ^ (n + 1) * ((amp c2 dt k)^[n + 1] (1, 0)).1) - (-1) ^ n * ((amp c2 dt k)^[n] (1, 0)).1 := by
        rw [hg]; ring
      rw [e]
      nlinarith [ih.1, ih.2, pos]
  rw [← hg]
  have pw : ∀ n : ℕ, g ^ n ≤ (-1) ^ n * ((amp c2 dt k)^[n] (1, 0)).1 := by
    intro n
    induction n with
    | zero => simp
    | succ n ih =>
      refine le_trans ?_ (main n).2
      rw [pow_succ, mul_comm]
      exact mul_le_mul_of_nonneg_left ih (by linarith)
  refine (pw n).trans ((le_abs_self _).trans ?_)
  rw [abs_mul, abs_pow, abs_neg, abs_one, one_pow, one_mul]

/-- C94: above the limit a vacuum field grows without bound: the energy of a transverse standing
wave grows at least as `(c²k²dt²/2 - 1)^(2n)`. -/
theorem vacuum_unstable (dx dy c2 dt : ℝ) (p q : ℤ) (hp : Resolved nx p) (hq : Resolved ny q)
    (hc : 0 ≤ c2) (h : 4 < c2 * k2 nx ny dx dy p q * dt ^ 2) (n : ℕ) :
    (c2 * k2 nx ny dx dy p q * dt ^ 2 / 2 - 1) ^ (2 * n) * energy c2 (standing (nx := nx) (ny := ny) dx dy p q 1 0)
      ≤ energy c2 (vacuum dx dy c2 dt n (standing (nx := nx) (ny := ny) dx dy p q 1 0)) := by
  have hv := vacuum_standing (nx := nx) (ny := ny) dx dy c2 dt p q hp hq (1, 0) n
  have hg := amp_grows c2 dt _ h n
  dsimp only at hv
  rw [hv]
  obtain ⟨a, ha⟩ : ∃ a, a = (amp c2 dt (k2 nx ny dx dy p q))^[n] (1, 0) := ⟨_, rfl⟩
  rw [← ha] at hg ⊢
  obtain ⟨g, hg'⟩ : ∃ g, g = c2 * k2 nx ny dx dy p q * dt ^ 2 / 2 - 1 := ⟨_, rfl⟩
  rw [← hg'] at hg ⊢
  have g1 : 0 < g := by rw [hg']; linarith
  have hsq : g ^ (2 * n) ≤ a.1 ^ 2 := by
    rw [mul_comm, pow_mul, ← sq_abs a.1]
    exact pow_le_pow_left₀ (by positivity) hg 2
  have e : ∀ e b : ℝ, energy c2 (standing (nx := nx) (ny := ny) dx dy p q e b)
      = e ^ 2 * (sq (standing (nx := nx) (ny := ny) dx dy p q 1 0).ex + sq (standing (nx := nx) (ny := ny) dx dy p q 1 0).ey)
        + c2 * sq (standing (nx := nx) (ny := ny) dx dy p q e b).bz := by
    intro e b
    unfold energy sq
    simp only [standing, mul_add, mul_sum]
    congr 1; congr 1
    · exact sum_congr rfl fun x _ => sum_congr rfl fun y _ => by ring
    · exact sum_congr rfl fun x _ => sum_congr rfl fun y _ => by ring
  rw [e 1 0, e a.1 a.2]
  have z : sq (standing (nx := nx) (ny := ny) dx dy p q 1 0).bz = 0 := by simp [sq, standing]
  rw [z]
  have s1 := sq_nonneg' (standing (nx := nx) (ny := ny) dx dy p q 1 0).ex
  have s2 := sq_nonneg' (standing (nx := nx) (ny := ny) dx dy p q 1 0).ey
  have s3 := sq_nonneg' (standing (nx := nx) (ny := ny) dx dy p q a.1 a.2).bz
  have := mul_le_mul_of_nonneg_right hsq (add_nonneg s1 s2)
  have := mul_nonneg hc s3
  linarith

theorem standing_energy_pos (dx dy c2 : ℝ) (hdx : 0 < dx) (p q : ℤ) (h0 : 0 < p) (hp : Resolved nx p) :
    0 < energy c2 (standing (nx := nx) (ny := ny) dx dy p q 1 0) := by
  have hp' : 2 * p < nx := by unfold Resolved at hp; rwa [abs_of_pos h0] at hp
  have hN : (0 : ℝ) < nx := Nat.cast_pos.2 (Nat.pos_of_ne_zero (NeZero.ne nx))
  have hpi := Real.pi_pos
  have z : sq (standing (nx := nx) (ny := ny) dx dy p q 1 0).bz = 0 := by simp [sq, standing]
  unfold energy
  rw [z, mul_zero, add_zero]
  have s1 := sq_nonneg' (standing (nx := nx) (ny := ny) dx dy p q 1 0).ex
  have hn1 : 1 < nx := by omega
  have one : (1 : ZMod nx).val = 1 := by
    haveI : Fact (1 < nx) := ⟨hn1⟩
    exact ZMod.val_one nx
  have s2 : 0 < (standing (nx := nx) (ny := ny) dx dy p q 1 0).ey 1 0 ^ 2 := by
    apply sq_pos_of_pos
    simp only [standing, angle, one, ZMod.val_zero, Nat.cast_one, Nat.cast_zero, mul_one, mul_zero, zero_div, add_zero, one_mul]
    have hp0 : (0 : ℝ) < p := by exact_mod_cast h0
    have hp2 : (2 : ℝ) * p < nx := by exact_mod_cast hp'
    refine mul_pos (by unfold waveNumber; positivity) (Real.sin_pos_of_pos_of_lt_pi (by positivity) ?_)
    rw [div_lt_iff₀ hN]
    nlinarith
  have s3 : (standing (nx := nx) (ny := ny) dx dy p q 1 0).ey 1 0 ^ 2 ≤ sq (standing (nx := nx) (ny := ny) dx dy p q 1 0).ey := by
    unfold sq
    refine le_trans ?_ (single_le_sum (f := fun x => ∑ y, (standing (nx := nx) (ny := ny) dx dy p q 1 0).ey x y ^ 2)
      (fun x _ => sum_nonneg fun y _ => sq_nonneg _) (mem_univ (1 : ZMod nx)))
    exact single_le_sum (f := fun y => (standing (nx := nx) (ny := ny) dx dy p q 1 0).ey 1 y ^ 2) (fun y _ => sq_nonneg _) (mem_univ (0 : ZMod ny))
  linarith

/-- C94: the time step the grid imposes "for Maxwell stability" does not give stability.  On a square
box of `32 × 32` cells of any size and for any speed of light, with the time step the grid takes when
it overrides the requested one, there is a vacuum field whose energy grows beyond every bound. -/
theorem capped_step_unstable (dx tmax dtReq beta : ℝ) (hdx : 0 < dx) (hb : 0 < beta)
    (hreq : 1 / 2 * dx * beta ≤ dtReq) :
    ∃ a : Fields 32 32, ∀ M : ℝ, ∃ n : ℕ,
      M < energy ((1 / beta) ^ 2) (vacuum dx dx ((1 / beta) ^ 2) (Grid.vlasov2d dx dx tmax dtReq true beta).dt n a) := by
  have hdt : (Grid.vlasov2d dx dx tmax dtReq true beta).dt = 1 / 2 * dx * beta := by
    have e : (1 / 2 : ℝ) * dx / (1 / beta) = 1 / 2 * dx * beta := by field_simp
    simp only [Grid.vlasov2d, if_true, min_self]
    rw [e, min_eq_right hreq]
  rw [hdt]
  have hp : Resolved 32 15 := by unfold Resolved; norm_num
  have hpi := Real.pi_gt_d2
  have hk : (1 / beta) ^ 2 * k2 32 32 dx dx 15 15 * (1 / 2 * dx * beta) ^ 2 = 2 * Real.pi ^ 2 * 15 ^ 2 / 32 ^ 2 := by
    unfold k2 waveNumber
    push_cast
    field_simp
    ring
  have h4 : 4 < (1 / beta) ^ 2 * k2 32 32 dx dx 15 15 * (1 / 2 * dx * beta) ^ 2 := by
    rw [hk]; nlinarith
  refine ⟨standing dx dx 15 15 1 0, fun M => ?_⟩
  have pos := standing_energy_pos (nx := 32) (ny := 32) dx dx ((1 / beta) ^ 2) hdx 15 15 (by norm_num) hp
  obtain ⟨n, hn⟩ := pow_unbounded_of_one_lt (M / energy ((1 / beta) ^ 2) (standing (nx := 32) (ny := 32) dx dx 15 15 1 0))
    (show 1 < ((1 / beta) ^ 2 * k2 32 32 dx dx 15 15 * (1 / 2 * dx * beta) ^ 2 / 2 - 1) ^ 2 by nlinarith)
  refine ⟨n, lt_of_lt_of_le ?_ (vacuum_unstable (nx := 32) (ny := 32) dx dx ((1 / beta) ^ 2) (1 / 2 * dx * beta) 15 15 hp hp (by positivity) h4 n)⟩
  rw [pow_mul]
  rwa [div_lt_iff₀ pos] at hn

/-- The hypotheses of the stability bound can be met: three quarters of the capped step. -/
example : (1 : ℝ) ^ 2 * (3 / 8) ^ 2 * ((Real.pi / 1) ^ 2 + (Real.pi / 1) ^ 2) < 4 := by
  have h := Real.pi_lt_d2
  have := Real.pi_pos
  nlinarith

end Verif.Vlasov2d
