import Verif.Props.SpectraxInit
import Verif.Props.SpectraxReal

/-! C156, C159: the energy budget of the explicit equations; the collision matrix. -/
namespace Verif.Spectrax
open Finset Complex Verif.Hermite
open scoped ComplexConjugate

variable {Ny Nx Nz : ℕ} [NeZero Ny] [NeZero Nx] [NeZero Nz] {de di d : Dims}

/-- The plane wave `k` at the grid point `x`. -/
noncomputable def chi (k x : K Ny Nx Nz) : ℂ := ZMod.stdAddChar (k.1 * x.1) * (ZMod.stdAddChar (k.2.1 * x.2.1) * ZMod.stdAddChar (k.2.2 * x.2.2))

theorem toX3_chi (c : K Ny Nx Nz → ℂ) (x : K Ny Nx Nz) : toX3 c x = ∑ k, chi k x * c k := by
  rw [toX3_sum, Fintype.sum_prod_type]
  refine sum_congr rfl fun a _ => ?_
  rw [Fintype.sum_prod_type]
  exact sum_congr rfl fun b _ => sum_congr rfl fun c _ => by unfold chi; ring

theorem conj_chi (k x : K Ny Nx Nz) : conj (chi k x) = ZMod.stdAddChar (-(x.1 * k.1)) * (ZMod.stdAddChar (-(x.2.1 * k.2.1)) * ZMod.stdAddChar (-(x.2.2 * k.2.2))) := by
  unfold chi
  rw [RingHom.map_mul, RingHom.map_mul, char_neg, char_neg, char_neg, mul_comm k.1, mul_comm k.2.1, mul_comm k.2.2]

theorem toK3_chi (f : K Ny Nx Nz → ℂ) (k : K Ny Nx Nz) : toK3 f k = (∑ x, conj (chi k x) * f x) / (Ny * Nx * Nz) := by
  unfold toK3
  simp only [toK_sum]
  rw [Fintype.sum_prod_type, sum_div]
  refine sum_congr rfl fun a _ => ?_
  rw [Fintype.sum_prod_type, sum_div, mul_sum, sum_div]
  refine sum_congr rfl fun b _ => ?_
  rw [sum_div, mul_sum, sum_div, mul_sum, sum_div]
  refine sum_congr rfl fun c _ => ?_
  rw [conj_chi]
  simp only
  rw [div_eq_mul_inv, div_eq_mul_inv, div_eq_mul_inv, div_eq_mul_inv, mul_inv, mul_inv]; ring

theorem toK3_mean (f : K Ny Nx Nz → ℂ) : toK3 f 0 = (∑ x, f x) / (Ny * Nx * Nz) := by
  rw [toK3_chi]
  simp [chi]

/-- Parseval. -/
theorem parseval3 (a b : K Ny Nx Nz → ℂ) : (∑ x, conj (toX3 a x) * toX3 b x) / (Ny * Nx * Nz) = ∑ k, conj (a k) * b k := by
  have h : ∀ k, b k = (∑ x, conj (chi k x) * toX3 b x) / (Ny * Nx * Nz) := fun k => by rw [← toK3_chi, toK3_toX3]
  have e : (∑ x, conj (toX3 a x) * toX3 b x) = ∑ k, conj (a k) * ∑ x, conj (chi k x) * toX3 b x := by
    simp only [mul_sum]
    rw [sum_comm]
    refine sum_congr rfl fun x _ => ?_
    rw [toX3_chi a, map_sum, sum_mul]
    exact sum_congr rfl fun k _ => by rw [map_mul]; ring
  rw [e, sum_div]
  exact sum_congr rfl fun k _ => by rw [h k, mul_div_assoc]

/-- C161: the saved field energy is the mean square of the field over the grid. -/
theorem energy_mean (E : Fin 3 → K Ny Nx Nz → ℂ) : energy E = (∑ x, ∑ j, ‖toX3 (E j) x‖ ^ 2) / (Ny * Nx * Nz) := by
  unfold energy
  rw [sum_comm (γ := K Ny Nx Nz) (s := univ) (t := univ) (f := fun x j => ‖toX3 (E j) x‖ ^ 2), sum_div]
  refine sum_congr rfl fun j _ => ?_
  have h := parseval3 (E j) (E j)
  have q : ∀ z : ℂ, conj z * z = ((‖z‖ ^ 2 : ℝ) : ℂ) := fun z => by rw [mul_comm, mul_conj, normSq_eq_norm_sq]
  simp only [q] at h
  exact_mod_cast h.symm

/-! ### Kinetic energy -/

/-- `m/2 ∫ v² f d³v` from the coefficients. -/
noncomputable def kinetic (s : Species) (C : Tens d ℂ) : ℂ :=
  ((s.m / 2 * (s.alpha 0 * s.alpha 1 * s.alpha 2) : ℝ) : ℂ) *
    (((s.alpha 0 ^ 2 / 2 : ℝ) : ℂ) * (r2 * pad C 0 0 2 + pad C 0 0 0) + r2 * ((s.alpha 0 * s.u 0 : ℝ) : ℂ) * pad C 0 0 1 + ((s.u 0 ^ 2 : ℝ) : ℂ) * pad C 0 0 0
      + (((s.alpha 1 ^ 2 / 2 : ℝ) : ℂ) * (r2 * pad C 0 2 0 + pad C 0 0 0) + r2 * ((s.alpha 1 * s.u 1 : ℝ) : ℂ) * pad C 0 1 0 + ((s.u 1 ^ 2 : ℝ) : ℂ) * pad C 0 0 0)
      + (((s.alpha 2 ^ 2 / 2 : ℝ) : ℂ) * (r2 * pad C 2 0 0 + pad C 0 0 0) + r2 * ((s.alpha 2 * s.u 2 : ℝ) : ℂ) * pad C 1 0 0 + ((s.u 2 ^ 2 : ℝ) : ℂ) * pad C 0 0 0))

theorem X_bz {a : ℝ} (ha : a ≠ 0) (u : ℝ) : (Polynomial.X : Polynomial ℝ) = Polynomial.C (a / Real.sqrt 2) * bz a u 1 + Polynomial.C u * bz a u 0 := by
  have h := bz_three ha u 0
  rw [basis_zero, mul_one] at h
  rw [h, bz_neg a u (n := ((0 : ℕ) : ℤ) + -1) (by norm_num)]
  simp only [Nat.cast_zero, zero_add, Real.sqrt_one, mul_zero, add_zero]
  rw [mul_one_div]
theorem X2_bz {a : ℝ} (ha : a ≠ 0) (u : ℝ) : (Polynomial.X ^ 2 : Polynomial ℝ) =
    Polynomial.C (a ^ 2 / 2 * Real.sqrt 2) * bz a u 2 + Polynomial.C (Real.sqrt 2 * a * u) * bz a u 1 + Polynomial.C (a ^ 2 / 2 + u ^ 2) * bz a u 0 := by
  have h1 := bz_three ha u 1
  have h0 := X_bz ha u
  have s2 : Real.sqrt 2 * Real.sqrt 2 = 2 := Real.mul_self_sqrt (by norm_num)
  have sn : Real.sqrt 2 ≠ 0 := by positivity
  have b1 : bz a u 1 = basis a u 1 := bz_nat a u 1
  have b0 : bz a u 0 = 1 := by rw [show (0 : ℤ) = ((0 : ℕ) : ℤ) by rfl, bz_nat, basis_zero]
  have e : (Polynomial.X ^ 2 : Polynomial ℝ) = Polynomial.C (a / Real.sqrt 2) * (Polynomial.X * basis a u 1) + Polynomial.C u * Polynomial.X := by
    rw [pow_two, ← b1]
    have := congrArg (· * (Polynomial.X : Polynomial ℝ)) h0
    simp only [b0] at this
    rw [this]; ring
  rw [e, h1, h0]
  have n2 : ((1 : ℕ) : ℤ) + 1 = 2 := by norm_num
  have n0 : ((1 : ℕ) : ℤ) + -1 = 0 := by norm_num
  have n1 : ((1 : ℕ) : ℤ) = 1 := by norm_num
  rw [n2, n0, n1, Nat.cast_one, show (1 : ℝ) + 1 = 2 by norm_num, div_self sn, mul_one, Real.sqrt_one]
  have c1 : a ^ 2 / 2 * Real.sqrt 2 = a / Real.sqrt 2 * a := by field_simp; nlinarith
  have c2 : Real.sqrt 2 * a * u = a / Real.sqrt 2 * u + u * (a / Real.sqrt 2) := by field_simp; rw [pow_two, s2]; ring
  have c3 : a ^ 2 / 2 + u ^ 2 = a / Real.sqrt 2 * (a * (1 / Real.sqrt 2)) + u * u := by field_simp; nlinarith
  rw [c1, c2, c3]
  simp only [map_add, map_mul]
  ring

/-- It is the kinetic energy of the distribution the coefficients stand for. -/
theorem kinetic_spec (s : Species) (ha : ∀ i, s.alpha i ≠ 0) (C : Tens d ℂ) (M : Dist) (hM : Represents s.alpha s.u M C) :
    kinetic s C = (s.m / 2 : ℝ) * (square M 0 + square M 1 + square M 2) := by
  have h := represents_pad hM
  have b0 : ∀ a u, bz a u 0 = 1 := fun a u => by rw [show (0 : ℤ) = ((0 : ℕ) : ℤ) by rfl, bz_nat, basis_zero]
  have hx : ∀ n, M (bz (s.alpha 0) (s.u 0) n) 1 1 = ((s.alpha 0 * s.alpha 1 * s.alpha 2 : ℝ) : ℂ) * pad C 0 0 n := fun n => by
    rw [← h 0 0 n, b0, b0]
  have hy : ∀ n, M 1 (bz (s.alpha 1) (s.u 1) n) 1 = ((s.alpha 0 * s.alpha 1 * s.alpha 2 : ℝ) : ℂ) * pad C 0 n 0 := fun n => by
    rw [← h 0 n 0, b0, b0]
  have hz : ∀ n, M 1 1 (bz (s.alpha 2) (s.u 2) n) = ((s.alpha 0 * s.alpha 1 * s.alpha 2 : ℝ) : ℂ) * pad C n 0 0 := fun n => by
    rw [← h n 0 0, b0, b0]
  unfold square
  simp only [Matrix.cons_val_zero, Matrix.cons_val_one, Matrix.cons_val]
  rw [show M (Polynomial.X ^ 2) 1 1 = _ from by rw [X2_bz (ha 0) (s.u 0)], show M 1 (Polynomial.X ^ 2) 1 = _ from by rw [X2_bz (ha 1) (s.u 1)],
    show M 1 1 (Polynomial.X ^ 2) = _ from by rw [X2_bz (ha 2) (s.u 2)]]
  simp only [LinearMap.map_add, LinearMap.add_apply, dist1, dist2, dist3, hx, hy, hz]
  unfold kinetic r2
  push_cast; ring

/-- The flow from the coefficients (charge 1). -/
theorem current_spec (s : Species) (ha : ∀ i, s.alpha i ≠ 0) (C : Tens d ℂ) (M : Dist) (hM : Represents s.alpha s.u M C) (j : Fin 3) :
    current s C j = (s.q : ℂ) * flow M j := by
  have h := represents_pad hM
  have b0 : ∀ a u, bz a u 0 = 1 := fun a u => by rw [show (0 : ℤ) = ((0 : ℕ) : ℤ) by rfl, bz_nat, basis_zero]
  have hx : ∀ n, M (bz (s.alpha 0) (s.u 0) n) 1 1 = ((s.alpha 0 * s.alpha 1 * s.alpha 2 : ℝ) : ℂ) * pad C 0 0 n := fun n => by
    rw [← h 0 0 n, b0, b0]
  have hy : ∀ n, M 1 (bz (s.alpha 1) (s.u 1) n) 1 = ((s.alpha 0 * s.alpha 1 * s.alpha 2 : ℝ) : ℂ) * pad C 0 n 0 := fun n => by
    rw [← h 0 n 0, b0, b0]
  have hz : ∀ n, M 1 1 (bz (s.alpha 2) (s.u 2) n) = ((s.alpha 0 * s.alpha 1 * s.alpha 2 : ℝ) : ℂ) * pad C n 0 0 := fun n => by
    rw [← h n 0 0, b0, b0]
  fin_cases j
  · simp only [current, flow, Fin.zero_eta, Matrix.cons_val_zero]
    rw [show M Polynomial.X 1 1 = _ from by rw [X_bz (ha 0) (s.u 0)]]
    simp only [LinearMap.map_add, LinearMap.add_apply, dist1, hx]
    unfold r2; push_cast; ring
  · simp only [current, flow, Fin.mk_one, Matrix.cons_val_one]
    rw [show M 1 Polynomial.X 1 = _ from by rw [X_bz (ha 1) (s.u 1)]]
    simp only [LinearMap.map_add, LinearMap.add_apply, dist2, hy]
    unfold r2; push_cast; simp; ring
  · simp only [current, flow, Fin.reduceFinMk, Matrix.cons_val]
    rw [show M 1 1 Polynomial.X = _ from by rw [X_bz (ha 2) (s.u 2)]]
    simp only [LinearMap.map_add, dist3, hz]
    unfold r2; push_cast; ring

/-- Work: the kinetic energy changes by `E · flow`. -/
theorem kinetic_work (s : Species) (ha : ∀ i, s.alpha i ≠ 0) (hd : 2 < d.np ∧ 2 < d.nm ∧ 2 < d.nn) (C : Tens d ℂ) (E B : Fin 3 → ℂ) :
    (s.q : ℂ) * kinetic s (lorentzAt s C E B) = (s.m : ℂ) * ∑ j, E j * current s C j := by
  obtain ⟨M, hM⟩ := represents_of3 s ha C
  obtain ⟨M', hM'⟩ := represents_of3 s ha (lorentzAt s C E B)
  have f := (force_fluid s ha C E B M M' hM hM').2.2 hd.1 hd.2.1 hd.2.2
  rw [kinetic_spec s ha _ M' hM', f, Fin.sum_univ_three, current_spec s ha C M hM, current_spec s ha C M hM, current_spec s ha C M hM]
  push_cast; ring

/-! ### Linearity of the kinetic energy -/

theorem pad_mean (F : K Ny Nx Nz → Tens d ℂ) (p m n : ℤ) :
    pad (fun a b c => toK3 (fun x => F x a b c) 0) p m n = (∑ x, pad (F x) p m n) / (Ny * Nx * Nz) := by
  unfold pad
  split_ifs
  · exact toK3_mean _
  · simp

theorem kinetic_mean (s : Species) (F : K Ny Nx Nz → Tens d ℂ) :
    kinetic s (fun a b c => toK3 (fun x => F x a b c) 0) = (∑ x, kinetic s (F x)) / (Ny * Nx * Nz) := by
  unfold kinetic
  simp only [pad_mean]
  simp only [← mul_sum, sum_add_distrib]
  ring

theorem pad_scale (c : ℂ) (C : Tens d ℂ) (p m n : ℤ) : pad (fun a b e => c * C a b e) p m n = c * pad C p m n := by
  unfold pad; split_ifs <;> simp
theorem kinetic_scale (s : Species) (c : ℂ) (C : Tens d ℂ) : kinetic s (fun a b e => c * C a b e) = c * kinetic s C := by
  unfold kinetic
  simp only [pad_scale]; ring

/-- What collisions and diffusion leave alone: the mean of the modes up to the second. -/
theorem col_low (p : Fin d.np) (m : Fin d.nm) (n : Fin d.nn) (hp : p.val ≤ 2) (hm : m.val ≤ 2) (hn : n.val ≤ 2) : col d p m n = 0 := by
  have h : ∀ {N : ℕ} (i : Fin N), i.val ≤ 2 → hyperCol N i = 0 := by
    intro N i hi
    unfold hyperCol
    split_ifs
    · obtain ⟨v, hv⟩ : ∃ v, v = i.val := ⟨_, rfl⟩
      rw [← hv] at hi ⊢
      interval_cases v <;> norm_num
    · rfl
  unfold col
  rw [h _ hp, h _ hm, h _ hn]; norm_num

/-- The kinetic energy of the right-hand side of a species: the work of the (masked) field on the (masked) current. -/
theorem kinetic_rhs (s : Species) (ha : ∀ i, s.alpha i ≠ 0) (hm : s.m ≠ 0) (hd : 2 < d.np ∧ 2 < d.nm ∧ 2 < d.nn) (L : Fin 3 → ℝ) (omega nu D : ℝ)
    (C : Tens d (K Ny Nx Nz → ℂ)) (E B : Fin 3 → K Ny Nx Nz → ℂ) :
    kinetic s (slice (rhs s L omega nu D C E B) 0) = (omega : ℂ) * ((∑ x, ∑ j, fieldX E x j * current s (coefX C x) j) / (Ny * Nx * Nz)) := by
  have m0 : mask (0 : K Ny Nx Nz) = true := by
    simp [mask, mask23, Grid.fftfreqAt]
  have e : kinetic s (slice (rhs s L omega nu D C E B) 0) = kinetic s (fun p m n => ((s.q / s.m * omega : ℝ) : ℂ) *
      toK3 (fun x => lorentzAt s (coefX C x) (fieldX E x) (fieldX B x) p m n) 0) := by
    have g : ∀ p m n : ℤ, p ≤ 2 → m ≤ 2 → n ≤ 2 → pad (slice (rhs s L omega nu D C E B) 0) p m n = pad (fun p m n => ((s.q / s.m * omega : ℝ) : ℂ) *
      toK3 (fun x => lorentzAt s (coefX C x) (fieldX E x) (fieldX B x) p m n) 0) p m n := by
      intro p m n hp hm hn
      unfold pad
      split_ifs with hh
      · unfold slice rhs lorentz
        rw [xi_zero, k2_zero, col_low _ _ _ (by simp only; omega) (by simp only; omega) (by simp only; omega)]
        simp [advect, masked3, m0]
      · rfl
    unfold kinetic
    simp only [g 0 0 0 (by norm_num) (by norm_num) (by norm_num), g 0 0 1 (by norm_num) (by norm_num) (by norm_num), g 0 0 2 (by norm_num) (by norm_num) (by norm_num),
      g 0 1 0 (by norm_num) (by norm_num) (by norm_num), g 0 2 0 (by norm_num) (by norm_num) (by norm_num), g 1 0 0 (by norm_num) (by norm_num) (by norm_num),
      g 2 0 0 (by norm_num) (by norm_num) (by norm_num)]
  rw [e, kinetic_scale, kinetic_mean]
  have mm : (s.m : ℂ) ≠ 0 := ofReal_ne_zero.mpr hm
  have w : ∀ x, (s.q : ℂ) * kinetic s (lorentzAt s (coefX C x) (fieldX E x) (fieldX B x)) = (s.m : ℂ) * ∑ j, fieldX E x j * current s (coefX C x) j :=
    fun x => kinetic_work s ha hd _ _ _
  have w2 : (s.q : ℂ) * ∑ x, kinetic s (lorentzAt s (coefX C x) (fieldX E x) (fieldX B x)) = (s.m : ℂ) * ∑ x, ∑ j, fieldX E x j * current s (coefX C x) j := by
    rw [mul_sum, mul_sum]; exact sum_congr rfl fun x _ => w x
  push_cast
  rw [← mul_div_assoc, ← mul_div_assoc]
  congr 1
  field_simp
  linear_combination (omega : ℂ) * w2

/-- The current on the grid is the transform of the masked current. -/
theorem current_coefX (s : Species) (C : Tens d (K Ny Nx Nz → ℂ)) (x : K Ny Nx Nz) (j : Fin 3) :
    current s (coefX C x) j = toX3 (masked3 fun k => current s (slice C k) j) x := by
  have hp : ∀ p m n : ℤ, pad (coefX C x) p m n = toX3 (masked3 fun k => pad (slice C k) p m n) x := by
    intro p m n
    unfold pad
    split_ifs
    · rfl
    · have : (masked3 fun _ : K Ny Nx Nz => (0 : ℂ)) = 0 := by funext k; unfold masked3; split_ifs <;> rfl
      rw [this]
      rw [toX3_chi]; simp
  have lin : ∀ (a b g : ℂ) (c c' : K Ny Nx Nz → ℂ), (1 / r2 * (a * toX3 (masked3 c) x) + b * toX3 (masked3 c') x) * g =
      toX3 (masked3 fun k => (1 / r2 * (a * c k) + b * c' k) * g) x := by
    intro a b g c c'
    rw [toX3_chi, toX3_chi, toX3_chi, mul_sum, mul_sum, mul_sum, ← sum_add_distrib, sum_mul]
    refine sum_congr rfl fun k _ => ?_
    unfold masked3
    split_ifs
    · ring
    · simp
  fin_cases j
  · simp only [current, Fin.zero_eta, Matrix.cons_val_zero, hp]
    exact lin _ _ _ _ _
  · simp only [current, Fin.mk_one, Matrix.cons_val_one, hp]
    exact lin _ _ _ _ _
  · simp only [current, Fin.reduceFinMk, Matrix.cons_val, hp]
    exact lin _ _ _ _ _

/-- Work over all masked modes. -/
theorem work_modes (s : Species) (C : Tens d (K Ny Nx Nz → ℂ)) (E : Fin 3 → K Ny Nx Nz → ℂ) (hr : ∀ x j, (fieldX E x j).im = 0) :
    (∑ x, ∑ j, fieldX E x j * current s (coefX C x) j) / (Ny * Nx * Nz) = ∑ j, ∑ k, if mask k then conj (E j k) * current s (slice C k) j else 0 := by
  rw [sum_comm, sum_div]
  refine sum_congr rfl fun j _ => ?_
  have e : ∀ x, fieldX E x j * current s (coefX C x) j = conj (toX3 (masked3 (E j)) x) * toX3 (masked3 fun k => current s (slice C k) j) x := by
    intro x
    rw [current_coefX]
    congr 1
    exact (conj_eq_iff_im.mpr (hr x j)).symm
  simp only [e]
  rw [parseval3]
  refine sum_congr rfl fun k _ => ?_
  unfold masked3
  split_ifs <;> simp

/-- The total energy: kinetic energy of the species (mean over the box) and `omega²/2` times the mean square of the fields. -/
noncomputable def Setup.totalEnergy (p : Setup de di Ny Nx Nz) (y : St de di Ny Nx Nz) : ℝ :=
  (kinetic p.e (slice y.1 0)).re + (kinetic p.i (slice y.2.1 0)).re + p.omega ^ 2 / 2 * (energy y.2.2.1 + energy y.2.2.2)

/-- Maxwell's equations without current keep the field energy. -/
theorem curl_work (x : Fin 3 → ℝ) (e b : Fin 3 → ℂ) :
    (∑ j, (conj (e j) * (I * cross (fun i => (x i : ℂ)) b j) + conj (b j) * (-I * cross (fun i => (x i : ℂ)) e j))).re = 0 := by
  simp only [Fin.sum_univ_three, cross, Matrix.cons_val_zero, Matrix.cons_val_one, Matrix.cons_val]
  simp
  ring

/-- C156: along a solution of the explicit equations (real electric field, no filter, driver or noise; collisions and diffusion allowed) the total
energy changes only by the work of the modes outside the 2/3 mask, on which the current acts but no force: it is conserved while those modes are empty. -/
theorem energy_budget (p : Setup de di Ny Nx Nz) (he : ∀ i, p.e.alpha i ≠ 0) (hi : ∀ i, p.i.alpha i ≠ 0) (hme : p.e.m ≠ 0) (hmi : p.i.m ≠ 0)
    (hde : 2 < de.np ∧ 2 < de.nm ∧ 2 < de.nn) (hdi : 2 < di.np ∧ 2 < di.nm ∧ 2 < di.nn) (hf : p.filter = none) (hE : p.noiseE = none) (hI : p.noiseI = none)
    (hdr : ∀ t j k, p.driver t j k = 0) (ho : p.omega ≠ 0) (y : ℝ → St de di Ny Nx Nz) (t : ℝ) (hr : ∀ x j, (fieldX (y t).2.2.1 x j).im = 0)
    (h1 : ∀ a b c k, HasDerivAt (fun s => (y s).1 a b c k) ((p.explicit t (y t)).1 a b c k) t)
    (h2 : ∀ a b c k, HasDerivAt (fun s => (y s).2.1 a b c k) ((p.explicit t (y t)).2.1 a b c k) t)
    (h3 : ∀ j k, HasDerivAt (fun s => (y s).2.2.1 j k) ((p.explicit t (y t)).2.2.1 j k) t)
    (h4 : ∀ j k, HasDerivAt (fun s => (y s).2.2.2 j k) ((p.explicit t (y t)).2.2.2 j k) t) :
    HasDerivAt (fun s => p.totalEnergy (y s)) (-p.omega * (∑ j, ∑ k, if mask k then 0 else conj ((y t).2.2.1 j k) * p.J (y t) k j).re) t := by
  have dpad : ∀ {d : Dims} (F : ℝ → Tens d (K Ny Nx Nz → ℂ)) (F' : Tens d (K Ny Nx Nz → ℂ)) (k : K Ny Nx Nz)
      (_ : ∀ a b c k, HasDerivAt (fun s => F s a b c k) (F' a b c k) t) (p m n : ℤ), HasDerivAt (fun s => pad (slice (F s) k) p m n) (pad (slice F' k) p m n) t := by
    intro d F F' k h p m n
    unfold pad
    split_ifs
    · exact h _ _ _ _
    · exact hasDerivAt_const _ _
  have dkin : ∀ {d : Dims} (s : Species) (F : ℝ → Tens d (K Ny Nx Nz → ℂ)) (F' : Tens d (K Ny Nx Nz → ℂ))
      (_ : ∀ a b c k, HasDerivAt (fun s => F s a b c k) (F' a b c k) t), HasDerivAt (fun r => (kinetic s (slice (F r) 0)).re) (kinetic s (slice F' 0)).re t := by
    intro d s F F' h
    have q := dpad F F' 0 h
    have : HasDerivAt (fun r => kinetic s (slice (F r) 0)) (kinetic s (slice F' 0)) t := by
      unfold kinetic
      exact (((((((q 0 0 2).const_mul _).add (q 0 0 0)).const_mul _).add ((q 0 0 1).const_mul _)).add ((q 0 0 0).const_mul _)).add
        ((((((q 0 2 0).const_mul _).add (q 0 0 0)).const_mul _).add ((q 0 1 0).const_mul _)).add ((q 0 0 0).const_mul _)) |>.add
        ((((((q 2 0 0).const_mul _).add (q 0 0 0)).const_mul _).add ((q 1 0 0).const_mul _)).add ((q 0 0 0).const_mul _))).const_mul _
    exact Complex.reCLM.hasFDerivAt.comp_hasDerivAt t this
  have den : ∀ (F : ℝ → Fin 3 → K Ny Nx Nz → ℂ) (F' : Fin 3 → K Ny Nx Nz → ℂ) (_ : ∀ j k, HasDerivAt (fun s => F s j k) (F' j k) t),
      HasDerivAt (fun s => energy (F s)) (2 * (∑ j, ∑ k, conj (F t j k) * F' j k).re) t := by
    intro F F' h
    unfold energy
    have := HasDerivAt.fun_sum (u := univ) (x := t) fun (j : Fin 3) _ => HasDerivAt.fun_sum (u := univ) (x := t) fun (k : K Ny Nx Nz) _ => (h j k).norm_sq
    refine this.congr_deriv ?_
    simp only [Complex.inner, re_sum, mul_sum]
    exact sum_congr rfl fun _ _ => sum_congr rfl fun _ _ => by rw [mul_comm (conj _)]
  have D := ((dkin p.e (fun s => (y s).1) _ h1).add (dkin p.i (fun s => (y s).2.1) _ h2)).add
    (((den (fun s => (y s).2.2.1) _ h3).add (den (fun s => (y s).2.2.2) _ h4)).const_mul (p.omega ^ 2 / 2))
  refine D.congr_deriv ?_
  obtain ⟨v, hv⟩ : ∃ v, v = y t := ⟨_, rfl⟩
  rw [← hv] at hr ⊢
  have ke : kinetic p.e (slice (p.explicit t v).1 0) = (p.omega : ℂ) * ∑ j, ∑ k, if mask k then conj (v.2.2.1 j k) * current p.e (slice v.1 k) j else 0 := by
    rw [← work_modes p.e v.1 v.2.2.1 hr, ← kinetic_rhs p.e he hme hde p.L p.omega p.nu p.D v.1 v.2.2.1 v.2.2.2]
    unfold Setup.explicit
    simp only [hE, hf, Option.map_none, addNoise, applyFilter]
  have ki : kinetic p.i (slice (p.explicit t v).2.1 0) = (p.omega : ℂ) * ∑ j, ∑ k, if mask k then conj (v.2.2.1 j k) * (if p.staticIons then 0 else current p.i (slice v.2.1 k) j) else 0 := by
    by_cases hs : p.staticIons = true
    · have : slice (p.explicit t v).2.1 (0 : K Ny Nx Nz) = fun _ _ _ => 0 * (0 : ℂ) := by
        unfold Setup.explicit slice; simp [hs]
      rw [this, kinetic_scale]; simp [hs]
    · simp only [hs, if_false, Bool.false_eq_true]
      rw [← work_modes p.i v.2.1 v.2.2.1 hr, ← kinetic_rhs p.i hi hmi hdi p.L p.omega p.nu p.D v.2.1 v.2.2.1 v.2.2.2]
      unfold Setup.explicit
      simp only [hI, hf, Option.map_none, addNoise, applyFilter, hs, if_false, Bool.false_eq_true]
  have kk : kinetic p.e (slice (p.explicit t v).1 0) + kinetic p.i (slice (p.explicit t v).2.1 0) =
      (p.omega : ℂ) * ∑ j, ∑ k, if mask k then conj (v.2.2.1 j k) * p.J v k j else 0 := by
    rw [ke, ki, ← mul_add, ← sum_add_distrib]
    congr 1
    refine sum_congr rfl fun j _ => ?_
    rw [← sum_add_distrib]
    refine sum_congr rfl fun k _ => ?_
    unfold Setup.J
    split_ifs <;> ring
  have oo : (p.omega : ℂ) ≠ 0 := ofReal_ne_zero.mpr ho
  have fe : (∑ j, ∑ k, conj (v.2.2.1 j k) * (p.explicit t v).2.2.1 j k) + (∑ j, ∑ k, conj (v.2.2.2 j k) * (p.explicit t v).2.2.2 j k) =
      (∑ k, ∑ j, (conj (v.2.2.1 j k) * (I * cross (fun i => (xi p.L k i : ℂ)) (fun i => v.2.2.2 i k) j) + conj (v.2.2.2 j k) * (-I * cross (fun i => (xi p.L k i : ℂ)) (fun i => v.2.2.1 i k) j)))
        - (∑ j, ∑ k, conj (v.2.2.1 j k) * p.J v k j) / p.omega := by
    rw [sum_comm (s := (univ : Finset (K Ny Nx Nz))) (t := (univ : Finset (Fin 3))) (f := fun k j => conj (v.2.2.1 j k) * (I * cross (fun i => (xi p.L k i : ℂ)) (fun i => v.2.2.2 i k) j) + conj (v.2.2.2 j k) * (-I * cross (fun i => (xi p.L k i : ℂ)) (fun i => v.2.2.1 i k) j)),
      ← sum_add_distrib, sum_div, ← sum_sub_distrib]
    refine sum_congr rfl fun j _ => ?_
    rw [← sum_add_distrib, sum_div, ← sum_sub_distrib]
    refine sum_congr rfl fun k _ => ?_
    unfold Setup.explicit
    simp only [hdr]
    ring
  have fr := congrArg Complex.re fe
  rw [sub_re, re_sum, sum_eq_zero (fun k _ => curl_work (xi p.L k) (fun i => v.2.2.1 i k) (fun i => v.2.2.2 i k)), zero_sub, add_re, div_ofReal_re] at fr
  have kr := congrArg Complex.re kk
  rw [add_re, re_ofReal_mul] at kr
  have sp : (∑ j, ∑ k, conj (v.2.2.1 j k) * p.J v k j) = (∑ j, ∑ k, if mask k then conj (v.2.2.1 j k) * p.J v k j else 0) +
      ∑ j, ∑ k, if mask k then 0 else conj (v.2.2.1 j k) * p.J v k j := by
    rw [← sum_add_distrib]
    refine sum_congr rfl fun j _ => ?_
    rw [← sum_add_distrib]
    refine sum_congr rfl fun k _ => ?_
    split_ifs <;> simp
  have sr := congrArg Complex.re sp
  rw [add_re] at sr
  rw [kr, ← mul_add, fr, sr]
  field_simp
  ring

/-- The hypotheses on the curve are met at every state. -/
example (p : Setup de di Ny Nx Nz) (t : ℝ) (v : St de di Ny Nx Nz) : ∃ y : ℝ → St de di Ny Nx Nz, y t = v ∧
    (∀ a b c k, HasDerivAt (fun s => (y s).1 a b c k) ((p.explicit t (y t)).1 a b c k) t) ∧
    (∀ j k, HasDerivAt (fun s => (y s).2.2.1 j k) ((p.explicit t (y t)).2.2.1 j k) t) := by
  refine ⟨fun s => v + (s - t) • p.explicit t v, by simp, fun a b c k => ?_, fun j k => ?_⟩
  · have h : HasDerivAt (fun s : ℝ => ((s - t : ℝ) : ℂ) * (p.explicit t v).1 a b c k + v.1 a b c k) (((1 : ℝ) : ℂ) * (p.explicit t v).1 a b c k) t :=
      (((hasDerivAt_id t).sub_const t).ofReal_comp.mul_const _).add_const _
    simp only [sub_self, zero_smul, add_zero]
    refine (h.congr_deriv (by simp)).congr_of_eventuallyEq (Filter.Eventually.of_forall fun s => ?_)
    simp; ring
  · have h : HasDerivAt (fun s : ℝ => ((s - t : ℝ) : ℂ) * (p.explicit t v).2.2.1 j k + v.2.2.1 j k) (((1 : ℝ) : ℂ) * (p.explicit t v).2.2.1 j k) t :=
      (((hasDerivAt_id t).sub_const t).ofReal_comp.mul_const _).add_const _
    simp only [sub_self, zero_smul, add_zero]
    refine (h.congr_deriv (by simp)).congr_of_eventuallyEq (Filter.Eventually.of_forall fun s => ?_)
    simp; ring

/-! ### C159: collisions -/

/-- C159: the collision matrix is nonnegative, vanishes on the modes up to the second of every direction (density, flow, temperatures), and is 1 at the
last mode of a direction with more than three modes (the others 0); so the collision term never increases `Σ |C|²`, and its exponential is a
contraction forward in time. -/
theorem collisions_dissipate (nu : ℝ) (hnu : 0 ≤ nu) :
    (∀ (p : Fin d.np) (m : Fin d.nm) (n : Fin d.nn), 0 ≤ col d p m n) ∧
    (∀ (p : Fin d.np) (m : Fin d.nm) (n : Fin d.nn), p.val ≤ 2 → m.val ≤ 2 → n.val ≤ 2 → col d p m n = 0) ∧
    (3 < d.nn → ∀ (p : Fin d.np) (m : Fin d.nm) (n : Fin d.nn), p.val ≤ 2 → m.val ≤ 2 → n.val + 1 = d.nn → col d p m n = 1) ∧
    (∀ C : Tens d ℂ, (∑ p, ∑ m, ∑ n, conj (C p m n) * (-(nu : ℂ) * (col d p m n : ℂ) * C p m n)).re ≤ 0) ∧
    ∀ (D s : ℝ) (_ : 0 ≤ D) (_ : 0 ≤ s) (C : Tens d (K Ny Nx Nz → ℂ)) p m n k, ‖diagonal nu D s C p m n k‖ ≤ ‖C p m n k‖ := by
  have nn : ∀ {N : ℕ} (i : Fin N), 0 ≤ hyperCol N i := by
    intro N i
    unfold hyperCol
    split_ifs with hn
    · have h3 : (3 : ℝ) < N := by exact_mod_cast hn
      refine div_nonneg ?_ (mul_nonneg (mul_nonneg (by linarith) (by linarith)) (by linarith))
      rcases Nat.lt_or_ge i.val 3 with h | h
      · obtain ⟨v, hv⟩ : ∃ v, v = i.val := ⟨_, rfl⟩
        rw [← hv] at h ⊢
        interval_cases v <;> norm_num
      · have : (3 : ℝ) ≤ i.val := by exact_mod_cast h
        exact mul_nonneg (mul_nonneg (by linarith) (by linarith)) (by linarith)
    · exact le_refl _
  have c0 : ∀ (p : Fin d.np) (m : Fin d.nm) (n : Fin d.nn), 0 ≤ col d p m n := fun p m n => add_nonneg (add_nonneg (nn _) (nn _)) (nn _)
  refine ⟨c0, fun p m n => col_low p m n, fun h3 p m n hp hm hn => ?_, fun C => ?_, fun D s hD hs C p m n k => ?_⟩
  · have z : ∀ {N : ℕ} (i : Fin N), i.val ≤ 2 → hyperCol N i = 0 := by
      intro N i hi
      unfold hyperCol
      split_ifs
      · obtain ⟨v, hv⟩ : ∃ v, v = i.val := ⟨_, rfl⟩
        rw [← hv] at hi ⊢
        interval_cases v <;> norm_num
      · rfl
    unfold col
    rw [z p hp, z m hm, hyperCol, if_pos h3]
    have hn' : (n.val : ℝ) + 1 = (d.nn : ℝ) := by exact_mod_cast hn
    have e : (n.val : ℝ) = (d.nn : ℝ) - 1 := by linarith
    have h4 : (3 : ℝ) < d.nn := by exact_mod_cast h3
    rw [e]
    have a1 : (d.nn : ℝ) - 1 ≠ 0 := by linarith
    have a2 : (d.nn : ℝ) - 2 ≠ 0 := by linarith
    have a3 : (d.nn : ℝ) - 3 ≠ 0 := by linarith
    rw [show (d.nn : ℝ) - 1 - 1 = d.nn - 2 by ring, show (d.nn : ℝ) - 1 - 2 = d.nn - 3 by ring, div_self (mul_ne_zero (mul_ne_zero a1 a2) a3)]; ring
  · simp only [re_sum]
    refine sum_nonpos fun p _ => sum_nonpos fun m _ => sum_nonpos fun n _ => ?_
    have e : conj (C p m n) * (-(nu : ℂ) * (col d p m n : ℂ) * C p m n) = ((-(nu * col d p m n * Complex.normSq (C p m n)) : ℝ) : ℂ) := by
      push_cast; rw [Complex.normSq_eq_conj_mul_self]; ring
    rw [e, ofReal_re]
    have := mul_nonneg (mul_nonneg hnu (c0 p m n)) (Complex.normSq_nonneg (C p m n))
    linarith
  · unfold diagonal
    rw [norm_mul, norm_real, Real.norm_of_nonneg (Real.exp_nonneg _)]
    have k0 : 0 ≤ k2 k := by unfold k2; positivity
    have : Real.exp (-nu * col d p m n * s + -D * k2 k * s) ≤ 1 := by
      rw [Real.exp_le_one_iff]
      have a := mul_nonneg (mul_nonneg hnu (c0 p m n)) hs
      have b := mul_nonneg (mul_nonneg hD k0) hs
      linarith
    exact mul_le_of_le_one_right (norm_nonneg _) this

end Verif.Spectrax
