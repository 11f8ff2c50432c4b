import Verif.Props.HermiteRun
import Verif.Props.Vfp2dStep
import Verif.Props.Integrator

/-!
C107 (momentum), C108 (equilibrium), C110 (linear response and options), C112 (initial state) and C113
(sponge) of the Hermite-Poisson solver.
-/
namespace Verif.Hermite
open Finset Complex Verif.Spectral
open scoped Matrix ComplexConjugate

variable {N : ℕ} [NeZero N] {n ne ni : ℕ}

/-! ### C107: momentum -/

theorem toK_inj {f g : ZMod N → ℝ} (h : ∀ k, toK (fun j => (f j : ℂ)) k = toK (fun j => (g j : ℂ)) k) : f = g := by
  have hN : (N : ℂ) ≠ 0 := Nat.cast_ne_zero.mpr (NeZero.ne N)
  refine fft_inj fun k => ?_
  have := h k
  rw [toK, toK] at this
  exact (div_left_inj' hN).mp this

/-- The spectrum of the real part. -/
theorem toK_re (c : ZMod N → ℂ) (k : ZMod N) : toK (fun x => (((toX c x).re : ℝ) : ℂ)) k = (c k + conj (c (-k))) / 2 := by
  have hN : (N : ℂ) ≠ 0 := Nat.cast_ne_zero.mpr (NeZero.ne N)
  have e : (fun x => (((toX c x).re : ℝ) : ℂ)) = fun x => (((ifft (fun k => (N : ℂ) * c k) x).re : ℝ) : ℂ) := by
    funext x; rw [toX, ifft_smul]
  rw [toK, e, fft_re_ifft, Spectral.symm]
  simp only [map_mul, Complex.conj_natCast]
  field_simp

theorem toK_real (f : ZMod N → ℝ) (k : ZMod N) : toK (fun x => (f x : ℂ)) (-k) = conj (toK (fun x => (f x : ℂ)) k) := by
  rw [toK, toK, fft_real, map_div₀, Complex.conj_natCast]

theorem masked_neg {m : Option (ZMod N → Bool)} (hs : ∀ f, m = some f → ∀ k, f (-k) = f k) (c : ZMod N → ℂ) (k : ZMod N) :
    conj (masked m c (-k)) = masked m (fun k => conj (c (-k))) k := by
  rcases m with _ | f
  · rfl
  · simp only [masked, hs f rfl]; split_ifs <;> simp

/-- Masking a real field masks its spectrum. -/
theorem toK_maskedForce {m : Option (ZMod N → Bool)} (hs : ∀ f, m = some f → ∀ k, f (-k) = f k) (F : ZMod N → ℝ) (k : ZMod N) :
    toK (fun x => ((maskedForce m F x : ℝ) : ℂ)) k = masked m (toK fun x => (F x : ℂ)) k := by
  rcases m with _ | f
  · rfl
  · have e : (fun x => ((maskedForce (some f) F x : ℝ) : ℂ)) = fun x => (((toX (masked (some f) (toK fun x => (F x : ℂ))) x).re : ℝ) : ℂ) := rfl
    rw [e, toK_re, masked_neg hs]
    have : (fun k => conj (toK (fun x => (F x : ℂ)) (-k))) = toK fun x => (F x : ℂ) := by
      funext k; rw [toK_real, Complex.conj_conj]
    rw [this]; ring

/-- The masked density is the mask of the density. -/
theorem re_masked {m : Option (ZMod N → Bool)} (hs : ∀ f, m = some f → ∀ k, f (-k) = f k) (c : ZMod N → ℂ) :
    (fun x => (toX (masked m c) x).re) = maskedForce m fun x => (toX c x).re := by
  refine toK_inj fun k => ?_
  rw [toK_maskedForce hs, toK_re, masked_neg hs]
  have e : (toK fun x => (((toX c x).re : ℝ) : ℂ)) = fun k => (c k + conj (c (-k))) / 2 := funext (toK_re c)
  rw [e]
  rcases m with _ | f
  · rfl
  · simp only [masked]; split_ifs <;> simp

theorem oneOverKx_odd (L : ℝ) (k : ZMod N) (hz : k.val ≠ 0) (hk : 2 * k.val ≠ N) : oneOverKx L (-k) = -oneOverKx L k := by
  have e : ∀ k : ZMod N, oneOverKx L k = oneOverK (L / N) k := fun k => by rw [oneOverKx, oneOverK, kx_eq]
  rw [e, e, oneOverK_odd _ k hz hk]

theorem toK_field (L : ℝ) (rho : ZMod N → ℝ) (k : ZMod N) :
    toK (fun x => ((field L rho x : ℝ) : ℂ)) k = if 2 * k.val = N then 0 else -I * (oneOverKx L k : ℂ) * toK (fun x => (rho x : ℂ)) k := by
  have hN : (N : ℂ) ≠ 0 := Nat.cast_ne_zero.mpr (NeZero.ne N)
  have e : (fun x => ((field L rho x : ℝ) : ℂ)) =
      fun x => (((toX (fun k => -I * (oneOverKx L k : ℂ) * toK (fun j => (rho j : ℂ)) k) x).re : ℝ) : ℂ) := rfl
  rw [e, toK_re]
  rw [toK_real]
  simp only [map_mul, map_neg, conj_I, conj_ofReal, Complex.conj_conj]
  by_cases hz : k.val = 0
  · have : k = 0 := (ZMod.val_eq_zero k).mp hz
    subst this
    have h0 : oneOverKx L (0 : ZMod N) = 0 := by rw [oneOverKx, if_pos (ZMod.val_zero)]
    have hN' := NeZero.ne N
    rw [if_neg (by rw [hz]; omega), neg_zero, h0]; simp
  · by_cases hk : 2 * k.val = N
    · rw [if_pos hk, (neg_eq_self_iff hz).2 hk]; ring
    · rw [if_neg hk, oneOverKx_odd L k hz hk]; push_cast; ring

/-- Masking commutes with the field solve. -/
theorem masked_field {m : Option (ZMod N → Bool)} (hs : ∀ f, m = some f → ∀ k, f (-k) = f k) (L : ℝ) (rho : ZMod N → ℝ) :
    maskedForce m (field L rho) = field L (maskedForce m rho) := by
  refine toK_inj fun k => ?_
  rw [toK_maskedForce hs, toK_field, toK_maskedForce hs]
  have e : (toK fun x => ((field L rho x : ℝ) : ℂ)) = fun k => if 2 * k.val = N then 0 else -I * (oneOverKx L k : ℂ) * toK (fun x => (rho x : ℂ)) k :=
    funext (toK_field L rho)
  rw [e]
  rcases m with _ | f
  · rfl
  · simp only [masked]; split_ifs <;> simp

theorem toX_add (a b : ZMod N → ℂ) (x : ZMod N) : toX (fun k => a k + b k) x = toX a x + toX b x := by
  rw [toX, toX, toX, ifft_add]; ring

theorem toX_smul (c : ℂ) (a : ZMod N → ℂ) (x : ZMod N) : toX (fun k => c * a k) x = c * toX a x := by
  rw [toX, toX, ifft_smul]; ring

theorem toK_add (a b : ZMod N → ℂ) (k : ZMod N) : toK (fun x => a x + b x) k = toK a k + toK b k := by
  rw [toK, toK, toK, Vfp2d.fft_add]; ring

theorem toK_smul (c : ℂ) (a : ZMod N → ℂ) (k : ZMod N) : toK (fun x => c * a x) k = c * toK a k := by
  rw [toK, toK, Vfp2d.fft_smul]; ring

theorem masked_add (m : Option (ZMod N → Bool)) (a b : ZMod N → ℂ) (k : ZMod N) : masked m (fun k => a k + b k) k = masked m a k + masked m b k := by
  rcases m with _ | f
  · rfl
  · simp only [masked]; split_ifs <;> simp

theorem masked_smul (m : Option (ZMod N → Bool)) (c : ℂ) (a : ZMod N → ℂ) (k : ZMod N) : masked m (fun k => c * a k) k = c * masked m a k := by
  rcases m with _ | f
  · rfl
  · simp only [masked]; split_ifs <;> simp

theorem maskedForce_lin (m : Option (ZMod N → Bool)) (a b : ℝ) (F G : ZMod N → ℝ) (x : ZMod N) :
    maskedForce m (fun x => a * F x + b * G x) x = a * maskedForce m F x + b * maskedForce m G x := by
  rcases m with _ | f
  · rfl
  · simp only [maskedForce]
    have e : masked (some f) (toK fun j => ((a * F j + b * G j : ℝ) : ℂ)) = fun k => (a : ℂ) * masked (some f) (toK fun j => (F j : ℂ)) k
        + (b : ℂ) * masked (some f) (toK fun j => (G j : ℂ)) k := by
      funext k
      rw [← masked_smul, ← masked_smul, ← masked_add]
      congr 1
      funext k
      rw [← toK_smul, ← toK_smul, ← toK_add]; congr 1; funext x; push_cast; rfl
    rw [e, toX_add, toX_smul, toX_smul]; simp

/-- The field exerts no net force on the plasma it comes from, mask or not. -/
theorem net_force {m : Option (ZMod N → Bool)} (hs : ∀ f, m = some f → ∀ k, f (-k) = f k) (L : ℝ) (nI nE : ZMod N → ℝ) :
    ∑ x, maskedForce m (field L fun x => nI x - nE x) x * (maskedForce m nI x - maskedForce m nE x) = 0 := by
  have e : ∀ x, maskedForce m nI x - maskedForce m nE x = maskedForce m (fun x => nI x - nE x) x := by
    intro x
    have := maskedForce_lin m 1 (-1) nI nE x
    rw [show (fun x => 1 * nI x + -1 * nE x) = fun x => nI x - nE x from by funext x; ring] at this
    rw [this]; ring
  simp only [e]
  rw [masked_field hs]
  have h := odd_kernel_force (N := N) (oneOverK (L / N)) (oneOverK_odd (L / N)) (by unfold oneOverK; simp) (maskedForce m fun x => nI x - nE x)
  rw [field_eq]
  rw [← h]
  exact Finset.sum_congr rfl fun x _ => mul_comm _ _

/-- Momentum density of a species of unit mass: the first moment of the distribution. -/
noncomputable def momentumDensity (h : 1 < n) (alpha : ℝ) (C : Coef n N) (x : ZMod N) : ℝ := alpha ^ 4 / Real.sqrt 2 * (toX (C ⟨1, h⟩) x).re

theorem momentum_moment (h : 1 < n) {alpha : ℝ} (ha : alpha ≠ 0) (C : Coef n N) (x : ZMod N) (M : Polynomial ℝ →ₗ[ℝ] ℂ)
    (hM : Represents alpha 0 M fun i => toX (C i) x) : momentumDensity h alpha C x = (M Polynomial.X).re := by
  have h1 := hM ⟨1, h⟩
  have hs : Real.sqrt 2 ≠ 0 := (Real.sqrt_pos.mpr (by norm_num)).ne'
  simp only at h1
  rw [basis_one, Polynomial.C_0, sub_zero, ← Polynomial.smul_eq_C_mul, map_smul, Complex.real_smul] at h1
  have h2 : M Polynomial.X = ((alpha ^ 4 / Real.sqrt 2 : ℝ) : ℂ) * toX (C ⟨1, h⟩) x := by
    have hc : ((Real.sqrt 2 / alpha : ℝ) : ℂ) ≠ 0 := ofReal_ne_zero.mpr (div_ne_zero hs ha)
    apply mul_left_cancel₀ hc
    rw [← h1, ← mul_assoc, ← ofReal_mul, ← ofReal_pow]
    congr 2
    field_simp
  rw [h2, re_ofReal_mul, momentumDensity]

theorem momentum_total (h : 1 < n) (alpha : ℝ) (C : Coef n N) : ∑ x, momentumDensity h alpha C x = alpha ^ 4 / Real.sqrt 2 * (N * (C ⟨1, h⟩ 0).re) := by
  simp only [momentumDensity, ← Finset.mul_sum]
  rw [← Complex.re_sum, sum_toX]; simp

/-- What the force substep does to the mean of the first coefficient. -/
theorem force_momentum [NeZero n] (h : 1 < n) {m : Option (ZMod N → Bool)} (hm : ∀ f, m = some f → f 0 = true) (hs : ∀ f, m = some f → ∀ k, f (-k) = f k)
    (C : Coef n N) (a : ZMod N → ℝ) (alpha omega dt : ℝ) (terms : ℕ) (ht : 1 ≤ terms) :
    (forceExp C a alpha omega dt m terms ⟨1, h⟩ 0).re = (C ⟨1, h⟩ 0).re +
      Real.sqrt 2 * omega * dt / alpha / N * ∑ x, maskedForce m a x * maskedForce m (fun x => (toX (C 0) x).re) x := by
  have hN : (N : ℝ) ≠ 0 := Nat.cast_ne_zero.mpr (NeZero.ne N)
  have hnone : ∀ (C : Coef n N) (a : ZMod N → ℝ), (forceExp C a alpha omega dt none terms ⟨1, h⟩ 0).re = (C ⟨1, h⟩ 0).re +
      Real.sqrt 2 * omega * dt / alpha / N * ∑ x, a x * (toX (C 0) x).re := by
    intro C a
    have e := sum_toX (forceExp C a alpha omega dt none terms ⟨1, h⟩)
    have e' : ∀ x, toX (forceExp C a alpha omega dt none terms ⟨1, h⟩) x = toX (C ⟨1, h⟩) x + ((Real.sqrt 2 * (omega * dt * a x) / alpha : ℝ) : ℂ) * toX (C 0) x := by
      intro x
      rw [force_series]
      simp only [Nat.min_eq_right ht]
      rw [Finset.sum_range_succ, Finset.sum_range_one]
      have a1 : at' (fun j => toX (C j) x) (1 - 0) = toX (C ⟨1, h⟩) x := by rw [at', dif_pos h]
      have a0 : at' (fun j => toX (C j) x) (1 - 1) = toX (C 0) x := by
        rw [at', dif_pos (by omega)]; rfl
      rw [a1, a0]; simp
    have hr : (N : ℝ) * (forceExp C a alpha omega dt none terms ⟨1, h⟩ 0).re = (N : ℝ) * (C ⟨1, h⟩ 0).re +
        Real.sqrt 2 * omega * dt / alpha * ∑ x, a x * (toX (C 0) x).re := by
      have := congrArg Complex.re e
      simp only [e', Finset.sum_add_distrib, sum_toX] at this
      rw [Complex.add_re, Complex.re_sum] at this
      simp only [re_ofReal_mul] at this
      have hc : ∀ z : ℂ, ((N : ℂ) * z).re = (N : ℝ) * z.re := fun z => by simp
      rw [hc, hc] at this
      rw [← this, Finset.mul_sum]
      congr 1
      exact Finset.sum_congr rfl fun x _ => by ring
    field_simp
    field_simp at hr
    linear_combination hr
  rcases m with _ | f
  · exact hnone C a
  · rw [(force_masked f C a alpha omega dt terms ⟨1, h⟩).1, masked_mean hm, hnone, masked_mean hm]
    rw [re_masked hs (C 0) |> congrFun |> fun h => Finset.sum_congr rfl fun x _ => by rw [h x]]

theorem coupling_momentum [NeZero n] (h : 1 < n) {m : Option (ZMod N → Bool)} (hm : ∀ f, m = some f → f 0 = true) (hs : ∀ f, m = some f → ∀ k, f (-k) = f k)
    (C : Coef n N) (a : ZMod N → ℝ) (alpha omega : ℝ) :
    (coupling C a 1 alpha omega m ⟨1, h⟩ 0).re =
      Real.sqrt 2 * omega / alpha / N * ∑ x, maskedForce m a x * maskedForce m (fun x => (toX (C 0) x).re) x := by
  rw [coupling, masked_mean hm, toK_mean, ← re_masked hs]
  have hu : ∀ x, up (fun j => toX (masked m (C j)) x) ⟨1, h⟩ = toX (masked m (C 0)) x := by
    intro x; rw [up, dif_neg (by simp)]; rfl
  simp only [hu]
  have e : (((1 : ℝ) : ℂ) * (omega : ℂ) * ((∑ x, ((Real.sqrt ((⟨1, h⟩ : Fin n).val : ℝ) * Real.sqrt 2 / alpha : ℝ) : ℂ) * (maskedForce m a x : ℂ) *
      toX (masked m (C 0)) x) / (N : ℂ))) = ∑ x, ((Real.sqrt 2 * omega / alpha / N * maskedForce m a x : ℝ) : ℂ) * toX (masked m (C 0)) x := by
    rw [Finset.sum_div, Finset.mul_sum]
    refine Finset.sum_congr rfl fun x _ => ?_
    simp only [Nat.cast_one, Real.sqrt_one]
    push_cast; ring
  rw [e, Complex.re_sum, Finset.mul_sum]
  refine Finset.sum_congr rfl fun x _ => ?_
  rw [re_ofReal_mul]; ring

/-- Total momentum of electrons of mass `me` and ions of mass `mi`. -/
noncomputable def totalMomentum (he : 1 < ne) (hi : 1 < ni) (p : Setup ne ni N) (me mi : ℝ) (c : Ks ne ni N) : ℝ :=
  ∑ x, (me * momentumDensity he p.alphaE c.1 x + mi * momentumDensity hi p.alphaI c.2 x)

theorem totalMomentum_eq (he : 1 < ne) (hi : 1 < ni) (p : Setup ne ni N) (me mi : ℝ) (c : Ks ne ni N) :
    totalMomentum he hi p me mi c = N / Real.sqrt 2 * (me * p.alphaE ^ 4 * (c.1 ⟨1, he⟩ 0).re + mi * p.alphaI ^ 4 * (c.2 ⟨1, hi⟩ 0).re) := by
  rw [totalMomentum, Finset.sum_add_distrib, ← Finset.mul_sum, ← Finset.mul_sum, momentum_total, momentum_total]; ring

variable [NeZero ne] [NeZero ni]

/-- The hypotheses of momentum conservation: moving ions, charges of opposite sign, nothing external. -/
structure Isolated (p : Setup ne ni N) (me mi : ℝ) : Prop where
  built : Built p
  moving : p.staticIons = false
  selfConsistent : p.staticDensity = none
  electron : p.qmE * me = -1
  ion : p.qmI * mi = 1
  alphaE : p.alphaE ≠ 0
  alphaI : p.alphaI ≠ 0
  exDriver : p.exDriver = fun _ _ => 0
  eyDriver : p.eyDriver = fun _ _ => 0
  noise : p.noise = fun _ _ => 0
  sponge : p.spongePlasma = none
  nonlinear : p.linearResponse = false
  terms : 1 ≤ p.terms

theorem pond_null (dx : ℝ) : pond (N := N) dx (fun _ => 0) = fun _ => 0 := by
  funext x; rw [pond, gradient]; simp

theorem wave_null (w : Wave.Solver) (nx : ℕ) (d : ℕ → ℝ) : w.step nx (fun _ => 0) (fun _ => 0) (fun _ => 0) d = (fun _ => 0, fun _ => 0) := by
  have hint : ∀ i, w.interior (fun _ => 0) (fun _ => 0) (fun _ => 0) d i = 0 := by intro i; unfold Wave.Solver.interior; simp
  unfold Wave.Solver.step
  split_ifs
  · refine Prod.ext ?_ rfl
    funext i
    simp only [hint]
    have : w.abc 0 0 0 0 0 0 0 0 = 0 := by unfold Wave.Solver.abc; simp
    simp [this]
  · rfl

theorem spongeA_null (s : Option (ZMod N → ℝ)) (dt : ℝ) : spongeA s dt (fun _ => 0) = fun _ => 0 := by
  rcases s with _ | s
  · rfl
  · funext i; simp [spongeA]

/-- Without a source the vector potential stays zero. -/
theorem step_dark (p : Setup ne ni N) (hd : p.eyDriver = fun _ _ => 0) (t : ℝ) (y : State ne ni N) (ha : y.a = fun _ => 0) (hp : y.prev = fun _ => 0) :
    (p.step t y).a = (fun _ => 0) ∧ (p.step t y).prev = fun _ => 0 := by
  rw [Setup.step]
  simp only [hd, ha, hp, ite_self, wave_null, spongeA_null, and_self]

theorem net_momentum (p : Setup ne ni N) (me mi : ℝ) (h : Isolated p me mi) (c : Ks ne ni N) (e : ZMod N → ℝ) (hE : e = p.ex c) :
    me * p.alphaE ^ 4 * (Real.sqrt 2 * p.omega / p.alphaE / N * ∑ x, maskedForce p.mask (acceleration p.qmE e fun _ => 0) x *
        maskedForce p.mask (fun x => (toX (c.1 0) x).re) x) +
      mi * p.alphaI ^ 4 * (Real.sqrt 2 * p.omega / p.alphaI / N * ∑ x, maskedForce p.mask (acceleration p.qmI e fun _ => 0) x *
        maskedForce p.mask (fun x => (toX (c.2 0) x).re) x) = 0 := by
  have hex : e = field p.L fun x => density p.alphaI c.2 x - density p.alphaE c.1 x := by
    rw [hE, Setup.ex]; congr 1; funext x; rw [Setup.ionDensity, h.selfConsistent]
  have hacc : ∀ q x, maskedForce p.mask (acceleration q e fun _ => 0) x = q * maskedForce p.mask e x := by
    intro q x
    have := maskedForce_lin p.mask q 0 e (fun _ => 0) x
    rw [show (fun x => q * e x + 0 * 0) = acceleration q e fun _ => 0 from by funext x; rw [acceleration]; ring] at this
    rw [this]; ring
  have hden : ∀ (al : ℝ) {k : ℕ} [NeZero k] (C : Coef k N) x, maskedForce p.mask (density al C) x = al ^ 3 * maskedForce p.mask (fun x => (toX (C 0) x).re) x := by
    intro al k _ C x
    have := maskedForce_lin p.mask (al ^ 3) 0 (fun x => (toX (C 0) x).re) (fun _ => 0) x
    rw [show (fun x => al ^ 3 * (toX (C 0) x).re + 0 * 0) = density al C from by funext x; rw [density]; ring] at this
    rw [this]; ring
  have hnet := net_force h.built.maskSymm p.L (density p.alphaI c.2) (density p.alphaE c.1)
  rw [← hex] at hnet
  simp only [hden] at hnet
  simp only [hacc, mul_sub, Finset.sum_sub_distrib] at hnet ⊢
  have s1 : ∀ (q : ℝ) (f g : ZMod N → ℝ), ∑ x, q * f x * g x = q * ∑ x, f x * g x := by
    intro q f g; rw [Finset.mul_sum]; exact Finset.sum_congr rfl fun x _ => by ring
  have s2 : ∀ (q : ℝ) (f g : ZMod N → ℝ), ∑ x, f x * (q * g x) = q * ∑ x, f x * g x := by
    intro q f g; rw [Finset.mul_sum]; exact Finset.sum_congr rfl fun x _ => by ring
  rw [s1, s1]
  rw [s2, s2] at hnet
  obtain ⟨A, hA⟩ : ∃ A, A = ∑ x, maskedForce p.mask e x * maskedForce p.mask (fun x => (toX (c.1 0) x).re) x := ⟨_, rfl⟩
  obtain ⟨B, hB⟩ : ∃ B, B = ∑ x, maskedForce p.mask e x * maskedForce p.mask (fun x => (toX (c.2 0) x).re) x := ⟨_, rfl⟩
  rw [← hA, ← hB] at hnet ⊢
  have hN : (N : ℝ) ≠ 0 := Nat.cast_ne_zero.mpr (NeZero.ne N)
  have h1 := h.alphaE
  have h2 := h.alphaI
  have e1 := h.electron
  have e2 := h.ion
  field_simp
  linear_combination (Real.sqrt 2 * p.omega * p.alphaE ^ 3 * A) * e1 + (Real.sqrt 2 * p.omega * p.alphaI ^ 3 * B) * e2 + (Real.sqrt 2 * p.omega) * hnet

/-- The momentum as a linear functional. -/
noncomputable def momentumMap (he : 1 < ne) (hi : 1 < ni) (a b : ℝ) : Ks ne ni N →ₗ[ℝ] ℝ := a • meanE ⟨1, he⟩ + b • meanI ⟨1, hi⟩

/-- An isolated plasma keeps its total momentum exactly: both integrators, with or without mask,
collisions, for any number of steps. -/
theorem run_momentum (he : 1 < ne) (hi : 1 < ni) (p : Setup ne ni N) (me mi : ℝ) (h : Isolated p me mi)
    (hkE : Keeps p.dampE ⟨1, he⟩) (hkI : Keeps p.dampI ⟨1, hi⟩) (y : State ne ni N) (ha : y.a = fun _ => 0) (hp : y.prev = fun _ => 0) (m : ℕ) :
    totalMomentum he hi p me mi (p.run y m).c = totalMomentum he hi p me mi y.c := by
  have hrun : ∀ m, (p.run y m).a = (fun _ => 0) ∧ (p.run y m).prev = fun _ => 0 := by
    intro m
    induction m with
    | zero => exact ⟨ha, hp⟩
    | succ m ih => rw [Setup.run]; exact step_dark p h.eyDriver _ _ ih.1 ih.2
  have hS := fun s c => exp_keeps p h.built s c
  have step : ∀ t (y : State ne ni N), y.a = (fun _ => 0) → y.prev = (fun _ => 0) →
      me * p.alphaE ^ 4 * ((p.step t y).c.1 ⟨1, he⟩ 0).re + mi * p.alphaI ^ 4 * ((p.step t y).c.2 ⟨1, hi⟩ 0).re =
      me * p.alphaE ^ 4 * (y.c.1 ⟨1, he⟩ 0).re + mi * p.alphaI ^ 4 * (y.c.2 ⟨1, hi⟩ 0).re := by
    intro t y hya hyp
    rw [Setup.step]
    simp only [h.sponge, spongeK]
    split_ifs
    · rw [Setup.strangStep]
      simp only [hya, hyp, mul_zero, sub_zero, pond_null, h.exDriver, h.noise, add_zero]
      rw [(hS _ _).1 _ hkE, (hS _ _).2 _ hkI]
      simp only [h.moving, Bool.false_eq_true, if_false, Setup.force, h.nonlinear]
      rw [force_momentum he h.built.mask0 h.built.maskSymm _ _ _ _ _ _ h.terms, force_momentum hi h.built.mask0 h.built.maskSymm _ _ _ _ _ _ h.terms,
        (hS _ _).1 _ hkE, (hS _ _).2 _ hkI]
      have := net_momentum p me mi h (p.exp (p.dt / 2) y.c) (fun x => p.ex (p.exp (p.dt / 2) y.c) x) rfl
      linear_combination p.dt * this
    · have := lawson_invariant (momentumMap he hi (me * p.alphaE ^ 4) (mi * p.alphaI ^ 4)) p.exp (p.rhs (pond p.dx y.a) (p.noise t)) t p.dt y.c
        (fun s v => by
          show me * p.alphaE ^ 4 * ((p.exp s v).1 ⟨1, he⟩ 0).re + mi * p.alphaI ^ 4 * ((p.exp s v).2 ⟨1, hi⟩ 0).re = _
          rw [(hS _ _).1 _ hkE, (hS _ _).2 _ hkI]; rfl)
        (fun s v => by
          show me * p.alphaE ^ 4 * ((p.rhs (pond p.dx y.a) (p.noise t) s v).1 ⟨1, he⟩ 0).re + mi * p.alphaI ^ 4 * ((p.rhs (pond p.dx y.a) (p.noise t) s v).2 ⟨1, hi⟩ 0).re = 0
          rw [Setup.rhs]
          simp only [hya, pond_null, h.exDriver, h.noise, add_zero, h.moving, Bool.false_eq_true, if_false]
          rw [coupling_momentum he h.built.mask0 h.built.maskSymm, coupling_momentum hi h.built.mask0 h.built.maskSymm]
          exact net_momentum p me mi h v (fun x => p.ex v x) rfl)
      exact this
  induction m with
  | zero => rfl
  | succ m ih =>
    rw [← ih, Setup.run, totalMomentum_eq, totalMomentum_eq, step _ _ (hrun m).1 (hrun m).2]
end Verif.Hermite
