import Verif.Props.HermiteLinear
import Mathlib.Algebra.Polynomial.Sequence

/-!
C105 (force substep), C106 (Poisson field) and C109 (ponderomotive force) of the Hermite-Poisson solver.
-/
namespace Verif.Hermite
open Finset Complex Verif.Spectral
open scoped Matrix ComplexConjugate

variable {N : ℕ} [NeZero N] {n : ℕ}

theorem toX_toK (f : ZMod N → ℂ) : toX (toK f) = f := by
  have hN : (N : ℂ) ≠ 0 := Nat.cast_ne_zero.mpr (NeZero.ne N)
  funext x
  have : toK f = fun k => (1 / (N : ℂ)) * fft f k := by funext k; rw [toK]; ring
  rw [toX, this, ifft_smul, ifft_fft]; field_simp

theorem toK_toX (c : ZMod N → ℂ) : toK (toX c) = c := by
  have hN : (N : ℂ) ≠ 0 := Nat.cast_ne_zero.mpr (NeZero.ne N)
  funext k
  have h : fft (toX c) = fun k => (N : ℂ) * c k := by
    have e : toX c = ifft (fun k => (N : ℂ) * c k) := by funext x; rw [toX, ifft_smul]
    rw [e, fft_ifft]
  rw [toK, h]; field_simp

/-! ### Every table of coefficients is that of a distribution -/

theorem basis_natDegree {alpha : ℝ} (ha : alpha ≠ 0) (u : ℝ) (n : ℕ) : (basis alpha u n).natDegree = n := by
  have e1 : (Polynomial.C (1 / alpha) * (Polynomial.X - Polynomial.C u) : Polynomial ℝ).natDegree = 1 := by
    rw [Polynomial.natDegree_C_mul (one_div_ne_zero ha), Polynomial.natDegree_X_sub_C]
  have hs : Real.sqrt 2 ≠ 0 := (Real.sqrt_pos.mpr (by norm_num)).ne'
  have e2 : (Polynomial.C (Real.sqrt 2) * Polynomial.X : Polynomial ℝ).natDegree = 1 := by
    rw [Polynomial.natDegree_C_mul hs, Polynomial.natDegree_X]
  rw [basis, Polynomial.natDegree_comp, e1, mul_one, hn, Polynomial.natDegree_C_mul (one_div_ne_zero (sqrt_fact_ne n)), Polynomial.natDegree_comp, e2,
    mul_one, Polynomial.natDegree_map_eq_of_injective (RingHom.injective_int _), Polynomial.natDegree_hermite]

theorem basis_ne_zero {alpha : ℝ} (ha : alpha ≠ 0) (u : ℝ) (n : ℕ) : basis alpha u n ≠ 0 := by
  rcases n with _ | n
  · rw [basis_zero]; exact one_ne_zero
  · intro h; have := basis_natDegree ha u (n + 1); rw [h, Polynomial.natDegree_zero] at this; omega

/-- Any coefficients, and any further moments, belong to some distribution. -/
theorem represents_exists {alpha : ℝ} (ha : alpha ≠ 0) (u : ℝ) (w : ℕ → ℂ) : ∃ M : Polynomial ℝ →ₗ[ℝ] ℂ, ∀ i, M (basis alpha u i) = w i := by
  let S : Polynomial.Sequence ℝ := ⟨basis alpha u, fun i => by
    rw [Polynomial.degree_eq_natDegree (basis_ne_zero ha u i), basis_natDegree ha u i]⟩
  have hu : ∀ i, IsUnit (S i).leadingCoeff := fun i => by
    rw [isUnit_iff_ne_zero, Polynomial.leadingCoeff_ne_zero]; exact basis_ne_zero ha u i
  refine ⟨(S.basis hu).constr ℝ w, fun i => ?_⟩
  have h := (S.basis hu).constr_basis ℝ w i
  rw [S.basis_eq_self hu] at h
  exact h

theorem represents_of {alpha : ℝ} (ha : alpha ≠ 0) (u : ℝ) (c : Fin n → ℂ) : ∃ M, Represents alpha u M c := by
  obtain ⟨M, hM⟩ := represents_exists ha u fun i => (alpha : ℂ) ^ 3 * at' c i
  exact ⟨M, fun i => by rw [hM, at', dif_pos i.2]⟩

theorem represents_unique {alpha : ℝ} (ha : alpha ≠ 0) (u : ℝ) (M : Polynomial ℝ →ₗ[ℝ] ℂ) {c c' : Fin n → ℂ} (h : Represents alpha u M c)
    (h' : Represents alpha u M c') : c = c' := by
  funext i
  exact mul_left_cancel₀ (pow_ne_zero 3 (ofReal_ne_zero.mpr ha)) ((h i).trans (h' i).symm)

/-! ### C105 -/

/-- The `k`-th term of the series. -/
noncomputable def forceTerm (c : ℝ) (C : Fin n → ℂ) (k : ℕ) (i : Fin n) : ℂ :=
  if h : k ≤ i.val then ((c ^ k / k.factorial * (Real.sqrt i.val.factorial / Real.sqrt (i.val - k).factorial) : ℝ) : ℂ) * C ⟨i.val - k, by omega⟩ else 0

theorem forceLoop_eq (c : ℝ) (C : Fin n → ℂ) (k : ℕ) :
    forceLoop (fun i : Fin n => c * Real.sqrt i.val) C k = (fun i => ∑ j ∈ range (k + 1), forceTerm c C j i, forceTerm c C k) := by
  induction k with
  | zero =>
    have : forceTerm c C 0 = C := by
      funext i
      rw [forceTerm, dif_pos (Nat.zero_le _)]
      simp [div_self (sqrt_fact_ne i.val)]
    rw [forceLoop]; simp [this]
  | succ k ih =>
    have hT : (fun i : Fin n => ((c * Real.sqrt i.val : ℝ) : ℂ) * up (forceTerm c C k) i / ((k : ℂ) + 1)) = forceTerm c C (k + 1) := by
      funext i
      rw [up]
      by_cases h0 : i.val = 0
      · rw [dif_pos h0, forceTerm, dif_neg (by omega)]; simp
      · rw [dif_neg h0, forceTerm, forceTerm]
        by_cases hk : k + 1 ≤ i.val
        · obtain ⟨m, hm⟩ : ∃ m, i.val = m + 1 := ⟨i.val - 1, by omega⟩
          have e1 : i.val - 1 - k = i.val - (k + 1) := by omega
          rw [dif_pos (show k ≤ i.val - 1 by omega), dif_pos hk]
          have hC : C ⟨i.val - 1 - k, by omega⟩ = C ⟨i.val - (k + 1), by omega⟩ := by congr 2
          rw [hC]
          have hr : c * Real.sqrt i.val * (c ^ k / k.factorial * (Real.sqrt (i.val - 1).factorial / Real.sqrt (i.val - 1 - k).factorial)) / ((k : ℝ) + 1) =
              c ^ (k + 1) / (k + 1).factorial * (Real.sqrt i.val.factorial / Real.sqrt (i.val - (k + 1)).factorial) := by
            rw [e1, hm, Nat.add_sub_cancel, sqrt_fact_succ, Nat.factorial_succ k]
            have := sqrt_fact_ne (m + 1 - (k + 1))
            have h2 : (k.factorial : ℝ) ≠ 0 := by exact_mod_cast k.factorial_ne_zero
            have h3 : (k : ℝ) + 1 ≠ 0 := by positivity
            push_cast
            field_simp
            ring
          rw [← hr]; push_cast; ring
        · rw [dif_neg (show ¬ k ≤ i.val - 1 by omega), dif_neg hk]; simp
    rw [forceLoop]
    simp only [ih]
    rw [hT]
    congr 1
    funext i
    rw [Finset.sum_range_succ (fun j => forceTerm c C j i) (k + 1), ← congrFun hT i]

theorem masked_none (c : ZMod N → ℂ) : masked none c = c := rfl

/-- The coefficients after the force substep, at each position: the exponential series, cut after
`terms` terms. -/
theorem force_series (C : Coef n N) (a : ZMod N → ℝ) (alpha omega dt : ℝ) (terms : ℕ) (i : Fin n) (x : ZMod N) :
    toX (forceExp C a alpha omega dt none terms i) x =
      ∑ k ∈ range (min terms i.val + 1), (((Real.sqrt 2 * (omega * dt * a x) / alpha) ^ k / k.factorial *
        (Real.sqrt i.val.factorial / Real.sqrt (i.val - k).factorial) : ℝ) : ℂ) * at' (fun j => toX (C j) x) (i.val - k) := by
  rw [forceExp, masked_none, toX_toK]
  have e : (fun i : Fin n => omega * Real.sqrt 2 / alpha * Real.sqrt i.val * dt * maskedForce none a x) =
      fun i : Fin n => (Real.sqrt 2 * (omega * dt * a x) / alpha) * Real.sqrt i.val := by
    funext i; rw [maskedForce]; ring
  rw [e, forceLoop_eq]
  simp only [masked_none]
  obtain ⟨c, hc⟩ : ∃ c, c = Real.sqrt 2 * (omega * dt * a x) / alpha := ⟨_, rfl⟩
  rw [← hc]
  have hi := i.2
  have hk : min terms i.val ≤ kMax n terms := by rw [kMax]; split_ifs <;> omega
  have hzero : ∀ k ∈ range (kMax n terms + 1), k ∉ range (min terms i.val + 1) → forceTerm c (fun j => toX (C j) x) k i = 0 := by
    intro k h1 h2
    rw [Finset.mem_range] at h1 h2
    rw [forceTerm, dif_neg]
    rw [kMax] at h1
    split_ifs at h1 <;> omega
  rw [← Finset.sum_subset (Finset.range_mono (by omega)) hzero]
  refine Finset.sum_congr rfl fun k hk' => ?_
  rw [Finset.mem_range] at hk'
  rw [forceTerm, dif_pos (by omega), at', dif_pos (by omega)]

/-- With enough terms the substep is exactly a change of every velocity by the acceleration times the
time: for each distribution with these coefficients, at each position. -/
theorem force_shift (C : Coef n N) (a : ZMod N → ℝ) {alpha : ℝ} (u omega dt : ℝ) (terms : ℕ) (ht : n ≤ terms + 1) (x : ZMod N)
    (M : Polynomial ℝ →ₗ[ℝ] ℂ) (hM : Represents alpha u M fun i => toX (C i) x) :
    Represents alpha u (moved (omega * dt * a x) M) fun i => toX (forceExp C a alpha omega dt none terms i) x := by
  intro i
  have hi := i.2
  beta_reduce
  rw [force_series, moved, LinearMap.comp_apply, basis_taylor, map_sum, Nat.min_eq_right (by omega), Finset.mul_sum]
  refine Finset.sum_congr rfl fun k hk => ?_
  rw [Finset.mem_range] at hk
  rw [← Polynomial.smul_eq_C_mul, map_smul, Complex.real_smul, ← hM ⟨i.val - k, by omega⟩, at', dif_pos (by omega)]
  ring

/-- Hence pushes compose: two substeps with the same force are one with the summed time, and a push
is undone by the opposite one. -/
theorem force_add (C : Coef n N) (a : ZMod N → ℝ) {alpha : ℝ} (ha : alpha ≠ 0) (omega s t : ℝ) (terms : ℕ) (ht : n ≤ terms + 1) :
    forceExp (forceExp C a alpha omega s none terms) a alpha omega t none terms = forceExp C a alpha omega (s + t) none terms := by
  have key : ∀ x : ZMod N, (fun i => toX (forceExp (forceExp C a alpha omega s none terms) a alpha omega t none terms i) x) =
      fun i => toX (forceExp C a alpha omega (s + t) none terms i) x := by
    intro x
    obtain ⟨M, hM⟩ := represents_of ha 0 (fun i => toX (C i) x)
    have h1 := force_shift C a 0 omega s terms ht x M hM
    have h2 := force_shift _ a 0 omega t terms ht x _ h1
    have h3 := force_shift C a 0 omega (s + t) terms ht x M hM
    have e : moved (omega * t * a x) (moved (omega * s * a x) M) = moved (omega * (s + t) * a x) M := by
      apply LinearMap.ext; intro p
      simp only [moved, LinearMap.comp_apply, Polynomial.taylor_taylor]
      congr 3; ring
    rw [e] at h2
    exact represents_unique ha 0 _ h2 h3
  funext i
  rw [← toK_toX (forceExp (forceExp C a alpha omega s none terms) a alpha omega t none terms i), ← toK_toX (forceExp C a alpha omega (s + t) none terms i)]
  congr 1; funext x; exact congrFun (key x) i

theorem force_zero_time (C : Coef n N) (a : ZMod N → ℝ) (alpha omega : ℝ) (terms : ℕ) : forceExp C a alpha omega 0 none terms = C := by
  funext i
  rw [← toK_toX (forceExp C a alpha omega 0 none terms i), ← toK_toX (C i)]
  congr 1; funext x
  rw [force_series, Finset.sum_eq_single 0]
  · rw [at', dif_pos (by have := i.2; omega)]; simp [div_self (sqrt_fact_ne i.val)]
  · intro k _ hk; rw [mul_zero, zero_mul, mul_zero, zero_div, zero_pow hk]; simp
  · simp

theorem force_reverse (C : Coef n N) (a : ZMod N → ℝ) {alpha : ℝ} (ha : alpha ≠ 0) (omega dt : ℝ) (terms : ℕ) (ht : n ≤ terms + 1) :
    forceExp (forceExp C a alpha omega dt none terms) a alpha omega (-dt) none terms = C := by
  rw [force_add C a ha omega dt (-dt) terms ht, add_neg_cancel, force_zero_time]

/-- The mask: the substep acts on the truncated coefficients and the truncated force, and truncates
the result, so everything beyond the mask is deleted. -/
theorem force_masked (m : ZMod N → Bool) (C : Coef n N) (a : ZMod N → ℝ) (alpha omega dt : ℝ) (terms : ℕ) (i : Fin n) :
    forceExp C a alpha omega dt (some m) terms i =
      masked (some m) (forceExp (fun j => masked (some m) (C j)) (maskedForce (some m) a) alpha omega dt none terms i) ∧
    ∀ k, m k = false → forceExp C a alpha omega dt (some m) terms i k = 0 := by
  refine ⟨rfl, fun k hk => ?_⟩
  rw [forceExp]; simp [masked, hk]

/-- The density row: unchanged, up to the mask. -/
theorem force_density [NeZero n] (m : Option (ZMod N → Bool)) (C : Coef n N) (a : ZMod N → ℝ) (alpha omega dt : ℝ) (terms : ℕ) :
    forceExp C a alpha omega dt m terms 0 = masked m (C 0) := by
  have h0 : ∀ (C : Coef n N) (a : ZMod N → ℝ), forceExp C a alpha omega dt none terms 0 = C 0 := by
    intro C a
    rw [← toK_toX (forceExp C a alpha omega dt none terms 0), ← toK_toX (C 0)]
    congr 1; funext x
    rw [force_series]
    have hn : 0 < n := Nat.pos_of_ne_zero (NeZero.ne n)
    have hv : (0 : Fin n).val = 0 := Fin.val_zero _
    rw [hv, Nat.min_zero, Finset.sum_range_one, at', dif_pos hn]
    have : (⟨0 - 0, hn⟩ : Fin n) = 0 := rfl
    simp [this]
  rcases m with _ | m
  · rw [h0]; rfl
  · rw [(force_masked m C a alpha omega dt terms 0).1, h0]
    funext k; simp only [masked]; split_ifs <;> rfl

/-- The explicit rate used by the other integrator and by the linear response: the moment of `h_n`
changes by the acceleration times the moment of its derivative. -/
theorem coupling_rate (C : Coef n N) (F : ZMod N → ℝ) (qm : ℝ) {alpha : ℝ} (u omega : ℝ) (x : ZMod N)
    (M : Polynomial ℝ →ₗ[ℝ] ℂ) (hM : Represents alpha u M fun i => toX (C i) x) (i : Fin n) :
    (alpha : ℂ) ^ 3 * toX (coupling C F qm alpha omega none i) x = ((qm * omega * F x : ℝ) : ℂ) * M (Polynomial.derivative (basis alpha u i)) := by
  have e : coupling C F qm alpha omega none i = toK fun x => (qm * omega : ℂ) * (((Real.sqrt i.val * Real.sqrt 2 / alpha : ℝ) : ℂ) * (F x : ℂ) *
      up (fun j => toX (C j) x) i) := by
    funext k
    rw [coupling, masked_none]
    simp only [masked_none, maskedForce, toK]
    have h2 : ∀ (c : ℂ) (g : ZMod N → ℂ), fft (fun x => c * g x) k = c * fft g k := by
      intro c g; simp only [Spectral.fft]; rw [show (fun x => c * g x) = c • g from rfl, map_smul]; rfl
    rw [h2]; ring
  rw [e, toX_toK]
  rw [up]
  by_cases h0 : i.val = 0
  · rw [dif_pos h0, h0, basis_zero]; simp
  · rw [dif_neg h0]
    obtain ⟨m, hm⟩ : ∃ m, i.val = m + 1 := ⟨i.val - 1, by omega⟩
    have h1 := hM ⟨i.val - 1, by omega⟩
    simp only at h1
    have hv : Real.sqrt i.val = Real.sqrt ((m : ℝ) + 1) := by rw [hm]; push_cast; rfl
    rw [hv]
    rw [show basis alpha u i.val = basis alpha u (m + 1) by rw [hm], basis_deriv, ← Polynomial.smul_eq_C_mul, map_smul, Complex.real_smul,
      show basis alpha u m = basis alpha u (i.val - 1) by rw [hm]; rfl, ← h1]
    push_cast; ring

/-- The masked rate keeps the density as well. -/
theorem coupling_density [NeZero n] (m : Option (ZMod N → Bool)) (C : Coef n N) (F : ZMod N → ℝ) (qm alpha omega : ℝ) :
    coupling C F qm alpha omega m 0 = 0 := by
  funext k
  have h : ∀ x, up (fun j : Fin n => toX (masked m (C j)) x) 0 = 0 := fun x => by rw [up, dif_pos (Fin.val_zero n)]
  rw [coupling]
  simp only [h, mul_zero]
  have : toK (fun _ : ZMod N => (0 : ℂ)) = fun _ => 0 := by
    funext k; rw [toK, show (fun _ : ZMod N => (0 : ℂ)) = 0 from rfl, Spectral.fft, map_zero]; simp
  rw [this]
  rcases m with _ | m <;> simp [masked]

/-- The hypotheses are met: four coefficients, three series terms, any force. -/
example (C : Coef 4 5) (a : ZMod 5 → ℝ) (dt : ℝ) : ∃ M, (Represents 2 0 M fun i => toX (C i) 1) ∧
    Represents 2 0 (moved (1 * dt * a 1) M) fun i => toX (forceExp C a 2 1 dt none 3 i) 1 := by
  obtain ⟨M, hM⟩ := represents_of (alpha := 2) (by norm_num) 0 fun i => toX (C i) 1
  exact ⟨M, hM, force_shift C a 0 1 dt 3 (by norm_num) 1 M hM⟩

/-! ### C106 -/

theorem field_eq (L : ℝ) (rho : ZMod N → ℝ) : field L rho = poisson (L / N) rho := by
  have hN : (N : ℂ) ≠ 0 := Nat.cast_ne_zero.mpr (NeZero.ne N)
  funext x
  rw [field, poisson, toX, ← ifft_smul]
  congr 2
  funext k
  rw [toK, oneOverKx, oneOverK, kx_eq]
  field_simp

/-- Gauss's law in every resolved mode but the mean; no mean field, no grid-scale oscillation and
no net force; and the field is the only one with these properties. -/
theorem hermite_gauss (L : ℝ) (hL : L ≠ 0) (rho : ZMod N → ℝ) :
    (∀ p : ℤ, Resolved N p → p ≠ 0 → gaussError (L / N) (field L rho) rho p = 0) ∧
    ∑ x, field L rho x = 0 ∧ (2 ∣ N → alternating (field L rho) = 0) ∧ ∑ x, rho x * field L rho x = 0 ∧
    ∀ E : ZMod N → ℝ, (∀ p : ℤ, Resolved N p → p ≠ 0 → gaussError (L / N) E rho p = 0) → ∑ x, E x = 0 → (2 ∣ N → alternating E = 0) → E = field L rho := by
  have hd : L / N ≠ 0 := div_ne_zero hL (Nat.cast_ne_zero.mpr (NeZero.ne N))
  rw [field_eq]
  obtain ⟨h1, h2, h3, h4⟩ := poisson_field (L / N) hd rho
  exact ⟨h1, h2, h3, h4, fun E a b c => poisson_unique (L / N) hd rho E a b c⟩

/-- The density is the zeroth moment of the distribution. -/
theorem density_moment [NeZero n] (alpha u : ℝ) (C : Coef n N) (x : ZMod N) (M : Polynomial ℝ →ₗ[ℝ] ℂ)
    (hM : Represents alpha u M fun i => toX (C i) x) : density alpha C x = (M 1).re := by
  have h := hM 0
  rw [show basis alpha u (0 : Fin n).val = 1 from basis_zero alpha u] at h
  rw [density, ← h, ← ofReal_pow, re_ofReal_mul]

/-! ### C109 -/

/-- The ponderomotive acceleration is the same for both signs of the charge, and pushes down the
gradient of the intensity. -/
theorem pond_charge (qm : ℝ) (fp : ZMod N → ℝ) : acceleration qm (fun _ => 0) fp = acceleration (-qm) (fun _ => 0) fp ∧
    ∀ (e : ZMod N → ℝ) (x : ZMod N), acceleration qm e fp x - acceleration (-qm) e fp x = 2 * (qm * e x) := by
  constructor
  · funext x; simp [acceleration]
  · intro e x; simp only [acceleration]; ring

/-- Its value: half the centred difference of `a^2`, one sided at the two ends. -/
theorem pond_value (hN : 2 ≤ N) (dx : ℝ) (a : ℕ → ℝ) (x : ZMod N) :
    pond dx a x = if x.val = 0 then -(a 2 ^ 2 - a 1 ^ 2) / (2 * dx) else if x.val + 1 = N then -(a N ^ 2 - a (N - 1) ^ 2) / (2 * dx)
      else -(a (x.val + 2) ^ 2 - a x.val ^ 2) / (4 * dx) := by
  rw [pond, gradient]
  split_ifs with h1 h2
  · norm_num; ring
  · rw [show N - 1 + 1 = N by omega, show N - 2 + 1 = N - 1 by omega]; norm_num; ring
  · rw [show x.val - 1 + 1 = x.val by omega]; norm_num; ring

/-- It is exact where the intensity is linear, and zero for a uniform amplitude. -/
theorem pond_exact (hN : 2 ≤ N) (dx : ℝ) (hdx : dx ≠ 0) (a : ℕ → ℝ) (b c : ℝ) (ha : ∀ i, 1 ≤ i → i ≤ N → a i ^ 2 = b + c * (i * dx)) (x : ZMod N) :
    pond dx a x = -(c / 2) := by
  have hx := x.val_lt
  rw [pond_value hN]
  split_ifs with h1 h2
  · rw [ha 2 (by omega) hN, ha 1 (by omega) (by omega)]; push_cast; field_simp; ring
  · rw [ha N (by omega) le_rfl, ha (N - 1) (by omega) (by omega), Nat.cast_sub (by omega)]; push_cast; field_simp; ring
  · rw [ha (x.val + 2) (by omega) (by omega), ha x.val (by omega) (by omega)]; push_cast; field_simp; ring

example : pond (N := 5) 1 (fun i => Real.sqrt (i : ℝ)) 2 = -(1 / 2) :=
  pond_exact (by norm_num) 1 one_ne_zero _ 0 1 (fun i _ _ => by rw [Real.sq_sqrt (by positivity)]; ring) 2
end Verif.Hermite
