import Verif.Model.Hermite
import Verif.Lemmas.HermitePoly
import Verif.Props.Spectral
import Mathlib.Analysis.Matrix.Spectrum
import Mathlib.Analysis.SpecialFunctions.ExpDeriv
import Mathlib.Analysis.Calculus.Deriv.Pi
import Mathlib.Analysis.Calculus.Deriv.Mul

/-!
C103 (free streaming) and C104 (collisions, hyper-diffusion and Hermite filter) of the
Hermite-Poisson solver.
-/
namespace Verif.Hermite
open Finset Complex Verif.Spectral
open scoped Matrix ComplexConjugate

variable {N : ℕ} [NeZero N] {n : ℕ}

/-- The contract of `eigh`: orthogonal eigenvectors in the columns of `V`, eigenvalues `lam`. -/
def IsEigh (d : Eigh n) (T : Matrix (Fin n) (Fin n) ℝ) : Prop :=
  d.V * d.Vᵀ = 1 ∧ T = d.V * Matrix.diagonal d.lam * d.Vᵀ

theorem streamMatrix_symm (n : ℕ) (alpha u : ℝ) : (streamMatrix n alpha u).IsHermitian := by
  ext i j
  simp only [Matrix.conjTranspose_apply, streamMatrix, star_trivial, eq_comm (a := i) (b := j)]; ring

/-- The contract can be met. -/
theorem eigh_exists (n : ℕ) (alpha u : ℝ) : ∃ d : Eigh n, IsEigh d (streamMatrix n alpha u) := by
  have h := streamMatrix_symm n alpha u
  have hU := h.eigenvectorUnitary.2
  rw [Matrix.mem_unitaryGroup_iff] at hU
  have hs : star (h.eigenvectorUnitary : Matrix (Fin n) (Fin n) ℝ) = (h.eigenvectorUnitary : Matrix (Fin n) (Fin n) ℝ)ᵀ := by
    ext i j; simp [Matrix.star_apply]
  refine ⟨⟨h.eigenvectorUnitary, h.eigenvalues⟩, ?_, ?_⟩
  · rw [← hs]; exact hU
  · have := h.spectral_theorem
    rw [Unitary.conjStarAlgAut_apply] at this
    rw [← hs]; exact this

/-- A function of the diagonalised matrix. -/
noncomputable def fc (d : Eigh n) (g : ℝ → ℂ) : Matrix (Fin n) (Fin n) ℂ :=
  d.V.map ofReal * Matrix.diagonal (fun j => g (d.lam j)) * (d.V.map ofReal)ᵀ

theorem stream_eq (d : Eigh n) (alpha : ℝ) (k : ZMod N → ℝ) (C : Coef n N) (s : ℝ) (i : Fin n) (q : ZMod N) :
    stream d alpha k C s i q = (fc d (fun l => cexp (-I * alpha * s * l * k q)) *ᵥ fun m => C m q) i := by
  rw [fc, ← Matrix.mulVec_mulVec, ← Matrix.mulVec_mulVec, stream]
  simp only [Matrix.mulVec, dotProduct, Matrix.map_apply, Matrix.transpose_apply, Matrix.diagonal_apply, ite_mul, zero_mul,
    Finset.sum_ite_eq, Finset.mem_univ, if_true]
  exact Finset.sum_congr rfl fun j _ => by ring

theorem map_mul_real (A B : Matrix (Fin n) (Fin n) ℝ) : (A * B).map ofReal = (A.map ofReal * B.map ofReal : Matrix (Fin n) (Fin n) ℂ) :=
  Matrix.map_mul (f := Complex.ofRealHom)

theorem vmap_mul {d : Eigh n} {T : Matrix (Fin n) (Fin n) ℝ} (hd : IsEigh d T) :
    d.V.map ofReal * (d.V.map ofReal)ᵀ = (1 : Matrix (Fin n) (Fin n) ℂ) := by
  have h := congrArg (fun A : Matrix (Fin n) (Fin n) ℝ => A.map ofReal) hd.1
  simp only [map_mul_real] at h
  rw [← Matrix.transpose_map, h]
  ext i j; by_cases hij : i = j
  · subst hij; simp
  · simp [hij]

theorem vmap_mul' {d : Eigh n} {T : Matrix (Fin n) (Fin n) ℝ} (hd : IsEigh d T) :
    (d.V.map ofReal)ᵀ * d.V.map ofReal = (1 : Matrix (Fin n) (Fin n) ℂ) :=
  mul_eq_one_comm.mp (vmap_mul hd)

theorem fc_mul {d : Eigh n} {T : Matrix (Fin n) (Fin n) ℝ} (hd : IsEigh d T) (g h : ℝ → ℂ) :
    fc d g * fc d h = fc d (fun l => g l * h l) := by
  rw [fc, fc, fc]
  calc _ = d.V.map ofReal * Matrix.diagonal (fun j => g (d.lam j)) * ((d.V.map ofReal)ᵀ * d.V.map ofReal) *
        Matrix.diagonal (fun j => h (d.lam j)) * (d.V.map ofReal)ᵀ := by simp only [Matrix.mul_assoc]
    _ = _ := by rw [vmap_mul' hd, Matrix.mul_one, Matrix.mul_assoc (d.V.map ofReal), Matrix.diagonal_mul_diagonal]

theorem fc_one {d : Eigh n} {T : Matrix (Fin n) (Fin n) ℝ} (hd : IsEigh d T) : fc d (fun _ => 1) = 1 := by
  rw [fc]
  rw [show (Matrix.diagonal fun _ : Fin n => (1 : ℂ)) = 1 from Matrix.diagonal_one, Matrix.mul_one, vmap_mul hd]

theorem fc_id {d : Eigh n} {T : Matrix (Fin n) (Fin n) ℝ} (hd : IsEigh d T) : fc d (fun l => (l : ℂ)) = T.map ofReal := by
  rw [fc, hd.2]
  simp only [map_mul_real]
  rw [Matrix.transpose_map]
  congr 2
  ext i j; by_cases hij : i = j <;> simp [hij]

/-- A function of the matrix does not depend on the eigenvectors chosen. -/
theorem fc_unique {d d' : Eigh n} {T : Matrix (Fin n) (Fin n) ℝ} (hd : IsEigh d T) (hd' : IsEigh d' T) (g : ℝ → ℂ) : fc d g = fc d' g := by
  obtain ⟨V, hV⟩ : ∃ V : Matrix (Fin n) (Fin n) ℂ, V = d.V.map ofReal := ⟨_, rfl⟩
  obtain ⟨V', hV'⟩ : ∃ V : Matrix (Fin n) (Fin n) ℂ, V = d'.V.map ofReal := ⟨_, rfl⟩
  have h1 := fc_id hd
  have h1' := fc_id hd'
  have e1 := vmap_mul hd
  have e1' := vmap_mul hd'
  have e2 := vmap_mul' hd
  have e2' := vmap_mul' hd'
  rw [fc] at h1 h1'
  rw [fc, fc]
  rw [← hV] at h1 e1 e2 ⊢
  rw [← hV'] at h1' e1' e2' ⊢
  have hW : V'ᵀ * V * Matrix.diagonal (fun j => (d.lam j : ℂ)) = Matrix.diagonal (fun j => (d'.lam j : ℂ)) * (V'ᵀ * V) := by
    have a1 : T.map ofReal * V = V * Matrix.diagonal (fun j => (d.lam j : ℂ)) := by rw [← h1, Matrix.mul_assoc, e2, Matrix.mul_one]
    have a2 : V'ᵀ * T.map ofReal = Matrix.diagonal (fun j => (d'.lam j : ℂ)) * V'ᵀ := by
      rw [← h1', Matrix.mul_assoc, ← Matrix.mul_assoc, e2', Matrix.one_mul]
    rw [Matrix.mul_assoc, ← a1, ← Matrix.mul_assoc, a2, Matrix.mul_assoc]
  have hG : V'ᵀ * V * Matrix.diagonal (fun j => g (d.lam j)) = Matrix.diagonal (fun j => g (d'.lam j)) * (V'ᵀ * V) := by
    ext i j
    have := congrFun (congrFun hW i) j
    rw [Matrix.mul_diagonal, Matrix.diagonal_mul] at this ⊢
    rw [mul_comm] at this ⊢
    by_cases h0 : (V'ᵀ * V) i j = 0
    · rw [h0, mul_zero, mul_zero]
    · have := mul_right_cancel₀ h0 this
      rw [ofReal_inj.mp this]
  calc V * Matrix.diagonal (fun j => g (d.lam j)) * Vᵀ = (V' * V'ᵀ) * V * Matrix.diagonal (fun j => g (d.lam j)) * Vᵀ := by
        rw [e1', Matrix.one_mul]
    _ = V' * (V'ᵀ * V * Matrix.diagonal (fun j => g (d.lam j))) * Vᵀ := by simp only [Matrix.mul_assoc]
    _ = V' * Matrix.diagonal (fun j => g (d'.lam j)) * V'ᵀ * (V * Vᵀ) := by rw [hG]; simp only [Matrix.mul_assoc]
    _ = _ := by rw [e1, Matrix.mul_one]

/-! ### C103 -/

/-- No time: nothing happens.  Times add. -/
theorem stream_zero {d : Eigh n} {T : Matrix (Fin n) (Fin n) ℝ} (hd : IsEigh d T) (alpha : ℝ) (k : ZMod N → ℝ) (C : Coef n N) :
    stream d alpha k C 0 = C := by
  funext i q
  rw [stream_eq]
  have : (fun l : ℝ => cexp (-I * alpha * ((0 : ℝ) : ℂ) * l * k q)) = fun _ => 1 := by funext l; simp
  rw [this, fc_one hd, Matrix.one_mulVec]

theorem stream_add {d : Eigh n} {T : Matrix (Fin n) (Fin n) ℝ} (hd : IsEigh d T) (alpha : ℝ) (k : ZMod N → ℝ) (C : Coef n N) (s t : ℝ) :
    stream d alpha k (stream d alpha k C s) t = stream d alpha k C (s + t) := by
  funext i q
  rw [stream_eq, stream_eq]
  have : (fun m => stream d alpha k C s m q) = fc d (fun l => cexp (-I * alpha * s * l * k q)) *ᵥ fun m => C m q := by
    funext m; rw [stream_eq]
  rw [this, Matrix.mulVec_mulVec, fc_mul hd]
  congr 3; funext l
  rw [← Complex.exp_add]; congr 1; push_cast; ring

/-- A mode with zero wave number does not move. -/
theorem stream_mean {d : Eigh n} {T : Matrix (Fin n) (Fin n) ℝ} (hd : IsEigh d T) (alpha : ℝ) (k : ZMod N → ℝ) (C : Coef n N) (s : ℝ)
    (q : ZMod N) (hq : k q = 0) (i : Fin n) : stream d alpha k C s i q = C i q := by
  rw [stream_eq]
  have : (fun l : ℝ => cexp (-I * alpha * s * l * k q)) = fun _ => 1 := by funext l; simp [hq]
  rw [this, fc_one hd, Matrix.one_mulVec]

theorem fc_star (d : Eigh n) (g : ℝ → ℂ) : (fc d g)ᴴ = fc d fun l => conj (g l) := by
  have h : ∀ A : Matrix (Fin n) (Fin n) ℝ, (A.map ofReal)ᴴ = ((A.map ofReal)ᵀ : Matrix (Fin n) (Fin n) ℂ) := by
    intro A; ext i j; simp
  rw [fc, fc, Matrix.conjTranspose_mul, Matrix.conjTranspose_mul, h, ← h, Matrix.conjTranspose_conjTranspose, h,
    Matrix.diagonal_conjTranspose, Matrix.mul_assoc]
  rfl

/-- Every Fourier mode keeps the sum of its squared coefficients. -/
theorem stream_norm {d : Eigh n} {T : Matrix (Fin n) (Fin n) ℝ} (hd : IsEigh d T) (alpha : ℝ) (k : ZMod N → ℝ) (C : Coef n N) (s : ℝ)
    (q : ZMod N) : ∑ i, normSq (stream d alpha k C s i q) = ∑ i, normSq (C i q) := by
  obtain ⟨g, hg⟩ : ∃ g : ℝ → ℂ, g = fun l : ℝ => cexp (-I * alpha * s * l * k q) := ⟨_, rfl⟩
  have hu : (fc d g)ᴴ * fc d g = 1 := by
    rw [fc_star, fc_mul hd, ← fc_one hd]
    congr 1; funext l
    rw [hg]; simp only
    rw [← Complex.exp_conj, ← Complex.exp_add, ← Complex.exp_zero]
    congr 1
    simp only [map_mul, map_neg, conj_I, conj_ofReal]; ring
  have hsq : ∀ v : Fin n → ℂ, ((∑ i, normSq (v i) : ℝ) : ℂ) = star v ⬝ᵥ v := by
    intro v; simp only [dotProduct, Pi.star_apply, ofReal_sum, normSq_eq_conj_mul_self]; rfl
  have h1 : (fun i => stream d alpha k C s i q) = fc d g *ᵥ fun m => C m q := by funext i; rw [stream_eq, hg]
  apply ofReal_injective
  rw [hsq fun i => stream d alpha k C s i q, hsq fun i => C i q, h1, Matrix.star_mulVec, ← Matrix.dotProduct_mulVec, Matrix.mulVec_mulVec, hu,
    Matrix.one_mulVec]

/-- The result does not depend on which eigenvectors the library returned. -/
theorem stream_choice {d d' : Eigh n} {T : Matrix (Fin n) (Fin n) ℝ} (hd : IsEigh d T) (hd' : IsEigh d' T) (alpha : ℝ) (k : ZMod N → ℝ)
    (C : Coef n N) (s : ℝ) : stream d alpha k C s = stream d' alpha k C s := by
  funext i q; rw [stream_eq, stream_eq, fc_unique hd hd']

/-- A coefficient by its number, zero outside the table. -/
def at' (c : Fin n → ℂ) (m : ℕ) : ℂ := if h : m < n then c ⟨m, h⟩ else 0

theorem sum_at (c : Fin n → ℂ) (m : ℕ) (w : ℂ) : (∑ j : Fin n, (if j.val = m then w else 0) * c j) = w * at' c m := by
  unfold at'
  by_cases h : m < n
  · rw [dif_pos h, Finset.sum_eq_single ⟨m, h⟩]
    · simp
    · intro j _ hj
      rw [if_neg (fun h' => hj (Fin.ext h')), zero_mul]
    · simp
  · rw [dif_neg h, mul_zero]
    refine Finset.sum_eq_zero fun j _ => ?_
    rw [if_neg (by have := j.2; omega), zero_mul]

/-- The streaming matrix as a ladder. -/
theorem streamMatrix_mul (alpha u : ℝ) (c : Fin n → ℂ) (i : Fin n) :
    (((streamMatrix n alpha u).map ofReal : Matrix (Fin n) (Fin n) ℂ) *ᵥ c) i =
      (Real.sqrt (((i.val : ℝ) + 1) / 2) : ℂ) * at' c (i.val + 1) + (if i.val = 0 then 0 else (Real.sqrt ((i.val : ℝ) / 2) : ℂ) * at' c (i.val - 1))
        + ((u / alpha : ℝ) : ℂ) * c i := by
  have e : ∀ j : Fin n, (((streamMatrix n alpha u) i j : ℝ) : ℂ) * c j =
      (if j.val = i.val + 1 then (Real.sqrt (((i.val : ℝ) + 1) / 2) : ℂ) else 0) * c j
        + (if i.val = 0 then 0 else (if j.val = i.val - 1 then (Real.sqrt ((i.val : ℝ) / 2) : ℂ) else 0) * c j)
        + (if j = i then ((u / alpha : ℝ) : ℂ) * c j else 0) := by
    intro j
    simp only [streamMatrix, ofReal_add, ofReal_mul, add_mul]
    congr 1
    · congr 1
      · split_ifs <;> simp
      · by_cases h : i.val = j.val + 1
        · rw [if_pos h, if_neg (by omega), if_pos (by omega)]
          rw [show ((i.val : ℝ)) = (j.val : ℝ) + 1 by rw [h]; push_cast; rfl]
        · rw [if_neg h]
          by_cases h0 : i.val = 0
          · rw [if_pos h0]; simp
          · rw [if_neg h0, if_neg (by omega)]; simp
    · by_cases h : i = j
      · subst h; simp
      · rw [if_neg h, if_neg (fun h' => h h'.symm)]; simp
  rw [Matrix.mulVec, dotProduct]
  simp only [Matrix.map_apply]
  rw [Finset.sum_congr rfl fun j _ => e j, Finset.sum_add_distrib, Finset.sum_add_distrib, sum_at, Finset.sum_ite_eq' Finset.univ i]
  simp only [Finset.mem_univ, if_true]
  congr 2
  by_cases h0 : i.val = 0
  · simp [h0]
  · simp only [if_neg h0]; rw [sum_at]

/-- The moment equations: each coefficient changes at the rate `-i k` times the flux, which couples
to its two neighbours (the missing one above the last is zero). -/
theorem stream_moments {d : Eigh n} {alpha u : ℝ} (ha : alpha ≠ 0) (hd : IsEigh d (streamMatrix n alpha u)) (k : ZMod N → ℝ) (C : Coef n N)
    (s : ℝ) (i : Fin n) (q : ZMod N) :
    HasDerivAt (fun s : ℝ => stream d alpha k C s i q)
      (-I * k q * (alpha * ((Real.sqrt (((i.val : ℝ) + 1) / 2) : ℂ) * at' (fun j => stream d alpha k C s j q) (i.val + 1)
        + (if i.val = 0 then 0 else (Real.sqrt ((i.val : ℝ) / 2) : ℂ) * at' (fun j => stream d alpha k C s j q) (i.val - 1)))
        + u * stream d alpha k C s i q)) s := by
  have h1 : ∀ j : Fin n, HasDerivAt (fun s : ℝ => cexp (-I * alpha * s * d.lam j * k q))
      (cexp (-I * alpha * s * d.lam j * k q) * (-I * alpha * d.lam j * k q)) s := by
    intro j
    have e : HasDerivAt (fun s : ℝ => (-I * alpha * s * d.lam j * k q : ℂ)) (-I * alpha * d.lam j * k q) s := by
      have := (Complex.ofRealCLM.hasDerivAt (x := s)).const_mul (-I * alpha : ℂ)
      have := (this.mul_const (d.lam j : ℂ)).mul_const (k q : ℂ)
      exact this.congr_deriv (by simp)
    exact e.cexp
  have h2 : HasDerivAt (fun s : ℝ => stream d alpha k C s i q)
      (∑ j, (d.V i j : ℂ) * ((∑ m, (d.V m j : ℂ) * C m q) * (cexp (-I * alpha * s * d.lam j * k q) * (-I * alpha * d.lam j * k q)))) s := by
    have := HasDerivAt.fun_sum (u := Finset.univ) fun j (_ : j ∈ Finset.univ) =>
      (((h1 j).const_mul (∑ m, (d.V m j : ℂ) * C m q)).const_mul (d.V i j : ℂ))
    exact this
  refine h2.congr_deriv ?_
  have h3 : (∑ j, (d.V i j : ℂ) * ((∑ m, (d.V m j : ℂ) * C m q) * (cexp (-I * alpha * s * d.lam j * k q) * (-I * alpha * d.lam j * k q)))) =
      (-I * alpha * k q) * (fc d (fun l => (l : ℂ) * cexp (-I * alpha * s * l * k q)) *ᵥ fun m => C m q) i := by
    rw [fc, ← Matrix.mulVec_mulVec, ← Matrix.mulVec_mulVec]
    simp only [Matrix.mulVec, dotProduct, Matrix.map_apply, Matrix.transpose_apply, Matrix.diagonal_apply, ite_mul, zero_mul,
      Finset.sum_ite_eq, Finset.mem_univ, if_true]
    rw [Finset.mul_sum]
    exact Finset.sum_congr rfl fun j _ => by ring
  have h4 : (fun j => stream d alpha k C s j q) = fc d (fun l => cexp (-I * alpha * s * l * k q)) *ᵥ fun m => C m q := by
    funext m; rw [stream_eq]
  rw [h3, ← fc_mul hd (fun l => (l : ℂ)), ← Matrix.mulVec_mulVec, ← h4, fc_id hd, streamMatrix_mul]
  have : (alpha : ℂ) ≠ 0 := ofReal_ne_zero.mpr ha
  push_cast
  field_simp

/-- In terms of the distribution: the moment with `h_n` changes by minus the gradient of the moment
with `v h_n`, for every coefficient but the last. -/
theorem stream_transport {d : Eigh n} {alpha u : ℝ} (ha : alpha ≠ 0) (hd : IsEigh d (streamMatrix n alpha u)) (k : ZMod N → ℝ) (C : Coef n N)
    (s : ℝ) (q : ZMod N) (M : Polynomial ℝ →ₗ[ℝ] ℂ) (hM : Represents alpha u M fun i => stream d alpha k C s i q) (i : Fin n) (hi : i.val + 1 < n) :
    HasDerivAt (fun s : ℝ => (alpha : ℂ) ^ 3 * stream d alpha k C s i q) (-I * k q * M (Polynomial.X * basis alpha u i)) s := by
  refine ((stream_moments ha hd k C s i q).const_mul ((alpha : ℂ) ^ 3)).congr_deriv ?_
  have hsm : ∀ (c : ℝ) (p : Polynomial ℝ), M (Polynomial.C c * p) = (c : ℂ) * M p := by
    intro c p; rw [← Polynomial.smul_eq_C_mul, map_smul, Complex.real_smul]
  have h1 : (alpha : ℂ) ^ 3 * at' (fun j => stream d alpha k C s j q) (i.val + 1) = M (basis alpha u (i.val + 1)) := by
    rw [at', dif_pos hi]; exact hM ⟨i.val + 1, hi⟩
  have h0 : (alpha : ℂ) ^ 3 * stream d alpha k C s i q = M (basis alpha u i) := hM i
  by_cases hz : i.val = 0
  · rw [hz] at h1 h0 ⊢
    rw [basis_three_zero alpha u ha, map_add, hsm, hsm, ← h0, ← h1]
    simp only [if_true]; push_cast
    rw [show ((0 : ℝ) + 1) / 2 = 1 / 2 by norm_num]; ring
  · obtain ⟨m, hm⟩ : ∃ m, i.val = m + 1 := ⟨i.val - 1, by omega⟩
    have h2 : (alpha : ℂ) ^ 3 * at' (fun j => stream d alpha k C s j q) (i.val - 1) = M (basis alpha u (i.val - 1)) := by
      rw [at', dif_pos (by have := i.2; omega)]; exact hM ⟨i.val - 1, _⟩
    rw [if_neg hz]
    rw [hm] at h0 h1 h2 ⊢
    rw [basis_three alpha u ha, map_add, map_add, hsm, hsm, hsm, ← h0]
    rw [Nat.add_sub_cancel] at h2 ⊢
    rw [← h1, ← h2]; push_cast; ring

/-- The wave numbers. -/
theorem kx_eq (L : ℝ) (k : ZMod N) : kx L k = kfull (L / N) k := by
  have hN : (N : ℝ) ≠ 0 := Nat.cast_ne_zero.mpr (NeZero.ne N)
  rw [kx, kfull, Grid.fftfreqAt, Grid.fftfreqAt]
  by_cases hL : L = 0
  · subst hL; simp
  · split_ifs <;> field_simp

theorem kx_zero (L : ℝ) : kx L (0 : ZMod N) = 0 := by rw [kx_eq, kfull_zero]

/-- A real distribution stays real: opposite modes stay conjugate (all but the Nyquist mode). -/
theorem stream_real (d : Eigh n) (alpha L : ℝ) (C : Coef n N) (s : ℝ)
    (hC : ∀ i q, C i (-q) = conj (C i q)) (i : Fin n) (q : ZMod N) (hq : 2 * q.val ≠ N) :
    stream d alpha (kx L) C s i (-q) = conj (stream d alpha (kx L) C s i q) := by
  have hk : kx L (-q) = -kx L q := by
    by_cases hz : q.val = 0
    · rw [(ZMod.val_eq_zero q).mp hz, neg_zero, kx_zero, neg_zero]
    · rw [kx_eq, kx_eq]; exact kfull_odd _ q hz hq
  simp only [stream, map_sum, map_mul, conj_ofReal, hC, hk]
  refine Finset.sum_congr rfl fun j _ => ?_
  congr 2
  rw [← Complex.exp_conj]; congr 1
  simp only [map_mul, map_neg, conj_I, conj_ofReal]; push_cast; ring

/-- The hypotheses are met: four modes with a drift, on five points. -/
example : ∃ d : Eigh 4, IsEigh d (streamMatrix 4 2 (1 / 2)) ∧
    ∀ s (q : ZMod 5), ∑ i, normSq (stream d 2 (kx 3) (fun i q => (i.val : ℂ) + q.val) s i q) = ∑ i : Fin 4, normSq ((i.val : ℂ) + q.val) := by
  obtain ⟨d, hd⟩ := eigh_exists 4 2 (1 / 2)
  exact ⟨d, hd, fun s q => stream_norm hd 2 (kx 3) (fun (i : Fin 4) (q : ZMod 5) => (i.val : ℂ) + q.val) s q⟩

/-! ### C104 -/

/-- The total damping rate of coefficient `i` in mode `q`. -/
noncomputable def Damping.rate (d : Damping n) (k : ZMod N → ℝ) (i : Fin n) (q : ZMod N) : ℝ :=
  d.nu * d.col i + d.D * k q ^ 2 + filterRate d.filter i

theorem damping_eq (d : Damping n) (k : ZMod N → ℝ) (C : Coef n N) (s : ℝ) (i : Fin n) (q : ZMod N) :
    d.apply k C s i q = C i q * (Real.exp (-(d.rate k i q) * s) : ℝ) := by
  rw [Damping.apply, Damping.rate]; congr 3; ring

/-- Every coefficient decays exponentially at its rate: exactly, for any splitting of the time. -/
theorem damping_semigroup (d : Damping n) (k : ZMod N → ℝ) (C : Coef n N) :
    d.apply k C 0 = C ∧ (∀ s t, d.apply k (d.apply k C s) t = d.apply k C (s + t)) ∧
      ∀ s i q, HasDerivAt (fun s : ℝ => d.apply k C s i q)
        (-((d.nu * d.col i + d.D * k q ^ 2 + filterRate d.filter i : ℝ) : ℂ) * d.apply k C s i q) s := by
  refine ⟨?_, ?_, ?_⟩
  · funext i q; rw [damping_eq]; simp
  · intro s t; funext i q
    rw [damping_eq, damping_eq, damping_eq, mul_assoc, ← ofReal_mul, ← Real.exp_add]; congr 3; ring
  · intro s i q
    have e : (fun s : ℝ => d.apply k C s i q) = fun s : ℝ => C i q * (Real.exp (-(d.rate k i q) * s) : ℝ) := by
      funext s; rw [damping_eq]
    rw [e, damping_eq]
    have h1 : HasDerivAt (fun s : ℝ => Real.exp (-(d.rate k i q) * s)) (Real.exp (-(d.rate k i q) * s) * (-(d.rate k i q))) s := by
      have := ((hasDerivAt_id s).const_mul (-(d.rate k i q))).exp
      exact this.congr_deriv (by simp)
    refine (h1.ofReal_comp.const_mul (C i q)).congr_deriv ?_
    rw [Damping.rate]; push_cast; ring

/-- With non-negative rates no coefficient grows. -/
theorem damping_contracts (d : Damping n) (k : ZMod N → ℝ) (C : Coef n N) (s : ℝ) (hs : 0 ≤ s) (hnu : 0 ≤ d.nu) (hcol : ∀ i, 0 ≤ d.col i)
    (hD : 0 ≤ d.D) (hf : ∀ i, 0 ≤ filterRate d.filter i) (i : Fin n) (q : ZMod N) : ‖d.apply k C s i q‖ ≤ ‖C i q‖ := by
  rw [damping_eq, norm_mul, Complex.norm_real, Real.norm_eq_abs, abs_of_pos (Real.exp_pos _)]
  refine mul_le_of_le_one_right (norm_nonneg _) (Real.exp_le_one_iff.mpr ?_)
  have h : 0 ≤ d.rate k i q := by
    rw [Damping.rate]; have := mul_nonneg hnu (hcol i); have := mul_nonneg hD (sq_nonneg (k q)); have := hf i; linarith
  nlinarith

/-- Both collision models leave the first three coefficients alone and damp no coefficient
negatively; other names are refused. -/
theorem collision_profile (n : ℕ) (model : String) :
    (∀ col, collisionProfile n model = .ok col → ∀ i : Fin n, 0 ≤ col i ∧ (i.val < 3 → col i = 0)) ∧
      ((∃ col, collisionProfile n model = .ok col) ↔ model = "lenard-bernstein" ∨ model = "hypercollision") := by
  constructor
  · intro col h i
    unfold collisionProfile at h
    split at h
    · cases h
      refine ⟨by beta_reduce; split_ifs <;> positivity, fun hi => if_neg (by omega)⟩
    · split at h
      · cases h
        unfold hyperCol
        split_ifs with hn
        · have h3 : (3 : ℝ) < n := by exact_mod_cast hn
          constructor
          · refine div_nonneg ?_ (mul_nonneg (mul_nonneg (by linarith) (by linarith)) (by linarith))
            rcases Nat.lt_or_ge i.val 3 with h | h
            · obtain ⟨v, hv⟩ : ∃ v, v = i.val := ⟨_, rfl⟩
              rw [← hv] at h ⊢
              interval_cases v <;> norm_num
            · have : (3 : ℝ) ≤ i.val := by exact_mod_cast h
              exact mul_nonneg (mul_nonneg (by linarith) (by linarith)) (by linarith)
          · intro hi
            obtain ⟨v, hv⟩ : ∃ v, v = i.val := ⟨_, rfl⟩
            rw [← hv] at hi ⊢
            interval_cases v <;> norm_num
        · exact ⟨le_refl _, fun _ => rfl⟩
      · cases h
  · unfold collisionProfile
    by_cases h1 : model = "lenard-bernstein"
    · simp [h1]
    · by_cases h2 : model = "hypercollision"
      · simp [h2]
      · simp [h1, h2]

/-- The spectra: Lenard-Bernstein damps coefficient `i ≥ 3` in proportion to `i`; hypercollisions
grow like `i (i-1) (i-2)` and reach exactly one for the last coefficient, but do nothing with three
coefficients or fewer. -/
theorem collision_spectra (n : ℕ) :
    (∃ col, collisionProfile n "lenard-bernstein" = .ok col ∧ ∀ i : Fin n, 3 ≤ i.val → col i = i.val) ∧
    (∃ col, collisionProfile n "hypercollision" = .ok col ∧ (n ≤ 3 → ∀ i, col i = 0) ∧
      (3 < n → (∀ i : Fin n, i.val + 1 = n → col i = 1) ∧ ∀ i j : Fin n, col i * (j.val * (j.val - 1) * (j.val - 2)) = col j * (i.val * (i.val - 1) * (i.val - 2)))) := by
  constructor
  · exact ⟨_, by rw [collisionProfile, if_pos rfl], fun i hi => if_pos hi⟩
  · refine ⟨hyperCol n, by rw [collisionProfile, if_neg (by decide), if_pos rfl], fun h i => if_neg (by omega), fun h => ⟨fun i hi => ?_, fun i j => ?_⟩⟩
    · rw [hyperCol, if_pos h]
      have h3 : (3 : ℝ) < n := by exact_mod_cast h
      have : (i.val : ℝ) = n - 1 := by
        have h' : ((i.val + 1 : ℕ) : ℝ) = n := by exact_mod_cast hi
        push_cast at h'; linarith
      rw [this]
      have h1 : (n : ℝ) - 1 ≠ 0 := by linarith
      have h2 : (n : ℝ) - 2 ≠ 0 := by linarith
      have h4 : (n : ℝ) - 3 ≠ 0 := by linarith
      rw [show (n : ℝ) - 1 - 1 = n - 2 by ring, show (n : ℝ) - 1 - 2 = n - 3 by ring, div_self]
      exact mul_ne_zero (mul_ne_zero h1 h2) h4
    · rw [hyperCol, hyperCol, if_pos h, if_pos h]; ring

/-- Collisions alone conserve the density, momentum and energy of every mode. -/
theorem collisions_conserve (n : ℕ) (model : String) (col : Fin n → ℝ) (h : collisionProfile n model = .ok col) (nu : ℝ) (k : ZMod N → ℝ)
    (C : Coef n N) (s : ℝ) (i : Fin n) (hi : i.val < 3) (q : ZMod N) : (Damping.mk nu col 0 none).apply k C s i q = C i q := by
  have h0 := ((collision_profile n model).1 col h i).2 hi
  rw [damping_eq, Damping.rate]; simp [filterRate, h0]

/-- The filter profile of positive order leaves the density alone, lies in `[0, 1]` and reaches one
at the last coefficient. -/
theorem houli_profile (n : ℕ) (knee width order : ℝ) (ho : 0 < order) (i : Fin n) :
    (i.val = 0 → filterProfile n "houli" knee width order i = 0) ∧
      0 ≤ filterProfile n "houli" knee width order i ∧ filterProfile n "houli" knee width order i ≤ 1 ∧
      (i.val + 1 = n → 1 < n → filterProfile n "houli" knee width order i = 1) := by
  have e : filterProfile n "houli" knee width order i = ((i.val : ℝ) / max ((n : ℝ) - 1) 1) ^ order := by
    rw [filterProfile, if_neg (by decide)]
  have hm : (0 : ℝ) < max ((n : ℝ) - 1) 1 := lt_max_of_lt_right one_pos
  rw [e]
  refine ⟨fun h => ?_, Real.rpow_nonneg (by positivity) _, ?_, fun h hn => ?_⟩
  · rw [h, Nat.cast_zero, zero_div, Real.zero_rpow ho.ne']
  · refine Real.rpow_le_one (by positivity) ((div_le_one hm).mpr ?_) ho.le
    have : (i.val : ℝ) + 1 ≤ n := by exact_mod_cast i.2
    exact le_max_of_le_left (by linarith)
  · have h1 : (2 : ℝ) ≤ n := by exact_mod_cast hn
    have : (i.val : ℝ) = n - 1 := by
      have h' : ((i.val + 1 : ℕ) : ℝ) = n := by exact_mod_cast h
      push_cast at h'; linarith
    rw [this, max_eq_left (by linarith), div_self (by linarith), Real.one_rpow]

/-- The other two filters damp the density: the `knee` profile is positive everywhere, and order
zero makes the profile one everywhere, so the number of particles in the box decays. -/
theorem filter_loses (n : ℕ) (knee width : ℝ) (i : Fin n) (order : ℝ) (profile : String)
    (hp : profile = "knee" ∨ (profile ≠ "knee" ∧ order = 0)) (nu : ℝ) (hnu : 0 ≤ nu)
    (col : Fin n → ℝ) (hcol : 0 ≤ col i) (D : ℝ) (hD : 0 ≤ D) (strength : ℝ) (hs : 0 < strength) (k : ZMod N → ℝ) (C : Coef n N) (s : ℝ) (hpos : 0 < s)
    (q : ZMod N) (hC : C i q ≠ 0) :
    ‖(Damping.mk nu col D (some (strength, filterProfile n profile knee width order))).apply k C s i q‖ < ‖C i q‖ := by
  have hprof : 0 < filterProfile n profile knee width order i := by
    rcases hp with h | ⟨h, h0⟩
    · rw [filterProfile, if_pos h]
      have := (abs_lt.mp (Real.abs_tanh_lt_one (x := ((i.val : ℝ) - knee) / width))).1
      linarith
    · rw [filterProfile, if_neg h, h0, Real.rpow_zero]; exact one_pos
  rw [damping_eq, norm_mul, Complex.norm_real, Real.norm_eq_abs, abs_of_pos (Real.exp_pos _)]
  refine mul_lt_of_lt_one_right (norm_pos_iff.mpr hC) (Real.exp_lt_one_iff.mpr ?_)
  have h : 0 < (Damping.mk nu col D (some (strength, filterProfile n profile knee width order))).rate k i q := by
    rw [Damping.rate]
    have h1 := mul_nonneg hnu hcol
    have h2 := mul_nonneg hD (sq_nonneg (k q))
    have h3 : filterRate (some (strength, filterProfile n profile knee width order)) i = strength * filterProfile n profile knee width order i := by
      rw [filterRate, if_pos hs]
    rw [h3]
    have := mul_pos hs hprof
    linarith
  nlinarith

/-- The combined operator is not an exponential once there are collisions: two half steps are not
one full step, whatever the eigenvectors. -/
theorem linear_not_flow (alpha u nu : ℝ) (ha : alpha ≠ 0) (hnu : nu ≠ 0) (k : ZMod N → ℝ) (q : ZMod N) (hq : k q ≠ 0) (hn : 3 < n)
    (d : Eigh n) (hd : IsEigh d (streamMatrix n alpha u)) (model : String) (col : Fin n → ℝ) (hm : collisionProfile n model = .ok col) :
    ¬ ∀ (s : ℝ) (C : Coef n N), linear d alpha ⟨nu, col, 0, none⟩ k (linear d alpha ⟨nu, col, 0, none⟩ k C s) s = linear d alpha ⟨nu, col, 0, none⟩ k C (s + s) := by
  intro h
  have hc3 : ∃ c3 : ℝ, col ⟨3, hn⟩ = c3 ∧ c3 ≠ 0 := by
    refine ⟨_, rfl, ?_⟩
    unfold collisionProfile at hm
    split at hm
    · cases hm; simp
    · split at hm
      · cases hm
        rw [hyperCol, if_pos hn]
        have h3 : (3 : ℝ) < n := by exact_mod_cast hn
        norm_num
        refine ⟨⟨?_, ?_⟩, ?_⟩ <;> intro hh <;> linarith
      · cases hm
  obtain ⟨c3, hc3, hc0⟩ := hc3
  have hc2 : col ⟨2, by omega⟩ = 0 := ((collision_profile n model).1 col hm _).2 (by simp)
  let e : Coef n N := fun i p => if i = ⟨3, hn⟩ ∧ p = q then 1 else 0
  have hS : ∀ s, s ≠ 0 → stream d alpha k e s ⟨2, by omega⟩ q = 0 := by
    intro s hs
    have h1 := congrFun (congrFun (h s (stream d alpha k e (-s))) ⟨2, by omega⟩) q
    rw [linear, linear, linear, stream_add hd, stream_add hd, neg_add_cancel, stream_zero hd,
      show -s + (s + s) = s by ring, damping_eq, damping_eq] at h1
    have e1 : (Damping.mk nu col 0 none).apply k e s = fun i p => ((Real.exp (-(nu * c3) * s) : ℝ) : ℂ) * e i p := by
      funext i p
      rw [damping_eq, mul_comm]
      by_cases hi : i = ⟨3, hn⟩
      · subst hi
        rw [Damping.rate]; simp [filterRate, hc3]
      · simp [e, hi]
    have e2 : stream d alpha k (fun i p => ((Real.exp (-(nu * c3) * s) : ℝ) : ℂ) * e i p) s ⟨2, by omega⟩ q =
        ((Real.exp (-(nu * c3) * s) : ℝ) : ℂ) * stream d alpha k e s ⟨2, by omega⟩ q := by
      simp only [stream, Finset.mul_sum, Finset.sum_mul]
      exact Finset.sum_congr rfl fun j _ => Finset.sum_congr rfl fun m _ => by ring
    have e3 : (Damping.mk nu col 0 none).rate k ⟨2, by omega⟩ q = 0 := by rw [Damping.rate]; simp [filterRate, hc2]
    rw [e1, e2, e3] at h1
    simp only [neg_zero, zero_mul, Real.exp_zero, ofReal_one, mul_one] at h1
    have h2 : (((Real.exp (-(nu * c3) * s) : ℝ) : ℂ) - 1) * stream d alpha k e s ⟨2, by omega⟩ q = 0 := by rw [sub_mul, h1, one_mul, sub_self]
    rcases mul_eq_zero.mp h2 with h3 | h3
    · exfalso
      have h4 : Real.exp (-(nu * c3) * s) = 1 := by exact_mod_cast sub_eq_zero.mp h3
      rw [Real.exp_eq_one_iff] at h4
      exact (mul_ne_zero (neg_ne_zero.mpr (mul_ne_zero hnu hc0)) hs) h4
    · exact h3
  have hS0 : ∀ s, stream d alpha k e s ⟨2, by omega⟩ q = 0 := by
    intro s
    by_cases hs : s = 0
    · subst hs; rw [stream_zero hd]; simp [e]
    · exact hS s hs
  have hder := stream_moments ha hd k e 0 ⟨2, by omega⟩ q
  have hz : (fun s : ℝ => stream d alpha k e s ⟨2, by omega⟩ q) = fun _ => 0 := by funext s; exact hS0 s
  rw [hz] at hder
  have hu := hder.unique (hasDerivAt_const (0 : ℝ) (0 : ℂ))
  rw [stream_zero hd] at hu
  have a1 : at' (fun j => e j q) 3 = 1 := by rw [at', dif_pos hn]; simp [e]
  have a2 : at' (fun j => e j q) 1 = 0 := by rw [at', dif_pos (by omega)]; simp [e]
  have a3 : e ⟨2, by omega⟩ q = 0 := by simp [e]
  simp only [a3] at hu
  rw [show (2 + 1 : ℕ) = 3 from rfl, a1] at hu
  rw [if_neg (by norm_num), show (2 - 1 : ℕ) = 1 from rfl, a2] at hu
  simp only [mul_one, mul_zero, add_zero] at hu
  have h1 : (-I * (k q : ℂ)) ≠ 0 := mul_ne_zero (neg_ne_zero.mpr I_ne_zero) (ofReal_ne_zero.mpr hq)
  have h2 : (alpha : ℂ) * ((Real.sqrt ((((2 : ℕ) : ℝ) + 1) / 2) : ℝ) : ℂ) ≠ 0 :=
    mul_ne_zero (ofReal_ne_zero.mpr ha) (ofReal_ne_zero.mpr (Real.sqrt_pos.mpr (by norm_num)).ne')
  exact mul_ne_zero h1 h2 hu

/-- The hypotheses are met: five modes, hypercollisions. -/
example : ∃ (d : Eigh 5) (col : Fin 5 → ℝ), collisionProfile 5 "hypercollision" = .ok col ∧
    ¬ ∀ (s : ℝ) (C : Coef 5 7), linear d 2 ⟨1, col, 0, none⟩ (kx 3) (linear d 2 ⟨1, col, 0, none⟩ (kx 3) C s) s
      = linear d 2 ⟨1, col, 0, none⟩ (kx 3) C (s + s) := by
  obtain ⟨d, hd⟩ := eigh_exists 5 2 0
  have h : collisionProfile 5 "hypercollision" = .ok (hyperCol 5) := by rw [collisionProfile, if_neg (by decide), if_pos rfl]
  refine ⟨d, hyperCol 5, h, linear_not_flow 2 0 1 (by norm_num) one_ne_zero (kx 3) (1 : ZMod 7) ?_ (by norm_num) d hd _ _ h⟩
  rw [kx_eq]; exact kfull_ne_zero (by norm_num) (by decide)

/-- Particles in one Fourier mode with zero wave number are kept by the linear step. -/
theorem linear_keeps {d : Eigh n} {T : Matrix (Fin n) (Fin n) ℝ} (hd : IsEigh d T) (alpha : ℝ) (p : Damping n) (k : ZMod N → ℝ) (q : ZMod N) (hq : k q = 0)
    (i : Fin n) (hc : p.col i = 0) (hf : filterRate p.filter i = 0) (C : Coef n N) (s : ℝ) : linear d alpha p k C s i q = C i q := by
  rw [linear, damping_eq, stream_mean hd _ _ _ _ _ hq, Damping.rate, hc, hf, hq]; simp
end Verif.Hermite
