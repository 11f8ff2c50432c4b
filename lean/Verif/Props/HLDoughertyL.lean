import Verif.Props.HLDougherty
import Mathlib.LinearAlgebra.Matrix.Block

/-!
C122, second part: the Legendre part of the Dougherty collisions, and the whole map.
-/
namespace Verif.HermiteLegendre
open Finset Verif.Spectral Verif.Hermite MeasureTheory
open scoped Matrix

variable {N : ℕ} [NeZero N] {nh nl : ℕ}

/-! ### The drift -/

theorem deriv_mul_TL (a b : ℝ) (h : a < b) (m j : Fin nl) :
    (deriv nl a b * TL nl a b) m j = 1 / (b - a) * ∫ v in a..b, v * (Polynomial.derivative (xi a b m.val)).eval v * (xi a b j.val).eval v := by
  have e : (∫ v in a..b, v * (Polynomial.derivative (xi a b m.val)).eval v * (xi a b j.val).eval v) =
      integ a b (Polynomial.X * Polynomial.derivative (xi a b m.val) * xi a b j.val) := by
    rw [integ_def]; simp only [Polynomial.eval_mul, Polynomial.eval_X]
  have e2 : ∀ i : Fin nl, integ a b (Polynomial.X * xi a b i.val * xi a b j.val) = (b - a) * TL nl a b i j := by
    intro i
    have hw : b - a ≠ 0 := sub_ne_zero.mpr h.ne'
    rw [velocity_matrix a b h i j, integ_def]
    simp only [Polynomial.eval_mul, Polynomial.eval_X]
    field_simp
  have hw : b - a ≠ 0 := sub_ne_zero.mpr h.ne'
  rw [e, derivative_expansion, mul_sum, sum_mul, map_sum, Matrix.mul_apply, mul_sum]
  refine sum_congr rfl fun i _ => ?_
  rw [show Polynomial.X * (Polynomial.C (deriv nl a b m i) * xi a b i.val) * xi a b j.val =
    Polynomial.C (deriv nl a b m i) * (Polynomial.X * xi a b i.val * xi a b j.val) by ring, integ_C_mul, e2]
  field_simp

/-- Cutting the matrix to its lower triangle changes nothing. -/
theorem drift_lower (a b : ℝ) (m j : Fin nl) (hj : m < j) : (deriv nl a b * TL nl a b) m j = 0 := by
  rw [Matrix.mul_apply]
  refine sum_eq_zero fun i _ => ?_
  by_cases h : i.val < m.val
  · have hij : TL nl a b i j = 0 := by
      have := Fin.lt_def.mp hj
      rw [TL, if_neg (fun e => by rw [e] at h; omega), if_neg (by omega), if_neg (by omega)]; ring
    rw [hij, mul_zero]
  · rw [deriv, if_neg (fun e => h e.1), zero_mul]

theorem drift_diag (a b : ℝ) (h : a < b) (m : Fin nl) : (deriv nl a b * TL nl a b) m m = m.val := by
  rw [deriv_mul_TL a b h]
  have hw : b - a ≠ 0 := sub_ne_zero.mpr h.ne'
  have e : (∫ v in a..b, v * (Polynomial.derivative (xi a b m.val)).eval v * (xi a b m.val).eval v) =
      integ a b (Polynomial.X * Polynomial.derivative (xi a b m.val) * xi a b m.val) := by
    rw [integ_def]; simp only [Polynomial.eval_mul, Polynomial.eval_X]
  have hd := integ_derivative a b (Polynomial.X * (xi a b m.val * xi a b m.val))
  have hx : Polynomial.derivative (Polynomial.X * (xi a b m.val * xi a b m.val)) =
      Polynomial.C 2 * (Polynomial.X * Polynomial.derivative (xi a b m.val) * xi a b m.val) + xi a b m.val * xi a b m.val := by
    simp only [Polynomial.derivative_mul, Polynomial.derivative_X, C_two]; ring
  rw [hx, map_add, integ_C_mul, xi_orth a b h.ne, if_pos rfl] at hd
  simp only [Polynomial.eval_mul, Polynomial.eval_X, xi_b a b h.ne, xi_a a b h.ne] at hd
  have hb : xiB m.val * xiB m.val = 2 * m.val + 1 := by rw [xiB]; exact sqrt_mul_self' _
  have ha : xiA m.val * xiA m.val = 2 * m.val + 1 := by
    rw [xiA, show Real.sqrt (2 * (m.val : ℝ) + 1) * (-1) ^ m.val * (Real.sqrt (2 * (m.val : ℝ) + 1) * (-1) ^ m.val) =
      Real.sqrt (2 * (m.val : ℝ) + 1) * Real.sqrt (2 * (m.val : ℝ) + 1) * ((-1) ^ m.val * (-1) ^ m.val) by ring, sqrt_mul_self', ← mul_pow]
    norm_num
  rw [hb, ha] at hd
  rw [e]
  field_simp
  linarith

/-- The drift matrix is the weak form of `d/dv ((v - U) f)` without flux through the ends of the window. -/
theorem drift_weak (a b : ℝ) (h : a < b) (U : ℝ) (m : Fin nl) (B : Fin nl → ℝ) :
    ((drift0 nl a b + U • deriv nl a b) *ᵥ B) m =
      -(1 / (b - a) * ∫ v in a..b, (v - U) * (Polynomial.derivative (xi a b m.val)).eval v * ∑ j, B j * (xi a b j.val).eval v) := by
  have hw : b - a ≠ 0 := sub_ne_zero.mpr h.ne'
  have hd0 : drift0 nl a b = -(deriv nl a b * TL nl a b) := by
    funext i j
    rw [drift0, Matrix.neg_apply]
    split_ifs with hij
    · rfl
    · rw [drift_lower a b i j (Fin.lt_def.mpr (by omega)), neg_zero]
  have e : (∫ v in a..b, (v - U) * (Polynomial.derivative (xi a b m.val)).eval v * ∑ j, B j * (xi a b j.val).eval v) =
      integ a b (∑ j : Fin nl, Polynomial.C (B j) * ((Polynomial.X * Polynomial.derivative (xi a b m.val) * xi a b j.val)
        + Polynomial.C (-U) * (Polynomial.derivative (xi a b m.val) * xi a b j.val))) := by
    rw [integ_def]
    congr 1
    funext v
    rw [Polynomial.eval_finsetSum, mul_sum]
    refine sum_congr rfl fun j _ => ?_
    simp only [Polynomial.eval_mul, Polynomial.eval_add, Polynomial.eval_X, Polynomial.eval_C]
    ring
  rw [e, map_sum, hd0, Matrix.mulVec, dotProduct, mul_sum, ← sum_neg_distrib]
  refine sum_congr rfl fun j _ => ?_
  rw [integ_C_mul, map_add, integ_C_mul, Matrix.add_apply, Matrix.smul_apply, Matrix.neg_apply, deriv_mul_TL a b h, derivative_matrix a b h, integ_def, integ_def]
  simp only [Polynomial.eval_mul, Polynomial.eval_X, smul_eq_mul]
  ring

theorem drift_entries (a b : ℝ) (h : a < b) (U c : ℝ) :
    (1 - c • (drift0 nl a b + U • deriv nl a b)).det = ∏ m : Fin nl, (1 + c * m.val) := by
  rw [Matrix.det_of_lowerTriangular]
  · refine prod_congr rfl fun m _ => ?_
    simp only [Matrix.sub_apply, Matrix.one_apply_eq, Matrix.smul_apply, Matrix.add_apply, smul_eq_mul, drift0, le_refl, if_true]
    rw [drift_diag a b h, deriv, if_neg (fun e => absurd e.1 (lt_irrefl _))]
    ring
  · intro i j hij
    have hij' : i < j := hij
    have := Fin.lt_def.mp hij'
    simp only [Matrix.sub_apply, Matrix.one_apply_ne (ne_of_lt hij'), Matrix.smul_apply, Matrix.add_apply, smul_eq_mul, drift0]
    rw [if_neg (by omega), deriv, if_neg (fun e => by have := e.1; omega)]
    ring

/-- The drift step is the implicit midpoint rule, for every step: the change of every moment of the Legendre part is the time step times the
weak form at the mean of the old and new distribution, and no other coefficients satisfy this. -/
theorem drift_midpoint (nu a b U s : ℝ) (h : a < b) (hs : 0 ≤ nu * s) (B B' : Fin nl → ℝ) :
    B' = driftStep nu a b U s B ↔ ∀ m : Fin nl, B' m - B m = nu * s * -(1 / (b - a) *
      ∫ v in a..b, (v - U) * (Polynomial.derivative (xi a b m.val)).eval v * ∑ j, (B j + B' j) / 2 * (xi a b j.val).eval v) := by
  obtain ⟨G, hG⟩ : ∃ G, G = drift0 nl a b + U • deriv nl a b := ⟨_, rfl⟩
  have hdet : IsUnit (1 - (0.5 * nu * s) • G).det := by
    rw [hG, drift_entries a b h, isUnit_iff_ne_zero]
    refine prod_ne_zero_iff.mpr fun m _ => ne_of_gt ?_
    have : 0 ≤ 0.5 * nu * s * m.val := by rw [mul_assoc 0.5]; positivity
    linarith
  have h1 : B' = driftStep nu a b U s B ↔ (1 - (0.5 * nu * s) • G) *ᵥ B' = B + (0.5 * nu * s) • (G *ᵥ B) := by
    have hd : driftStep nu a b U s B = (1 - (0.5 * nu * s) • G)⁻¹ *ᵥ (B + (0.5 * nu * s) • (G *ᵥ B)) := by rw [hG]; rfl
    rw [hd]
    constructor
    · intro e; rw [e, Matrix.mulVec_mulVec, Matrix.mul_nonsing_inv _ hdet, Matrix.one_mulVec]
    · intro e; rw [← e, Matrix.mulVec_mulVec, Matrix.nonsing_inv_mul _ hdet, Matrix.one_mulVec]
  rw [h1, funext_iff]
  refine forall_congr' fun m => ?_
  rw [← drift_weak a b h U m fun j => (B j + B' j) / 2, ← hG]
  have hm : (fun j => (B j + B' j) / 2) = (1 / 2 : ℝ) • (B + B') := by funext j; simp; ring
  rw [hm, Matrix.mulVec_smul, Matrix.mulVec_add, Matrix.sub_mulVec, Matrix.one_mulVec, Matrix.smul_mulVec]
  simp only [Pi.sub_apply, Pi.add_apply, Pi.smul_apply, smul_eq_mul]
  constructor
  · intro e; norm_num at e ⊢; linarith
  · intro e; norm_num at e ⊢; linarith

/-- It keeps the density. -/
theorem drift_density [NeZero nl] (nu a b U s : ℝ) (h : a < b) (hs : 0 ≤ nu * s) (B : Fin nl → ℝ) : driftStep nu a b U s B 0 = B 0 := by
  have h1 := (drift_midpoint nu a b U s h hs B (driftStep nu a b U s B)).mp rfl 0
  simp only [Fin.val_zero, xi_zero, Polynomial.derivative_one, Polynomial.eval_zero, mul_zero, zero_mul, intervalIntegral.integral_zero, neg_zero] at h1
  linarith

theorem drift_zero (nu a b U s : ℝ) (h : a < b) (hs : 0 ≤ nu * s) : driftStep nu a b U s (0 : Fin nl → ℝ) = 0 := by
  refine ((drift_midpoint nu a b U s h hs 0 0).mpr fun m => ?_).symm
  simp

/-! ### The diffusion -/

/-- What the code diagonalises (451). -/
noncomputable def diffusion (nl : ℕ) (a b : ℝ) : Matrix (Fin nl) (Fin nl) ℝ := -(deriv nl a b * (deriv nl a b)ᵀ)

/-- It is the weak form of the second derivative without flux through the ends. -/
theorem diffusion_weak (a b : ℝ) (h : a < b) (m : Fin nl) (B : Fin nl → ℝ) :
    (diffusion nl a b *ᵥ B) m =
      -(1 / (b - a) * ∫ v in a..b, (Polynomial.derivative (xi a b m.val)).eval v * ∑ j, B j * (Polynomial.derivative (xi a b j.val)).eval v) := by
  have hw : b - a ≠ 0 := sub_ne_zero.mpr h.ne'
  have e : (∫ v in a..b, (Polynomial.derivative (xi a b m.val)).eval v * ∑ j, B j * (Polynomial.derivative (xi a b j.val)).eval v) =
      integ a b (∑ j : Fin nl, Polynomial.C (B j) * (Polynomial.derivative (xi a b m.val) * Polynomial.derivative (xi a b j.val))) := by
    rw [integ_def]
    congr 1
    funext v
    rw [Polynomial.eval_finsetSum, mul_sum]
    refine sum_congr rfl fun j _ => ?_
    simp only [Polynomial.eval_mul, Polynomial.eval_C]
    ring
  rw [e, map_sum, Matrix.mulVec, dotProduct, mul_sum, ← sum_neg_distrib]
  refine sum_congr rfl fun j _ => ?_
  rw [integ_C_mul, diffusion, Matrix.neg_apply, Matrix.mul_apply, derivative_expansion a b j, mul_sum, map_sum, mul_sum, mul_sum, ← sum_neg_distrib, sum_mul, ← sum_neg_distrib]
  refine sum_congr rfl fun i _ => ?_
  rw [show Polynomial.derivative (xi a b m.val) * (Polynomial.C (deriv nl a b j i) * xi a b i.val) =
    Polynomial.C (deriv nl a b j i) * (Polynomial.derivative (xi a b m.val) * xi a b i.val) by ring, integ_C_mul, Matrix.transpose_apply,
    derivative_matrix a b h m i, integ_def]
  simp only [Polynomial.eval_mul]
  ring

theorem diffusion_symm (a b : ℝ) : (diffusion nl a b).IsHermitian := by
  rw [Matrix.IsHermitian, Matrix.conjTranspose_eq_transpose_of_trivial, diffusion, Matrix.transpose_neg, Matrix.transpose_mul, Matrix.transpose_transpose]

variable {a b : ℝ} {d : Eigh nl}

/-- The eigenvalues are not positive, so cutting them at zero changes nothing. -/
theorem diffusion_eigenvalues (hd : IsEigh d (diffusion nl a b)) (j : Fin nl) : d.lam j ≤ 0 := by
  have hV : d.Vᵀ * d.V = 1 := mul_eq_one_comm.mp hd.1
  have h1 : d.Vᵀ * diffusion nl a b * d.V = Matrix.diagonal d.lam := by
    rw [hd.2]
    calc _ = (d.Vᵀ * d.V) * Matrix.diagonal d.lam * (d.Vᵀ * d.V) := by simp only [Matrix.mul_assoc]
      _ = _ := by rw [hV, Matrix.one_mul, Matrix.mul_one]
  have h2 : d.lam j = -∑ i, (((deriv nl a b)ᵀ * d.V) i j) ^ 2 := by
    have h3 := congrFun (congrFun h1 j) j
    rw [Matrix.diagonal_apply_eq] at h3
    rw [← h3, diffusion, Matrix.mul_neg, Matrix.neg_mul, Matrix.neg_apply,
      show d.Vᵀ * (deriv nl a b * (deriv nl a b)ᵀ) * d.V = ((deriv nl a b)ᵀ * d.V)ᵀ * ((deriv nl a b)ᵀ * d.V) by
        rw [Matrix.transpose_mul, Matrix.transpose_transpose]; simp only [Matrix.mul_assoc], Matrix.mul_apply]
    congr 1
    exact sum_congr rfl fun i _ => by rw [Matrix.transpose_apply, sq]
  rw [h2, neg_nonpos]
  exact sum_nonneg fun i _ => sq_nonneg _

theorem diffuse_eq (hd : IsEigh d (diffusion nl a b)) (nu T s : ℝ) (B : Fin nl → ℝ) :
    diffuse nu d T s B = d.V *ᵥ fun j => Real.exp (nu * T * s * d.lam j) * (d.Vᵀ *ᵥ B) j := by
  funext m
  rw [diffuse, Matrix.mulVec, dotProduct]
  refine sum_congr rfl fun j _ => ?_
  rw [min_eq_left (diffusion_eigenvalues hd j), show nu * s * d.lam j * T = nu * T * s * d.lam j by ring]
  simp only [Matrix.mulVec, dotProduct, Matrix.transpose_apply]

theorem diffuse_modal (hd : IsEigh d (diffusion nl a b)) (nu T s : ℝ) (B : Fin nl → ℝ) (j : Fin nl) :
    (d.Vᵀ *ᵥ diffuse nu d T s B) j = Real.exp (nu * T * s * d.lam j) * (d.Vᵀ *ᵥ B) j := by
  have hV : d.Vᵀ * d.V = 1 := mul_eq_one_comm.mp hd.1
  rw [diffuse_eq hd, Matrix.mulVec_mulVec, hV, Matrix.one_mulVec]

theorem norm_modal {T : Matrix (Fin nl) (Fin nl) ℝ} (hd : IsEigh d T) (B : Fin nl → ℝ) : ∑ j, (d.Vᵀ *ᵥ B) j ^ 2 = ∑ m, B m ^ 2 := by
  have h : ∀ v : Fin nl → ℝ, ∑ j, v j ^ 2 = v ⬝ᵥ v := fun v => sum_congr rfl fun j _ => by rw [sq]
  rw [h, h, Matrix.dotProduct_mulVec, Matrix.vecMul_transpose, Matrix.mulVec_mulVec, hd.1, Matrix.one_mulVec]

/-- The diffusion is a flow, -/
theorem diffuse_flow (hd : IsEigh d (diffusion nl a b)) (nu T s t : ℝ) (B : Fin nl → ℝ) :
    diffuse nu d T t (diffuse nu d T s B) = diffuse nu d T (s + t) B ∧ diffuse nu d T 0 B = B := by
  constructor
  · rw [diffuse_eq hd, diffuse_eq hd nu T (s + t)]
    congr 1
    funext j
    rw [diffuse_modal hd, ← mul_assoc, ← Real.exp_add]
    congr 2
    ring
  · rw [diffuse_eq hd]
    have : (fun j => Real.exp (nu * T * 0 * d.lam j) * (d.Vᵀ *ᵥ B) j) = d.Vᵀ *ᵥ B := by funext j; simp
    rw [this, Matrix.mulVec_mulVec, hd.1, Matrix.one_mulVec]

/-- whose rate is the weak form of `nu T` times the second derivative of the Legendre part, -/
theorem diffuse_rate (hd : IsEigh d (diffusion nl a b)) (h : a < b) (nu T s : ℝ) (B : Fin nl → ℝ) (m : Fin nl) :
    HasDerivAt (fun s => diffuse nu d T s B m)
      (-(nu * T * (1 / (b - a) * ∫ v in a..b, (Polynomial.derivative (xi a b m.val)).eval v *
        ∑ j, diffuse nu d T s B j * (Polynomial.derivative (xi a b j.val)).eval v))) s := by
  have hf : (fun s => diffuse nu d T s B m) = fun s => ∑ j, d.V m j * (Real.exp (nu * T * s * d.lam j) * (d.Vᵀ *ᵥ B) j) := by
    funext s; rw [diffuse_eq hd]; rfl
  have hr : -(nu * T * (1 / (b - a) * ∫ v in a..b, (Polynomial.derivative (xi a b m.val)).eval v *
        ∑ j, diffuse nu d T s B j * (Polynomial.derivative (xi a b j.val)).eval v)) =
      ∑ j, d.V m j * (nu * T * d.lam j * (Real.exp (nu * T * s * d.lam j) * (d.Vᵀ *ᵥ B) j)) := by
    have := diffusion_weak a b h m (diffuse nu d T s B)
    rw [neg_mul_eq_mul_neg, ← this, hd.2, ← Matrix.mulVec_mulVec, ← Matrix.mulVec_mulVec, Matrix.mulVec, dotProduct, mul_sum]
    refine sum_congr rfl fun j _ => ?_
    rw [Matrix.mulVec_diagonal, diffuse_modal hd]
    ring
  rw [hf, hr]
  refine HasDerivAt.fun_sum fun j _ => ?_
  have h0 : HasDerivAt (fun s : ℝ => nu * T * s * d.lam j) (nu * T * d.lam j) s :=
    (((hasDerivAt_id s).const_mul (nu * T)).mul_const (d.lam j)).congr_deriv (by ring)
  exact ((h0.exp.mul_const _).const_mul _).congr_deriv (by ring)

/-- never increases the norm, -/
theorem diffuse_contracts (hd : IsEigh d (diffusion nl a b)) {nu T s : ℝ} (hs : 0 ≤ nu * T * s) (B : Fin nl → ℝ) :
    ∑ m, diffuse nu d T s B m ^ 2 ≤ ∑ m, B m ^ 2 := by
  rw [← norm_modal hd, ← norm_modal hd B]
  refine sum_le_sum fun j _ => ?_
  rw [diffuse_modal hd, mul_pow]
  have h1 : Real.exp (nu * T * s * d.lam j) ≤ 1 := Real.exp_le_one_iff.mpr (mul_nonpos_of_nonneg_of_nonpos hs (diffusion_eigenvalues hd j))
  have h2 := Real.exp_pos (nu * T * s * d.lam j)
  have : Real.exp (nu * T * s * d.lam j) ^ 2 ≤ 1 := by nlinarith
  nlinarith [sq_nonneg ((d.Vᵀ *ᵥ B) j)]

/-- and keeps the density. -/
theorem diffuse_density [NeZero nl] (hd : IsEigh d (diffusion nl a b)) (nu T s : ℝ) (B : Fin nl → ℝ) : diffuse nu d T s B 0 = B 0 := by
  have hV : d.Vᵀ * d.V = 1 := mul_eq_one_comm.mp hd.1
  have hrow : ∀ j, d.V 0 j * d.lam j = 0 := by
    intro j
    have h1 : diffusion nl a b * d.V = d.V * Matrix.diagonal d.lam := by
      rw [hd.2, Matrix.mul_assoc, hV, Matrix.mul_one]
    have h2 := congrFun (congrFun h1 0) j
    rw [Matrix.mul_diagonal] at h2
    rw [← h2, Matrix.mul_apply]
    refine sum_eq_zero fun i _ => ?_
    have : diffusion nl a b 0 i = 0 := by
      rw [diffusion, Matrix.neg_apply, Matrix.mul_apply, neg_eq_zero]
      refine sum_eq_zero fun k _ => ?_
      rw [deriv, if_neg (fun e => absurd e.1 (by simp)), zero_mul]
    rw [this, zero_mul]
  have hB : B 0 = ∑ j, d.V 0 j * (d.Vᵀ *ᵥ B) j := by
    have : B = d.V *ᵥ (d.Vᵀ *ᵥ B) := by rw [Matrix.mulVec_mulVec, hd.1, Matrix.one_mulVec]
    conv_lhs => rw [this]
    rfl
  rw [diffuse_eq hd, hB, Matrix.mulVec, dotProduct]
  refine sum_congr rfl fun j _ => ?_
  rcases mul_eq_zero.mp (hrow j) with h0 | h0
  · rw [h0]; ring
  · rw [h0]; simp

theorem diffuse_zero (nu T s : ℝ) : diffuse nu d T s (0 : Fin nl → ℝ) = 0 := by
  funext m; simp [diffuse]

/-! ### The whole map -/

variable [NeZero nh] [NeZero nl]

/-- The Dougherty map keeps a Maxwellian without Legendre part, for any time. -/
theorem dougherty_fixed (hh : 3 ≤ nh) (hl : 3 ≤ nl) (p : Params) (ha : 0 < p.alpha) (hw : a < b) (s n U T : ℝ) (hs : 0 ≤ p.nu * s) (hp : 0 < p.minT)
    (hn : 1e-14 ≤ n) (hT : p.minT ≤ T) :
    doughertyAt p (momentMatrix p.alpha p.u (TL nl a b) (b - a)) a b d s (maxwellCoef nh p.alpha p.u n U T) (0 : Fin nl → ℝ) =
      (maxwellCoef nh p.alpha p.u n U T, 0) := by
  obtain ⟨f, hf⟩ : ∃ f, f = dist p.alpha p.u a b (maxwellCoef nh p.alpha p.u n U T) (0 : Fin nl → ℝ) := ⟨_, rfl⟩
  obtain ⟨t0, t1, t2⟩ := moments_are_integrals hh hl ha p.u a b hw (maxwellCoef nh p.alpha p.u n U T) (0 : Fin nl → ℝ)
  obtain ⟨g0, g1, g2⟩ := maxwell_moments hh hl ha p.u a b n U T (hp.trans_le hT)
  rw [← hf] at t0 t1 t2
  have hn0 : n ≠ 0 := by intro h; rw [h] at hn; norm_num at hn
  have e0 : densityInt f = n := by rw [← t0, g0]
  have e1 : meanInt f = U := by rw [meanInt, e0, ← t1, g1]; field_simp
  have e2 : tempInt f = T := by rw [tempInt, e1, e0, ← t2, g2]; field_simp; ring
  have hr : Regular p.minT f := ⟨hp, by rw [e0]; exact hn, by rw [e2]; exact hT⟩
  obtain ⟨f0, f1, f2⟩ := floors hr t0 t1 t2
  rw [e1] at f1
  rw [e2] at f2
  rw [doughertyAt]
  simp only [f1, f2, diffuse_zero, drift_zero p.nu a b U s hw hs]
  rw [ou_maxwell p ha n U T s (hp.trans_le hT), restore_noop _ _ _ _ _ rfl]

/-- Before the moments are restored the Dougherty map is the symmetric composition of the exact diffusion, the midpoint drift and the exact diffusion
on the Legendre part, and the exact Ornstein-Uhlenbeck flow on the Hermite part, all with the mean velocity and temperature of the whole distribution;
and only the first three Hermite coefficients are then changed. -/
theorem dougherty_parts (hh : 3 ≤ nh) (hl : 3 ≤ nl) (p : Params) (ha : 0 < p.alpha) (hw : a < b) (s : ℝ) (C : Fin nh → ℝ) (B : Fin nl → ℝ)
    (f : ℝ → ℝ) (hf : f = dist p.alpha p.u a b C B) (hr : Regular p.minT f)
    (q : (Fin nh → ℝ) × (Fin nl → ℝ)) (hq : q = doughertyAt p (momentMatrix p.alpha p.u (TL nl a b) (b - a)) a b d s C B) :
    (∀ i : Fin nh, 3 ≤ i.val → q.1 i = ouHermite p (meanInt f) (tempInt f) s C i) ∧
    q.2 = diffuse p.nu d (tempInt f) (s / 2) (driftStep p.nu a b (meanInt f) s (diffuse p.nu d (tempInt f) (s / 2) B)) ∧
    densityInt (dist p.alpha p.u a b q.1 q.2) = densityInt f ∧ momentumInt (dist p.alpha p.u a b q.1 q.2) = momentumInt f ∧
    energyInt (dist p.alpha p.u a b q.1 q.2) = energyInt f := by
  obtain ⟨t0, t1, t2⟩ := moments_are_integrals hh hl ha p.u a b hw C B
  obtain ⟨s0, s1, s2⟩ := moments_are_integrals hh hl ha p.u a b hw q.1 q.2
  rw [← hf] at t0 t1 t2
  obtain ⟨f0, f1, f2⟩ := floors hr t0 t1 t2
  have hmo : momentMatrix p.alpha p.u (TL nl a b) (b - a) *ᵥ low q.1 q.2 = momentMatrix p.alpha p.u (TL nl a b) (b - a) *ᵥ low C B := by
    rw [hq]; exact restore_moments hh _ (block_det _ _ _ ha _) _ _ _ _
  rw [hmo] at s0 s1 s2
  rw [doughertyAt] at hq
  simp only [f1, f2] at hq
  have h05 : (0.5 : ℝ) * s = s / 2 := by norm_num; ring
  rw [h05] at hq
  refine ⟨fun i hi => ?_, ?_, by rw [← s0, t0], by rw [← s1, t1], by rw [← s2, t2]⟩
  · rw [hq]
    simp only [restore]
    rw [dif_neg (by omega), add_zero]
  · rw [hq]; rfl

example : ∃ d : Eigh 5, IsEigh d (diffusion 5 2 6) ∧ ∀ B, diffuse 1 d 1 (1 / 10) B 0 = B 0 := by
  obtain ⟨d, hd⟩ := eigh_symm _ (diffusion_symm (nl := 5) 2 6)
  exact ⟨d, hd, fun B => diffuse_density hd _ _ _ B⟩

end Verif.HermiteLegendre
