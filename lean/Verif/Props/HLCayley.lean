import Verif.Props.HLForce
import Mathlib.LinearAlgebra.Matrix.SchurComplement

/-!
C119: the implicit force solves of the mixed solver.
-/
namespace Verif.HermiteLegendre
open Finset Complex Verif.Spectral Verif.Hermite
open scoped Matrix ComplexConjugate

variable {N : ℕ} [NeZero N] {nh nl n : ℕ}

/-- One plus a strictly lower triangular matrix has determinant one. -/
theorem det_unit_lower {R : Type*} [CommRing R] (A : Matrix (Fin n) (Fin n) R) (h : ∀ i j : Fin n, i ≤ j → A i j = 0) : (1 + A).det = 1 := by
  rw [Matrix.det_of_lowerTriangular]
  · refine prod_eq_one fun i _ => ?_
    rw [Matrix.add_apply, Matrix.one_apply_eq, h i i le_rfl, add_zero]
  · intro i j hij
    have hij' : i < j := hij
    rw [Matrix.add_apply, Matrix.one_apply_ne hij'.ne, h i j hij'.le, add_zero]

theorem GC_lower (alpha : ℝ) (i j : Fin nh) (h : i ≤ j) : GC nh alpha i j = 0 := by
  rw [GC, if_neg (by have : i.val ≤ j.val := h; omega)]

theorem deriv_lower (a b : ℝ) (i j : Fin nl) (h : i ≤ j) : deriv nl a b i j = 0 := by
  rw [deriv, if_neg (by have : i.val ≤ j.val := h; omega)]

/-- The Hermite solves always have exactly one solution. -/
theorem hermite_solvable (alpha : ℝ) (s : ℂ) : (1 - s • (GC nh alpha).map ofReal).det = 1 := by
  rw [sub_eq_add_neg]
  refine det_unit_lower _ fun i j hij => ?_
  simp [GC_lower alpha i j hij]

theorem legendre_lower_solvable (a b : ℝ) (s : ℂ) : (1 + s • (deriv nl a b).map ofReal : Matrix (Fin nl) (Fin nl) ℂ).det = 1 := by
  refine det_unit_lower _ fun i j hij => ?_
  simp [deriv_lower a b i j hij]

theorem GCc_mulVec (alpha : ℝ) (C : Fin nh → ℂ) (i : Fin nh) :
    ((GC nh alpha).map ofReal *ᵥ C) i = if h : i.val = 0 then 0 else ((-Real.sqrt (2 * i.val) / alpha : ℝ) : ℂ) * C ⟨i.val - 1, by omega⟩ := by
  simp only [Matrix.mulVec, dotProduct, GC, Matrix.map_apply]
  by_cases h : i.val = 0
  · rw [dif_pos h]
    refine sum_eq_zero fun j _ => ?_
    rw [if_neg (by omega), ofReal_zero, zero_mul]
  · rw [dif_neg h, sum_eq_single ⟨i.val - 1, by omega⟩]
    · rw [if_pos (by dsimp only; omega)]
    · intro j _ hj
      rw [if_neg (fun h' => hj (Fin.ext (by dsimp only; omega))), ofReal_zero, zero_mul]
    · intro h; exact absurd (mem_univ _) h

variable [NeZero nh] [NeZero nl]

omit [NeZero nl] in
/-- The scan over the Hermite coefficients solves the implicit midpoint equation. -/
theorem cayley_hermite (alpha s : ℝ) (C : Fin nh → ℂ) :
    (1 - (s : ℂ) • (GC nh alpha).map ofReal) *ᵥ (fun i => cayleyH alpha s C i.val) = (1 + (s : ℂ) • (GC nh alpha).map ofReal) *ᵥ C := by
  funext i
  rw [Matrix.sub_mulVec, Matrix.add_mulVec, Matrix.one_mulVec, Matrix.one_mulVec, Matrix.smul_mulVec, Matrix.smul_mulVec]
  simp only [Pi.sub_apply, Pi.add_apply, Pi.smul_apply, smul_eq_mul]
  rw [GCc_mulVec, GCc_mulVec]
  by_cases h : i.val = 0
  · rw [dif_pos h, dif_pos h, h, cayleyH]
    have : i = 0 := Fin.ext (by rw [h]; rfl)
    rw [this]; ring
  · rw [dif_neg h, dif_neg h]
    obtain ⟨m, hm⟩ : ∃ m, i.val = m + 1 := ⟨i.val - 1, by omega⟩
    have hlt : m + 1 < nh := by have := i.2; omega
    have e2 : (⟨i.val - 1, by omega⟩ : Fin nh) = ⟨m, by omega⟩ := Fin.ext (by dsimp only; omega)
    have e3 : (⟨m + 1, hlt⟩ : Fin nh) = i := Fin.ext hm.symm
    rw [e2, hm, cayleyH, dif_pos hlt, e3]
    push_cast
    ring

/-- The contract of `eigh` for `i G_B`. -/
def IsSkewEigh (d : SkewEigh nl) (G : Matrix (Fin nl) (Fin nl) ℝ) : Prop :=
  d.W * d.Wᴴ = 1 ∧ I • G.map ofReal = d.W * Matrix.diagonal (fun j => (d.lam j : ℂ)) * d.Wᴴ

omit [NeZero nl] in
/-- It can be met when the matrix is skew. -/
theorem skew_exists (G : Matrix (Fin nl) (Fin nl) ℝ) (h : ∀ i j, G i j = -G j i) : ∃ d, IsSkewEigh d G := by
  have hh : (I • G.map ofReal : Matrix (Fin nl) (Fin nl) ℂ).IsHermitian := by
    ext i j
    simp only [Matrix.conjTranspose_apply, Matrix.smul_apply, Matrix.map_apply, smul_eq_mul, RCLike.star_def, map_mul, conj_I, conj_ofReal]
    rw [h j i]; push_cast; ring
  have hU := hh.eigenvectorUnitary.2
  rw [Matrix.mem_unitaryGroup_iff] at hU
  refine ⟨⟨hh.eigenvectorUnitary, hh.eigenvalues⟩, ?_, ?_⟩
  · exact hU
  · have := hh.spectral_theorem
    rw [Unitary.conjStarAlgAut_apply] at this
    exact this

omit [NeZero nl] in
/-- The branch with eigenvectors solves the implicit midpoint equation and keeps the sum of squares. -/
theorem cayley_skew {d : SkewEigh nl} {G : Matrix (Fin nl) (Fin nl) ℝ} (hd : IsSkewEigh d G) (s : ℝ) (B : Fin nl → ℂ) :
    (1 - (s : ℂ) • G.map ofReal) *ᵥ cayleySkew d s B = (1 + (s : ℂ) • G.map ofReal) *ᵥ B ∧
    ∑ m, normSq (cayleySkew d s B m) = ∑ m, normSq (B m) := by
  obtain ⟨h1, h2⟩ := hd
  have h1' : d.Wᴴ * d.W = 1 := mul_eq_one_comm.mp h1
  have hG : (G.map ofReal : Matrix (Fin nl) (Fin nl) ℂ) = d.W * Matrix.diagonal (fun j => -I * (d.lam j : ℂ)) * d.Wᴴ := by
    have h3 : (-I) • (I • G.map ofReal : Matrix (Fin nl) (Fin nl) ℂ) = G.map ofReal := by
      rw [smul_smul, neg_mul, I_mul_I, neg_neg, one_smul]
    rw [← h3, h2, ← Matrix.smul_mul, ← Matrix.mul_smul]
    congr 2
    ext i j; by_cases hij : i = j
    · subst hij; simp
    · simp [hij]
  have hne : ∀ j, (1 + I * (d.lam j : ℂ) * (s : ℂ)) ≠ 0 := by
    intro j h0
    have := congrArg Complex.re h0
    simp at this
  have hc : cayleySkew d s B = d.W *ᵥ (Matrix.diagonal (fun j => (1 - I * (d.lam j : ℂ) * (s : ℂ)) / (1 + I * (d.lam j : ℂ) * (s : ℂ))) *ᵥ (d.Wᴴ *ᵥ B)) := by
    rw [cayleySkew]; congr 1; funext j; rw [Matrix.mulVec_diagonal]
  have hone : ∀ g : Fin nl → ℂ, (1 : Matrix (Fin nl) (Fin nl) ℂ) + d.W * Matrix.diagonal g * d.Wᴴ = d.W * Matrix.diagonal (fun j => 1 + g j) * d.Wᴴ := by
    intro g
    have : Matrix.diagonal (fun j => 1 + g j) = (1 : Matrix (Fin nl) (Fin nl) ℂ) + Matrix.diagonal g := by
      rw [← Matrix.diagonal_one, Matrix.diagonal_add]
    rw [this, Matrix.mul_add, Matrix.add_mul, Matrix.mul_one, h1]
  have hsG : ∀ z : ℂ, z • (G.map ofReal : Matrix (Fin nl) (Fin nl) ℂ) = d.W * Matrix.diagonal (fun j => z * (-I * (d.lam j : ℂ))) * d.Wᴴ := by
    intro z
    rw [hG, ← Matrix.smul_mul, ← Matrix.mul_smul]
    congr 2
    ext i j; by_cases hij : i = j
    · subst hij; simp
    · simp [hij]
  constructor
  · rw [hc, sub_eq_add_neg, ← neg_smul, hsG, hsG, hone, hone]
    simp only [Matrix.mulVec_mulVec]
    congr 1
    calc d.W * Matrix.diagonal (fun j => 1 + -(s : ℂ) * (-I * (d.lam j : ℂ))) * d.Wᴴ *
          (d.W * (Matrix.diagonal (fun j => (1 - I * (d.lam j : ℂ) * (s : ℂ)) / (1 + I * (d.lam j : ℂ) * (s : ℂ))) * d.Wᴴ))
        = d.W * Matrix.diagonal (fun j => 1 + -(s : ℂ) * (-I * (d.lam j : ℂ))) * (d.Wᴴ * d.W) *
          Matrix.diagonal (fun j => (1 - I * (d.lam j : ℂ) * (s : ℂ)) / (1 + I * (d.lam j : ℂ) * (s : ℂ))) * d.Wᴴ := by simp only [Matrix.mul_assoc]
      _ = _ := by
        rw [h1', Matrix.mul_one, Matrix.mul_assoc d.W, Matrix.diagonal_mul_diagonal]
        congr 3
        funext j
        have := hne j
        rw [show (1 + -(s : ℂ) * (-I * (d.lam j : ℂ))) = 1 + I * (d.lam j : ℂ) * (s : ℂ) by ring, mul_div_cancel₀ _ this]; ring
  · have hsq : ∀ v : Fin nl → ℂ, ((∑ i, normSq (v i) : ℝ) : ℂ) = star v ⬝ᵥ v := by
      intro v; simp only [dotProduct, Pi.star_apply, ofReal_sum, normSq_eq_conj_mul_self]; rfl
    apply ofReal_injective
    rw [hsq, hsq, hc]
    obtain ⟨P, hP⟩ : ∃ P : Matrix (Fin nl) (Fin nl) ℂ, P = d.W * (Matrix.diagonal (fun j => (1 - I * (d.lam j : ℂ) * (s : ℂ)) / (1 + I * (d.lam j : ℂ) * (s : ℂ))) * d.Wᴴ) := ⟨_, rfl⟩
    have hPP : Pᴴ * P = 1 := by
      rw [hP, Matrix.conjTranspose_mul, Matrix.conjTranspose_mul, Matrix.conjTranspose_conjTranspose, Matrix.diagonal_conjTranspose]
      calc _ = d.W * Matrix.diagonal (star fun j => (1 - I * (d.lam j : ℂ) * (s : ℂ)) / (1 + I * (d.lam j : ℂ) * (s : ℂ))) * (d.Wᴴ * d.W) *
            Matrix.diagonal (fun j => (1 - I * (d.lam j : ℂ) * (s : ℂ)) / (1 + I * (d.lam j : ℂ) * (s : ℂ))) * d.Wᴴ := by simp only [Matrix.mul_assoc]
        _ = _ := by
          rw [h1', Matrix.mul_one, Matrix.mul_assoc d.W, Matrix.diagonal_mul_diagonal]
          have : (fun j => (star fun j => (1 - I * (d.lam j : ℂ) * (s : ℂ)) / (1 + I * (d.lam j : ℂ) * (s : ℂ))) j *
              ((1 - I * (d.lam j : ℂ) * (s : ℂ)) / (1 + I * (d.lam j : ℂ) * (s : ℂ)))) = fun _ : Fin nl => (1 : ℂ) := by
            funext j
            have h3 := hne j
            have h4 : (1 - I * (d.lam j : ℂ) * (s : ℂ)) ≠ 0 := by
              intro h0
              have := congrArg Complex.re h0
              simp at this
            simp only [Pi.star_apply, RCLike.star_def, map_div₀, map_sub, map_add, map_one, map_mul, conj_I, conj_ofReal]
            rw [show (1 : ℂ) - -I * (d.lam j : ℂ) * (s : ℂ) = 1 + I * (d.lam j : ℂ) * (s : ℂ) by ring,
              show (1 : ℂ) + -I * (d.lam j : ℂ) * (s : ℂ) = 1 - I * (d.lam j : ℂ) * (s : ℂ) by ring]
            field_simp
          rw [this, Matrix.diagonal_one, Matrix.mul_one, h1]
    have e : d.W *ᵥ (Matrix.diagonal (fun j => (1 - I * (d.lam j : ℂ) * (s : ℂ)) / (1 + I * (d.lam j : ℂ) * (s : ℂ))) *ᵥ (d.Wᴴ *ᵥ B)) = P *ᵥ B := by
      rw [Matrix.mulVec_mulVec, Matrix.mulVec_mulVec, hP, Matrix.mul_assoc]
    rw [e, Matrix.star_mulVec, ← Matrix.dotProduct_mulVec, Matrix.mulVec_mulVec, hPP, Matrix.one_mulVec]

omit [NeZero nl] in
theorem GB_mulVec (a b : ℝ) (gamma : Fin nl → ℝ) (B : Fin nl → ℂ) (m : Fin nl) :
    ((GB a b gamma).map ofReal *ᵥ B) m = ((gamma m / (b - a) : ℝ) : ℂ) * ((xiB m.val : ℂ) * ((fun j : Fin nl => (xiB j.val : ℂ)) ⬝ᵥ B)
      - (xiA m.val : ℂ) * ((fun j : Fin nl => (xiA j.val : ℂ)) ⬝ᵥ B)) - ((deriv nl a b).map ofReal *ᵥ B) m := by
  simp only [Matrix.mulVec, dotProduct, Matrix.map_apply, GB]
  rw [mul_sum, mul_sum, ← sum_sub_distrib, mul_sum, ← sum_sub_distrib]
  refine sum_congr rfl fun j _ => ?_
  push_cast; ring

omit [NeZero nl] in
/-- The low-rank branch solves the same equation, whenever it has a unique solution. -/
theorem cayley_woodbury (a b : ℝ) (gamma : Fin nl → ℝ) (s : ℝ) (hs : (1 - (s : ℂ) • (GB a b gamma).map ofReal : Matrix (Fin nl) (Fin nl) ℂ).det ≠ 0) (B : Fin nl → ℂ) :
    (1 - (s : ℂ) • (GB a b gamma).map ofReal) *ᵥ cayleyWoodbury a b gamma s B = (1 + (s : ℂ) • (GB a b gamma).map ofReal) *ᵥ B := by
  obtain ⟨D, hD⟩ : ∃ D : Matrix (Fin nl) (Fin nl) ℂ, D = (deriv nl a b).map ofReal := ⟨_, rfl⟩
  obtain ⟨g, hg⟩ : ∃ g : Fin nl → ℂ, g = fun m => ((gamma m / (b - a) : ℝ) : ℂ) := ⟨_, rfl⟩
  obtain ⟨xb, hxb⟩ : ∃ x : Fin nl → ℂ, x = fun m => (xiB m.val : ℂ) := ⟨_, rfl⟩
  obtain ⟨xa, hxa⟩ : ∃ x : Fin nl → ℂ, x = fun m => (xiA m.val : ℂ) := ⟨_, rfl⟩
  obtain ⟨A, hA⟩ : ∃ A : Matrix (Fin nl) (Fin nl) ℂ, A = 1 + (s : ℂ) • D := ⟨_, rfl⟩
  obtain ⟨U, hU⟩ : ∃ U : Matrix (Fin nl) (Fin 2) ℂ, U = fun m => ![-(s : ℂ) * (g m * xb m), (s : ℂ) * (g m * xa m)] := ⟨_, rfl⟩
  obtain ⟨V, hV⟩ : ∃ V : Matrix (Fin 2) (Fin nl) ℂ, V = ![xb, xa] := ⟨_, rfl⟩
  obtain ⟨r, hr⟩ : ∃ r : Fin nl → ℂ, r = fun m => B m + (s : ℂ) * (g m * (xb m * (xb ⬝ᵥ B) - xa m * (xa ⬝ᵥ B)) - (D *ᵥ B) m) := ⟨_, rfl⟩
  have hdA : A.det = 1 := by rw [hA, hD]; exact legendre_lower_solvable a b s
  have hAu : IsUnit A.det := by rw [hdA]; exact isUnit_one
  have hL : (1 - (s : ℂ) • (GB a b gamma).map ofReal : Matrix (Fin nl) (Fin nl) ℂ) = A + U * V := by
    ext i j
    have huv : (U * V) i j = -(s : ℂ) * (g i * xb i) * xb j + (s : ℂ) * (g i * xa i) * xa j := by
      rw [Matrix.mul_apply, Fin.sum_univ_two, hU, hV]; rfl
    rw [Matrix.add_apply, huv, hA, hD, hg, hxb, hxa]
    simp only [Matrix.sub_apply, Matrix.add_apply, Matrix.smul_apply, Matrix.map_apply, smul_eq_mul, GB]
    push_cast
    ring
  have hR : (1 + (s : ℂ) • (GB a b gamma).map ofReal : Matrix (Fin nl) (Fin nl) ℂ) *ᵥ B = r := by
    funext m
    rw [Matrix.add_mulVec, Matrix.one_mulVec, Matrix.smul_mulVec, hr]
    simp only [Pi.add_apply, Pi.smul_apply, smul_eq_mul]
    rw [GB_mulVec, hg, hxb, hxa, hD]
  have hM : IsUnit (1 + V * (A⁻¹ * U)).det := by
    rw [isUnit_iff_ne_zero]
    rw [hL, Matrix.det_add_mul _ _ hAu, hdA, one_mul, Matrix.mul_assoc] at hs
    exact hs
  have hX : cayleyWoodbury a b gamma s B = A⁻¹ *ᵥ r - (A⁻¹ * U) *ᵥ ((1 + V * (A⁻¹ * U))⁻¹ *ᵥ (V *ᵥ (A⁻¹ *ᵥ r))) := by
    rw [hr, hA, hU, hV, hg, hxb, hxa, hD]; rfl
  rw [hR, hX, hL]
  obtain ⟨z, hz⟩ : ∃ z, z = A⁻¹ *ᵥ r := ⟨_, rfl⟩
  obtain ⟨w, hw⟩ : ∃ w, w = (1 + V * (A⁻¹ * U))⁻¹ *ᵥ (V *ᵥ z) := ⟨_, rfl⟩
  rw [← hz, ← hw]
  have h1 : A *ᵥ z = r := by rw [hz, Matrix.mulVec_mulVec, Matrix.mul_nonsing_inv _ hAu, Matrix.one_mulVec]
  have h2 : w + (V * (A⁻¹ * U)) *ᵥ w = V *ᵥ z := by
    have : (1 + V * (A⁻¹ * U)) *ᵥ w = V *ᵥ z := by rw [hw, Matrix.mulVec_mulVec, Matrix.mul_nonsing_inv _ hM, Matrix.one_mulVec]
    rwa [Matrix.add_mulVec, Matrix.one_mulVec] at this
  have h3 : A *ᵥ ((A⁻¹ * U) *ᵥ w) = U *ᵥ w := by rw [Matrix.mulVec_mulVec, ← Matrix.mul_assoc, Matrix.mul_nonsing_inv _ hAu, Matrix.one_mul]
  have h4 : (U * V) *ᵥ (z - (A⁻¹ * U) *ᵥ w) = U *ᵥ w := by
    rw [← Matrix.mulVec_mulVec, Matrix.mulVec_sub, Matrix.mulVec_mulVec w V (A⁻¹ * U)]
    congr 1
    rw [← h2]; abel
  rw [Matrix.add_mulVec, h4, Matrix.mulVec_sub, h1, h3]; abel

/-- The force substep of the split integrator: the implicit midpoint rule at every position for both expansions, between the masks. -/
theorem force_midpoint (p : Setup nh nl N) (hk : ∀ d, p.skew = some d → IsSkewEigh d (GB p.a p.b p.gamma)) (E : ZMod N → ℝ)
    (hs : p.skew = none → ∀ x, (1 - ((0.5 * p.dt * E x : ℝ) : ℂ) • (GB p.a p.b p.gamma).map ofReal : Matrix (Fin nl) (Fin nl) ℂ).det ≠ 0) (c : Cs nh nl N) :
    ∃ (f : ZMod N → Fin nh → ℂ) (g : ZMod N → Fin nl → ℂ),
      (∀ i, (p.forceCayley E c).1 i = masked p.mask (toK fun x => f x i)) ∧ (∀ m, (p.forceCayley E c).2 m = masked p.mask (toK fun x => g x m)) ∧
      ∀ x, f x = (fun j => toX (masked p.mask (c.1 j)) x) + ((p.dt * E x : ℝ) : ℂ) • ((GC nh p.alpha).map ofReal *ᵥ ((1 / 2 : ℂ) • (f x + fun j => toX (masked p.mask (c.1 j)) x))) ∧
        g x = (fun j => toX (masked p.mask (c.2 j)) x) + ((p.dt * E x : ℝ) : ℂ) • ((GB p.a p.b p.gamma).map ofReal *ᵥ ((1 / 2 : ℂ) • (g x + fun j => toX (masked p.mask (c.2 j)) x))) := by
  have mid : ∀ {n : ℕ} (G : Matrix (Fin n) (Fin n) ℂ) (s : ℝ) (X Y : Fin n → ℂ),
      (1 - ((0.5 * s : ℝ) : ℂ) • G) *ᵥ Y = (1 + ((0.5 * s : ℝ) : ℂ) • G) *ᵥ X → Y = X + (s : ℂ) • (G *ᵥ ((1 / 2 : ℂ) • (Y + X))) := by
    intro n G s X Y h
    rw [Matrix.sub_mulVec, Matrix.add_mulVec, Matrix.one_mulVec, Matrix.one_mulVec, Matrix.smul_mulVec, Matrix.smul_mulVec] at h
    rw [Matrix.mulVec_smul, Matrix.mulVec_add]
    funext i
    have := congrFun h i
    simp only [Pi.sub_apply, Pi.add_apply, Pi.smul_apply, smul_eq_mul] at this ⊢
    push_cast at this
    linear_combination this
  refine ⟨fun x i => cayleyH p.alpha (0.5 * p.dt * E x) (fun j => toX (masked p.mask (c.1 j)) x) i.val,
    fun x => p.cayleyL (0.5 * p.dt * E x) (fun j => toX (masked p.mask (c.2 j)) x), fun i => rfl, fun m => rfl, fun x => ⟨?_, ?_⟩⟩
  · refine mid _ _ _ _ ?_
    rw [← mul_assoc]
    exact cayley_hermite _ _ _
  · refine mid _ _ _ _ ?_
    rw [← mul_assoc]
    unfold Setup.cayleyL
    rcases hsk : p.skew with _ | d
    · exact cayley_woodbury _ _ _ _ (hs hsk x) _
    · exact (cayley_skew (hk d hsk) _ _).1

omit [NeZero nh] [NeZero nl] in
/-- The implicit substep of the other integrator: backward Euler. -/
theorem implicit_euler (p : Setup nh nl N) (E : ZMod N → ℝ)
    (hs : ∀ x, (1 - ((p.dt * E x : ℝ) : ℂ) • (GB p.a p.b p.gamma).map ofReal : Matrix (Fin nl) (Fin nl) ℂ).det ≠ 0) (c : Cs nh nl N) :
    ∃ (f : ZMod N → Fin nh → ℂ) (g : ZMod N → Fin nl → ℂ),
      (∀ i, (p.implicitE E c).1 i = masked p.mask (toK fun x => f x i)) ∧ (∀ m, (p.implicitE E c).2 m = masked p.mask (toK fun x => g x m)) ∧
      ∀ x, f x = (fun j => toX (masked p.mask (c.1 j)) x) + ((p.dt * E x : ℝ) : ℂ) • ((GC nh p.alpha).map ofReal *ᵥ f x) ∧
        g x = (fun j => toX (masked p.mask (c.2 j)) x) + ((p.dt * E x : ℝ) : ℂ) • ((GB p.a p.b p.gamma).map ofReal *ᵥ g x) := by
  have eu : ∀ {n : ℕ} (G : Matrix (Fin n) (Fin n) ℂ) (s : ℂ) (X : Fin n → ℂ), (1 - s • G).det ≠ 0 →
      (1 - s • G)⁻¹ *ᵥ X = X + s • (G *ᵥ ((1 - s • G)⁻¹ *ᵥ X)) := by
    intro n G s X h
    have : (1 - s • G) *ᵥ ((1 - s • G)⁻¹ *ᵥ X) = X := by
      rw [Matrix.mulVec_mulVec, Matrix.mul_nonsing_inv _ (isUnit_iff_ne_zero.mpr h), Matrix.one_mulVec]
    nth_rewrite 1 [Matrix.sub_mulVec] at this
    rw [Matrix.one_mulVec, Matrix.smul_mulVec, sub_eq_iff_eq_add] at this
    exact this
  refine ⟨fun x => (1 - ((p.dt * E x : ℝ) : ℂ) • (GC nh p.alpha).map ofReal)⁻¹ *ᵥ fun j => toX (masked p.mask (c.1 j)) x,
    fun x => (1 - ((p.dt * E x : ℝ) : ℂ) • (GB p.a p.b p.gamma).map ofReal)⁻¹ *ᵥ fun j => toX (masked p.mask (c.2 j)) x, fun i => rfl, fun m => rfl, fun x => ⟨?_, ?_⟩⟩
  · exact eu _ _ _ (by rw [hermite_solvable]; exact one_ne_zero)
  · exact eu _ _ _ (hs x)

omit [NeZero nl] in
/-- With half the penalty on every coefficient every implicit solve has exactly one solution. -/
theorem half_solvable (a b : ℝ) (h : a < b) (s : ℝ) : (1 - (s : ℂ) • (GB (nl := nl) a b (fun _ => 1 / 2)).map ofReal : Matrix (Fin nl) (Fin nl) ℂ).det ≠ 0 := by
  obtain ⟨d, h1, h2⟩ := skew_exists (GB (nl := nl) a b fun _ => 1 / 2) (half_penalty_skew a b h)
  have hd : IsSkewEigh d (GB (nl := nl) a b fun _ => 1 / 2) := ⟨h1, h2⟩
  intro h0
  obtain ⟨v, hv, hv0⟩ := Matrix.exists_mulVec_eq_zero_iff.mpr h0
  -- v is a multiple of G v; the Cayley image of the opposite time kills it
  have hk := (cayley_skew hd (-s) v).1
  rw [ofReal_neg, neg_smul, sub_neg_eq_add, ← sub_eq_add_neg, hv0] at hk
  have hn := (cayley_skew hd (-s) v).2
  -- take the norm of (1 + s G) y = 0 with y = cayley v
  obtain ⟨y, hy⟩ : ∃ y, y = cayleySkew d (-s) v := ⟨_, rfl⟩
  rw [← hy] at hk hn
  have hr : ∀ (t : ℝ) (w : Fin nl → ℂ), (1 + (t : ℂ) • (GB (nl := nl) a b fun _ => 1 / 2).map ofReal) *ᵥ w = 0 → w = 0 := by
    intro t w hw
    have e : w = -((t : ℂ) • ((GB (nl := nl) a b fun _ => 1 / 2).map ofReal *ᵥ w)) := by
      rw [Matrix.add_mulVec, Matrix.one_mulVec, Matrix.smul_mulVec] at hw
      exact eq_neg_of_add_eq_zero_left hw
    have h3 : (∑ i, normSq (w i)) = 0 := by
      have hsq : ((∑ i, normSq (w i) : ℝ) : ℂ) = star w ⬝ᵥ w := by
        simp only [dotProduct, Pi.star_apply, ofReal_sum, normSq_eq_conj_mul_self]; rfl
      have hre : (star w ⬝ᵥ w).re = 0 := by
        nth_rewrite 2 [e]
        rw [dotProduct_neg, dotProduct_smul, smul_eq_mul]
        have : (star w ⬝ᵥ ((GB (nl := nl) a b fun _ => 1 / 2).map ofReal *ᵥ w)).re = 0 := by
          obtain ⟨Q, hQ⟩ : ∃ Q : ℝ, Q = (star w ⬝ᵥ ((GB (nl := nl) a b fun _ => 1 / 2).map ofReal *ᵥ w)).re := ⟨_, rfl⟩
          have e1 : (star w ⬝ᵥ ((GB (nl := nl) a b fun _ => 1 / 2).map ofReal *ᵥ w)).re = ∑ i, ∑ j, GB (nl := nl) a b (fun _ => 1 / 2) i j * (conj (w i) * w j).re := by
            simp only [dotProduct, Matrix.mulVec, Pi.star_apply, Matrix.map_apply, re_sum, mul_sum]
            refine sum_congr rfl fun i _ => sum_congr rfl fun j _ => ?_
            rw [show star (w i) * ((GB (nl := nl) a b (fun _ => 1 / 2) i j : ℂ) * w j) = (GB (nl := nl) a b (fun _ => 1 / 2) i j : ℂ) * (conj (w i) * w j) from by
              rw [show star (w i) = conj (w i) from rfl]; ring, re_ofReal_mul]
          have e2 : (∑ i, ∑ j, GB (nl := nl) a b (fun _ => 1 / 2) i j * (conj (w i) * w j).re) = -∑ i, ∑ j, GB (nl := nl) a b (fun _ => 1 / 2) i j * (conj (w i) * w j).re := by
            conv_lhs => rw [sum_comm]
            rw [← sum_neg_distrib]
            refine sum_congr rfl fun i _ => ?_
            rw [← sum_neg_distrib]
            refine sum_congr rfl fun j _ => ?_
            rw [half_penalty_skew a b h j i]
            have : (conj (w j) * w i).re = (conj (w i) * w j).re := by simp [mul_re]; ring
            rw [this]; ring
          rw [e1]; linarith
        rw [neg_re, re_ofReal_mul, this, mul_zero, neg_zero]
      rw [← hsq] at hre
      simpa using hre
    funext i
    have h4 := (sum_eq_zero_iff_of_nonneg fun i _ => normSq_nonneg (w i)).mp h3 i (mem_univ i)
    exact normSq_eq_zero.mp h4
  exact hv (hr (-s) v (by rw [ofReal_neg, neg_smul, ← sub_eq_add_neg]; exact hv0))

/-- Setups meeting the hypotheses of the force theorems exist with either branch. -/
example (s : ℝ) : (∃ d, IsSkewEigh d (GB (nl := 5) 2 6 fun _ => 1 / 2)) ∧
    (1 - (s : ℂ) • (GB (nl := 5) 2 6 fun _ => 1 / 2).map ofReal : Matrix (Fin 5) (Fin 5) ℂ).det ≠ 0 :=
  ⟨skew_exists _ (half_penalty_skew 2 6 (by norm_num)), half_solvable 2 6 (by norm_num) s⟩

end Verif.HermiteLegendre
