import Verif.Props.HLSplit
import Verif.Lemmas.ExpSeries

/-!
C121: the BGK collisions of the mixed solver.
-/
namespace Verif.HermiteLegendre
open Finset Complex Verif.Spectral Verif.Hermite MeasureTheory
open scoped Matrix ComplexConjugate

variable {N : ℕ} [NeZero N] {nh nl : ℕ} [NeZero nh] [NeZero nl]

/-! ### The coefficients of a Maxwellian -/

theorem maxwellian_bell {T : ℝ} (hT : 0 < T) (n U v : ℝ) : maxwellian n U T v = n / Real.sqrt (2 * T) * bell (Real.sqrt (2 * T)) U v := by
  have h2 : Real.sqrt (2 * Real.pi * T) = Real.sqrt (2 * T) * Real.sqrt Real.pi := by
    rw [← Real.sqrt_mul (by positivity)]; congr 1; ring
  have h3 : (Real.sqrt (2 * T)) ^ 2 = 2 * T := Real.sq_sqrt (by positivity)
  have hs : 0 < Real.sqrt (2 * T) := Real.sqrt_pos.mpr (by positivity)
  have hp : 0 < Real.sqrt Real.pi := Real.sqrt_pos.mpr Real.pi_pos
  rw [maxwellian, bell, h2, div_pow, h3, neg_div]
  field_simp

/-- `∫ h maxwellian` for polynomials `h`, as a linear map. -/
noncomputable def mint {T : ℝ} (hT : 0 < T) (n U : ℝ) : Polynomial ℝ →ₗ[ℝ] ℝ :=
  (n / Real.sqrt (2 * T)) • gint (alpha := Real.sqrt (2 * T)) (Real.sqrt_pos.mpr (by positivity)).ne' U

theorem mint_eq {T : ℝ} (hT : 0 < T) (n U : ℝ) (h : Polynomial ℝ) : mint hT n U h = ∫ v, h.eval v * maxwellian n U T v := by
  rw [mint, LinearMap.smul_apply, gint_def, smul_eq_mul, ← integral_const_mul]
  refine integral_congr_ae (Filter.Eventually.of_forall fun v => ?_)
  simp only [maxwellian_bell hT]; ring

theorem mint_C {T : ℝ} (hT : 0 < T) (n U c : ℝ) (h : Polynomial ℝ) : mint hT n U (Polynomial.C c * h) = c * mint hT n U h := by
  rw [← Polynomial.smul_eq_C_mul, map_smul, smul_eq_mul]

theorem mint_one {T : ℝ} (hT : 0 < T) (n U : ℝ) : mint hT n U 1 = n := by
  have hs : 0 < Real.sqrt (2 * T) := Real.sqrt_pos.mpr (by positivity)
  rw [mint, LinearMap.smul_apply, gint_one, abs_of_pos hs, smul_eq_mul]; field_simp

theorem mint_parts {T : ℝ} (hT : 0 < T) (n U : ℝ) (h : Polynomial ℝ) :
    mint hT n U ((Polynomial.X - Polynomial.C U) * h) = T * mint hT n U (Polynomial.derivative h) := by
  have hs : (Real.sqrt (2 * T)) ^ 2 = 2 * T := Real.sq_sqrt (by positivity)
  simp only [mint, LinearMap.smul_apply, smul_eq_mul]
  rw [gint_parts, hs]; ring

/-- The recurrence of the code gives the expansion of the Maxwellian: `C_i = 1/alpha ∫ h_i maxwellian`, all of it. -/
theorem maxwell_coefficients {alpha : ℝ} (ha : 0 < alpha) (u n U T : ℝ) (hT : 0 < T) (i : ℕ) :
    n / alpha * maxwell (Real.sqrt 2 * (U - u) / alpha) (T / alpha ^ 2 - 0.5) i = 1 / alpha * ∫ v, (basis alpha u i).eval v * maxwellian n U T v := by
  rw [← mint_eq hT]
  have h2 := two_sq
  have hs2 : Real.sqrt 2 ≠ 0 := (Real.sqrt_pos.mpr (by norm_num)).ne'
  -- the step of the true coefficients
  have step : ∀ k : ℕ, alpha * Real.sqrt (((k : ℝ) + 1) / 2) * mint hT n U (basis alpha u (k + 1)) =
      (U - u) * mint hT n U (basis alpha u k) + (T - alpha ^ 2 / 2) * mint hT n U (Polynomial.derivative (basis alpha u k)) := by
    intro k
    have e := congrArg (mint hT n U) (basis_mul alpha u ha.ne' k)
    rw [mint_C, map_sub, mint_C] at e
    have e2 : mint hT n U ((Polynomial.X - Polynomial.C u) * basis alpha u k) = T * mint hT n U (Polynomial.derivative (basis alpha u k)) + (U - u) * mint hT n U (basis alpha u k) := by
      have : (Polynomial.X - Polynomial.C u) * basis alpha u k = (Polynomial.X - Polynomial.C U) * basis alpha u k + Polynomial.C (U - u) * basis alpha u k := by
        rw [Polynomial.C_sub]; ring
      rw [this, map_add, mint_parts, mint_C]
    rw [e2] at e
    linear_combination e
  have hroot : ∀ k : ℕ, Real.sqrt (((k : ℝ) + 1) / 2) = Real.sqrt ((k : ℝ) + 1) / Real.sqrt 2 := fun k => Real.sqrt_div (by positivity) _
  induction i using Nat.strong_induction_on with
  | _ i ih =>
    match i with
    | 0 => rw [maxwell, basis_zero, mint_one]; ring
    | 1 =>
      have e := step 0
      rw [basis_zero, mint_one, Polynomial.derivative_one, map_zero, mul_zero, add_zero, hroot] at e
      have e' : mint hT n U (basis alpha u 1) = Real.sqrt 2 * (U - u) * n / alpha := by
        have : Real.sqrt (((0 : ℕ) : ℝ) + 1) = 1 := by simp
        rw [this] at e
        rw [eq_div_iff ha.ne']
        have h3 : alpha * (1 / Real.sqrt 2) * mint hT n U (basis alpha u (0 + 1)) * Real.sqrt 2 = mint hT n U (basis alpha u 1) * alpha := by
          field_simp
        rw [← h3, e]; ring
      rw [maxwell, e']; ring
    | i + 2 =>
      have e := step (i + 1)
      rw [basis_deriv, mint_C, hroot] at e
      have i1 := ih (i + 1) (by omega)
      have i0 := ih i (by omega)
      have h1 : Real.sqrt (((i : ℝ) + 1) / ((i : ℝ) + 2)) = Real.sqrt ((i : ℝ) + 1) / Real.sqrt ((i : ℝ) + 2) := Real.sqrt_div (by positivity) _
      have h4 : Real.sqrt (((i + 1 : ℕ) : ℝ) + 1) = Real.sqrt ((i : ℝ) + 2) := by push_cast; ring_nf
      rw [maxwell, h1]
      rw [h4] at e
      have hp : 0 < Real.sqrt ((i : ℝ) + 2) := Real.sqrt_pos.mpr (by positivity)
      generalize Real.sqrt ((i : ℝ) + 2) = r at *
      generalize Real.sqrt ((i : ℝ) + 1) = r1 at *
      generalize mint hT n U (basis alpha u (i + 1)) = m1 at *
      generalize mint hT n U (basis alpha u i) = m0 at *
      rw [show i + 1 + 1 = i + 2 from rfl] at e
      generalize mint hT n U (basis alpha u (i + 2)) = m2 at *
      generalize maxwell (Real.sqrt 2 * (U - u) / alpha) (T / alpha ^ 2 - 0.5) (i + 1) = x1 at *
      generalize maxwell (Real.sqrt 2 * (U - u) / alpha) (T / alpha ^ 2 - 0.5) i = x0 at *
      have hα := ha.ne'
      have hr := hp.ne'
      have hm : m2 = Real.sqrt 2 * (U - u) / (alpha * r) * m1 + 2 * (T / alpha ^ 2 - 1 / 2) * (r1 / r) * m0 := by
        have e3 : m2 = (Real.sqrt 2 / (alpha * r)) * (alpha * (r / Real.sqrt 2) * m2) := by field_simp
        rw [e3, e]
        have e4 : (T - alpha ^ 2 / 2) = alpha ^ 2 * (T / alpha ^ 2 - 1 / 2) := by field_simp
        rw [e4]
        have e5 : alpha ^ 2 * (1 / alpha) * (1 / alpha) = 1 := by field_simp
        linear_combination ((T / alpha ^ 2 - 1 / 2) * r1 / r * m0 * Real.sqrt 2 * Real.sqrt 2) * e5 + ((T / alpha ^ 2 - 1 / 2) * r1 / r * m0) * h2
      have j1 : m1 = n * x1 := by field_simp at i1; linarith
      have j0 : m0 = n * x0 := by field_simp at i0; linarith
      rw [hm, j1, j0]
      ring

/-! ### The operator at one position -/

/-- The Hermite coefficients of a Maxwellian. -/
noncomputable def maxwellCoef (nh : ℕ) (alpha u n U T : ℝ) (i : Fin nh) : ℝ := 1 / alpha * ∫ v, (basis alpha u i.val).eval v * maxwellian n U T v

/-- Density, momentum and energy of a Maxwellian, by the moment map. -/
theorem maxwell_moments (hh : 3 ≤ nh) (hl : 3 ≤ nl) {alpha : ℝ} (ha : 0 < alpha) (u a b n U T : ℝ) (hT : 0 < T) :
    (momentMatrix alpha u (TL nl a b) (b - a) *ᵥ low (maxwellCoef nh alpha u n U T) (0 : Fin nl → ℝ)) 0 = n ∧
    (momentMatrix alpha u (TL nl a b) (b - a) *ᵥ low (maxwellCoef nh alpha u n U T) (0 : Fin nl → ℝ)) 1 = n * U ∧
    (momentMatrix alpha u (TL nl a b) (b - a) *ᵥ low (maxwellCoef nh alpha u n U T) (0 : Fin nl → ℝ)) 2 = 1 / 2 * n * (T + U ^ 2) := by
  obtain ⟨m0, m1, m2⟩ := moments_low hh hl alpha u a b (maxwellCoef nh alpha u n U T) (0 : Fin nl → ℝ)
  have h0 : maxwellCoef nh alpha u n U T ⟨0, by omega⟩ = n / alpha := by
    rw [maxwellCoef, ← maxwell_coefficients ha u n U T hT, maxwell, mul_one]
  have h1 : maxwellCoef nh alpha u n U T ⟨1, by omega⟩ = n / alpha * (Real.sqrt 2 * (U - u) / alpha) := by
    rw [maxwellCoef, ← maxwell_coefficients ha u n U T hT, maxwell]
  have h2 : maxwellCoef nh alpha u n U T ⟨2, by omega⟩ = n / alpha * ((Real.sqrt 2 * (U - u) / alpha) ^ 2 / Real.sqrt 2 + 2 * (T / alpha ^ 2 - 1 / 2) / Real.sqrt 2) := by
    rw [maxwellCoef, ← maxwell_coefficients ha u n U T hT, maxwell, maxwell, maxwell]
    have e1 : Real.sqrt (((0 : ℕ) : ℝ) + 2) = Real.sqrt 2 := by norm_num
    have e2 : Real.sqrt ((((0 : ℕ) : ℝ) + 1) / (((0 : ℕ) : ℝ) + 2)) = 1 / Real.sqrt 2 := by
      rw [Real.sqrt_div (by norm_num)]; norm_num
    rw [e1, e2]; ring
  have hs : Real.sqrt 2 ^ 2 = 2 := Real.sq_sqrt (by norm_num)
  have hs0 : Real.sqrt 2 ≠ 0 := (Real.sqrt_pos.mpr (by norm_num)).ne'
  have ha' := ha.ne'
  rw [m0, m1, m2, h0, h1, h2]
  simp only [Pi.zero_apply, mul_zero, add_zero]
  refine ⟨by field_simp, by field_simp; ring, ?_⟩
  rw [div_pow, mul_pow, hs]
  field_simp
  rw [hs]
  ring

/-- Density, mean velocity and temperature of a distribution function. -/
noncomputable def meanInt (f : ℝ → ℝ) : ℝ := momentumInt f / densityInt f
noncomputable def tempInt (f : ℝ → ℝ) : ℝ := 2 * energyInt f / densityInt f - meanInt f ^ 2

/-- Where the floors of the code do not act. -/
structure Regular (minT : ℝ) (f : ℝ → ℝ) : Prop where
  pos : 0 < minT
  dens : 1e-14 ≤ densityInt f
  temp : minT ≤ tempInt f

theorem floors {minT : ℝ} {f : ℝ → ℝ} (h : Regular minT f) {t : Fin 3 → ℝ} (h0 : t 0 = densityInt f) (h1 : t 1 = momentumInt f) (h2 : t 2 = energyInt f) :
    densityOf t = densityInt f ∧ meanOf t = meanInt f ∧ tempOf minT t = tempInt f := by
  have e0 : densityOf t = densityInt f := by rw [densityOf, h0, max_eq_left h.dens]
  have e1 : meanOf t = meanInt f := by rw [meanOf, e0, h1, meanInt]
  refine ⟨e0, e1, ?_⟩
  rw [tempOf, e0, e1, h2]
  exact max_eq_left h.temp

omit [NeZero nh] [NeZero nl] in
theorem low_lin [NeZero nh] [NeZero nl] (r s : ℝ) (C C' : Fin nh → ℝ) (B B' : Fin nl → ℝ) :
    low (fun i => r * C i + s * C' i) (fun i => r * B i + s * B' i) = r • low C B + s • low C' B' := by
  funext j; fin_cases j <;> rfl

theorem restore_noop (M : Matrix (Fin 3) (Fin 6) ℝ) (C C' : Fin nh → ℝ) (B B' : Fin nl → ℝ) (h : M *ᵥ low C' B' = M *ᵥ low C B) :
    restore M C B C' B' = (C', B') := by
  have hz : (fun i => (M *ᵥ low C B) i - (M *ᵥ low C' B') i) = 0 := by funext i; rw [h]; simp
  have : (blockH M)⁻¹ *ᵥ (fun i => (M *ᵥ low C B) i - (M *ᵥ low C' B') i) = 0 := by rw [hz, Matrix.mulVec_zero]
  refine Prod.ext (funext fun i => ?_) rfl
  have hr : (restore M C B C' B').1 i = C' i + (if h : i.val < 3 then ((blockH M)⁻¹ *ᵥ (fun i => (M *ᵥ low C B) i - (M *ᵥ low C' B') i)) ⟨i.val, h⟩ else 0) := rfl
  rw [hr, this]; simp

/-- BGK collisions are exact: every coefficient of the distribution relaxes to the one of the Maxwellian with the same density, mean velocity
and temperature, by the factor `exp(-nu s)`. -/
theorem bgk_exact (hh : 3 ≤ nh) (hl : 3 ≤ nl) (p : Params) (ha : 0 < p.alpha) (a b : ℝ) (hw : a < b) (s : ℝ) (C : Fin nh → ℝ) (B : Fin nl → ℝ)
    (f : ℝ → ℝ) (hf : f = dist p.alpha p.u a b C B) (hr : Regular p.minT f) :
    bgkAt p (momentMatrix p.alpha p.u (TL nl a b) (b - a)) s C B =
      (fun i => maxwellCoef nh p.alpha p.u (densityInt f) (meanInt f) (tempInt f) i +
          Real.exp (-(p.nu * s)) * (C i - maxwellCoef nh p.alpha p.u (densityInt f) (meanInt f) (tempInt f) i),
        fun m => Real.exp (-(p.nu * s)) * B m) := by
  obtain ⟨t0, t1, t2⟩ := moments_are_integrals hh hl ha p.u a b hw C B
  rw [← hf] at t0 t1 t2
  obtain ⟨f0, f1, f2⟩ := floors hr t0 t1 t2
  have hT : 0 < tempInt f := hr.pos.trans_le hr.temp
  obtain ⟨g0, g1, g2⟩ := maxwell_moments hh hl ha p.u a b (densityInt f) (meanInt f) (tempInt f) hT
  have hn : densityInt f ≠ 0 := by have := hr.dens; intro h; rw [h] at this; norm_num at this
  have hfix : momentMatrix p.alpha p.u (TL nl a b) (b - a) *ᵥ low (maxwellCoef nh p.alpha p.u (densityInt f) (meanInt f) (tempInt f)) (0 : Fin nl → ℝ) =
      momentMatrix p.alpha p.u (TL nl a b) (b - a) *ᵥ low C B := by
    funext i
    fin_cases i
    · exact g0.trans t0.symm
    · refine g1.trans (Eq.trans ?_ t1.symm); rw [meanInt]; field_simp
    · refine g2.trans (Eq.trans ?_ t2.symm); rw [tempInt]; field_simp; ring
  have hc : ∀ i : Fin nh, densityInt f / p.alpha * maxwell (Real.sqrt 2 * (meanInt f - p.u) / p.alpha) (tempInt f / p.alpha ^ 2 - 0.5) i.val =
      maxwellCoef nh p.alpha p.u (densityInt f) (meanInt f) (tempInt f) i := fun i => maxwell_coefficients ha _ _ _ _ hT _
  rw [bgkAt]
  simp only [f0, f1, f2, hc]
  obtain ⟨r, hr'⟩ : ∃ r, r = Real.exp (-p.nu * s) := ⟨_, rfl⟩
  rw [← hr', show -(p.nu * s) = -p.nu * s by ring, ← hr']
  rw [restore_noop]
  · refine Prod.ext (funext fun i => ?_) rfl
    simp only []
    ring
  · have hlow : low (fun i => r * C i + (1 - r) * maxwellCoef nh p.alpha p.u (densityInt f) (meanInt f) (tempInt f) i) (fun m => r * B m) =
        r • low C B + (1 - r) • low (maxwellCoef nh p.alpha p.u (densityInt f) (meanInt f) (tempInt f)) (0 : Fin nl → ℝ) := by
      rw [← low_lin]; congr 1; funext m; simp
    rw [hlow, Matrix.mulVec_add, Matrix.mulVec_smul, Matrix.mulVec_smul, hfix, ← add_smul]
    ring_nf
    rw [one_smul]

/-- They form a flow: two collision steps are one of the whole time. -/
theorem bgk_flow (hh : 3 ≤ nh) (hl : 3 ≤ nl) (p : Params) (ha : 0 < p.alpha) (a b : ℝ) (hw : a < b) (s t : ℝ) (C : Fin nh → ℝ) (B : Fin nl → ℝ)
    (hr : Regular p.minT (dist p.alpha p.u a b C B)) (M : Matrix (Fin 3) (Fin 6) ℝ) (hM : M = momentMatrix p.alpha p.u (TL nl a b) (b - a)) :
    bgkAt p M t (bgkAt p M s C B).1 (bgkAt p M s C B).2 = bgkAt p M (s + t) C B ∧ bgkAt p M 0 C B = (C, B) ∧
    Regular p.minT (dist p.alpha p.u a b (bgkAt p M s C B).1 (bgkAt p M s C B).2) := by
  subst hM
  obtain ⟨f, hf⟩ : ∃ f, f = dist p.alpha p.u a b C B := ⟨_, rfl⟩
  obtain ⟨t0, t1, t2⟩ := moments_are_integrals hh hl ha p.u a b hw C B
  obtain ⟨q, hq⟩ : ∃ q, q = bgkAt p (momentMatrix p.alpha p.u (TL nl a b) (b - a)) s C B := ⟨_, rfl⟩
  obtain ⟨s0, s1, s2⟩ := moments_are_integrals hh hl ha p.u a b hw q.1 q.2
  have hmo : momentMatrix p.alpha p.u (TL nl a b) (b - a) *ᵥ low q.1 q.2 = momentMatrix p.alpha p.u (TL nl a b) (b - a) *ᵥ low C B := by
    rw [hq]; exact restore_moments hh _ (block_det _ _ _ ha _) _ _ _ _
  rw [hmo, t0, ← hf] at s0
  rw [hmo, t1, ← hf] at s1
  rw [hmo, t2, ← hf] at s2
  have e1 : meanInt (dist p.alpha p.u a b q.1 q.2) = meanInt f := by rw [meanInt, ← s0, ← s1, meanInt]
  have e2 : tempInt (dist p.alpha p.u a b q.1 q.2) = tempInt f := by rw [tempInt, e1, ← s0, ← s2, tempInt]
  rw [← hf] at hr
  have hr2 : Regular p.minT (dist p.alpha p.u a b q.1 q.2) := ⟨hr.pos, by rw [← s0]; exact hr.dens, by rw [e2]; exact hr.temp⟩
  have b1 := bgk_exact hh hl p ha a b hw s C B f hf hr
  have b2 := bgk_exact hh hl p ha a b hw t q.1 q.2 _ rfl hr2
  have b3 := bgk_exact hh hl p ha a b hw (s + t) C B f hf hr
  have b0 := bgk_exact hh hl p ha a b hw 0 C B f hf hr
  rw [← s0, e1, e2] at b2
  have hexp : Real.exp (-(p.nu * (s + t))) = Real.exp (-(p.nu * s)) * Real.exp (-(p.nu * t)) := by rw [← Real.exp_add]; congr 1; ring
  refine ⟨?_, ?_, ?_⟩
  · rw [← hq, b2, b3, hq, b1, hexp]
    refine Prod.ext (funext fun i => ?_) (funext fun m => ?_) <;> simp only [] <;> ring
  · rw [b0]
    refine Prod.ext (funext fun i => ?_) (funext fun m => ?_) <;> simp
  · rw [← hq]; exact hr2

/-- A Maxwellian without Legendre part stays, for any time. -/
theorem bgk_fixed (hh : 3 ≤ nh) (hl : 3 ≤ nl) (p : Params) (ha : 0 < p.alpha) (a b : ℝ) (hw : a < b) (s n U T : ℝ) (hp : 0 < p.minT) (hn : 1e-14 ≤ n) (hT : p.minT ≤ T) :
    bgkAt p (momentMatrix p.alpha p.u (TL nl a b) (b - a)) s (maxwellCoef nh p.alpha p.u n U T) (0 : Fin nl → ℝ) = (maxwellCoef nh p.alpha p.u n U T, 0) := by
  obtain ⟨f, hf⟩ : ∃ f, f = dist p.alpha p.u a b (maxwellCoef nh p.alpha p.u n U T) (0 : Fin nl → ℝ) := ⟨_, rfl⟩
  obtain ⟨t0, t1, t2⟩ := moments_are_integrals hh hl ha p.u a b hw (maxwellCoef nh p.alpha p.u n U T) (0 : Fin nl → ℝ)
  obtain ⟨g0, g1, g2⟩ := maxwell_moments hh hl ha p.u a b n U T (hp.trans_le hT)
  rw [g0, ← hf] at t0
  rw [g1, ← hf] at t1
  rw [g2, ← hf] at t2
  have hn0 : n ≠ 0 := by intro h; rw [h] at hn; norm_num at hn
  have e1 : meanInt f = U := by rw [meanInt, ← t0, ← t1]; field_simp
  have e2 : tempInt f = T := by rw [tempInt, e1, ← t0, ← t2]; field_simp; ring
  have hr : Regular p.minT f := ⟨hp, by rw [← t0]; exact hn, by rw [e2]; exact hT⟩
  rw [bgk_exact hh hl p ha a b hw s _ _ f hf hr, ← t0, e1, e2]
  refine Prod.ext (funext fun i => ?_) (funext fun m => ?_) <;> simp

/-- The collision step of a run with BGK: at every position. -/
theorem bgk_step (p : Setup nh nl N) (hb : Built p) (hh : 3 ≤ nh) (hl : 3 ≤ nl) (nu minT : ℝ) (hc : p.collision = some (.bgk nu minT)) (s : ℝ) (c : Cs nh nl N) (x : ZMod N)
    (hr : Regular minT (distAt p c x)) :
    (∀ i, (toX ((p.collide s c).1 i) x).re = maxwellCoef nh p.alpha p.u (densityInt (distAt p c x)) (meanInt (distAt p c x)) (tempInt (distAt p c x)) i +
      Real.exp (-(nu * s)) * ((toX (c.1 i) x).re - maxwellCoef nh p.alpha p.u (densityInt (distAt p c x)) (meanInt (distAt p c x)) (tempInt (distAt p c x)) i)) ∧
    ∀ m, (toX ((p.collide s c).2 m) x).re = Real.exp (-(nu * s)) * (toX (c.2 m) x).re := by
  by_cases h0 : nu = 0 ∨ s = 0
  · have : p.collide s c = c := by unfold Setup.collide; rw [hc]; simp only [if_pos h0]
    have hz : nu * s = 0 := by rcases h0 with h | h <;> rw [h] <;> simp
    rw [this, hz]; simp
  · have he : p.collide s c = pointwise (bgkAt ⟨nu, p.alpha, p.u, minT⟩ p.moments s) c := by unfold Setup.collide; rw [hc]; simp only [if_neg h0]
    obtain ⟨h1, h2⟩ := toX_pointwise (bgkAt ⟨nu, p.alpha, p.u, minT⟩ p.moments s) c x
    have hbk := bgk_exact hh hl ⟨nu, p.alpha, p.u, minT⟩ hb.alpha p.a p.b hb.window s (fun j => (toX (c.1 j) x).re) (fun j => (toX (c.2 j) x).re) (distAt p c x) rfl hr
    have hbk' : bgkAt ⟨nu, p.alpha, p.u, minT⟩ p.moments s (fun j => (toX (c.1 j) x).re) (fun j => (toX (c.2 j) x).re) = _ := hbk
    rw [hbk'] at h1 h2
    rw [he]
    exact ⟨fun i => congrFun h1 i, fun m => congrFun h2 m⟩

/-- The hypotheses are met: a Maxwellian of density and temperature one is regular. -/
example : Regular (1 / 100) (dist 1 0 2 6 (maxwellCoef 4 1 0 1 (1 / 2) 1) (0 : Fin 5 → ℝ)) := by
  obtain ⟨t0, t1, t2⟩ := moments_are_integrals (nh := 4) (nl := 5) (by norm_num) (by norm_num) one_pos 0 2 6 (by norm_num) (maxwellCoef 4 1 0 1 (1 / 2) 1) (0 : Fin 5 → ℝ)
  obtain ⟨g0, g1, g2⟩ := maxwell_moments (nh := 4) (nl := 5) (by norm_num) (by norm_num) one_pos 0 2 6 1 (1 / 2) 1 one_pos
  rw [g0] at t0
  rw [g1] at t1
  rw [g2] at t2
  refine ⟨by norm_num, by rw [← t0]; norm_num, ?_⟩
  rw [tempInt, meanInt, ← t0, ← t1, ← t2]; norm_num

end Verif.HermiteLegendre
