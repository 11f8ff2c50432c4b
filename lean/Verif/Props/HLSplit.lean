import Verif.Props.HLCayley
import Verif.Props.HermiteOptions

/-!
C120: conservation over a whole run of the split integrator; C121, C122 (first part): the collisions keep the moments at every position.
-/
namespace Verif.HermiteLegendre
open Finset Complex Verif.Spectral Verif.Hermite
open scoped Matrix ComplexConjugate

variable {N : ℕ} [NeZero N] {nh nl : ℕ} [NeZero nh] [NeZero nl]

/-- The distribution function the coefficients stand for at one position. -/
noncomputable def distAt (p : Setup nh nl N) (c : Cs nh nl N) (x : ZMod N) (v : ℝ) : ℝ :=
  dist p.alpha p.u p.a p.b (fun i => (toX (c.1 i) x).re) (fun i => (toX (c.2 i) x).re) v

/-- Number of particles, momentum and energy (with that of the field) in the box, per cell length. -/
noncomputable def mass (p : Setup nh nl N) (c : Cs nh nl N) : ℝ := ∑ x, densityInt (distAt p c x)
noncomputable def momentum (p : Setup nh nl N) (c : Cs nh nl N) : ℝ := ∑ x, momentumInt (distAt p c x)
noncomputable def energy (p : Setup nh nl N) (c : Cs nh nl N) : ℝ := ∑ x, (energyInt (distAt p c x) + 1 / 2 * p.field c x ^ 2)

/-! ### The restoration of the moments -/

/-- The Hermite block of the moment map. -/
def blockH (M : Matrix (Fin 3) (Fin 6) ℝ) : Matrix (Fin 3) (Fin 3) ℝ := fun i j => M i (Fin.castLE (by omega) j)

omit [NeZero nh] in
theorem block_det (alpha u w : ℝ) (ha : 0 < alpha) (T : Matrix (Fin nl) (Fin nl) ℝ) : (blockH (momentMatrix alpha u T w)).det ≠ 0 := by
  have e : (blockH (momentMatrix alpha u T w)).det = alpha * (alpha ^ 2 / Real.sqrt 2) * (alpha ^ 3 / (2 * Real.sqrt 2)) := by
    rw [Matrix.det_fin_three]
    have h01 : blockH (momentMatrix alpha u T w) 0 1 = 0 := rfl
    have h02 : blockH (momentMatrix alpha u T w) 0 2 = 0 := rfl
    have h12 : blockH (momentMatrix alpha u T w) 1 2 = 0 := rfl
    have h00 : blockH (momentMatrix alpha u T w) 0 0 = alpha := rfl
    have h11 : blockH (momentMatrix alpha u T w) 1 1 = alpha ^ 2 / Real.sqrt 2 := rfl
    have h22 : blockH (momentMatrix alpha u T w) 2 2 = alpha ^ 3 / (2 * Real.sqrt 2) := rfl
    rw [h01, h02, h12, h00, h11, h22]; ring
  rw [e]
  have : 0 < Real.sqrt 2 := by positivity
  positivity

theorem restore_moments (hh : 3 ≤ nh) (M : Matrix (Fin 3) (Fin 6) ℝ) (hM : (blockH M).det ≠ 0) (C : Fin nh → ℝ) (B : Fin nl → ℝ) (C' : Fin nh → ℝ) (B' : Fin nl → ℝ) :
    M *ᵥ low (restore M C B C' B').1 (restore M C B C' B').2 = M *ᵥ low C B := by
  obtain ⟨c, hc⟩ : ∃ c, c = (blockH M)⁻¹ *ᵥ fun i => (M *ᵥ low C B) i - (M *ᵥ low C' B') i := ⟨_, rfl⟩
  have hH : blockH M *ᵥ c = fun i => (M *ᵥ low C B) i - (M *ᵥ low C' B') i := by
    rw [hc, Matrix.mulVec_mulVec, Matrix.mul_nonsing_inv _ (isUnit_iff_ne_zero.mpr hM), Matrix.one_mulVec]
  have hr1 : (restore M C B C' B').1 = fun i => C' i + (if h : i.val < 3 then c ⟨i.val, h⟩ else 0) := by rw [hc]; rfl
  have hr2 : (restore M C B C' B').2 = B' := rfl
  funext i
  have hi := congrFun hH i
  simp only [Matrix.mulVec, dotProduct, Fin.sum_univ_three, blockH] at hi
  rw [hr1, hr2]
  have k0 : (clampIx 0 : Fin nh) = ⟨0, by omega⟩ := clampIx_val 0 (by omega)
  have k1 : (clampIx 1 : Fin nh) = ⟨1, by omega⟩ := clampIx_val 1 (by omega)
  have k2 : (clampIx 2 : Fin nh) = ⟨2, by omega⟩ := clampIx_val 2 (by omega)
  simp only [Matrix.mulVec, dotProduct, Fin.sum_univ_six, low, k0, k1, k2] at hi ⊢
  have e0 : (Fin.castLE (by omega) (0 : Fin 3) : Fin 6) = 0 := rfl
  have e1 : (Fin.castLE (by omega) (1 : Fin 3) : Fin 6) = 1 := rfl
  have e2 : (Fin.castLE (by omega) (2 : Fin 3) : Fin 6) = 2 := rfl
  rw [e0, e1, e2] at hi
  have f0 : (⟨0, by omega⟩ : Fin 3) = 0 := rfl
  have f1 : (⟨1, by omega⟩ : Fin 3) = 1 := rfl
  have f2 : (⟨2, by omega⟩ : Fin 3) = 2 := rfl
  simp only [Matrix.cons_val] at hi ⊢
  simp only [show (0 : ℕ) < 3 by omega, show (1 : ℕ) < 3 by omega, show (2 : ℕ) < 3 by omega, dif_pos, f0, f1, f2]
  linarith

/-- The collisions at one position. -/
noncomputable def Setup.collideAt (p : Setup nh nl N) (s : ℝ) (C : Fin nh → ℝ) (B : Fin nl → ℝ) : (Fin nh → ℝ) × (Fin nl → ℝ) :=
  match p.collision with
  | none => (C, B)
  | some (.bgk nu minT) => bgkAt ⟨nu, p.alpha, p.u, minT⟩ p.moments s C B
  | some (.dougherty nu minT d) => doughertyAt ⟨nu, p.alpha, p.u, minT⟩ p.moments p.a p.b d s C B

theorem collideAt_moments (p : Setup nh nl N) (hh : 3 ≤ nh) (ha : 0 < p.alpha) (s : ℝ) (C : Fin nh → ℝ) (B : Fin nl → ℝ) :
    p.moments *ᵥ low (p.collideAt s C B).1 (p.collideAt s C B).2 = p.moments *ᵥ low C B := by
  unfold Setup.collideAt
  rcases p.collision with _ | ⟨nu, m⟩ | ⟨nu, m, d⟩
  · rfl
  · exact restore_moments hh _ (block_det _ _ _ ha _) _ _ _ _
  · exact restore_moments hh _ (block_det _ _ _ ha _) _ _ _ _

theorem toX_pointwise (F : (Fin nh → ℝ) → (Fin nl → ℝ) → (Fin nh → ℝ) × (Fin nl → ℝ)) (c : Cs nh nl N) (x : ZMod N) :
    (fun i => (toX ((pointwise F c).1 i) x).re) = (F (fun j => (toX (c.1 j) x).re) (fun j => (toX (c.2 j) x).re)).1 ∧
    (fun i => (toX ((pointwise F c).2 i) x).re) = (F (fun j => (toX (c.1 j) x).re) (fun j => (toX (c.2 j) x).re)).2 := by
  constructor <;> funext i <;> simp only [pointwise, toX_toK, ofReal_re]

/-- Collisions either do nothing or act at every position on their own. -/
theorem collide_pointwise (p : Setup nh nl N) (s : ℝ) (c : Cs nh nl N) : p.collide s c = c ∨ p.collide s c = pointwise (p.collideAt s) c := by
  unfold Setup.collide Setup.collideAt
  rcases p.collision with _ | ⟨nu, m⟩ | ⟨nu, m, d⟩
  · exact Or.inl rfl
  · by_cases h : nu = 0 ∨ s = 0
    · simp [if_pos h]
    · simp [if_neg h]
  · by_cases h : nu = 0 ∨ s = 0
    · simp [if_pos h]
    · simp [if_neg h]

/-- Collisions keep the moments at every position, whatever the model. -/
theorem collide_moments (p : Setup nh nl N) (hh : 3 ≤ nh) (ha : 0 < p.alpha) (s : ℝ) (c : Cs nh nl N) (x : ZMod N) :
    p.moments *ᵥ low (fun i => (toX ((p.collide s c).1 i) x).re) (fun i => (toX ((p.collide s c).2 i) x).re) =
      p.moments *ᵥ low (fun i => (toX (c.1 i) x).re) (fun i => (toX (c.2 i) x).re) := by
  rcases collide_pointwise p s c with hc | hc
  · rw [hc]
  · obtain ⟨h1, h2⟩ := toX_pointwise (p.collideAt s) c x
    rw [hc, h1, h2, collideAt_moments p hh ha]

theorem charge_moments (p : Setup nh nl N) (c : Cs nh nl N) (x : ZMod N) :
    p.charge c x = 1 - (p.moments *ᵥ low (fun i => (toX (c.1 i) x).re) (fun i => (toX (c.2 i) x).re)) 0 := by
  have k0 : (clampIx 0 : Fin nh) = 0 := Fin.ext (by simp [clampIx])
  have k0' : (clampIx 0 : Fin nl) = 0 := Fin.ext (by simp [clampIx])
  rw [Setup.charge]
  simp only [Matrix.mulVec, dotProduct, Fin.sum_univ_six, low, k0, k0']
  have e : ∀ j, p.moments 0 j = ![p.alpha, 0, 0, p.b - p.a, 0, 0] j := fun j => rfl
  simp only [e, Matrix.cons_val]
  ring

theorem field_congr (p : Setup nh nl N) (c d : Cs nh nl N) (h : ∀ x, p.charge c x = p.charge d x) : p.field c = p.field d := by
  funext x
  simp only [Setup.field, funext h]

/-- What the collisions of either model leave alone: density, momentum and kinetic energy at every position, and the field. -/
theorem collisions_local (p : Setup nh nl N) (hb : Built p) (hh : 3 ≤ nh) (hl : 3 ≤ nl) (s : ℝ) (c : Cs nh nl N) :
    (∀ x, densityInt (distAt p (p.collide s c) x) = densityInt (distAt p c x) ∧ momentumInt (distAt p (p.collide s c) x) = momentumInt (distAt p c x) ∧
      energyInt (distAt p (p.collide s c) x) = energyInt (distAt p c x)) ∧ p.field (p.collide s c) = p.field c := by
  constructor
  · intro x
    obtain ⟨a0, a1, a2⟩ := moments_are_integrals hh hl hb.alpha p.u p.a p.b hb.window (fun i => (toX ((p.collide s c).1 i) x).re) (fun i => (toX ((p.collide s c).2 i) x).re)
    obtain ⟨b0, b1, b2⟩ := moments_are_integrals hh hl hb.alpha p.u p.a p.b hb.window (fun i => (toX (c.1 i) x).re) (fun i => (toX (c.2 i) x).re)
    have h := collide_moments p hh hb.alpha s c x
    unfold Setup.moments at h
    refine ⟨?_, ?_, ?_⟩
    · exact (a0.symm.trans (congrFun h 0)).trans b0
    · exact (a1.symm.trans (congrFun h 1)).trans b1
    · exact (a2.symm.trans (congrFun h 2)).trans b2
  · refine field_congr _ _ _ fun x => ?_
    rw [charge_moments, charge_moments, collide_moments p hh hb.alpha]

/-! ### The totals -/

theorem mean_re (c : ZMod N → ℂ) : ∑ x, (toX c x).re = N * (c 0).re := by
  rw [← Complex.re_sum, sum_toX]; simp

theorem low_sum (c : Cs nh nl N) (j : Fin 6) : ∑ x, low (fun i => (toX (c.1 i) x).re) (fun i => (toX (c.2 i) x).re) j =
    N * low (fun i => (c.1 i 0).re) (fun i => (c.2 i 0).re) j := by
  fin_cases j <;> exact mean_re _

/-- The three numbers the split step keeps are the totals. -/
theorem totals (p : Setup nh nl N) (hb : Built p) (hh : 3 ≤ nh) (hl : 3 ≤ nl) (c : Cs nh nl N) :
    mass p c = N * p.momentDensity c (p.field c) 0 ∧ momentum p c = N * p.momentDensity c (p.field c) 1 ∧ energy p c = N * p.momentDensity c (p.field c) 2 := by
  have hN : (N : ℝ) ≠ 0 := Nat.cast_ne_zero.mpr (NeZero.ne N)
  have hs : ∀ i : Fin 3, ∑ x, (p.moments *ᵥ low (fun i => (toX (c.1 i) x).re) (fun i => (toX (c.2 i) x).re)) i =
      N * (p.moments *ᵥ low (fun j => (c.1 j 0).re) (fun j => (c.2 j 0).re)) i := by
    intro i
    simp only [Matrix.mulVec, dotProduct]
    rw [sum_comm, mul_sum]
    refine sum_congr rfl fun j _ => ?_
    rw [← mul_sum, low_sum]; ring
  have hm := fun x => moments_are_integrals hh hl hb.alpha p.u p.a p.b hb.window (fun i => (toX (c.1 i) x).re) (fun i => (toX (c.2 i) x).re)
  refine ⟨?_, ?_, ?_⟩
  · rw [Setup.momentDensity, if_neg (by decide), add_zero, ← hs, mass]
    exact sum_congr rfl fun x _ => (hm x).1.symm
  · rw [Setup.momentDensity, if_neg (by decide), add_zero, ← hs, momentum]
    exact sum_congr rfl fun x _ => (hm x).2.1.symm
  · rw [Setup.momentDensity, if_pos rfl, mul_add, ← hs, energy, sum_add_distrib, ← mul_sum]
    congr 1
    · exact sum_congr rfl fun x _ => (hm x).2.2.symm
    · field_simp; norm_num; ring

/-! ### The correction -/

omit [NeZero nh] in
/-- The Gram matrix of the moment map always has an inverse. -/
theorem gram_unit (alpha u w : ℝ) (ha : 0 < alpha) (T : Matrix (Fin nl) (Fin nl) ℝ) : IsUnit (momentMatrix alpha u T w * (momentMatrix alpha u T w)ᵀ).det := by
  obtain ⟨M, hM⟩ : ∃ M, M = momentMatrix alpha u T w := ⟨_, rfl⟩
  have hb := block_det alpha u w ha T
  rw [← hM] at hb ⊢
  rw [isUnit_iff_ne_zero]
  intro h0
  obtain ⟨v, hv, hv0⟩ := Matrix.exists_mulVec_eq_zero_iff.mpr h0
  have h1 : (Mᵀ *ᵥ v) ⬝ᵥ (Mᵀ *ᵥ v) = 0 := by
    have : v ⬝ᵥ ((M * Mᵀ) *ᵥ v) = 0 := by rw [hv0, dotProduct_zero]
    rw [← Matrix.mulVec_mulVec, Matrix.dotProduct_mulVec, ← Matrix.mulVec_transpose] at this
    exact this
  have h2 : Mᵀ *ᵥ v = 0 := dotProduct_self_eq_zero.mp h1
  have h3 : (blockH M)ᵀ *ᵥ v = 0 := by
    funext j
    have := congrFun h2 (Fin.castLE (by omega) j)
    exact this
  refine hv ?_
  have h4 : ((blockH M)ᵀ).det ≠ 0 := by rwa [Matrix.det_transpose]
  by_contra hne
  exact h4 (Matrix.exists_mulVec_eq_zero_iff.mp ⟨v, hv, h3⟩)

/-- The correction supplies exactly what is missing, and is the smallest that does. -/
theorem delta_spec (p : Setup nh nl N) (ha : 0 < p.alpha) (target : Fin 3 → ℝ) (c : Cs nh nl N) :
    (p.moments *ᵥ p.delta target c = fun i => target i - p.momentDensity c (p.field c) i) ∧
    ∀ d : Fin 6 → ℝ, (p.moments *ᵥ d = fun i => target i - p.momentDensity c (p.field c) i) → ∑ j, p.delta target c j ^ 2 ≤ ∑ j, d j ^ 2 := by
  have hu : IsUnit (p.moments * p.momentsᵀ).det := gram_unit _ _ _ ha _
  obtain ⟨r, hr⟩ : ∃ r : Fin 3 → ℝ, r = fun i => target i - p.momentDensity c (p.field c) i := ⟨_, rfl⟩
  have hd : p.delta target c = p.momentsᵀ *ᵥ ((p.moments * p.momentsᵀ)⁻¹ *ᵥ r) := by
    rw [Setup.delta, projector, Matrix.mulVec_mulVec, ← hr]
  have h1 : p.moments *ᵥ p.delta target c = r := by
    rw [hd, Matrix.mulVec_mulVec, Matrix.mulVec_mulVec, Matrix.mul_nonsing_inv _ hu, Matrix.one_mulVec]
  refine ⟨h1.trans hr, ?_⟩
  intro d hdd
  rw [← hr] at hdd
  have h2 : (d - p.delta target c) ⬝ᵥ p.delta target c = 0 := by
    nth_rewrite 2 [hd]
    rw [Matrix.dotProduct_mulVec, Matrix.vecMul_transpose, Matrix.mulVec_sub, hdd, h1, sub_self, zero_dotProduct]
  have h3 : ∑ j, d j ^ 2 = ∑ j, p.delta target c j ^ 2 + ∑ j, (d j - p.delta target c j) ^ 2 := by
    have h4 : ∑ j, (d j - p.delta target c j) * p.delta target c j = 0 := h2
    have : ∀ j, d j ^ 2 = p.delta target c j ^ 2 + (d j - p.delta target c j) ^ 2 + 2 * ((d j - p.delta target c j) * p.delta target c j) := fun j => by ring
    rw [sum_congr rfl fun j _ => this j, sum_add_distrib, sum_add_distrib, ← mul_sum, h4]; ring
  rw [h3]
  exact le_add_of_nonneg_right (sum_nonneg fun j _ => sq_nonneg _)

theorem toX_shift (c : ZMod N → ℂ) (d : ℂ) (x : ZMod N) : toX (fun k => c k + if k = 0 then d else 0) x = toX c x + d := by
  rw [toX_add]
  congr 1
  rw [toX_mean _ (fun k hk => if_neg hk), if_pos rfl]

/-- A uniform charge makes no field. -/
theorem field_shift (L r : ℝ) (rho : ZMod N → ℝ) : Hermite.field L (fun x => rho x + r) = Hermite.field L rho := by
  funext x
  have := field_lin L 1 1 rho (fun _ => r) x
  simp only [one_mul] at this
  rw [this, field_const, add_zero]

/-- After the correction the totals are the target. -/
theorem correct_spec (p : Setup nh nl N) (hh : 3 ≤ nh) (hl : 3 ≤ nl) (ha : 0 < p.alpha) (target : Fin 3 → ℝ) (c : Cs nh nl N) :
    p.field (p.correct target c) = p.field c ∧ p.momentDensity (p.correct target c) (p.field (p.correct target c)) = target := by
  have c0 : (p.correct target c).1 0 = fun k => c.1 0 k + if k = 0 then ((p.delta target c 0 : ℝ) : ℂ) else 0 := by
    funext k
    have h0 : ((0 : Fin nh).val) = 0 := rfl
    by_cases hk : k = 0
    · simp only [Setup.correct, hk, h0, if_true, and_true, show (0 : ℕ) < 3 by omega, dite_true]; rfl
    · simp only [Setup.correct, hk, and_false, dite_false, if_false]
  have c3 : (p.correct target c).2 0 = fun k => c.2 0 k + if k = 0 then ((p.delta target c 3 : ℝ) : ℂ) else 0 := by
    funext k
    have h0 : ((0 : Fin nl).val) = 0 := rfl
    by_cases hk : k = 0
    · simp only [Setup.correct, hk, h0, if_true, and_true, show (0 : ℕ) < 3 by omega, dite_true]; rfl
    · simp only [Setup.correct, hk, and_false, dite_false, if_false]
  have hf : p.field (p.correct target c) = p.field c := by
    funext x
    have hq : p.charge (p.correct target c) = fun x => p.charge c x + (-p.alpha * p.delta target c 0 - (p.b - p.a) * p.delta target c 3) := by
      funext x
      rw [Setup.charge, Setup.charge, c0, c3, toX_shift, toX_shift]
      simp only [add_re, ofReal_re]; ring
    rw [Setup.field, Setup.field, hq, field_shift]
  refine ⟨hf, ?_⟩
  have hlow : low (fun j => ((p.correct target c).1 j 0).re) (fun j => ((p.correct target c).2 j 0).re) =
      low (fun j => (c.1 j 0).re) (fun j => (c.2 j 0).re) + p.delta target c := by
    have k0 : (clampIx 0 : Fin nh) = ⟨0, by omega⟩ := clampIx_val 0 (by omega)
    have k1 : (clampIx 1 : Fin nh) = ⟨1, by omega⟩ := clampIx_val 1 (by omega)
    have k2 : (clampIx 2 : Fin nh) = ⟨2, by omega⟩ := clampIx_val 2 (by omega)
    have l0 : (clampIx 0 : Fin nl) = ⟨0, by omega⟩ := clampIx_val 0 (by omega)
    have l1 : (clampIx 1 : Fin nl) = ⟨1, by omega⟩ := clampIx_val 1 (by omega)
    have l2 : (clampIx 2 : Fin nl) = ⟨2, by omega⟩ := clampIx_val 2 (by omega)
    funext j
    fin_cases j <;>
      simp only [low, k0, k1, k2, l0, l1, l2, Setup.correct, Pi.add_apply, and_true, show (0 : ℕ) < 3 by omega, show (1 : ℕ) < 3 by omega, show (2 : ℕ) < 3 by omega,
        dite_true, add_re, ofReal_re] <;> rfl
  funext i
  rw [hf, Setup.momentDensity, hlow, Matrix.mulVec_add, Pi.add_apply, (delta_spec p ha target c).1]
  have : p.momentDensity c (p.field c) i = (p.moments *ᵥ low (fun j => (c.1 j 0).re) (fun j => (c.2 j 0).re)) i + (if i = 2 then 0.5 * ((∑ x, p.field c x ^ 2) / N) else 0) := rfl
  beta_reduce
  rw [this]; ring

/-- One step of the split integrator with conservation enforced and no driver keeps the three totals. -/
theorem split_step_totals (p : Setup nh nl N) (hh : 3 ≤ nh) (hl : 3 ≤ nl) (ha : 0 < p.alpha) (he : p.enforce = true) (hd : p.driver = none) (t : ℝ) (c : Cs nh nl N) :
    p.momentDensity (p.splitStep t c) (p.field (p.splitStep t c)) = p.momentDensity c (p.field c) := by
  have : ∃ out, p.splitStep t c = p.correct (p.momentDensity c (p.field c)) out := by
    rw [Setup.splitStep, if_pos ⟨he, by rw [hd]; rfl⟩]
    exact ⟨_, rfl⟩
  obtain ⟨out, ho⟩ := this
  rw [ho]
  exact (correct_spec p hh hl ha _ out).2

/-- C120: over any number of steps. -/
theorem split_conserves (p : Setup nh nl N) (hb : Built p) (hh : 3 ≤ nh) (hl : 3 ≤ nl) (hi : p.integrator = .split) (he : p.enforce = true) (hd : p.driver = none)
    (y : State nh nl N) (n : ℕ) :
    mass p (p.run y n).c = mass p y.c ∧ momentum p (p.run y n).c = momentum p y.c ∧ energy p (p.run y n).c = energy p y.c := by
  induction n with
  | zero => exact ⟨rfl, rfl, rfl⟩
  | succ n ih =>
    obtain ⟨i0, i1, i2⟩ := ih
    have hcol : ∀ s c, mass p (p.collide s c) = mass p c ∧ momentum p (p.collide s c) = momentum p c ∧ energy p (p.collide s c) = energy p c := by
      intro s c
      obtain ⟨hx, hf⟩ := collisions_local p hb hh hl s c
      refine ⟨sum_congr rfl fun x _ => (hx x).1, sum_congr rfl fun x _ => (hx x).2.1, sum_congr rfl fun x _ => ?_⟩
      rw [(hx x).2.2, hf]
    have hkin : ∀ t c, mass p (p.kinetic t c) = mass p c ∧ momentum p (p.kinetic t c) = momentum p c ∧ energy p (p.kinetic t c) = energy p c := by
      intro t c
      have hk : p.kinetic t c = p.splitStep t c := by unfold Setup.kinetic; rw [hi]
      have h := split_step_totals p hh hl hb.alpha he hd t c
      obtain ⟨a0, a1, a2⟩ := totals p hb hh hl (p.splitStep t c)
      obtain ⟨b0, b1, b2⟩ := totals p hb hh hl c
      rw [hk, a0, a1, a2, b0, b1, b2, h]
      exact ⟨rfl, rfl, rfl⟩
    have hst : (p.run y (n + 1)).c = p.collide (0.5 * p.dt) (p.kinetic (n * p.dt) (p.collide (0.5 * p.dt) (p.run y n).c)) := rfl
    rw [hst]
    refine ⟨?_, ?_, ?_⟩
    · rw [(hcol _ _).1, (hkin _ _).1, (hcol _ _).1, i0]
    · rw [(hcol _ _).2.1, (hkin _ _).2.1, (hcol _ _).2.1, i1]
    · rw [(hcol _ _).2.2, (hkin _ _).2.2, (hcol _ _).2.2, i2]

/-- With a driver, or without the option, nothing is corrected: the step is the half flows around the force step. -/
theorem split_uncorrected (p : Setup nh nl N) (h : p.enforce = false ∨ p.driver.isSome = true) (t : ℝ) (c : Cs nh nl N) :
    ∃ f, p.splitStep t c = p.exp (0.5 * p.dt) f := by
  have : ¬ (p.enforce = true ∧ p.driver.isNone = true) := by
    rcases h with h | h
    · simp [h]
    · rcases hd : p.driver with _ | d
      · simp [hd] at h
      · simp
  rw [Setup.splitStep, if_neg this]
  exact ⟨_, rfl⟩

/-! ### What the step solves -/

/-- `out` is the result of the implicit midpoint rule for the force over one time step, from `h`, in the field `E`: at every
position for both expansions (between the masks), and with the coupling of the two taken at the middle. -/
def Midpoint (p : Setup nh nl N) (E : ZMod N → ℝ) (h out : Cs nh nl N) : Prop :=
  ∃ (f : ZMod N → Fin nh → ℂ) (g : ZMod N → Fin nl → ℂ),
    (∀ i, out.1 i = masked p.mask (toK fun x => f x i)) ∧
    (∀ m k, out.2 m k = masked p.mask (toK fun x => g x m) k + (p.dt : ℂ) * cross p.L p.alpha p.coupling p.mask E (fun i k => (h.1 i k + out.1 i k) / 2) m k) ∧
    ∀ x, f x = (fun j => toX (masked p.mask (h.1 j)) x) + ((p.dt * E x : ℝ) : ℂ) • ((GC nh p.alpha).map ofReal *ᵥ ((1 / 2 : ℂ) • (f x + fun j => toX (masked p.mask (h.1 j)) x))) ∧
      g x = (fun j => toX (masked p.mask (h.2 j)) x) + ((p.dt * E x : ℝ) : ℂ) • ((GB p.a p.b p.gamma).map ofReal *ᵥ ((1 / 2 : ℂ) • (g x + fun j => toX (masked p.mask (h.2 j)) x)))

/-- The linear solves of the step all have exactly one solution: always so with the eigenvectors, and with half the penalty. -/
structure Solvable (p : Setup nh nl N) : Prop where
  skew : ∀ d, p.skew = some d → IsSkewEigh d (GB p.a p.b p.gamma)
  woodbury : p.skew = none → ∀ s : ℝ, (1 - (s : ℂ) • (GB p.a p.b p.gamma).map ofReal : Matrix (Fin nl) (Fin nl) ℂ).det ≠ 0

theorem corrector_midpoint (p : Setup nh nl N) (hs : Solvable p) (t : ℝ) (h : Cs nh nl N) (El E : ZMod N → ℝ) :
    Midpoint p E h (p.corrector t h El E).1 := by
  obtain ⟨f, g, h1, h2, h3⟩ := force_midpoint p hs.skew E (fun hn x => hs.woodbury hn _) h
  refine ⟨f, g, h1, fun m k => ?_, h3⟩
  rw [← h2 m]
  have e : (fun (i : Fin nh) k => (0.5 : ℂ) * (h.1 i k + (p.forceCayley E h).1 i k)) = fun i k => (h.1 i k + (p.corrector t h El E).1.1 i k) / 2 := by
    funext i k
    rw [show (p.corrector t h El E).1.1 i k = (p.forceCayley E h).1 i k from rfl]; norm_num; ring
  rw [← e]; rfl

/-- Without the correction the split step is a half step of the linear flow, the implicit midpoint rule for the force, and another half step
of the linear flow.  The field of the midpoint rule is the driver at the middle of the step if the plasma makes no field; and once the iteration
no longer changes it, it is the mean of the fields before and after. -/
theorem split_scheme (p : Setup nh nl N) (hs : Solvable p) (h : p.enforce = false ∨ p.driver.isSome = true) (t : ℝ) (c : Cs nh nl N) :
    ∃ forced E next, p.splitStep t c = p.exp (p.dt / 2) forced ∧ Midpoint p E (p.exp (p.dt / 2) c) forced ∧
      (p.fieldOn = false → E = p.driven (t + p.dt / 2)) ∧
      (next = fun x => (p.field (p.exp (p.dt / 2) c) x + p.field forced x) / 2 + p.driven (t + p.dt / 2) x) ∧
      ((p.correctorLoop t (p.exp (p.dt / 2) c) (fun x => p.field (p.exp (p.dt / 2) c) x + p.driven (t + p.dt / 2) x) E 0).2 = next) := by
  have hne : ¬ (p.enforce = true ∧ p.driver.isNone = true) := by
    rcases h with h | h
    · simp [h]
    · rcases hd : p.driver with _ | d
      · simp [hd] at h
      · simp
  have hh : (0.5 : ℝ) * p.dt = p.dt / 2 := by ring
  obtain ⟨q, hq⟩ : ∃ q, q = p.exp (p.dt / 2) c := ⟨_, rfl⟩
  obtain ⟨El, hEl⟩ : ∃ El : ZMod N → ℝ, El = fun x => p.field q x + p.driven (t + p.dt / 2) x := ⟨_, rfl⟩
  have hzero : p.fieldOn = false → ∀ c x, p.field c x = 0 := fun hf c x => by rw [Setup.field, hf]; rfl
  have hEl0 : p.fieldOn = false → El = p.driven (t + p.dt / 2) := fun hf => by funext x; rw [hEl]; simp only [hzero hf, zero_add]
  have hnext : ∀ E, (p.corrector t q El E).2 = fun x => (p.field q x + p.field (p.corrector t q El E).1 x) / 2 + p.driven (t + p.dt / 2) x := by
    intro E
    funext x
    have : (p.corrector t q El E).2 x = 0.5 * (El x + (p.field (p.corrector t q El E).1 x + p.driven (t + 0.5 * p.dt) x)) := rfl
    rw [this, hh, hEl]; ring
  have hmid0 : p.fieldOn = false → ∀ E, (p.corrector t q El E).2 = p.driven (t + p.dt / 2) := by
    intro hf E; rw [hnext]; funext x; simp only [hzero hf]; ring
  obtain ⟨E0, hE0, hE0'⟩ : ∃ E0, p.splitStep t c = p.exp (p.dt / 2) (p.correctorLoop t q El E0 (p.iters - 1)).1 ∧ (p.fieldOn = false → E0 = p.driven (t + p.dt / 2)) := by
    refine ⟨fun x => 0.5 * (El x + (p.field ((p.forceCayley El q).1, fun i k => (p.forceCayley El q).2 i k + p.dt * cross p.L p.alpha p.coupling p.mask El q.1 i k) x + p.driven (t + 0.5 * p.dt) x)), ?_, ?_⟩
    · rw [Setup.splitStep, if_neg hne, hEl, hq, ← hh]
    · intro hf; funext x; rw [hEl0 hf, hzero hf, hh]; ring
  have hloop : ∀ n, ∃ E, p.correctorLoop t q El E0 n = p.corrector t q El E ∧ (p.fieldOn = false → E = p.driven (t + p.dt / 2)) := by
    intro n
    cases n with
    | zero => exact ⟨E0, rfl, hE0'⟩
    | succ n =>
      refine ⟨(p.correctorLoop t q El E0 n).2, rfl, fun hf => ?_⟩
      cases n with
      | zero => exact hmid0 hf _
      | succ n => exact hmid0 hf _
  obtain ⟨E, hE, hE'⟩ := hloop (p.iters - 1)
  refine ⟨(p.corrector t q El E).1, E, _, by rw [hE0, hE], by rw [← hq]; exact corrector_midpoint p hs t q El E, hE', rfl, ?_⟩
  rw [← hq, ← hEl]
  exact hnext E

/-- A free plasma: the whole split step, corrected or not, is the linear flow for two half steps. -/
theorem split_free (p : Setup nh nl N) (hb : Built p) (hh : 3 ≤ nh) (hl : 3 ≤ nl) (hs : Solvable p) (hm : p.mask = none) (hf : p.fieldOn = false) (hd : ∀ t, p.driven t = fun _ => 0) (hc : ∀ m, p.coupling m = 0) (t : ℝ) (c : Cs nh nl N) :
    p.splitStep t c = p.exp (p.dt / 2) (p.exp (p.dt / 2) c) := by
  have hmp : ∀ (h : Cs nh nl N) El, (p.corrector t h El (fun _ => 0)).1 = h := by
    intro h El
    obtain ⟨f, g, h1, h2, h3⟩ := corrector_midpoint p hs t h El (fun _ => 0)
    have hfx : ∀ x, f x = fun j => toX (h.1 j) x := by
      intro x; rw [(h3 x).1, hm]; simp; rfl
    have hgx : ∀ x, g x = fun j => toX (h.2 j) x := by
      intro x; rw [(h3 x).2, hm]; simp; rfl
    refine Prod.ext (funext fun i => ?_) (funext fun m => funext fun k => ?_)
    · rw [h1 i, hm, masked_none]
      have : (fun x => f x i) = toX (h.1 i) := by funext x; rw [hfx]
      rw [this, toK_toX]
    · rw [h2 m k, hm, masked_none]
      have : (fun x => g x m) = toX (h.2 m) := by funext x; rw [hgx]
      rw [this, toK_toX, cross, hc]; simp
  have hh' : (0.5 : ℝ) * p.dt = p.dt / 2 := by ring
  have hz : ∀ c x, p.field c x = 0 := fun c x => by rw [Setup.field, hf]; rfl
  have hE : ∀ (h : Cs nh nl N) El E (n : ℕ), El = (fun _ => (0 : ℝ)) → E = (fun _ => (0 : ℝ)) → (p.correctorLoop t h El E n).1 = h ∧ (p.correctorLoop t h El E n).2 = fun _ => 0 := by
    intro h El E n h1 h2
    have h2' : ∀ F, (p.corrector t h El F).2 = fun _ => 0 := by
      intro F; funext x
      have : (p.corrector t h El F).2 x = 0.5 * (El x + (p.field (p.corrector t h El F).1 x + p.driven (t + 0.5 * p.dt) x)) := rfl
      rw [this, h1, hz, hd]; simp
    induction n with
    | zero => rw [Setup.correctorLoop, h2]; exact ⟨hmp _ _, h2' _⟩
    | succ n ih => rw [Setup.correctorLoop, ih.2]; exact ⟨hmp _ _, h2' _⟩
  have hout : ∀ E0 : ZMod N → ℝ, E0 = (fun _ => 0) → (p.correctorLoop t (p.exp (0.5 * p.dt) c) (fun x => p.field (p.exp (0.5 * p.dt) c) x + p.driven (t + 0.5 * p.dt) x) E0 (p.iters - 1)).1 = p.exp (0.5 * p.dt) c := by
    intro E0 h0
    exact (hE _ _ _ _ (by funext x; rw [hz, hd]; simp) h0).1
  rw [Setup.splitStep]
  simp only []
  rw [hout _ (by funext x; rw [hz, hz, hd]; simp)]
  split_ifs with he
  · have hmd : p.momentDensity (p.exp (0.5 * p.dt) (p.exp (0.5 * p.dt) c)) (p.field (p.exp (0.5 * p.dt) (p.exp (0.5 * p.dt) c))) = p.momentDensity c (p.field c) := by
      obtain ⟨a1, a2⟩ := exp_means p hb (0.5 * p.dt) c
      obtain ⟨b1, b2⟩ := exp_means p hb (0.5 * p.dt) (p.exp (0.5 * p.dt) c)
      have k0 : (clampIx 0 : Fin nh) = ⟨0, by omega⟩ := clampIx_val 0 (by omega)
      have k1 : (clampIx 1 : Fin nh) = ⟨1, by omega⟩ := clampIx_val 1 (by omega)
      have k2 : (clampIx 2 : Fin nh) = ⟨2, by omega⟩ := clampIx_val 2 (by omega)
      have l0 : (clampIx 0 : Fin nl) = ⟨0, by omega⟩ := clampIx_val 0 (by omega)
      have l1 : (clampIx 1 : Fin nl) = ⟨1, by omega⟩ := clampIx_val 1 (by omega)
      have l2 : (clampIx 2 : Fin nl) = ⟨2, by omega⟩ := clampIx_val 2 (by omega)
      funext i
      simp only [Setup.momentDensity, hz]
      congr 2
      simp only [low, k0, k1, k2, l0, l1, l2]
      rw [b1 _ (by norm_num), b1 _ (by norm_num), b1 _ (by norm_num), a1 _ (by norm_num), a1 _ (by norm_num), a1 _ (by norm_num),
        b2 _ (by norm_num), b2 _ (by norm_num), b2 _ (by norm_num), a2 _ (by norm_num), a2 _ (by norm_num), a2 _ (by norm_num)]
    have hdel : p.delta (p.momentDensity c (p.field c)) (p.exp (0.5 * p.dt) (p.exp (0.5 * p.dt) c)) = 0 := by
      rw [Setup.delta, hmd]
      have : (fun i => p.momentDensity c (p.field c) i - p.momentDensity c (p.field c) i) = 0 := by funext i; simp
      rw [this, Matrix.mulVec_zero]
    rw [← hh', Setup.correct, hdel]
    refine Prod.ext (funext fun i => funext fun k => ?_) (funext fun i => funext fun k => ?_) <;> simp
  · rw [hh']

/-- A concrete non-trivial setup meeting all hypotheses (any number of cells; eigenvectors from the spectral theorem). -/
theorem setup_exists (N : ℕ) [NeZero N] (col : Option (Collision 5)) : ∃ p : Setup 4 5 N, Built p ∧ Solvable p ∧ p.integrator = .split ∧ p.enforce = true ∧ p.driver = none ∧
    p.fieldOn = true ∧ p.collision = col ∧ 0 ≤ p.dt := by
  obtain ⟨dh, hdh⟩ := eigh_exists 4 1 (1 / 2)
  obtain ⟨dl, hdl⟩ := eigh_symm _ (TL_symm 5 2 6)
  obtain ⟨sk, hsk⟩ := skew_exists (GB (nl := 5) 2 6 fun _ => 1 / 2) (half_penalty_skew 2 6 (by norm_num))
  refine ⟨⟨1, 1 / 10, 1, 1 / 2, 2, 6, dh, dl, 1, 1, fun _ => 1 / 2, couplingVec 4 1 4 true (fun _ => 1), some (mask23 N), true, none, .split, 3, some sk, true, col⟩,
    ⟨one_ne_zero, one_pos, by norm_num, hdh, hdl, ?_, ?_⟩, ⟨?_, ?_⟩, rfl, rfl, rfl, rfl, rfl, by norm_num⟩
  · intro m hm; cases hm; exact mask23_zero
  · intro m hm k; cases hm; exact mask23_symm k
  · intro d hd; cases hd; exact hsk
  · intro h; cases h

example (N : ℕ) [NeZero N] (y : State 4 5 N) (n : ℕ) : ∃ p : Setup 4 5 N, energy p (p.run y n).c = energy p y.c := by
  obtain ⟨p, hb, _, hi, he, hd, _⟩ := setup_exists N (some (.bgk 1 (1 / 100)))
  exact ⟨p, (split_conserves p hb (by norm_num) (by norm_num) hi he hd y n).2.2⟩

end Verif.HermiteLegendre
