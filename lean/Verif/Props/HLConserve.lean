import Verif.Props.HLSplit
import Verif.Props.HLBgk

/-!
C123: the Lawson and IMEX integrators of the mixed solver conserve particle number and momentum.
-/
namespace Verif.HermiteLegendre
open Finset Complex Verif.Spectral Verif.Hermite
open scoped Matrix ComplexConjugate

variable {N : ℕ} [NeZero N] {nh nl : ℕ} [NeZero nh] [NeZero nl]

/-- The means of the three moments over the box. -/
noncomputable def means (p : Setup nh nl N) : Cs nh nl N →ₗ[ℝ] (Fin 3 → ℝ) where
  toFun c := p.moments *ᵥ low (fun j => (c.1 j 0).re) (fun j => (c.2 j 0).re)
  map_add' c d := by
    rw [← Matrix.mulVec_add]; congr 1; funext j; fin_cases j <;> simp [low]
  map_smul' r c := by
    rw [RingHom.id_apply, ← Matrix.mulVec_smul]; congr 1; funext j; fin_cases j <;> simp [low]

theorem means_def (p : Setup nh nl N) (c : Cs nh nl N) : means p c = p.moments *ᵥ low (fun j => (c.1 j 0).re) (fun j => (c.2 j 0).re) := rfl

theorem low_congr {A : Type} (hh : 3 ≤ nh) (hl : 3 ≤ nl) {C C' : Fin nh → A} {B B' : Fin nl → A} (h1 : ∀ i : Fin nh, i.val < 3 → C i = C' i) (h2 : ∀ i : Fin nl, i.val < 3 → B i = B' i) :
    low C B = low C' B' := by
  have k : ∀ i, i < 3 → ((clampIx i : Fin nh).val < 3 ∧ (clampIx i : Fin nl).val < 3) := by
    intro i hi; rw [clampIx_val i (by omega), clampIx_val i (by omega)]; exact ⟨hi, hi⟩
  unfold low
  rw [h1 _ (k 0 (by omega)).1, h1 _ (k 1 (by omega)).1, h1 _ (k 2 (by omega)).1, h2 _ (k 0 (by omega)).2, h2 _ (k 1 (by omega)).2, h2 _ (k 2 (by omega)).2]

omit [NeZero N] in
theorem low_mean (A : ZMod N → Fin nh → ℝ) (B : ZMod N → Fin nl → ℝ) [Fintype (ZMod N)] (r : ℝ) :
    low (fun i => r * ∑ x, A x i) (fun i => r * ∑ x, B x i) = r • ∑ x, low (A x) (B x) := by
  funext j
  rw [Pi.smul_apply, Finset.sum_apply]
  fin_cases j <;> rfl

/-- The means of the moments of coefficients given position by position. -/
theorem means_local (p : Setup nh nl N) (hh : 3 ≤ nh) (hl : 3 ≤ nl) (c : Cs nh nl N) (A : ZMod N → Fin nh → ℝ) (B : ZMod N → Fin nl → ℝ)
    (h1 : ∀ i : Fin nh, i.val < 3 → (c.1 i 0).re = 1 / N * ∑ x, A x i) (h2 : ∀ i : Fin nl, i.val < 3 → (c.2 i 0).re = 1 / N * ∑ x, B x i) (i : Fin 3) :
    means p c i = 1 / N * ∑ x, (p.moments *ᵥ low (A x) (B x)) i := by
  rw [means_def, low_congr hh hl h1 h2, low_mean, Matrix.mulVec_smul, Pi.smul_apply, smul_eq_mul, Matrix.mulVec_sum, Finset.sum_apply]

/-- The conserving setting: no penalty and no coupling on the first three Legendre coefficients. -/
structure Conserving (p : Setup nh nl N) : Prop where
  gamma : ∀ m : Fin nl, m.val < 3 → p.gamma m = 0
  coupling : ∀ m : Fin nl, m.val < 3 → p.coupling m = 0

/-- What the options make of it: conservation enforced and the penalty not on every mode. -/
theorem conserving_options (p : Setup nh nl N) (g : ℝ) (J : Fin nl → ℝ) (hg : p.gamma = gammaVec g false) (hc : p.coupling = couplingVec nh p.alpha (p.b - p.a) true J) :
    Conserving p := by
  constructor <;> intro m hm
  · rw [hg, gammaVec, if_neg (by simp), if_neg (by omega)]
  · rw [hc, couplingVec, if_pos ⟨rfl, hm⟩, mul_zero]

theorem re_sum_real (F : ZMod N → ℝ) (g : ZMod N → ℂ) : (∑ x, (F x : ℂ) * g x).re = ∑ x, F x * (g x).re := by
  rw [Complex.re_sum]; exact sum_congr rfl fun x _ => re_ofReal_mul _ _

theorem mulVec_re {n : ℕ} (G : Matrix (Fin n) (Fin n) ℝ) (f : Fin n → ℂ) (i : Fin n) : ((G.map ofReal *ᵥ f) i).re = (G *ᵥ fun j => (f j).re) i := by
  simp only [Matrix.mulVec, dotProduct, Matrix.map_apply, Complex.re_sum]
  exact sum_congr rfl fun j _ => re_ofReal_mul _ _

/-- The masked coefficients at a position. -/
noncomputable def maskH (p : Setup nh nl N) (c : Cs nh nl N) (x : ZMod N) : Fin nh → ℝ := fun j => (toX (masked p.mask (c.1 j)) x).re
noncomputable def maskL (p : Setup nh nl N) (c : Cs nh nl N) (x : ZMod N) : Fin nl → ℝ := fun j => (toX (masked p.mask (c.2 j)) x).re

omit [NeZero nl] in
theorem hermite_force_mean (p : Setup nh nl N) (hb : ∀ m, p.mask = some m → m 0 = true) (E : ZMod N → ℝ) (c : Cs nh nl N) (i : Fin nh) :
    (hermiteForce p.alpha p.mask E c.1 i 0).re = 1 / N * ∑ x, maskedForce p.mask E x * (GC nh p.alpha *ᵥ maskH p c x) i := by
  rw [hermiteForce, masked_mean hb, toK_mean]
  have e : (∑ x, ((-(Real.sqrt (2 * i.val) / p.alpha) : ℝ) : ℂ) * (maskedForce p.mask E x : ℂ) * up (fun j => toX (masked p.mask (c.1 j)) x) i) =
      ∑ x, ((-(Real.sqrt (2 * i.val) / p.alpha) * maskedForce p.mask E x : ℝ) : ℂ) * up (fun j => toX (masked p.mask (c.1 j)) x) i := by
    refine sum_congr rfl fun x _ => ?_
    push_cast; ring
  rw [e, div_natCast_re, re_sum_real, sum_div, mul_sum]
  refine sum_congr rfl fun x _ => ?_
  rw [GC_mulVec, up]
  split_ifs with h
  · simp
  · simp only [maskH]; ring

omit [NeZero nh] in
theorem legendre_force_mean (p : Setup nh nl N) (hb : ∀ m, p.mask = some m → m 0 = true) (E : ZMod N → ℝ) (c : Cs nh nl N) (i : Fin nl) :
    (legendreForce p.a p.b p.gamma p.mask E c.2 i 0).re = 1 / N * ∑ x, maskedForce p.mask E x * (GB p.a p.b p.gamma *ᵥ maskL p c x) i := by
  rw [legendreForce, masked_mean hb, toK_mean]
  have e : ∀ x, legendreRate p.a p.b p.gamma (maskedForce p.mask E x) (fun j => toX (masked p.mask (c.2 j)) x) i =
      (maskedForce p.mask E x : ℂ) * ((GB p.a p.b p.gamma).map ofReal *ᵥ fun j => toX (masked p.mask (c.2 j)) x) i := fun x => legendre_rate _ _ _ _ _ _
  rw [sum_congr rfl fun x _ => e x, div_natCast_re, re_sum_real, sum_div, mul_sum]
  refine sum_congr rfl fun x _ => ?_
  rw [mulVec_re]
  have e2 : (fun j => (toX (masked p.mask (c.2 j)) x).re) = maskL p c x := rfl
  rw [e2]; ring

/-- The density of the masked coefficients is the masked density. -/
theorem masked_density (p : Setup nh nl N) (hs : ∀ m, p.mask = some m → ∀ k, m (-k) = m k) (c : Cs nh nl N) (x : ZMod N) :
    (p.moments *ᵥ low (maskH p c x) (maskL p c x)) 0 = maskedForce p.mask (fun x => 1 - p.charge c x) x := by
  have k0 : (clampIx 0 : Fin nh) = 0 := Fin.ext (by simp [clampIx])
  have k0' : (clampIx 0 : Fin nl) = 0 := Fin.ext (by simp [clampIx])
  have hl := maskedForce_lin p.mask p.alpha (p.b - p.a) (fun x => (toX (c.1 0) x).re) (fun x => (toX (c.2 0) x).re) x
  rw [show (fun x => 1 - p.charge c x) = fun x => p.alpha * (toX (c.1 0) x).re + (p.b - p.a) * (toX (c.2 0) x).re from by
    funext x; rw [Setup.charge]; ring, hl, ← re_masked hs, ← re_masked hs]
  simp only [Matrix.mulVec, dotProduct, Fin.sum_univ_six, low, k0, k0']
  have e : ∀ j, p.moments 0 j = ![p.alpha, 0, 0, p.b - p.a, 0, 0] j := fun j => rfl
  simp only [e, Matrix.cons_val, maskH, maskL]
  ring

theorem maskedForce_one {m : Option (ZMod N → Bool)} (hm : ∀ f, m = some f → f 0 = true) (hs : ∀ f, m = some f → ∀ k, f (-k) = f k) (r : ℝ) :
    maskedForce m (fun _ : ZMod N => r) = fun _ => r := by
  refine toK_inj fun k => ?_
  rw [toK_maskedForce hs]
  rcases m with _ | f
  · rfl
  · rw [masked]
    split_ifs with h
    · rfl
    · have hk : k ≠ 0 := fun e => h (by rw [e]; exact hm f rfl)
      have h1 : toK (fun _ : ZMod N => (r : ℂ)) = toK (toX fun k => if k = 0 then (r : ℂ) else 0) := by
        congr 1; funext x
        rw [toX_mean _ (fun k hk => if_neg hk), if_pos rfl]
      rw [h1, toK_toX, if_neg hk]

theorem maskedForce_sum {m : Option (ZMod N → Bool)} (hm : ∀ f, m = some f → f 0 = true) (hs : ∀ f, m = some f → ∀ k, f (-k) = f k) (F : ZMod N → ℝ) :
    ∑ x, maskedForce m F x = ∑ x, F x := by
  have hN : (N : ℂ) ≠ 0 := Nat.cast_ne_zero.mpr (NeZero.ne N)
  have h := toK_maskedForce hs F 0
  rw [masked_mean hm, toK_mean, toK_mean, div_left_inj' hN] at h
  exact_mod_cast h

/-- The field of the plasma exerts no net force on it, mask or not. -/
theorem self_force (p : Setup nh nl N) (hb : Built p) (c : Cs nh nl N) :
    ∑ x, maskedForce p.mask (p.field c) x * maskedForce p.mask (fun x => 1 - p.charge c x) x = 0 := by
  by_cases hf : p.fieldOn = true
  · have e : p.field c = Hermite.field p.L (p.charge c) := by funext x; rw [Setup.field, if_pos hf]
    have h := net_force (m := p.mask) hb.maskSymm p.L (fun _ => 1) fun x => 1 - p.charge c x
    rw [show (fun x => (1 : ℝ) - (1 - p.charge c x)) = p.charge c from by funext x; ring, ← e, maskedForce_one hb.mask0 hb.maskSymm] at h
    have h0 : ∑ x, maskedForce p.mask (p.field c) x = 0 := by
      rw [maskedForce_sum hb.mask0 hb.maskSymm]; exact ((mixed_gauss p hb.length c).1 hf).2.1
    simp only [mul_sub, mul_one, sum_sub_distrib] at h
    linarith
  · have e : p.field c = fun _ => 0 := (mixed_gauss p hb.length c).2 (by simpa using hf)
    rw [e, maskedForce_null]; simp

/-- The same with the unmasked field. -/
theorem masked_pairing {m : Option (ZMod N → Bool)} (hs : ∀ f, m = some f → ∀ k, f (-k) = f k) (F G : ZMod N → ℝ) :
    ∑ x, F x * maskedForce m G x = ∑ x, maskedForce m F x * maskedForce m G x := by
  have hN : (N : ℂ) ≠ 0 := Nat.cast_ne_zero.mpr (NeZero.ne N)
  have hp : ∀ F G : ZMod N → ℝ, ((∑ x, F x * G x : ℝ) : ℂ) = N * ∑ k, conj (toK (fun x => (F x : ℂ)) k) * toK (fun x => (G x : ℂ)) k := by
    intro F G
    have h := Spectral.parseval (fun x => (F x : ℂ)) (fun x => (G x : ℂ))
    have e : ∀ k, conj (toK (fun x => (F x : ℂ)) k) * toK (fun x => (G x : ℂ)) k = 1 / (N : ℂ) ^ 2 * (conj (fft (fun x => (F x : ℂ)) k) * fft (fun x => (G x : ℂ)) k) := by
      intro k; rw [toK, toK, map_div₀, Complex.conj_natCast]; field_simp
    rw [sum_congr rfl fun k _ => e k, ← mul_sum, h]
    have e2 : ∑ j, conj ((F j : ℝ) : ℂ) * ((G j : ℝ) : ℂ) = ((∑ x, F x * G x : ℝ) : ℂ) := by
      push_cast; exact sum_congr rfl fun x _ => by rw [conj_ofReal]
    rw [e2]; field_simp
  apply ofReal_injective
  rw [hp, hp]
  congr 1
  refine sum_congr rfl fun k _ => ?_
  rw [toK_maskedForce hs, toK_maskedForce hs]
  rcases m with _ | f
  · rfl
  · simp only [masked]; split_ifs <;> simp

omit [NeZero nl] in
/-- The coupling leaves alone what the gate closes. -/
theorem cross_low (L alpha : ℝ) (cv : Fin nl → ℝ) (m : Option (ZMod N → Bool)) (E : ZMod N → ℝ) (C : Coef nh N) (i : Fin nl) (h : cv i = 0) (k : ZMod N) :
    cross L alpha cv m E C i k = 0 := by
  rw [cross, h]; simp

/-- The right-hand side changes neither particle number nor, without a driver, momentum. -/
theorem rhs_means (p : Setup nh nl N) (hb : Built p) (hc : Conserving p) (hh : 3 ≤ nh) (hl : 3 ≤ nl) (t : ℝ) (c : Cs nh nl N) :
    means p (p.rhs t c) 0 = 0 ∧ (p.driver = none → means p (p.rhs t c) 1 = 0) := by
  obtain ⟨E, hE⟩ : ∃ E : ZMod N → ℝ, E = fun x => p.field c x + p.driven t x := ⟨_, rfl⟩
  by_cases hi : p.integrator = .imex
  · have hr : p.rhs t c = (0, cross p.L p.alpha p.coupling p.mask E c.1) := by rw [Setup.rhs, if_pos hi, hE]
    have h0 : means p (p.rhs t c) = 0 := by
      rw [hr, means_def]
      have : low (fun j : Fin nh => (((0 : Coef nh N) j 0 : ℂ)).re) (fun j : Fin nl => (cross p.L p.alpha p.coupling p.mask E c.1 j 0).re) = low (0 : Fin nh → ℝ) (0 : Fin nl → ℝ) :=
        low_congr hh hl (fun i _ => rfl) (fun i hi => by rw [cross_low _ _ _ _ _ _ _ (hc.coupling i hi)]; rfl)
      rw [this]
      have h00 : low (0 : Fin nh → ℝ) (0 : Fin nl → ℝ) = 0 := by funext j; fin_cases j <;> rfl
      rw [h00, Matrix.mulVec_zero]
    rw [h0]; exact ⟨rfl, fun _ => rfl⟩
  · have hr : p.rhs t c = (hermiteForce p.alpha p.mask E c.1, fun i k => legendreForce p.a p.b p.gamma p.mask E c.2 i k + cross p.L p.alpha p.coupling p.mask E c.1 i k) := by
      rw [Setup.rhs, if_neg hi, hE]
    have hm := means_local p hh hl (p.rhs t c) (fun x => maskedForce p.mask E x • (GC nh p.alpha *ᵥ maskH p c x)) (fun x => maskedForce p.mask E x • (GB p.a p.b p.gamma *ᵥ maskL p c x))
      (fun i _ => by rw [hr]; exact hermite_force_mean p hb.mask0 E c i)
      (fun i hi => by
        rw [hr]; dsimp only
        rw [cross_low _ _ _ _ _ _ _ (hc.coupling i hi), add_zero]
        exact legendre_force_mean p hb.mask0 E c i)
    have hl2 : ∀ x, p.moments *ᵥ low (maskedForce p.mask E x • (GC nh p.alpha *ᵥ maskH p c x)) (maskedForce p.mask E x • (GB p.a p.b p.gamma *ᵥ maskL p c x)) =
        maskedForce p.mask E x • (p.moments *ᵥ low (GC nh p.alpha *ᵥ maskH p c x) (GB p.a p.b p.gamma *ᵥ maskL p c x)) := by
      intro x
      have e : low (maskedForce p.mask E x • (GC nh p.alpha *ᵥ maskH p c x)) (maskedForce p.mask E x • (GB p.a p.b p.gamma *ᵥ maskL p c x)) =
          maskedForce p.mask E x • low (GC nh p.alpha *ᵥ maskH p c x) (GB p.a p.b p.gamma *ᵥ maskL p c x) := by
        funext j; fin_cases j <;> rfl
      rw [e, Matrix.mulVec_smul]
    have hfm := fun x => force_moments hh hl p.alpha p.u p.a p.b hb.window p.gamma hc.gamma (maskH p c x) (maskL p c x)
    constructor
    · rw [hm]
      refine mul_eq_zero_of_right _ (sum_eq_zero fun x _ => ?_)
      rw [hl2, Pi.smul_apply]
      have : (p.moments *ᵥ low (GC nh p.alpha *ᵥ maskH p c x) (GB p.a p.b p.gamma *ᵥ maskL p c x)) 0 = 0 := (hfm x).1
      rw [this, smul_zero]
    · intro hd
      have hE2 : E = p.field c := by
        rw [hE]; funext x
        have : p.driven t x = 0 := by unfold Setup.driven; rw [hd]
        rw [this, add_zero]
      rw [hm]
      refine mul_eq_zero_of_right _ ?_
      have e : ∀ x, (p.moments *ᵥ low (maskedForce p.mask E x • (GC nh p.alpha *ᵥ maskH p c x)) (maskedForce p.mask E x • (GB p.a p.b p.gamma *ᵥ maskL p c x))) 1 =
          -(maskedForce p.mask (p.field c) x * maskedForce p.mask (fun x => 1 - p.charge c x) x) := by
        intro x
        rw [hl2, Pi.smul_apply]
        have h1 : (p.moments *ᵥ low (GC nh p.alpha *ᵥ maskH p c x) (GB p.a p.b p.gamma *ᵥ maskL p c x)) 1 = -(p.moments *ᵥ low (maskH p c x) (maskL p c x)) 0 := (hfm x).2.1
        rw [h1, masked_density p hb.maskSymm, hE2, smul_eq_mul]; ring
      rw [sum_congr rfl fun x _ => e x, sum_neg_distrib, self_force p hb, neg_zero]

/-- So the Lawson step keeps both. -/
theorem lawson_means (p : Setup nh nl N) (hb : Built p) (hc : Conserving p) (hh : 3 ≤ nh) (hl : 3 ≤ nl) (t : ℝ) (c : Cs nh nl N) :
    means p (lawson p.exp p.rhs t p.dt c) 0 = means p c 0 ∧ (p.driver = none → means p (lawson p.exp p.rhs t p.dt c) 1 = means p c 1) := by
  have hS : ∀ s v, means p (p.exp s v) = means p v := by
    intro s v
    obtain ⟨h1, h2⟩ := exp_means p hb s v
    rw [means_def, means_def]
    congr 1
    exact low_congr hh hl (fun i hi => by rw [h1 i hi]) (fun i hi => by rw [h2 i hi])
  constructor
  · exact lawson_invariant ((LinearMap.proj 0).comp (means p)) p.exp p.rhs t p.dt c (fun s v => congrFun (hS s v) 0) (fun s v => (rhs_means p hb hc hh hl s v).1)
  · intro hd
    exact lawson_invariant ((LinearMap.proj 1).comp (means p)) p.exp p.rhs t p.dt c (fun s v => congrFun (hS s v) 1) (fun s v => (rhs_means p hb hc hh hl s v).2 hd)

/-! ### The implicit substep -/

theorem GC_det (alpha s : ℝ) : (1 - (s : ℂ) • (GC nh alpha).map ofReal : Matrix (Fin nh) (Fin nh) ℂ).det = 1 := by
  rw [Matrix.det_of_isLowerTriangular]
  · refine prod_eq_one fun i _ => ?_
    simp only [Matrix.sub_apply, Matrix.one_apply_eq, Matrix.smul_apply, Matrix.map_apply, GC]
    rw [if_neg (by omega)]; simp
  · intro i j hij
    have hij' : i < j := hij
    have := Fin.lt_def.mp hij'
    simp only [Matrix.sub_apply, Matrix.one_apply_ne (ne_of_lt hij'), Matrix.smul_apply, Matrix.map_apply, GC]
    rw [if_neg (by omega)]; simp

/-- A backward Euler solve, in real parts. -/
theorem euler_re {n : ℕ} (G : Matrix (Fin n) (Fin n) ℝ) (s : ℝ) (f : Fin n → ℂ) (h : (1 - (s : ℂ) • G.map ofReal : Matrix (Fin n) (Fin n) ℂ).det ≠ 0) (i : Fin n) :
    ((((1 - (s : ℂ) • G.map ofReal : Matrix (Fin n) (Fin n) ℂ)⁻¹ *ᵥ f) i).re) =
      (f i).re + s * (G *ᵥ fun j => (((1 - (s : ℂ) • G.map ofReal : Matrix (Fin n) (Fin n) ℂ)⁻¹ *ᵥ f) j).re) i := by
  obtain ⟨g, hg⟩ : ∃ g, g = (1 - (s : ℂ) • G.map ofReal : Matrix (Fin n) (Fin n) ℂ)⁻¹ *ᵥ f := ⟨_, rfl⟩
  have h1 : (1 - (s : ℂ) • G.map ofReal : Matrix (Fin n) (Fin n) ℂ) *ᵥ g = f := by
    rw [hg, Matrix.mulVec_mulVec, Matrix.mul_nonsing_inv _ (isUnit_iff_ne_zero.mpr h), Matrix.one_mulVec]
  rw [← hg]
  have h2 := congrArg Complex.re (congrFun h1 i)
  rw [Matrix.sub_mulVec, Matrix.one_mulVec, Matrix.smul_mulVec, Pi.sub_apply, Pi.smul_apply, Complex.sub_re, smul_eq_mul, re_ofReal_mul, mulVec_re] at h2
  linarith

/-- The implicit substep keeps particle number, and momentum when the field is the plasma's own. -/
theorem implicit_means (p : Setup nh nl N) (hb : Built p) (hc : Conserving p) (hh : 3 ≤ nh) (hl : 3 ≤ nl) (E : ZMod N → ℝ) (c : Cs nh nl N)
    (hs : ∀ x, (1 - ((p.dt * E x : ℝ) : ℂ) • (GB p.a p.b p.gamma).map ofReal : Matrix (Fin nl) (Fin nl) ℂ).det ≠ 0) :
    means p (p.implicitE E c) 0 = means p c 0 ∧ (E = p.field c → means p (p.implicitE E c) 1 = means p c 1) := by
  have hN : (N : ℝ) ≠ 0 := Nat.cast_ne_zero.mpr (NeZero.ne N)
  obtain ⟨f, hf⟩ : ∃ f : ZMod N → Fin nh → ℂ, f = fun x => (1 - ((p.dt * E x : ℝ) : ℂ) • (GC nh p.alpha).map ofReal)⁻¹ *ᵥ fun j => toX (masked p.mask (c.1 j)) x := ⟨_, rfl⟩
  obtain ⟨g, hg⟩ : ∃ g : ZMod N → Fin nl → ℂ, g = fun x => (1 - ((p.dt * E x : ℝ) : ℂ) • (GB p.a p.b p.gamma).map ofReal)⁻¹ *ᵥ fun j => toX (masked p.mask (c.2 j)) x := ⟨_, rfl⟩
  have hout : p.implicitE E c = (fun i => masked p.mask (toK fun x => f x i), fun m => masked p.mask (toK fun x => g x m)) := by rw [hf, hg]; rfl
  have fre : ∀ x, (fun i => (f x i).re) = maskH p c x + (p.dt * E x) • (GC nh p.alpha *ᵥ fun i => (f x i).re) := by
    intro x; funext i
    have := euler_re (GC nh p.alpha) (p.dt * E x) (fun j => toX (masked p.mask (c.1 j)) x) (by rw [GC_det]; exact one_ne_zero) i
    rw [hf]; exact this
  have gre : ∀ x, (fun i => (g x i).re) = maskL p c x + (p.dt * E x) • (GB p.a p.b p.gamma *ᵥ fun i => (g x i).re) := by
    intro x; funext i
    have := euler_re (GB p.a p.b p.gamma) (p.dt * E x) (fun j => toX (masked p.mask (c.2 j)) x) (hs x) i
    rw [hg]; exact this
  have hm := means_local p hh hl (p.implicitE E c) (fun x i => (f x i).re) (fun x i => (g x i).re)
    (fun i _ => by rw [hout]; dsimp only; rw [masked_mean hb.mask0, toK_mean, div_natCast_re, Complex.re_sum]; ring)
    (fun i _ => by rw [hout]; dsimp only; rw [masked_mean hb.mask0, toK_mean, div_natCast_re, Complex.re_sum]; ring)
  have hmc := means_local p hh hl c (fun x => maskH p c x) (fun x => maskL p c x)
    (fun i _ => by simp only [maskH]; rw [mean_re, masked_mean hb.mask0]; field_simp)
    (fun i _ => by simp only [maskL]; rw [mean_re, masked_mean hb.mask0]; field_simp)
  have hfm := fun x => force_moments hh hl p.alpha p.u p.a p.b hb.window p.gamma hc.gamma (fun i => (f x i).re) (fun i => (g x i).re)
  have hsplit : ∀ x i, (p.moments *ᵥ low (fun i => (f x i).re) (fun i => (g x i).re)) i = (p.moments *ᵥ low (maskH p c x) (maskL p c x)) i
      + p.dt * E x * (p.moments *ᵥ low (GC nh p.alpha *ᵥ fun i => (f x i).re) (GB p.a p.b p.gamma *ᵥ fun i => (g x i).re)) i := by
    intro x i
    conv_lhs => rw [fre x, gre x]
    have e : low (maskH p c x + (p.dt * E x) • (GC nh p.alpha *ᵥ fun i => (f x i).re)) (maskL p c x + (p.dt * E x) • (GB p.a p.b p.gamma *ᵥ fun i => (g x i).re)) =
        low (maskH p c x) (maskL p c x) + (p.dt * E x) • low (GC nh p.alpha *ᵥ fun i => (f x i).re) (GB p.a p.b p.gamma *ᵥ fun i => (g x i).re) := by
      funext j; fin_cases j <;> rfl
    rw [e, Matrix.mulVec_add, Matrix.mulVec_smul]; rfl
  have h0 : ∀ x, (p.moments *ᵥ low (fun i => (f x i).re) (fun i => (g x i).re)) 0 = (p.moments *ᵥ low (maskH p c x) (maskL p c x)) 0 := by
    intro x
    have : (p.moments *ᵥ low (GC nh p.alpha *ᵥ fun i => (f x i).re) (GB p.a p.b p.gamma *ᵥ fun i => (g x i).re)) 0 = 0 := (hfm x).1
    rw [hsplit, this, mul_zero, add_zero]
  constructor
  · rw [hm, hmc]
    exact congrArg _ (sum_congr rfl fun x _ => h0 x)
  · intro hE
    rw [hm, hmc]
    congr 1
    have e : ∀ x, (p.moments *ᵥ low (fun i => (f x i).re) (fun i => (g x i).re)) 1 = (p.moments *ᵥ low (maskH p c x) (maskL p c x)) 1
        - p.dt * (p.field c x * maskedForce p.mask (fun x => 1 - p.charge c x) x) := by
      intro x
      have : (p.moments *ᵥ low (GC nh p.alpha *ᵥ fun i => (f x i).re) (GB p.a p.b p.gamma *ᵥ fun i => (g x i).re)) 1 =
          -(p.moments *ᵥ low (fun i => (f x i).re) (fun i => (g x i).re)) 0 := (hfm x).2.1
      rw [hsplit, this, h0, masked_density p hb.maskSymm, hE]; ring
    rw [sum_congr rfl fun x _ => e x, sum_sub_distrib, ← mul_sum, masked_pairing hb.maskSymm, self_force p hb, mul_zero, sub_zero]

theorem totals_means (p : Setup nh nl N) (hb : Built p) (hh : 3 ≤ nh) (hl : 3 ≤ nl) (c : Cs nh nl N) :
    mass p c = N * means p c 0 ∧ momentum p c = N * means p c 1 := by
  obtain ⟨h0, h1, _⟩ := totals p hb hh hl c
  rw [h0, h1, means_def]
  simp [Setup.momentDensity]

/-- C123: with the conserving setting the explicit and the implicit-explicit integrator conserve the number of particles, whatever the driver, and
the momentum without one, over any number of steps, with or without physical collisions. -/
theorem explicit_conserves (p : Setup nh nl N) (hb : Built p) (hc : Conserving p) (hh : 3 ≤ nh) (hl : 3 ≤ nl) (hi : p.integrator ≠ .split)
    (hs : p.integrator = .imex → ∀ s : ℝ, (1 - (s : ℂ) • (GB p.a p.b p.gamma).map ofReal : Matrix (Fin nl) (Fin nl) ℂ).det ≠ 0) (y : State nh nl N) (n : ℕ) :
    mass p (p.run y n).c = mass p y.c ∧ (p.driver = none → momentum p (p.run y n).c = momentum p y.c) := by
  have hcol : ∀ s c, mass p (p.collide s c) = mass p c ∧ momentum p (p.collide s c) = momentum p c := by
    intro s c
    obtain ⟨hx, _⟩ := collisions_local p hb hh hl s c
    exact ⟨sum_congr rfl fun x _ => (hx x).1, sum_congr rfl fun x _ => (hx x).2.1⟩
  have hkm : ∀ t c, means p (p.kinetic t c) 0 = means p c 0 ∧ (p.driver = none → means p (p.kinetic t c) 1 = means p c 1) := by
    intro t c
    obtain ⟨l0, l1⟩ := lawson_means p hb hc hh hl t c
    rcases hI : p.integrator with _ | _ | _
    · have hk : p.kinetic t c = lawson p.exp p.rhs t p.dt c := by unfold Setup.kinetic; rw [hI]
      rw [hk]; exact ⟨l0, l1⟩
    · have hk : p.kinetic t c = p.implicitE (fun x => p.field (lawson p.exp p.rhs t p.dt c) x + p.driven (t + p.dt) x) (lawson p.exp p.rhs t p.dt c) := by
        unfold Setup.kinetic; rw [hI]
      obtain ⟨i0, i1⟩ := implicit_means p hb hc hh hl (fun x => p.field (lawson p.exp p.rhs t p.dt c) x + p.driven (t + p.dt) x) (lawson p.exp p.rhs t p.dt c) (fun x => hs hI _)
      rw [hk]
      refine ⟨i0.trans l0, fun hd => (i1 ?_).trans (l1 hd)⟩
      funext x
      have : p.driven (t + p.dt) x = 0 := by unfold Setup.driven; rw [hd]
      rw [this, add_zero]
    · exact absurd hI hi
  have hkin : ∀ t c, mass p (p.kinetic t c) = mass p c ∧ (p.driver = none → momentum p (p.kinetic t c) = momentum p c) := by
    intro t c
    obtain ⟨a0, a1⟩ := totals_means p hb hh hl (p.kinetic t c)
    obtain ⟨b0, b1⟩ := totals_means p hb hh hl c
    rw [a0, a1, b0, b1, (hkm t c).1]
    exact ⟨rfl, fun hd => by rw [(hkm t c).2 hd]⟩
  induction n with
  | zero => exact ⟨rfl, fun _ => rfl⟩
  | succ n ih =>
    have hst : (p.run y (n + 1)).c = p.collide (0.5 * p.dt) (p.kinetic (n * p.dt) (p.collide (0.5 * p.dt) (p.run y n).c)) := rfl
    rw [hst, (hcol _ _).1, (hcol _ _).2, (hkin _ _).1, (hcol _ _).1]
    refine ⟨ih.1, fun hd => ?_⟩
    rw [(hkin _ _).2 hd, (hcol _ _).2, ih.2 hd]

/-- The implicit solve exists whenever no penalty acts: every deck with `gamma` zero meets the hypotheses, with either integrator. -/
theorem no_penalty_solvable (a b : ℝ) (s : ℝ) : (1 - (s : ℂ) • (GB (nl := nl) a b (fun _ => 0)).map ofReal : Matrix (Fin nl) (Fin nl) ℂ).det ≠ 0 := by
  rw [Matrix.det_of_isLowerTriangular]
  · refine prod_ne_zero_iff.mpr fun i _ => ?_
    simp only [Matrix.sub_apply, Matrix.one_apply_eq, Matrix.smul_apply, Matrix.map_apply, GB, deriv]
    rw [if_neg (fun e => absurd e.1 (lt_irrefl _))]; simp
  · intro i j hij
    have hij' : i < j := hij
    have := Fin.lt_def.mp hij'
    simp only [Matrix.sub_apply, Matrix.one_apply_ne (ne_of_lt hij'), Matrix.smul_apply, Matrix.map_apply, GB, deriv]
    rw [if_neg (fun e => by have := e.1; omega)]; simp

theorem explicit_exists (N : ℕ) [NeZero N] (i : Integrator) (dr : Option (ℝ → ZMod N → ℝ)) (nuH : ℝ) (col : Option (Collision 5)) : ∃ p : Setup 4 5 N, Built p ∧ Conserving p ∧ p.integrator = i ∧
    (∀ s : ℝ, (1 - (s : ℂ) • (GB p.a p.b p.gamma).map ofReal : Matrix (Fin 5) (Fin 5) ℂ).det ≠ 0) ∧ p.driver = dr ∧ p.fieldOn = true ∧ p.collision = col ∧ p.dt = 1 / 10 ∧ p.nuH = nuH := by
  obtain ⟨dh, hdh⟩ := eigh_exists 4 1 (1 / 2)
  obtain ⟨dl, hdl⟩ := eigh_symm _ (TL_symm 5 2 6)
  refine ⟨⟨1, 1 / 10, 1, 1 / 2, 2, 6, dh, dl, nuH, 1, gammaVec 0 false, couplingVec 4 1 (6 - 2) true (fun _ => 1), some (mask23 N), true, dr, i, 3, none, true, col⟩,
    ⟨one_ne_zero, one_pos, by norm_num, hdh, hdl, ?_, ?_⟩, conserving_options _ 0 (fun _ => 1) rfl rfl, rfl, ?_, rfl, rfl, rfl, rfl, rfl⟩
  · intro m hm; cases hm; exact mask23_zero
  · intro m hm k; cases hm; exact mask23_symm k
  · intro s
    have : gammaVec (nl := 5) 0 false = fun _ => 0 := by funext m; rw [gammaVec]; simp
    dsimp only
    rw [this]
    exact no_penalty_solvable 2 6 s

example : ∃ p : Setup 4 5 8, p.integrator = .imex ∧ p.driver = none ∧ ∀ y n, momentum p (p.run y n).c = momentum p y.c := by
  obtain ⟨p, hb, hc, hi, hs, hd, _⟩ := explicit_exists 8 .imex none 1 none
  exact ⟨p, hi, hd, fun y n => (explicit_conserves p hb hc (by norm_num) (by norm_num) (by rw [hi]; decide) (fun _ => hs) y n).2 hd⟩

end Verif.HermiteLegendre
