import Verif.Props.HLEquilibrium

/-!
C125: the checks on the deck of the mixed solver.
C126: its initial states.
-/
namespace Verif.HermiteLegendre
open Finset Complex Verif.Spectral Verif.Hermite
open scoped Matrix ComplexConjugate

variable {N : ℕ} [NeZero N] {nh nl : ℕ} [NeZero nh] [NeZero nl]

/-! ### C125 -/

omit [NeZero nh] [NeZero nl] in
/-- Which decks pass the checks. -/
theorem accepted (integrator : String) (nh nl : ℕ) (iters : ℤ) (model : String) (nu : ℚ) :
    checks integrator nh nl iters model nu = .ok () ↔
      integrator ∈ ["lawson", "imex", "split"] ∧ model ∈ ["none", "off", "bgk", "dougherty"] ∧ 1 ≤ iters ∧ 0 ≤ nu ∧
      (integrator = "split" → 3 ≤ nh ∧ 3 ≤ nl) ∧ (0 < nu → model = "bgk" → 3 ≤ nh) ∧ (0 < nu → model = "dougherty" → 3 ≤ nh ∧ 3 ≤ nl) := by
  rw [checks]
  simp only [List.mem_cons, List.not_mem_nil, or_false]
  split_ifs with h1 h2 h3 h4 h5 h6 h7
  · refine ⟨fun h => (by cases h), fun h => ?_⟩
    rcases h.1 with e | e | e
    · exact absurd e h1.1
    · exact absurd e h1.2.1
    · exact absurd e h1.2.2
  · exact ⟨fun h => (by cases h), fun h => by have := h.2.2.2.2.1 h2.1; omega⟩
  · exact ⟨fun h => (by cases h), fun h => by have := h.2.2.1; omega⟩
  · refine ⟨fun h => (by cases h), fun h => ?_⟩
    rcases h.2.1 with e | e | e | e
    · exact absurd e h4.1
    · exact absurd e h4.2.1
    · exact absurd e h4.2.2.1
    · exact absurd e h4.2.2.2
  · exact ⟨fun h => (by cases h), fun h => absurd h.2.2.2.1 (not_le.mpr h5)⟩
  · exact ⟨fun h => (by cases h), fun h => by have := h.2.2.2.2.2.1 h6.2.1 h6.1; omega⟩
  · exact ⟨fun h => (by cases h), fun h => by have := h.2.2.2.2.2.2 h7.2.1 h7.1; omega⟩
  · refine ⟨fun _ => ⟨?_, ?_, by omega, not_lt.mp h5, fun e => ?_, fun a e => ?_, fun a e => ?_⟩, fun _ => rfl⟩
    · by_contra hc; push Not at hc; exact h1 hc
    · by_contra hc; push Not at hc; exact h4 hc
    · by_contra hc; exact h2 ⟨e, by omega⟩
    · by_contra hc; exact h6 ⟨e, a, by omega⟩
    · by_contra hc; exact h7 ⟨e, a, by omega⟩

/-- BGK collisions with fewer than three Legendre modes are accepted although the code means to refuse them, and then the moment map is
wrong: the missing coefficients are read as copies of the last one.  Here one Legendre mode on the window `[0, 2]`, of momentum 2; the
moment map says 4. -/
theorem bgk_guard_partial : checks "lawson" 3 1 1 "bgk" 1 = .ok () ∧ ∃ (C : Fin 3 → ℝ) (B : Fin 1 → ℝ),
    (momentMatrix 1 0 (TL 1 0 2) (2 - 0) *ᵥ low C B) 1 ≠ momentumInt (dist 1 0 0 2 C B) := by
  refine ⟨(accepted _ _ _ _ _ _).mpr ⟨by decide, by decide, by norm_num, by norm_num, fun h => absurd h (by decide), fun _ _ => le_refl _, fun _ h => absurd h (by decide)⟩, 0, fun _ => 1, ?_⟩
  have e : momentumInt (dist 1 0 0 2 (0 : Fin 3 → ℝ) fun _ : Fin 1 => 1) = 2 := by
    have h := integral_dist (alpha := 1) one_ne_zero 0 0 2 (by norm_num) (0 : Fin 3 → ℝ) (fun _ : Fin 1 => (1 : ℝ)) Polynomial.X
    simp only [Polynomial.eval_X] at h
    rw [momentumInt, h]
    simp only [Pi.zero_apply, zero_mul, sum_const_zero, zero_add, univ_unique, sum_singleton, one_mul, Fin.default_eq_zero, Fin.val_zero, xi_zero, integ_def, Polynomial.eval_X, integral_id]
    norm_num
  rw [e]
  have hk : ∀ i, (clampIx i : Fin 1) = 0 := fun i => Subsingleton.elim _ _
  simp only [Matrix.mulVec, dotProduct, Fin.sum_univ_six, momentMatrix, low, hk, TL]
  simp
  norm_num

example : checks "split" 8 16 2 "dougherty" 1 = .ok () ∧ checks "split" 8 2 2 "none" 0 ≠ .ok () ∧ checks "lawson" 1 1 1 "none" 0 = .ok () := by
  refine ⟨by decide +kernel, by decide +kernel, by decide +kernel⟩

/-! ### C126 -/

omit [NeZero nh] [NeZero nl] in
/-- The mean of the density profile is its base, unless the perturbation is not resolved as a wave. -/
theorem profile_mean (L : ℝ) (hL : L ≠ 0) (base eps : ℝ) (mode : ℤ) (hm : ¬ (N : ℤ) ∣ mode) : ∑ x : ZMod N, profile L base eps mode x = N * base := by
  have hN : (N : ℝ) ≠ 0 := Nat.cast_ne_zero.mpr (NeZero.ne N)
  have e : ∀ x : ZMod N, Real.cos (2 * Real.pi * mode * (x.val * (L / N)) / L) = (ZMod.stdAddChar (x * (mode : ZMod N))).re := by
    intro x
    have h1 : x * (mode : ZMod N) = (((x.val : ℤ) * mode : ℤ) : ZMod N) := by push_cast; rw [ZMod.natCast_zmod_val]
    rw [h1, ZMod.stdAddChar_coe, ← Complex.exp_ofReal_mul_I_re]
    congr 2
    have hNc : (N : ℂ) ≠ 0 := Nat.cast_ne_zero.mpr (NeZero.ne N)
    have hLc : (L : ℂ) ≠ 0 := ofReal_ne_zero.mpr hL
    push_cast; field_simp
  have hs : ∑ x : ZMod N, ZMod.stdAddChar (x * (mode : ZMod N)) = (0 : ℂ) := by
    have h := AddChar.sum_mulShift (R := ZMod N) (R' := ℂ) (mode : ZMod N) (ZMod.isPrimitive_stdAddChar N)
    rw [if_neg (by rw [Ne, ZMod.intCast_zmod_eq_zero_iff_dvd] at *; exact hm)] at h
    exact_mod_cast h
  simp only [profile]
  rw [← mul_sum, sum_add_distrib, ← mul_sum, sum_congr rfl fun x _ => e x, ← Complex.re_sum, hs]
  simp; ring

omit [NeZero nl] in
theorem dist_zero {alpha : ℝ} (ha : 0 < alpha) (u a b n v : ℝ) (B : Fin nl → ℝ) :
    dist alpha u a b (fun i : Fin nh => if i.val = 0 then n / alpha else 0) B v = maxwellian n u (alpha ^ 2 / 2) v + if v ∈ Set.Ioc a b then ∑ m, B m * (xi a b m.val).eval v else 0 := by
  rw [dist]
  congr 1
  rw [sum_eq_single (0 : Fin nh)]
  · have h2 : Real.sqrt (2 * (alpha ^ 2 / 2)) = alpha := by rw [show 2 * (alpha ^ 2 / 2) = alpha ^ 2 by ring, Real.sqrt_sq ha.le]
    rw [maxwellian_bell (by positivity), h2, if_pos (by simp)]
    simp [psi, bell]
  · intro i _ hi
    rw [if_neg (fun h => hi (Fin.ext (by simpa using h))), zero_mul]
  · intro h; exact absurd (mem_univ _) h

/-- The distribution function of coefficients on the grid. -/
noncomputable def initDist (alpha u a b : ℝ) (i : Init nh nl N) (x : ZMod N) : ℝ → ℝ := dist alpha u a b (fun n => i.1 n x) fun m => i.2 m x

omit [NeZero nh] [NeZero nl] in
theorem profile_def (L base eps : ℝ) (mode : ℤ) (x : ZMod N) : profile L base eps mode x = base * (1 + eps * Real.cos (2 * Real.pi * mode * (x.val * (L / N)) / L)) := rfl

/-- The default, `linear-advection`: a Maxwellian of the basis' own temperature and drift with density `1 + eps cos(2 pi mode x / L)`. -/
theorem init_advection (d : InitDeck) (hd : d.type = none ∨ d.type = some "linear-advection") (rule : List (ℝ × ℝ)) (L alpha u a b : ℝ) (ha : 0 < alpha) :
    ∃ i : Init nh nl N, initial d rule L alpha a b = .ok i ∧ ∀ x v, initDist alpha u a b i x v =
      maxwellian (1 + d.eps.getD 1 * Real.cos (2 * Real.pi * d.mode.getD 1 * (x.val * (L / N)) / L)) u (alpha ^ 2 / 2) v := by
  have ht : d.type.getD "linear-advection" = "linear-advection" := by rcases hd with h | h <;> rw [h] <;> rfl
  refine ⟨_, by rw [initial, ht]; exact if_pos rfl, fun x v => ?_⟩
  have h := dist_zero (nh := nh) (nl := nl) ha u a b (profile L 1 (d.eps.getD 1) (d.mode.getD 1) x) v 0
  rw [initDist]
  refine Eq.trans h ?_
  rw [profile_def, one_mul]; simp

/-- `two-stream` with at least three Hermite modes: `2 ((v-u)/alpha)^2` times the Maxwellian, two streams. -/
theorem init_two_stream (hh : 3 ≤ nh) (d : InitDeck) (hd : d.type = some "two-stream") (rule : List (ℝ × ℝ)) (L alpha u a b : ℝ) (ha : 0 < alpha) :
    ∃ i : Init nh nl N, initial d rule L alpha a b = .ok i ∧ ∀ x v, initDist alpha u a b i x v =
      2 * ((v - u) / alpha) ^ 2 * maxwellian (1 + d.eps.getD 0.01 * Real.cos (2 * Real.pi * d.mode.getD 1 * (x.val * (L / N)) / L)) u (alpha ^ 2 / 2) v := by
  have ht : d.type.getD "linear-advection" = "two-stream" := by rw [hd]; rfl
  refine ⟨_, by rw [initial, ht]; exact (if_neg (by decide)).trans (if_pos rfl), fun x v => ?_⟩
  have h := dist_zero (nh := nh) (nl := nl) ha u a b (profile L 1 (d.eps.getD 0.01) (d.mode.getD 1) x) v 0
  have e0 : 1 + d.eps.getD 0.01 * Real.cos (2 * Real.pi * d.mode.getD 1 * (x.val * (L / N)) / L) = profile L 1 (d.eps.getD 0.01) (d.mode.getD 1) x := by
    rw [profile_def, one_mul]
  rw [e0]
  obtain ⟨n, hn⟩ : ∃ n, n = profile L 1 (d.eps.getD 0.01) (d.mode.getD 1) x := ⟨_, rfl⟩
  have h2 : Real.sqrt (2 * (alpha ^ 2 / 2)) = alpha := by rw [show 2 * (alpha ^ 2 / 2) = alpha ^ 2 by ring, Real.sqrt_sq ha.le]
  have key : ∑ i : Fin nh, (if i.val = 0 then n / alpha else if i.val = 2 then Real.sqrt 2 * (n / alpha) else 0) * psi alpha u v i.val =
      n / alpha * psi alpha u v 0 + Real.sqrt 2 * (n / alpha) * psi alpha u v 2 := by
    have e : ∀ i : Fin nh, (if i.val = 0 then n / alpha else if i.val = 2 then Real.sqrt 2 * (n / alpha) else 0) * psi alpha u v i.val =
        (if i = ⟨0, by omega⟩ then n / alpha * psi alpha u v 0 else 0) + if i = ⟨2, by omega⟩ then Real.sqrt 2 * (n / alpha) * psi alpha u v 2 else 0 := by
      intro i
      by_cases h0 : i.val = 0
      · obtain ⟨i, hi⟩ := i
        dsimp only at h0; subst h0; simp
      · by_cases h2 : i.val = 2
        · obtain ⟨i, hi⟩ := i
          dsimp only at h2; subst h2; simp
        · rw [if_neg h0, if_neg h2, if_neg (fun h => h0 (by rw [h])), if_neg (fun h => h2 (by rw [h]))]; simp
    rw [sum_congr rfl fun i _ => e i, sum_add_distrib, sum_ite_eq', sum_ite_eq', if_pos (mem_univ _), if_pos (mem_univ _)]
  rw [initDist, dist]
  dsimp only
  rw [← hn, key, maxwellian_bell (by positivity), h2]
  have hp : psi alpha u v 0 = bell alpha u v := by simp [psi, bell]
  have s1 : Real.sqrt (1 / 2) = 1 / Real.sqrt 2 := by rw [Real.sqrt_div zero_le_one, Real.sqrt_one]
  have s2 : Real.sqrt 2 * Real.sqrt 2 = 2 := Real.mul_self_sqrt (by norm_num)
  have s3 : Real.sqrt 2 ≠ 0 := by positivity
  simp only [psi, CharP.cast_eq_zero, zero_add, div_self (two_ne_zero : (2 : ℝ) ≠ 0), Real.sqrt_one]
  rw [s1]
  have hp' : 1 / Real.sqrt Real.pi * Real.exp (-((v - u) / alpha) ^ 2) = bell alpha u v := rfl
  rw [hp']
  simp only [zero_mul, sum_const_zero, ite_self, add_zero, mul_one]
  have : Real.sqrt 2 * (n / alpha) * ((v - u) / alpha * (Real.sqrt 2 * ((v - u) / alpha) * bell alpha u v) - 1 / Real.sqrt 2 * bell alpha u v) =
      n / alpha * bell alpha u v * ((Real.sqrt 2 * Real.sqrt 2) * ((v - u) / alpha) ^ 2 - 1) := by
    field_simp
  rw [this, s2]; ring

/-- With one or two Hermite modes the deck is accepted and there are no two streams: a single Maxwellian. -/
theorem init_two_stream_partial (hh : nh < 3) (d : InitDeck) (hd : d.type = some "two-stream") (rule : List (ℝ × ℝ)) (L alpha u a b : ℝ) (ha : 0 < alpha) :
    ∃ i : Init nh nl N, initial d rule L alpha a b = .ok i ∧ ∀ x v, initDist alpha u a b i x v =
      maxwellian (1 + d.eps.getD 0.01 * Real.cos (2 * Real.pi * d.mode.getD 1 * (x.val * (L / N)) / L)) u (alpha ^ 2 / 2) v := by
  have ht : d.type.getD "linear-advection" = "two-stream" := by rw [hd]; rfl
  refine ⟨_, by rw [initial, ht]; exact (if_neg (by decide)).trans (if_pos rfl), fun x v => ?_⟩
  have h := dist_zero (nh := nh) (nl := nl) ha u a b (profile L 1 (d.eps.getD 0.01) (d.mode.getD 1) x) v 0
  rw [initDist]
  have e : (fun i : Fin nh => if i.val = 0 then profile L 1 (d.eps.getD 0.01) (d.mode.getD 1) x / alpha
      else if i.val = 2 then Real.sqrt 2 * (profile L 1 (d.eps.getD 0.01) (d.mode.getD 1) x / alpha) else 0) =
      fun i : Fin nh => if i.val = 0 then profile L 1 (d.eps.getD 0.01) (d.mode.getD 1) x / alpha else 0 := by
    funext i
    have : i.val ≠ 2 := by have := i.2; omega
    rw [if_neg this]
  refine Eq.trans (congrArg (fun C => dist alpha u a b C _ v) e) (h.trans ?_)
  rw [profile_def, one_mul]; simp

/-! #### The projection on the window -/

/-- A quadrature rule on `[-1, 1]` with positive weights, exact for polynomials up to degree `D`; Gauss-Legendre's with `n` nodes
is one with `D = 2n - 1`. -/
structure Rule (rule : List (ℝ × ℝ)) (D : ℕ) : Prop where
  pos : ∀ z ∈ rule, 0 ≤ z.2 ∧ -1 ≤ z.1 ∧ z.1 ≤ 1
  exact : ∀ q : Polynomial ℝ, q.natDegree ≤ D → (rule.map fun z => z.2 * q.eval z.1).sum = ∫ v in (-1 : ℝ)..1, q.eval v

/-- The rule moved to the window and divided by its width. -/
noncomputable def quad (rule : List (ℝ × ℝ)) (a b : ℝ) (f : ℝ → ℝ) : ℝ := (rule.map fun z => z.2 / 2 * f (0.5 * (b - a) * z.1 + 0.5 * (b + a))).sum

omit [NeZero nh] [NeZero nl] in
theorem project_quad (rule : List (ℝ × ℝ)) (a b : ℝ) (h : a < b) (g : ℝ → ℝ) (m : ℕ) : project rule a b g m = quad rule a b fun v => g v * (xi a b m).eval v := by
  have hw : b - a ≠ 0 := sub_ne_zero.mpr h.ne'
  rw [project, quad, div_eq_iff hw]
  induction rule with
  | nil => simp
  | cons z r ih => rw [List.map_cons, List.map_cons, List.sum_cons, List.sum_cons, ih, add_mul]; ring

omit [NeZero nh] [NeZero nl] in
theorem quad_exact {rule : List (ℝ × ℝ)} {D : ℕ} (hr : Rule rule D) (a b : ℝ) (h : a < b) (q : Polynomial ℝ) (hq : q.natDegree ≤ D) :
    quad rule a b (fun v => q.eval v) = 1 / (b - a) * ∫ v in a..b, q.eval v := by
  have hw : b - a ≠ 0 := sub_ne_zero.mpr h.ne'
  have h1 := hr.exact (q.comp (Polynomial.C (0.5 * (b - a)) * Polynomial.X + Polynomial.C (0.5 * (b + a)))) (by
    refine Polynomial.natDegree_comp_le.trans ?_
    refine (Nat.mul_le_mul_left _ (Polynomial.natDegree_linear_le)).trans (by omega))
  have h2 : (∫ v in (-1 : ℝ)..1, (q.comp (Polynomial.C (0.5 * (b - a)) * Polynomial.X + Polynomial.C (0.5 * (b + a)))).eval v) = (0.5 * (b - a))⁻¹ * ∫ v in a..b, q.eval v := by
    have e : ∀ v : ℝ, (q.comp (Polynomial.C (0.5 * (b - a)) * Polynomial.X + Polynomial.C (0.5 * (b + a)))).eval v = q.eval (0.5 * (b - a) * v + 0.5 * (b + a)) := by
      intro v; simp [Polynomial.eval_comp]
    simp only [e]
    rw [intervalIntegral.integral_comp_mul_add (fun v => q.eval v) (mul_ne_zero (by norm_num) hw), smul_eq_mul]
    congr 2 <;> ring
  rw [h2] at h1
  have h3 : quad rule a b (fun v => q.eval v) = 1 / 2 * (rule.map fun z => z.2 * (q.comp (Polynomial.C (0.5 * (b - a)) * Polynomial.X + Polynomial.C (0.5 * (b + a)))).eval z.1).sum := by
    rw [quad, ← List.sum_map_mul_left]
    congr 1
    refine List.map_congr_left fun z _ => ?_
    simp only [Polynomial.eval_comp, Polynomial.eval_add, Polynomial.eval_mul, Polynomial.eval_C, Polynomial.eval_X]; ring
  rw [h3, h1]
  field_simp
  norm_num

omit [NeZero nh] [NeZero nl] in
theorem quad_le {rule : List (ℝ × ℝ)} {D : ℕ} (hr : Rule rule D) (a b : ℝ) (h : a < b) (f g : ℝ → ℝ) (hfg : ∀ v ∈ Set.Icc a b, f v ≤ g v) : quad rule a b f ≤ quad rule a b g := by
  rw [quad, quad]
  refine List.sum_le_sum fun z hz => ?_
  obtain ⟨h0, h1, h2⟩ := hr.pos z hz
  refine mul_le_mul_of_nonneg_left (hfg _ ⟨?_, ?_⟩) (by positivity)
  · nlinarith
  · nlinarith

omit [NeZero nh] [NeZero nl] in
theorem quad_sub (rule : List (ℝ × ℝ)) (a b : ℝ) (f g : ℝ → ℝ) : quad rule a b (fun v => f v - g v) = quad rule a b f - quad rule a b g := by
  simp only [quad]
  induction rule with
  | nil => simp
  | cons z r ih => rw [List.map_cons, List.sum_cons, List.map_cons, List.sum_cons, List.map_cons, List.sum_cons, ih]; ring

omit [NeZero nh] [NeZero nl] in
/-- The projection of a profile is its Legendre coefficient `1/(b-a) ∫ g xi_m`, up to twice the error with which a polynomial `q` the rule
still integrates against `xi_m` approximates the profile on the window. -/
theorem projection {rule : List (ℝ × ℝ)} {D : ℕ} (hr : Rule rule D) (a b : ℝ) (h : a < b) (g : ℝ → ℝ) (hg : Continuous g) (m : ℕ) (hm : 2 * m ≤ D)
    (q : Polynomial ℝ) (hq : q.natDegree + m ≤ D) (eps : ℝ) (he : ∀ v ∈ Set.Icc a b, |g v - q.eval v| ≤ eps) :
    |project rule a b g m - 1 / (b - a) * ∫ v in a..b, g v * (xi a b m).eval v| ≤ 2 * eps := by
  have hw : 0 < b - a := sub_pos.mpr h
  have hx := xi_degree a b m
  have ex := quad_exact hr a b h (q * xi a b m) ((Polynomial.natDegree_mul_le).trans (by omega))
  have hsq : (1 / (b - a)) * ∫ v in a..b, ((1 + (xi a b m) ^ 2 : Polynomial ℝ)).eval v = 2 := by
    have := xi_orth a b h.ne m m
    rw [if_pos rfl] at this
    rw [← integ_def, map_add, pow_two, this, integ_def]
    simp only [Polynomial.eval_one, intervalIntegral.integral_const, smul_eq_mul, mul_one]
    field_simp; ring
  have dsq : (1 + (xi a b m) ^ 2 : Polynomial ℝ).natDegree ≤ D := by
    refine (Polynomial.natDegree_add_le _ _).trans (max_le (by simp) ?_)
    exact (Polynomial.natDegree_pow_le).trans (by omega)
  have e0 : 0 ≤ eps := (abs_nonneg _).trans (he a ⟨le_refl _, h.le⟩)
  -- the pointwise bound
  have pt : ∀ v ∈ Set.Icc a b, |(g v - q.eval v) * (xi a b m).eval v| ≤ (Polynomial.C (eps / 2) * (1 + (xi a b m) ^ 2)).eval v := by
    intro v hv
    rw [abs_mul]
    simp only [Polynomial.eval_mul, Polynomial.eval_C, Polynomial.eval_add, Polynomial.eval_one, Polynomial.eval_pow]
    have h1 := he v hv
    have h2 : |(xi a b m).eval v| ≤ (1 + (xi a b m).eval v ^ 2) / 2 := by
      have := sq_nonneg (|(xi a b m).eval v| - 1)
      have h3 := sq_abs ((xi a b m).eval v)
      nlinarith
    calc |g v - q.eval v| * |(xi a b m).eval v| ≤ eps * ((1 + (xi a b m).eval v ^ 2) / 2) := mul_le_mul h1 h2 (abs_nonneg _) e0
      _ = _ := by ring
  have dC : (Polynomial.C (eps / 2) * (1 + (xi a b m) ^ 2)).natDegree ≤ D := (Polynomial.natDegree_C_mul_le _ _).trans dsq
  have bound : (1 / (b - a)) * (∫ v in a..b, (Polynomial.C (eps / 2) * (1 + (xi a b m) ^ 2)).eval v) = eps := by
    rw [← integ_def, integ_C_mul, integ_def, mul_left_comm, hsq]; ring
  have hquad : |quad rule a b fun v => (g v - q.eval v) * (xi a b m).eval v| ≤ eps := by
    have hb := quad_exact hr a b h _ dC
    rw [bound] at hb
    rw [abs_le]
    constructor
    · have := quad_le hr a b h (fun v => -(Polynomial.C (eps / 2) * (1 + (xi a b m) ^ 2)).eval v) (fun v => (g v - q.eval v) * (xi a b m).eval v) (fun v hv => (abs_le.mp (pt v hv)).1)
      have hneg : quad rule a b (fun v => -(Polynomial.C (eps / 2) * (1 + (xi a b m) ^ 2)).eval v) = -eps := by
        have h0 := quad_sub rule a b (fun _ => 0) (fun v => (Polynomial.C (eps / 2) * (1 + (xi a b m) ^ 2)).eval v)
        simp only [zero_sub] at h0
        rw [h0, hb]; simp [quad]
      rw [hneg] at this; exact this
    · exact hb ▸ quad_le hr a b h _ _ (fun v hv => (abs_le.mp (pt v hv)).2)
  have hci : Continuous fun v => (g v - q.eval v) * (xi a b m).eval v := (hg.sub q.continuous).mul (xi a b m).continuous
  have hint : |1 / (b - a) * ∫ v in a..b, (g v - q.eval v) * (xi a b m).eval v| ≤ eps := by
    have hle : |∫ v in a..b, (g v - q.eval v) * (xi a b m).eval v| ≤ ∫ v in a..b, (Polynomial.C (eps / 2) * (1 + (xi a b m) ^ 2)).eval v := by
      refine (intervalIntegral.abs_integral_le_integral_abs h.le).trans ?_
      exact intervalIntegral.integral_mono_on h.le (hci.abs.intervalIntegrable _ _) ((Polynomial.continuous _).intervalIntegrable _ _) pt
    rw [abs_mul, abs_of_pos (by positivity : (0 : ℝ) < 1 / (b - a))]
    exact (mul_le_mul_of_nonneg_left hle (by positivity)).trans bound.le
  have split1 : quad rule a b (fun v => (g v - q.eval v) * (xi a b m).eval v) = project rule a b g m - 1 / (b - a) * ∫ v in a..b, (q * xi a b m).eval v := by
    rw [project_quad rule a b h, ← ex, ← quad_sub]
    congr 1; funext v; rw [Polynomial.eval_mul]; ring
  have split2 : (∫ v in a..b, (g v - q.eval v) * (xi a b m).eval v) = (∫ v in a..b, g v * (xi a b m).eval v) - ∫ v in a..b, (q * xi a b m).eval v := by
    have hgi : IntervalIntegrable (fun v => g v * (xi a b m).eval v) MeasureTheory.volume a b := (hg.mul (xi a b m).continuous).intervalIntegrable _ _
    rw [← intervalIntegral.integral_sub hgi ((Polynomial.continuous (q * xi a b m)).intervalIntegrable _ _)]
    refine intervalIntegral.integral_congr fun v _ => ?_
    simp only [Polynomial.eval_mul]; ring
  rw [split1] at hquad
  rw [split2] at hint
  have := abs_sub (project rule a b g m - 1 / (b - a) * ∫ v in a..b, (q * xi a b m).eval v)
    (1 / (b - a) * ((∫ v in a..b, g v * (xi a b m).eval v) - ∫ v in a..b, (q * xi a b m).eval v))
  refine le_trans (le_of_eq ?_) (this.trans (by linarith))
  congr 1; ring

omit [NeZero nh] in
/-- A Legendre expansion comes back as it is. -/
theorem projection_exact {rule : List (ℝ × ℝ)} {D : ℕ} (hr : Rule rule D) (a b : ℝ) (h : a < b) (hD : 2 * (nl - 1) ≤ D) (B : Fin nl → ℝ) (m : Fin nl) :
    project rule a b (fun v => ∑ j, B j * (xi a b j.val).eval v) m.val = B m := by
  have hw : b - a ≠ 0 := sub_ne_zero.mpr h.ne'
  have hpos := NeZero.pos nl
  have e : (fun v => (∑ j, B j * (xi a b j.val).eval v) * (xi a b m.val).eval v) = fun v => ((∑ j, Polynomial.C (B j) * xi a b j.val) * xi a b m.val).eval v := by
    funext v; simp only [Polynomial.eval_mul, Polynomial.eval_finsetSum, Polynomial.eval_C]
  have hdeg : (∑ j : Fin nl, Polynomial.C (B j) * xi a b j.val).natDegree ≤ nl - 1 := by
    refine Polynomial.natDegree_sum_le_of_forall_le _ _ fun j _ => ?_
    exact (Polynomial.natDegree_C_mul_le _ _).trans ((xi_degree a b j.val).trans (by omega))
  rw [project_quad rule a b h, e, quad_exact hr a b h _ ((Polynomial.natDegree_mul_le).trans (by have := xi_degree a b m.val; omega)), ← integ_def, sum_mul, map_sum,
    sum_eq_single m]
  · rw [mul_assoc, integ_C_mul, xi_orth a b h.ne, if_pos rfl]; field_simp
  · intro j _ hj
    rw [mul_assoc, integ_C_mul, xi_orth a b h.ne, if_neg (fun hh => hj (Fin.ext hh)), mul_zero]
  · intro hh; exact absurd (mem_univ _) hh

/-- Gauss-Legendre with two nodes is a rule exact to degree three. -/
theorem rule_two : Rule [(-(1 / Real.sqrt 3), 1), (1 / Real.sqrt 3, 1)] 3 := by
  have h3 : (1 : ℝ) ≤ Real.sqrt 3 := by rw [Real.one_le_sqrt]; norm_num
  have hn : 1 / Real.sqrt 3 ≤ 1 := by rw [div_le_one (by linarith)]; exact h3
  have hp : 0 ≤ 1 / Real.sqrt 3 := by positivity
  have hs : (1 / Real.sqrt 3) ^ 2 = 1 / 3 := by rw [div_pow, Real.sq_sqrt (by norm_num)]; norm_num
  constructor
  · intro z hz
    simp only [List.mem_cons, List.not_mem_nil, or_false] at hz
    rcases hz with h | h <;> rw [h] <;> exact ⟨zero_le_one, by linarith, by linarith⟩
  · intro q hq
    have e : ∀ v : ℝ, q.eval v = q.coeff 0 + q.coeff 1 * v + q.coeff 2 * v ^ 2 + q.coeff 3 * v ^ 3 := by
      intro v
      rw [Polynomial.eval_eq_sum_range' (show q.natDegree < 4 by omega)]
      simp [sum_range_succ]
    have hi : (∫ v in (-1 : ℝ)..1, q.eval v) = integ (-1) 1 (Polynomial.C (q.coeff 0) * 1 + Polynomial.C (q.coeff 1) * Polynomial.X + Polynomial.C (q.coeff 2) * Polynomial.X ^ 2 + Polynomial.C (q.coeff 3) * Polynomial.X ^ 3) := by
      rw [integ_def]; congr 1; funext v; rw [e]; simp
    rw [hi, map_add, map_add, map_add, integ_C_mul, integ_C_mul, integ_C_mul, integ_C_mul]
    simp only [integ_def, Polynomial.eval_one, Polynomial.eval_X, Polynomial.eval_pow, integral_id, integral_pow, intervalIntegral.integral_const]
    simp only [List.map_cons, List.map_nil, List.sum_cons, List.sum_nil, e]
    simp only [neg_sq, hs, neg_pow (1 / Real.sqrt 3) 3]
    push_cast
    norm_num
    ring

/-! #### Beams and custom states -/

omit [NeZero nh] [NeZero nl] in
/-- A beam of amplitude `n / (sqrt(2 pi) v_th)` is a Maxwellian of density `n`. -/
theorem beam_maxwellian (n drift vth v : ℝ) (h : 0 < vth) :
    (⟨n / (Real.sqrt (2 * Real.pi) * vth), some drift, some vth⟩ : Beam).at v = maxwellian n drift (vth ^ 2) v := by
  have e : Real.sqrt (2 * Real.pi * vth ^ 2) = Real.sqrt (2 * Real.pi) * vth := by
    rw [Real.sqrt_mul (by positivity), Real.sqrt_sq h.le]
  rw [Beam.at, maxwellian, e]; rfl

/-- `bump-on-tail`: the Maxwellian bulk of density `(1 - n_beam) (1 + eps cos)`, and in the window the expansion whose coefficients are the
projections of a uniform beam, a Maxwellian of density `n_beam`, drift `v_drift`, temperature `v_th^2`. -/
theorem init_bump (d : InitDeck) (hd : d.type = some "bump-on-tail") (hv : 0 < d.vTh.getD 1) (rule : List (ℝ × ℝ)) (L alpha u a b : ℝ) (ha : 0 < alpha) :
    ∃ i : Init nh nl N, initial d rule L alpha a b = .ok i ∧ (∀ x v, initDist alpha u a b i x v =
      maxwellian ((1 - d.nBeam.getD 0.01) * (1 + d.eps.getD 1e-4 * Real.cos (2 * Real.pi * d.mode.getD 1 * (x.val * (L / N)) / L))) u (alpha ^ 2 / 2) v +
      if v ∈ Set.Ioc a b then ∑ m : Fin nl, project rule a b (maxwellian (d.nBeam.getD 0.01) (d.vDrift.getD 10) (d.vTh.getD 1 ^ 2)) m.val * (xi a b m.val).eval v else 0) ∧
      ∀ m x, i.2 m x = project rule a b (maxwellian (d.nBeam.getD 0.01) (d.vDrift.getD 10) (d.vTh.getD 1 ^ 2)) m.val := by
  have ht : d.type.getD "linear-advection" = "bump-on-tail" := by rw [hd]; rfl
  have hb : (⟨d.nBeam.getD 0.01 / (Real.sqrt (2 * Real.pi) * d.vTh.getD 1), some (d.vDrift.getD 10), some (d.vTh.getD 1)⟩ : Beam).at =
      maxwellian (d.nBeam.getD 0.01) (d.vDrift.getD 10) (d.vTh.getD 1 ^ 2) := funext fun v => beam_maxwellian _ _ _ _ hv
  refine ⟨_, by rw [initial, ht]; exact (if_neg (by decide)).trans ((if_neg (by decide)).trans (if_pos rfl)), fun x v => ?_, fun m x => ?_⟩
  · rw [initDist]
    refine Eq.trans (dist_zero (nh := nh) (nl := nl) ha u a b (profile L (1 - d.nBeam.getD 0.01) (d.eps.getD 1e-4) (d.mode.getD 1) x) v _) ?_
    rw [profile_def, hb]
  · exact congrArg (fun g => project rule a b g m.val) hb

omit [NeZero nh] [NeZero nl] in
/-- The part of a beam inside the window is less than the beam: the bump-on-tail plasma has a net charge. -/
theorem beam_inside (n drift T a b : ℝ) (hn : 0 < n) (hT : 0 < T) : ∫ v in a..b, maxwellian n drift T v < n := by
  have hs : Real.sqrt (2 * T) ≠ 0 := (Real.sqrt_pos.mpr (by positivity)).ne'
  have hint : MeasureTheory.Integrable (maxwellian n drift T) := by
    have h := (integrable_bell hs drift (1 : Polynomial ℝ)).const_mul (n / Real.sqrt (2 * T))
    refine h.congr (Filter.Eventually.of_forall fun v => ?_)
    simp only [Polynomial.eval_one, one_mul]; exact (maxwellian_bell hT n drift v).symm
  have htot : ∫ v, maxwellian n drift T v = n := by
    have h := gint_one hs drift
    rw [gint_def] at h
    simp only [Polynomial.eval_one, one_mul] at h
    have e : (maxwellian n drift T) = fun v => n / Real.sqrt (2 * T) * bell (Real.sqrt (2 * T)) drift v := funext fun v => maxwellian_bell hT n drift v
    rw [e, MeasureTheory.integral_const_mul, h, abs_of_pos (Real.sqrt_pos.mpr (by positivity))]
    field_simp
  have hpos : ∀ v, 0 < maxwellian n drift T v := by
    intro v; rw [maxwellian]; exact mul_pos (div_pos hn (Real.sqrt_pos.mpr (mul_pos (mul_pos two_pos Real.pi_pos) hT))) (Real.exp_pos _)
  rcases le_total b a with h | h
  · rw [intervalIntegral.integral_of_ge h]
    have : 0 ≤ ∫ v in Set.Ioc b a, maxwellian n drift T v := MeasureTheory.integral_nonneg fun v => (hpos v).le
    linarith
  · rw [intervalIntegral.integral_of_le h]
    have hsplit := MeasureTheory.integral_add_compl (measurableSet_Ioc (a := a) (b := b)) hint
    rw [htot] at hsplit
    have hout : 0 < ∫ v in (Set.Ioc a b)ᶜ, maxwellian n drift T v := by
      rw [MeasureTheory.setIntegral_pos_iff_support_of_nonneg_ae (Filter.Eventually.of_forall fun v => (hpos v).le) hint.integrableOn]
      have hsup : Function.support (maxwellian n drift T) = Set.univ := by ext v; simp [(hpos v).ne']
      rw [hsup, Set.univ_inter]
      have : Set.Ioi b ⊆ (Set.Ioc a b)ᶜ := fun v hv hc => absurd hc.2 (not_le.mpr hv)
      refine lt_of_lt_of_le ?_ (MeasureTheory.measure_mono this)
      simp
    linarith

/-- The net charge of `bump-on-tail`, cell by cell on average: `n_beam` less what the projection of the beam holds, which is the number inside
the window up to the projection error; the code does not compensate the difference. -/
theorem bump_charge (d : InitDeck) (hd : d.type = some "bump-on-tail") (hv : 0 < d.vTh.getD 1) (hn : 0 < d.nBeam.getD 0.01) (rule : List (ℝ × ℝ)) (L alpha a b : ℝ) (hL : L ≠ 0) (ha : 0 < alpha)
    (hm : ¬ (N : ℤ) ∣ d.mode.getD 1) :
    ∃ i : Init nh nl N, initial d rule L alpha a b = .ok i ∧
      (∑ x, (1 - alpha * i.1 0 x - (b - a) * i.2 0 x)) / N =
        d.nBeam.getD 0.01 - (b - a) * project rule a b (maxwellian (d.nBeam.getD 0.01) (d.vDrift.getD 10) (d.vTh.getD 1 ^ 2)) 0 ∧
      ∫ v in a..b, maxwellian (d.nBeam.getD 0.01) (d.vDrift.getD 10) (d.vTh.getD 1 ^ 2) v < d.nBeam.getD 0.01 := by
  obtain ⟨i, h1, _, h3⟩ := init_bump (nh := nh) (nl := nl) (N := N) d hd hv rule L alpha 0 a b ha
  have hN : (N : ℝ) ≠ 0 := Nat.cast_ne_zero.mpr (NeZero.ne N)
  refine ⟨i, h1, ?_, beam_inside _ _ _ _ _ hn (by positivity)⟩
  have ht : d.type.getD "linear-advection" = "bump-on-tail" := by rw [hd]; rfl
  have h4 : ∀ x, i.1 0 x = profile L (1 - d.nBeam.getD 0.01) (d.eps.getD 1e-4) (d.mode.getD 1) x / alpha := by
    intro x
    rw [initial, ht] at h1
    have h5 := h1.symm.trans ((if_neg (by decide)).trans ((if_neg (by decide)).trans (if_pos rfl)))
    have h6 := Except.ok.inj h5
    rw [h6]
    simp
  simp only [h3, h4]
  have e : ∀ x : ZMod N, (1 : ℝ) - alpha * (profile L (1 - d.nBeam.getD 0.01) (d.eps.getD 1e-4) (d.mode.getD 1) x / alpha) -
      (b - a) * project rule a b (maxwellian (d.nBeam.getD 0.01) (d.vDrift.getD 10) (d.vTh.getD 1 ^ 2)) (0 : Fin nl).val =
      (1 - (b - a) * project rule a b (maxwellian (d.nBeam.getD 0.01) (d.vDrift.getD 10) (d.vTh.getD 1 ^ 2)) 0) - profile L (1 - d.nBeam.getD 0.01) (d.eps.getD 1e-4) (d.mode.getD 1) x := by
    intro x; rw [mul_div_cancel₀ _ ha.ne']; simp only [Fin.val_zero]; ring
  rw [sum_congr rfl fun x _ => e x, sum_sub_distrib, profile_mean L hL _ _ _ hm, sum_const, card_univ, ZMod.card, nsmul_eq_mul]
  field_simp; ring

omit [NeZero N] [NeZero nh] in
theorem axisIx_some (k : ℤ) : (axisIx nh k).isSome ↔ -(nh : ℤ) ≤ k ∧ k < nh := by
  rw [axisIx]; split_ifs with h1 h2 <;> simp <;> omega

omit [NeZero nh] [NeZero N] in
/-- The rows of a custom state: refused exactly when a key is out of range; the last row with a key wins; coefficients without one stay. -/
theorem custom_rows (L : ℝ) (rs : List Row) (C₀ : Fin nh → ZMod N → ℝ) :
    ((∃ C, setRows L rs C₀ = .ok C) ↔ ∀ r ∈ rs, -(nh : ℤ) ≤ r.key ∧ r.key < nh) ∧
    ∀ C, setRows L rs C₀ = .ok C → (∀ i, (∀ r ∈ rs, axisIx nh r.key ≠ some i) → C i = C₀ i) ∧
      ∀ ss r ts, rs = ss ++ r :: ts → ∀ i, axisIx nh r.key = some i → (∀ s ∈ ts, axisIx nh s.key ≠ some i) →
        C i = profile L (r.base.getD 0) (r.eps.getD 0) (r.mode.getD 1) := by
  induction rs generalizing C₀ with
  | nil =>
    refine ⟨⟨fun _ r hr => absurd hr (by simp), fun _ => ⟨C₀, rfl⟩⟩, fun C h => ⟨fun i _ => ?_, fun ss r ts h' => absurd h' (by simp)⟩⟩
    cases h; rfl
  | cons q qs ih =>
    rcases hq : axisIx nh q.key with _ | j
    · have hn : ¬ (-(nh : ℤ) ≤ q.key ∧ q.key < nh) := by rw [← axisIx_some, hq]; simp
      have he : setRows L (q :: qs) C₀ = .error "IndexError" := by rw [setRows, hq]
      rw [he]
      exact ⟨⟨fun h => (by obtain ⟨C, h⟩ := h; cases h), fun h => absurd (h q (by simp)) hn⟩, fun C h => by cases h⟩
    · have hy : -(nh : ℤ) ≤ q.key ∧ q.key < nh := by rw [← axisIx_some, hq]; simp
      have he : setRows L (q :: qs) C₀ = setRows L qs (Function.update C₀ j (profile L (q.base.getD 0) (q.eps.getD 0) (q.mode.getD 1))) := by rw [setRows, hq]
      obtain ⟨h1, h2⟩ := ih (Function.update C₀ j (profile L (q.base.getD 0) (q.eps.getD 0) (q.mode.getD 1)))
      rw [he]
      refine ⟨h1.trans ⟨fun h r hr => ?_, fun h r hr => h r (by simp [hr])⟩, fun C hC => ?_⟩
      · rcases List.mem_cons.mp hr with e | e
        · rw [e]; exact hy
        · exact h r e
      · obtain ⟨h3, h4⟩ := h2 C hC
        refine ⟨fun i hi => ?_, fun ss r ts hs i hi hts => ?_⟩
        · rw [h3 i fun r hr => hi r (by simp [hr])]
          exact Function.update_of_ne (fun e => hi q (by simp) (by rw [hq, e])) _ _
        · rcases ss with _ | ⟨s, ss⟩
          · simp only [List.nil_append, List.cons.injEq] at hs
            obtain ⟨e1, e2⟩ := hs
            subst e1; subst e2
            rw [hq] at hi
            cases hi
            rw [h3 j hts, Function.update_self]
          · simp only [List.cons_append, List.cons.injEq] at hs
            exact h4 ss r ts hs.2 i hi hts

/-- A custom state: Hermite coefficients row by row, Legendre coefficients the projection of the sum of the beams times the density profile;
a missing `df` gives none.  A row without `base` gives nothing, whatever its `eps`. -/
theorem init_custom (d : InitDeck) (hd : d.type = some "custom") (rule : List (ℝ × ℝ)) (L alpha a b : ℝ) :
    ((∃ i : Init nh nl N, initial d rule L alpha a b = .ok i) ↔ ∀ r ∈ d.hermite, -(nh : ℤ) ≤ r.key ∧ r.key < nh) ∧
    (∀ i : Init nh nl N, initial d rule L alpha a b = .ok i → setRows L d.hermite (fun _ _ => 0) = .ok i.1 ∧ (d.df = none → i.2 = fun _ _ => 0) ∧
      ∀ f, d.df = some f → ∀ m x, i.2 m x = project rule a b (fun v => (f.beams.map fun q => q.amp * Real.exp (-(v - q.drift.getD 0) ^ 2 / (2 * q.vth.getD 1 ^ 2))).sum) m.val *
        (1 + f.eps.getD 0 * Real.cos (2 * Real.pi * f.mode.getD 1 * (x.val * (L / N)) / L))) ∧
    ∀ eps mode, (profile L 0 eps mode : ZMod N → ℝ) = fun _ => 0 := by
  have ht : d.type.getD "linear-advection" = "custom" := by rw [hd]; rfl
  have e : (initial d rule L alpha a b : Except String (Init nh nl N)) = match setRows L d.hermite (fun _ _ => 0) with
    | .error e => .error e
    | .ok C => .ok (C, fun m x => match d.df with
      | none => 0
      | some f => project rule a b (beams f.beams) m.val * profile L 1 (f.eps.getD 0) (f.mode.getD 1) x) := by
    rw [initial, ht]
    exact (if_neg (by decide)).trans ((if_neg (by decide)).trans ((if_neg (by decide)).trans (if_pos rfl)))
  obtain ⟨h1, _⟩ := custom_rows (nh := nh) (N := N) L d.hermite fun _ _ => 0
  refine ⟨?_, fun i hi => ?_, fun eps mode => ?_⟩
  · rw [← h1, e]
    rcases setRows L d.hermite (fun _ _ => 0) with er | C
    · exact ⟨fun h => (by obtain ⟨_, h⟩ := h; cases h), fun h => by obtain ⟨_, h⟩ := h; cases h⟩
    · exact ⟨fun _ => ⟨C, rfl⟩, fun _ => ⟨_, rfl⟩⟩
  · rw [e] at hi
    rcases hs : setRows L d.hermite (fun _ _ => 0) with er | C
    · rw [hs] at hi; cases hi
    · rw [hs] at hi
      have hi' := Except.ok.inj hi
      rw [← hi']
      refine ⟨rfl, fun hf => ?_, fun f hf m x => ?_⟩
      · funext m x; simp only [hf]
      · simp only [hf, profile_def, one_mul]
        congr 2
        funext v
        rw [beams, foldl_sum]; simp [Beam.at]
  · funext x; rw [profile_def, zero_mul]

/-- Exactly the four known types are accepted (`custom` if its rows are in range). -/
theorem init_types (d : InitDeck) (rule : List (ℝ × ℝ)) (L alpha a b : ℝ) :
    (∃ i : Init nh nl N, initial d rule L alpha a b = .ok i) ↔ d.type.getD "linear-advection" ∈ ["linear-advection", "two-stream", "bump-on-tail"] ∨
      d.type = some "custom" ∧ ∀ r ∈ d.hermite, -(nh : ℤ) ≤ r.key ∧ r.key < nh := by
  by_cases hc : d.type = some "custom"
  · rw [(init_custom d hc rule L alpha a b).1, hc]
    simp
  · have hne : d.type.getD "linear-advection" ≠ "custom" := by
      rcases h : d.type with _ | t
      · simp
      · intro h'; rw [h] at hc; exact hc (by rw [← h']; rfl)
    have : ¬ (d.type = some "custom" ∧ ∀ r ∈ d.hermite, -(nh : ℤ) ≤ r.key ∧ r.key < nh) := fun h => hc h.1
    rw [or_iff_left this, initial]
    simp only [List.mem_cons, List.not_mem_nil, or_false, if_neg hne]
    split_ifs with h1 h2 h3
    · exact ⟨fun _ => Or.inl h1, fun _ => ⟨_, rfl⟩⟩
    · exact ⟨fun _ => Or.inr (Or.inl h2), fun _ => ⟨_, rfl⟩⟩
    · exact ⟨fun _ => Or.inr (Or.inr h3), fun _ => ⟨_, rfl⟩⟩
    · exact ⟨fun h => (by obtain ⟨_, h⟩ := h; cases h), fun h => by tauto⟩

/-- The state a run starts from: its distribution function is that of the coefficients, its field the Poisson field of its charge. -/
theorem initial_state (p : Setup nh nl N) (hL : p.L ≠ 0) (i : Init nh nl N) :
    (∀ x, distAt p (p.start i).c x = initDist p.alpha p.u p.a p.b i x) ∧ (p.start i).de = (fun _ => 0) ∧ (p.start i).e = p.field (p.start i).c ∧
    (p.fieldOn = true → ∀ q : ℤ, Resolved N q → q ≠ 0 → gaussError (p.L / N) (p.start i).e (fun x => 1 - (p.alpha * i.1 0 x + (p.b - p.a) * i.2 0 x)) q = 0) := by
  have h1 : ∀ n x, (toX ((p.start i).c.1 n) x).re = i.1 n x := fun n x => by
    have : (p.start i).c.1 n = toK fun x => (i.1 n x : ℂ) := rfl
    rw [this, toX_toK, ofReal_re]
  have h2 : ∀ n x, (toX ((p.start i).c.2 n) x).re = i.2 n x := fun n x => by
    have : (p.start i).c.2 n = toK fun x => (i.2 n x : ℂ) := rfl
    rw [this, toX_toK, ofReal_re]
  refine ⟨fun x => ?_, rfl, rfl, fun hf q hq hq0 => ?_⟩
  · funext v; rw [distAt, initDist]; simp only [h1, h2]
  · have h := ((mixed_gauss p hL (p.start i).c).1 hf).1 q hq hq0
    simp only [h1, h2] at h
    exact h

/-! Concrete cases: a deck without an initialisation, a two-stream deck with four modes; a bump on tail; a custom deck; a quadrature rule. -/

example : ∃ i : Init 4 5 8, initial (⟨none, none, none, none, none, none, [], none⟩ : InitDeck) [] 1 2 0 3 = .ok i := (init_types _ _ _ _ _ _).mpr (Or.inl (by decide))

example : ∃ i : Init 4 5 8, initial { type := some "two-stream" } [] 1 2 0 3 = .ok i ∧ initDist 2 1 0 3 i 0 1 = 0 := by
  obtain ⟨i, h1, h2⟩ := init_two_stream (nh := 4) (nl := 5) (N := 8) (by norm_num) { type := some "two-stream" } rfl [] 1 2 1 0 3 (by norm_num)
  exact ⟨i, h1, by rw [h2]; simp⟩

example : ∃ i : Init 4 5 8, initial { type := some "bump-on-tail" } [(-(1 / Real.sqrt 3), 1), (1 / Real.sqrt 3, 1)] 1 2 0 3 = .ok i :=
  (init_types _ _ _ _ _ _).mpr (Or.inl (by decide))

example : ∃ i : Init 4 5 8, initial { type := some "custom", hermite := [⟨0, some 1, some 2, some 3⟩, ⟨-1, none, some 1, none⟩] } [] 1 2 0 3 = .ok i :=
  (init_types _ _ _ _ _ _).mpr (Or.inr ⟨rfl, by simp⟩)

example : ¬ ∃ i : Init 4 5 8, initial { type := some "custom", hermite := [⟨4, some 1, some 2, some 3⟩] } [] 1 2 0 3 = .ok i := by
  rw [init_types]; simp

example (B : Fin 2 → ℝ) : project [(-(1 / Real.sqrt 3), 1), (1 / Real.sqrt 3, 1)] 2 6 (fun v => ∑ j, B j * (xi 2 6 j.val).eval v) 1 = B 1 :=
  projection_exact rule_two 2 6 (by norm_num) (by norm_num) B 1

end Verif.HermiteLegendre
