import Verif.Props.HLBasis
import Verif.Props.HermiteExtra

/-!
C116: streaming and edge absorption of the mixed solver.  C117: its Poisson field.
-/
namespace Verif.HermiteLegendre
open Finset Complex MeasureTheory Verif.Spectral Verif.Hermite
open scoped Matrix ComplexConjugate

variable {N : ℕ} [NeZero N] {nh nl n : ℕ}

/-! ### C116 -/

/-- The contract of `eigh` can be met for every symmetric matrix. -/
theorem eigh_symm (T : Matrix (Fin n) (Fin n) ℝ) (h : T.IsHermitian) : ∃ d : Eigh n, IsEigh d T := by
  have hU := h.eigenvectorUnitary.2
  rw [Matrix.mem_unitaryGroup_iff] at hU
  have hs : star (h.eigenvectorUnitary : Matrix (Fin n) (Fin n) ℝ) = (h.eigenvectorUnitary : Matrix (Fin n) (Fin n) ℝ)ᵀ := by
    ext i j; simp [Matrix.star_apply]
  refine ⟨⟨h.eigenvectorUnitary, h.eigenvalues⟩, ?_, ?_⟩
  · rw [← hs]; exact hU
  · have := h.spectral_theorem
    rw [Unitary.conjStarAlgAut_apply] at this
    rw [← hs]; exact this

theorem TL_symm (nl : ℕ) (a b : ℝ) : (TL nl a b).IsHermitian := by
  ext i j
  simp only [Matrix.conjTranspose_apply, TL, star_trivial, eq_comm (a := i) (b := j)]; ring

/-- The rate of change under streaming, for any diagonalised matrix. -/
theorem stream_rate {d : Eigh n} {T : Matrix (Fin n) (Fin n) ℝ} (hd : IsEigh d T) (alpha : ℝ) (k : ZMod N → ℝ) (C : Coef n N) (s : ℝ) (i : Fin n) (q : ZMod N) :
    HasDerivAt (fun s : ℝ => stream d alpha k C s i q) (-I * k q * ∑ j, ((alpha * T i j : ℝ) : ℂ) * stream d alpha k C s j q) s := by
  have h1 : ∀ j : Fin n, HasDerivAt (fun s : ℝ => cexp (-I * alpha * s * d.lam j * k q))
      (cexp (-I * alpha * s * d.lam j * k q) * (-I * alpha * d.lam j * k q)) s := by
    intro j
    have e : HasDerivAt (fun s : ℝ => (-I * alpha * s * d.lam j * k q : ℂ)) (-I * alpha * d.lam j * k q) s := by
      have := (Complex.ofRealCLM.hasDerivAt (x := s)).const_mul (-I * alpha : ℂ)
      have := (this.mul_const (d.lam j : ℂ)).mul_const (k q : ℂ)
      exact this.congr_deriv (by simp)
    exact e.cexp
  have h2 : HasDerivAt (fun s : ℝ => stream d alpha k C s i q)
      (∑ j, (d.V i j : ℂ) * ((∑ m, (d.V m j : ℂ) * C m q) * (cexp (-I * alpha * s * d.lam j * k q) * (-I * alpha * d.lam j * k q)))) s := by
    have := HasDerivAt.fun_sum (u := Finset.univ) fun j (_ : j ∈ Finset.univ) =>
      (((h1 j).const_mul (∑ m, (d.V m j : ℂ) * C m q)).const_mul (d.V i j : ℂ))
    exact this
  refine h2.congr_deriv ?_
  have h3 : (∑ j, (d.V i j : ℂ) * ((∑ m, (d.V m j : ℂ) * C m q) * (cexp (-I * alpha * s * d.lam j * k q) * (-I * alpha * d.lam j * k q)))) =
      (-I * alpha * k q) * (fc d (fun l => (l : ℂ) * cexp (-I * alpha * s * l * k q)) *ᵥ fun m => C m q) i := by
    rw [fc, ← Matrix.mulVec_mulVec, ← Matrix.mulVec_mulVec]
    simp only [Matrix.mulVec, dotProduct, Matrix.map_apply, Matrix.transpose_apply, Matrix.diagonal_apply, ite_mul, zero_mul,
      Finset.sum_ite_eq, Finset.mem_univ, if_true]
    rw [Finset.mul_sum]
    exact Finset.sum_congr rfl fun j _ => by ring
  have h4 : (fun j => stream d alpha k C s j q) = fc d (fun l => cexp (-I * alpha * s * l * k q)) *ᵥ fun m => C m q := by
    funext m; rw [stream_eq]
  rw [h3, ← fc_mul hd (fun l => (l : ℂ)), ← Matrix.mulVec_mulVec, ← h4, fc_id hd]
  simp only [Matrix.mulVec, dotProduct, Matrix.map_apply, Finset.mul_sum]
  exact Finset.sum_congr rfl fun j _ => by push_cast; ring

/-- The Hermite streaming matrix is multiplication by the velocity too. -/
theorem hermite_velocity {alpha : ℝ} (ha : 0 < alpha) (u : ℝ) (i j : Fin nh) :
    alpha * streamMatrix nh alpha u i j = 1 / alpha * ∫ v, v * (basis alpha u i.val).eval v * psi alpha u v j.val := by
  have e : (∫ v, v * (basis alpha u i.val).eval v * psi alpha u v j.val) = gint ha.ne' u (basis alpha u j.val * (Polynomial.X * basis alpha u i.val)) := by
    rw [gint_def]; congr 1; funext v
    rw [psi_eq ha.ne', Polynomial.eval_mul, Polynomial.eval_mul, Polynomial.eval_X]; ring
  rw [e, streamMatrix]
  have hs : ∀ k l, gint ha.ne' u (basis alpha u k * basis alpha u l) = if k = l then alpha else 0 := by
    intro k l; rw [gint_orth, abs_of_pos ha]
  have ha' := ha.ne'
  rcases hi : i.val with _ | m
  · have g : gint ha.ne' u (basis alpha u j.val * (Polynomial.X * basis alpha u 0)) =
        alpha * Real.sqrt (1 / 2) * (if j.val = 1 then alpha else 0) + u * (if j.val = 0 then alpha else 0) := by
      rw [basis_three_zero alpha u ha.ne', mul_add, map_add, mul_left_comm, gint_C_mul, mul_left_comm, gint_C_mul, hs, hs]
    rw [g]
    by_cases h1 : j.val = 1
    · have hij : i ≠ j := fun h => by rw [h] at hi; omega
      rw [h1, if_pos rfl, if_neg (by omega), if_pos rfl, if_neg hij, if_neg (by omega)]
      norm_num; field_simp
    · rw [if_neg (show ¬ j.val = 0 + 1 by omega), if_neg (show ¬ 0 = j.val + 1 by omega), if_neg h1]
      by_cases h0 : j.val = 0
      · have hij : i = j := Fin.ext (by omega)
        rw [if_pos h0, if_pos hij]; field_simp; ring
      · have hij : i ≠ j := fun h => by rw [h] at hi; omega
        rw [if_neg h0, if_neg hij]; ring
  · have g : gint ha.ne' u (basis alpha u j.val * (Polynomial.X * basis alpha u (m + 1))) =
        alpha * Real.sqrt (((m : ℝ) + 1 + 1) / 2) * (if j.val = m + 2 then alpha else 0) + alpha * Real.sqrt (((m : ℝ) + 1) / 2) * (if j.val = m then alpha else 0)
          + u * (if j.val = m + 1 then alpha else 0) := by
      rw [basis_three alpha u ha.ne', mul_add, mul_add, map_add, map_add, mul_left_comm, gint_C_mul, mul_left_comm, gint_C_mul, mul_left_comm, gint_C_mul, hs, hs, hs]
    rw [g]
    by_cases h1 : j.val = m + 2
    · have hij : i ≠ j := fun h => by rw [h] at hi; omega
      rw [if_pos (by omega), if_neg (by omega), if_neg hij, if_pos (by omega), if_neg (by omega), if_neg (by omega)]
      push_cast; field_simp; ring_nf
    · rw [if_neg (by omega), if_neg (show ¬ j.val = m + 1 + 1 by omega)]
      by_cases h2 : j.val = m
      · have hij : i ≠ j := fun h => by rw [h] at hi; omega
        rw [if_pos (by omega), if_neg hij, if_pos h2, if_neg (by omega), h2]
        field_simp; ring_nf
      · rw [if_neg (by omega), if_neg h2]
        by_cases h3 : j.val = m + 1
        · have hij : i = j := Fin.ext (by omega)
          rw [if_pos hij, if_pos h3]; field_simp; ring
        · have hij : i ≠ j := fun h => by rw [h] at hi; omega
          rw [if_neg hij, if_neg h3]; ring

/-- Streaming: each coefficient changes at the rate of the projection of `-i k v` times the truncated expansion, for
both expansions and every coefficient, the last one included. -/
theorem stream_galerkin {dh : Eigh nh} {dl : Eigh nl} {alpha u a b : ℝ} (ha : 0 < alpha) (hw : a < b) (hh : IsEigh dh (streamMatrix nh alpha u)) (hl : IsEigh dl (TL nl a b))
    (k : ZMod N → ℝ) (C : Coef nh N) (B : Coef nl N) (s : ℝ) (q : ZMod N) (i : Fin nh) (m : Fin nl) :
    HasDerivAt (fun s : ℝ => stream dh alpha k C s i q)
      (-I * k q * ∑ j : Fin nh, ((1 / alpha * ∫ v, v * (basis alpha u i.val).eval v * psi alpha u v j.val : ℝ) : ℂ) * stream dh alpha k C s j q) s ∧
    HasDerivAt (fun s : ℝ => stream dl 1 k B s m q)
      (-I * k q * ∑ j : Fin nl, ((1 / (b - a) * ∫ v in a..b, v * (xi a b m.val).eval v * (xi a b j.val).eval v : ℝ) : ℂ) * stream dl 1 k B s j q) s := by
  refine ⟨?_, ?_⟩
  · refine (stream_rate hh alpha k C s i q).congr_deriv ?_
    congr 1
    exact sum_congr rfl fun j _ => by rw [hermite_velocity ha]
  · refine (stream_rate hl 1 k B s m q).congr_deriv ?_
    congr 1
    exact sum_congr rfl fun j _ => by rw [one_mul, velocity_matrix a b hw]

example : ∃ (dh : Eigh 5) (dl : Eigh 4), IsEigh dh (streamMatrix 5 2 1) ∧ IsEigh dl (TL 4 2 6) := by
  obtain ⟨dh, h⟩ := eigh_exists 5 2 1
  obtain ⟨dl, h'⟩ := eigh_symm _ (TL_symm 4 2 6)
  exact ⟨dh, dl, h, h'⟩

theorem absorb_eq (nu : ℝ) (col : Fin n → ℝ) (C : Coef n N) (s : ℝ) (i : Fin n) (q : ZMod N) :
    absorb nu col C s i q = C i q * (Real.exp (-(nu * col i * s)) : ℝ) := by
  rw [absorb]; split_ifs with h
  · subst h; simp
  · congr 3; ring

/-- The absorber at the edge of the basis: exact exponential decay, nothing for the first three coefficients, at
rate `nu` for the last of four or more, never growth. -/
theorem absorber (n : ℕ) (nu : ℝ) (C : Coef n N) :
    absorb nu (hyperCol n) C 0 = C ∧
    (∀ s t, absorb nu (hyperCol n) (absorb nu (hyperCol n) C s) t = absorb nu (hyperCol n) C (s + t)) ∧
    (∀ s i q, i.val < 3 → absorb nu (hyperCol n) C s i q = C i q) ∧
    (∀ s (i : Fin n) q, 3 < n → i.val + 1 = n → absorb nu (hyperCol n) C s i q = C i q * (Real.exp (-(nu * s)) : ℝ)) ∧
    (0 ≤ nu → ∀ s, 0 ≤ s → ∀ i q, ‖absorb nu (hyperCol n) C s i q‖ ≤ ‖C i q‖) := by
  have hp : collisionProfile n "hypercollision" = .ok (hyperCol n) := by rw [collisionProfile, if_neg (by decide), if_pos rfl]
  have h0 := (collision_profile n "hypercollision").1 _ hp
  refine ⟨?_, ?_, ?_, ?_, ?_⟩
  · funext i q; rw [absorb_eq]; simp
  · intro s t; funext i q; rw [absorb_eq, absorb_eq, absorb_eq, mul_assoc, ← ofReal_mul, ← Real.exp_add]; congr 3; ring
  · intro s i q hi; rw [absorb_eq, (h0 i).2 hi]; simp
  · intro s i q hn hi
    obtain ⟨col, hc, _, h1⟩ := (collision_spectra n).2
    rw [hp] at hc
    cases hc
    rw [absorb_eq, (h1 hn).1 i hi, mul_one]
  · intro hnu s hs i q
    rw [absorb_eq, norm_mul, Complex.norm_real, Real.norm_eq_abs, abs_of_pos (Real.exp_pos _)]
    have : Real.exp (-(nu * hyperCol n i * s)) ≤ 1 := by
      rw [Real.exp_le_one_iff]
      have := mul_nonneg (mul_nonneg hnu (h0 i).1) hs
      linarith
    exact mul_le_of_le_one_right (norm_nonneg _) this

variable [NeZero nh] [NeZero nl]

/-- The setup was built as the solver builds it. -/
structure Built (p : Setup nh nl N) : Prop where
  length : p.L ≠ 0
  alpha : 0 < p.alpha
  window : p.a < p.b
  eighH : IsEigh p.eighH (streamMatrix nh p.alpha p.u)
  eighL : IsEigh p.eighL (TL nl p.a p.b)
  mask0 : ∀ m, p.mask = some m → m 0 = true
  maskSymm : ∀ m, p.mask = some m → ∀ k, m (-k) = m k

/-- The linear step keeps the means of the first three coefficients of both expansions. -/
theorem exp_means (p : Setup nh nl N) (hb : Built p) (s : ℝ) (c : Cs nh nl N) :
    (∀ i : Fin nh, i.val < 3 → (p.exp s c).1 i 0 = c.1 i 0) ∧ ∀ i : Fin nl, i.val < 3 → (p.exp s c).2 i 0 = c.2 i 0 := by
  constructor <;> intro i hi <;> rw [Setup.exp] <;> dsimp only
  · rw [(absorber nh _ _).2.2.1 _ _ _ hi, stream_mean hb.eighH _ _ _ _ _ (kx_zero _)]
  · rw [(absorber nl _ _).2.2.1 _ _ _ hi, stream_mean hb.eighL _ _ _ _ _ (kx_zero _)]

/-- C116: the linear flow of the whole state starts at the Galerkin rates: `v d/dx` projected on each of the two bases, each with its own
velocity scale, less the absorber of that basis. -/
theorem exp_rate (p : Setup nh nl N) (hb : Built p) (ha : 0 < p.alpha) (hw : p.a < p.b) (c : Cs nh nl N) (q : ZMod N) (i : Fin nh) (m : Fin nl) :
    HasDerivAt (fun s : ℝ => (p.exp s c).1 i q)
      (-I * kx p.L q * ∑ j : Fin nh, ((1 / p.alpha * ∫ v, v * (basis p.alpha p.u i.val).eval v * psi p.alpha p.u v j.val : ℝ) : ℂ) * c.1 j q
        - (p.nuH * hyperCol nh i : ℝ) * c.1 i q) 0 ∧
    HasDerivAt (fun s : ℝ => (p.exp s c).2 m q)
      (-I * kx p.L q * ∑ j : Fin nl, ((1 / (p.b - p.a) * ∫ v in p.a..p.b, v * (xi p.a p.b m.val).eval v * (xi p.a p.b j.val).eval v : ℝ) : ℂ) * c.2 j q
        - (p.nuL * hyperCol nl m : ℝ) * c.2 m q) 0 ∧ p.exp 0 c = c := by
  have hE : ∀ r : ℝ, HasDerivAt (fun s : ℝ => ((Real.exp (-(r * s)) : ℝ) : ℂ)) ((-r : ℝ) : ℂ) 0 := by
    intro r
    have h := ((((hasDerivAt_id (0 : ℝ)).const_mul r).neg).exp).ofReal_comp
    refine h.congr_deriv ?_
    simp
  obtain ⟨h1, h2⟩ := stream_galerkin (N := N) ha hw hb.eighH hb.eighL (kx p.L) c.1 c.2 0 q i m
  have z1 : stream p.eighH p.alpha (kx p.L) c.1 0 = c.1 := stream_zero hb.eighH _ _ _
  have z2 : stream p.eighL 1 (kx p.L) c.2 0 = c.2 := stream_zero hb.eighL _ _ _
  rw [z1] at h1
  rw [z2] at h2
  refine ⟨?_, ?_, ?_⟩
  · have e : (fun s : ℝ => (p.exp s c).1 i q) = fun s : ℝ => stream p.eighH p.alpha (kx p.L) c.1 s i q * ((Real.exp (-((p.nuH * hyperCol nh i) * s)) : ℝ) : ℂ) := by
      funext s; rw [Setup.exp]; dsimp only; rw [absorb_eq]
    rw [e]
    refine (h1.mul (hE (p.nuH * hyperCol nh i))).congr_deriv ?_
    rw [z1]; simp; ring
  · have e : (fun s : ℝ => (p.exp s c).2 m q) = fun s : ℝ => stream p.eighL 1 (kx p.L) c.2 s m q * ((Real.exp (-((p.nuL * hyperCol nl m) * s)) : ℝ) : ℂ) := by
      funext s; rw [Setup.exp]; dsimp only; rw [absorb_eq]
    rw [e]
    refine (h2.mul (hE (p.nuL * hyperCol nl m))).congr_deriv ?_
    rw [z2]; simp; ring
  · rw [Setup.exp, z1, z2, (absorber nh p.nuH c.1).1, (absorber nl p.nuL c.2).1]

/-! ### C117 -/

/-- The field: Gauss's law for the ions of unit density and the electrons of both expansions, no mean field; nothing when
the field is off. -/
theorem mixed_gauss (p : Setup nh nl N) (hL : p.L ≠ 0) (c : Cs nh nl N) :
    (p.fieldOn = true → (∀ q : ℤ, Resolved N q → q ≠ 0 → gaussError (p.L / N) (p.field c)
        (fun x => 1 - (p.alpha * (toX (c.1 0) x).re + (p.b - p.a) * (toX (c.2 0) x).re)) q = 0) ∧ ∑ x, p.field c x = 0 ∧
      ∑ x, (p.alpha * (toX (c.1 0) x).re + (p.b - p.a) * (toX (c.2 0) x).re) * p.field c x = 0) ∧
    (p.fieldOn = false → p.field c = fun _ => 0) := by
  constructor
  · intro h
    have e : p.field c = Hermite.field p.L (p.charge c) := by funext x; rw [Setup.field, if_pos h]
    have e2 : (fun x => 1 - (p.alpha * (toX (c.1 0) x).re + (p.b - p.a) * (toX (c.2 0) x).re)) = p.charge c := by funext x; rw [Setup.charge]; ring
    obtain ⟨h1, h2, h3, h4, _⟩ := hermite_gauss p.L hL (p.charge c)
    rw [e, e2]
    refine ⟨h1, h2, ?_⟩
    have : ∀ x, (p.alpha * (toX (c.1 0) x).re + (p.b - p.a) * (toX (c.2 0) x).re) * Hermite.field p.L (p.charge c) x =
        Hermite.field p.L (p.charge c) x - p.charge c x * Hermite.field p.L (p.charge c) x := by
      intro x; rw [← congrFun e2 x]; ring
    rw [sum_congr rfl fun x _ => this x, sum_sub_distrib, h2, h4, sub_zero]
  · intro h; funext x; rw [Setup.field, h]; simp

theorem density_dist (p : Setup nh nl N) (hh : 3 ≤ nh) (hl : 3 ≤ nl) (ha : 0 < p.alpha) (hw : p.a < p.b) (c : Cs nh nl N) (x : ZMod N) :
    p.charge c x = 1 - densityInt (dist p.alpha p.u p.a p.b (fun i => (toX (c.1 i) x).re) fun i => (toX (c.2 i) x).re) := by
  rw [← (moments_are_integrals hh hl ha p.u p.a p.b hw _ _).1, Setup.charge]
  simp only [momentMatrix, low, Matrix.mulVec, dotProduct, Fin.sum_univ_six]
  have c0 : (clampIx 0 : Fin nh) = 0 := by rw [clampIx_val 0 (by omega)]; rfl
  have d0 : (clampIx 0 : Fin nl) = 0 := by rw [clampIx_val 0 (by omega)]; rfl
  simp [c0, d0]; ring

theorem kx_neg_sq (L : ℝ) (k : ZMod N) : kx L (-k) ^ 2 = kx L k ^ 2 := by
  rw [kx_eq, kx_eq]
  by_cases hz : k.val = 0
  · have : k = 0 := (ZMod.val_eq_zero k).mp hz
    subst this; simp
  · by_cases hk : 2 * k.val = N
    · rw [(neg_eq_self_iff hz).2 hk]
    · rw [kfull_odd _ k hz hk]; ring

/-- The reported potential is the one whose gradient is the field, with zero mean. -/
theorem potential_field (p : Setup nh nl N) (hL : p.L ≠ 0) (h : p.fieldOn = true) (c : Cs nh nl N) :
    (∀ k : ZMod N, 2 * k.val ≠ N → toK (fun x => (p.field c x : ℂ)) k = -I * kx p.L k * toK (fun x => (p.potential c x : ℂ)) k) ∧
    ∑ x, p.potential c x = 0 := by
  have hNr : (N : ℝ) ≠ 0 := Nat.cast_ne_zero.mpr (NeZero.ne N)
  have hp : ∀ k, toK (fun x => (p.potential c x : ℂ)) k =
      if 0 < kx p.L k ^ 2 then toK (fun j => (p.charge c j : ℂ)) k / ((kx p.L k ^ 2 : ℝ) : ℂ) else 0 := by
    intro k
    have e : (fun x => (p.potential c x : ℂ)) = fun x => (((toX (fun k => if 0 < kx p.L k ^ 2 then toK (fun j => (p.charge c j : ℂ)) k / ((kx p.L k ^ 2 : ℝ) : ℂ) else 0) x).re : ℝ) : ℂ) := by
      funext x; rw [Setup.potential, if_pos h]
    rw [e, toK_re, kx_neg_sq, toK_real]
    split_ifs
    · rw [map_div₀, conj_ofReal, Complex.conj_conj]; ring
    · simp
  refine ⟨fun k hk => ?_, ?_⟩
  · have e : (fun x => (p.field c x : ℂ)) = fun x => ((Hermite.field p.L (p.charge c) x : ℝ) : ℂ) := by funext x; rw [Setup.field, if_pos h]
    rw [e, toK_field, if_neg hk, hp]
    by_cases hz : k = 0
    · subst hz; rw [oneOverKx, if_pos ZMod.val_zero, kx_zero]; simp
    · have hz' : k.val ≠ 0 := fun h => hz ((ZMod.val_eq_zero k).mp h)
      have hk0 : kx p.L k ≠ 0 := by
        rw [kx_eq]; exact kfull_ne_zero (div_ne_zero hL hNr) hz'
      rw [oneOverKx, if_neg hz', if_pos (by positivity)]
      have : (kx p.L k : ℂ) ≠ 0 := ofReal_ne_zero.mpr hk0
      push_cast; field_simp
  · have h0 := hp 0
    rw [kx_zero] at h0
    rw [toK_mean] at h0
    simp only [ne_eq, OfNat.ofNat_ne_zero, not_false_eq_true, zero_pow, lt_self_iff_false, if_false] at h0
    rw [div_eq_zero_iff, ← ofReal_sum] at h0
    exact ofReal_eq_zero.mp (h0.resolve_right (Nat.cast_ne_zero.mpr (NeZero.ne N)))

end Verif.HermiteLegendre
