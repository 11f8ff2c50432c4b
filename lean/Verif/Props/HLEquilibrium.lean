import Verif.Props.HLConserve
import Verif.Props.HLDoughertyL

/-!
C124: a uniform plasma stays as it is.
-/
namespace Verif.HermiteLegendre
open Finset Complex Verif.Spectral Verif.Hermite
open scoped Matrix ComplexConjugate

variable {N : ℕ} [NeZero N] {nh nl : ℕ} [NeZero nh] [NeZero nl]

/-- The Fourier coefficients of the same distribution at every position. -/
noncomputable def uniform (N : ℕ) (C : Fin nh → ℝ) (B : Fin nl → ℝ) : Cs nh nl N :=
  (fun i k => if k = 0 then (C i : ℂ) else 0, fun i k => if k = 0 then (B i : ℂ) else 0)

omit [NeZero nh] [NeZero nl] in
theorem uniform_toX (C : Fin nh → ℝ) (B : Fin nl → ℝ) (x : ZMod N) :
    (∀ i, toX ((uniform N C B).1 i) x = C i) ∧ ∀ i, toX ((uniform N C B).2 i) x = B i := by
  refine ⟨fun i => ?_, fun i => ?_⟩
  · have : (uniform N C B).1 i = fun k => if k = 0 then (C i : ℂ) else 0 := rfl
    rw [this, toX_mean _ (fun k hk => if_neg hk), if_pos rfl]
  · have : (uniform N C B).2 i = fun k => if k = 0 then (B i : ℂ) else 0 := rfl
    rw [this, toX_mean _ (fun k hk => if_neg hk), if_pos rfl]

/-- It is the distribution it stands for. -/
theorem uniform_dist (p : Setup nh nl N) (C : Fin nh → ℝ) (B : Fin nl → ℝ) (x : ZMod N) :
    distAt p (uniform N C B) x = dist p.alpha p.u p.a p.b C B := by
  funext v
  rw [distAt]
  simp only [(uniform_toX C B x).1, (uniform_toX C B x).2, ofReal_re]

omit [NeZero nh] [NeZero nl] in
theorem uniform_masked {m : Option (ZMod N → Bool)} (hm : ∀ f, m = some f → f 0 = true) (r : ℂ) :
    masked m (fun k : ZMod N => if k = 0 then r else 0) = fun k => if k = 0 then r else 0 := by
  rcases m with _ | f
  · rfl
  · funext k
    rw [masked]
    by_cases hk : k = 0
    · rw [if_pos (by rw [hk]; exact hm f rfl)]
    · simp [hk]

theorem uniform_field (p : Setup nh nl N) (C : Fin nh → ℝ) (B : Fin nl → ℝ) : p.field (uniform N C B) = fun _ => 0 := by
  funext x
  rw [Setup.field]
  split_ifs
  · have : p.charge (uniform N C B) = fun _ => 1 - p.alpha * C 0 - (p.b - p.a) * B 0 := by
      funext x; rw [Setup.charge, (uniform_toX C B x).1, (uniform_toX C B x).2]; simp
    rw [this, field_const]
  · rfl

/-- What the edge absorbers must leave alone: they are off, or the coefficients they act on vanish. -/
structure Quiet (p : Setup nh nl N) (C : Fin nh → ℝ) (B : Fin nl → ℝ) : Prop where
  hermite : p.nuH = 0 ∨ ∀ i : Fin nh, 3 ≤ i.val → C i = 0
  legendre : p.nuL = 0 ∨ ∀ i : Fin nl, 3 ≤ i.val → B i = 0

omit [NeZero nh] [NeZero nl] in
theorem uniform_part {n : ℕ} (d : Eigh n) {T : Matrix (Fin n) (Fin n) ℝ} (hd : IsEigh d T) (alpha L nu s : ℝ) (C : Fin n → ℝ) (hq : nu = 0 ∨ ∀ i : Fin n, 3 ≤ i.val → C i = 0) :
    absorb nu (hyperCol n) (stream d alpha (kx L) (fun i (k : ZMod N) => if k = 0 then (C i : ℂ) else 0) s) s = fun i k => if k = 0 then (C i : ℂ) else 0 := by
  have hst : stream d alpha (kx L) (fun i (k : ZMod N) => if k = 0 then (C i : ℂ) else 0) s = fun i k => if k = 0 then (C i : ℂ) else 0 := by
    funext i k
    by_cases hk : k = 0
    · subst hk; rw [stream_mean hd _ _ _ _ _ (kx_zero _)]
    · simp [stream, hk]
  rw [hst]
  funext i k
  rcases hq with h | h
  · rw [absorb, if_pos h]
  · by_cases hi : i.val < 3
    · exact (absorber n nu _).2.2.1 s i k hi
    · rw [absorb_eq, h i (by omega)]; simp

theorem uniform_exp (p : Setup nh nl N) (hb : Built p) (C : Fin nh → ℝ) (B : Fin nl → ℝ) (hq : Quiet p C B) (s : ℝ) : p.exp s (uniform N C B) = uniform N C B := by
  rw [Setup.exp]
  exact Prod.ext (uniform_part _ hb.eighH _ _ _ _ _ hq.hermite) (uniform_part _ hb.eighL _ _ _ _ _ hq.legendre)

omit [NeZero nl] in
theorem uniform_cross (L alpha : ℝ) (cv : Fin nl → ℝ) (m : Option (ZMod N → Bool)) (C : Fin nh → ℝ) (i : Fin nl) (k : ZMod N) :
    cross L alpha cv m (fun _ => 0) (fun i k => if k = 0 then (C i : ℂ) else 0) i k = 0 := by
  rw [cross, maskedForce_null]
  have e : masked m (toK fun x => ((2 / alpha ^ 2 : ℝ) : ℂ) * ((0 : ℝ) : ℂ) * toX (masked m fun k => if k = 0 then (C lastH : ℂ) else 0) x) k = 0 := by
    have : (fun x => ((2 / alpha ^ 2 : ℝ) : ℂ) * ((0 : ℝ) : ℂ) * toX (masked m fun k => if k = 0 then (C lastH : ℂ) else 0) x) = fun _ : ZMod N => (0 : ℂ) := by
      funext x; simp
    rw [this]
    have hz : toK (fun _ : ZMod N => (0 : ℂ)) = fun _ => 0 := by funext k; rw [toK, show (fun _ : ZMod N => (0 : ℂ)) = 0 from rfl, Spectral.fft, map_zero]; simp
    rw [hz]
    rcases m with _ | f
    · rfl
    · simp [masked]
  rw [e]
  by_cases hk : k = 0
  · subst hk; rw [kx_zero]; simp
  · simp [hk]

theorem uniform_driven (p : Setup nh nl N) (hd : p.driver = none) (t : ℝ) (x : ZMod N) : p.driven t x = 0 := by unfold Setup.driven; rw [hd]

theorem toK_null : toK (fun _ : ZMod N => (0 : ℂ)) = fun _ => 0 := by
  funext k; rw [toK, show (fun _ : ZMod N => (0 : ℂ)) = 0 from rfl, Spectral.fft, map_zero]; simp

theorem masked_zero (m : Option (ZMod N → Bool)) : masked m (fun _ : ZMod N => (0 : ℂ)) = fun _ => 0 := by
  rcases m with _ | f
  · rfl
  · funext k; simp [masked]

theorem uniform_rhs (p : Setup nh nl N) (hd : p.driver = none) (C : Fin nh → ℝ) (B : Fin nl → ℝ) (t : ℝ) : p.rhs t (uniform N C B) = 0 := by
  have hE : (fun x => p.field (uniform N C B) x + p.driven t x) = fun _ => 0 := by
    funext x; rw [uniform_field, uniform_driven p hd, add_zero]
  have hx : cross p.L p.alpha p.coupling p.mask (fun _ => 0) (uniform N C B).1 = 0 := by
    funext i k; exact uniform_cross _ _ _ _ _ _ _
  rw [Setup.rhs]
  simp only [hE, hx]
  split_ifs
  · rfl
  · refine Prod.ext (funext fun i => funext fun k => ?_) (funext fun i => funext fun k => ?_)
    · simp only [hermiteForce, maskedForce_null]
      simp only [ofReal_zero, mul_zero, zero_mul]
      rw [toK_null, masked_zero]; rfl
    · simp only [legendreForce, maskedForce_null, legendreRate]
      simp only [ofReal_zero, neg_zero, zero_mul]
      rw [toK_null, masked_zero]; simp

omit [NeZero nh] [NeZero nl] in
theorem uniform_toK {m : Option (ZMod N → Bool)} (hm : ∀ f, m = some f → f 0 = true) (r : ℂ) :
    masked m (toK fun _ : ZMod N => r) = fun k => if k = 0 then r else 0 := by
  have : (fun _ : ZMod N => r) = toX fun k => if k = 0 then r else 0 := by
    funext x; rw [toX_mean _ (fun k hk => if_neg hk), if_pos rfl]
  rw [this, toK_toX, uniform_masked hm]

theorem uniform_lawson (p : Setup nh nl N) (hb : Built p) (hd : p.driver = none) (C : Fin nh → ℝ) (B : Fin nl → ℝ) (hq : Quiet p C B) (t : ℝ) :
    lawson p.exp p.rhs t p.dt (uniform N C B) = uniform N C B := by
  have h0 : ∀ s, p.exp s (0 : Cs nh nl N) = 0 := by
    intro s
    have h := uniform_exp p hb (0 : Fin nh → ℝ) (0 : Fin nl → ℝ) ⟨Or.inr fun _ _ => rfl, Or.inr fun _ _ => rfl⟩ s
    have e : (uniform N (0 : Fin nh → ℝ) (0 : Fin nl → ℝ)) = 0 := by
      refine Prod.ext (funext fun i => funext fun k => ?_) (funext fun i => funext fun k => ?_) <;> simp [uniform]
    rwa [e] at h
  unfold lawson
  simp only [uniform_exp p hb C B hq, uniform_rhs p hd, h0, smul_zero, add_zero]

theorem uniform_implicit (p : Setup nh nl N) (hb : Built p) (C : Fin nh → ℝ) (B : Fin nl → ℝ) : p.implicitE (fun _ => 0) (uniform N C B) = uniform N C B := by
  rw [Setup.implicitE]
  simp only [mul_zero, ofReal_zero, zero_smul, sub_zero, inv_one, Matrix.one_mulVec]
  refine Prod.ext (funext fun i => ?_) (funext fun i => ?_)
  · dsimp only
    rw [toK_toX]
    rw [show masked p.mask ((uniform N C B).1 i) = (uniform N C B).1 i from uniform_masked hb.mask0 _]
    exact uniform_masked hb.mask0 _
  · dsimp only
    rw [toK_toX]
    rw [show masked p.mask ((uniform N C B).2 i) = (uniform N C B).2 i from uniform_masked hb.mask0 _]
    exact uniform_masked hb.mask0 _

theorem uniform_cayley (p : Setup nh nl N) (hb : Built p) (hs : Solvable p) (C : Fin nh → ℝ) (B : Fin nl → ℝ) : p.forceCayley (fun _ => 0) (uniform N C B) = uniform N C B := by
  obtain ⟨f, g, h1, h2, h3⟩ := force_midpoint p hs.skew (fun _ => 0) (fun hn x => hs.woodbury hn _) (uniform N C B)
  have m1 : ∀ j, masked p.mask ((uniform N C B).1 j) = (uniform N C B).1 j := fun j => uniform_masked hb.mask0 _
  have m2 : ∀ j, masked p.mask ((uniform N C B).2 j) = (uniform N C B).2 j := fun j => uniform_masked hb.mask0 _
  have hf : ∀ x, f x = fun j => (C j : ℂ) := by
    intro x; rw [(h3 x).1]
    simp only [m1, (uniform_toX C B x).1, mul_zero, ofReal_zero, zero_smul, add_zero]
  have hg : ∀ x, g x = fun j => (B j : ℂ) := by
    intro x; rw [(h3 x).2]
    simp only [m2, (uniform_toX C B x).2, mul_zero, ofReal_zero, zero_smul, add_zero]
  refine Prod.ext (funext fun i => ?_) (funext fun i => ?_)
  · rw [h1]; simp only [hf]; exact uniform_toK hb.mask0 _
  · rw [h2]; simp only [hg]; exact uniform_toK hb.mask0 _

theorem uniform_split (p : Setup nh nl N) (hb : Built p) (hs : Solvable p) (hd : p.driver = none) (C : Fin nh → ℝ) (B : Fin nl → ℝ) (hq : Quiet p C B) (t : ℝ) :
    p.splitStep t (uniform N C B) = uniform N C B := by
  have hcor : ∀ El : ZMod N → ℝ, (p.corrector t (uniform N C B) El (fun _ => 0)).1 = uniform N C B := by
    intro El
    rw [Setup.corrector]
    simp only [uniform_cayley p hb hs]
    have e : (fun (i : Fin nh) k => (0.5 : ℂ) * ((uniform N C B).1 i k + (uniform N C B).1 i k)) = fun i k => if k = 0 then (C i : ℂ) else 0 := by
      funext i k; norm_num; ring_nf; rfl
    refine Prod.ext rfl (funext fun i => funext fun k => ?_)
    dsimp only
    rw [e, uniform_cross]; simp
  have hcor2 : (p.corrector t (uniform N C B) (fun _ => 0) (fun _ => 0)).2 = fun _ => 0 := by
    funext x
    have : (p.corrector t (uniform N C B) (fun _ => 0) (fun _ => 0)).2 x = 0.5 * ((0 : ℝ) + (p.field (p.corrector t (uniform N C B) (fun _ => 0) (fun _ => 0)).1 x + p.driven (t + 0.5 * p.dt) x)) := rfl
    rw [this, hcor, uniform_field, uniform_driven p hd]; simp
  have hloop : ∀ n, p.correctorLoop t (uniform N C B) (fun _ => 0) (fun _ => 0) n = (uniform N C B, fun _ => 0) := by
    intro n
    induction n with
    | zero => rw [Setup.correctorLoop]; exact Prod.ext (hcor _) hcor2
    | succ n ih => rw [Setup.correctorLoop, ih]; exact Prod.ext (hcor _) hcor2
  have hEl : (fun x => p.field (uniform N C B) x + p.driven (t + 0.5 * p.dt) x) = fun _ => 0 := by
    funext x; rw [uniform_field, uniform_driven p hd, add_zero]
  have hpred : ((uniform N C B).1, fun i k => (uniform N C B).2 i k + (p.dt : ℂ) * cross p.L p.alpha p.coupling p.mask (fun _ => 0) (uniform N C B).1 i k) = uniform N C B := by
    refine Prod.ext rfl (funext fun i => funext fun k => ?_)
    dsimp only
    rw [show cross p.L p.alpha p.coupling p.mask (fun _ => 0) (uniform N C B).1 i k = 0 from uniform_cross _ _ _ _ _ _ _]; simp
  have hEm : (fun x => 0.5 * (p.field (uniform N C B) x + p.driven (t + 0.5 * p.dt) x + (p.field (uniform N C B) x + p.driven (t + 0.5 * p.dt) x))) = fun _ => 0 := by
    funext x; rw [uniform_field, uniform_driven p hd]; simp
  rw [Setup.splitStep]
  simp only [uniform_exp p hb C B hq, hEl, uniform_cayley p hb hs, hpred, hEm, hloop]
  split_ifs
  · have hdel : p.delta (p.momentDensity (uniform N C B) (p.field (uniform N C B))) (uniform N C B) = 0 := by
      rw [Setup.delta]
      have : (fun i => p.momentDensity (uniform N C B) (p.field (uniform N C B)) i - p.momentDensity (uniform N C B) (p.field (uniform N C B)) i) = 0 := by funext i; simp
      rw [this, Matrix.mulVec_zero]
    rw [Setup.correct, hdel]
    refine Prod.ext (funext fun i => funext fun k => ?_) (funext fun i => funext fun k => ?_) <;> simp
  · rfl

/-- Any uniform plasma, neutral or not, is left alone by the collisionless part of every integrator. -/
theorem uniform_kinetic (p : Setup nh nl N) (hb : Built p) (hs : p.integrator = .split → Solvable p) (hd : p.driver = none) (C : Fin nh → ℝ) (B : Fin nl → ℝ) (hq : Quiet p C B) (t : ℝ) :
    p.kinetic t (uniform N C B) = uniform N C B := by
  unfold Setup.kinetic
  rcases hI : p.integrator with _ | _ | _
  · exact uniform_lawson p hb hd C B hq t
  · dsimp only
    rw [uniform_lawson p hb hd C B hq t]
    have : (fun x => p.field (uniform N C B) x + p.driven (t + p.dt) x) = fun _ => 0 := by
      funext x; rw [uniform_field, uniform_driven p hd, add_zero]
    rw [this, uniform_implicit p hb]
  · exact uniform_split p hb (hs hI) hd C B hq t

theorem uniform_pointwise (F : (Fin nh → ℝ) → (Fin nl → ℝ) → (Fin nh → ℝ) × (Fin nl → ℝ)) (C : Fin nh → ℝ) (B : Fin nl → ℝ) (h : F C B = (C, B)) :
    pointwise F (uniform N C B) = uniform N C B := by
  rw [pointwise]
  simp only [(uniform_toX C B _).1, (uniform_toX C B _).2, ofReal_re]
  rw [show F (fun j => C j) (fun j => B j) = (C, B) from h]
  refine Prod.ext (funext fun i => ?_) (funext fun i => ?_)
  · have := uniform_toK (N := N) (m := none) (fun _ h => by cases h) (C i : ℂ)
    rw [masked_none] at this; exact this
  · have := uniform_toK (N := N) (m := none) (fun _ h => by cases h) (B i : ℂ)
    rw [masked_none] at this; exact this

/-- What the collisions leave alone: a Maxwellian without Legendre part, above the floors, of any density and temperature. -/
def Relaxed (p : Setup nh nl N) (C : Fin nh → ℝ) (B : Fin nl → ℝ) : Prop :=
  ∀ nu minT, (p.collision = some (.bgk nu minT) ∨ ∃ d, p.collision = some (.dougherty nu minT d)) →
    0 ≤ nu ∧ 0 < minT ∧ ∃ n U T, 1e-14 ≤ n ∧ minT ≤ T ∧ C = maxwellCoef nh p.alpha p.u n U T ∧ B = 0

/-- C124: a uniform plasma without driver stays exactly as it is, with any integrator: collisionless whatever its distribution, with collisions when it is Maxwellian. -/
theorem equilibrium (p : Setup nh nl N) (hb : Built p) (hh : 3 ≤ nh) (hl : 3 ≤ nl) (hdt : 0 ≤ p.dt) (hs : p.integrator = .split → Solvable p) (hd : p.driver = none)
    (C : Fin nh → ℝ) (B : Fin nl → ℝ) (hq : Quiet p C B) (hr : Relaxed p C B) (y : State nh nl N) (hy : y.c = uniform N C B) (n : ℕ) :
    (p.run y n).c = uniform N C B ∧ (0 < n → (p.run y n).e = fun _ => 0) := by
  have hcol : p.collide (0.5 * p.dt) (uniform N C B) = uniform N C B := by
    unfold Setup.collide
    rcases hC : p.collision with _ | ⟨nu, m⟩ | ⟨nu, m, d⟩
    · rfl
    · dsimp only
      split_ifs
      · rfl
      · obtain ⟨h0, hm, n, U, T, hn, hT, rfl, rfl⟩ := hr nu m (Or.inl hC)
        exact uniform_pointwise _ _ _ (bgk_fixed hh hl ⟨nu, p.alpha, p.u, m⟩ hb.alpha p.a p.b hb.window _ n U T hm hn hT)
    · dsimp only
      split_ifs
      · rfl
      · obtain ⟨h0, hm, n, U, T, hn, hT, rfl, rfl⟩ := hr nu m (Or.inr ⟨d, hC⟩)
        exact uniform_pointwise _ _ _ (dougherty_fixed hh hl ⟨nu, p.alpha, p.u, m⟩ hb.alpha hb.window _ n U T (by dsimp only; positivity) hm hn hT)
  have hrun : (p.run y n).c = uniform N C B := by
    induction n with
    | zero => exact hy
    | succ n ih =>
      have hst : (p.run y (n + 1)).c = p.collide (0.5 * p.dt) (p.kinetic (n * p.dt) (p.collide (0.5 * p.dt) (p.run y n).c)) := rfl
      rw [hst, ih, hcol, uniform_kinetic p hb hs hd C B hq, hcol]
  refine ⟨hrun, fun hn => ?_⟩
  obtain ⟨k, rfl⟩ : ∃ k, n = k + 1 := ⟨n - 1, by omega⟩
  have he : (p.run y (k + 1)).e = p.field (p.run y (k + 1)).c := rfl
  rw [he, hrun, uniform_field]

/-- The hypotheses are met: a drifting Maxwellian with BGK collisions, either explicit integrator. -/
example (i : Integrator) (hi : i ≠ .split) : ∃ p : Setup 4 5 8, p.integrator = i ∧ p.collision = some (.bgk 1 (1 / 100)) ∧
    ∀ y : State 4 5 8, y.c = uniform 8 (maxwellCoef 4 p.alpha p.u 1 (3 / 2) (1 / 2)) 0 → ∀ n, (p.run y n).c = y.c := by
  obtain ⟨p, hb, hc, h1, _, h2, _, h3, h4, h5⟩ := explicit_exists 8 i none 0 (some (.bgk 1 (1 / 100)))
  refine ⟨p, h1, h3, fun y hy n => ?_⟩
  rw [hy]
  refine (equilibrium p hb (by norm_num) (by norm_num) (by rw [h4]; norm_num) (fun h => absurd (h1.symm.trans h) hi) h2 _ _ ⟨Or.inl h5, Or.inr fun _ _ => rfl⟩ ?_ y hy n).1
  intro nu minT h
  rcases h with h | ⟨d, h⟩
  · rw [h3] at h; cases h
    exact ⟨by norm_num, by norm_num, 1, 3 / 2, 1 / 2, by norm_num, by norm_num, rfl, rfl⟩
  · rw [h3] at h; cases h

/-- And with the split integrator, the Maxwellian of the basis and edge absorbers. -/
example : ∃ p : Setup 4 5 8, p.integrator = .split ∧ 0 ≤ p.dt ∧ ∀ y : State 4 5 8, y.c = uniform 8 ![1, 0, 0, 0] (0 : Fin 5 → ℝ) → ∀ n, (p.run y n).c = y.c := by
  obtain ⟨p, hb, hs, h1, h2, h3, h4, h5, h6⟩ := setup_exists 8 none
  refine ⟨p, h1, h6, fun y hy n => ?_⟩
  rw [hy]
  refine (equilibrium p hb (by norm_num) (by norm_num) h6 (fun _ => hs) h3 _ _ ⟨Or.inr ?_, Or.inr fun _ _ => rfl⟩ ?_ y hy n).1
  · intro i hi; fin_cases i <;> simp_all
  · intro nu minT h
    rcases h with h | ⟨d, h⟩ <;> rw [h5] at h <;> cases h

end Verif.HermiteLegendre
