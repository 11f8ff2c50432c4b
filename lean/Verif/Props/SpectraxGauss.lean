import Verif.Props.SpectraxConserve

/-! C150: the exponential integrator does not keep Gauss's law; C153: its inner filter is not a flow. -/
namespace Verif.Spectrax
open Finset Complex Verif.Hermite
open scoped ComplexConjugate Matrix

/-- One mode. -/
noncomputable def eig1 : Eigh 1 := ⟨1, 0⟩

theorem eig1_ok (a : ℝ) : IsEigh eig1 (streamMatrix 1 a 0) := by
  constructor
  · simp [eig1]
  · ext i j; simp [eig1, streamMatrix, Matrix.mul_apply]

/-- Electrons with two modes along x on two grid points, immobile ions, no fields but their own. -/
noncomputable def wave2 : Setup ⟨1, 1, 2⟩ ⟨1, 1, 1⟩ 1 2 1 where
  e := ⟨-1, 1, fun _ => Real.sqrt 2, 0⟩
  i := ⟨1, 1, fun _ => 1, 0⟩
  L := fun _ => 2 * Real.pi
  omega := 1
  nu := 0
  D := 0
  staticIons := true
  filter := none
  gamma := none
  driver := 0
  noiseE := none
  noiseI := none
  eX := eig2
  eY := eig1
  eZ := eig1
  iX := eig1
  iY := eig1
  iZ := eig1
  spongeF := none
  spongeE := none
  spongeI := none

theorem wave2_ok : wave2.Ok := ⟨eig2_ok _, eig1_ok _, eig1_ok _, eig1_ok _, eig1_ok _, eig1_ok _⟩

/-- The wave vector of the single resolved oscillation. -/
def k1 : K 1 2 1 := (0, 1, 0)

/-- A pure electron flow at that wave vector, no charge, no field. -/
noncomputable def flow2 : St ⟨1, 1, 2⟩ ⟨1, 1, 1⟩ 1 2 1 := (fun _ _ n k => if n = 1 ∧ k = k1 then 1 else 0, 0, 0, 0)

theorem xi_k1 : xi wave2.L k1 = ![-1, 0, 0] := by
  have hp := Real.pi_pos.ne'
  have h1 : kx (N := 2) (2 * Real.pi) 1 = -1 := by
    unfold kx Grid.fftfreqAt
    have : (1 : ZMod 2).val = 1 := rfl
    rw [this]
    norm_num
  have h2 : kx (N := 1) (2 * Real.pi) 0 = 0 := kx_zero _
  funext i
  fin_cases i
  · exact h1
  · exact h2
  · exact h2

theorem mask_k1 (c : K 1 2 1 → ℂ) (h : c 0 = 0) : masked3 c = 0 := by
  have hz : (Finset.univ : Finset (ZMod 1)) = {0} := rfl
  funext k
  obtain ⟨a, b, e⟩ := k
  have ha : a = 0 := Subsingleton.elim _ _
  have he : e = 0 := Subsingleton.elim _ _
  subst ha he
  have hb : b = 0 ∨ b = 1 := by revert b; decide
  rcases hb with rfl | rfl
  · unfold masked3; split_ifs
    · exact h
    · rfl
  · have : mask ((0, 1, 0) : K 1 2 1) = false := by
      have h1 : mask23 2 (1 : ZMod 2) = false := by
        unfold mask23 Grid.fftfreqAt
        have : (1 : ZMod 2).val = 1 := rfl
        rw [this]
        norm_num
      unfold mask; rw [h1]; simp
    unfold masked3; rw [this]; rfl

theorem toX3_zero {Ny Nx Nz : ℕ} [NeZero Ny] [NeZero Nx] [NeZero Nz] : toX3 (0 : K Ny Nx Nz → ℂ) = 0 := by
  have := toX3_toK3 (0 : K Ny Nx Nz → ℂ)
  rwa [show toK3 (0 : K Ny Nx Nz → ℂ) = 0 from toK3_zero] at this

theorem lorentz_none (s : Species) (omega : ℝ) (C : Tens ⟨1, 1, 2⟩ (K 1 2 1 → ℂ)) (h : ∀ p m n, C p m n 0 = 0) (E B : Fin 3 → K 1 2 1 → ℂ) :
    lorentz s omega C E B = 0 := by
  have hc : ∀ x, coefX C x = 0 := by
    intro x; funext p m n
    unfold coefX; rw [mask_k1 _ (h p m n), toX3_zero]; rfl
  have hp : ∀ p m n : ℤ, pad (0 : Tens ⟨1, 1, 2⟩ ℂ) p m n = 0 := by intro p m n; unfold pad; split_ifs <;> rfl
  have hl : ∀ E B p m n, lorentzAt s (0 : Tens ⟨1, 1, 2⟩ ℂ) E B p m n = 0 := by
    intro E B p m n
    unfold lorentzAt auxX auxY auxZ shift
    simp only [hp]; ring
  funext p m n k
  unfold lorentz
  simp only [hc, hl, toK3_zero]
  unfold masked3; split_ifs <;> simp

/-- The electrons of the exponential's orbit through `flow2`. -/
theorem orbit (s : ℝ) : (∀ p m n, (wave2.exp s flow2).1 p m n 0 = 0) ∧ (wave2.exp s flow2).1 0 0 1 k1 = (Real.cos s : ℂ) ∧
    (wave2.exp s flow2).1 0 0 0 k1 = I * (Real.sin s : ℂ) ∧ (wave2.exp s flow2).2.1 = 0 := by
  have hd : ∀ C : Tens ⟨1, 1, 2⟩ (K 1 2 1 → ℂ), diagonal 0 0 s C = C := by intro C; funext a b c k; simp [diagonal]
  have e : (wave2.exp s flow2).1 = freeStream eig2 eig1 eig1 wave2.e wave2.L none s flow2.1 := by
    show diagonal 0 0 s _ = _
    rw [hd]; rfl
  have p1 : ∀ a x s, prop eig1 a x s = 1 := by
    intro a x s
    unfold prop fc eig1
    ext i j
    have hi : i = 0 := Subsingleton.elim _ _
    have hj : j = 0 := Subsingleton.elim _ _
    subst hi hj
    simp [Matrix.mul_apply]
  have sl : ∀ k, slice (freeStream eig2 eig1 eig1 wave2.e wave2.L none s flow2.1) k = actX (prop eig2 (Real.sqrt 2) (xi wave2.L k 0) s) (slice flow2.1 k) := by
    intro k
    rw [freeStream_eq, p1, p1]
    rw [actY_one (d := ⟨1, 1, 2⟩), actZ_one (d := ⟨1, 1, 2⟩)]
    rfl
  have th : -s = Real.sqrt 2 * (xi wave2.L k1 0) * s / Real.sqrt 2 := by
    rw [xi_k1]
    have : Real.sqrt 2 ≠ 0 := by positivity
    simp only [Matrix.cons_val_zero]
    field_simp
  obtain ⟨q00, q01, q10, q11⟩ := prop2 (Real.sqrt 2) (xi wave2.L k1 0) s (-s) th
  have f0 : slice flow2.1 k1 0 0 0 = 0 := by simp [slice, flow2]
  have f1 : slice flow2.1 k1 0 0 1 = 1 := by simp [slice, flow2]
  have ax : ∀ n, slice (freeStream eig2 eig1 eig1 wave2.e wave2.L none s flow2.1) k1 0 0 n = prop eig2 (Real.sqrt 2) (xi wave2.L k1 0) s n 1 := by
    intro n
    rw [sl]
    unfold actX
    rw [Fin.sum_univ_two, f0, f1]; ring
  refine ⟨fun p m n => ?_, ?_, ?_, rfl⟩
  · rw [e]
    show slice (freeStream eig2 eig1 eig1 wave2.e wave2.L none s flow2.1) 0 p m n = 0
    rw [sl]
    have z : slice flow2.1 (0 : K 1 2 1) = 0 := by
      funext p m n
      have : (0 : K 1 2 1) ≠ k1 := by decide
      simp [slice, flow2, this]
    rw [z]; simp [actX]
  · rw [e]
    show slice (freeStream eig2 eig1 eig1 wave2.e wave2.L none s flow2.1) k1 0 0 1 = _
    rw [ax, q11, Real.cos_neg]
  · rw [e]
    show slice (freeStream eig2 eig1 eig1 wave2.e wave2.L none s flow2.1) k1 0 0 0 = _
    rw [ax, q01, Real.sin_neg]; push_cast; ring

/-- What the nonlinear terms give on any state with those electrons. -/
theorem nonlinear_orbit (t s : ℝ) (v : St ⟨1, 1, 2⟩ ⟨1, 1, 1⟩ 1 2 1) (hv : v.1 = (wave2.exp s flow2).1) :
    (wave2.nonlinear t v).1 = 0 ∧ (wave2.nonlinear t v).2.2.1 0 k1 = ((Real.sqrt 2 ^ 3 * Real.cos s : ℝ) : ℂ) ∧ (wave2.nonlinear t v).2.1 = 0 := by
  obtain ⟨h0, h1, h2, -⟩ := orbit s
  refine ⟨?_, ?_, rfl⟩
  · show lorentz wave2.e wave2.omega v.1 v.2.2.1 v.2.2.2 = 0
    exact lorentz_none _ _ _ (by rw [hv]; exact h0) _ _
  · have hJ : wave2.J v k1 0 = -((Real.sqrt 2 ^ 3 * Real.cos s : ℝ) : ℂ) := by
      have c0 : pad (slice v.1 k1) 0 0 1 = (Real.cos s : ℂ) := by rw [hv]; exact h1
      unfold Setup.J current
      show (1 / r2 * (((Real.sqrt 2 : ℝ) : ℂ) * pad (slice v.1 k1) 0 0 1) + ((0 : ℝ) : ℂ) * pad (slice v.1 k1) 0 0 0) *
        ((-1 * Real.sqrt 2 * Real.sqrt 2 * Real.sqrt 2 : ℝ) : ℂ) + 0 = _
      rw [c0]
      have := r2_ne
      have e : ((Real.sqrt 2 : ℝ) : ℂ) = r2 := rfl
      push_cast
      rw [e]
      field_simp
      ring
    show -wave2.J v k1 0 / ((1 : ℝ) : ℂ) + 0 = _
    rw [hJ]; simp

theorem lawson_stages {E : Type*} [AddCommGroup E] [Module ℝ E] (S F : ℝ → E → E) (t h : ℝ) (y : E) {n1 n2 n3 n4 : E} (h1 : n1 = F t y)
    (h2 : n2 = F (t + h / 2) (S (h / 2) y + (h / 2) • S (h / 2) n1)) (h3 : n3 = F (t + h / 2) (S (h / 2) y + (h / 2) • n2))
    (h4 : n4 = F (t + h) (S h y + h • S (h / 2) n3)) :
    lawson S F t h y = S h y + (h / 6) • ((S h n1 + (2 : ℝ) • S (h / 2) n2) + ((2 : ℝ) • S (h / 2) n3 + n4)) := by
  subst h1; subst h2; subst h3; subst h4; rfl

/-- C150 fails for the default exponential integrator: a charge-free electron flow without field, and one step over exactly one period of
the truncated streaming.  The charge density at the end is zero again, but an electric field is left: Gauss's law is broken by the
quadrature of the current. -/
theorem lawson_gauss_violated_partial :
    (∀ k, gauss wave2 flow2 k = 0) ∧ gauss wave2 (wave2.expStep 0 (2 * Real.pi) flow2) k1 ≠ 0 := by
  constructor
  · intro k
    unfold gauss charge
    have a : pad (slice flow2.1 k) 0 0 0 = 0 := by simp [pad, slice, flow2]
    have b : pad (slice flow2.2.1 k) 0 0 0 = 0 := by simp [pad, slice, flow2]
    rw [a, b]
    simp [flow2]
  · obtain ⟨S, hS⟩ : ∃ S, S = wave2.expL := ⟨_, rfl⟩
    have eS : ∀ s v, wave2.exp s v = S s v := fun s v => by rw [hS]; rfl
    have zero1 : ∀ s (v : St ⟨1, 1, 2⟩ ⟨1, 1, 1⟩ 1 2 1), v.1 = 0 → (wave2.exp s v).1 = 0 := by
      intro s v hv
      have : wave2.exp s (0, v.2) = wave2.exp s v := by rw [← hv]
      have h0 : (wave2.exp s 0).1 = 0 := by rw [eS, map_zero]; rfl
      rw [← h0]
      show diagonal _ _ _ (freeStream _ _ _ _ _ _ _ v.1) = diagonal _ _ _ (freeStream _ _ _ _ _ _ _ 0)
      rw [hv]
    have ell : ∀ s (v : St ⟨1, 1, 2⟩ ⟨1, 1, 1⟩ 1 2 1), (wave2.exp s v).2.2.1 0 k1 = v.2.2.1 0 k1 := by
      intro s v
      have := (maxwell_div (xi wave2.L k1) s (fun i => v.2.2.1 i k1) (fun i => v.2.2.2 i k1)).1
      rw [xi_k1] at this
      simp only [Fin.sum_univ_three, Matrix.cons_val_zero, Matrix.cons_val_one, Matrix.cons_val, ofReal_zero, zero_mul, add_zero, ofReal_neg, ofReal_one, neg_mul, one_mul, neg_inj] at this
      rw [← this]
      have e : (wave2.exp s v).2.2.1 0 k1 = (maxwell (xi wave2.L k1) s (fun i => v.2.2.1 i k1) (fun i => v.2.2.2 i k1)).1 0 := rfl
      rw [e, xi_k1]
    obtain ⟨h, hh⟩ : ∃ h : ℝ, h = 2 * Real.pi := ⟨_, rfl⟩
    obtain ⟨n1, hn1⟩ : ∃ n, n = wave2.nonlinear 0 flow2 := ⟨_, rfl⟩
    obtain ⟨n2, hn2⟩ : ∃ n, n = wave2.nonlinear (0 + h / 2) (wave2.exp (h / 2) flow2 + (h / 2) • wave2.exp (h / 2) n1) := ⟨_, rfl⟩
    obtain ⟨n3, hn3⟩ : ∃ n, n = wave2.nonlinear (0 + h / 2) (wave2.exp (h / 2) flow2 + (h / 2) • n2) := ⟨_, rfl⟩
    obtain ⟨n4, hn4⟩ : ∃ n, n = wave2.nonlinear (0 + h) (wave2.exp h flow2 + h • wave2.exp (h / 2) n3) := ⟨_, rfl⟩
    have o0 : flow2.1 = (wave2.exp 0 flow2).1 := by rw [exp_zero wave2 wave2_ok rfl]
    have r1 := nonlinear_orbit 0 0 flow2 o0
    rw [← hn1] at r1
    have r2 := nonlinear_orbit (0 + h / 2) (h / 2) (wave2.exp (h / 2) flow2 + (h / 2) • wave2.exp (h / 2) n1) (by
      rw [Prod.fst_add, Prod.smul_fst, zero1 _ _ r1.1, smul_zero, add_zero])
    rw [← hn2] at r2
    have r3 := nonlinear_orbit (0 + h / 2) (h / 2) (wave2.exp (h / 2) flow2 + (h / 2) • n2) (by
      rw [Prod.fst_add, Prod.smul_fst, r2.1, smul_zero, add_zero])
    rw [← hn3] at r3
    have r4 := nonlinear_orbit (0 + h) h (wave2.exp h flow2 + h • wave2.exp (h / 2) n3) (by
      rw [Prod.fst_add, Prod.smul_fst, zero1 _ _ r3.1, smul_zero, add_zero])
    rw [← hn4] at r4
    have st : wave2.expStep 0 h flow2 = lawson wave2.exp wave2.nonlinear 0 h flow2 := rfl
    obtain ⟨w, hw⟩ : ∃ w, w = lawson wave2.exp wave2.nonlinear 0 h flow2 := ⟨_, rfl⟩
    have hw' := hw.trans (lawson_stages wave2.exp wave2.nonlinear 0 h flow2 hn1 hn2 hn3 hn4)
    have w1 : w.1 = (wave2.exp h flow2).1 := by
      rw [hw']
      simp only [Prod.fst_add, Prod.smul_fst, zero1 _ _ r1.1, zero1 _ _ r2.1, zero1 _ _ r3.1, r2.1, r3.1, r4.1, smul_zero, add_zero]
    have wE : w.2.2.1 0 k1 = (((h / 6) * (Real.sqrt 2 ^ 3 * (Real.cos 0 + 4 * Real.cos (h / 2) + Real.cos h)) : ℝ) : ℂ) := by
      rw [hw']
      simp only [Prod.snd_add, Prod.fst_add, Prod.smul_snd, Prod.smul_fst, Pi.add_apply, Pi.smul_apply, real_smul, ell, r1.2.1, r2.2.1, r3.2.1, r4.2.1]
      have f0 : flow2.2.2.1 0 k1 = 0 := rfl
      rw [f0]
      push_cast
      ring
    have wI : w.2.1 = 0 := by
      have z2 : ∀ s (v : St ⟨1, 1, 2⟩ ⟨1, 1, 1⟩ 1 2 1), (wave2.exp s v).2.1 = v.2.1 := fun s v => rfl
      rw [hw']
      simp only [Prod.snd_add, Prod.fst_add, Prod.smul_snd, Prod.smul_fst, z2, r1.2.2, r2.2.2, r3.2.2, r4.2.2, smul_zero, add_zero]
      rfl
    rw [← hh, st, ← hw]
    obtain ⟨-, -, a3, -⟩ := orbit h
    have q1 : charge wave2.e (slice w.1 k1) = 0 := by
      unfold charge
      have : pad (slice w.1 k1) 0 0 0 = 0 := by
        rw [w1]
        refine Eq.trans a3 ?_
        rw [hh, Real.sin_two_pi]; simp
      rw [this, mul_zero]
    have q2 : charge wave2.i (slice w.2.1 k1) = 0 := by
      unfold charge
      rw [wI]
      simp [pad, slice]
    unfold gauss
    rw [q1, q2, xi_k1, Fin.sum_univ_three, wE, hh]
    simp only [Matrix.cons_val_zero, Matrix.cons_val_one, Matrix.cons_val]
    rw [show 2 * Real.pi / 2 = Real.pi by ring, Real.cos_pi, Real.cos_two_pi, Real.cos_zero]
    have hp := Real.pi_pos.ne'
    have hr : Real.sqrt 2 ≠ 0 := by positivity
    intro hc
    have hc' : I * (((2 * Real.pi / 6) * (Real.sqrt 2 ^ 3 * 2) : ℝ) : ℂ) = 0 := by
      rw [← hc]; push_cast; ring
    rcases mul_eq_zero.1 hc' with h | h
    · exact I_ne_zero h
    · rw [ofReal_eq_zero] at h
      have : (2 * Real.pi / 6) * (Real.sqrt 2 ^ 3 * 2) ≠ 0 := by positivity
      exact this h

/-! ### C153: with damping the exponential is not a flow -/

/-- C153 fails with collisions: the exponential is the product of the streaming and the collisional one, which do not commute, so two half
steps of the linear terms alone are not one step (the method is then only of first order in the collision rate). -/
theorem collisional_exp_not_flow_partial {Nx : ℕ} [NeZero Nx] {di : Dims} (p : Setup ⟨1, 1, 4⟩ di 1 Nx 1) (hp : p.Ok) (hg : p.gamma = none) (hnu : p.nu ≠ 0)
    (hD : p.D = 0) (ha : p.e.alpha 0 ≠ 0) (q : ZMod Nx) (hq : kx (p.L 0) q ≠ 0) :
    ∃ (s : ℝ) (y : St ⟨1, 1, 4⟩ di 1 Nx 1), p.exp s (p.exp s y) ≠ p.exp (s + s) y := by
  by_contra hc
  push Not at hc
  obtain ⟨k, hk⟩ : ∃ k : K 1 Nx 1, k = (0, q, 0) := ⟨_, rfl⟩
  have x0 : xi p.L k 0 = kx (p.L 0) q := by rw [hk]; rfl
  have x1 : xi p.L k 1 = 0 := by
    rw [hk]; exact kx_zero _
  have x2 : xi p.L k 2 = 0 := by
    rw [hk]; exact kx_zero _
  have pz : ∀ {n : ℕ} {e : Eigh n} {a u : ℝ} (_ : IsEigh e (streamMatrix n a u)) (s : ℝ), prop e a 0 s = 1 := by
    intro n e a u he s
    unfold prop
    rw [← fc_one he]; congr 1; funext l; simp
  obtain ⟨F, hF⟩ : ∃ F : ℝ → Matrix (Fin 4) (Fin 4) ℂ, F = prop p.eX (p.e.alpha 0) (xi p.L k 0) := ⟨_, rfl⟩
  obtain ⟨G, hG⟩ : ∃ G : ℝ → Fin 4 → ℝ, G = fun s n => Real.exp (-p.nu * hyperCol 4 n * s) := ⟨_, rfl⟩
  have step : ∀ s (y : St ⟨1, 1, 4⟩ di 1 Nx 1) n, (p.exp s y).1 0 0 n k = (∑ l, F s n l * y.1 0 0 l k) * (G s n : ℂ) := by
    intro s y n
    have h1 := freeStream_eq p.eX p.eY p.eZ p.e p.L s y.1 k
    rw [x1, x2, pz hp.eY, pz hp.eZ, actY_one (d := ⟨1, 1, 4⟩), actZ_one (d := ⟨1, 1, 4⟩), ← hF] at h1
    have h2 : freeStream p.eX p.eY p.eZ p.e p.L none s y.1 0 0 n k = ∑ l, F s n l * y.1 0 0 l k := congrFun (congrFun (congrFun h1 0) 0) n
    unfold Setup.exp diagonal
    simp only
    rw [hg, h2, hD, hG]
    have c0 : col ⟨1, 1, 4⟩ 0 0 n = hyperCol 4 n := by unfold col; simp [hyperCol]
    rw [c0]; simp
  obtain ⟨y, hy⟩ : ∃ y : St ⟨1, 1, 4⟩ di 1 Nx 1, y = (fun _ _ n _ => if n = 2 then 1 else 0, 0, 0, 0) := ⟨_, rfl⟩
  have y1 : ∀ s n, ∑ l, F s n l * y.1 0 0 l k = F s n 2 := by
    intro s n; rw [hy]; simp
  have g0 : ∀ s, G s 0 = 1 := by intro s; rw [hG]; simp [hyperCol]
  have g1 : ∀ s, G s 1 = 1 := by intro s; rw [hG]; simp [hyperCol]
  have g2 : ∀ s, G s 2 = 1 := by intro s; rw [hG]; simp [hyperCol]
  have h3 : hyperCol 4 3 = 1 := by
    unfold hyperCol
    rw [if_pos (by norm_num)]
    have : ((3 : Fin 4).val : ℝ) = 3 := by norm_num [show ((3 : Fin 4) : ℕ) = 3 from rfl]
    rw [this]; norm_num
  have g3 : ∀ s, G s 3 = Real.exp (-p.nu * s) := by intro s; rw [hG]; simp only [h3]; rw [mul_one]
  have add : ∀ s, F (s + s) 3 2 = ∑ l, F s 3 l * F s l 2 := by
    intro s
    rw [hF, ← prop_add hp.eX, Matrix.mul_apply]
  have key : ∀ s, F s 3 0 * F s 0 2 + F s 3 1 * F s 1 2 + F s 3 2 * F s 2 2 = 0 := by
    intro s
    by_cases hs : s = 0
    · have f0 : F 0 = 1 := by rw [hF, prop_zero hp.eX]
      subst hs
      rw [f0]; simp [Matrix.one_apply]
    have h : (p.exp s (p.exp s y)).1 0 0 3 k = (p.exp (s + s) y).1 0 0 3 k := by rw [hc s y]
    rw [step, step, y1, add] at h
    simp only [step, y1] at h
    simp only [Fin.sum_univ_four, g0, g1, g2, g3, ofReal_one, mul_one] at h
    obtain ⟨g, hgd⟩ : ∃ g : ℝ, g = Real.exp (-p.nu * s) := ⟨_, rfl⟩
    have hgg : Real.exp (-p.nu * (s + s)) = g * g := by rw [hgd, ← Real.exp_add]; congr 1; ring
    rw [hgg, ← hgd] at h
    have gne : (g : ℂ) ≠ 0 := ofReal_ne_zero.mpr (by rw [hgd]; exact (Real.exp_pos _).ne')
    have g1' : (1 - g : ℂ) ≠ 0 := by
      intro hz
      have : g = 1 := by
        have : ((1 - g : ℝ) : ℂ) = 0 := by push_cast; exact hz
        rw [ofReal_eq_zero] at this; linarith
      rw [hgd, Real.exp_eq_one_iff] at this
      rcases mul_eq_zero.1 this with h' | h'
      · exact hnu (neg_eq_zero.1 h')
      · exact hs h'
    have hz : (F s 3 0 * F s 0 2 + F s 3 1 * F s 1 2 + F s 3 2 * F s 2 2) * ((g : ℂ) * (1 - g)) = 0 := by
      push_cast at h
      linear_combination h
    exact (mul_eq_zero.1 hz).resolve_right (mul_ne_zero gne g1')
  have dF : ∀ i j, HasDerivAt (fun s => F s i j) (gen 4 (p.e.alpha 0) (p.e.u 0) (xi p.L k 0) i j) 0 := by
    intro i j
    have := prop_deriv hp.eX (xi p.L k 0) 0 i j
    rw [prop_zero hp.eX, Matrix.mul_one, ← hF] at this
    exact this
  have d := ((dF 3 0).mul (dF 0 2)).add (((dF 3 1).mul (dF 1 2)))
  have d' := d.add ((dF 3 2).mul (dF 2 2))
  have z : HasDerivAt (((fun s => F s 3 0) * (fun s => F s 0 2) + (fun s => F s 3 1) * (fun s => F s 1 2)) + (fun s => F s 3 2) * fun s => F s 2 2) 0 (0 : ℝ) := by
    have : (((fun s => F s 3 0) * (fun s => F s 0 2) + (fun s => F s 3 1) * (fun s => F s 1 2)) + (fun s => F s 3 2) * fun s => F s 2 2) = fun _ => (0 : ℂ) := by
      funext s; exact key s
    rw [this]; exact hasDerivAt_const _ _
  have e := d'.unique z
  have f0 : F 0 = 1 := by rw [hF, prop_zero hp.eX]
  rw [f0] at e
  simp only [Matrix.one_apply] at e
  have n1 : ((3 : Fin 4) = 0) = False := by decide
  have n2 : ((0 : Fin 4) = 2) = False := by decide
  have n3 : ((3 : Fin 4) = 1) = False := by decide
  have n4 : ((1 : Fin 4) = 2) = False := by decide
  have n5 : ((3 : Fin 4) = 2) = False := by decide
  simp only [n1, n2, n3, n4, n5, if_false, mul_zero, zero_mul, add_zero, zero_add, if_true, mul_one] at e
  unfold gen at e
  rw [Matrix.smul_apply, smul_eq_mul, x0] at e
  have sm : ((streamMatrix 4 (p.e.alpha 0) (p.e.u 0)).map ofReal : Matrix _ _ ℂ) 3 2 = ((Real.sqrt ((2 + 1) / 2) : ℝ) : ℂ) := by
    simp [streamMatrix, Matrix.map_apply]
  rw [sm] at e
  have : (-I * (p.e.alpha 0 : ℂ) * (kx (p.L 0) q : ℂ)) * ((Real.sqrt ((2 + 1) / 2) : ℝ) : ℂ) ≠ 0 := by
    refine mul_ne_zero (mul_ne_zero (mul_ne_zero (neg_ne_zero.2 I_ne_zero) (ofReal_ne_zero.2 ha)) (ofReal_ne_zero.2 hq)) (ofReal_ne_zero.2 ?_)
    positivity
  exact this e

/-- The hypotheses can be met: two grid points and any thermal velocity. -/
example : ∃ p : Setup ⟨1, 1, 4⟩ ⟨1, 1, 1⟩ 1 2 1, p.Ok ∧ p.gamma = none ∧ p.nu ≠ 0 ∧ p.D = 0 ∧ p.e.alpha 0 ≠ 0 ∧ kx (N := 2) (p.L 0) 1 ≠ 0 := by
  obtain ⟨a, ha⟩ := eigh_exists 4 1 0
  refine ⟨⟨⟨-1, 1, 1, 0⟩, ⟨1, 1, 1, 0⟩, fun _ => 2 * Real.pi, 1, 1, 0, true, none, none, 0, none, none, a, eig1, eig1, eig1, eig1, eig1, none, none, none⟩,
    ⟨ha, eig1_ok _, eig1_ok _, eig1_ok _, eig1_ok _, eig1_ok _⟩, rfl, one_ne_zero, rfl, one_ne_zero, ?_⟩
  have h := congrFun xi_k1 0
  have h' : kx (N := 2) (2 * Real.pi) 1 = -1 := h
  show kx (N := 2) (2 * Real.pi) 1 ≠ 0
  rw [h']; norm_num

/-- C153 fails with the filter inside the exponential for the same reason: a quarter period twice leaves a different amplitude than half a
period. -/
theorem filtered_exp_not_flow_partial (a : ℝ) (ha : 0 < a) :
    ({ wave2 with gamma := some (a, 1) } : Setup ⟨1, 1, 2⟩ ⟨1, 1, 1⟩ 1 2 1).exp (Real.pi / 2)
        (({ wave2 with gamma := some (a, 1) } : Setup ⟨1, 1, 2⟩ ⟨1, 1, 1⟩ 1 2 1).exp (Real.pi / 2) flow2) ≠
      ({ wave2 with gamma := some (a, 1) } : Setup ⟨1, 1, 2⟩ ⟨1, 1, 1⟩ 1 2 1).exp (Real.pi / 2 + Real.pi / 2) flow2 := by
  obtain ⟨p, hp⟩ : ∃ p : Setup ⟨1, 1, 2⟩ ⟨1, 1, 1⟩ 1 2 1, p = { wave2 with gamma := some (a, 1) } := ⟨_, rfl⟩
  rw [← hp]
  obtain ⟨F, hF⟩ : ∃ F : ℝ → Matrix (Fin 2) (Fin 2) ℂ, F = prop eig2 (Real.sqrt 2) (-1) := ⟨_, rfl⟩
  have step : ∀ s y n, (p.exp s y).1 0 0 n k1 = (∑ l, F s n l * y.1 0 0 l k1) * ((Real.exp (-(a * ((n.val : ℝ) / 2)) * |s|) : ℝ) : ℂ) := by
    intro s y n
    have s1 : ∀ (C : Tens ⟨1, 1, 2⟩ (K 1 2 1 → ℂ)) k, streamZ eig1 (Real.sqrt 2) (2 * Real.pi) s C 0 0 n k = C 0 0 n k := by
      intro C k
      unfold streamZ stream; simp [eig1]
    have s2 : ∀ (C : Tens ⟨1, 1, 2⟩ (K 1 2 1 → ℂ)) k, streamY eig1 (Real.sqrt 2) (2 * Real.pi) s C 0 0 n k = C 0 0 n k := by
      intro C k
      unfold streamY stream; simp [eig1]
    have s3 : ∀ (C : Tens ⟨1, 1, 2⟩ (K 1 2 1 → ℂ)), streamX eig2 (Real.sqrt 2) (2 * Real.pi) s C 0 0 n k1 = ∑ l, F s n l * C 0 0 l k1 := by
      intro C
      unfold streamX
      rw [stream_eq, hF]
      have : kx (N := 2) (2 * Real.pi) 1 = -1 := congrFun xi_k1 0
      show (fc eig2 (fun l => cexp (-I * (Real.sqrt 2 : ℝ) * s * l * (kx (N := 2) (2 * Real.pi) 1 : ℝ))) *ᵥ fun m => C 0 0 m k1) n = _
      rw [this]; rfl
    have e : (p.exp s y).1 0 0 n k1 = diagonal 0 0 s (streamZ eig1 (Real.sqrt 2) (2 * Real.pi) s (streamY eig1 (Real.sqrt 2) (2 * Real.pi) s
        (gammaDamp (some (a, 1)) s (streamX eig2 (Real.sqrt 2) (2 * Real.pi) s y.1)))) 0 0 n k1 := by
      rw [hp]; rfl
    rw [e]
    unfold diagonal
    rw [s1, s2]
    unfold gammaDamp
    simp only [ha, if_true, Nat.lt_one_iff, zero_lt_one, and_self, pow_one]
    rw [s3]
    simp
  intro h
  have h1 : (p.exp (Real.pi / 2) (p.exp (Real.pi / 2) flow2)).1 0 0 1 k1 = (p.exp (Real.pi / 2 + Real.pi / 2) flow2).1 0 0 1 k1 := by rw [h]
  rw [step, step] at h1
  simp only [step] at h1
  have th1 : -(Real.pi / 2) = Real.sqrt 2 * (-1) * (Real.pi / 2) / Real.sqrt 2 := by
    have : Real.sqrt 2 ≠ 0 := by positivity
    field_simp
  have th2 : -Real.pi = Real.sqrt 2 * (-1) * (Real.pi / 2 + Real.pi / 2) / Real.sqrt 2 := by
    have : Real.sqrt 2 ≠ 0 := by positivity
    field_simp; ring
  obtain ⟨a00, a01, a10, a11⟩ := prop2 (Real.sqrt 2) (-1) (Real.pi / 2) _ th1
  obtain ⟨b00, b01, b10, b11⟩ := prop2 (Real.sqrt 2) (-1) (Real.pi / 2 + Real.pi / 2) _ th2
  have f0 : flow2.1 0 0 0 k1 = 0 := by simp [flow2]
  have f1 : flow2.1 0 0 1 k1 = 1 := by simp [flow2]
  rw [← hF] at a00 a01 a10 a11 b00 b01 b10 b11
  simp only [Fin.sum_univ_two, f0, f1, a00, a01, a10, a11, b00, b01, b10, b11] at h1
  simp only [Real.cos_neg, Real.sin_neg, Real.cos_pi_div_two, Real.sin_pi_div_two, Real.cos_pi, Real.sin_pi] at h1
  have pp := Real.pi_pos
  have c1 : ((1 : Fin 2).val : ℝ) = 1 := by norm_num
  have c0 : ((0 : Fin 2).val : ℝ) = 0 := by norm_num
  rw [c1, c0, show Real.pi / 2 + Real.pi / 2 = Real.pi by ring, abs_of_pos pp, abs_of_pos (show 0 < Real.pi / 2 by positivity)] at h1
  have e2 : Real.exp (-(a * (1 / 2)) * (Real.pi / 2)) = Real.exp (-(a * (1 / 2)) * Real.pi) := by
    have h2 : (((Real.exp (-(a * (1 / 2)) * (Real.pi / 2)) : ℝ)) : ℂ) = ((Real.exp (-(a * (1 / 2)) * Real.pi) : ℝ) : ℂ) := by
      have i2 := I_mul_I
      simp only [zero_div, mul_zero, neg_zero, zero_mul, Real.exp_zero, ofReal_one, mul_one, ofReal_neg, ofReal_zero, zero_add, add_zero] at h1
      linear_combination -h1 - (((Real.exp (-(a * (1 / 2)) * (Real.pi / 2)) : ℝ)) : ℂ) * (-i2)
    exact_mod_cast h2
  have := Real.exp_injective e2
  nlinarith [mul_pos ha pp]

end Verif.Spectrax
