import Verif.Props.SpectraxLinear
import Verif.Props.TwoFluid
import Mathlib.LinearAlgebra.Matrix.Notation

/-! C149, C151, C153, C154: the two integrators. -/
namespace Verif.Spectrax
open Finset Complex Verif.Hermite
open scoped ComplexConjugate Matrix

variable {Ny Nx Nz : ℕ} [NeZero Ny] [NeZero Nx] [NeZero Nz] {d de di : Dims}

/-- What `eigh` returned for the six streaming matrices. -/
structure Setup.Ok (p : Setup de di Ny Nx Nz) : Prop where
  eX : IsEigh p.eX (streamMatrix de.nn (p.e.alpha 0) (p.e.u 0))
  eY : IsEigh p.eY (streamMatrix de.nm (p.e.alpha 1) (p.e.u 1))
  eZ : IsEigh p.eZ (streamMatrix de.np (p.e.alpha 2) (p.e.u 2))
  iX : IsEigh p.iX (streamMatrix di.nn (p.i.alpha 0) (p.i.u 0))
  iY : IsEigh p.iY (streamMatrix di.nm (p.i.alpha 1) (p.i.u 1))
  iZ : IsEigh p.iZ (streamMatrix di.np (p.i.alpha 2) (p.i.u 2))

/-- The contract can be met for any parameters. -/
theorem ok_exists (p : Setup de di Ny Nx Nz) : ∃ q : Setup de di Ny Nx Nz, q.Ok ∧ q.e = p.e ∧ q.i = p.i ∧ q.L = p.L := by
  obtain ⟨a, ha⟩ := eigh_exists de.nn (p.e.alpha 0) (p.e.u 0)
  obtain ⟨b, hb⟩ := eigh_exists de.nm (p.e.alpha 1) (p.e.u 1)
  obtain ⟨c, hc⟩ := eigh_exists de.np (p.e.alpha 2) (p.e.u 2)
  obtain ⟨f, hf⟩ := eigh_exists di.nn (p.i.alpha 0) (p.i.u 0)
  obtain ⟨g, hg⟩ := eigh_exists di.nm (p.i.alpha 1) (p.i.u 1)
  obtain ⟨h, hh⟩ := eigh_exists di.np (p.i.alpha 2) (p.i.u 2)
  exact ⟨{ p with eX := a, eY := b, eZ := c, iX := f, iY := g, iZ := h }, ⟨ha, hb, hc, hf, hg, hh⟩, rfl, rfl, rfl⟩

/-! ### C153: the whole exponential -/

theorem diagonal_flow (nu D : ℝ) (F : ℝ → Tens d (K Ny Nx Nz → ℂ)) (F' : ℂ) (s : ℝ) (p : Fin d.np) (m : Fin d.nm) (n : Fin d.nn) (k : K Ny Nx Nz)
    (hF : HasDerivAt (fun s => F s p m n k) F' s) :
    HasDerivAt (fun s => diagonal nu D s (F s) p m n k)
      (F' * ((Real.exp (-nu * col d p m n * s + -D * k2 k * s) : ℝ) : ℂ) + -(nu : ℂ) * (col d p m n : ℂ) * diagonal nu D s (F s) p m n k +
        -(D : ℂ) * (k2 k : ℂ) * diagonal nu D s (F s) p m n k) s := by
  have h : HasDerivAt (fun s : ℝ => -nu * col d p m n * s + -D * k2 k * s) (-nu * col d p m n + -D * k2 k) s := by
    have a := (hasDerivAt_id s).const_mul (-nu * col d p m n)
    have b := (hasDerivAt_id s).const_mul (-D * k2 k)
    exact (a.add b).congr_deriv (by simp)
  unfold diagonal
  refine (hF.mul h.exp.ofReal_comp).congr_deriv ?_
  push_cast
  ring

theorem advect_scale (s : Species) (x : Fin 3 → ℝ) (C : Tens d ℂ) (c : ℂ) (g : Tens d ℂ) (hg : ∀ p m n, g p m n = C p m n * c)
    (p : Fin d.np) (m : Fin d.nm) (n : Fin d.nn) : advect s x g p m n = advect s x C p m n * c := by
  have : g = fun p m n => C p m n * c := by funext p m n; exact hg p m n
  rw [this, advect_eq, advect_eq]
  unfold actX actY actZ
  rw [add_mul, add_mul, sum_mul, sum_mul, sum_mul]
  congr 1
  congr 1
  all_goals exact sum_congr rfl fun _ _ => by ring

/-- C153: the exponential (its inner damping off) is the exact flow of what the explicit right-hand side has beyond the nonlinear
one, so the two integrators solve the same equations: at every `s` without collisions, and to first order at `s = 0` with them. -/
theorem exp_flow (p : Setup de di Ny Nx Nz) (hp : p.Ok) (hg : p.gamma = none) (hf : p.filter = none) (t s : ℝ) (hnu : p.nu = 0 ∨ s = 0)
    (y : St de di Ny Nx Nz) :
    (∀ a b c k, HasDerivAt (fun s => (p.exp s y).1 a b c k) ((p.explicit t (p.exp s y)).1 a b c k - (p.nonlinear t (p.exp s y)).1 a b c k) s) ∧
    (∀ a b c k, HasDerivAt (fun s => (p.exp s y).2.1 a b c k) ((p.explicit t (p.exp s y)).2.1 a b c k - (p.nonlinear t (p.exp s y)).2.1 a b c k) s) ∧
    (∀ j k, HasDerivAt (fun s => (p.exp s y).2.2.1 j k) ((p.explicit t (p.exp s y)).2.2.1 j k - (p.nonlinear t (p.exp s y)).2.2.1 j k) s) ∧
    ∀ j k, HasDerivAt (fun s => (p.exp s y).2.2.2 j k) ((p.explicit t (p.exp s y)).2.2.2 j k - (p.nonlinear t (p.exp s y)).2.2.2 j k) s := by
  have nz : ∀ {d : Dims} (w : Option (ZMod Nx → ℂ)) (A B : Tens d (K Ny Nx Nz → ℂ)) a b c k, addNoise w A a b c k - addNoise w B a b c k = A a b c k - B a b c k := by
    intro d w A B a b c k
    cases w with
    | none => rfl
    | some w => simp only [addNoise]; ring
  have dg : ∀ {d : Dims} (C : Tens d (K Ny Nx Nz → ℂ)) (k : K Ny Nx Nz), ∃ c : ℂ, ∀ p' m n, slice (diagonal p.nu p.D s C) k p' m n = slice C k p' m n * c ∧
      c = ((Real.exp (-p.nu * col d p' m n * s + -p.D * k2 k * s) : ℝ) : ℂ) := by
    intro d C k
    refine ⟨((Real.exp (-p.D * k2 k * s) : ℝ) : ℂ), fun p' m n => ?_⟩
    unfold slice diagonal
    rcases hnu with h | h
    · rw [h]; simp
    · rw [h]; simp
  refine ⟨fun a b c k => ?_, fun a b c k => ?_, fun j k => ?_, fun j k => ?_⟩
  · unfold Setup.explicit Setup.nonlinear
    simp only [nz, hf, applyFilter]
    unfold Setup.exp
    simp only [hg, rhs]
    refine (diagonal_flow p.nu p.D (fun s => freeStream p.eX p.eY p.eZ p.e p.L none s y.1) _ s a b c k
      (freeStream_flow p.eX p.eY p.eZ p.e hp.eX hp.eY hp.eZ p.L s y.1 a b c k)).congr_deriv ?_
    obtain ⟨w, hw⟩ := dg (freeStream p.eX p.eY p.eZ p.e p.L none s y.1) k
    rw [advect_scale p.e (xi p.L k) _ w _ (fun a b c => (hw a b c).1), ← (hw a b c).2]
    ring
  · unfold Setup.explicit Setup.nonlinear
    simp only
    by_cases hs : p.staticIons = true
    · unfold Setup.exp
      simp only [hs, if_true]
      exact (hasDerivAt_const s _).congr_deriv (by simp)
    · simp only [hs, if_false, Bool.false_eq_true, nz, hf, applyFilter]
      unfold Setup.exp
      simp only [hs, if_false, Bool.false_eq_true, rhs]
      refine (diagonal_flow p.nu p.D (fun s => freeStream p.iX p.iY p.iZ p.i p.L none s y.2.1) _ s a b c k
        (freeStream_flow p.iX p.iY p.iZ p.i hp.iX hp.iY hp.iZ p.L s y.2.1 a b c k)).congr_deriv ?_
      obtain ⟨w, hw⟩ := dg (freeStream p.iX p.iY p.iZ p.i p.L none s y.2.1) k
      rw [advect_scale p.i (xi p.L k) _ w _ (fun a b c => (hw a b c).1), ← (hw a b c).2]
      ring
  · refine (maxwell_flow (xi p.L k) s (fun i => y.2.2.1 i k) (fun i => y.2.2.2 i k) j).1.congr_deriv ?_
    unfold Setup.explicit Setup.nonlinear curl
    simp only
    show _ = I * cross _ (fun i => (maxwell (xi p.L k) s (fun i => y.2.2.1 i k) (fun i => y.2.2.2 i k)).2 i) j - _ + _ - _
    ring
  · refine (maxwell_flow (xi p.L k) s (fun i => y.2.2.1 i k) (fun i => y.2.2.2 i k) j).2.congr_deriv ?_
    unfold Setup.explicit Setup.nonlinear curl
    simp only
    show _ = -I * cross _ (fun i => (maxwell (xi p.L k) s (fun i => y.2.2.1 i k) (fun i => y.2.2.2 i k)).1 i) j - 0
    ring

/-! ### C154: the exponential is linear; Lawson's method is classical RK4 -/

theorem freeStream_lin (eX : Eigh d.nn) (eY : Eigh d.nm) (eZ : Eigh d.np) (sp : Species) (L : Fin 3 → ℝ) (g : Option (ℝ × ℕ)) (s : ℝ) (c : ℝ)
    (A B : Tens d (K Ny Nx Nz → ℂ)) :
    freeStream eX eY eZ sp L g s (A + c • B) = freeStream eX eY eZ sp L g s A + c • freeStream eX eY eZ sp L g s B := by
  have x : ∀ A B : Tens d (K Ny Nx Nz → ℂ), streamX eX (sp.alpha 0) (L 0) s (A + c • B) = streamX eX (sp.alpha 0) (L 0) s A + c • streamX eX (sp.alpha 0) (L 0) s B := by
    intro A B; funext p m n k
    simp only [streamX, stream, Pi.add_apply, Pi.smul_apply, real_smul, mul_add, sum_add_distrib, add_mul, mul_sum, sum_mul]
    congr 1
    exact sum_congr rfl fun _ _ => sum_congr rfl fun _ _ => by ring
  have y : ∀ A B : Tens d (K Ny Nx Nz → ℂ), streamY eY (sp.alpha 1) (L 1) s (A + c • B) = streamY eY (sp.alpha 1) (L 1) s A + c • streamY eY (sp.alpha 1) (L 1) s B := by
    intro A B; funext p m n k
    simp only [streamY, stream, Pi.add_apply, Pi.smul_apply, real_smul, mul_add, sum_add_distrib, add_mul, mul_sum, sum_mul]
    congr 1
    exact sum_congr rfl fun _ _ => sum_congr rfl fun _ _ => by ring
  have z : ∀ A B : Tens d (K Ny Nx Nz → ℂ), streamZ eZ (sp.alpha 2) (L 2) s (A + c • B) = streamZ eZ (sp.alpha 2) (L 2) s A + c • streamZ eZ (sp.alpha 2) (L 2) s B := by
    intro A B; funext p m n k
    simp only [streamZ, stream, Pi.add_apply, Pi.smul_apply, real_smul, mul_add, sum_add_distrib, add_mul, mul_sum, sum_mul]
    congr 1
    exact sum_congr rfl fun _ _ => sum_congr rfl fun _ _ => by ring
  have gd : ∀ A B : Tens d (K Ny Nx Nz → ℂ), gammaDamp g s (A + c • B) = gammaDamp g s A + c • gammaDamp g s B := by
    intro A B
    unfold gammaDamp
    split
    · split_ifs
      · funext p m n k
        simp only [Pi.add_apply, Pi.smul_apply, real_smul]; ring
      · rfl
    · rfl
  unfold freeStream
  rw [x, gd, y, z]

theorem exp_lin (p : Setup de di Ny Nx Nz) (s c : ℝ) (y z : St de di Ny Nx Nz) : p.exp s (y + c • z) = p.exp s y + c • p.exp s z := by
  have dl : ∀ {d : Dims} (A B : Tens d (K Ny Nx Nz → ℂ)), diagonal p.nu p.D s (A + c • B) = diagonal p.nu p.D s A + c • diagonal p.nu p.D s B := by
    intro d A B; funext a b e k
    simp only [diagonal, Pi.add_apply, Pi.smul_apply, real_smul]; ring
  unfold Setup.exp
  refine Prod.ext ?_ (Prod.ext ?_ (Prod.ext ?_ ?_))
  · simp only [Prod.fst_add, Prod.smul_fst]
    rw [freeStream_lin, dl]
  · simp only [Prod.fst_add, Prod.smul_fst, Prod.snd_add, Prod.smul_snd]
    split_ifs
    · rfl
    · rw [freeStream_lin, dl]
  · funext j k
    simp only [Prod.fst_add, Prod.smul_fst, Prod.snd_add, Prod.smul_snd, Pi.add_apply, Pi.smul_apply]
    rw [maxwell_E, maxwell_E, maxwell_E]
    fin_cases j <;> simp only [Fin.zero_eta, Fin.mk_one, Fin.reduceFinMk, cross_apply, real_smul] <;> ring
  · funext j k
    simp only [Prod.fst_add, Prod.smul_fst, Prod.snd_add, Prod.smul_snd, Pi.add_apply, Pi.smul_apply]
    rw [maxwell_B, maxwell_B, maxwell_B]
    fin_cases j <;> simp only [Fin.zero_eta, Fin.mk_one, Fin.reduceFinMk, cross_apply, real_smul] <;> ring

/-- The exponential as a linear map. -/
noncomputable def Setup.expL (p : Setup de di Ny Nx Nz) (s : ℝ) : St de di Ny Nx Nz →ₗ[ℝ] St de di Ny Nx Nz where
  toFun := p.exp s
  map_add' y z := by have := exp_lin p s 1 y z; simpa using this
  map_smul' c z := by
    have h0 : p.exp s 0 = 0 := by
      have h1 : p.exp s (0 + 1 • 0) = p.exp s 0 + (1 : ℝ) • p.exp s 0 := by simpa using exp_lin p s 1 0 0
      simpa using h1
    have := exp_lin p s c 0 z
    rw [zero_add, h0, zero_add] at this
    simpa using this

theorem exp_zero (p : Setup de di Ny Nx Nz) (hp : p.Ok) (hg : p.gamma = none) (y : St de di Ny Nx Nz) : p.exp 0 y = y := by
  have d0 : ∀ {d : Dims} (A : Tens d (K Ny Nx Nz → ℂ)), diagonal p.nu p.D 0 A = A := by intro d A; funext a b c k; simp [diagonal]
  unfold Setup.exp
  rw [hg, d0, d0, (freeStream_add p.eX p.eY p.eZ p.e hp.eX hp.eY hp.eZ p.L 0 0 y.1).2, (freeStream_add p.iX p.iY p.iZ p.i hp.iX hp.iY hp.iZ p.L 0 0 y.2.1).2]
  simp only [maxwell_zero, ite_self]

theorem exp_exp (p : Setup de di Ny Nx Nz) (hp : p.Ok) (hg : p.gamma = none) (hnu : p.nu = 0) (s t : ℝ) (y : St de di Ny Nx Nz) :
    p.exp t (p.exp s y) = p.exp (s + t) y := by
  have dg : ∀ {d : Dims} (s : ℝ) (A : Tens d (K Ny Nx Nz → ℂ)) (k : K Ny Nx Nz),
      slice (diagonal p.nu p.D s A) k = fun a b c => slice A k a b c * ((Real.exp (-p.D * k2 k * s) : ℝ) : ℂ) := by
    intro d s A k; funext a b c; unfold slice diagonal; rw [hnu]; simp
  have ext : ∀ {d : Dims} (A B : Tens d (K Ny Nx Nz → ℂ)), (∀ k, slice A k = slice B k) → A = B := fun A B h => by
    funext p m n k; exact congrFun (congrFun (congrFun (h k) p) m) n
  have sc : ∀ {d : Dims} (Z : Matrix (Fin d.np) (Fin d.np) ℂ) (Y : Matrix (Fin d.nm) (Fin d.nm) ℂ) (X : Matrix (Fin d.nn) (Fin d.nn) ℂ) (C : Tens d ℂ) (w : ℂ),
      actZ Z (actY Y (actX X fun a b c => C a b c * w)) = fun a b c => actZ Z (actY Y (actX X C)) a b c * w := by
    intro d Z Y X C w
    funext a b c
    simp only [actZ, actY, actX, sum_mul, mul_sum]
    exact sum_congr rfl fun _ _ => sum_congr rfl fun _ _ => sum_congr rfl fun _ _ => by ring
  have key : ∀ {d : Dims} (eX : Eigh d.nn) (eY : Eigh d.nm) (eZ : Eigh d.np) (sp : Species)
      (_ : IsEigh eX (streamMatrix d.nn (sp.alpha 0) (sp.u 0))) (_ : IsEigh eY (streamMatrix d.nm (sp.alpha 1) (sp.u 1)))
      (_ : IsEigh eZ (streamMatrix d.np (sp.alpha 2) (sp.u 2))) (C : Tens d (K Ny Nx Nz → ℂ)),
      diagonal p.nu p.D t (freeStream eX eY eZ sp p.L none t (diagonal p.nu p.D s (freeStream eX eY eZ sp p.L none s C))) =
        diagonal p.nu p.D (s + t) (freeStream eX eY eZ sp p.L none (s + t) C) := by
    intro d eX eY eZ sp hX hY hZ C
    refine ext _ _ fun k => ?_
    rw [dg, dg, freeStream_eq, dg, sc, ← freeStream_eq, (freeStream_add eX eY eZ sp hX hY hZ p.L s t C).1]
    funext a b c
    rw [mul_assoc, ← ofReal_mul, ← Real.exp_add]
    congr 3; ring
  unfold Setup.exp
  rw [hg]
  refine Prod.ext (key _ _ _ _ hp.eX hp.eY hp.eZ _) (Prod.ext ?_ (Prod.ext (funext fun j => funext fun k => ?_) (funext fun j => funext fun k => ?_)))
  · simp only
    split_ifs
    · rfl
    · exact key _ _ _ _ hp.iX hp.iY hp.iZ _
  · exact congrFun (congrArg Prod.fst (maxwell_add (xi p.L k) s t (fun i => y.2.2.1 i k) (fun i => y.2.2.2 i k))) j
  · exact congrFun (congrArg Prod.snd (maxwell_add (xi p.L k) s t (fun i => y.2.2.1 i k) (fun i => y.2.2.2 i k))) j

/-- C154: without collisions, one step of the exponential integrator is one step of the classical Runge-Kutta method of order four
for the equations in the frame moving with the exact linear flow. -/
theorem lawson_classical (p : Setup de di Ny Nx Nz) (hp : p.Ok) (hg : p.gamma = none) (hnu : p.nu = 0) (t h : ℝ) (y : St de di Ny Nx Nz) :
    p.lawsonStep t h y = p.exp h (rk4 (fun τ w => p.exp (-(τ - t)) (p.nonlinear τ (p.exp (τ - t) w))) t h y) := by
  have h0 : p.expL 0 = LinearMap.id := LinearMap.ext fun y => exp_zero p hp hg y
  have ha : ∀ s r, p.expL (s + r) = p.expL s ∘ₗ p.expL r := fun s r => LinearMap.ext fun y => by
    rw [add_comm]; exact (exp_exp p hp hg hnu r s y).symm
  have key := lawson_rk4 p.expL h0 ha p.nonlinear t h y
  have e : ∀ s, (p.expL s : St de di Ny Nx Nz → St de di Ny Nx Nz) = p.exp s := fun s => rfl
  simp only [e] at key
  exact key

/-- C154: where the nonlinear terms vanish the step is the exact linear flow, for every step size. -/
theorem lawson_linear (p : Setup de di Ny Nx Nz) (t h : ℝ) (y : St de di Ny Nx Nz) (hN : ∀ t y, p.nonlinear t y = 0) :
    p.lawsonStep t h y = p.exp h y := by
  have z : ∀ s, p.exp s 0 = 0 := fun s => (p.expL s).map_zero
  unfold Setup.lawsonStep lawson
  simp only [hN, z, smul_zero, add_zero]

end Verif.Spectrax
