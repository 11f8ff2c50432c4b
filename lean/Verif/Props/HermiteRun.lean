import Verif.Props.HermiteForce
import Verif.Props.Wave

/-!
C107 (conservation by whole runs), C108 (equilibrium), C110 (linear response and integrator options),
C112 (initial state) and C113 (sponge) of the Hermite-Poisson solver.
-/
namespace Verif.Hermite
open Finset Complex Verif.Spectral
open scoped Matrix ComplexConjugate

variable {N : ℕ} [NeZero N] {n ne ni : ℕ} [NeZero ne] [NeZero ni]

theorem toK_mean (f : ZMod N → ℂ) : toK f 0 = (∑ x, f x) / N := by rw [toK, fft_zero]

theorem sum_toX (c : ZMod N → ℂ) : ∑ x, toX c x = N * c 0 := by
  have hN : (N : ℂ) ≠ 0 := Nat.cast_ne_zero.mpr (NeZero.ne N)
  have h := toK_mean (toX c)
  rw [toK_toX] at h
  rw [h]; field_simp

/-! ### The arithmetic of Lawson's method -/

/-- One step of the classical fourth-order Runge-Kutta method for `dw/dt = G t w`. -/
noncomputable def rk4 {E : Type*} [AddCommGroup E] [Module ℝ E] (G : ℝ → E → E) (t dt : ℝ) (w : E) : E :=
  let k1 := G t w
  let k2 := G (t + dt / 2) (w + (dt / 2) • k1)
  let k3 := G (t + dt / 2) (w + (dt / 2) • k2)
  let k4 := G (t + dt) (w + dt • k3)
  w + (dt / 6) • (k1 + (2 : ℝ) • k2 + (2 : ℝ) • k3 + k4)

/-- Lawson's method: in the variable `w = S(t0 - t) y`, which the linear flow leaves alone, the step
is exactly the Runge-Kutta step, whenever `S` really is a flow of linear maps. -/
theorem lawson_rk4 {E : Type*} [AddCommGroup E] [Module ℝ E] (S : ℝ → E →ₗ[ℝ] E) (h0 : S 0 = LinearMap.id)
    (hadd : ∀ s t, S (s + t) = S s ∘ₗ S t) (F : ℝ → E → E) (t dt : ℝ) (y : E) :
    lawson (fun s => S s) F t dt y = S dt (rk4 (fun τ w => S (-(τ - t)) (F τ (S (τ - t) w))) t dt y) := by
  have hc : ∀ s r (v : E), S s (S r v) = S (s + r) v := fun s r v => by rw [hadd]; rfl
  have hi : ∀ v, S 0 v = v := fun v => by rw [h0]; rfl
  obtain ⟨n1, hn1⟩ : ∃ n1, n1 = F t y := ⟨_, rfl⟩
  obtain ⟨n2, hn2⟩ : ∃ n2, n2 = F (t + dt / 2) (S (dt / 2) y + (dt / 2) • S (dt / 2) n1) := ⟨_, rfl⟩
  obtain ⟨n3, hn3⟩ : ∃ n3, n3 = F (t + dt / 2) (S (dt / 2) y + (dt / 2) • n2) := ⟨_, rfl⟩
  obtain ⟨n4, hn4⟩ : ∃ n4, n4 = F (t + dt) (S dt y + dt • S (dt / 2) n3) := ⟨_, rfl⟩
  have k1 : S (-(t - t)) (F t (S (t - t) y)) = n1 := by rw [sub_self, neg_zero, hi, hi, hn1]
  have k2 : S (-(t + dt / 2 - t)) (F (t + dt / 2) (S (t + dt / 2 - t) (y + (dt / 2) • n1))) = S (-(dt / 2)) n2 := by
    rw [add_sub_cancel_left, map_add, map_smul, ← hn2]
  have k3 : S (-(t + dt / 2 - t)) (F (t + dt / 2) (S (t + dt / 2 - t) (y + (dt / 2) • S (-(dt / 2)) n2))) = S (-(dt / 2)) n3 := by
    rw [add_sub_cancel_left, map_add, map_smul, hc, add_neg_cancel, hi, ← hn3]
  have k4 : S (-(t + dt - t)) (F (t + dt) (S (t + dt - t) (y + dt • S (-(dt / 2)) n3))) = S (-dt) n4 := by
    rw [add_sub_cancel_left, map_add, map_smul, hc, show dt + -(dt / 2) = dt / 2 by ring, ← hn4]
  have e : rk4 (fun τ w => S (-(τ - t)) (F τ (S (τ - t) w))) t dt y =
      y + (dt / 6) • (n1 + (2 : ℝ) • S (-(dt / 2)) n2 + (2 : ℝ) • S (-(dt / 2)) n3 + S (-dt) n4) := by
    unfold rk4; simp only [k1, k2, k3, k4]
  rw [e]
  unfold lawson
  simp only [← hn1, ← hn2, ← hn3, ← hn4, map_add, map_smul, hc, add_neg_cancel, hi, show dt + -(dt / 2) = dt / 2 by ring]
  congr 2
  abel

/-- A linear functional that the linear flow keeps and the force does not feed is conserved. -/
theorem lawson_invariant {E : Type*} [AddCommGroup E] [Module ℝ E] (ell : E →ₗ[ℝ] ℝ) (S F : ℝ → E → E) (t dt : ℝ) (y : E)
    (hS : ∀ s v, ell (S s v) = ell v) (hF : ∀ s v, ell (F s v) = 0) : ell (lawson S F t dt y) = ell y := by
  unfold lawson
  simp only [map_add, map_smul, hS, hF, smul_zero, add_zero]

/-! ### C107: particle numbers -/

/-- The operators leave the mean of coefficient `i` alone: no collisions, no filter there. -/
def Keeps {n : ℕ} (d : Damping n) (i : Fin n) : Prop := d.col i = 0 ∧ filterRate d.filter i = 0

/-- The setup was built as the solver builds it: eigenvectors of some matrix, a mask keeping the mean. -/
structure Built (p : Setup ne ni N) : Prop where
  eE : ∃ T, IsEigh p.eighE T
  eI : ∃ T, IsEigh p.eighI T
  mask0 : ∀ m, p.mask = some m → m 0 = true
  maskSymm : ∀ m, p.mask = some m → ∀ k, m (-k) = m k

theorem mask23_zero : mask23 N (0 : ZMod N) = true := by simp [mask23, Grid.fftfreqAt]

theorem fftfreq_one (k : ZMod N) : Grid.fftfreqAt N (1 : ℝ) k.val * (2 * Real.pi) = kfull 1 k := rfl

theorem mask23_symm (k : ZMod N) : mask23 N (-k) = mask23 N k := by
  by_cases hz : k.val = 0
  · rw [(ZMod.val_eq_zero k).mp hz, neg_zero]
  · by_cases hk : 2 * k.val = N
    · rw [(neg_eq_self_iff hz).2 hk]
    · have h := kfull_odd (1 : ℝ) k hz hk
      rw [← fftfreq_one, ← fftfreq_one] at h
      have hp : (2 * Real.pi) ≠ 0 := by positivity
      have h2 : Grid.fftfreqAt N (1 : ℝ) (-k).val = -Grid.fftfreqAt N (1 : ℝ) k.val := by
        apply mul_right_cancel₀ hp; rw [h]; ring
      rw [mask23, mask23, h2, neg_mul, abs_neg]

theorem masked_mean {m : Option (ZMod N → Bool)} (hm : ∀ f, m = some f → f 0 = true) (c : ZMod N → ℂ) : masked m c 0 = c 0 := by
  rcases m with _ | f
  · rfl
  · rw [masked, if_pos (hm f rfl)]

theorem exp_keeps (p : Setup ne ni N) (hb : Built p) (s : ℝ) (c : Ks ne ni N) :
    (∀ i, Keeps p.dampE i → (p.exp s c).1 i 0 = c.1 i 0) ∧ (∀ i, Keeps p.dampI i → (p.exp s c).2 i 0 = c.2 i 0) := by
  obtain ⟨T, hT⟩ := hb.eE
  obtain ⟨T', hT'⟩ := hb.eI
  constructor
  · intro i hi
    rw [Setup.exp]
    exact linear_keeps hT _ _ _ 0 (kx_zero _) i hi.1 hi.2 _ _
  · intro i hi
    rw [Setup.exp]
    simp only
    split_ifs
    · rfl
    · rw [linear_keeps hT' _ _ _ 0 (kx_zero _) i hi.1 hi.2]

theorem force_keeps (p : Setup ne ni N) (hb : Built p) [NeZero n] (C eq : Coef n N) (a : ZMod N → ℝ) (alpha : ℝ) :
    p.force C eq a alpha 0 0 = C 0 0 := by
  rw [Setup.force]
  split_ifs
  · simp only; rw [coupling_density]; simp
  · rw [force_density, masked_mean hb.mask0]

/-- The real part of one coefficient's mean, as a linear functional. -/
noncomputable def meanE (i : Fin ne) : Ks ne ni N →ₗ[ℝ] ℝ where
  toFun c := (c.1 i 0).re
  map_add' _ _ := by simp
  map_smul' _ _ := by simp
noncomputable def meanI (i : Fin ni) : Ks ne ni N →ₗ[ℝ] ℝ where
  toFun c := (c.2 i 0).re
  map_add' _ _ := by simp
  map_smul' _ _ := by simp

theorem sponge_density [NeZero n] (s : Option (ZMod N → ℝ)) (dt : ℝ) (C : Coef n N) : spongeK s dt C 0 = C 0 := by
  rcases s with _ | s
  · rfl
  · simp only [spongeK]
    rw [show (fun x => toX (C 0) x * (((if (0 : Fin n).val = 0 then (1 : ℝ) else Real.exp (-s x * dt)) : ℝ) : ℂ)) = toX (C 0) from by
      funext x; simp, toK_toX]

theorem density_total [NeZero n] (alpha : ℝ) (C : Coef n N) : ∑ x, density alpha C x = alpha ^ 3 * (N * (C 0 0).re) := by
  simp only [density, ← Finset.mul_sum]
  rw [← Complex.re_sum, sum_toX]; simp

theorem step_means (p : Setup ne ni N) (hb : Built p) (t : ℝ) (y : State ne ni N) :
    (Keeps p.dampE 0 → ((p.step t y).c.1 0 0).re = (y.c.1 0 0).re) ∧ (Keeps p.dampI 0 → ((p.step t y).c.2 0 0).re = (y.c.2 0 0).re) := by
  have hS := fun s c => exp_keeps p hb s c
  constructor
  · intro h0
    rw [Setup.step]
    simp only [sponge_density]
    split_ifs
    · rw [Setup.strangStep]
      rw [(hS _ _).1 0 h0]
      simp only
      rw [force_keeps p hb, (hS _ _).1 0 h0]
    · exact lawson_invariant (meanE 0) _ _ t p.dt y.c (fun s v => congrArg re ((hS s v).1 0 h0)) fun s v => by
        show ((p.rhs _ _ s v).1 0 0).re = 0
        rw [Setup.rhs]; simp only; rw [coupling_density]; rfl
  · intro h0
    rw [Setup.step]
    simp only [sponge_density]
    split_ifs
    · rw [Setup.strangStep]
      rw [(hS _ _).2 0 h0]
      simp only
      split_ifs
      · rw [(hS _ _).2 0 h0]
      · rw [force_keeps p hb, (hS _ _).2 0 h0]
    · exact lawson_invariant (meanI 0) _ _ t p.dt y.c (fun s v => congrArg re ((hS s v).2 0 h0)) fun s v => by
        show ((p.rhs _ _ s v).2 0 0).re = 0
        rw [Setup.rhs]; simp only
        split_ifs
        · rfl
        · rw [coupling_density]; rfl

/-- Both integrators keep the number of electrons and of ions in the box exactly: any fields, drivers,
noise, sponge, collisions, mask, number of steps. -/
theorem run_particles (p : Setup ne ni N) (hb : Built p) (y : State ne ni N) (m : ℕ) :
    (Keeps p.dampE 0 → ∑ x, density p.alphaE (p.run y m).c.1 x = ∑ x, density p.alphaE y.c.1 x) ∧
    (Keeps p.dampI 0 → ∑ x, density p.alphaI (p.run y m).c.2 x = ∑ x, density p.alphaI y.c.2 x) := by
  simp only [density_total]
  induction m with
  | zero => exact ⟨fun _ => rfl, fun _ => rfl⟩
  | succ m ih =>
    rw [Setup.run]
    have h := step_means p hb (m * p.dt) (p.run y m)
    exact ⟨fun h0 => by rw [h.1 h0]; exact ih.1 h0, fun h0 => by rw [h.2 h0]; exact ih.2 h0⟩

/-- `Keeps` holds for the solver's own operators: any collision model, any diffusion, no filter or a
filter of positive order with the default profile. -/
theorem keeps_density [NeZero n] (nu D : ℝ) (model : String) (col : Fin n → ℝ) (h : collisionProfile n model = .ok col)
    (filter : Option (ℝ × (Fin n → ℝ))) (hf : filter = none ∨ ∃ s knee width order : ℝ, 0 < order ∧ filter = some (s, filterProfile n "houli" knee width order)) :
    Keeps ⟨nu, col, D, filter⟩ 0 := by
  refine ⟨((collision_profile n model).1 col h 0).2 (by simp), ?_⟩
  rcases hf with rfl | ⟨s, kn, w, o, ho, rfl⟩
  · rfl
  · simp only [filterRate]
    rw [(houli_profile n kn w o ho 0).1 (Fin.val_zero n)]
    simp

/-- Static ions do not change at all (no plasma sponge). -/
theorem ions_static (p : Setup ne ni N) (hs : p.staticIons = true) (hsp : p.spongePlasma = none) (y : State ne ni N) (m : ℕ) :
    (p.run y m).c.2 = y.c.2 := by
  have hexp : ∀ s c, (p.exp s c).2 = c.2 := fun s c => by rw [Setup.exp]; simp [hs]
  induction m with
  | zero => rfl
  | succ m ih =>
    rw [Setup.run, Setup.step]
    simp only [hsp, spongeK]
    split_ifs
    · rw [Setup.strangStep]
      simp only [hexp, if_pos hs]; exact ih
    · have hr : ∀ fp no s c, (p.rhs fp no s c).2 = 0 := fun fp no s c => by rw [Setup.rhs]; simp [hs]
      unfold lawson
      simp only [Prod.snd_add, Prod.smul_snd, hexp, hr, smul_zero, add_zero]; exact ih
end Verif.Hermite
