import Verif.Props.HermiteOptions

/-!
C128: the Strang step of the Hermite-Poisson solver is free streaming over the whole step where nothing
pushes, and is symmetric in time, hence centred in the potential, the field and the streaming.
-/
namespace Verif.Hermite
open Complex

variable {N : ℕ} [NeZero N] {ne ni : ℕ} [NeZero ne] [NeZero ni]

/-- Nothing is damped: no collisions, no diffusion, no filter. -/
structure Undamped (p : Setup ne ni N) : Prop where
  eE : ∃ T, IsEigh p.eighE T
  eI : ∃ T, IsEigh p.eighI T
  rateE : ∀ i (q : ZMod N), p.dampE.rate (kx p.L) i q = 0
  rateI : ∀ i (q : ZMod N), p.dampI.rate (kx p.L) i q = 0

theorem linear_undamped {n : ℕ} (e : Eigh n) (alpha : ℝ) (d : Damping n) (k : ZMod N → ℝ) (h : ∀ i q, d.rate k i q = 0) (C : Coef n N) (s : ℝ) :
    linear e alpha d k C s = stream e alpha k C s := by
  funext i q
  rw [linear, damping_eq, h]; simp

/-- Without damping the linear step is a flow. -/
theorem exp_flow (p : Setup ne ni N) (h : Undamped p) (s r : ℝ) (c : Ks ne ni N) : p.exp s (p.exp r c) = p.exp (r + s) c ∧ p.exp 0 c = c := by
  obtain ⟨T, hT⟩ := h.eE
  obtain ⟨T', hT'⟩ := h.eI
  refine ⟨?_, ?_⟩
  · simp only [Setup.exp, linear_undamped _ _ _ _ h.rateE, linear_undamped _ _ _ _ h.rateI]
    refine Prod.ext ?_ ?_
    · exact stream_add hT _ _ _ _ _
    · dsimp only
      split_ifs
      · rfl
      · exact stream_add hT' _ _ _ _ _
  · simp only [Setup.exp, linear_undamped _ _ _ _ h.rateE, linear_undamped _ _ _ _ h.rateI]
    refine Prod.ext (stream_zero hT _ _ _) ?_
    dsimp only
    split_ifs
    · rfl
    · exact stream_zero hT' _ _ _

/-- Particles without charge stream freely, over the whole step, whatever the fields and the light. -/
theorem strang_free (p : Setup ne ni N) (h : Undamped p) (hm : p.mask = none ∨ p.linearResponse = true) (hE : p.qmE = 0) (hI : p.qmI = 0) (t : ℝ) (y : State ne ni N) :
    p.strangStep t y = p.exp p.dt y.c := by
  have hz : ∀ e f : ZMod N → ℝ, acceleration 0 e f = fun _ => 0 := by intro e f; funext x; simp [acceleration]
  have hf : ∀ {n : ℕ} (C eq : Coef n N) (alpha : ℝ), p.force C eq (fun _ => 0) alpha = C := by
    intro n C eq alpha
    rw [Setup.force]
    by_cases hl : p.linearResponse = true
    · rw [if_pos hl, coupling_null]; funext i k; simp
    · rw [if_neg hl, hm.resolve_right hl, force_null]
  rw [Setup.strangStep, hE, hI, hz, hf, hf, ite_self, (exp_flow p h _ _ _).1, add_halves]

/-- The step is symmetric: run backwards from its result, with the potential again straight in time, it gives the
coefficients it started from.  The driver may depend on time in any way. -/
theorem strang_reversible (p : Setup ne ni N) (h : Undamped p) (hl : p.linearResponse = false) (hm : p.mask = none) (haE : p.alphaE ≠ 0) (haI : p.alphaI ≠ 0)
    (hte : ne ≤ p.terms + 1) (hti : ni ≤ p.terms + 1) (t : ℝ) (hn : p.noise (t + p.dt) = p.noise t) (A V : ℕ → ℝ) (y z : State ne ni N)
    (hya : y.a = fun i => A i + t * V i) (hyp : y.prev = fun i => A i + (t - p.dt) * V i)
    (hza : z.a = fun i => A i + (t + p.dt) * V i) (hzp : z.prev = fun i => A i + (t + p.dt + p.dt) * V i)
    (hzc : z.c = p.strangStep t y) : ({ p with dt := -p.dt } : Setup ne ni N).strangStep (t + p.dt) z = y.c := by
  obtain ⟨hh, hh'⟩ : ∃ hh, hh = p.exp (p.dt / 2) y.c := ⟨_, rfl⟩
  obtain ⟨fp, hfp⟩ : ∃ fp : ZMod N → ℝ, fp = pond p.dx (fun i => A i + (t + p.dt / 2) * V i) := ⟨_, rfl⟩
  obtain ⟨f, hf⟩ : ∃ f : ZMod N → ℝ, f = fun x => p.ex hh x + p.exDriver (t + p.dt / 2) x + p.noise t x := ⟨_, rfl⟩
  obtain ⟨g, hg⟩ : ∃ g : Ks ne ni N, g = (forceExp hh.1 (acceleration p.qmE f fp) p.alphaE p.omega p.dt none p.terms,
      if p.staticIons then hh.2 else forceExp hh.2 (acceleration p.qmI f fp) p.alphaI p.omega p.dt none p.terms) := ⟨_, rfl⟩
  have e1 : p.strangStep t y = p.exp (p.dt / 2) g := by
    have m1 : (fun i => 1.5 * y.a i - 0.5 * y.prev i) = fun i => A i + (t + p.dt / 2) * V i := by
      funext i; rw [hya, hyp]; ring
    have m2 : (fun x => p.ex hh x + p.exDriver (t + 0.5 * p.dt) x + p.noise t x) = f := by
      rw [hf, show t + 0.5 * p.dt = t + p.dt / 2 by ring]
    rw [Setup.strangStep, ← hh', m1, ← hfp]
    rw [m2, hg]
    simp only [Setup.force, hl, hm, Bool.false_eq_true, if_false]
  have hd : p.ex g = p.ex hh := by
    have d1 : g.1 0 = hh.1 0 := by rw [hg]; dsimp only; rw [force_density]; rfl
    have d2 : g.2 0 = hh.2 0 := by
      rw [hg]; dsimp only; split_ifs
      · rfl
      · rw [force_density]; rfl
    simp only [Setup.ex, Setup.ionDensity, density, d1, d2]
  obtain ⟨q, hq⟩ : ∃ q : Setup ne ni N, q = { p with dt := -p.dt } := ⟨_, rfl⟩
  have hqe : ∀ s c, q.exp s c = p.exp s c := by intro s c; rw [hq]; rfl
  have hqx : ∀ c, q.ex c = p.ex c := by intro c; rw [hq]; rfl
  rw [← hq]
  have n1 : (fun i => 1.5 * z.a i - 0.5 * z.prev i) = fun i => A i + (t + p.dt / 2) * V i := by
    funext i; rw [hza, hzp]; ring
  have hdt : q.dt = -p.dt := by rw [hq]
  have n0 : q.exp (q.dt / 2) z.c = g := by
    rw [hqe, hzc, e1, (exp_flow p h _ _ _).1, hdt, show p.dt / 2 + -p.dt / 2 = 0 by ring, (exp_flow p h 0 0 g).2]
  have n2 : (fun x => q.ex g x + q.exDriver (t + p.dt + 0.5 * q.dt) x + q.noise (t + p.dt) x) = f := by
    rw [hqx, hd, hdt, show t + p.dt + 0.5 * -p.dt = t + p.dt / 2 by ring, hf, hq]
    dsimp only
    rw [hn]
  rw [Setup.strangStep, n1, n0]
  rw [n2, hdt]
  have n3 : pond (N := N) q.dx (fun i => A i + (t + p.dt / 2) * V i) = fp := by rw [hfp, hq]
  rw [n3]
  have c1 : q.qmE = p.qmE ∧ q.qmI = p.qmI ∧ q.alphaE = p.alphaE ∧ q.alphaI = p.alphaI ∧ q.omega = p.omega ∧ q.mask = none ∧ q.terms = p.terms
      ∧ q.linearResponse = false ∧ q.staticIons = p.staticIons := by rw [hq]; exact ⟨rfl, rfl, rfl, rfl, rfl, hm, rfl, hl, rfl⟩
  obtain ⟨c1, c2, c3, c4, c5, c6, c7, c8, c9⟩ := c1
  simp only [Setup.force, c1, c2, c3, c4, c5, c6, c7, c8, c9, Bool.false_eq_true, if_false, hdt]
  have k1 : forceExp g.1 (acceleration p.qmE f fp) p.alphaE p.omega (-p.dt) none p.terms = hh.1 := by
    rw [hg]; exact force_reverse _ _ haE _ _ _ hte
  have k2 : (if p.staticIons = true then g.2 else forceExp g.2 (acceleration p.qmI f fp) p.alphaI p.omega (-p.dt) none p.terms) = hh.2 := by
    rw [hg]; dsimp only
    split_ifs
    · rfl
    · exact force_reverse _ _ haI _ _ _ hti
  rw [k1, k2, hqe, show (hh.1, hh.2) = hh from rfl, hh', (exp_flow p h _ _ _).1, show p.dt / 2 + -p.dt / 2 = 0 by ring, (exp_flow p h 0 0 y.c).2]

/-- A setup and states meeting the hypotheses: light growing in time, a driver, moving ions. -/
example (c : Ks 5 4 6) : ∃ p : Setup 5 4 6, ∃ y z : State 5 4 6, y.c = c ∧ z.c = p.strangStep 3 y ∧
    ({ p with dt := -p.dt } : Setup 5 4 6).strangStep (3 + p.dt) z = c ∧ p.qmE = -1 ∧ y.a = (fun i : ℕ => ((i : ℝ) + 3 * (i : ℝ))) := by
  obtain ⟨d, hd⟩ := eigh_exists 5 2 0
  obtain ⟨d', hd'⟩ := eigh_exists 4 (1 / 2) 0
  let p : Setup 5 4 6 := { demo d d' true false with dampE := ⟨0, hyperCol 5, 0, none⟩, dampI := ⟨0, hyperCol 4, 0, none⟩, mask := none, exDriver := fun t x => t * x.val }
  let y : State 5 4 6 := ⟨c, fun i => i + 3 * i, fun i => i + (3 - p.dt) * i, fun _ => 0, fun _ => 0, fun _ => 0⟩
  refine ⟨p, y, ⟨p.strangStep 3 y, fun i => i + (3 + p.dt) * i, fun i => i + (3 + p.dt + p.dt) * i, fun _ => 0, fun _ => 0, fun _ => 0⟩, rfl, rfl, ?_, by simp [p, demo], rfl⟩
  refine strang_reversible p ⟨⟨_, hd⟩, ⟨_, hd'⟩, ?_, ?_⟩ rfl rfl ?_ ?_ ?_ ?_ 3 rfl (fun i => i) (fun i => i) y _ rfl rfl rfl rfl rfl
  · intro i q; simp [p, Damping.rate, filterRate]
  · intro i q; simp [p, Damping.rate, filterRate]
  · norm_num [p, demo]
  · norm_num [p, demo]
  · norm_num [p, demo]
  · norm_num [p, demo]

/-- The light of a whole step in vacuum: an antenna of points oscillating as `s sin(φ - ω t)` sustains the wave it radiates
with the Strang step, and with the other integrator one half step ahead of it: that integrator takes the source at the middle of the
step, while the wave equation is centred at its beginning. -/
theorem step_light (p : Setup ne ni N) (hc : 0 < p.cLight) (hdt : p.dt ≠ 0) (hdx : p.dx ≠ 0) (κ ω : ℝ) (hκ : Real.sin κ ≠ 0)
    (hdisp : 2 * (1 - Real.cos (ω * p.dt)) / p.dt ^ 2 = p.cLight ^ 2 * (2 * (1 - Real.cos κ) / p.dx ^ 2)) (J : Finset ℕ) (s φ : ℕ → ℝ)
    (hsrc : ∀ t i, p.eyDriver t i = if i ∈ J then s i * Real.sin (φ i - ω * t) else 0) (hsp : p.spongeFields = none) (hcl : ∀ m, p.densityMax = some m → 0 ≤ m)
    (t : ℝ) (y : State ne ni N) (hv : ∀ x, density p.alphaE y.c.1 x = 0) (hv' : ∀ x, density p.alphaE (p.step t y).c.1 x = 0)
    (δ : ℝ) (hδ : δ = if p.strang then 0 else ω * p.dt / 2)
    (ha : y.a = fun i => ∑ j ∈ J, radiated ⟨p.cLight, p.dx, p.dt⟩ κ ω (s j) (φ j - δ) j t i)
    (hp : y.prev = fun i => ∑ j ∈ J, radiated ⟨p.cLight, p.dx, p.dt⟩ κ ω (s j) (φ j - δ) j (t - p.dt) i) (i : ℕ) (h1 : 1 ≤ i) (h2 : i ≤ N) :
    (p.step t y).a i = ∑ j ∈ J, radiated ⟨p.cLight, p.dx, p.dt⟩ κ ω (s j) (φ j - δ) j (t + p.dt) i ∧ (p.step t y).prev = y.a := by
  have hz : clip p.densityMax 0 = 0 := by
    rcases hm : p.densityMax with _ | m
    · rfl
    · exact (clip_spec m 0 (hcl m hm)).2.2.2.1 (le_refl 0) (hcl m hm)
  have hd : ∀ C : Coef ne N, density p.alphaE (spongeK p.spongePlasma p.dt C) = density p.alphaE C := by
    intro C; funext x; simp only [density, sponge_density]
  have key := antenna_solves ⟨p.cLight, p.dx, p.dt⟩ hc hdt hdx κ ω hκ hdisp N J s (fun j => φ j - δ) t
    (if p.strang then p.eyDriver t else p.eyDriver (t + 0.5 * p.dt)) (by
      intro i _ _
      rw [hδ]
      by_cases hs : p.strang = true
      · rw [if_pos hs, if_pos hs, hsrc, sub_zero]
      · rw [if_neg hs, if_neg hs, hsrc]
        rw [show φ i - ω * (t + 0.5 * p.dt) = φ i - ω * p.dt / 2 - ω * t by ring]) i h1 h2
  rw [← ha, ← hp] at key
  have hN : 1 ≤ N := NeZero.one_le
  by_cases hs : p.strang = true
  · rw [Setup.step] at hv' ⊢
    simp only [hs, if_true, hsp, spongeA, hv, hz] at key ⊢
    refine ⟨key, ?_⟩
    rw [Wave.Solver.step, if_pos hc]
  · rw [Setup.step] at hv' ⊢
    simp only [hs, Bool.false_eq_true, if_false, hd] at hv'
    simp only [hs, Bool.false_eq_true, if_false, hsp, spongeA, hv, hv', add_zero, mul_zero] at key ⊢
    refine ⟨key, ?_⟩
    rw [Wave.Solver.step, if_pos hc]

/-- A setup and a dispersion pair meeting the hypotheses: `c dt = dx`, `κ = ω dt`. -/
example : Real.sin (1 : ℝ) ≠ 0 ∧ 2 * (1 - Real.cos ((2 : ℝ) * (1 / 2))) / (1 / 2) ^ 2 = (4 : ℝ) ^ 2 * (2 * (1 - Real.cos 1) / 2 ^ 2) := by
  refine ⟨(Real.sin_pos_of_pos_of_lt_pi one_pos (by have := Real.pi_gt_three; linarith)).ne', ?_⟩
  norm_num; ring

end Verif.Hermite
