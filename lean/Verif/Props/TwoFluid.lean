import Verif.Model.TwoFluid
import Verif.Props.Spectral
import Verif.Props.Driver
import Mathlib.Algebra.Module.Pi

/-! C129-C132: the two-fluid solver: densities, rest states, the field and the drivers. -/
namespace Verif.TwoFluid
open Finset ZMod Complex Verif.Spectral
open scoped ComplexConjugate

variable {N : ℕ} [NeZero N]

/-! ### The spectral derivative -/

theorem fft_gradient (dx : ℝ) (a : ZMod N → ℝ) (k : ZMod N) :
    fft (fun x => (gradient dx a x : ℂ)) k = if 2 * k.val = N then 0 else I * (kfull dx k : ℂ) * fft (fun j => (a j : ℂ)) k := by
  have h := fft_odd_kernel (N := N) (fun k => -kfull dx k) (fun k hz hk => by rw [kfull_odd dx k hz hk])
    (by rw [kfull_zero, neg_zero]) a k
  have e : ∀ k : ZMod N, -I * ((-kfull dx k : ℝ) : ℂ) * fft (fun j => (a j : ℂ)) k = I * (kfull dx k : ℂ) * fft (fun j => (a j : ℂ)) k :=
    fun k => by push_cast; ring
  simp only [e] at h
  exact h

/-- The derivative of a resolved mode. -/
theorem mode_gradient (dx : ℝ) (a : ZMod N → ℝ) {p : ℤ} (hp : Resolved N p) :
    mode (gradient dx a) p = I * (waveNumber N dx p : ℂ) * mode a p := by
  rw [mode_eq, mode_eq, fft_gradient, ← kfull_eq dx hp, if_neg]
  by_cases h0 : p = 0
  · subst h0
    have := NeZero.ne N
    simp only [Int.cast_zero, val_zero]
    omega
  · exact (resolved_index hp h0).2.1

theorem fft_const_ne (c : ℂ) {k : ZMod N} (hz : k ≠ 0) : fft (N := N) (fun _ => c) k = 0 := by
  unfold fft
  rw [dft_apply]
  simp only [smul_eq_mul]
  rw [← Finset.sum_mul]
  have h := AddChar.sum_mulShift (ψ := (stdAddChar : AddChar (ZMod N) ℂ)) (-k) (isPrimitive_stdAddChar N)
  rw [if_neg (by simpa using hz), Nat.cast_zero] at h
  have e : ∀ x : ZMod N, (stdAddChar (-(x * k)) : ℂ) = stdAddChar (x * -k) := fun x => by congr 1; ring
  simp only [e, h, zero_mul]

theorem gradient_const (dx c : ℝ) : gradient (N := N) dx (fun _ => c) = fun _ => 0 := by
  refine fft_inj fun k => ?_
  rw [fft_gradient]
  have h0 : fft (N := N) (fun _ => ((0 : ℝ) : ℂ)) k = 0 := by
    unfold fft; rw [dft_apply]; simp
  rw [h0]
  split
  · rfl
  · by_cases hz : k = 0
    · subst hz; rw [kfull_zero]; simp
    · have : fft (N := N) (fun _ => (c : ℂ)) k = 0 := fft_const_ne _ hz
      rw [this, mul_zero]

theorem gradient_add (dx : ℝ) (a b : ZMod N → ℝ) (x : ZMod N) : gradient dx (fun j => a j + b j) x = gradient dx a x + gradient dx b x := by
  unfold gradient
  rw [← add_re, ← ifft_add]
  congr 3
  funext k
  have : fft (fun j => ((a j + b j : ℝ) : ℂ)) k = fft (fun j => (a j : ℂ)) k + fft (fun j => (b j : ℂ)) k := by
    unfold fft
    rw [dft_apply, dft_apply, dft_apply, ← sum_add_distrib]
    exact sum_congr rfl fun j _ => by push_cast; simp only [smul_eq_mul]; ring
  rw [this]; ring

theorem gradient_smul (dx c : ℝ) (a : ZMod N → ℝ) (x : ZMod N) : gradient dx (fun j => c * a j) x = c * gradient dx a x := by
  unfold gradient
  rw [← re_ofReal_mul, ← ifft_smul]
  congr 3
  funext k
  have : fft (fun j => ((c * a j : ℝ) : ℂ)) k = c * fft (fun j => (a j : ℂ)) k := by
    unfold fft
    rw [dft_apply, dft_apply, Finset.mul_sum]
    exact sum_congr rfl fun j _ => by push_cast; simp only [smul_eq_mul]; ring
  rw [this]; ring

/-- Summation by parts. -/
theorem gradient_skew (dx : ℝ) (a b : ZMod N → ℝ) : ∑ x, (a x * gradient dx b x + gradient dx a x * b x) = 0 := by
  have h1 := parseval (fun j => (a j : ℂ)) (fun j => (gradient dx b j : ℂ))
  have h2 := parseval (fun j => (gradient dx a j : ℂ)) (fun j => (b j : ℂ))
  have hk : ∀ k : ZMod N, conj (fft (fun j => (a j : ℂ)) k) * fft (fun j => (gradient dx b j : ℂ)) k +
      conj (fft (fun j => (gradient dx a j : ℂ)) k) * fft (fun j => (b j : ℂ)) k = 0 := by
    intro k
    rw [fft_gradient, fft_gradient]
    split
    · simp
    · simp only [map_mul, conj_I, conj_ofReal]; ring
  have hs := Finset.sum_congr (rfl : (univ : Finset (ZMod N)) = univ) fun k _ => hk k
  rw [sum_add_distrib, h1, h2, ← mul_add, sum_const_zero] at hs
  have hN : (N : ℂ) ≠ 0 := Nat.cast_ne_zero.2 (NeZero.ne N)
  have h := (mul_eq_zero.1 hs).resolve_left hN
  simp only [conj_ofReal] at h
  rw [sum_add_distrib]
  exact_mod_cast h

/-! ### Linear invariants of a run -/

section rk
variable {E : Type*} [AddCommGroup E] [Module ℝ E]

theorem stage_eq (m : Method) (F : ℝ → E → E) (t h : ℝ) (y : E) (i : ℕ) :
    stage m F t h y i = F (t + m.c i * h) (y + h • ∑ j : Fin i, m.a i j • stage m F t h y j) := by
  rw [stage]

/-- A linear quantity the right-hand side does not change is exact at every saved time. -/
theorem linear_invariant {V : Type*} [AddCommGroup V] [Module ℝ V] (L : E →ₗ[ℝ] V) (m : Method) (F : ℝ → E → E) (y0 : E) (hF : ∀ t y, L (F t y) = 0)
    (hs : List ℝ) (h : ℝ) (b : ℕ → ℝ) : L (saved m F y0 hs h b) = L y0 := by
  have hst : ∀ (b : ℕ → ℝ) (t h : ℝ) (y : E), L (rkStep m b F t h y) = L y := by
    intro b t h y
    unfold rkStep
    rw [map_add, _root_.map_smul, map_sum, sum_eq_zero, smul_zero, add_zero]
    intro i _
    rw [_root_.map_smul, stage_eq, hF, smul_zero]
  have hr : ∀ (hs : List ℝ) (t : ℝ) (y : E), L (run m F t y hs).2 = L y := by
    intro hs
    induction hs with
    | nil => intro t y; rfl
    | cons h hs ih => intro t y; unfold run; rw [ih, hst]
  unfold saved
  rw [hst, hr]

/-- A state the right-hand side does not move stays, exactly. -/
theorem fixed_point (m : Method) (F : ℝ → E → E) (y0 : E) (hF : ∀ t, F t y0 = 0) (hs : List ℝ) (h : ℝ) (b : ℕ → ℝ) :
    saved m F y0 hs h b = y0 := by
  have hst : ∀ (t h : ℝ) (i : ℕ), stage m F t h y0 i = 0 := by
    intro t h i
    induction i using Nat.strong_induction_on with
    | _ i ih =>
      rw [stage_eq, sum_eq_zero, smul_zero, add_zero, hF]
      intro j _
      rw [ih j j.2, smul_zero]
  have hk : ∀ (b : ℕ → ℝ) (t h : ℝ), rkStep m b F t h y0 = y0 := by
    intro b t h
    unfold rkStep
    rw [sum_eq_zero, smul_zero, add_zero]
    intro i _
    rw [hst, smul_zero]
  have hr : ∀ (hs : List ℝ) (t : ℝ), (run m F t y0 hs).2 = y0 := by
    intro hs
    induction hs with
    | nil => intro t; rfl
    | cons h hs ih => intro t; unfold run; rw [hk, ih]
  unfold saved
  rw [hr, hk]

end rk

/-- The forward Euler method, Heun's method: two instances of `Method`. -/
def euler : Method := ⟨1, fun _ _ => 0, fun _ => 0, fun _ => 1⟩
noncomputable def heun : Method := ⟨2, fun _ _ => 1, fun i => i, fun _ => 1 / 2⟩

/-- `stage` and `rkStep` are the textbook formulas. -/
theorem methods_meaning {E : Type*} [AddCommGroup E] [Module ℝ E] (F : ℝ → E → E) (t h : ℝ) (y : E) :
    rkStep euler euler.b F t h y = y + h • F t y ∧
    rkStep heun heun.b F t h y = y + h • ((1 / 2 : ℝ) • F t y + (1 / 2 : ℝ) • F (t + h) (y + h • F t y)) ∧
    run euler F t y [h, h] = (t + h + h, y + h • F t y + h • F (t + h) (y + h • F t y)) := by
  have e : ∀ t h y, rkStep euler euler.b F t h y = y + h • F t y := by
    intro t h y
    have h0 : stage euler F t h y 0 = F t y := by rw [stage_eq]; simp [euler]
    have : rkStep euler euler.b F t h y = y + h • ((1 : ℝ) • stage euler F t h y 0) := by
      unfold rkStep; congr 2; exact Fin.sum_univ_one _
    rw [this, h0, one_smul]
  refine ⟨e t h y, ?_, ?_⟩
  · have h0 : stage heun F t h y 0 = F t y := by rw [stage_eq]; simp [heun]
    have h1 : stage heun F t h y 1 = F (t + h) (y + h • F t y) := by
      rw [stage_eq, Fin.sum_univ_one]
      have : ((0 : Fin 1) : ℕ) = 0 := rfl
      rw [this, h0]
      simp [heun]
    have : rkStep heun heun.b F t h y = y + h • ((1 / 2 : ℝ) • stage heun F t h y 0 + (1 / 2 : ℝ) • stage heun F t h y 1) := by
      unfold rkStep; congr 2; exact Fin.sum_univ_two _
    rw [this, h0, h1]
  · unfold run run run
    rw [e, e]

/-! ### C129: densities -/

theorem pushN_sum (dx : ℝ) (n u : ZMod N → ℝ) : ∑ x, pushN dx n u x = 0 := by
  have h := gradient_skew dx u n
  unfold pushN
  rw [← neg_zero, ← h, ← sum_neg_distrib]
  exact sum_congr rfl fun x _ => by ring

/-- C129: the number of particles of each species is the initial one at every saved time, whatever the drivers, the physics, the
time integrator and the step sizes: nothing is lost to the truncation of the spectral products. -/
theorem particles_conserved (s : Setup N) (m : Method) (y0 : State N) (sp : Sp) (hs : List ℝ) (h : ℝ) (b : ℕ → ℝ) :
    ∑ x, saved m s.vf y0 hs h b sp .n x = ∑ x, y0 sp .n x := by
  let L : State N →ₗ[ℝ] ℝ :=
    { toFun := fun y => ∑ x, y sp .n x
      map_add' := fun a b => by simp [sum_add_distrib]
      map_smul' := fun c a => by simp [Finset.mul_sum] }
  refine linear_invariant L m s.vf y0 (fun t y => ?_) hs h b
  show ∑ x, s.vf t y sp .n x = 0
  unfold Setup.vf
  dsimp only
  by_cases ho : (s.ph sp).isOn = true
  · simp only [ho, if_true]; exact pushN_sum _ _ _
  · simp [ho]

/-- C129: from the state a simulation starts with, the mean density stays 1. -/
theorem mean_density (s : Setup N) (m : Method) (sp : Sp) (hs : List ℝ) (h : ℝ) (b : ℕ → ℝ) :
    (∑ x, saved m s.vf s.init hs h b sp .n x) / N = 1 := by
  rw [particles_conserved]
  have hN : (N : ℝ) ≠ 0 := Nat.cast_ne_zero.2 (NeZero.ne N)
  simp [Setup.init, ZMod.card, hN]

/-! ### C130: rest states and switches -/

/-- C130: a species that is off keeps its density, velocity and pressure exactly, and a species without trapping its `delta`. -/
theorem frozen (s : Setup N) (m : Method) (y0 : State N) (sp : Sp) (hs : List ℝ) (h : ℝ) (b : ℕ → ℝ) :
    ((s.ph sp).isOn = false → ∀ q, q ≠ .delta → saved m s.vf y0 hs h b sp q = y0 sp q) ∧
    ((s.ph sp).trapping = none → saved m s.vf y0 hs h b sp .delta = y0 sp .delta) := by
  have key : ∀ q : Q, (∀ t y, s.vf t y sp q = 0) → saved m s.vf y0 hs h b sp q = y0 sp q := by
    intro q hq
    let L : State N →ₗ[ℝ] (ZMod N → ℝ) :=
      { toFun := fun y => y sp q, map_add' := fun _ _ => rfl, map_smul' := fun _ _ => rfl }
    exact linear_invariant L m s.vf y0 hq hs h b
  refine ⟨fun ho q hq => key q fun t y => ?_, fun ht => key .delta fun t y => ?_⟩
  · funext x
    unfold Setup.vf
    cases q with
    | delta => exact absurd rfl hq
    | n => simp [ho]
    | u => simp [ho]
    | p => simp [ho]
  · funext x
    simp [Setup.vf, ht]

theorem filterRow_zero (m : ℕ → ℂ) : filterRow (N := N) m (fun _ => 0) = fun _ => 0 := by
  refine fft_inj fun k => ?_
  rw [fft_filterRow]
  have h0 : fft (N := N) (fun _ => ((0 : ℝ) : ℂ)) k = 0 := by
    unfold fft; rw [dft_apply]; simp
  rw [h0, mul_zero]

theorem poissonField_eq (dx : ℝ) (dn : ZMod N → ℝ) (x : ZMod N) : poissonField dx dn x = -poisson dx dn x := by
  unfold poissonField poisson
  rw [← neg_re]
  congr 1
  have h := ifft_smul (-1) (fun k => -I * (oneOverK dx k : ℂ) * fft (fun j => (dn j : ℂ)) k) x
  rw [neg_one_mul] at h
  rw [← h]
  congr 1
  funext k
  ring

theorem poissonField_const (dx c : ℝ) (x : ZMod N) : poissonField dx (fun _ : ZMod N => c) x = 0 := by
  unfold poissonField
  have : (fun k : ZMod N => I * (oneOverK dx k : ℂ) * fft (fun _ => (c : ℂ)) k) = fun k => 0 * 0 := by
    funext k
    by_cases hz : k.val = 0
    · unfold oneOverK; rw [if_pos hz]; simp
    · have hk : k ≠ 0 := fun h => hz (by rw [h, val_zero])
      have : fft (N := N) (fun _ => (c : ℂ)) k = 0 := fft_const_ne _ hk
      rw [this]; simp
  rw [this, ifft_smul, zero_mul, zero_re]

theorem irfft_zero (x : ZMod N) : irfft N (fun _ => 0) x = 0 := by
  have h := filterRow_zero (N := N) fun _ => 0
  have := congrFun h x
  unfold filterRow at this
  simpa using this

theorem rfft_zero (k : ℕ) : rfft (N := N) (fun _ => 0) k = 0 := by
  unfold rfft fft; rw [dft_apply]; simp

/-- C130: a uniform plasma without flow and without a driver is at rest, for any densities (also if the charges do not balance: the
mean charge is discarded), temperatures, masses and damping and trapping models; a simulation without drivers therefore returns its initial
state at every saved time. -/
theorem rest (s : Setup N) (hd : s.pulses = []) (n0 p0 : Sp → ℝ) (m : Method) (hs : List ℝ) (h : ℝ) (b : ℕ → ℝ) :
    let y0 : State N := fun sp q _ => match q with
      | .n => n0 sp
      | .u => 0
      | .p => p0 sp
      | .delta => 0
    saved m s.vf y0 hs h b = y0 := by
  intro y0
  refine fixed_point m s.vf y0 (fun t => ?_) hs h b
  have he : s.e y0 = fun _ => 0 := by
    unfold Setup.e
    funext x
    exact poissonField_const s.dx ((s.ph .ion).charge * n0 .ion + (s.ph .electron).charge * n0 .electron) x
  have hed : ∀ x, s.ed t x = 0 := fun x => by unfold Setup.ed; rw [hd]; rfl
  have hg : ∀ (sp : Sp) (q : Q) (c : ℝ), gradient s.dx (fun x => y0 sp q x / c) = fun _ => 0 := by
    intro sp q c
    cases q
    · exact gradient_const s.dx (n0 sp / c)
    · exact gradient_const s.dx (0 / c)
    · exact gradient_const s.dx (p0 sp / c)
    · exact gradient_const s.dx (0 / c)
  have hg1 : ∀ (sp : Sp) (q : Q), gradient s.dx (y0 sp q) = fun _ => 0 := by
    intro sp q
    cases q
    · exact gradient_const s.dx (n0 sp)
    · exact gradient_const s.dx 0
    · exact gradient_const s.dx (p0 sp)
    · exact gradient_const s.dx 0
  have hu : ∀ sp, y0 sp .u = fun _ => 0 := fun sp => rfl
  have hdl : ∀ sp, y0 sp .delta = fun _ => 0 := fun sp => rfl
  funext sp q x
  unfold Setup.vf
  cases q with
  | n =>
    dsimp only
    split
    · simp only [pushN, hg1, hu, gradient_const]; simp
    · rfl
  | u =>
    dsimp only
    split
    · simp only [pushU, restoring, landauTerm, hg, hg1, hu, he, hed, zero_div, filterRow_zero]; simp
    · rfl
  | p =>
    dsimp only
    split
    · simp only [pushE, hg, hg1, hu, he, gradient_const]; simp
    · rfl
  | delta =>
    dsimp only
    split
    · simp only [trapper, hg1, he, ek, rfft_zero, irfft_zero, zero_mul, zero_div]; simp
    · rfl

theorem rest_from_start (s : Setup N) (hd : s.pulses = []) (m : Method) (hs : List ℝ) (h : ℝ) (b : ℕ → ℝ) :
    saved m s.vf s.init hs h b = s.init := by
  have := rest s hd (fun _ => 1) (fun sp => (s.ph sp).T0) m hs h b
  have e : s.init = (fun sp q _ => match q with
      | .n => (fun _ => (1 : ℝ)) sp
      | .u => 0
      | .p => (fun sp => (s.ph sp).T0) sp
      | .delta => 0 : State N) := by
    funext sp q x
    cases q <;> rfl
  rw [e]
  exact this

/-! ### C131: the field -/

/-- C131: the field the fluids feel is `-e`, and it is the electric field of the charge: Gauss's law in every resolved mode but
the mean, no mean, no grid-scale oscillation, no net force on the plasma.  The velocity equation contains it as `+ q E / m`. -/
theorem field_gauss (s : Setup N) (hdx : s.dx ≠ 0) (y : State N) :
    let rho : ZMod N → ℝ := fun x => (s.ph .ion).charge * y .ion .n x + (s.ph .electron).charge * y .electron .n x
    let E : ZMod N → ℝ := fun x => -s.e y x
    (∀ p : ℤ, Resolved N p → p ≠ 0 → gaussError s.dx E rho p = 0) ∧ ∑ x, E x = 0 ∧ (2 ∣ N → alternating E = 0) ∧
    ∑ x, rho x * E x = 0 := by
  intro rho E
  have hE : E = poisson s.dx rho := by
    funext x
    show -poissonField s.dx rho x = _
    rw [poissonField_eq, neg_neg]
  rw [hE]
  exact poisson_field s.dx hdx rho

/-- C131: the acceleration of a species, term by term: advection, pressure, its own field with the right sign and damping; a driver `ed`
accelerates a charge like an electric field `-ed`, and the pressure equation does not see it. -/
theorem accelerations (s : Setup N) (t : ℝ) (y : State N) (sp : Sp) (ho : (s.ph sp).isOn = true) (x : ZMod N) :
    let ph := s.ph sp
    let E : ZMod N → ℝ := fun x => -s.e y x
    s.vf t y sp .u x = -y sp .u x * gradient s.dx (y sp .u) x
      - restoring (wrCorr s.root s.klds s.dx N ph) (fun z => gradient s.dx (fun z => y sp .p z / ph.mass) z / y sp .n z) x
      + ph.charge / ph.mass * (E x - s.ed t x)
      + landauTerm (wi s.root s.klds s.dx N ph) (trapModel ph) (y sp .u) (y sp .delta) x ∧
    ∀ t', s.vf t y sp .p x = s.vf t' y sp .p x := by
  intro ph E
  refine ⟨?_, fun t' => by simp [Setup.vf]⟩
  unfold Setup.vf
  dsimp only
  rw [if_pos ho]
  unfold pushU
  dsimp only [E, ph]
  ring

/-! ### C132: drivers -/

theorem foldl_pulses (l : List Pulse) (F : Pulse → ℝ) (c : ℝ) : l.foldl (fun acc d => acc + F d) c = c + (l.map F).sum := by
  induction l generalizing c with
  | nil => simp
  | cons d l ih => simp only [List.foldl_cons, List.map_cons, List.sum_cons, ih]; ring

omit [NeZero N] in
/-- C132: the drive is the sum of the pulses, in any order; each is `k0 a0` times a travelling wave of wave number `k0`, moving at the phase
velocity `(w0 + dw0) / k0`, under an envelope below 1. -/
theorem drivers_sum (s : Setup N) (t : ℝ) (x : ZMod N) :
    s.ed t x = (s.pulses.map fun d => d.field (s.x x) t).sum ∧
    (∀ l, s.pulses.Perm l → s.ed t x = ({ s with pulses := l } : Setup N).ed t x) := by
  have h : ∀ s : Setup N, s.ed t x = (s.pulses.map fun d => d.field (s.x x) t).sum := by
    intro s; unfold Setup.ed; rw [foldl_pulses, zero_add]
  exact ⟨h s, fun l hl => by rw [h, h]; exact (hl.map _).sum_eq⟩

theorem pulse_wave (d : Pulse) (hr : 0 < d.tr) (hx : 0 < d.xr) (hw : 0 ≤ d.tw) (hxw : 0 ≤ d.xw) (x t : ℝ) :
    |d.field x t| ≤ |d.k0 * d.a0| ∧
    (∃ A, 0 ≤ A ∧ A < 1 ∧ d.field x t = A * (|d.k0| * d.a0 * Real.sin (d.k0 * x - (d.w0 + d.dw0) * t))) ∧
    (d.k0 = 0 → d.field x t = 0) ∧ (d.a0 = 0 → d.field x t = 0) := by
  have hin : ∀ w c r z : ℝ, 0 < r → 0 ≤ w →
      0 ≤ Driver.getEnvelope r r (c - w * 0.5) (c + w * 0.5) z ∧ Driver.getEnvelope r r (c - w * 0.5) (c + w * 0.5) z < 1 := by
    intro w c r z hr hw
    rw [Driver.getEnvelope_bump, Driver.eval_bump _ rfl]
    have := Driver.shape_range ⟨(c - w * 0.5 + (c + w * 0.5)) / 2, c + w * 0.5 - (c - w * 0.5), r, 0, 1, false⟩ hr (by dsimp only; linarith) z
    dsimp only
    constructor <;> linarith [this.1, this.2]
  have ht := hin d.tw d.tc d.tr t hr hw
  have hx' := hin d.xw d.xc d.xr x hx hxw
  obtain ⟨A, hA⟩ : ∃ A, A = Driver.getEnvelope d.tr d.tr (d.tc - d.tw * 0.5) (d.tc + d.tw * 0.5) t := ⟨_, rfl⟩
  obtain ⟨B, hB⟩ : ∃ B, B = Driver.getEnvelope d.xr d.xr (d.xc - d.xw * 0.5) (d.xc + d.xw * 0.5) x := ⟨_, rfl⟩
  have e : d.field x t = A * B * (|d.k0| * d.a0 * Real.sin (d.k0 * x - (d.w0 + d.dw0) * t)) := by
    unfold Pulse.field; rw [← hA, ← hB]; ring
  rw [← hA] at ht
  rw [← hB] at hx'
  have h0 : 0 ≤ A * B := mul_nonneg ht.1 hx'.1
  have h1 : A * B < 1 := by nlinarith [ht.1, ht.2, hx'.1, hx'.2]
  refine ⟨?_, ⟨A * B, h0, h1, e⟩, fun h => by rw [e, h]; simp, fun h => by rw [e, h]; simp⟩
  rw [e, abs_mul, abs_of_nonneg h0, abs_mul, abs_mul, abs_abs, abs_mul]
  have hs := Real.abs_sin_le_one (d.k0 * x - (d.w0 + d.dw0) * t)
  have hp : 0 ≤ |d.k0| * |d.a0| := by positivity
  calc A * B * (|d.k0| * |d.a0| * |Real.sin (d.k0 * x - (d.w0 + d.dw0) * t)|)
      ≤ 1 * (|d.k0| * |d.a0| * 1) := by gcongr
    _ = _ := by ring

end Verif.TwoFluid
