import Verif.Props.HermiteExtra

/-!
C110 (linear response and the other options) and C111 (drivers) of the Hermite-Poisson solver, and a
concrete setup meeting the hypotheses of the theorems on runs.
-/
namespace Verif.Hermite
open Finset Complex Verif.Spectral
open scoped Matrix ComplexConjugate

variable {N : ℕ} [NeZero N] {n ne ni : ℕ} [NeZero n] [NeZero ne] [NeZero ni]

/-! ### C110 -/

/-- Linear response to an equilibrium that has only a density: the substep changes the first
coefficient only, nothing is truncated, and at each position the change is the force times the
equilibrium density (without a mask). -/
theorem linear_response (p : Setup ne ni N) (hl : p.linearResponse = true) (C eq : Coef n N) (heq : ∀ i, i ≠ 0 → eq i = fun _ => 0)
    (a : ZMod N → ℝ) (alpha : ℝ) :
    (∀ i, i.val ≠ 1 → p.force C eq a alpha i = C i) ∧
    (p.mask = none → ∀ i, i.val = 1 → ∀ x, toX (p.force C eq a alpha i) x = toX (C i) x + ((p.dt * p.omega * Real.sqrt 2 / alpha * a x : ℝ) : ℂ) * toX (eq 0) x) := by
  have hx0 : ∀ x : ZMod N, toX (fun _ => (0 : ℂ)) x = 0 := fun x => toX_mean _ (fun _ _ => rfl) x
  have hk0 : toK (fun _ : ZMod N => (0 : ℂ)) = fun _ => 0 := by
    funext k; rw [toK, show (fun _ : ZMod N => (0 : ℂ)) = 0 from rfl, Spectral.fft, map_zero]; simp
  have hm0 : masked p.mask (fun _ : ZMod N => (0 : ℂ)) = fun _ => 0 := by
    funext k; rcases p.mask with _ | f <;> simp [masked]
  constructor
  · intro i hi
    funext k
    rw [Setup.force, if_pos hl]
    have hu : ∀ x, up (fun j => toX (masked p.mask (eq j)) x) i = 0 := by
      intro x
      rw [up]
      split_ifs with h
      · rfl
      · have : (⟨i.val - 1, by omega⟩ : Fin n) ≠ 0 := by
          intro h'; have := congrArg Fin.val h'; rw [Fin.val_zero] at this; simp only at this; omega
        rw [heq _ this, hm0, hx0]
    have hc : coupling eq a 1 alpha p.omega p.mask i k = 0 := by
      rw [coupling]; simp only [hu, mul_zero, hk0]; rw [hm0]
    simp only [hc, mul_zero, add_zero]
  · intro hmask i hi x
    have hu : ∀ x, up (fun j => toX (eq j) x) i = toX (eq 0) x := by
      intro x
      rw [up, dif_neg (by omega)]
      congr 1
      congr 1
      exact Fin.ext (by rw [Fin.val_zero]; simp only; omega)
    have e : p.force C eq a alpha i = fun k => C i k + (p.dt : ℂ) * toK (fun x => ((p.omega * Real.sqrt 2 / alpha * a x : ℝ) : ℂ) * toX (eq 0) x) k := by
      funext k
      rw [Setup.force, if_pos hl]
      simp only [coupling, hmask, masked_none, maskedForce, hu]
      congr 2
      rw [← toK_smul]
      congr 1
      funext x
      rw [hi]
      simp only [Nat.cast_one, Real.sqrt_one]
      push_cast; ring
    rw [e, toX_add, toX_smul, toX_toK]
    push_cast; ring

theorem stream_lin (d : Eigh n) (alpha : ℝ) (k : ZMod N → ℝ) (C D : Coef n N) (a b s : ℝ) (i : Fin n) (q : ZMod N) :
    stream d alpha k (fun i q => (a : ℂ) * C i q + b * D i q) s i q = a * stream d alpha k C s i q + b * stream d alpha k D s i q := by
  simp only [stream, Finset.mul_sum]
  rw [← Finset.sum_add_distrib]
  refine Finset.sum_congr rfl fun j _ => ?_
  rw [Finset.sum_mul, Finset.sum_mul, Finset.sum_mul, Finset.mul_sum, Finset.mul_sum, Finset.mul_sum, Finset.mul_sum, Finset.mul_sum, ← Finset.sum_add_distrib]
  exact Finset.sum_congr rfl fun m _ => by ring

theorem linear_lin (d : Eigh n) (alpha : ℝ) (p : Damping n) (k : ZMod N → ℝ) (C D : Coef n N) (a b s : ℝ) (i : Fin n) (q : ZMod N) :
    linear d alpha p k (fun i q => (a : ℂ) * C i q + b * D i q) s i q = a * linear d alpha p k C s i q + b * linear d alpha p k D s i q := by
  simp only [linear, damping_eq]
  rw [stream_lin]; ring

/-- A weighted sum of the coefficients of two states. -/
def mix (a b : ℝ) (c c' : Ks ne ni N) : Ks ne ni N :=
  (fun i q => (a : ℂ) * c.1 i q + b * c'.1 i q, fun i q => (a : ℂ) * c.2 i q + b * c'.2 i q)

theorem exp_mix (p : Setup ne ni N) (a b s : ℝ) (c c' : Ks ne ni N) : p.exp s (mix a b c c') = mix a b (p.exp s c) (p.exp s c') := by
  refine Prod.ext ?_ ?_
  · funext i q; exact linear_lin _ _ _ _ _ _ _ _ _ _ _
  · simp only [Setup.exp, mix]
    split_ifs
    · rfl
    · funext i q; exact linear_lin _ _ _ _ _ _ _ _ _ _ _

theorem density_lin (alpha a b : ℝ) (C D : Coef n N) (x : ZMod N) :
    density alpha (fun i q => (a : ℂ) * C i q + b * D i q) x = a * density alpha C x + b * density alpha D x := by
  simp only [density]
  rw [toX_add, toX_smul, toX_smul, Complex.add_re, re_ofReal_mul, re_ofReal_mul]; ring

theorem field_lin (L a b : ℝ) (r s : ZMod N → ℝ) (x : ZMod N) : field L (fun x => a * r x + b * s x) x = a * field L r x + b * field L s x := by
  have e : (fun k => -I * (oneOverKx L k : ℂ) * toK (fun j => ((a * r j + b * s j : ℝ) : ℂ)) k) = fun k =>
      (a : ℂ) * (-I * (oneOverKx L k : ℂ) * toK (fun j => (r j : ℂ)) k) + (b : ℂ) * (-I * (oneOverKx L k : ℂ) * toK (fun j => (s j : ℂ)) k) := by
    funext k
    have : (fun j => ((a * r j + b * s j : ℝ) : ℂ)) = fun j => (a : ℂ) * (r j : ℂ) + (b : ℂ) * (s j : ℂ) := by funext j; push_cast; rfl
    rw [this, toK_add, toK_smul, toK_smul]; ring
  rw [field, e, toX_add, toX_smul, toX_smul, Complex.add_re, re_ofReal_mul, re_ofReal_mul]; rfl

theorem ex_mix (p : Setup ne ni N) (a b : ℝ) (hab : a + b = 1) (c c' : Ks ne ni N) (x : ZMod N) :
    p.ex (mix a b c c') x = a * p.ex c x + b * p.ex c' x := by
  simp only [Setup.ex]
  rw [← field_lin]
  congr 1
  funext x
  have h1 : density p.alphaE (mix a b c c').1 x = a * density p.alphaE c.1 x + b * density p.alphaE c'.1 x := density_lin _ _ _ _ _ _
  have h2 : p.ionDensity (mix a b c c').2 x = a * p.ionDensity c.2 x + b * p.ionDensity c'.2 x := by
    rcases hs : p.staticDensity with _ | d
    · simp only [Setup.ionDensity, hs]; exact density_lin _ _ _ _ _ _
    · simp only [Setup.ionDensity, hs]; linear_combination (-d x) * hab
  rw [h1, h2]; ring

omit [NeZero n] in
theorem coupling_lin (C : Coef n N) (F G : ZMod N → ℝ) (a b qm alpha omega : ℝ) (m : Option (ZMod N → Bool)) (i : Fin n) (k : ZMod N) :
    coupling C (fun x => a * F x + b * G x) qm alpha omega m i k = a * coupling C F qm alpha omega m i k + b * coupling C G qm alpha omega m i k := by
  simp only [coupling]
  rw [← masked_smul, ← masked_smul, ← masked_add]
  congr 1
  funext k
  have : (fun x => ((Real.sqrt i.val * Real.sqrt 2 / alpha : ℝ) : ℂ) * (maskedForce m (fun x => a * F x + b * G x) x : ℂ) * up (fun j => toX (masked m (C j)) x) i) =
      fun x => (a : ℂ) * (((Real.sqrt i.val * Real.sqrt 2 / alpha : ℝ) : ℂ) * (maskedForce m F x : ℂ) * up (fun j => toX (masked m (C j)) x) i) +
        (b : ℂ) * (((Real.sqrt i.val * Real.sqrt 2 / alpha : ℝ) : ℂ) * (maskedForce m G x : ℂ) * up (fun j => toX (masked m (C j)) x) i) := by
    funext x; rw [maskedForce_lin]; push_cast; ring
  rw [this, toK_add, toK_smul, toK_smul]; ring

theorem force_mix (p : Setup ne ni N) (hl : p.linearResponse = true) (C D eq : Coef n N) (F G : ZMod N → ℝ) (a b alpha : ℝ) :
    p.force (fun i q => (a : ℂ) * C i q + b * D i q) eq (fun x => a * F x + b * G x) alpha =
      fun i q => (a : ℂ) * p.force C eq F alpha i q + b * p.force D eq G alpha i q := by
  funext i q
  simp only [Setup.force, if_pos hl]
  rw [coupling_lin]; ring

/-- In linear response the whole step is affine in the coefficients: weighted averages of states
(the light wave being the same) step to the weighted averages. -/
theorem linear_superposition (p : Setup ne ni N) (hl : p.linearResponse = true) (t : ℝ) (y z : State ne ni N) (a b : ℝ) (hab : a + b = 1)
    (w : State ne ni N) (hwc : w.c = mix a b y.c z.c) (hya : w.a = y.a) (hza : w.a = z.a) (hyp : w.prev = y.prev) (hzp : w.prev = z.prev) :
    p.strangStep t w = mix a b (p.strangStep t y) (p.strangStep t z) := by
  have hacc : ∀ q (h h' : Ks ne ni N) (fp : ZMod N → ℝ), acceleration q (fun x => p.ex (mix a b h h') x + p.exDriver (t + 0.5 * p.dt) x + p.noise t x) fp =
      fun x => a * acceleration q (fun x => p.ex h x + p.exDriver (t + 0.5 * p.dt) x + p.noise t x) fp x +
        b * acceleration q (fun x => p.ex h' x + p.exDriver (t + 0.5 * p.dt) x + p.noise t x) fp x := by
    intro q h h' fp
    funext x
    simp only [acceleration, ex_mix p a b hab]
    linear_combination (-(q * p.exDriver (t + 0.5 * p.dt) x) - q * p.noise t x - q ^ 2 * fp x) * hab
  rw [Setup.strangStep, Setup.strangStep, Setup.strangStep]
  simp only [← exp_mix, ← hya, ← hza, ← hyp, ← hzp, hwc]
  rw [exp_mix]
  congr 1
  refine Prod.ext ?_ ?_
  · simp only [hacc]
    exact force_mix p hl _ _ _ _ _ _ _ _
  · by_cases hst : p.staticIons = true
    · simp only [if_pos hst]; rfl
    · simp only [if_neg hst, hacc]
      exact force_mix p hl _ _ _ _ _ _ _ _

/-- The other integrator ignores the linear response, its equilibrium and the density limit. -/
theorem lawson_ignores (p : Setup ne ni N) (hs : p.strang = false) (lr : Bool) (eE : Coef ne N) (eI : Coef ni N) (dm : Option ℝ) (terms : ℕ) (t : ℝ) (y : State ne ni N) :
    ({ p with linearResponse := lr, eqE := eE, eqI := eI, densityMax := dm, terms := terms } : Setup ne ni N).step t y = p.step t y := by
  obtain ⟨p', hp'⟩ : ∃ p' : Setup ne ni N, p' = { p with linearResponse := lr, eqE := eE, eqI := eI, densityMax := dm, terms := terms } := ⟨_, rfl⟩
  have h1 : p'.exp = p.exp := by rw [hp']; rfl
  have h2 : p'.ex = p.ex := by rw [hp']; rfl
  have h3 : ∀ fp no, p'.rhs fp no = p.rhs fp no := by
    intro fp no; rw [hp']; rfl
  have h4 : p'.strang = false := by rw [hp']; exact hs
  have h5 : p'.dt = p.dt ∧ p'.dx = p.dx ∧ p'.cLight = p.cLight ∧ p'.alphaE = p.alphaE ∧ p'.noise = p.noise ∧ p'.exDriver = p.exDriver ∧
      p'.eyDriver = p.eyDriver ∧ p'.spongePlasma = p.spongePlasma ∧ p'.spongeFields = p.spongeFields := by rw [hp']; exact ⟨rfl, rfl, rfl, rfl, rfl, rfl, rfl, rfl, rfl⟩
  obtain ⟨a1, a2, a3, a4, a5, a6, a7, a8, a9⟩ := h5
  rw [← hp']
  simp only [Setup.step, hs, h4, h1, h2, h3, a1, a2, a3, a4, a5, a6, a7, a8, a9, Bool.false_eq_true, if_false]

/-- The density the light wave sees. -/
theorem clip_spec (m x : ℝ) (hm : 0 ≤ m) : clip none x = x ∧ 0 ≤ clip (some m) x ∧ clip (some m) x ≤ m ∧
    (0 ≤ x → x ≤ m → clip (some m) x = x) ∧ (x ≤ 0 → clip (some m) x = 0) ∧ (m ≤ x → clip (some m) x = m) := by
  refine ⟨rfl, le_min (le_max_right _ _) hm, min_le_right _ _, fun h1 h2 => ?_, fun h => ?_, fun h => ?_⟩
  · simp only [clip]; rw [max_eq_left h1, min_eq_left h2]
  · simp only [clip]; rw [max_eq_right h, min_eq_left hm]
  · simp only [clip]; rw [max_eq_left (hm.trans h), min_eq_right h]

/-- What the constructor accepts. -/
theorem setup_accepts (integrator : String) (lr eq : Bool) :
    setupOk integrator lr eq = .ok () ↔ (integrator = "strang-exp" ∨ integrator = "lawson-rk4") ∧ (lr = true → eq = true) := by
  unfold setupOk
  by_cases h1 : integrator = "strang-exp"
  · subst h1; cases lr <;> cases eq <;> simp
  · by_cases h2 : integrator = "lawson-rk4"
    · subst h2; cases lr <;> cases eq <;> simp
    · simp [h1, h2]

/-! ### C111 -/

theorem foldl_sum {A : Type*} (f : A → ℝ) (l : List A) (s : ℝ) : l.foldl (fun tot q => tot + f q) s = s + (l.map f).sum := by
  induction l generalizing s with
  | nil => simp
  | cons a l ih => rw [List.foldl_cons, ih, List.map_cons, List.sum_cons]; ring

/-- Pulses add up, in any order; no pulse, no source. -/
theorem pulses_add (qs rs : List Pulse) (c : ℝ) (m : ℕ) (x : ℕ → ℝ) (t : ℝ) (i : ℕ) (ξ : ℝ) :
    transverse [] c m x t i = 0 ∧ transverse (qs ++ rs) c m x t i = transverse qs c m x t i + transverse rs c m x t i ∧
    (qs.Perm rs → transverse qs c m x t i = transverse rs c m x t i) ∧
    longitudinal [] ξ t = 0 ∧ longitudinal (qs ++ rs) ξ t = longitudinal qs ξ t + longitudinal rs ξ t ∧ (qs.Perm rs → longitudinal qs ξ t = longitudinal rs ξ t) := by
  simp only [transverse, longitudinal, foldl_sum, zero_add, List.map_nil, List.sum_nil, List.map_append, List.sum_append, true_and]
  exact ⟨fun h => (h.map _).sum_eq, fun h => (h.map _).sum_eq⟩

/-- The window of a pulse: with rise zero, one inside and zero outside; with a positive rise, strictly
between minus one and one, and not negative inside. -/
theorem window_spec (rise l r y : ℝ) (h : l < r) :
    (rise = 0 → (l < y → y < r → window rise l r y = 1) ∧ (y < l ∨ r < y → window rise l r y = 0)) ∧
    (0 < rise → |window rise l r y| < 1 ∧ (l ≤ y → y ≤ r → 0 ≤ window rise l r y)) := by
  constructor
  · intro h0
    rw [window, if_pos h0]
    refine ⟨fun a b => ?_, fun a => ?_⟩
    · rw [edge, edge, if_neg (by linarith), if_pos (by linarith), if_pos (by linarith)]; norm_num
    · rcases a with a | a
      · rw [edge, edge, if_pos (by linarith), if_pos (by linarith)]; norm_num
      · rw [edge, edge, if_neg (by linarith), if_pos (by linarith), if_neg (by linarith), if_pos (by linarith)]; norm_num
  · intro h0
    rw [window, if_neg h0.ne']
    exact Driver.getEnvelope_inside rise rise l r y h0 h0

/-- One pulse of the longitudinal driver: the travelling wave `w a0 sin(k0 x - w t)` in its window. -/
theorem longitudinal_pulse (q : Pulse) (x t : ℝ) :
    longitudinal [q] x t = window q.tRise (q.tCenter - q.tHalf) (q.tCenter + q.tHalf) t * window q.xRise (q.xCenter - q.xHalf) (q.xCenter + q.xHalf) x *
      (q.w * q.a0 * Real.sin (q.k0 * x - q.w * t)) := by
  simp only [longitudinal, foldl_sum, List.map_cons, List.map_nil, List.sum_cons, List.sum_nil]; ring

/-- A pulse is refused exactly when it is extended and its envelope has no positive integral. -/
theorem pulse_refused (q : Pulse) (m : ℕ) (x : ℕ → ℝ) :
    q.ok m x = .ok () ↔ q.point = true ∨ 0 < ∑ i ∈ range (m - 1), (x (i + 1) - x i) * (q.envX x i + q.envX x (i + 1)) / 2 := by
  unfold Pulse.ok
  by_cases h : q.point = true
  · simp [h]
  · rw [if_neg h, or_iff_right h, ← not_le]
    by_cases h' : trapezoid m x (q.envX x) ≤ 0
    · rw [if_pos h']; exact ⟨fun e => (by cases e), fun e => absurd h' e⟩
    · rw [if_neg h']; exact ⟨fun _ => h', fun _ => rfl⟩

/-- The wave radiated to both sides by one point that oscillates as `s sin(φ - w t)`, on the grid. -/
noncomputable def radiated (w : Wave.Solver) (κ ω s φ : ℝ) (i0 : ℕ) (t : ℝ) (i : ℕ) : ℝ :=
  s * w.dx ^ 2 / (2 * w.c ^ 2 * Real.sin κ) * Real.cos (κ * |(i : ℝ) - i0| - ω * t + φ)

/-- The radiated wave satisfies the difference equation of the solver, source included, whenever `κ` and
`ω` satisfy the grid's vacuum dispersion relation. -/
theorem radiated_solves (w : Wave.Solver) (hc : w.c ≠ 0) (hdt : w.dt ≠ 0) (hdx : w.dx ≠ 0) (κ ω : ℝ) (hκ : Real.sin κ ≠ 0)
    (hdisp : 2 * (1 - Real.cos (ω * w.dt)) / w.dt ^ 2 = w.c ^ 2 * (2 * (1 - Real.cos κ) / w.dx ^ 2)) (s φ : ℝ) (i0 : ℕ) (t : ℝ) (i : ℕ) (hi : 1 ≤ i) :
    2 * radiated w κ ω s φ i0 t i - radiated w κ ω s φ i0 (t - w.dt) i + w.dt ^ 2 *
      (w.c ^ 2 * ((radiated w κ ω s φ i0 t (i - 1) - 2 * radiated w κ ω s φ i0 t i + radiated w κ ω s φ i0 t (i + 1)) / w.dx ^ 2)
        + (if i = i0 then s * Real.sin (φ - ω * t) else 0)) = radiated w κ ω s φ i0 (t + w.dt) i := by
  obtain ⟨B, hB⟩ : ∃ B, B = s * w.dx ^ 2 / (2 * w.c ^ 2 * Real.sin κ) := ⟨_, rfl⟩
  have hr : ∀ t i, radiated w κ ω s φ i0 t i = B * Real.cos (κ * |(i : ℝ) - i0| - ω * t + φ) := fun t i => by rw [radiated, ← hB]
  have hs : s = 2 * w.c ^ 2 * Real.sin κ * B / w.dx ^ 2 := by rw [hB]; field_simp
  have hdisp' : Real.cos (ω * w.dt) = 1 - w.dt ^ 2 * (w.c ^ 2 * ((1 - Real.cos κ) / w.dx ^ 2)) := by
    have h2 : w.dt ^ 2 ≠ 0 := pow_ne_zero 2 hdt
    have := congrArg (fun z => z * w.dt ^ 2 / 2) hdisp
    rw [div_mul_cancel₀ _ h2] at this
    linear_combination -this
  simp only [hr]
  have htime : ∀ θ : ℝ, Real.cos (θ - ω * (t - w.dt) + φ) + Real.cos (θ - ω * (t + w.dt) + φ) = 2 * Real.cos (ω * w.dt) * Real.cos (θ - ω * t + φ) := by
    intro θ
    rw [show θ - ω * (t - w.dt) + φ = (θ - ω * t + φ) + ω * w.dt by ring, show θ - ω * (t + w.dt) + φ = (θ - ω * t + φ) - ω * w.dt by ring,
      Real.cos_add, Real.cos_sub]; ring
  have hcast : ((i - 1 : ℕ) : ℝ) = (i : ℝ) - 1 := by rw [Nat.cast_sub hi]; simp
  rw [hcast, Nat.cast_add, Nat.cast_one]
  have key : w.dt ^ 2 * (w.c ^ 2 * ((B * Real.cos (κ * |(i : ℝ) - 1 - i0| - ω * t + φ) - 2 * (B * Real.cos (κ * |(i : ℝ) - i0| - ω * t + φ)) +
      B * Real.cos (κ * |(i : ℝ) + 1 - i0| - ω * t + φ)) / w.dx ^ 2) + (if i = i0 then s * Real.sin (φ - ω * t) else 0)) =
      w.dt ^ 2 * (w.c ^ 2 * (B * (-2 * (1 - Real.cos κ) * Real.cos (κ * |(i : ℝ) - i0| - ω * t + φ)) / w.dx ^ 2)) := by
    rcases lt_trichotomy i i0 with h | h | h
    · have hR : (i : ℝ) + 1 ≤ i0 := by exact_mod_cast h
      rw [if_neg h.ne, abs_of_nonpos (by linarith), abs_of_nonpos (by linarith), abs_of_nonpos (by linarith)]
      have := Real.cos_add (κ * -((i : ℝ) - i0) - ω * t + φ) κ
      have h2 := Real.cos_sub (κ * -((i : ℝ) - i0) - ω * t + φ) κ
      rw [show κ * -((i : ℝ) - 1 - i0) - ω * t + φ = (κ * -((i : ℝ) - i0) - ω * t + φ) + κ by ring,
        show κ * -((i : ℝ) + 1 - i0) - ω * t + φ = (κ * -((i : ℝ) - i0) - ω * t + φ) - κ by ring, this, h2]; ring
    · subst h
      rw [if_pos rfl, sub_self, abs_zero, show (i : ℝ) - 1 - i = -1 by ring, show (i : ℝ) + 1 - i = 1 by ring, abs_neg, abs_one, hs]
      rw [show κ * 1 - ω * t + φ = (φ - ω * t) + κ by ring, show κ * 0 - ω * t + φ = φ - ω * t by ring, Real.cos_add]
      field_simp; ring
    · have hR : (i0 : ℝ) + 1 ≤ i := by exact_mod_cast h
      rw [if_neg h.ne', abs_of_nonneg (by linarith), abs_of_nonneg (by linarith), abs_of_nonneg (by linarith)]
      have := Real.cos_add (κ * ((i : ℝ) - i0) - ω * t + φ) κ
      have h2 := Real.cos_sub (κ * ((i : ℝ) - i0) - ω * t + φ) κ
      rw [show κ * ((i : ℝ) - 1 - i0) - ω * t + φ = (κ * ((i : ℝ) - i0) - ω * t + φ) - κ by ring,
        show κ * ((i : ℝ) + 1 - i0) - ω * t + φ = (κ * ((i : ℝ) - i0) - ω * t + φ) + κ by ring, this, h2]; ring
  rw [key]
  have := htime (κ * |(i : ℝ) - i0|)
  rw [hdisp'] at this
  linear_combination (-B) * this

/-- The same with any set of radiating points: their waves add up. -/
theorem antenna_solves (w : Wave.Solver) (hc : 0 < w.c) (hdt : w.dt ≠ 0) (hdx : w.dx ≠ 0) (κ ω : ℝ) (hκ : Real.sin κ ≠ 0)
    (hdisp : 2 * (1 - Real.cos (ω * w.dt)) / w.dt ^ 2 = w.c ^ 2 * (2 * (1 - Real.cos κ) / w.dx ^ 2)) (nx : ℕ) (J : Finset ℕ) (s φ : ℕ → ℝ) (t : ℝ)
    (src : ℕ → ℝ) (hsrc : ∀ i, 1 ≤ i → i ≤ nx → src i = if i ∈ J then s i * Real.sin (φ i - ω * t) else 0) (i : ℕ) (h1 : 1 ≤ i) (h2 : i ≤ nx) :
    (w.step nx (fun i => ∑ j ∈ J, radiated w κ ω (s j) (φ j) j t i) (fun i => ∑ j ∈ J, radiated w κ ω (s j) (φ j) j (t - w.dt) i) src fun _ => 0).1 i =
      ∑ j ∈ J, radiated w κ ω (s j) (φ j) j (t + w.dt) i := by
  have hint : w.interior (fun i => ∑ j ∈ J, radiated w κ ω (s j) (φ j) j t i) (fun i => ∑ j ∈ J, radiated w κ ω (s j) (φ j) j (t - w.dt) i) src (fun _ => 0) i =
      ∑ j ∈ J, radiated w κ ω (s j) (φ j) j (t + w.dt) i := by
    have e : ∀ j ∈ J, radiated w κ ω (s j) (φ j) j (t + w.dt) i = _ := fun j _ => (radiated_solves w hc.ne' hdt hdx κ ω hκ hdisp (s j) (φ j) j t i h1).symm
    rw [Finset.sum_congr rfl e]
    simp only [Wave.Solver.interior, zero_mul, sub_zero]
    rw [hsrc i h1 h2]
    have hsum : (∑ j ∈ J, if i = j then s j * Real.sin (φ j - ω * t) else 0) = if i ∈ J then s i * Real.sin (φ i - ω * t) else 0 := by
      rw [Finset.sum_ite_eq]
    rw [← hsum]
    simp only [Finset.sum_add_distrib, Finset.sum_sub_distrib, ← Finset.mul_sum, ← Finset.sum_div]
  unfold Wave.Solver.step
  rw [if_pos hc]
  simp only
  rw [if_neg (by omega), if_neg (by omega), hint]

/-- The point source: while its time envelope is `E`, in vacuum, it sustains a wave travelling away from it on both
sides, whose amplitude is `a0 E` times `(w dx / c) / sin κ`, which tends to `a0` as the grid is refined. -/
theorem point_antenna (w : Wave.Solver) (hc : 0 < w.c) (hdt : w.dt ≠ 0) (hdx : w.dx ≠ 0) (q : Pulse) (hq : q.point = true) (κ : ℝ) (hκ : Real.sin κ ≠ 0)
    (hdisp : 2 * (1 - Real.cos (q.w * w.dt)) / w.dt ^ 2 = w.c ^ 2 * (2 * (1 - Real.cos κ) / w.dx ^ 2)) (nx m : ℕ) (x : ℕ → ℝ) (hx : x 1 - x 0 = w.dx) (t : ℝ)
    (E : ℝ) (ht : window q.tRise (q.tCenter - q.tHalf) (q.tCenter + q.tHalf) t = E) (i0 : ℕ) (hi0 : i0 = Driver.nearest q.xCenter ((List.range m).map x)) :
    ∀ i, 1 ≤ i → i ≤ nx →
    (w.step nx (fun i => -(q.a0 * E * (q.w * w.dx / w.c / Real.sin κ)) * Real.cos (κ * |(i : ℝ) - i0| - q.w * t))
      (fun i => -(q.a0 * E * (q.w * w.dx / w.c / Real.sin κ)) * Real.cos (κ * |(i : ℝ) - i0| - q.w * (t - w.dt))) (q.source w.c m x t) fun _ => 0).1 i =
      -(q.a0 * E * (q.w * w.dx / w.c / Real.sin κ)) * Real.cos (κ * |(i : ℝ) - i0| - q.w * (t + w.dt)) := by
  intro i h1 h2
  have h := antenna_solves w hc hdt hdx κ q.w hκ hdisp nx {i0} (fun _ => -(2 * q.w * w.c * (q.a0 * E) / w.dx)) (fun _ => 0) t (q.source w.c m x t) (by
    intro i _ _
    rw [Pulse.source]
    simp only [hq, if_true, ht, ← hi0, hx, Finset.mem_singleton]
    split_ifs
    · rw [zero_sub, Real.sin_neg]; ring
    · ring) i h1 h2
  have e : ∀ t i, radiated w κ q.w (-(2 * q.w * w.c * (q.a0 * E) / w.dx)) 0 i0 t i = -(q.a0 * E * (q.w * w.dx / w.c / Real.sin κ)) * Real.cos (κ * |(i : ℝ) - i0| - q.w * t) := by
    intro t i
    rw [radiated, add_zero]
    congr 1
    field_simp
  simpa only [Finset.sum_singleton, e] using h

/-- The amplitude of the point source tends to `a0`. -/
theorem point_amplitude (a0 : ℝ) : Filter.Tendsto (fun κ : ℝ => a0 * (κ / Real.sin κ)) (nhdsWithin 0 {0}ᶜ) (nhds a0) := by
  have h : Filter.Tendsto (fun κ : ℝ => Real.sin κ / κ) (nhdsWithin 0 {0}ᶜ) (nhds 1) := by
    have := (Real.hasDerivAt_sin 0).tendsto_slope
    rw [Real.cos_zero] at this
    refine this.congr fun κ => ?_
    rw [slope_def_field, Real.sin_zero, sub_zero, sub_zero]
  have h2 := (h.inv₀ one_ne_zero).const_mul a0
  rw [inv_one, mul_one] at h2
  exact h2.congr fun κ => by rw [inv_div]

/-- The extended source: its strength, integrated over the grid, is that of the point source whatever
the envelope. -/
theorem extended_strength (q : Pulse) (hq : q.point = false) (c : ℝ) (hw : q.w ≠ 0) (m : ℕ) (x : ℕ → ℝ) (hok : q.ok m x = .ok ()) :
    ∃ amp : ℝ, (∀ t i, q.source c m x t i = window q.tRise (q.tCenter - q.tHalf) (q.tCenter + q.tHalf) t * (amp * q.envX x i) * Real.sin (q.k0 * x i - q.w * t)) ∧
      ∑ i ∈ range (m - 1), (x (i + 1) - x i) * (amp * q.envX x i + amp * q.envX x (i + 1)) / 2 = -(2 * q.w * c * q.a0) := by
  have hG : 0 < trapezoid m x (q.envX x) := by
    rcases (pulse_refused q m x).1 hok with h | h
    · rw [hq] at h; cases h
    · exact h
  refine ⟨-(q.w ^ 2) * q.a0 * (2 * c / (q.w * trapezoid m x (q.envX x))), fun t i => ?_, ?_⟩
  · rw [Pulse.source]; simp only [hq, Bool.false_eq_true, if_false]; ring
  · have e : ∀ amp, ∑ i ∈ range (m - 1), (x (i + 1) - x i) * (amp * q.envX x i + amp * q.envX x (i + 1)) / 2 = amp * trapezoid m x (q.envX x) := by
      intro amp; rw [trapezoid, Finset.mul_sum]; exact Finset.sum_congr rfl fun i _ => by ring
    rw [e]
    have := hG.ne'
    field_simp

/-- The extended source, while its time envelope is `E`, in vacuum, with its wave number matched to its frequency on
the grid: it sustains a wave that at the right end of the box has the amplitude `a0 E` times
`(w dx / c) / sin(k0 dx)`, reduced only by the part of the envelope in the two boundary points. -/
theorem extended_antenna (w : Wave.Solver) (hc : 0 < w.c) (hdt : w.dt ≠ 0) (hdx : 0 < w.dx) (q : Pulse) (hq : q.point = false) (hw : q.w ≠ 0)
    (hκ : Real.sin (q.k0 * w.dx) ≠ 0)
    (hdisp : 2 * (1 - Real.cos (q.w * w.dt)) / w.dt ^ 2 = w.c ^ 2 * (2 * (1 - Real.cos (q.k0 * w.dx)) / w.dx ^ 2)) (nx : ℕ) (x : ℕ → ℝ)
    (hx : ∀ i, x i = x 0 + i * w.dx) (hok : q.ok (nx + 2) x = .ok ()) :
    ∃ (a : ℝ → ℝ → ℕ → ℝ) (lost : ℝ), lost = w.dx * (q.envX x 0 + q.envX x (nx + 1)) / 2 / trapezoid (nx + 2) x (q.envX x) ∧
      (∀ E t, a E t nx = -(q.a0 * E * (q.w * w.dx / w.c / Real.sin (q.k0 * w.dx)) * (1 - lost)) * Real.cos (q.k0 * x nx - q.w * t)) ∧
      ∀ E t, window q.tRise (q.tCenter - q.tHalf) (q.tCenter + q.tHalf) t = E → ∀ i, 1 ≤ i → i ≤ nx →
        (w.step nx (a E t) (a E (t - w.dt)) (q.source w.c (nx + 2) x t) fun _ => 0).1 i = a E (t + w.dt) i := by
  have hG : 0 < trapezoid (nx + 2) x (q.envX x) := by
    rcases (pulse_refused q (nx + 2) x).1 hok with h | h
    · rw [hq] at h; cases h
    · exact h
  obtain ⟨G, hGe⟩ : ∃ G, G = trapezoid (nx + 2) x (q.envX x) := ⟨_, rfl⟩
  rw [← hGe] at hG
  obtain ⟨amp, hamp⟩ : ∃ amp, amp = -(q.w ^ 2) * q.a0 * (2 * w.c / (q.w * G)) := ⟨_, rfl⟩
  refine ⟨fun E t i => ∑ j ∈ Finset.Icc 1 nx, radiated w (q.k0 * w.dx) q.w (E * amp * q.envX x j) (q.k0 * x j) j t i,
    w.dx * (q.envX x 0 + q.envX x (nx + 1)) / 2 / G, by rw [hGe], fun E t => ?_, fun E t ht i h1 h2 => ?_⟩
  · have hsum : w.dx * ∑ j ∈ Finset.Icc 1 nx, q.envX x j = G - w.dx * (q.envX x 0 + q.envX x (nx + 1)) / 2 := by
      have hd : ∀ i, x (i + 1) - x i = w.dx := fun i => by rw [hx (i + 1), hx i]; push_cast; ring
      have e1 : G = w.dx / 2 * (∑ i ∈ range (nx + 1), q.envX x i + ∑ i ∈ range (nx + 1), q.envX x (i + 1)) := by
        rw [hGe, trapezoid, ← Finset.sum_add_distrib, Finset.mul_sum]
        exact Finset.sum_congr rfl fun i _ => by rw [hd]; ring
      have hIcc : ∑ j ∈ Finset.Icc 1 nx, q.envX x j = ∑ i ∈ range nx, q.envX x (i + 1) := by
        rw [← Finset.Ico_succ_right_eq_Icc, Finset.sum_Ico_eq_sum_range]
        simp [add_comm]
      have e2 : ∑ i ∈ range (nx + 1), q.envX x i = q.envX x 0 + ∑ j ∈ Finset.Icc 1 nx, q.envX x j := by
        rw [Finset.sum_range_succ', add_comm, hIcc]
      have e3 : ∑ i ∈ range (nx + 1), q.envX x (i + 1) = ∑ j ∈ Finset.Icc 1 nx, q.envX x j + q.envX x (nx + 1) := by
        rw [Finset.sum_range_succ, hIcc]
      rw [e1, e2, e3]; ring
    have e : ∀ j ∈ Finset.Icc 1 nx, radiated w (q.k0 * w.dx) q.w (E * amp * q.envX x j) (q.k0 * x j) j t nx =
        (E * amp * w.dx / (2 * w.c ^ 2 * Real.sin (q.k0 * w.dx)) * Real.cos (q.k0 * x nx - q.w * t)) * (w.dx * q.envX x j) := by
      intro j hj
      have hle : (j : ℝ) ≤ nx := by exact_mod_cast (Finset.mem_Icc.mp hj).2
      rw [radiated, abs_of_nonneg (by linarith), show q.k0 * w.dx * ((nx : ℝ) - j) - q.w * t + q.k0 * x j = q.k0 * x nx - q.w * t by
        rw [hx nx, hx j]; ring]
      ring
    beta_reduce
    rw [Finset.sum_congr rfl e, ← Finset.mul_sum, ← Finset.mul_sum, hsum, hamp]
    have := hG.ne'
    have := hc.ne'
    field_simp
  · refine antenna_solves w hc hdt hdx.ne' _ q.w hκ hdisp nx (Finset.Icc 1 nx) (fun j => E * amp * q.envX x j) (fun j => q.k0 * x j) t _ (fun i a b => ?_) i h1 h2
    rw [if_pos (Finset.mem_Icc.mpr ⟨a, b⟩), Pulse.source]
    simp only [hq, Bool.false_eq_true, if_false, ht, ← hGe, hamp]
    ring

/-! ### A concrete setup -/

/-- Electrons and ions of mass ratio 100, collisions, a filter and the 2/3 mask, on six cells. -/
noncomputable def demo (d : Eigh 5) (d' : Eigh 4) (strang lr : Bool) : Setup 5 4 6 where
  L := 10
  dt := 1 / 10
  dx := 10 / 6
  cLight := 1
  alphaE := 2
  alphaI := 1 / 2
  qmE := -1
  qmI := 1 / 100
  omega := 1
  eighE := d
  eighI := d'
  dampE := ⟨1, hyperCol 5, 0, some (2, fun i => if i.val ≤ 1 then 0 else 1)⟩
  dampI := ⟨1, hyperCol 4, 0, none⟩
  staticIons := false
  staticDensity := none
  mask := some (mask23 6)
  terms := 12
  strang := strang
  linearResponse := lr
  eqE := initialE 5 2 1 none
  eqI := initialE 4 (1 / 2) 1 none
  densityMax := some 2
  exDriver := fun _ _ => 0
  eyDriver := fun _ _ => 0
  noise := fun _ _ => 0
  spongePlasma := none
  spongeFields := none

theorem demo_built {d : Eigh 5} {d' : Eigh 4} (hd : IsEigh d (streamMatrix 5 2 0)) (hd' : IsEigh d' (streamMatrix 4 (1 / 2) 0)) (b l : Bool) :
    Built (demo d d' b l) where
  eE := ⟨_, hd⟩
  eI := ⟨_, hd'⟩
  mask0 := fun m h => by cases h; exact mask23_zero
  maskSymm := fun m h k => by cases h; exact mask23_symm k

theorem demo_isolated {d : Eigh 5} {d' : Eigh 4} (hd : IsEigh d (streamMatrix 5 2 0)) (hd' : IsEigh d' (streamMatrix 4 (1 / 2) 0)) (b : Bool) :
    Isolated (demo d d' b false) 1 100 where
  built := demo_built hd hd' b false
  moving := rfl
  selfConsistent := rfl
  electron := by norm_num [demo]
  ion := by norm_num [demo]
  alphaE := by norm_num [demo]
  alphaI := by norm_num [demo]
  exDriver := rfl
  eyDriver := rfl
  noise := rfl
  sponge := rfl
  nonlinear := rfl
  terms := by norm_num [demo]

theorem demo_keeps (d : Eigh 5) (d' : Eigh 4) (b l : Bool) :
    Keeps (demo d d' b l).dampE 0 ∧ Keeps (demo d d' b l).dampI 0 ∧ Keeps (demo d d' b l).dampE ⟨1, by norm_num⟩ ∧ Keeps (demo d d' b l).dampI ⟨1, by norm_num⟩ := by
  refine ⟨⟨?_, ?_⟩, ⟨?_, ?_⟩, ⟨?_, ?_⟩, ⟨?_, ?_⟩⟩ <;> simp [demo, hyperCol, filterRate]

/-- The run theorems apply to it: any state without light keeps its particles and its momentum, with
either integrator. -/
example (b : Bool) (y : State 5 4 6) (ha : y.a = fun _ => 0) (hp : y.prev = fun _ => 0) (m : ℕ) : ∃ d d', 
    (∑ x, density 2 ((demo d d' b false).run y m).c.1 x = ∑ x, density 2 y.c.1 x) ∧
    totalMomentum (by norm_num) (by norm_num) (demo d d' b false) 1 100 ((demo d d' b false).run y m).c =
      totalMomentum (by norm_num) (by norm_num) (demo d d' b false) 1 100 y.c := by
  obtain ⟨d, hd⟩ := eigh_exists 5 2 0
  obtain ⟨d', hd'⟩ := eigh_exists 4 (1 / 2) 0
  have k := demo_keeps d d' b false
  exact ⟨d, d', (run_particles _ (demo_built hd hd' b false) y m).1 k.1,
    run_momentum _ _ _ 1 100 (demo_isolated hd hd' b) k.2.2.1 k.2.2.2 y ha hp m⟩

/-- Its uniform state is an equilibrium. -/
example (b l : Bool) (m : ℕ) : ∃ d d', ((demo d d' b l).run ⟨(initialE 5 2 1 none, initialE 4 (1 / 2) 3 none), fun _ => 0, fun _ => 0, fun _ => 0, fun _ => 0, fun _ => 0⟩ m).c =
    (initialE 5 2 1 none, initialE 4 (1 / 2) 3 none) := by
  obtain ⟨d, hd⟩ := eigh_exists 5 2 0
  obtain ⟨d', hd'⟩ := eigh_exists 4 (1 / 2) 0
  have k := demo_keeps d d' b l
  have u : ∀ (n : ℕ) [NeZero n] (al n0 : ℝ), Uniform (N := 6) (initialE n al n0 none) := fun n _ al n0 i k h => by rw [initialE]; simp [h]
  exact ⟨d, d', (equilibrium _ (demo_built hd hd' b l) (fun _ h => by cases h) k.1 k.2.1 rfl rfl rfl _ (u _ _ _) (u _ _ _) rfl rfl m).1⟩

/-- A point source in the middle of a grid on which light crosses one cell per step. -/
example : ∃ (w : Wave.Solver) (q : Pulse) (κ : ℝ), 0 < w.c ∧ q.point = true ∧ Real.sin κ ≠ 0 ∧
    2 * (1 - Real.cos (q.w * w.dt)) / w.dt ^ 2 = w.c ^ 2 * (2 * (1 - Real.cos κ) / w.dx ^ 2) ∧
    window q.tRise (q.tCenter - q.tHalf) (q.tCenter + q.tHalf) 0 = 1 := by
  refine ⟨⟨1, 1, 1⟩, ⟨true, 2, 1, 1, 0, 5, 0, 3, 1, 0⟩, 1, by norm_num, rfl, (Real.sin_pos_of_pos_of_lt_pi one_pos ?_).ne', by norm_num, ?_⟩
  · linarith [Real.pi_gt_three]
  · exact ((window_spec 0 (0 - 5) (0 + 5) 0 (by norm_num)).1 rfl).1 (by norm_num) (by norm_num)

/-- An extended source on the same grid, accepted. -/
example : ∃ q : Pulse, q.point = false ∧ q.w ≠ 0 ∧ Real.sin (q.k0 * 1) ≠ 0 ∧ (2 * (1 - Real.cos (q.w * 1)) / 1 ^ 2 = 1 ^ 2 * (2 * (1 - Real.cos (q.k0 * 1)) / 1 ^ 2)) ∧
    q.ok (3 + 2) (fun i => 0 + i * 1) = .ok () := by
  refine ⟨⟨false, 2, 1, 1, 0, 5, 0, 2, 1 / 2, 0⟩, rfl, one_ne_zero, (Real.sin_pos_of_pos_of_lt_pi (by norm_num) ?_).ne', by norm_num, ?_⟩
  · linarith [Real.pi_gt_three]
  · rw [pulse_refused]
    right
    simp only [Pulse.envX, window, if_true, edge, Finset.sum_range_succ, Finset.sum_range_zero]
    norm_num
end Verif.Hermite
