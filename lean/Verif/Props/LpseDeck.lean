import Verif.Props.LpsePump

/-! C170-C172, C174, C180: driver modules, deck options, densities, units and saved quantities of the envelope solver. -/
namespace Verif.Lpse
open Finset Complex Verif.Spectral
open scoped ComplexConjugate

variable {nx ny : ℕ} [NeZero nx] [NeZero ny]

/-! ### C170 -/

theorem weight_pos (shape : String) (a dw : ℝ) (ha : 0 < a) : 0 < weight shape a dw := by
  unfold weight
  have hl := Real.log_pos (show (1 : ℝ) < 2 by norm_num)
  have hp := Real.pi_pos
  split
  · positivity
  split
  · positivity
  · exact one_pos

/-- C170: the colours' intensities are positive and add up to one, whatever the shape. -/
theorem intensities_one (shape : String) (a : ℝ) (num : ℕ) (ha : 0 < a) (hn : 0 < num) :
    (∑ i ∈ range num, normalised num (fun i => weight shape a (deltaOmega a num i)) i) = 1 ∧
    ∀ i, 0 < normalised num (fun i => weight shape a (deltaOmega a num i)) i := by
  have hpos : 0 < ∑ j ∈ range num, weight shape a (deltaOmega a num j) :=
    sum_pos (fun _ _ => weight_pos _ _ _ ha) (nonempty_range_iff.2 hn.ne')
  refine ⟨?_, fun i => div_pos (weight_pos _ _ _ ha) hpos⟩
  unfold normalised
  rw [← sum_div]
  exact div_self hpos.ne'

/-- C170: the full width at half maximum of the Gaussian and Lorentzian spectra is `delta_omega_max`, and the spectra are
largest at the centre. -/
theorem fwhm (shape : String) (a : ℝ) (ha : 0 < a) (h : shape = "gaussian" ∨ shape = "lorentzian") :
    weight shape a (a / 2) = weight shape a 0 / 2 ∧ weight shape a (-(a / 2)) = weight shape a 0 / 2 ∧
    ∀ dw, weight shape a (-dw) = weight shape a dw ∧ weight shape a dw ≤ weight shape a 0 := by
  have hl := Real.log_pos (show (1 : ℝ) < 2 by norm_num)
  have hp := Real.pi_pos
  have hexp : ∀ z : ℝ, z ^ 2 = 1 / 4 → Real.exp (-4 * Real.log 2 * z ^ 2) = 1 / 2 := by
    intro z hz
    rw [hz, show -4 * Real.log 2 * (1 / 4) = -Real.log 2 by ring, Real.exp_neg, Real.exp_log (by norm_num)]; norm_num
  rcases h with rfl | rfl
  · unfold weight
    simp only [if_pos]
    have e1 : (a / 2 / a) ^ 2 = 1 / 4 := by field_simp; norm_num
    have e2 : (-(a / 2) / a) ^ 2 = 1 / 4 := by field_simp; norm_num
    refine ⟨?_, ?_, fun dw => ⟨?_, ?_⟩⟩
    · rw [hexp _ e1]; norm_num; ring
    · rw [hexp _ e2]; norm_num; ring
    · rw [neg_div, neg_sq]
    · refine mul_le_mul_of_nonneg_left (Real.exp_le_exp.2 ?_) (by positivity)
      have := sq_nonneg (dw / a)
      norm_num
      nlinarith
  · unfold weight
    simp only [show ("lorentzian" = "gaussian") = False by decide, if_false, if_true]
    refine ⟨?_, ?_, fun dw => ⟨?_, ?_⟩⟩
    · field_simp; ring
    · rw [neg_sq]; field_simp; ring
    · rw [neg_sq]
    · refine div_le_div_of_nonneg_left (by positivity) (by positivity) ?_
      nlinarith [sq_nonneg dw]

/-- C170: the colours are symmetric about the laser frequency, increasing, from `-a` to `a`. -/
theorem colours_symmetric (a : ℝ) (num : ℕ) (hn : 2 ≤ num) (i : ℕ) (hi : i < num) :
    deltaOmega a num (num - 1 - i) = -deltaOmega a num i ∧ deltaOmega a num 0 = -a ∧ deltaOmega a num (num - 1) = a := by
  unfold deltaOmega Grid.linspaceAt
  have h1 : ¬ num ≤ 1 := by omega
  simp only [if_neg h1]
  have hne : ((num : ℝ) - 1) ≠ 0 := by
    have : (2 : ℝ) ≤ num := by exact_mod_cast hn
    linarith
  have e : ((num - 1 - i : ℕ) : ℝ) = (num : ℝ) - 1 - i := by
    rw [Nat.cast_sub (by omega), Nat.cast_sub (by omega)]; simp
  have e2 : ((num - 1 : ℕ) : ℝ) = (num : ℝ) - 1 := by rw [Nat.cast_sub (by omega)]; simp
  refine ⟨?_, by simp, ?_⟩
  · rw [e]; field_simp; ring
  · rw [e2]; field_simp; ring

/-- A single colour is not at the laser frequency but at the lower edge of the band. -/
theorem one_colour_partial (a : ℝ) : deltaOmega a 1 0 = -a := by unfold deltaOmega Grid.linspaceAt; simp

/-- C170: phases lie strictly inside one turn and all values of the trainable parameter are usable. -/
theorem phase_range (raw : ℝ) : -Real.pi < phaseOf raw ∧ phaseOf raw < Real.pi := by
  unfold phaseOf
  have h1 := Real.tanh_lt_one raw; have h2 := Real.neg_one_lt_tanh raw
  have hp := Real.pi_pos
  constructor <;> nlinarith

/-- C170: trainable intensities are positive whatever the parameter, with the documented dynamic ranges. -/
theorem activation_range (act : String) (x y : ℝ) (h : scaleIntensity act x = .ok y) :
    0 < y ∧ (act = "linear" → y < 1) ∧ (act = "log" → 1 / 1000 < y ∧ y < 1000) ∧ (act = "log-3wide" → 1 / 1000 < y ∧ y < 1) := by
  have h1 := Real.tanh_lt_one x; have h2 := Real.neg_one_lt_tanh x
  have ten : ∀ u v : ℝ, u < v → (10 : ℝ) ^ u < (10 : ℝ) ^ v := fun u v huv => Real.rpow_lt_rpow_of_exponent_lt (by norm_num) huv
  have e3 : (10 : ℝ) ^ (3 : ℝ) = 1000 := by norm_num
  have em3 : (10 : ℝ) ^ (-3 : ℝ) = 1 / 1000 := by rw [Real.rpow_neg (by norm_num), e3]; norm_num
  have e0 : (10 : ℝ) ^ (0 : ℝ) = 1 := Real.rpow_zero _
  unfold scaleIntensity at h
  split at h
  · rename_i ha
    cases h
    subst ha
    refine ⟨by linarith, fun _ => by linarith, fun c => (by simp at c), fun c => (by simp at c)⟩
  split at h
  · rename_i ha
    cases h
    subst ha
    refine ⟨by positivity, fun c => (by simp at c), fun _ => ⟨?_, ?_⟩, fun c => (by simp at c)⟩
    · rw [← em3]; exact ten _ _ (by linarith)
    · rw [← e3]; exact ten _ _ (by linarith)
  split at h
  · rename_i ha
    cases h
    subst ha
    refine ⟨by positivity, fun c => (by simp at c), fun c => (by simp at c), fun _ => ⟨?_, ?_⟩⟩
    · rw [← em3]; exact ten _ _ (by linarith)
    · rw [← e0]; exact ten _ _ (by linarith)
  · cases h

/-- C170: of the four advertised shapes three can pump; the trainable one cannot, and only the trainable one can be saved. -/
theorem shapes_partial : pumpRuns "uniform" = .ok () ∧ pumpRuns "gaussian" = .ok () ∧ pumpRuns "lorentzian" = .ok () ∧
    pumpRuns "arbitrary" = .error "IndexError" ∧
    ∀ s, (pumpRuns s = .ok () → saveDriver s = .error "AttributeError") ∧
      (s ≠ "uniform" → s ≠ "gaussian" → s ≠ "lorentzian" → s ≠ "arbitrary" → pumpRuns s = .error "NotImplementedError") := by
  refine ⟨by rfl, by rfl, by rfl, by rfl, fun s => ⟨fun h => ?_, fun h1 h2 h3 h4 => ?_⟩⟩
  · unfold saveDriver
    rw [if_neg]
    rintro rfl
    have : pumpRuns "arbitrary" = .error "IndexError" := by rfl
    rw [this] at h
    cases h
  · unfold pumpRuns intensityDims
    simp [h1, h2, h3, h4]

theorem hasSub_iff (s pat : List Char) : hasSub s pat = true ↔ pat <:+: s := by
  induction s with
  | nil =>
    unfold hasSub
    rw [List.infix_nil]
    cases pat <;> simp
  | cons c cs ih =>
    unfold hasSub
    rw [Bool.or_eq_true, ih, List.isPrefixOf_iff_prefix]
    exact List.infix_cons_iff.symm

/-- C170: the reader of a saved driver is chosen by what the whole path contains, not by its ending. -/
theorem load_dispatch (f : String) :
    (loadKind f = .ok "eqx" ↔ ¬ "://".toList <:+: f.toList ∧ ¬ "pkl".toList <:+: f.toList ∧ "eqx".toList <:+: f.toList) ∧
    (loadKind f = .ok "pickle" ↔ ¬ "://".toList <:+: f.toList ∧ "pkl".toList <:+: f.toList) ∧
    ("://".toList <:+: f.toList → loadKind f = .error "ValueError") := by
  unfold loadKind
  simp only [hasSub_iff]
  generalize "://".toList = A
  generalize "pkl".toList = B
  generalize "eqx".toList = C
  by_cases h1 : A <:+: f.toList <;> by_cases h2 : B <:+: f.toList <;> by_cases h3 : C <:+: f.toList <;> simp [h1, h2, h3]

/-- Witness: an `.eqx` file in a directory named after pickles is unpickled. -/
theorem load_misread_partial : loadKind "runs-pkl/laser.eqx" = .ok "pickle" := by
  unfold loadKind
  rw [if_neg (by decide +kernel), if_pos (by decide +kernel)]

/-! ### C171 -/

/-- C171: the solver looks at three switches only: decks that agree on them run identically, whatever they say about Raman
scattering, Landau damping, hyperviscosity, the zero mask and linearity. -/
theorem ignored_partial (p : Epw nx ny) (o o' : Terms) (h1 : o.tpd = o'.tpd) (h2 : o.noise = o'.noise) (h3 : o.densityGradient = o'.densityGradient)
    (l : Light nx ny) (pump : Option (Pump ny)) (s : State nx ny) (n : ℕ) :
    run (p.configure o) l pump s n = run (p.configure o') l pump s n := by
  have : p.configure o = p.configure o' := by unfold Epw.configure; rw [h1, h2, h3]
  rw [this]

theorem landau_pos (p : Epw nx ny) (hp : Physical p) (a : ZMod nx) (b : ZMod ny) (h : ¬(a = 0 ∧ b = 0)) : 0 < p.landau a b := by
  have hk : 0 < p.ksq a b := (ksq_pos_iff hp.dx.ne' hp.dy.ne' a b).2 h
  have hw := hp.wp0; have hv := hp.vte; have := Real.pi_pos
  unfold Epw.landau Epw.zeroMask
  simp only [if_pos hk]
  positivity

/-- C171 (violation): with `landau: false` waves are still Landau damped: no undamped wave is possible, whatever the deck says. -/
theorem landau_always_partial (p : Epw nx ny) (hp : Physical p) (o : Terms) (_h : o.landau = false) (a : ZMod nx) (b : ZMod ny)
    (hab : ¬(a = 0 ∧ b = 0)) (phi : Arr nx ny ℂ) (hphi : phi a b ≠ 0) (t : ℝ) (hdt : 0 < p.dt) (hn : o.noise = false) :
    ‖(p.configure o).linear t phi a b‖ < ‖phi a b‖ := by
  have hl := landau_pos p hp a b hab
  have hn0 := hp.nu
  unfold Epw.linear
  have e0 : (p.configure o).landau a b = p.landau a b := rfl
  have e1 : (p.configure o).noise = false := hn
  rw [e0, e1]
  simp only [Bool.false_eq_true, if_false, add_zero]
  rw [norm_mul, norm_mul, norm_mul]
  have e2 : ‖cexp (-I * ((1.5 * (p.configure o).vteSq / (p.configure o).wp0 * (p.configure o).ksq a b * (p.configure o).dt : ℝ) : ℂ))‖ = 1 := by
    rw [norm_exp]; simp
  have e3 : (p.configure o).lowPass a b = p.lowPass a b := rfl
  have e4 : (p.configure o).nuColl = p.nuColl := rfl
  have e5 : (p.configure o).dt = p.dt := rfl
  rw [e2, e3, e4, e5, norm_real, norm_real, mul_one, Real.norm_eq_abs, Real.norm_eq_abs, Real.abs_exp, abs_of_nonneg (hp.low a b).1]
  have hx : Real.exp (-(p.landau a b + p.nuColl) * p.dt) < 1 := by
    rw [Real.exp_lt_one_iff]; nlinarith
  have h0 := norm_pos_iff.2 hphi
  have hE := Real.exp_pos (-(p.landau a b + p.nuColl) * p.dt)
  calc ‖phi a b‖ * Real.exp (-(p.landau a b + p.nuColl) * p.dt) * p.lowPass a b
      ≤ ‖phi a b‖ * Real.exp (-(p.landau a b + p.nuColl) * p.dt) * 1 := by
        have := (hp.low a b).2; gcongr
    _ < ‖phi a b‖ := by rw [mul_one]; exact mul_lt_of_lt_one_right h0 hx

/-- C171: which driver sections start. -/
theorem drivers_required_partial (ds : List String) : (firstStep ds = .ok () ↔ "E0" ∈ ds ∧ "E2" ∉ ds) ∧
    ("E0" ∉ ds → firstStep ds = .error "KeyError") ∧ ("E0" ∈ ds → "E2" ∈ ds → firstStep ds = .error "AttributeError") := by
  unfold firstStep
  by_cases h : "E0" ∈ ds <;> by_cases h2 : "E2" ∈ ds <;> simp [h, h2]

/-! ### C172 -/

/-- C172: the linear profile has the requested scale length at quarter-critical density, wherever that is, spans the requested
densities, and the box has the length that makes it so. -/
theorem linear_scale (L nmin nmax : ℝ) (hL : 0 < L) (hn : nmin < nmax) :
    ∃ q, profile "linear" nmin nmax (linearLength L nmin nmax) 0 0 0 0 0 0 0 false = .ok (.full q) ∧
      q 0 = nmin ∧ q (linearLength L nmin nmax) = nmax ∧
      (∀ x, HasDerivAt q (0.25 / L) x) ∧ (∀ x, q x = 0.25 → q x / (0.25 / L) = L) := by
  have hn' : nmax - nmin ≠ 0 := by linarith
  have hd : 0 < nmax - nmin := by linarith
  have hl : linearLength L nmin nmax ≠ 0 := by
    have : 0 < linearLength L nmin nmax := by unfold linearLength; positivity
    exact this.ne'
  refine ⟨fun x => nmin + (nmax - nmin) * x / linearLength L nmin nmax, ?_, ?_, ?_, ?_, ?_⟩
  · unfold profile
    rw [if_neg (by decide), if_pos rfl]
  · simp
  · show nmin + (nmax - nmin) * linearLength L nmin nmax / linearLength L nmin nmax = nmax
    field_simp; ring
  · intro x
    have h := (((hasDerivAt_id x).const_mul (nmax - nmin)).div_const (linearLength L nmin nmax)).const_add nmin
    refine h.congr_deriv ?_
    unfold linearLength
    field_simp
  · intro x hx
    rw [hx]; field_simp

/-- C172 (violation): the uniform profile is a plasma at the critical density, where the pump cannot propagate (its swelling
factor is `0 ^ (-1/4)`), and not at the envelope density: plasma waves are detuned. -/
theorem uniform_critical_partial (a b c d e f g h i j : ℝ) (k : Bool) :
    profile "uniform" a b c d e f g h i j k = .ok (.full fun _ => 1) ∧
    (∀ w0 : ℝ, w0 ≠ 0 → 1 - (w0 * Real.sqrt 1) ^ 2 / w0 ^ 2 = 0) ∧
    ∀ wp0 env dt : ℝ, 0 < wp0 → 0 < env → env < 1 → 0 < dt → 0 < wp0 / 2 * (1 / env - 1) * dt := by
  refine ⟨?_, fun w0 hw => by rw [Real.sqrt_one]; field_simp; ring, fun wp0 env dt h1 h2 h3 h4 => ?_⟩
  · unfold profile; rw [if_pos rfl]
  · have : 1 < 1 / env := by rw [lt_div_iff₀ h2]; linarith
    have : 0 < 1 / env - 1 := by linarith
    positivity

/-- C172 (violation): the profiles that vary with `x` only in one dimension vary with `y` when the grid is square and cannot be
used when it is not. -/
theorem row_profile_partial (xs : ℕ → ℝ) (n : ℝ → ℝ) (i j i' : ℕ) :
    (nx = ny → densityAt nx ny xs (.row n) i j = .ok (n (xs j)) ∧ densityAt nx ny xs (.row n) i j = densityAt nx ny xs (.row n) i' j) ∧
    (nx ≠ ny → nx ≠ 1 → densityAt nx ny xs (.row n) i j = .error "TypeError") := by
  unfold densityAt
  refine ⟨fun h => ?_, fun h h1 => ?_⟩
  · simp [h]
  · simp [h, h1]

theorem row_profiles_partial (a b c d e f g h i j : ℝ) (k : Bool) : (∃ n, profile "tanh" a b c d e f g h i j k = .ok (.row n)) ∧
    (∃ n, profile "sine" a b c d e f g h i j k = .ok (.row n)) ∧ profile "exponential" a b c d e f g h i j k = .error "KeyError" := by
  refine ⟨?_, ?_, ?_⟩
  · unfold profile; rw [if_neg (by decide), if_neg (by decide), if_neg (by decide), if_pos rfl]; exact ⟨_, rfl⟩
  · unfold profile; rw [if_neg (by decide), if_neg (by decide), if_neg (by decide), if_neg (by decide), if_pos rfl]; exact ⟨_, rfl⟩
  · unfold profile; rw [if_neg (by decide), if_neg (by decide), if_pos rfl]

/-! ### C174 -/

/-- C174: the recorded maximum is attained and bounds every mode. -/
theorem maxPhi_spec (phi : Arr nx ny ℂ) : (∀ a b, ‖phi a b‖ ≤ maxPhi phi) ∧ ∃ a b, ‖phi a b‖ = maxPhi phi := by
  unfold maxPhi
  refine ⟨fun a b => le_sup' (fun k : ZMod nx × ZMod ny => ‖phi k.1 k.2‖) (mem_univ (a, b)), ?_⟩
  obtain ⟨k, _, hk⟩ := exists_mem_eq_sup' (univ_nonempty (α := ZMod nx × ZMod ny)) fun k => ‖phi k.1 k.2‖
  exact ⟨k.1, k.2, hk.symm⟩

/-- C174 (violation): the stored fields are the gradient of the stored potential multiplied by `4 / (nx ny)`. -/
theorem saved_scale_partial (p : Epw nx ny) (phi : Arr nx ny ℂ) (x : ZMod nx) (y : ZMod ny) :
    savedEx p.dx phi x y = 4 / ((nx : ℂ) * ny) * p.exOf phi x y ∧ savedEy p.dy phi x y = 4 / ((nx : ℂ) * ny) * p.eyOf phi x y := by
  have hx : (nx : ℂ) ≠ 0 := Nat.cast_ne_zero.2 (NeZero.ne nx)
  have hy : (ny : ℂ) ≠ 0 := Nat.cast_ne_zero.2 (NeZero.ne ny)
  unfold savedEx savedEy Epw.exOf Epw.eyOf
  constructor <;> field_simp

/-- C174: the energy computed from the stored fields differs from the recorded one by `(4 / (nx ny))^2`. -/
theorem saved_energy (p : Epw nx ny) (phi : Arr nx ny ℂ) :
    (∑ x, ∑ y, (‖savedEx p.dx phi x y‖ ^ 2 + ‖savedEy p.dy phi x y‖ ^ 2) * p.dx * p.dy) = (4 / (nx * ny : ℝ)) ^ 2 * eSq p.dx p.dy phi := by
  unfold eSq
  rw [mul_sum]
  refine sum_congr rfl fun x _ => ?_
  rw [mul_sum]
  refine sum_congr rfl fun y _ => ?_
  rw [(saved_scale_partial p phi x y).1, (saved_scale_partial p phi x y).2, norm_mul, norm_mul, mul_pow, mul_pow]
  have : ‖(4 : ℂ) / ((nx : ℂ) * ny)‖ = 4 / (nx * ny : ℝ) := by
    rw [norm_div, norm_mul, Complex.norm_natCast, Complex.norm_natCast]; norm_num
  rw [this]
  unfold Epw.exOf Epw.eyOf
  ring

/-- C174 (violation): a saved axis with a step different from the grid's has a spacing that is neither of the two. -/
theorem saved_axis_partial (n : ℕ) (xmax h : ℝ) (i : ℕ) (hn : 2 ≤ n) (hne : h ≠ xmax / n) :
    savedAxis n xmax h (i + 1) - savedAxis n xmax h i ≠ h ∧
    savedAxis n xmax h (i + 1) - savedAxis n xmax h i ≠ xmax / n := by
  unfold savedAxis Grid.linspaceAt
  have h1 : ¬ n ≤ 1 := by omega
  have hn2 : (2 : ℝ) ≤ n := by exact_mod_cast hn
  have hm : (n : ℝ) - 1 ≠ 0 := by linarith
  have hn0 : (n : ℝ) ≠ 0 := by linarith
  simp only [if_neg h1]
  have e : h / 2 + ((i + 1 : ℕ) : ℝ) * ((xmax - h / 2 - h / 2) / ((n : ℝ) - 1)) - (h / 2 + (i : ℝ) * ((xmax - h / 2 - h / 2) / ((n : ℝ) - 1))) =
      (xmax - h) / ((n : ℝ) - 1) := by push_cast; field_simp; ring
  rw [e]
  constructor
  · intro hc
    rw [div_eq_iff hm] at hc
    apply hne
    rw [eq_div_iff hn0]; linarith
  · intro hc
    rw [div_eq_div_iff hm hn0] at hc
    apply hne
    rw [eq_div_iff hn0]; linarith

/-- C174: with the grid's own step the axis is the grid's cell centres and nothing is interpolated. -/
theorem saved_axis_same (n : ℕ) (xmax : ℝ) (i : ℕ) : savedAxis n xmax (xmax / n) i = xAt n xmax i := rfl

/-- C174 (violation): potentials are stored as spectra but interpolated as if they were fields on the grid: a wave in one mode is
stored as two. -/
theorem spectrum_interpolated_partial : ∃ f : ℕ → ℂ, f 1 = 1 ∧ (∀ i, i ≠ 1 → f i = 0) ∧
    savedInterp 4 (xAt 4 4) f (savedAxis 4 4 2 1) ≠ 0 ∧ savedInterp 4 (xAt 4 4) f (savedAxis 4 4 2 2) ≠ 0 := by
  refine ⟨fun i => if i = 1 then 1 else 0, by simp, fun i hi => by simp [hi], ?_, ?_⟩
  · have hq : savedAxis 4 4 2 1 = 5 / 3 := by unfold savedAxis Grid.linspaceAt; norm_num
    have hf : ((List.range (4 - 1)).filter fun i => decide (xAt 4 4 i ≤ 5 / 3)).length - 1 = 1 := by
      simp [List.range_succ, xAt, Grid.linspaceAt]
      norm_num
    rw [hq]
    unfold savedInterp
    rw [hf]
    simp [xAt, Grid.linspaceAt]
    norm_num
  · have hq : savedAxis 4 4 2 2 = 7 / 3 := by unfold savedAxis Grid.linspaceAt; norm_num
    have hf : ((List.range (4 - 1)).filter fun i => decide (xAt 4 4 i ≤ 7 / 3)).length - 1 = 1 := by
      simp [List.range_succ, xAt, Grid.linspaceAt]
      norm_num
    rw [hq]
    unfold savedInterp
    rw [hf]
    simp [xAt, Grid.linspaceAt]
    norm_num

/-- C174: stored fields can be written in a 32-bit process; in a 64-bit process never. -/
theorem fields_written_partial (ny : ℕ) (h : 0 < ny) : makeFields false ny = .ok () ∧ makeFields true ny = .error "ValueError" := by
  unfold makeFields viewColumns
  refine ⟨if_pos ?_, if_neg ?_⟩
  · simp only [Bool.false_eq_true, if_false]; omega
  · simp only [if_true]; omega

/-! ### C180 -/

/-- C180: the derived quantities mean what they say: the vacuum field carries the configured intensity, the reference plasma
frequency is that of the envelope density, the thermal speed that of the temperature. -/
theorem units_meaning (cC mC eC Te lam I0 env : ℝ) (hc : 0 < cC) (hm : 0 < mC) (he : 0 < eC) (hT : 0 ≤ Te) (hl : 0 < lam) (hI : 0 ≤ I0) (hv : 0 ≤ env) :
    let u := units cC mC eC Te lam I0 env
    cC * (u.E0 * u.fieldScale) ^ 2 / (8 * Real.pi) = I0 * 1e7 ∧
    u.wp0 ^ 2 = 4 * Real.pi * (u.nc * env) * u.e ^ 2 / u.me ∧
    u.w0 ^ 2 = 4 * Real.pi * u.nc * u.e ^ 2 / u.me ∧
    u.vteSq / u.c ^ 2 = Te / 511 ∧ u.w0 * lam = 2 * Real.pi * u.c := by
  have hp := Real.pi_pos
  intro u
  have hcs : (0 : ℝ) < (1e-4 : ℝ) ^ (3 / 2 : ℝ) := by positivity
  have hfs : (0 : ℝ) < (1e-4 : ℝ) ^ (1 / 2 : ℝ) := by positivity
  obtain ⟨q, hq⟩ : ∃ q : ℝ, q = (1e-4 : ℝ) ^ (3 / 2 : ℝ) := ⟨_, rfl⟩
  obtain ⟨r, hr⟩ : ∃ r : ℝ, r = (1e-4 : ℝ) ^ (1 / 2 : ℝ) := ⟨_, rfl⟩
  rw [← hq] at hcs
  rw [← hr] at hfs
  have hc0 : 0 < u.c := by simp only [u, units]; positivity
  have he0 : 0 < u.e := by simp only [u, units]; rw [← hq]; positivity
  have hw : u.w0 = 2 * Real.pi * u.c / lam := rfl
  have hw0 : 0 < u.w0 := by rw [hw]; positivity
  have hme : u.me = mC := rfl
  have hnc : u.nc = u.w0 ^ 2 * u.me / (4 * Real.pi * u.e ^ 2) := rfl
  have hwp : u.wp0 = u.w0 * Real.sqrt env := rfl
  have hvt : u.vteSq = (u.c * Real.sqrt (Te / 511)) ^ 2 := rfl
  have hF : u.fieldScale = 1 / r / 1e-12 := by rw [hr]; rfl
  have hE : u.E0 = Real.sqrt (8 * Real.pi * I0 * 1e7 / cC) / u.fieldScale := rfl
  have hFpos : u.fieldScale ≠ 0 := by rw [hF]; positivity
  have hme0 : 0 < u.me := by rw [hme]; exact hm
  refine ⟨?_, ?_, ?_, ?_, ?_⟩
  · rw [hE, div_mul_cancel₀ _ hFpos, Real.sq_sqrt (by positivity)]
    field_simp
  · rw [hwp, hnc, mul_pow, Real.sq_sqrt hv]; field_simp
  · rw [hnc]; field_simp
  · rw [hvt, mul_pow, Real.sq_sqrt (by positivity)]; field_simp
  · rw [hw]; field_simp

/-- C180 (violation): the collision rate and the reported Coulomb logarithm use different temperature thresholds, `0.01 Z^2` and
`10 Z^2` eV; between them they use different formulas. -/
theorem log_mismatch_partial (T Z : ℝ) (h1 : 0.01 * Z ^ 2 < T) (h2 : T < 10 * Z ^ 2) : logLambdaBranch T Z = some false ∧ coulombBranch T Z = true := by
  unfold logLambdaBranch coulombBranch
  refine ⟨?_, by simp [h2]⟩
  rw [if_neg (not_lt.2 h1.le), if_pos h1]

/-- C180: which `collisions` values are accepted. -/
theorem collisions_accepted_partial (v : Coll) (T Z : ℝ) (f : Bool → ℝ) :
    (∀ e, nuColl v T Z f = .error e → e = "UnboundLocalError") ∧
    (nuColl v T Z f = .error "UnboundLocalError" ↔ (∃ n : ℤ, n ≠ 0 ∧ v = .int n) ∨ (v = .bool true ∧ T = 0.01 * Z ^ 2)) := by
  have hu : logLambdaBranch T Z = none ↔ T = 0.01 * Z ^ 2 := by
    unfold logLambdaBranch
    constructor
    · intro h
      split at h; · cases h
      split at h; · cases h
      rename_i a b
      exact le_antisymm (not_lt.1 b) (not_lt.1 a)
    · intro h; rw [if_neg (by rw [h]; exact lt_irrefl _), if_neg (by rw [h]; exact lt_irrefl _)]
  match v with
  | .bool true =>
    unfold nuColl
    simp only
    rcases hb : logLambdaBranch T Z with _ | b
    · have := hu.1 hb
      simp [this]
    · have : T ≠ 0.01 * Z ^ 2 := fun e => by rw [hu.2 e] at hb; cases hb
      simp [this]
  | .bool false => unfold nuColl; simp
  | .float x => unfold nuColl; simp
  | .int n =>
    unfold nuColl
    by_cases h : n = 0 <;> simp [h]

end Verif.Lpse
