import Verif.Model.VfpCollisions
import Verif.Props.Collisions
import Verif.Props.Vfp
import Mathlib.Analysis.SpecialFunctions.Log.Deriv
import Mathlib.Analysis.Complex.ExponentialBounds
import Mathlib.Analysis.Real.Pi.Bounds

/-! VFP-1D collisions: C72-C75. -/
namespace Verif.Vfp
open Finset FP

/-! ### Names -/

/-- C72: the collision models and schemes a deck can name, and nothing else. -/
theorem model_names (s : String) :
    (Model.ofName s = .ok .coulombian ↔ s ∈ ["coulombian", "coulombiankernel", "coulombian_kernel", "coulombian-kernel", "landau"]) ∧
    (Model.ofName s = .ok .asymptotic ↔ s ∈ ["asymptoticlocal", "asymptotic_local", "asymptotic-local", "sqrt"]) ∧
    (Model.ofName s = .ok .fast ↔ s ∈ ["fastvfp", "fast_vfp", "fast-vfp"]) ∧
    (Model.ofName s = .ok .null ↔ s ∈ ["null", "none", "collisionless"]) ∧
    ((∀ m, Model.ofName s ≠ .ok m) → Model.ofName s = .error "ValueError") := by
  by_cases h : s ∈ ["coulombian", "coulombiankernel", "coulombian_kernel", "coulombian-kernel", "landau",
    "asymptoticlocal", "asymptotic_local", "asymptotic-local", "sqrt", "fastvfp", "fast_vfp", "fast-vfp", "null", "none", "collisionless"]
  · simp only [List.mem_cons, List.not_mem_nil, or_false] at h
    rcases h with rfl | rfl | rfl | rfl | rfl | rfl | rfl | rfl | rfl | rfl | rfl | rfl | rfl | rfl | rfl <;> simp [Model.ofName]
  · simp only [List.mem_cons, List.not_mem_nil, or_false, not_or] at h
    simp [Model.ofName, h]

theorem scheme_names (s : String) :
    (Scheme.ofName s = .ok .central ↔ s ∈ ["central", "central_differencing", "central-differencing"]) ∧
    (Scheme.ofName s = .ok .changCooper ↔ s ∈ ["chang_cooper", "chang-cooper", "cc"]) ∧
    (Scheme.ofName s = .ok .logMean ↔ s ∈ ["log_mean", "log-mean", "log_mean_flux", "logmean", "buet"]) ∧
    ((∀ m, Scheme.ofName s ≠ .ok m) → Scheme.ofName s = .error "ValueError") := by
  by_cases h : s ∈ ["central", "central_differencing", "central-differencing", "chang_cooper", "chang-cooper", "cc",
    "log_mean", "log-mean", "log_mean_flux", "logmean", "buet"]
  · simp only [List.mem_cons, List.not_mem_nil, or_false] at h
    rcases h with rfl | rfl | rfl | rfl | rfl | rfl | rfl | rfl | rfl | rfl | rfl <;> simp [Scheme.ofName]
  · simp only [List.mem_cons, List.not_mem_nil, or_false, not_or] at h
    simp [Scheme.ofName, h]

/-- Without a choice the run uses the Coulombian kernel with central differences. -/
theorem default_collisions : Model.ofName (modelName none) = .ok .coulombian ∧ Scheme.ofName (schemeName none) = .ok .central := by
  simp [Model.ofName, Scheme.ofName, modelName, schemeName]

/-! ### The grid -/

/-- A speed axis with cells of positive size. -/
def Grid.SpeedOk (g : Grid) : Prop := 2 ≤ g.nv ∧ 0 < g.vmax

theorem Grid.Ok.speed {g : Grid} (h : g.Ok) : g.SpeedOk := ⟨h.nv, h.v⟩

theorem dv_pos' {g : Grid} (h : g.SpeedOk) : 0 < g.dv := by
  have := h.1
  exact div_pos h.2 (by exact_mod_cast (by omega : 0 < g.nv))

theorem v_pos' {g : Grid} (h : g.SpeedOk) (j : ℕ) : 0 < g.v j := by
  have := dv_pos' h
  unfold Grid.v
  positivity

theorem v_succ (g : Grid) (e : ℕ) : g.v (e + 1) = g.v e + g.dv := by
  unfold Grid.v; push_cast; ring

theorem vEdge_pos {g : Grid} (h : g.SpeedOk) (e : ℕ) : 0 < g.vEdge e := by
  unfold Grid.vEdge
  have := v_pos' h e
  have := v_pos' h (e + 1)
  linarith

theorem dEps_eq (g : Grid) (e : ℕ) : g.dEps e = g.v (e + 1) ^ 2 - g.v e ^ 2 ∧ g.dEps e = 2 * g.vEdge e * g.dv := by
  unfold Grid.dEps Grid.vEdge
  rw [v_succ]
  constructor <;> ring

theorem dEps_pos {g : Grid} (h : g.SpeedOk) (e : ℕ) : 0 < g.dEps e := by
  rw [(dEps_eq g e).2]
  have := vEdge_pos h e
  have := dv_pos' h
  positivity

theorem sqrtEps_pos {g : Grid} (h : g.SpeedOk) (e : ℕ) : 0 < g.sqrtEps e := by
  have := v_pos' h e
  exact Real.sqrt_pos.2 (by positivity)

theorem sqrtEps_mono {g : Grid} (h : g.SpeedOk) {a b : ℕ} (hab : a ≤ b) : g.sqrtEps a ≤ g.sqrtEps b := by
  have hd := dv_pos' h
  have hv : ∀ {a b : ℕ}, a ≤ b → g.v a ≤ g.v b := by
    intro a b hab
    unfold Grid.v
    have : (a : ℝ) ≤ b := by exact_mod_cast hab
    nlinarith
  refine Real.sqrt_le_sqrt ?_
  have h1 := hv hab
  have h2 := hv (Nat.succ_le_succ hab)
  have := v_pos' h a
  have := v_pos' h (a + 1)
  have := pow_le_pow_left₀ (v_pos' h a).le h1 2
  have := pow_le_pow_left₀ (v_pos' h (a + 1)).le h2 2
  simp only [Nat.succ_eq_add_one] at *
  linarith

/-! ### Finite volumes -/

/-- Edge weights and diffusion of the three schemes. -/
noncomputable def Grid.weightOf (g : Grid) (s : Scheme) (C D f : ℕ → ℝ) : (ℕ → ℝ) × (ℕ → ℝ) :=
  match s with
  | .central => (fun _ => 1 / 2, D)
  | .changCooper => (fun e => ccDelta (C e * g.dv / safeD D e), safeD D)
  | .logMean => (fun e => ccDelta (-Real.log (max (f (e + 1)) (1 / 10 ^ 200) / max (f e) (1 / 10 ^ 200))), safeD D)

/-- Flux of a step that starts from `f`, evaluated on `x`. -/
noncomputable def Grid.f0Flux (g : Grid) (m : Model) (s : Scheme) (beta : ℝ) (h : Heating) (f x : ℕ → ℝ) : ℕ → ℝ :=
  let C := (g.coeffs m f beta).1
  let D := g.heat h (g.coeffs m f beta).2
  let w := g.weightOf s C D f
  flux C w.2 w.1 g.dv x

theorem f0_is_finite_volume (g : Grid) (m : Model) (s : Scheme) (nuee beta : ℝ) (h : Heating) (dt : ℝ) (f f' : ℕ → ℝ) :
    g.F0Step m s nuee beta h dt f f' ↔
      ImplicitStep g.nv (fun j => nuee / g.v j ^ 2) dt g.dv (g.f0Flux m s beta h f) f f' := by
  unfold Grid.F0Step Grid.f0Operator Grid.f0Flux Grid.weightOf
  cases s with
  | central => exact central_is_finite_volume ..
  | changCooper => exact chang_cooper_is_finite_volume ..
  | logMean => exact weighted_is_finite_volume ..

theorem f0_cell {g : Grid} (hg : g.SpeedOk) {m : Model} {s : Scheme} {nuee beta : ℝ} {h : Heating} {dt : ℝ} {f f' : ℕ → ℝ}
    (hs : g.F0Step m s nuee beta h dt f f') (j : ℕ) (hj : j < g.nv) :
    g.v j ^ 2 * f' j = g.v j ^ 2 * f j + dt * nuee / g.dv * netFlux g.nv (g.f0Flux m s beta h f f') j := by
  have := (f0_is_finite_volume ..).1 hs j hj
  have hv := (v_pos' hg j).ne'
  have hd := (dv_pos' hg).ne'
  rw [this]
  field_simp

/-- C72: collisions keep the density `4π ∫ f v² dv` of a cell exactly, for every model, scheme, rate,
heating and step size. -/
theorem f0_density (g : Grid) (hg : g.SpeedOk) (m : Model) (s : Scheme) (nuee beta : ℝ) (h : Heating) (dt : ℝ) (f f' : ℕ → ℝ)
    (hs : g.F0Step m s nuee beta h dt f f') :
    ∑ j ∈ range g.nv, g.v j ^ 2 * f' j * g.dv = ∑ j ∈ range g.nv, g.v j ^ 2 * f j * g.dv := by
  rw [← sum_mul, ← sum_mul]
  congr 1
  rw [sum_congr rfl fun j hj => f0_cell hg hs j (mem_range.1 hj), sum_add_distrib, ← mul_sum, sum_netFlux]
  ring

/-- The operator of a complete run conserves the density of each cell: the premise of
`step_number`. -/
theorem collide_conserves (g : Grid) (hg : g.SpeedOk) (m : Model) (s : Scheme) (nuee : ℝ) (beta : (ℕ → ℝ) → ℝ) (h : ℝ → ℝ → Heating)
    (c : Collide) (hc : ∀ Z ni f, g.F0Step m s nuee (beta f) (h Z ni) g.dt f (c.cee Z ni f)) : c.Conserves g :=
  fun Z ni f => f0_density g hg m s nuee _ _ g.dt f _ (hc Z ni f)

/-- The change of the energy moment in a step, as work of the fluxes. -/
theorem f0_energy (g : Grid) (hg : g.SpeedOk) (m : Model) (s : Scheme) (nuee beta : ℝ) (h : Heating) (dt : ℝ) (f f' : ℕ → ℝ)
    (hs : g.F0Step m s nuee beta h dt f f') :
    ∑ j ∈ range g.nv, g.v j ^ 4 * f' j = ∑ j ∈ range g.nv, g.v j ^ 4 * f j -
      dt * nuee / g.dv * ∑ e ∈ range (g.nv - 1), g.f0Flux m s beta h f f' e * g.dEps e := by
  have e : ∀ j ∈ range g.nv, g.v j ^ 4 * f' j = g.v j ^ 4 * f j + dt * nuee / g.dv * (g.v j ^ 2 * netFlux g.nv (g.f0Flux m s beta h f f') j) := by
    intro j hj
    have := f0_cell hg hs j (mem_range.1 hj)
    calc g.v j ^ 4 * f' j = g.v j ^ 2 * (g.v j ^ 2 * f' j) := by ring
      _ = _ := by rw [this]; ring
  rw [sum_congr rfl e, sum_add_distrib, ← mul_sum, sum_netFlux_mul, sub_eq_add_neg, ← mul_neg, ← sum_neg_distrib]
  congr 2
  refine sum_congr rfl fun k _ => ?_
  rw [(dEps_eq g k).1]; ring

/-- C72: with Chang-Cooper differences the result is unique and stays non-negative, whatever the
model, the heating or cooling and the step size. -/
theorem f0_chang_cooper (g : Grid) (hg : g.SpeedOk) (m : Model) (nuee beta : ℝ) (h : Heating) (dt : ℝ) (hn : 0 ≤ nuee) (hdt : 0 ≤ dt) (f : ℕ → ℝ) :
    (∃ f', g.F0Step m .changCooper nuee beta h dt f f') ∧
    (∀ f' f'', g.F0Step m .changCooper nuee beta h dt f f' → g.F0Step m .changCooper nuee beta h dt f f'' → ∀ j < g.nv, f' j = f'' j) ∧
    ((∀ j < g.nv, 0 ≤ f j) → ∀ f', g.F0Step m .changCooper nuee beta h dt f f' → ∀ j < g.nv, 0 ≤ f' j) := by
  have hnu : ∀ j < g.nv, 0 ≤ nuee / g.v j ^ 2 := fun j _ => div_nonneg hn (by positivity)
  refine ⟨(chang_cooper_unique g.nv g.dv _ _ _ dt (dv_pos' hg) hdt hnu f).1, (chang_cooper_unique g.nv g.dv _ _ _ dt (dv_pos' hg) hdt hnu f).2, ?_⟩
  intro hf f' hs
  exact chang_cooper_positive g.nv g.dv _ _ _ dt f f' (dv_pos' hg) hdt hnu hf hs

/-! ### Kernels -/

/-- The energy of a pair of edge fields. -/
noncomputable def Grid.pairing (g : Grid) (a b : ℕ → ℝ) : ℝ := ∑ e ∈ range (g.nv - 1), a e * b e * g.dEps e

/-- A symmetric kernel with positive entries. -/
structure Grid.Kernel (g : Grid) (K : (ℕ → ℝ) → ℕ → ℝ) (w : ℕ → ℕ → ℝ) : Prop where
  eq : ∀ val, ∀ e < g.nv - 1, K val e = ∑ j ∈ range (g.nv - 1), w e j * val j * g.dEps j
  symm : ∀ i < g.nv - 1, ∀ j < g.nv - 1, w i j = w j i
  pos : ∀ i < g.nv - 1, ∀ j < g.nv - 1, 0 < w i j

theorem coulombian_kernel (g : Grid) (hg : g.SpeedOk) :
    g.Kernel g.coulombianKernel fun i j => 4 * Real.pi / 3 * min (g.sqrtEps i ^ 3) (g.sqrtEps j ^ 3) := by
  refine ⟨fun val e he => ?_, fun i _ j _ => by rw [min_comm], fun i _ j _ => ?_⟩
  · unfold Grid.coulombianKernel
    rw [← sum_range_add_sum_Ico _ he.le]
    have h1 : ∀ j ∈ range e, 4 * Real.pi / 3 * min (g.sqrtEps e ^ 3) (g.sqrtEps j ^ 3) * val j * g.dEps j =
        4 * Real.pi / 3 * (g.sqrtEps j ^ 3 * val j * g.dEps j) := by
      intro j hj
      rw [min_eq_right (pow_le_pow_left₀ (sqrtEps_pos hg j).le (sqrtEps_mono hg (mem_range.1 hj).le) 3)]; ring
    have h2 : ∀ j ∈ Ico e (g.nv - 1), 4 * Real.pi / 3 * min (g.sqrtEps e ^ 3) (g.sqrtEps j ^ 3) * val j * g.dEps j =
        4 * Real.pi / 3 * g.sqrtEps e ^ 3 * (val j * g.dEps j) := by
      intro j hj
      rw [min_eq_left (pow_le_pow_left₀ (sqrtEps_pos hg e).le (sqrtEps_mono hg (mem_Ico.1 hj).1) 3)]; ring
    rw [sum_congr rfl h1, sum_congr rfl h2, ← mul_sum, ← mul_sum]
    dsimp only
    ring
  · have := Real.pi_pos
    have := sqrtEps_pos hg i
    have := sqrtEps_pos hg j
    positivity

theorem asymptotic_kernel (g : Grid) (hg : g.SpeedOk) :
    g.Kernel g.asymptoticKernel fun i j => 4 * Real.pi * (g.sqrtEps i * g.sqrtEps j) := by
  refine ⟨fun val e _ => ?_, fun i _ j _ => by ring, fun i _ j _ => ?_⟩
  · unfold Grid.asymptoticKernel
    rw [mul_sum, mul_sum]
    exact sum_congr rfl fun j _ => by ring
  · have := Real.pi_pos
    have := sqrtEps_pos hg i
    have := sqrtEps_pos hg j
    positivity

/-- C73: both kernels are symmetric: the field of `a` acting on `b` is that of `b` acting on `a`. -/
theorem kernel_symmetric (g : Grid) (hg : g.SpeedOk) (a b : ℕ → ℝ) :
    g.pairing (g.coulombianKernel a) b = g.pairing a (g.coulombianKernel b) ∧
    g.pairing (g.asymptoticKernel a) b = g.pairing a (g.asymptoticKernel b) := by
  have key : ∀ K w, g.Kernel K w → g.pairing (K a) b = g.pairing a (K b) := by
    intro K w hK
    unfold Grid.pairing
    have e1 : ∀ e ∈ range (g.nv - 1), K a e * b e * g.dEps e =
        ∑ j ∈ range (g.nv - 1), w e j * a j * g.dEps j * (b e * g.dEps e) := by
      intro e he
      rw [hK.eq a e (mem_range.1 he), mul_assoc, sum_mul]
    have e2 : ∀ e ∈ range (g.nv - 1), a e * K b e * g.dEps e =
        ∑ j ∈ range (g.nv - 1), w j e * a e * g.dEps e * (b j * g.dEps j) := by
      intro e he
      rw [hK.eq b e (mem_range.1 he), mul_sum, sum_mul]
      exact sum_congr rfl fun j hj => by rw [hK.symm e (mem_range.1 he) j (mem_range.1 hj)]; ring
    rw [sum_congr rfl e1, sum_congr rfl e2, sum_comm]
  exact ⟨key _ _ (coulombian_kernel g hg), key _ _ (asymptotic_kernel g hg)⟩

/-! ### Energy (C73) -/

/-- A distribution the logarithmic mean resolves: everywhere above the floor `1e-200`, neighbours equal
or apart by more than the cut-off `1e-8` of the code. -/
def Grid.Resolved (g : Grid) (f : ℕ → ℝ) : Prop :=
  (∀ j < g.nv, 1 / 10 ^ 200 ≤ f j) ∧ ∀ e, e + 1 < g.nv → f (e + 1) = f e ∨ 1 / 10 ^ 8 ≤ |Real.log (f (e + 1) / f e)|

theorem Grid.Resolved.pos {g : Grid} {f : ℕ → ℝ} (h : g.Resolved f) {j : ℕ} (hj : j < g.nv) : 0 < f j :=
  lt_of_lt_of_le (by positivity) (h.1 j hj)

/-- Weight of the left cell in the log-mean scheme started from `f`. -/
noncomputable def lmWeight (f : ℕ → ℝ) (e : ℕ) : ℝ :=
  ccDelta (-Real.log (max (f (e + 1)) (1 / 10 ^ 200) / max (f e) (1 / 10 ^ 200)))

/-- Edge values: positive, and the difference quotient of `f` over that of `log f`. -/
theorem logMean_resolved {g : Grid} {f : ℕ → ℝ} (h : g.Resolved f) {e : ℕ} (he : e + 1 < g.nv) :
    0 < logMeanInterp f e ∧ f (e + 1) - f e = Real.log (f (e + 1) / f e) * logMeanInterp f e ∧
    lmWeight f e * f e + (1 - lmWeight f e) * f (e + 1) = logMeanInterp f e := by
  have ha := h.pos (j := e) (by omega)
  have hb := h.pos he
  have fl : (1 : ℝ) / 10 ^ 300 ≤ 1 / 10 ^ 200 := one_div_le_one_div_of_le (by positivity) (pow_le_pow_right₀ (by norm_num) (by norm_num))
  have ha3 : (1 : ℝ) / 10 ^ 300 ≤ f e := fl.trans (h.1 e (by omega))
  have hb3 : (1 : ℝ) / 10 ^ 300 ≤ f (e + 1) := fl.trans (h.1 _ he)
  unfold lmWeight
  rw [max_eq_left (h.1 _ he), max_eq_left (h.1 e (by omega))]
  unfold logMeanInterp
  dsimp only
  rw [max_eq_left ha3, max_eq_left hb3]
  have hneg : ¬ (f e < 1 / 10 ^ 300) := not_lt.2 ha3
  have hneg' : ¬ (f (e + 1) < 1 / 10 ^ 300) := not_lt.2 hb3
  rcases h.2 e he with heq | hex
  · rw [heq, div_self ha.ne', Real.log_one, if_pos (by left; norm_num)]
    refine ⟨by linarith, by ring, ?_⟩
    ring
  · rw [if_neg (not_or.2 ⟨not_lt.2 hex, not_or.2 ⟨hneg, hneg'⟩⟩)]
    have hl : Real.log (f (e + 1) / f e) ≠ 0 := by
      intro h0; rw [h0] at hex; norm_num at hex
    have hab : f e ≠ f (e + 1) := by
      intro h0; rw [← h0, div_self ha.ne', Real.log_one] at hl; exact hl rfl
    refine ⟨?_, by field_simp, log_mean_edge ha hb hab hex⟩
    rcases lt_or_gt_of_ne hab with h1 | h1
    · exact div_pos (by linarith) (Real.log_pos ((one_lt_div ha).2 h1))
    · exact div_pos_of_neg_of_neg (by linarith) (Real.log_neg (by positivity) ((div_lt_one ha).2 h1))

/-- The operator of a collision step in terms of its flux. -/
theorem f0_mv (g : Grid) (m : Model) (s : Scheme) (nuee beta : ℝ) (h : Heating) (dt : ℝ) (f x : ℕ → ℝ) (j : ℕ) (hj : j < g.nv) :
    (g.f0Operator m s nuee beta h f dt).mv g.nv x j =
      x j - dt * (nuee / g.v j ^ 2) * (netFlux g.nv (g.f0Flux m s beta h f x) j / g.dv) := by
  have key : SolveOneX g.nv (g.f0Operator m s nuee beta h f dt) (fun i => (g.f0Operator m s nuee beta h f dt).mv g.nv x i) x :=
    (solve_iff ..).2 fun i _ => rfl
  have : ImplicitStep g.nv (fun j => nuee / g.v j ^ 2) dt g.dv (g.f0Flux m s beta h f) (fun i => (g.f0Operator m s nuee beta h f dt).mv g.nv x i) x := by
    unfold Grid.f0Operator Grid.f0Flux Grid.weightOf at *
    cases s with
    | central => exact (central_is_finite_volume ..).1 key
    | changCooper => exact (chang_cooper_is_finite_volume ..).1 key
    | logMean => exact (weighted_is_finite_volume ..).1 key
  have := this j hj
  linarith

/-- Energy of the operator applied to any `x`. -/
theorem f0_mv_energy (g : Grid) (hg : g.SpeedOk) (m : Model) (s : Scheme) (nuee beta : ℝ) (h : Heating) (dt : ℝ) (f x : ℕ → ℝ) :
    ∑ j ∈ range g.nv, g.v j ^ 4 * (g.f0Operator m s nuee beta h f dt).mv g.nv x j = ∑ j ∈ range g.nv, g.v j ^ 4 * x j +
      dt * nuee / g.dv * ∑ e ∈ range (g.nv - 1), g.f0Flux m s beta h f x e * g.dEps e := by
  have e : ∀ j ∈ range g.nv, g.v j ^ 4 * (g.f0Operator m s nuee beta h f dt).mv g.nv x j =
      g.v j ^ 4 * x j + dt * nuee / g.dv * (-(g.v j ^ 2 * netFlux g.nv (g.f0Flux m s beta h f x) j)) := by
    intro j hj
    rw [f0_mv g m s nuee beta h dt f x j (mem_range.1 hj)]
    have hv := (v_pos' hg j).ne'
    have hd := (dv_pos' hg).ne'
    field_simp
    ring
  rw [sum_congr rfl e, sum_add_distrib, ← mul_sum, sum_neg_distrib, sum_netFlux_mul, ← sum_neg_distrib]
  congr 2
  refine sum_congr rfl fun k _ => ?_
  rw [(dEps_eq g k).1]; ring

/-- The kernel of a kernel model. -/
noncomputable def Grid.kernelOf (g : Grid) : Model → (ℕ → ℝ) → ℕ → ℝ
  | .asymptotic => g.asymptoticKernel
  | _ => g.coulombianKernel

/-- The models with a kernel. -/
def Model.Kernel (m : Model) : Prop := m = .coulombian ∨ m = .asymptotic

/-- No heating. -/
def noHeat : Heating := ⟨none, none, 0⟩

theorem kernelOf_spec (g : Grid) (hg : g.SpeedOk) (m : Model) (hm : m.Kernel) :
    (∃ w, g.Kernel (g.kernelOf m) w) ∧ ∀ f beta, g.coeffs m f beta = g.kernelCD (g.kernelOf m) f := by
  rcases hm with rfl | rfl
  · exact ⟨⟨_, coulombian_kernel g hg⟩, fun _ _ => rfl⟩
  · exact ⟨⟨_, asymptotic_kernel g hg⟩, fun _ _ => rfl⟩

/-- `∂f/∂ε` on the edges. -/
noncomputable def Grid.slope (g : Grid) (f : ℕ → ℝ) (e : ℕ) : ℝ := (f (e + 1) - f e) / g.dEps e

/-- The diffusion of a kernel model is above the floor of the scheme. -/
def Grid.Diffusive (g : Grid) (m : Model) (f : ℕ → ℝ) : Prop :=
  ∀ e, e + 1 < g.nv → 1 / 10 ^ 30 ≤ g.kernelOf m (logMeanInterp f) e / (2 * g.vEdge e)

/-- Flux times energy width for the log-mean scheme. -/
theorem kernel_flux (g : Grid) (hg : g.SpeedOk) (m : Model) (hm : m.Kernel) (beta : ℝ) (f : ℕ → ℝ) (hD : g.Diffusive m f) (x : ℕ → ℝ) (e : ℕ)
    (he : e + 1 < g.nv) :
    g.f0Flux m .logMean beta noHeat f x e * g.dEps e =
      g.kernelOf m (logMeanInterp f) e * g.slope x e * g.dEps e -
      g.kernelOf m (g.slope f) e * (lmWeight f e * x e + (1 - lmWeight f e) * x (e + 1)) * g.dEps e := by
  have hdv := dv_pos' hg
  have hve := vEdge_pos hg e
  unfold Grid.f0Flux Grid.weightOf lmWeight
  dsimp only
  rw [(kernelOf_spec g hg m hm).2]
  unfold flux Grid.kernelCD
  dsimp only
  have hh : g.heat noHeat (fun e => g.kernelOf m (logMeanInterp f) e / (2 * g.vEdge e)) = fun e => g.kernelOf m (logMeanInterp f) e / (2 * g.vEdge e) := rfl
  rw [hh]
  have hs : safeD (fun e => g.kernelOf m (logMeanInterp f) e / (2 * g.vEdge e)) e = g.kernelOf m (logMeanInterp f) e / (2 * g.vEdge e) := max_eq_left (hD e he)
  rw [hs]
  have hsl : (fun j => (f (j + 1) - f j) / g.dEps j) = g.slope f := rfl
  rw [hsl]
  have hE := (dEps_pos hg e).ne'
  have hsx : g.slope x e * g.dEps e = x (e + 1) - x e := by unfold Grid.slope; field_simp
  rw [mul_assoc _ (g.slope x e), hsx, add_mul]
  have : g.kernelOf m (logMeanInterp f) e / (2 * g.vEdge e) * (x (e + 1) - x e) / g.dv * g.dEps e = g.kernelOf m (logMeanInterp f) e * (x (e + 1) - x e) := by
    rw [(dEps_eq g e).2]; field_simp
  rw [this]
  ring

/-- C73: with a kernel model and the log-mean scheme the collision term itself carries no energy
(`v⁴` moment of the operator on the state it was built from). -/
theorem f0_energy_tendency (g : Grid) (hg : g.SpeedOk) (m : Model) (hm : m.Kernel) (nuee beta dt : ℝ) (f : ℕ → ℝ) (hf : g.Resolved f)
    (hD : g.Diffusive m f) :
    ∑ j ∈ range g.nv, g.v j ^ 4 * (g.f0Operator m .logMean nuee beta noHeat f dt).mv g.nv f j = ∑ j ∈ range g.nv, g.v j ^ 4 * f j := by
  rw [f0_mv_energy g hg]
  have hz : ∑ e ∈ range (g.nv - 1), g.f0Flux m .logMean beta noHeat f f e * g.dEps e = 0 := by
    have e1 : ∀ e ∈ range (g.nv - 1), g.f0Flux m .logMean beta noHeat f f e * g.dEps e =
        g.kernelOf m (logMeanInterp f) e * g.slope f e * g.dEps e - g.kernelOf m (g.slope f) e * logMeanInterp f e * g.dEps e := by
      intro e he
      have he' : e + 1 < g.nv := by rw [mem_range] at he; omega
      rw [kernel_flux g hg m hm beta f hD f e he', (logMean_resolved hf he').2.2]
    rw [sum_congr rfl e1, sum_sub_distrib]
    have := (kernel_symmetric g hg (logMeanInterp f) (g.slope f))
    unfold Grid.pairing at this
    rcases hm with rfl | rfl
    · simp only [Grid.kernelOf]
      rw [this.1, sub_eq_zero]
      exact sum_congr rfl fun e _ => by ring
    · simp only [Grid.kernelOf]
      rw [this.2, sub_eq_zero]
      exact sum_congr rfl fun e _ => by ring
  rw [hz]; ring

/-- C73: an implicit step changes the energy only through the change of `f` within the step (the
coefficients are frozen): the exact error, which vanishes with `f' - f`. -/
theorem f0_energy_step (g : Grid) (hg : g.SpeedOk) (m : Model) (hm : m.Kernel) (nuee beta dt : ℝ) (f f' : ℕ → ℝ) (hf : g.Resolved f)
    (hD : g.Diffusive m f) (hs : g.F0Step m .logMean nuee beta noHeat dt f f') :
    ∑ j ∈ range g.nv, g.v j ^ 4 * f' j - ∑ j ∈ range g.nv, g.v j ^ 4 * f j =
      dt * nuee / g.dv * (g.pairing (g.kernelOf m (g.slope f)) (fun e =>
          lmWeight f e * (f' e - f e) + (1 - lmWeight f e) * (f' (e + 1) - f (e + 1))) -
        g.pairing (g.kernelOf m (logMeanInterp f)) (g.slope fun j => f' j - f j)) := by
  have h1 := f0_mv_energy g hg m .logMean nuee beta noHeat dt f (fun j => f' j - f j)
  have h2 := f0_energy_tendency g hg m hm nuee beta dt f hf hD
  have h3 : ∀ j ∈ range g.nv, g.v j ^ 4 * (g.f0Operator m .logMean nuee beta noHeat f dt).mv g.nv f' j = g.v j ^ 4 * f j := by
    intro j hj
    rw [(solve_iff ..).1 hs j (mem_range.1 hj)]
  have h4 : ∀ j ∈ range g.nv, g.v j ^ 4 * (g.f0Operator m .logMean nuee beta noHeat f dt).mv g.nv (fun j => f' j - f j) j =
      g.v j ^ 4 * (g.f0Operator m .logMean nuee beta noHeat f dt).mv g.nv f' j - g.v j ^ 4 * (g.f0Operator m .logMean nuee beta noHeat f dt).mv g.nv f j := by
    intro j hj
    have := mv_linear g.nv (g.f0Operator m .logMean nuee beta noHeat f dt) f (fun j => f' j - f j) j
    have e : (fun i => f i + (f' i - f i)) = f' := by funext i; ring
    rw [e] at this
    rw [this]; ring
  rw [sum_congr rfl h4, sum_sub_distrib, sum_congr rfl h3, h2, sub_self] at h1
  have h5 : ∑ j ∈ range g.nv, g.v j ^ 4 * (f' j - f j) = ∑ j ∈ range g.nv, g.v j ^ 4 * f' j - ∑ j ∈ range g.nv, g.v j ^ 4 * f j := by
    rw [← sum_sub_distrib]; exact sum_congr rfl fun j _ => by ring
  rw [h5] at h1
  have h6 : ∑ e ∈ range (g.nv - 1), g.f0Flux m .logMean beta noHeat f (fun j => f' j - f j) e * g.dEps e =
      g.pairing (g.kernelOf m (logMeanInterp f)) (g.slope fun j => f' j - f j) - g.pairing (g.kernelOf m (g.slope f)) (fun e =>
          lmWeight f e * (f' e - f e) + (1 - lmWeight f e) * (f' (e + 1) - f (e + 1))) := by
    unfold Grid.pairing
    rw [← sum_sub_distrib]
    refine sum_congr rfl fun e he => ?_
    exact kernel_flux g hg m hm beta f hD _ e (by rw [mem_range] at he; omega)
  rw [h6] at h1
  linarith

/-! ### Equilibrium (C74) -/

/-- `∂ log f/∂ε` on the edges. -/
noncomputable def Grid.logSlope (g : Grid) (f : ℕ → ℝ) (e : ℕ) : ℝ := Real.log (f (e + 1) / f e) / g.dEps e

theorem slope_eq {g : Grid} (hg : g.SpeedOk) {f : ℕ → ℝ} (hf : g.Resolved f) {e : ℕ} (he : e + 1 < g.nv) :
    g.slope f e = g.logSlope f e * logMeanInterp f e := by
  unfold Grid.slope Grid.logSlope
  rw [(logMean_resolved hf he).2.1]; ring

theorem kernel_congr {g : Grid} {K : (ℕ → ℝ) → ℕ → ℝ} {w : ℕ → ℕ → ℝ} (hK : g.Kernel K w) {a b : ℕ → ℝ} (h : ∀ e, e + 1 < g.nv → a e = b e)
    {e : ℕ} (he : e + 1 < g.nv) : K a e = K b e := by
  rw [hK.eq a e (by omega), hK.eq b e (by omega)]
  exact sum_congr rfl fun j hj => by rw [h j (by rw [mem_range] at hj; omega)]

theorem kernel_pos {g : Grid} (hg : g.SpeedOk) {K : (ℕ → ℝ) → ℕ → ℝ} {w : ℕ → ℕ → ℝ} (hK : g.Kernel K w) {a : ℕ → ℝ}
    (h : ∀ e, e + 1 < g.nv → 0 < a e) {e : ℕ} (he : e + 1 < g.nv) : 0 < K a e := by
  rw [hK.eq a e (by omega)]
  refine sum_pos (fun j hj => ?_) ⟨0, mem_range.2 (by omega)⟩
  rw [mem_range] at hj
  exact mul_pos (mul_pos (hK.pos e (by omega) j hj) (h j (by omega))) (dEps_pos hg j)

/-- Balance on every edge forces one slope. -/
theorem balance_const {g : Grid} (hg : g.SpeedOk) {K : (ℕ → ℝ) → ℕ → ℝ} {w : ℕ → ℕ → ℝ} (hK : g.Kernel K w) {a l : ℕ → ℝ}
    (ha : ∀ e, e + 1 < g.nv → 0 < a e) (h : ∀ e, e + 1 < g.nv → l e * K a e = K (fun j => l j * a j) e) :
    ∃ c, ∀ e, e + 1 < g.nv → l e = c := by
  have h2 := hg.1
  obtain ⟨e, he, hmax⟩ := exists_max_image (range (g.nv - 1)) l ⟨0, mem_range.2 (by omega)⟩
  rw [mem_range] at he
  refine ⟨l e, fun j hj => ?_⟩
  have hb := h e (by omega)
  rw [hK.eq a e he, hK.eq _ e he, mul_sum, ← sub_eq_zero, ← sum_sub_distrib] at hb
  have hb2 : ∑ j ∈ range (g.nv - 1), w e j * a j * g.dEps j * (l e - l j) = 0 := by
    rw [← hb]; exact sum_congr rfl fun j _ => by ring
  have hpos : ∀ j ∈ range (g.nv - 1), 0 < w e j * a j * g.dEps j := fun j hj => by
    rw [mem_range] at hj
    exact mul_pos (mul_pos (hK.pos e he j hj) (ha j (by omega))) (dEps_pos hg j)
  have := (sum_eq_zero_iff_of_nonneg fun j hj => mul_nonneg (hpos j hj).le (sub_nonneg.2 (hmax j hj))).1 hb2 j (mem_range.2 (by omega))
  rcases mul_eq_zero.1 this with h3 | h3
  · exact absurd h3 (hpos j (mem_range.2 (by omega))).ne'
  · linarith

/-- A constant logarithmic slope is a Maxwellian. -/
theorem maxwellian_iff_slope {g : Grid} (hg : g.SpeedOk) {f : ℕ → ℝ} (hf : ∀ j < g.nv, 0 < f j) :
    (∃ c, ∀ e, e + 1 < g.nv → g.logSlope f e = c) ↔ ∃ c b, ∀ j < g.nv, f j = c * Real.exp (-b * g.v j ^ 2) := by
  constructor
  · rintro ⟨c, hc⟩
    refine ⟨f 0 * Real.exp (-c * g.v 0 ^ 2), -c, fun j => ?_⟩
    induction j with
    | zero => intro _; rw [mul_assoc, ← Real.exp_add]; simp
    | succ j ih =>
      intro hj
      have h1 := hc j hj
      unfold Grid.logSlope at h1
      rw [div_eq_iff (dEps_pos hg j).ne'] at h1
      have h2 : f (j + 1) = Real.exp (c * g.dEps j) * f j := by
        rw [← h1, Real.exp_log (div_pos (hf _ hj) (hf j (by omega)))]
        have := (hf j (by omega)).ne'
        field_simp
      rw [h2, ih (by omega), (dEps_eq g j).1, mul_left_comm, ← Real.exp_add]
      congr 2; ring
  · rintro ⟨c, b, hf'⟩
    refine ⟨-b, fun e he => ?_⟩
    have hc : c ≠ 0 := by
      rintro rfl
      have := hf e (by omega)
      rw [hf' e (by omega), zero_mul] at this
      exact lt_irrefl _ this
    unfold Grid.logSlope
    rw [hf' _ he, hf' e (by omega), mul_div_mul_left _ _ hc, ← Real.exp_sub, Real.log_exp, div_eq_iff (dEps_pos hg e).ne', (dEps_eq g e).1]
    ring

/-- C74: with a kernel model and the log-mean scheme, the states a collision step leaves alone are
exactly the Maxwellians. -/
theorem f0_equilibrium (g : Grid) (hg : g.SpeedOk) (m : Model) (hm : m.Kernel) (nuee beta dt : ℝ) (hn : 0 < nuee) (hdt : 0 < dt) (f : ℕ → ℝ)
    (hf : g.Resolved f) (hD : g.Diffusive m f) :
    g.F0Step m .logMean nuee beta noHeat dt f f ↔ ∃ c b, ∀ j < g.nv, f j = c * Real.exp (-b * g.v j ^ 2) := by
  obtain ⟨⟨w, hK⟩, _⟩ := kernelOf_spec g hg m hm
  rw [f0_is_finite_volume, stationary_iff_no_flux hdt (dv_pos' hg) fun j _ => div_pos hn (pow_pos (v_pos' hg j) 2),
    ← maxwellian_iff_slope hg fun j hj => hf.pos hj]
  have key : ∀ e, e + 1 < g.nv → (g.f0Flux m .logMean beta noHeat f f e = 0 ↔
      g.logSlope f e * g.kernelOf m (logMeanInterp f) e = g.kernelOf m (fun j => g.logSlope f j * logMeanInterp f j) e) := by
    intro e he
    have hE := dEps_pos hg e
    have h1 := kernel_flux g hg m hm beta f hD f e he
    obtain ⟨hp, _, hl⟩ := logMean_resolved hf he
    rw [hl, slope_eq hg hf he, kernel_congr hK (fun e he => slope_eq hg hf he) he] at h1
    have h2 : g.f0Flux m .logMean beta noHeat f f e * g.dEps e = (g.logSlope f e * g.kernelOf m (logMeanInterp f) e -
        g.kernelOf m (fun j => g.logSlope f j * logMeanInterp f j) e) * (logMeanInterp f e * g.dEps e) := by rw [h1]; ring
    rw [← sub_eq_zero (a := g.logSlope f e * _)]
    constructor
    · intro h; rw [h, zero_mul] at h2
      exact (mul_eq_zero.1 h2.symm).resolve_right (mul_pos hp hE).ne'
    · intro h; rw [h, zero_mul] at h2
      exact (mul_eq_zero.1 h2).resolve_right hE.ne'
  constructor
  · intro h
    exact balance_const hg hK (fun e he => (logMean_resolved hf he).1) fun e he => (key e he).1 (h e he)
  · rintro ⟨c, hc⟩ e he
    rw [key e he, hc e he, hK.eq _ e (by omega), hK.eq _ e (by omega), mul_sum]
    refine sum_congr rfl fun j hj => ?_
    rw [hc j (by rw [mem_range] at hj; omega)]; ring

/-- C74 for Chang-Cooper differences, where the code evaluates its weight exactly. -/
theorem f0_equilibrium_chang_cooper (g : Grid) (hg : g.SpeedOk) (m : Model) (hm : m.Kernel) (nuee beta dt : ℝ) (hn : 0 < nuee) (hdt : 0 < dt)
    (f : ℕ → ℝ) (hf : g.Resolved f) (hD : g.Diffusive m f)
    (hex : ∀ e, e + 1 < g.nv → ExactAt ((g.coeffs m f beta).1 e * g.dv / (g.coeffs m f beta).2 e)) :
    g.F0Step m .changCooper nuee beta noHeat dt f f ↔ ∃ c b, ∀ j < g.nv, f j = c * Real.exp (-b * g.v j ^ 2) := by
  obtain ⟨⟨w, hK⟩, hco⟩ := kernelOf_spec g hg m hm
  rw [f0_is_finite_volume, stationary_iff_no_flux hdt (dv_pos' hg) fun j _ => div_pos hn (pow_pos (v_pos' hg j) 2),
    ← maxwellian_iff_slope hg fun j hj => hf.pos hj]
  rw [hco] at hex
  have key : ∀ e, e + 1 < g.nv → (g.f0Flux m .changCooper beta noHeat f f e = 0 ↔
      g.logSlope f e * g.kernelOf m (logMeanInterp f) e = g.kernelOf m (fun j => g.logSlope f j * logMeanInterp f j) e) := by
    intro e he
    have hE := dEps_pos hg e
    have hve := vEdge_pos hg e
    have hdv := dv_pos' hg
    have hKp := kernel_pos hg hK (fun e he => (logMean_resolved hf he).1) he
    have ha := hf.pos (j := e) (by omega)
    have hb := hf.pos he
    unfold Grid.f0Flux Grid.weightOf
    dsimp only
    rw [hco]
    have hh : g.heat noHeat (g.kernelCD (g.kernelOf m) f).2 = (g.kernelCD (g.kernelOf m) f).2 := rfl
    rw [hh, cc_flux g.dv hdv]
    have hs : safeD (g.kernelCD (g.kernelOf m) f).2 e = (g.kernelCD (g.kernelOf m) f).2 e := max_eq_left (hD e he)
    rw [hs]
    have hw : (g.kernelCD (g.kernelOf m) f).1 e * g.dv / (g.kernelCD (g.kernelOf m) f).2 e =
        -(g.kernelOf m (fun j => g.logSlope f j * logMeanInterp f j) e * g.dEps e / g.kernelOf m (logMeanInterp f) e) := by
      unfold Grid.kernelCD
      dsimp only
      have hsl : (fun j => (f (j + 1) - f j) / g.dEps j) = g.slope f := rfl
      rw [hsl, kernel_congr hK (fun e he => slope_eq hg hf he) he, (dEps_eq g e).2]
      have := hKp.ne'
      field_simp
    obtain ⟨k, hk, hab⟩ := cc_flux_exact (hex e he)
    obtain ⟨W, hW⟩ : ∃ W, W = (g.kernelCD (g.kernelOf m) f).1 e * g.dv / (g.kernelCD (g.kernelOf m) f).2 e := ⟨_, rfl⟩
    rw [← hW] at hab hw ⊢
    have hD2 : 0 < (g.kernelCD (g.kernelOf m) f).2 e / g.dv := div_pos (lt_of_lt_of_le (by positivity) (hD e he)) hdv
    have h1 := hab (f e) (f (e + 1))
    have h2 : (g.kernelCD (g.kernelOf m) f).2 e / g.dv * (1 + W * (1 - ccDelta W)) * f (e + 1) -
        (g.kernelCD (g.kernelOf m) f).2 e / g.dv * (1 - W * ccDelta W) * f e =
        (g.kernelCD (g.kernelOf m) f).2 e / g.dv * k * (Real.exp W * f (e + 1) - f e) := by
      rw [mul_assoc, mul_assoc, ← mul_sub, h1]; ring
    rw [h2, mul_eq_zero, or_iff_right (mul_pos hD2 hk).ne', sub_eq_zero]
    have h3 : Real.exp W * f (e + 1) = f e ↔ Real.log (f (e + 1) / f e) = -W := by
      constructor
      · intro h
        have : f (e + 1) / f e = Real.exp (-W) := by
          rw [← h, Real.exp_neg]
          have := (Real.exp_pos W).ne'
          field_simp
        rw [this, Real.log_exp]
      · intro h
        have : f (e + 1) / f e = Real.exp (-W) := by rw [← h, Real.exp_log (div_pos hb ha)]
        rw [div_eq_iff ha.ne'] at this
        rw [this, ← mul_assoc, ← Real.exp_add]; simp
    rw [h3, hw, neg_neg, eq_div_iff hKp.ne']
    unfold Grid.logSlope
    constructor
    · intro h
      rw [div_mul_eq_mul_div, h, mul_div_assoc, div_self hE.ne', mul_one]
    · intro h
      rw [← h]; field_simp
  constructor
  · intro h
    exact balance_const hg hK (fun e he => (logMean_resolved hf he).1) fun e he => (key e he).1 (h e he)
  · rintro ⟨c, hc⟩ e he
    rw [key e he, hc e he, hK.eq _ e (by omega), hK.eq _ e (by omega), mul_sum]
    refine sum_congr rfl fun j hj => ?_
    rw [hc j (by rw [mem_range] at hj; omega)]; ring

/-! ### The default scheme -/

/-- The logarithmic mean is below the arithmetic mean. -/
theorem logMean_lt_mean {a b : ℝ} (ha : 0 < a) (hb : 0 < b) (hab : a ≠ b) : (b - a) / Real.log (b / a) < (a + b) / 2 := by
  have key : ∀ {a b : ℝ}, 0 < a → 0 < b → a < b → (b - a) / Real.log (b / a) < (a + b) / 2 := by
    intro a b ha hb hab
    have h1 := Real.lt_log_one_add_of_pos (x := b / a - 1) (by rw [sub_pos, one_lt_div ha]; exact hab)
    rw [add_sub_cancel] at h1
    have hl : 0 < Real.log (b / a) := Real.log_pos ((one_lt_div ha).2 hab)
    rw [div_lt_iff₀ hl]
    have h2 : 2 * (b / a - 1) / (b / a - 1 + 2) = 2 * (b - a) / (a + b) := by
      have h3 : b / a - 1 + 2 = (a + b) / a := by field_simp; ring
      have h4 : 2 * (b / a - 1) = 2 * (b - a) / a := by field_simp
      rw [h3, h4, div_div_div_cancel_right₀ ha.ne']
    rw [h2, div_lt_iff₀ (by positivity)] at h1
    linarith
  rcases lt_or_gt_of_ne hab with h | h
  · exact key ha hb h
  · have := key hb ha h
    have e : Real.log (b / a) = -Real.log (a / b) := by rw [← Real.log_inv, inv_div]
    rw [e]
    have e2 : (b - a) / -Real.log (a / b) = (a - b) / Real.log (a / b) := by rw [div_neg, ← neg_div, neg_sub]
    rw [e2]; linarith

theorem logMeanInterp_lt {g : Grid} {f : ℕ → ℝ} (hf : g.Resolved f) {e : ℕ} (he : e + 1 < g.nv) :
    logMeanInterp f e ≤ (f e + f (e + 1)) / 2 ∧ (f (e + 1) ≠ f e → logMeanInterp f e < (f e + f (e + 1)) / 2) := by
  have ha := hf.pos (j := e) (by omega)
  have hb := hf.pos he
  have h2 : f (e + 1) ≠ f e → logMeanInterp f e < (f e + f (e + 1)) / 2 := by
    intro h
    have h1 := (logMean_resolved hf he).2.1
    have hl : Real.log (f (e + 1) / f e) ≠ 0 := by
      intro h0; rw [h0, zero_mul, sub_eq_zero] at h1; exact h h1
    have := logMean_lt_mean ha hb (Ne.symm h)
    rwa [h1, mul_div_assoc, mul_comm, div_mul_cancel₀ _ hl] at this
  refine ⟨?_, h2⟩
  by_cases h : f (e + 1) = f e
  · have := (logMean_resolved hf he).2.2
    rw [h] at this
    linarith
  · exact (h2 h).le

theorem central_flux (g : Grid) (hg : g.SpeedOk) (m : Model) (hm : m.Kernel) (beta : ℝ) (f x : ℕ → ℝ) (e : ℕ) :
    g.f0Flux m .central beta noHeat f x e * g.dEps e =
      g.kernelOf m (logMeanInterp f) e * g.slope x e * g.dEps e - g.kernelOf m (g.slope f) e * ((x e + x (e + 1)) / 2) * g.dEps e := by
  have hdv := dv_pos' hg
  have hve := vEdge_pos hg e
  unfold Grid.f0Flux Grid.weightOf
  dsimp only
  rw [(kernelOf_spec g hg m hm).2]
  unfold flux Grid.kernelCD
  dsimp only
  have hh : g.heat noHeat (fun e => g.kernelOf m (logMeanInterp f) e / (2 * g.vEdge e)) = fun e => g.kernelOf m (logMeanInterp f) e / (2 * g.vEdge e) := rfl
  rw [hh]
  have hsl : (fun j => (f (j + 1) - f j) / g.dEps j) = g.slope f := rfl
  rw [hsl]
  have hE := (dEps_pos hg e).ne'
  have hsx : g.slope x e * g.dEps e = x (e + 1) - x e := by unfold Grid.slope; field_simp
  rw [mul_assoc _ (g.slope x e), hsx, add_mul]
  have : g.kernelOf m (logMeanInterp f) e / (2 * g.vEdge e) * (x (e + 1) - x e) / g.dv * g.dEps e = g.kernelOf m (logMeanInterp f) e * (x (e + 1) - x e) := by
    rw [(dEps_eq g e).2]; field_simp
  rw [this]
  ring

/-- C74 is refuted for the default scheme: central differences move every Maxwellian (other than a
constant). -/
theorem central_moves_maxwellian (g : Grid) (hg : g.SpeedOk) (m : Model) (hm : m.Kernel) (nuee beta dt : ℝ) (hn : 0 < nuee) (hdt : 0 < dt) (c b : ℝ)
    (hb : b ≠ 0) (f : ℕ → ℝ) (hf : g.Resolved f) (hmx : ∀ j < g.nv, f j = c * Real.exp (-b * g.v j ^ 2)) :
    ¬ g.F0Step m .central nuee beta noHeat dt f f := by
  obtain ⟨⟨w, hK⟩, _⟩ := kernelOf_spec g hg m hm
  have h2 := hg.1
  rw [f0_is_finite_volume, stationary_iff_no_flux hdt (dv_pos' hg) fun j _ => div_pos hn (pow_pos (v_pos' hg j) 2)]
  intro h
  have he : (0 : ℕ) + 1 < g.nv := by omega
  have h0 := h 0 he
  have h1 := central_flux g hg m hm beta f f 0
  have hc : c ≠ 0 := by
    rintro rfl
    have := hf.pos (j := 0) (by omega)
    rw [hmx 0 (by omega), zero_mul] at this
    exact lt_irrefl _ this
  have hl : ∀ e, e + 1 < g.nv → g.logSlope f e = -b := by
    intro e he
    unfold Grid.logSlope
    rw [hmx _ he, hmx e (by omega), mul_div_mul_left _ _ hc, ← Real.exp_sub, Real.log_exp, div_eq_iff (dEps_pos hg e).ne', (dEps_eq g e).1]
    ring
  have hsl : ∀ e, e + 1 < g.nv → g.slope f e = -b * logMeanInterp f e := fun e he => by rw [slope_eq hg hf he, hl e he]
  have hKb : g.kernelOf m (g.slope f) 0 = -b * g.kernelOf m (logMeanInterp f) 0 := by
    rw [kernel_congr hK hsl he, hK.eq _ 0 (by omega), hK.eq _ 0 (by omega), mul_sum]
    exact sum_congr rfl fun j _ => by ring
  rw [h0, zero_mul, hKb, hsl 0 he] at h1
  have hne : f (0 + 1) ≠ f 0 := by
    intro h3
    have := hl 0 he
    unfold Grid.logSlope at this
    rw [h3, div_self (hf.pos (by omega)).ne', Real.log_one, zero_div] at this
    exact hb (by linarith)
  have h4 := (logMeanInterp_lt hf he).2 hne
  have hKp := kernel_pos hg hK (fun e he => (logMean_resolved hf he).1) he
  have hE := dEps_pos hg 0
  have h5 : b * (g.kernelOf m (logMeanInterp f) 0 * ((f 0 + f (0 + 1)) / 2 - logMeanInterp f 0) * g.dEps 0) = 0 := by linarith
  rcases mul_eq_zero.1 h5 with h6 | h6
  · exact hb h6
  · exact absurd h6 (mul_pos (mul_pos hKp (by linarith)) hE).ne'

/-- C73 is refuted for the default scheme: on every decreasing distribution central differences
lose energy (the operator's energy exceeds that of the state: the collision term has negative energy). -/
theorem central_loses_energy (g : Grid) (hg : g.SpeedOk) (m : Model) (hm : m.Kernel) (nuee beta dt : ℝ) (hn : 0 < nuee) (hdt : 0 < dt) (f : ℕ → ℝ)
    (hf : g.Resolved f) (hdec : ∀ e, e + 1 < g.nv → f (e + 1) < f e) :
    ∑ j ∈ range g.nv, g.v j ^ 4 * f j < ∑ j ∈ range g.nv, g.v j ^ 4 * (g.f0Operator m .central nuee beta noHeat f dt).mv g.nv f j := by
  obtain ⟨⟨w, hK⟩, _⟩ := kernelOf_spec g hg m hm
  have h2 := hg.1
  rw [f0_mv_energy g hg, lt_add_iff_pos_right]
  refine mul_pos (div_pos (mul_pos hdt hn) (dv_pos' hg)) ?_
  have e1 : ∀ e ∈ range (g.nv - 1), g.f0Flux m .central beta noHeat f f e * g.dEps e =
      (g.kernelOf m (logMeanInterp f) e * g.slope f e * g.dEps e - g.kernelOf m (g.slope f) e * logMeanInterp f e * g.dEps e) +
      (-g.kernelOf m (g.slope f) e) * ((f e + f (e + 1)) / 2 - logMeanInterp f e) * g.dEps e := by
    intro e _
    rw [central_flux g hg m hm]; ring
  rw [sum_congr rfl e1, sum_add_distrib, sum_sub_distrib]
  have hz : ∑ e ∈ range (g.nv - 1), g.kernelOf m (logMeanInterp f) e * g.slope f e * g.dEps e -
      ∑ e ∈ range (g.nv - 1), g.kernelOf m (g.slope f) e * logMeanInterp f e * g.dEps e = 0 := by
    have := (kernel_symmetric g hg (logMeanInterp f) (g.slope f))
    unfold Grid.pairing at this
    rcases hm with rfl | rfl
    · simp only [Grid.kernelOf]
      rw [this.1, sub_eq_zero]
      exact sum_congr rfl fun e _ => by ring
    · simp only [Grid.kernelOf]
      rw [this.2, sub_eq_zero]
      exact sum_congr rfl fun e _ => by ring
  rw [hz, zero_add]
  refine sum_pos (fun e he => ?_) ⟨0, mem_range.2 (by omega)⟩
  have he' : e + 1 < g.nv := by rw [mem_range] at he; omega
  have h3 : 0 < g.kernelOf m (fun j => -g.slope f j) e := by
    refine kernel_pos hg hK (fun j hj => ?_) he'
    unfold Grid.slope
    have := hdec j hj
    rw [← neg_div]
    exact div_pos (by linarith) (dEps_pos hg j)
  have h4 : g.kernelOf m (fun j => -g.slope f j) e = -g.kernelOf m (g.slope f) e := by
    rw [hK.eq _ e (by omega), hK.eq _ e (by omega), ← sum_neg_distrib]
    exact sum_congr rfl fun j _ => by ring
  rw [h4] at h3
  have h5 := (logMeanInterp_lt hf he').2 (hdec e he').ne
  exact mul_pos (mul_pos h3 (by linarith)) (dEps_pos hg e)

/-! ### Beta-based model -/

/-- C74 for the model with a prescribed temperature: Chang-Cooper leaves `exp (-β v²)` alone. -/
theorem fast_equilibrium_partial (g : Grid) (hg : g.SpeedOk) (nuee beta dt : ℝ) (hn : 0 < nuee) (hdt : 0 < dt) (f : ℕ → ℝ)
    (hD : ∀ e, e + 1 < g.nv → 1 / 10 ^ 30 ≤ 1 / (2 * beta * g.vEdge e)) (hex : ∀ e, e + 1 < g.nv → ExactAt (beta * g.dEps e)) :
    g.F0Step .fast .changCooper nuee beta noHeat dt f f ↔ ∃ c, ∀ j < g.nv, f j = c * Real.exp (-(beta * g.v j ^ 2)) := by
  have h2 := hg.1
  have hdv := dv_pos' hg
  refine chang_cooper_fixed_partial g.nv g.dv _ _ _ (fun j => beta * g.v j ^ 2) dt (by omega) hdv hdt
    (fun j _ => div_pos hn (pow_pos (v_pos' hg j) 2)) hD ?_ ?_ f
  · intro e he
    have hve := vEdge_pos hg e
    have hb : beta ≠ 0 := by
      rintro rfl
      have := hD e he
      norm_num at this
    have : beta * g.v (e + 1) ^ 2 - beta * g.v e ^ 2 = beta * g.dEps e := by rw [(dEps_eq g e).1]; ring
    show (1 : ℝ) = 1 / (2 * beta * g.vEdge e) * (beta * g.v (e + 1) ^ 2 - beta * g.v e ^ 2) / g.dv
    rw [this, (dEps_eq g e).2]
    field_simp
  · intro e he
    have : beta * g.v (e + 1) ^ 2 - beta * g.v e ^ 2 = beta * g.dEps e := by rw [(dEps_eq g e).1]; ring
    rw [this]
    exact hex e he

/-- The temperature iteration looks for the right value: a Maxwellian solves its equation. -/
theorem fast_root (g : Grid) (beta c : ℝ) (hc : c ≠ 0) (f : ℕ → ℝ) (hf : ∀ j < g.nv, f j = c * Real.exp (-beta * g.v j ^ 2)) :
    g.betaResidual f beta = 0 := by
  unfold Grid.betaResidual Grid.temperature
  have e1 : ∑ j ∈ range g.nv, f j * (g.v j ^ 2) ^ 2 * g.dv = c * ∑ j ∈ range g.nv, Real.exp (-beta * g.v j ^ 2) * (g.v j ^ 2) ^ 2 * g.dv := by
    rw [mul_sum]; exact sum_congr rfl fun j hj => by rw [hf j (mem_range.1 hj)]; ring
  have e2 : ∑ j ∈ range g.nv, f j * g.v j ^ 2 * g.dv = c * ∑ j ∈ range g.nv, Real.exp (-beta * g.v j ^ 2) * g.v j ^ 2 * g.dv := by
    rw [mul_sum]; exact sum_congr rfl fun j hj => by rw [hf j (mem_range.1 hj)]; ring
  rw [e1, e2, mul_left_comm, mul_div_mul_left _ _ hc, sub_self]

/-! ### Heating (C75) -/

/-- A driver at zero strength is the same as no driver. -/
theorem heat_zero (g : Grid) (D : ℕ → ℝ) (r : ℝ) (e : ℕ) : g.heat ⟨some 0, some 0, r⟩ D e = g.heat noHeat D e := by
  simp [Grid.heat, noHeat]

/-- The drivers a step receives: each on its own, the other absent or at zero. -/
theorem heat_passed (g : Grid) (D0 vosc2 ratio : Option ℝ) (D : ℕ → ℝ) (e : ℕ) :
    g.heat (Heating.passed D0 vosc2 ratio) D e = D e + D0.getD 0 * g.vEdge e ^ 2 +
      vosc2.getD 0 / (6 * g.vEdge e) / (1 + (ratio.getD 0 / g.vEdge e ^ 3) ^ 2) := by
  unfold Heating.passed
  by_cases h : D0 = none ∧ vosc2 = none
  · rw [if_pos h, h.1, h.2]; simp [Grid.heat]
  · rw [if_neg h]; simp [Grid.heat]

/-- Differences of an implicit diffusion step: if `f` decreases, so does the result. -/
theorem diffusion_monotone {n : ℕ} {nu D : ℕ → ℝ} {dt dv : ℝ} {f f' : ℕ → ℝ} (hdt : 0 ≤ dt) (hdv : 0 < dv) (hnu : ∀ i < n, 0 ≤ nu i)
    (hD : ∀ e, e + 1 < n → 0 ≤ D e) (hs : ImplicitStep n nu dt dv (fun x e => D e * (x (e + 1) - x e) / dv) f f')
    (hf : ∀ e, e + 1 < n → f (e + 1) ≤ f e) : ∀ e, e + 1 < n → f' (e + 1) ≤ f' e := by
  obtain ⟨d, hd⟩ : ∃ d : ℕ → ℝ, d = fun e => f' (e + 1) - f' e := ⟨_, rfl⟩
  obtain ⟨S, hS⟩ : ∃ S, S = (range (n - 1)).filter fun e => 0 < d e := ⟨_, rfl⟩
  obtain ⟨F, hF⟩ : ∃ F : ℕ → ℝ, F = fun e => if e + 1 < n then D e * d e / dv else 0 := ⟨_, rfl⟩
  -- the step on one edge
  have hFn : ∀ i, netFlux n (fun e => D e * (f' (e + 1) - f' e) / dv) i = F i - (if 0 < i ∧ i < n then F (i - 1) else 0) ∨ n ≤ i := by
    intro i
    by_cases hi : i < n
    · left
      unfold netFlux
      rw [hF, hd]
      dsimp only
      by_cases h0 : 0 < i
      · simp [h0, hi, show i - 1 + 1 < n by omega]
      · simp [h0]
    · right; omega
  have hedge : ∀ e, e + 1 < n → d e = (f (e + 1) - f e) + dt / dv * (nu (e + 1) * (F (e + 1) - F e) - nu e * (F e - if 0 < e then F (e - 1) else 0)) := by
    intro e he
    have h1 := hs (e + 1) he
    have h0 := hs e (by omega)
    rcases hFn (e + 1) with h2 | h2
    swap; · omega
    rcases hFn e with h3 | h3
    swap; · omega
    rw [h2, if_pos ⟨Nat.succ_pos e, he⟩, Nat.add_sub_cancel] at h1
    rw [h3] at h0
    have e4 : (if 0 < e ∧ e < n then F (e - 1) else 0) = if 0 < e then F (e - 1) else 0 := by
      by_cases h5 : 0 < e
      · rw [if_pos ⟨h5, by omega⟩, if_pos h5]
      · rw [if_neg (by tauto), if_neg h5]
    rw [e4] at h0
    have : d e = f' (e + 1) - f' e := by rw [hd]
    rw [this, h1, h0]
    field_simp
    ring
  by_contra hcon
  push Not at hcon
  obtain ⟨k, hk, hlt⟩ := hcon
  have hkS : k ∈ S := by
    rw [hS, mem_filter, mem_range, hd]
    exact ⟨by omega, by dsimp only; linarith⟩
  have hsum : ∑ e ∈ S, d e ≤ 0 := by
    have e1 : ∑ e ∈ S, d e = ∑ e ∈ S, (f (e + 1) - f e) + dt / dv *
        (∑ e ∈ S, nu (e + 1) * (F (e + 1) - F e) - ∑ e ∈ S, nu e * (F e - if 0 < e then F (e - 1) else 0)) := by
      rw [mul_sub, mul_sum, mul_sum, ← sum_sub_distrib, ← sum_add_distrib]
      refine sum_congr rfl fun e he => ?_
      rw [hS, mem_filter, mem_range] at he
      rw [hedge e (by omega)]; ring
    have e2 : ∑ e ∈ S, (f (e + 1) - f e) ≤ 0 := sum_nonpos fun e he => by
      rw [hS, mem_filter, mem_range] at he
      have := hf e (by omega)
      linarith
    -- positive part of the flux
    have hFpos : ∀ e, F e ≤ if e ∈ S then F e else 0 := by
      intro e
      by_cases he : e ∈ S
      · rw [if_pos he]
      · rw [if_neg he, hF]
        dsimp only
        by_cases h1 : e + 1 < n
        · rw [if_pos h1]
          have h2 : d e ≤ 0 := by
            by_contra h3
            exact he (by rw [hS, mem_filter, mem_range]; exact ⟨by omega, not_le.1 h3⟩)
          exact div_nonpos_of_nonpos_of_nonneg (mul_nonpos_of_nonneg_of_nonpos (hD e h1) h2) hdv.le
        · rw [if_neg h1]
    have hFS : ∀ e ∈ S, 0 ≤ F e := by
      intro e he
      rw [hS, mem_filter, mem_range] at he
      rw [hF]
      dsimp only
      rw [if_pos (by omega : e + 1 < n)]
      exact div_nonneg (mul_nonneg (hD e (by omega)) he.2.le) hdv.le
    obtain ⟨P, hP⟩ : ∃ P : ℕ → ℝ, P = fun e => if e ∈ S then F e else 0 := ⟨_, rfl⟩
    have hP0 : ∀ e, 0 ≤ P e := by
      intro e; rw [hP]; dsimp only
      by_cases he : e ∈ S
      · rw [if_pos he]; exact hFS e he
      · rw [if_neg he]
    have hSn : ∀ e ∈ S, e + 1 < n := fun e he => by rw [hS, mem_filter, mem_range] at he; omega
    have e3 : ∑ e ∈ S, nu (e + 1) * (F (e + 1) - F e) - ∑ e ∈ S, nu e * (F e - if 0 < e then F (e - 1) else 0) ≤ 0 := by
      have e4 : ∑ e ∈ S, nu (e + 1) * (F (e + 1) - F e) ≤ ∑ e ∈ range (n - 1), nu (e + 1) * (P (e + 1) - P e) - ∑ e ∈ (range (n - 1)).filter (fun e => e ∉ S), nu (e + 1) * P (e + 1) := by
        rw [← sum_filter_add_sum_filter_not (range (n - 1)) (fun e => e ∈ S) (fun e => nu (e + 1) * (P (e + 1) - P e))]
        have h5 : (range (n - 1)).filter (fun e => e ∈ S) = S := by
          ext e; rw [mem_filter, mem_range]
          exact ⟨fun h => h.2, fun h => ⟨by have := hSn e h; omega, h⟩⟩
        rw [h5]
        have h6 : ∑ e ∈ (range (n - 1)).filter (fun e => e ∉ S), nu (e + 1) * (P (e + 1) - P e) = ∑ e ∈ (range (n - 1)).filter (fun e => e ∉ S), nu (e + 1) * P (e + 1) := by
          refine sum_congr rfl fun e he => ?_
          rw [mem_filter] at he
          have : P e = 0 := by rw [hP]; dsimp only; rw [if_neg he.2]
          rw [this, sub_zero]
        rw [h6, add_sub_cancel_right]
        refine sum_le_sum fun e he => ?_
        have h7 := hFpos (e + 1)
        have h8 : P e = F e := by rw [hP]; dsimp only; rw [if_pos he]
        have h9 : P (e + 1) = if e + 1 ∈ S then F (e + 1) else 0 := by rw [hP]
        rw [h8, h9]
        exact mul_le_mul_of_nonneg_left (by linarith) (hnu _ (hSn e he))
      have e5 : ∑ e ∈ range (n - 1), (nu (e + 1) * (P (e + 1) - P e) - nu e * (P e - if 0 < e then P (e - 1) else 0)) ≤ ∑ e ∈ (range (n - 1)).filter (fun e => e ∉ S), nu (e + 1) * P (e + 1) + ∑ e ∈ (range (n - 1)).filter (fun e => e ∉ S), nu e * (if 0 < e then P (e - 1) else 0) := by
        have h10 : 0 ≤ ∑ e ∈ (range (n - 1)).filter (fun e => e ∉ S), nu (e + 1) * P (e + 1) := sum_nonneg fun e he => by
          rw [mem_filter, mem_range] at he
          exact mul_nonneg (hnu _ (by omega)) (hP0 _)
        have h11 : 0 ≤ ∑ e ∈ (range (n - 1)).filter (fun e => e ∉ S), nu e * (if 0 < e then P (e - 1) else 0) := sum_nonneg fun e he => by
          rw [mem_filter, mem_range] at he
          refine mul_nonneg (hnu _ (by omega)) ?_
          split
          · exact hP0 _
          · exact le_refl _
        refine le_trans ?_ (add_nonneg h10 h11)
        have tele : ∀ M : ℕ, ∑ e ∈ range M, (nu (e + 1) * (P (e + 1) - P e) - nu e * (P e - if 0 < e then P (e - 1) else 0)) =
            nu M * (P M - if 0 < M then P (M - 1) else 0) - nu 0 * P 0 := by
          intro M
          induction M with
          | zero => simp
          | succ M ih =>
            rw [sum_range_succ, ih, if_pos (Nat.succ_pos M), Nat.add_sub_cancel]
            ring
        rw [tele]
        have hn2 : k + 1 < n := hk
        have hPl : P (n - 1) = 0 := by
          rw [hP]; dsimp only
          rw [if_neg]
          intro h; have := hSn _ h; omega
        have h12 := hnu (n - 1) (by omega)
        have h13 := hnu 0 (by omega)
        rw [hPl, if_pos (by omega)]
        have := mul_nonneg h12 (hP0 (n - 1 - 1))
        have := mul_nonneg h13 (hP0 0)
        linarith
      have e6 : ∑ e ∈ range (n - 1), nu e * (P e - if 0 < e then P (e - 1) else 0) + ∑ e ∈ (range (n - 1)).filter (fun e => e ∉ S), nu e * (if 0 < e then P (e - 1) else 0) ≤
          ∑ e ∈ S, nu e * (F e - if 0 < e then F (e - 1) else 0) := by
        rw [← sum_filter_add_sum_filter_not (range (n - 1)) (fun e => e ∈ S) (fun e => nu e * (P e - if 0 < e then P (e - 1) else 0))]
        have h5 : (range (n - 1)).filter (fun e => e ∈ S) = S := by
          ext e; rw [mem_filter, mem_range]
          exact ⟨fun h => h.2, fun h => ⟨by have := hSn e h; omega, h⟩⟩
        rw [h5]
        have h6 : ∑ e ∈ (range (n - 1)).filter (fun e => e ∉ S), nu e * (P e - if 0 < e then P (e - 1) else 0) = -∑ e ∈ (range (n - 1)).filter (fun e => e ∉ S), nu e * (if 0 < e then P (e - 1) else 0) := by
          rw [← sum_neg_distrib]
          refine sum_congr rfl fun e he => ?_
          rw [mem_filter] at he
          have : P e = 0 := by rw [hP]; dsimp only; rw [if_neg he.2]
          rw [this]; ring
        rw [h6, neg_add_cancel_right]
        refine sum_le_sum fun e he => ?_
        have h8 : P e = F e := by rw [hP]; dsimp only; rw [if_pos he]
        rw [h8]
        refine mul_le_mul_of_nonneg_left ?_ (hnu _ (by have := hSn e he; omega))
        by_cases h14 : 0 < e
        · rw [if_pos h14, if_pos h14]
          have h7 := hFpos (e - 1)
          have h9 : P (e - 1) = if e - 1 ∈ S then F (e - 1) else 0 := by rw [hP]
          rw [h9]; linarith
        · rw [if_neg h14, if_neg h14]
      rw [sum_sub_distrib] at e5
      linarith
    rw [e1]
    have := mul_nonpos_of_nonneg_of_nonpos (div_nonneg hdt hdv.le) e3
    linarith
  have hpos : 0 < ∑ e ∈ S, d e := by
    refine sum_pos' (fun e he => ?_) ⟨k, hkS, ?_⟩
    · rw [hS, mem_filter] at he; exact he.2.le
    · rw [hS, mem_filter] at hkS; exact hkS.2
  linarith

/-- C75: inverse bremsstrahlung heating without collisions never cools: from a decreasing
distribution, a step with any non-negative intensity keeps it decreasing and its energy never drops. -/
theorem ib_heats (g : Grid) (hg : g.SpeedOk) (s : Scheme) (hsc : s = .central ∨ s = .changCooper) (nuee beta dt vosc2 ratio : ℝ) (hn : 0 ≤ nuee) (hdt : 0 ≤ dt) (hv : 0 ≤ vosc2)
    (f f' : ℕ → ℝ) (hf : ∀ e, e + 1 < g.nv → f (e + 1) ≤ f e)
    (hs : g.F0Step .null s nuee beta (Heating.passed none (some vosc2) (some ratio)) dt f f') :
    (∀ e, e + 1 < g.nv → f' (e + 1) ≤ f' e) ∧
    ∑ j ∈ range g.nv, g.v j ^ 4 * f j ≤ ∑ j ∈ range g.nv, g.v j ^ 4 * f' j := by
  have hdv := dv_pos' hg
  obtain ⟨H, hH⟩ : ∃ H, H = Heating.passed none (some vosc2) (some ratio) := ⟨_, rfl⟩
  rw [← hH] at hs
  have hDh : ∀ e, 0 ≤ g.heat H (fun _ => 0) e := by
    intro e
    rw [hH, heat_passed]
    have := vEdge_pos hg e
    simp only [Option.getD_none, Option.getD_some]
    positivity
  obtain ⟨D, hD, hfl⟩ : ∃ D : ℕ → ℝ, (∀ e, 0 ≤ D e) ∧ g.f0Flux .null s beta H f = fun x e => D e * (x (e + 1) - x e) / g.dv := by
    rcases hsc with rfl | rfl
    · refine ⟨_, hDh, ?_⟩
      funext x e
      unfold Grid.f0Flux Grid.weightOf flux Grid.coeffs
      dsimp only
      ring
    · refine ⟨_, fun e => (safeD_pos (g.heat H (fun _ => 0)) e).le, ?_⟩
      funext x e
      unfold Grid.f0Flux Grid.weightOf flux Grid.coeffs
      dsimp only
      ring
  have hst := (f0_is_finite_volume ..).1 hs
  rw [hfl] at hst
  have hmono := diffusion_monotone hdt hdv (fun j _ => div_nonneg hn (by positivity)) (fun e _ => hD e) hst hf
  refine ⟨hmono, ?_⟩
  rw [f0_energy g hg _ _ nuee beta _ dt f f' hs, hfl, le_sub_self_iff]
  refine mul_nonpos_of_nonneg_of_nonpos (div_nonneg (mul_nonneg hdt hn) hdv.le) (sum_nonpos fun e he => ?_)
  have he' : e + 1 < g.nv := by rw [mem_range] at he; omega
  have := hmono e he'
  refine mul_nonpos_of_nonpos_of_nonneg (div_nonpos_of_nonpos_of_nonneg (mul_nonpos_of_nonneg_of_nonpos (hD e) (by linarith)) hdv.le) (dEps_pos hg e).le

/-- C75: the ratio of the electron-ion rate to the laser frequency that a step hands to the heating
agrees with the rate the anisotropic collisions use exactly when the reference charge is one (or nothing
collides): the state stores the charge relative to it. -/
theorem ib_ratio_agrees (c : Flm) (Z ni w0 : ℝ) (hw : w0 ≠ 0) :
    ibRatio Z ni c.nuee c.logLam w0 = c.nuei * (Z ^ 2 * ni) / w0 ↔ c.Z ^ 2 = 1 ∨ c.nuee * c.logLam * Z ^ 2 * ni = 0 := by
  unfold ibRatio Flm.nuei
  rw [div_left_inj' hw]
  constructor
  · intro h
    have : (c.Z ^ 2 - 1) * (c.nuee * c.logLam * Z ^ 2 * ni) = 0 := by linarith
    rcases mul_eq_zero.1 this with h | h
    · left; linarith
    · right; exact h
  · rintro (h | h)
    · rw [h]; ring
    · have : c.nuee * c.Z ^ 2 * c.logLam * (Z ^ 2 * ni) = c.Z ^ 2 * (c.nuee * c.logLam * Z ^ 2 * ni) := by ring
      rw [this, h]; ring

/-- C73: the edge value is the logarithmic mean of its neighbours (the exact ratio of the two
differences) to one part in `10 ^ 16`, for all positive neighbours; equal neighbours give their value. -/
theorem logMean_accurate (f : ℕ → ℝ) (e : ℕ) (ha : 1 / 10 ^ 300 ≤ f e) (hb : 1 / 10 ^ 300 ≤ f (e + 1)) :
    (f e = f (e + 1) → logMeanInterp f e = f e) ∧
    (f e ≠ f (e + 1) → (f (e + 1) - f e) / Real.log (f (e + 1) / f e) ≤ logMeanInterp f e ∧
      logMeanInterp f e ≤ (f (e + 1) - f e) / Real.log (f (e + 1) / f e) * (1 + 1 / 10 ^ 16)) := by
  have fl : (0 : ℝ) < 1 / 10 ^ 300 := by positivity
  have pa := lt_of_lt_of_le fl ha
  have pb := lt_of_lt_of_le fl hb
  unfold logMeanInterp
  dsimp only
  rw [max_eq_left ha, max_eq_left hb]
  have hneg : ¬ (f e < 1 / 10 ^ 300 ∨ f (e + 1) < 1 / 10 ^ 300) := not_or.2 ⟨not_lt.2 ha, not_lt.2 hb⟩
  constructor
  · intro h
    rw [← h, div_self pa.ne', Real.log_one, if_pos (by left; norm_num)]
    ring
  · intro hne
    have key : ∀ a b : ℝ, 0 < a → a < b → Real.log (b / a) < 1 / 10 ^ 8 → (a + b) / 2 ≤ (b - a) / Real.log (b / a) * (1 + 1 / 10 ^ 16) := by
      intro a b pa hab hx
      obtain ⟨x, hx'⟩ : ∃ x, x = Real.log (b / a) := ⟨_, rfl⟩
      have h1 : 1 < b / a := (one_lt_div pa).2 hab
      have px : 0 < x := hx' ▸ Real.log_pos h1
      rw [← hx'] at hx ⊢
      have hE : b = a * Real.exp x := by rw [hx', Real.exp_log (by linarith)]; field_simp
      have q := Real.quadratic_le_exp_of_nonneg px.le
      have hx2 : x ^ 2 ≤ 1 / 10 ^ 16 := by
        have : x ^ 2 ≤ (1 / 10 ^ 8) ^ 2 := pow_le_pow_left₀ px.le hx.le 2
        calc x ^ 2 ≤ _ := this
          _ = _ := by norm_num
      have h2 : (1 + Real.exp x) * x ≤ 2 * (1 + x ^ 2) * (Real.exp x - 1) := by
        nlinarith [mul_le_mul_of_nonneg_right q (by nlinarith [sq_nonneg (x - 1)] : (0 : ℝ) ≤ 2 - x + 2 * x ^ 2), pow_pos px 3, pow_pos px 4]
      rw [div_mul_eq_mul_div, le_div_iff₀ px, hE]
      have h3 : 0 ≤ a * (Real.exp x - 1) := mul_nonneg pa.le (by linarith [Real.add_one_le_exp x])
      nlinarith [mul_le_mul_of_nonneg_left h2 pa.le, mul_le_mul_of_nonneg_left hx2 h3]
    have hlt := logMean_lt_mean pa pb hne
    split_ifs with hc
    · rw [show (0.5 : ℝ) * (f e + f (e + 1)) = (f e + f (e + 1)) / 2 by ring]
      refine ⟨hlt.le, ?_⟩
      have hc' : |Real.log (f (e + 1) / f e)| < 1 / 10 ^ 8 := hc.resolve_right hneg
      rcases lt_or_gt_of_ne hne with h1 | h1
      · exact key _ _ pa h1 (lt_of_le_of_lt (le_abs_self _) hc')
      · have e1 : Real.log (f e / f (e + 1)) = -Real.log (f (e + 1) / f e) := by rw [← Real.log_inv, inv_div]
        have := key _ _ pb h1 (by rw [e1]; exact lt_of_le_of_lt (neg_le_abs _) hc')
        rw [e1] at this
        calc (f e + f (e + 1)) / 2 = (f (e + 1) + f e) / 2 := by ring
          _ ≤ _ := this
          _ = _ := by rw [div_neg, ← neg_div, neg_sub]
    · refine ⟨le_rfl, ?_⟩
      have : 0 ≤ (f (e + 1) - f e) / Real.log (f (e + 1) / f e) := by
        rcases lt_or_gt_of_ne hne with h1 | h1
        · exact (div_pos (by linarith) (Real.log_pos ((one_lt_div pa).2 h1))).le
        · exact (div_pos_of_neg_of_neg (by linarith) (Real.log_neg (by positivity) ((div_lt_one pa).2 h1))).le
      nlinarith

/-- A slope so small that the arithmetic mean replaces the logarithmic one. -/
example : ∃ f : ℕ → ℝ, 1 / 10 ^ 300 ≤ f 0 ∧ 1 / 10 ^ 300 ≤ f 1 ∧ f 0 ≠ f 1 ∧ |Real.log (f 1 / f 0)| < 1 / 10 ^ 8 := by
  have h300 : (1 : ℝ) / 10 ^ 300 ≤ 1 := (div_le_one (by positivity)).2 (one_le_pow₀ (by norm_num))
  refine ⟨fun j => Real.exp (j / 10 ^ 9), ?_, ?_, ?_, ?_⟩
  · simpa using h300
  · exact h300.trans (Real.one_le_exp (by positivity))
  · intro h
    have := Real.exp_injective h
    norm_num at this
  · dsimp only
    rw [← Real.exp_sub, Real.log_exp]
    norm_num

/-! ### Anisotropic collisions (C76) -/

theorem harmonic_order (g : Grid) (c : Flm) (il : ℕ) (Z ni : ℝ) (f0 flm : ℕ → ℝ) (dt : ℝ) (ex : ℕ → ℝ) (r : Except String (ℕ → ℝ))
    (h : g.Harmonic c il Z ni f0 flm dt ex r) : (∃ m, r = .error m) ↔ il = 0 ∨ c.nl < il := by
  cases h with
  | order h => exact ⟨fun _ => by omega, fun _ => ⟨_, rfl⟩⟩
  | full h => exact ⟨fun ⟨_, h⟩ => by simp at h, fun h => by omega⟩
  | scaled h => exact ⟨fun ⟨_, h⟩ => by simp at h, fun h => by omega⟩

/-- C76: in the scaled mode every harmonic is damped by the factor of an implicit step with the
electron-ion rate times `(Z + 4.2) / (Z + 0.24)`, whatever the step size: no sign change, no growth. -/
theorem scaled_damping (g : Grid) (hg : g.SpeedOk) (c : Flm) (il : ℕ) (Z ni : ℝ) (f0 flm : ℕ → ℝ) (dt : ℝ) (ex : ℕ → ℝ) (hc : c.full = false) (hil : 1 ≤ il ∧ il ≤ c.nl)
    (hZ : 0 < c.Z) (hnu : 0 ≤ c.nuee) (hlam : 0 ≤ c.logLam) (hni : 0 ≤ ni) (hdt : 0 ≤ dt) :
    ∃ x, (∀ r, g.Harmonic c il Z ni f0 flm dt ex r ↔ r = .ok x) ∧ ∀ j,
      x j * (1 + dt * (c.nuee * c.Z ^ 2 * c.logLam * ((c.Z + 4.2) / (c.Z + 0.24))) * (il * (il + 1) / 2) * (Z ^ 2 * ni) / g.v j ^ 3) = flm j ∧
      |x j| ≤ |flm j| ∧ 0 ≤ x j * flm j := by
  refine ⟨fun j => flm j / (1 - dt * c.nuei * c.scaling * g.eiDiag il Z ni j), fun r => ⟨fun h => ?_, ?_⟩, fun j => ?_⟩
  · cases h with
    | order h => exact absurd hil h
    | full _ hf => rw [hc] at hf; exact absurd hf (by decide)
    | scaled => rfl
  · rintro rfl
    exact .scaled hil hc
  · have hv := v_pos' hg j
    have hden : 1 - dt * c.nuei * c.scaling * g.eiDiag il Z ni j = 1 + dt * (c.nuee * c.Z ^ 2 * c.logLam * ((c.Z + 4.2) / (c.Z + 0.24))) * (il * (il + 1) / 2) * (Z ^ 2 * ni) / g.v j ^ 3 := by
      unfold Flm.nuei Flm.scaling Grid.eiDiag
      ring
    have hge : 0 ≤ dt * (c.nuee * c.Z ^ 2 * c.logLam * ((c.Z + 4.2) / (c.Z + 0.24))) * (il * (il + 1) / 2) * (Z ^ 2 * ni) / g.v j ^ 3 := by
      have : (0 : ℝ) ≤ (c.Z + 4.2) / (c.Z + 0.24) := by
        refine div_nonneg ?_ ?_ <;> norm_num <;> linarith
      positivity
    dsimp only
    rw [hden]
    refine ⟨div_mul_cancel₀ _ (by linarith), ?_, ?_⟩
    · rw [abs_div, abs_of_pos (by linarith : (0:ℝ) < 1 + _)]
      exact div_le_self (abs_nonneg _) (by linarith)
    · rw [div_mul_eq_mul_div]
      exact div_nonneg (mul_self_nonneg _) (by linarith)

/-- C76: without a background the full operator is pure electron-ion scattering (unscaled). -/
theorem full_without_background (g : Grid) (hg : g.SpeedOk) (c : Flm) (il : ℕ) (Z ni : ℝ) (flm : ℕ → ℝ) (dt : ℝ) (hc : c.full = true) (hil : 1 ≤ il ∧ il ≤ c.nl)
    (hnu : 0 ≤ c.nuee) (hlam : 0 ≤ c.logLam) (hni : 0 ≤ ni) (hdt : 0 ≤ dt) (x : ℕ → ℝ)
    (h : g.Harmonic c il Z ni (fun _ => 0) flm dt (fun _ => 0) (.ok x)) (j : ℕ) (hj : j < g.nv) :
    x j * (1 + dt * (c.nuee * c.Z ^ 2 * c.logLam) * (il * (il + 1) / 2) * (Z ^ 2 * ni) / g.v j ^ 3) = flm j := by
  have hI : ∀ p i, g.rosI (fun _ => 0) p i = 0 := fun p i => by unfold Grid.rosI; simp
  have hJ : ∀ p i, g.rosJ (fun _ => 0) p i = 0 := fun p i => by unfold Grid.rosJ; simp
  have hr : g.eeRows (fun _ => 0) il = (fun _ => 0, fun _ => 0, fun _ => 0) := by
    unfold Grid.eeRows
    simp [hI, hJ]
  generalize hr' : (Except.ok x : Except String (ℕ → ℝ)) = r at h
  cases h with
  | order h => exact absurd hil h
  | scaled _ hf => rw [hc] at hf; exact absurd hf (by decide)
  | full _ _ y hy =>
    have := hy j hj
    unfold Tri.mv Grid.flmOperator at this
    rw [hr] at this
    simp only [mul_zero, zero_mul, ite_self, add_zero] at this
    have e : x = fun j => y j + 0 := by simpa using hr'
    rw [e, ← this]
    unfold Flm.nuei Grid.eiDiag
    ring

/-- A harmonic of order `l` continued across the origin and above the speed grid. -/
def Grid.beyond (g : Grid) (l : ℕ) (x : ℕ → ℝ) (j : ℤ) : ℝ :=
  if j < 0 then (-1) ^ l * x (-1 - j).toNat else if j < g.nv then x j.toNat else 0

/-- C76: the full operator is the backward Euler step of electron-ion scattering plus the part of the
Rosenbluth operator (Tzoufras 2011, eq. 41) that acts on the harmonic through the isotropic background:
`8π f0 x + (I2 + J₋₁)/(3v) x'' + (-I2 + 2 J₋₁ + 3 I0)/(3v²) (x' - l(l+1)/(2v) x)`, the derivatives
centred and the harmonic continued by its parity. -/
theorem full_step (g : Grid) (hg : g.SpeedOk) (c : Flm) (il : ℕ) (Z ni : ℝ) (f0 flm : ℕ → ℝ) (dt : ℝ) (hc : c.full = true) (x : ℕ → ℝ)
    (h : g.Harmonic c il Z ni f0 flm dt (fun _ => 0) (.ok x)) (j : ℕ) (hj : j < g.nv) :
    let below := fun q : ℕ => ∑ k ∈ range (j + 1), g.v k ^ (2 + q) * f0 k * g.dv
    let above := ∑ k ∈ Ico j g.nv, g.v k * f0 k * g.dv
    let I0 := 4 * Real.pi * below 0
    let I2 := 4 * Real.pi / g.v j ^ 2 * below 2
    let J1 := 4 * Real.pi * g.v j * above
    let d2 := (g.beyond il x (j + 1) - 2 * x j + g.beyond il x (j - 1)) / g.dv ^ 2
    let d1 := (g.beyond il x (j + 1) - g.beyond il x (j - 1)) / (2 * g.dv)
    x j - flm j = dt * (-(c.nuee * c.Z ^ 2 * c.logLam) * (il * (il + 1) / 2) * (Z ^ 2 * ni) / g.v j ^ 3 * x j
      + c.nuee * (8 * Real.pi * f0 j * x j + (I2 + J1) / (3 * g.v j) * d2
        + (-I2 + 2 * J1 + 3 * I0) / (3 * g.v j ^ 2) * (d1 - il * (il + 1) / (2 * g.v j) * x j))) := by
  intro below above I0 I2 J1 d2 d1
  have hv : g.v j ≠ 0 := (v_pos' hg j).ne'
  have hdv : g.dv ≠ 0 := (dv_pos' hg).ne'
  generalize hr' : (Except.ok x : Except String (ℕ → ℝ)) = r at h
  cases h with
  | order h => simp at hr'
  | scaled _ hf => rw [hc] at hf; exact absurd hf (by decide)
  | full _ _ y hy =>
    have e : x = y := by simpa using hr'
    subst e
    have eI0 : g.rosI f0 0 j = I0 := by
      simp only [I0, below, Grid.rosI, neg_zero, zpow_zero, mul_one, add_zero, ← sum_mul]
      rw [mul_assoc]; congr 1
    have eI2 : g.rosI f0 2 j = I2 := by
      simp only [I2, below, Grid.rosI, ← sum_mul]
      have : (g.v j) ^ (-2 : ℤ) = 1 / g.v j ^ 2 := by rw [zpow_neg, one_div]; rfl
      rw [this]
      have : ∀ k, g.v k ^ (2 + 2 : ℤ) = g.v k ^ (2 + 2) := fun k => by norm_cast
      simp only [this]; ring
    have eJ1 : g.rosJ f0 (-1) j = J1 := by
      simp only [J1, above, Grid.rosJ, neg_neg, zpow_one, ← sum_mul]
      have : ∀ k, g.v k ^ (2 + -1 : ℤ) = g.v k := fun k => by norm_num
      simp only [this]; ring
    have hm := hy j hj
    have up : g.beyond il x (j + 1) = if j + 1 < g.nv then x (j + 1) else 0 := by
      unfold Grid.beyond
      rw [if_neg (by omega)]
      by_cases hlt : j + 1 < g.nv
      · rw [if_pos (by omega), if_pos hlt]; rfl
      · rw [if_neg (by omega), if_neg hlt]
    have lo : g.beyond il x (j - 1) = if j = 0 then (-1) ^ il * x 0 else x (j - 1) := by
      unfold Grid.beyond
      by_cases h0 : j = 0
      · subst h0; rw [if_pos (by norm_num), if_pos rfl]; rfl
      · rw [if_neg (by omega), if_pos (by omega), if_neg h0]; congr 1; omega
    have par : (if il % 2 = 1 then (-1 : ℝ) else 1) = (-1) ^ il := by
      rcases Nat.even_or_odd il with h | h
      · rw [if_neg (by have := Nat.even_iff.1 h; omega), h.neg_one_pow]
      · rw [if_pos (Nat.odd_iff.1 h), h.neg_one_pow]
    simp only [Tri.mv, Grid.flmOperator, Grid.eeRows, Flm.nuei, Grid.eiDiag] at hm
    rw [← hm]
    simp only [d2, d1]
    rw [up, lo, par]
    clear_value I0 I2 J1
    by_cases h0 : j = 0
    · subst h0
      simp only [if_true, eI0, eI2, eJ1, lt_irrefl, if_false]
      split <;> field_simp <;> ring
    · have e1 : j - 1 + 1 = j := by omega
      rw [if_neg h0, if_neg h0, if_pos (by omega : 0 < j)]
      simp only [e1, eI0, eI2, eJ1]
      split <;> field_simp <;> ring

/-- Every new harmonic is the outcome of some old one. -/
example (g : Grid) (x f0 : ℕ → ℝ) : ∃ flm : ℕ → ℝ,
    g.Harmonic ⟨1, 1 / 10, 1, 2, true⟩ 1 1 1 f0 flm (1 / 10) (fun _ => 0) (.ok x) := by
  refine ⟨fun j => (g.flmOperator ⟨1, 1 / 10, 1, 2, true⟩ 1 1 1 f0 (1 / 10)).mv g.nv x j, ?_⟩
  have := Grid.Harmonic.full (g := g) (c := ⟨1, 1 / 10, 1, 2, true⟩) (il := 1) (Z := 1) (ni := 1) (f0 := f0) (dt := 1 / 10)
    (flm := fun j => (g.flmOperator ⟨1, 1 / 10, 1, 2, true⟩ 1 1 1 f0 (1 / 10)).mv g.nv x j) (explicit := fun _ => 0) ⟨by norm_num, by norm_num⟩ rfl x fun _ _ => rfl
  simpa using this

/-- C76: the implicit part is linear: solutions for two anisotropies add up to the solution for the
sum (real and imaginary parts are solved separately on this ground). -/
theorem full_linear (g : Grid) (c : Flm) (il : ℕ) (Z ni : ℝ) (f0 p q ex ex' : ℕ → ℝ) (dt a b : ℝ) (x y : ℕ → ℝ) (hc : c.full = true)
    (hx : g.Harmonic c il Z ni f0 p dt ex (.ok x)) (hy : g.Harmonic c il Z ni f0 q dt ex' (.ok y)) :
    g.Harmonic c il Z ni f0 (fun j => a * p j + b * q j) dt (fun j => a * ex j + b * ex' j) (.ok fun j => a * x j + b * y j) := by
  generalize hr : (Except.ok x : Except String (ℕ → ℝ)) = r at hx
  generalize hs : (Except.ok y : Except String (ℕ → ℝ)) = s at hy
  cases hx with
  | order => simp at hr
  | scaled _ hf => rw [hc] at hf; exact absurd hf (by decide)
  | full h hf u hu =>
    cases hy with
    | order => simp at hs
    | scaled _ hf => rw [hc] at hf; exact absurd hf (by decide)
    | full _ _ w hw =>
      have ex1 : x = fun j => u j + ex j := by simpa using hr
      have ey1 : y = fun j => w j + ex' j := by simpa using hs
      have e : (fun j => a * x j + b * y j) = fun j => (a * u j + b * w j) + (a * ex j + b * ex' j) := by
        rw [ex1, ey1]; funext j; ring
      rw [e]
      refine .full h hf (fun j => a * u j + b * w j) fun j hj => ?_
      rw [← hu j hj, ← hw j hj]
      unfold Tri.mv
      split <;> split <;> ring

/-! ### Coulomb logarithm (C77) -/

theorem logLambda_known (cfg : LogLambdaCfg) (ne Te Ti Z : ℝ) (force : Bool) :
    (∃ p, logLambda cfg ne Te Ti Z force = .ok p) ↔
      (∃ x, cfg = .number x) ∨ ∃ s ∈ ["lee-more", "lee_more", "leemore", "nrl"], cfg = .name s := by
  cases cfg with
  | number x => exact ⟨fun _ => .inl ⟨x, rfl⟩, fun _ => ⟨_, rfl⟩⟩
  | other => simp [logLambda]
  | name s =>
    unfold logLambda
    by_cases h1 : s ∈ ["lee-more", "lee_more", "leemore"]
    · simp only [if_pos h1]
      refine ⟨fun _ => .inr ⟨s, ?_, rfl⟩, fun _ => ⟨_, rfl⟩⟩
      simp only [List.mem_cons, List.not_mem_nil, or_false] at h1 ⊢
      tauto
    · simp only [if_neg h1]
      by_cases h2 : s = "nrl"
      · simp only [if_pos h2]
        exact ⟨fun _ => .inr ⟨s, by rw [h2]; simp, rfl⟩, fun _ => ⟨_, rfl⟩⟩
      · simp only [if_neg h2]
        constructor
        · rintro ⟨_, h⟩; simp at h
        · rintro (⟨_, h⟩ | ⟨t, ht, h⟩)
          · simp at h
          · obtain rfl : s = t := by simpa using h
            simp only [List.mem_cons, List.not_mem_nil, or_false] at h1 ht
            tauto

/-- C77: a computed logarithm is at least 2, a given number is used as it is, and asking for equal
logarithms gives equal ones. -/
theorem logLambda_spec (cfg : LogLambdaCfg) (ne Te Ti Z : ℝ) (force : Bool) (p : ℝ × ℝ) (h : logLambda cfg ne Te Ti Z force = .ok p) :
    (∀ s, cfg = .name s → 2 ≤ p.1 ∧ 2 ≤ p.2) ∧ (∀ x, cfg = .number x → p = (x, x)) ∧ (force = true → p.2 = p.1) := by
  cases cfg with
  | other => simp [logLambda] at h
  | number x =>
    refine ⟨fun _ hc => by simp at hc, fun y hy => ?_, fun hf => ?_⟩
    · obtain rfl : x = y := by simpa using hy
      unfold logLambda at h
      cases force <;> simpa using h.symm
    · subst hf
      unfold logLambda at h
      simp at h
      rw [← h]
  | name s =>
    refine ⟨fun _ _ => ?_, fun _ hc => by simp at hc, fun hf => ?_⟩
    · unfold logLambda at h
      by_cases h1 : s ∈ ["lee-more", "lee_more", "leemore"]
      · simp only [if_pos h1, Except.ok.injEq] at h
        rw [← h]
        cases force <;> exact ⟨le_max_left _ _, le_max_left _ _⟩
      · simp only [if_neg h1] at h
        by_cases h2 : s = "nrl"
        · simp only [if_pos h2, Except.ok.injEq] at h
          rw [← h]
          have key : (2 : ℝ) ≤ if Te > 10 * Z ^ 2 then max 2 (24 - 0.5 * Real.log ne + Real.log Te) else max 2 (23 - 0.5 * Real.log ne + 1.5 * Real.log Te - Real.log Z) := by
            split <;> exact le_max_left _ _
          cases force
          · exact ⟨key, le_max_left _ _⟩
          · exact ⟨key, key⟩
        · simp [if_neg h2] at h
    · subst hf
      unfold logLambda at h
      by_cases h1 : s ∈ ["lee-more", "lee_more", "leemore"]
      · simp only [if_pos h1, Except.ok.injEq] at h
        rw [← h]; rfl
      · simp only [if_neg h1] at h
        by_cases h2 : s = "nrl"
        · simp only [if_pos h2, Except.ok.injEq] at h
          rw [← h]; rfl
        · simp [if_neg h2] at h

/-! ### The premises are met -/

theorem logMean_ge {g : Grid} {f : ℕ → ℝ} (hf : g.Resolved f) {e : ℕ} (he : e + 1 < g.nv) {c : ℝ} (h1 : c ≤ f e) (h2 : c ≤ f (e + 1)) : c ≤ logMeanInterp f e := by
  rw [← (logMean_resolved hf he).2.2]
  have h := chang_cooper_average (-Real.log (max (f (e + 1)) (1 / 10 ^ 200) / max (f e) (1 / 10 ^ 200)))
  change 0 < lmWeight f e ∧ lmWeight f e < 1 at h
  nlinarith [mul_nonneg h.1.le (sub_nonneg.2 h1), mul_nonneg (sub_nonneg.2 h.2.le) (sub_nonneg.2 h2)]

/-- Three cells of speed, a Maxwellian. -/
noncomputable def exGrid : Grid := { xmin := 0, xmax := 1, nx := 1, dt := 1, nv := 3, vmax := 3, boundary := "periodic", geometry := "cartesian" }
noncomputable def exMax (j : ℕ) : ℝ := Real.exp (-1 * exGrid.v j ^ 2)

theorem exGrid_ok : exGrid.SpeedOk := ⟨by decide, by unfold exGrid; norm_num⟩

theorem exGrid_v (j : ℕ) : exGrid.v j = 1 / 2 + j := by
  unfold Grid.v Grid.dv exGrid; norm_num

theorem exMax_low (j : ℕ) (hj : j < 3) : 1 / 10 ^ 4 ≤ exMax j := by
  unfold exMax
  rw [exGrid_v, neg_one_mul, Real.exp_neg, inv_eq_one_div]
  refine one_div_le_one_div_of_le (Real.exp_pos _) ?_
  have h1 : (1 / 2 + (j : ℝ)) ^ 2 ≤ 7 := by
    have h3 : (j : ℝ) ≤ 2 := by exact_mod_cast (by omega : j ≤ 2)
    have : (0 : ℝ) ≤ j := by positivity
    nlinarith
  have h2 : Real.exp 1 < 3 := by linarith [Real.exp_one_lt_d9]
  calc Real.exp ((1 / 2 + (j : ℝ)) ^ 2) ≤ Real.exp 7 := Real.exp_le_exp.2 h1
    _ = Real.exp 1 ^ 7 := by rw [← Real.exp_nat_mul]; norm_num
    _ ≤ 3 ^ 7 := pow_le_pow_left₀ (Real.exp_pos 1).le h2.le 7
    _ ≤ 10 ^ 4 := by norm_num

theorem exMax_resolved : exGrid.Resolved exMax := by
  refine ⟨fun j hj => le_trans ?_ (exMax_low j hj), fun e _ => .inr ?_⟩
  · exact one_div_le_one_div_of_le (by positivity) (pow_le_pow_right₀ (by norm_num) (by norm_num))
  · unfold exMax
    rw [← Real.exp_sub, Real.log_exp, exGrid_v, exGrid_v]
    have : (-1 * (1 / 2 + ((e + 1 : ℕ) : ℝ)) ^ 2 - -1 * (1 / 2 + (e : ℝ)) ^ 2) = -(2 + 2 * (e : ℝ)) := by push_cast; ring
    rw [this, abs_neg, abs_of_nonneg (by positivity)]
    have : (0 : ℝ) ≤ e := by positivity
    norm_num
    linarith

theorem exMax_diffusive : exGrid.Diffusive .coulombian exMax := by
  intro e he
  have hg := exGrid_ok
  have hK := coulombian_kernel exGrid hg
  have he2 : e < 2 := by
    have : exGrid.nv = 3 := rfl
    omega
  have hee : e < exGrid.nv - 1 := by
    have : exGrid.nv = 3 := rfl
    omega
  have hpos : ∀ j ∈ range (exGrid.nv - 1), 0 ≤ 4 * Real.pi / 3 * min (exGrid.sqrtEps e ^ 3) (exGrid.sqrtEps j ^ 3) * logMeanInterp exMax j * exGrid.dEps j := by
    intro j hj
    rw [mem_range] at hj
    exact (mul_pos (mul_pos (hK.pos e hee j hj) (logMean_resolved exMax_resolved (by omega)).1) (dEps_pos hg j)).le
  have h1 : 4 * Real.pi / 3 * min (exGrid.sqrtEps e ^ 3) (exGrid.sqrtEps e ^ 3) * logMeanInterp exMax e * exGrid.dEps e ≤ exGrid.kernelOf .coulombian (logMeanInterp exMax) e := by
    show _ ≤ exGrid.coulombianKernel (logMeanInterp exMax) e
    rw [hK.eq _ e hee]
    exact single_le_sum hpos (mem_range.2 hee)
  have h2 : (1 : ℝ) ≤ exGrid.sqrtEps e := by
    refine Real.one_le_sqrt.2 ?_
    rw [exGrid_v, exGrid_v]
    have : (0 : ℝ) ≤ e := by positivity
    push_cast
    nlinarith
  have h3 : (1 : ℝ) ≤ exGrid.sqrtEps e ^ 3 := one_le_pow₀ h2
  have h4 : 1 / 10 ^ 4 ≤ logMeanInterp exMax e := logMean_ge exMax_resolved he (exMax_low e (by omega)) (exMax_low (e + 1) (by omega))
  have h5 : exGrid.dEps e = 2 * exGrid.vEdge e := by
    rw [(dEps_eq exGrid e).2]
    have : exGrid.dv = 1 := by unfold Grid.dv exGrid; norm_num
    rw [this]; ring
  rw [min_self, h5] at h1
  have hve := vEdge_pos hg e
  rw [le_div_iff₀ (by positivity)]
  refine le_trans ?_ h1
  refine mul_le_mul_of_nonneg_right ?_ (by positivity)
  have h6 : (1 : ℝ) ≤ 4 * Real.pi / 3 := by linarith [Real.pi_gt_three]
  calc (1 : ℝ) / 10 ^ 30 ≤ 1 * 1 * (1 / 10 ^ 4) := by norm_num
    _ ≤ 4 * Real.pi / 3 * exGrid.sqrtEps e ^ 3 * logMeanInterp exMax e :=
      mul_le_mul (mul_le_mul h6 h3 (by norm_num) (by positivity)) h4 (by norm_num) (by positivity)

/-- A Maxwellian on three cells is an equilibrium of the log-mean scheme ... -/
example : exGrid.F0Step .coulombian .logMean 1 0 noHeat 1 exMax exMax :=
  (f0_equilibrium exGrid exGrid_ok .coulombian (.inl rfl) 1 0 1 one_pos one_pos exMax exMax_resolved exMax_diffusive).2
    ⟨1, 1, fun j _ => by unfold exMax; ring_nf⟩

/-- ... carries no energy there, loses some with central differences and is no equilibrium of those. -/
example : ∑ j ∈ range exGrid.nv, exGrid.v j ^ 4 * (exGrid.f0Operator .coulombian .logMean 1 0 noHeat exMax 1).mv exGrid.nv exMax j =
    ∑ j ∈ range exGrid.nv, exGrid.v j ^ 4 * exMax j :=
  f0_energy_tendency exGrid exGrid_ok .coulombian (.inl rfl) 1 0 1 exMax exMax_resolved exMax_diffusive

theorem exMax_decreasing : ∀ e, e + 1 < exGrid.nv → exMax (e + 1) < exMax e := by
  intro e _
  unfold exMax
  rw [exGrid_v, exGrid_v, Real.exp_lt_exp]
  have : (0 : ℝ) ≤ e := by positivity
  push_cast
  nlinarith

example : ¬ exGrid.F0Step .coulombian .central 1 0 noHeat 1 exMax exMax :=
  central_moves_maxwellian exGrid exGrid_ok .coulombian (.inl rfl) 1 0 1 one_pos one_pos 1 1 one_ne_zero exMax exMax_resolved
    fun j _ => by unfold exMax; ring_nf

example : ∑ j ∈ range exGrid.nv, exGrid.v j ^ 4 * exMax j <
    ∑ j ∈ range exGrid.nv, exGrid.v j ^ 4 * (exGrid.f0Operator .coulombian .central 1 0 noHeat exMax 1).mv exGrid.nv exMax j :=
  central_loses_energy exGrid exGrid_ok .coulombian (.inl rfl) 1 0 1 one_pos one_pos exMax exMax_resolved exMax_decreasing

/-- Chang-Cooper steps exist from it, with heating: one that heats. -/
example : ∃ f', exGrid.F0Step .null .changCooper 1 0 (Heating.passed none (some 2) (some 3)) 1 exMax f' ∧
    ∑ j ∈ range exGrid.nv, exGrid.v j ^ 4 * exMax j ≤ ∑ j ∈ range exGrid.nv, exGrid.v j ^ 4 * f' j := by
  obtain ⟨f', hf'⟩ := (f0_chang_cooper exGrid exGrid_ok .null 1 0 (Heating.passed none (some 2) (some 3)) 1 zero_le_one zero_le_one exMax).1
  exact ⟨f', hf', (ib_heats exGrid exGrid_ok .changCooper (.inr rfl) 1 0 1 2 3 zero_le_one zero_le_one (by norm_num) exMax f'
    (fun e he => (exMax_decreasing e he).le) hf').2⟩

/-- Damping of the first harmonic at charge 2. -/
example : ∃ x, exGrid.Harmonic ⟨2, 1, 1, 1, false⟩ 1 1 (1 / 2) exMax (fun _ => 3) 5 (fun _ => 0) (.ok x) ∧ ∀ j, |x j| ≤ 3 := by
  obtain ⟨x, hx, h⟩ := scaled_damping exGrid exGrid_ok ⟨2, 1, 1, 1, false⟩ 1 1 (1 / 2) exMax (fun _ => 3) 5 (fun _ => 0) rfl ⟨le_refl _, le_refl _⟩
    (by norm_num) (by norm_num) (by norm_num) (by norm_num) (by norm_num)
  exact ⟨x, (hx _).2 rfl, fun j => by simpa using (h j).2.1⟩

/-- The two electron-ion rates differ at charge 2. -/
example : ibRatio 1 (1 / 2) 1 1 1 ≠ (Flm.nuei ⟨2, 1, 1, 1, false⟩) * (1 ^ 2 * (1 / 2)) / 1 := by
  intro h
  have := (ib_ratio_agrees ⟨2, 1, 1, 1, false⟩ 1 (1 / 2) 1 one_ne_zero).1 h
  norm_num at this

end Verif.Vfp
