import Verif.Props.Vlasov2dCollide
import Verif.Props.Vfp2dPoisson

/-! C95, C97-C100, C102: Gauss's law, initial state, sharded initialization, drivers, diagnostics of Vlasov-2D. -/
namespace Verif.Vlasov2d
open Finset Complex Verif.Spectral
open Verif.Vfp2d (Deriv Scal ddx ddy)

variable {nx ny : ℕ} [NeZero nx] [NeZero ny]

/-! ### Gauss's law -/

/-- C95: over one step of a run with evolving fields the error of Gauss's law changes by the failure of
the continuity equation between the moved charge and the current of the moved distribution (with the
driver's current), and by nothing else. -/
theorem step_gauss (p : Setup nx ny) (hm : p.skipMaxwell = false) (t : ℝ) (st : State nx ny) (x : ZMod nx) (y : ZMod ny) :
    divE p.dx p.dy (step p t st).em x y = divE p.dx p.dy st.em x y
      - p.dt * (ddx (.spectral p.dx) (fun a b => currentX (st.species.map (kinetic p.kind p.ip p.dx p.dy p.dt st.em.ex st.em.ey st.em.bz)) a b
            + driverJ p.xs p.ys p.exDrivers (t + 0.5 * p.dt) a b) x y
          + ddy (.spectral p.dy) (fun a b => currentY (st.species.map (kinetic p.kind p.ip p.dx p.dy p.dt st.em.ex st.em.ey st.em.bz)) a b
            + driverJ p.xs p.ys p.eyDrivers (t + 0.5 * p.dt) a b) x y) := by
  unfold step
  dsimp only
  rw [hm, if_neg (by simp)]
  exact maxwell_div _ _ _ _ _ _ _ _ _

theorem angle_add (N : ℕ) [NeZero N] (x : ZMod N) (c : ℤ) :
    Real.cos (angle N 1 (x - (c : ZMod N))) = Real.cos (angle N 1 x - 2 * Real.pi * c / N) := by
  have h1 := char_angle (N := N) 1 (x - (c : ZMod N))
  have h2 := char_angle (N := N) 1 x
  rw [Int.cast_one, mul_one] at h1 h2
  have h3 : (ZMod.stdAddChar (x - (c : ZMod N)) : ℂ) = ZMod.stdAddChar x * cexp (-(2 * Real.pi * I * c / N)) := by
    rw [sub_eq_add_neg, AddChar.map_add_eq_mul, ← Int.cast_neg, ZMod.stdAddChar_coe]
    congr 2
    push_cast
    ring
  rw [h1, h2, ← Complex.exp_add] at h3
  have h4 : ((angle N 1 x : ℝ) : ℂ) * I + -(2 * Real.pi * I * c / N) = ((angle N 1 x - 2 * Real.pi * c / N : ℝ) : ℂ) * I := by
    push_cast; ring
  rw [h4] at h3
  have h5 := congrArg Complex.re h3
  rw [Complex.exp_ofReal_mul_I_re, Complex.exp_ofReal_mul_I_re] at h5
  exact h5

/-- Two counter-streaming beams, each with a density wave, opposite in the two: the charge is
uniform. -/
noncomputable def sign2 (i : ZMod 2) : ℝ := if i = 0 then -1 else 1
noncomputable def beamsOf (N ny : ℕ) (v : ℝ) (g : ZMod N → ZMod 2 → ℝ) : Sp N ny where
  nvx := 2
  nvy := 2
  posx := ⟨two_ne_zero⟩
  posy := ⟨two_ne_zero⟩
  charge := -1
  mass := 1
  dvx := 2 * v
  dvy := 2 * v
  vx := fun i => sign2 i * v
  vy := fun i => sign2 i * v
  f := fun x _ i _ => g x i
noncomputable def beams (N ny : ℕ) (v : ℝ) : Sp N ny := beamsOf N ny v fun x i => 1 + sign2 i * Real.cos (angle N 1 x)

theorem sign2_zero : sign2 0 = -1 := if_pos rfl
theorem sign2_one : sign2 1 = 1 := if_neg (by decide)

theorem beams_grid (N ny : ℕ) (v : ℝ) (hv : v ≠ 0) : (beams N ny v).Grid := by
  have : Function.Injective (fun i : ZMod 2 => sign2 i * v) := by
    intro a b hab
    have := mul_right_cancel₀ hv hab
    have h0 := sign2_zero
    have h1 := sign2_one
    fin_cases a <;> fin_cases b
    · rfl
    · exfalso; change sign2 0 = sign2 1 at this; rw [h0, h1] at this; norm_num at this
    · exfalso; change sign2 1 = sign2 0 at this; rw [h0, h1] at this; norm_num at this
    · rfl
  exact ⟨this, this⟩

theorem sum_two (g : ZMod 2 → ℝ) : ∑ i, g i = g 0 + g 1 := Fin.sum_univ_two g

/-- The beams after a step without fields in which a beam crosses two cells. -/
theorem beams_moved (N ny : ℕ) [NeZero N] [NeZero ny] (ip : Interp) (hip : Nodal ip) (dx dy dt v : ℝ) (hdx : dx ≠ 0) (hv : v ≠ 0) (h : v * dt = 2 * dx) :
    kinetic .exponential ip dx dy dt (fun _ _ => 0) (fun _ _ => 0) (fun _ _ => 0) (beams N ny v) =
      beamsOf N ny v fun x i => 1 + sign2 i * Real.cos (angle N 1 x - sign2 i * (4 * Real.pi / N)) := by
  rw [kinetic_free .exponential ip hip dx dy dt _ (beams_grid N ny v hv)]
  have hY : ∀ (g : ZMod N → ZMod 2 → ℝ), streamY dy (0.5 * dt) (beamsOf N ny v g) = beamsOf N ny v g := by
    intro g
    have : (fun (x : ZMod N) (y : ZMod ny) (i : ZMod 2) (j : ZMod 2) => shift dy (sign2 j * v * (0.5 * dt)) (fun _ => g x i) y) = fun x _ i _ => g x i := by
      funext x y i j
      rw [Spectral.shift_const (nx := ny)]
    exact congrArg (fun f : ZMod N → ZMod ny → ZMod 2 → ZMod 2 → ℝ => ({ beamsOf N ny v g with f := f } : Sp N ny)) this
  have hc : ∀ i : ZMod 2, ∃ c : ℤ, (c : ℝ) = sign2 i ∧ sign2 i * v * (0.5 * dt) = c * dx := by
    intro i
    fin_cases i
    · exact ⟨-1, by change ((-1 : ℤ) : ℝ) = sign2 0; rw [sign2_zero]; norm_num, by
        change sign2 0 * v * (0.5 * dt) = _; rw [sign2_zero]; push_cast; linarith⟩
    · exact ⟨1, by change ((1 : ℤ) : ℝ) = sign2 1; rw [sign2_one]; norm_num, by
        change sign2 1 * v * (0.5 * dt) = _; rw [sign2_one]; push_cast; linarith⟩
  choose c hc1 hc2 using hc
  have hX : ∀ (g : ZMod N → ZMod 2 → ℝ), streamX dx (0.5 * dt) (beamsOf N ny v g) = beamsOf N ny v fun x i => g (x - (c i : ZMod N)) i := by
    intro g
    have : (fun (x : ZMod N) (y : ZMod ny) (i : ZMod 2) (j : ZMod 2) => shift dx (sign2 i * v * (0.5 * dt)) (fun x' => g x' i) x) = fun x _ i _ => g (x - (c i : ZMod N)) i := by
      funext x y i j
      rw [hc2, shift_cells dx hdx]
    exact congrArg (fun f : ZMod N → ZMod ny → ZMod 2 → ZMod 2 → ℝ => ({ beamsOf N ny v g with f := f } : Sp N ny)) this
  unfold beams
  rw [hX, hY, hY, hX]
  refine congrArg (beamsOf N ny v) ?_
  funext x i
  have e : x - (c i : ZMod N) - (c i : ZMod N) = x - ((2 * c i : ℤ) : ZMod N) := by push_cast; ring
  rw [e, angle_add]
  push_cast
  rw [hc1]
  congr 3
  ring

/-- A run without drivers, collisions and filter. -/
noncomputable def plain (N ny : ℕ) (ip : Interp) (solve : Solve) (dx dy dt c2 : ℝ) : Setup N ny where
  kind := .exponential
  ip := ip
  solve := solve
  dx := dx
  dy := dy
  dt := dt
  c2 := c2
  xs := fun _ => 0
  ys := fun _ => 0
  exDrivers := []
  eyDrivers := []
  nuFP := none
  nuK := none
  filter := none
  skipMaxwell := false

/-- C95: a run does not keep Gauss's law.  On every box of more than eight cells there is a state of two
electron beams over a neutralising background, without fields, for which Gauss's law holds and after
one step does not hold. -/
theorem gauss_not_kept (N ny : ℕ) [NeZero N] [NeZero ny] (hN : 8 < N) (ip : Interp) (hip : Nodal ip) (solve : Solve) (dx dy dt c2 v : ℝ) (hdx : 0 < dx)
    (hv : 0 < v) (h : v * dt = 2 * dx) (t : ℝ) (y : ZMod ny) :
    ∃ (s0 : State N ny) (background : Scal N ny),
      (∀ x y, divE dx dy s0.em x y = charge s0.species background x y) ∧
      divE dx dy (step (plain N ny ip solve dx dy dt c2) t s0).em 1 y
        ≠ charge (step (plain N ny ip solve dx dy dt c2) t s0).species background 1 y := by
  have hNr : (8 : ℝ) < N := by exact_mod_cast hN
  obtain ⟨θ, hθ⟩ : ∃ θ, θ = 4 * Real.pi / N := ⟨_, rfl⟩
  have hpi := Real.pi_pos
  have θ0 : 0 < θ := by rw [hθ]; positivity
  have θ1 : θ < Real.pi / 2 := by rw [hθ, div_lt_iff₀ (by linarith)]; nlinarith
  obtain ⟨s0, hs0⟩ : ∃ s0 : State N ny, s0 = ⟨[beams N ny v], ⟨fun _ _ => 0, fun _ _ => 0, fun _ _ => 0⟩, fun _ _ => 0, fun _ _ => 0⟩ := ⟨_, rfl⟩
  obtain ⟨bg, hbg⟩ : ∃ bg : Scal N ny, bg = fun _ _ => 4 * (2 * v * (2 * v)) := ⟨_, rfl⟩
  have dens : ∀ (g : ZMod N → ZMod 2 → ℝ) (x : ZMod N) (y : ZMod ny),
      (beamsOf N ny v g).density x y = 2 * (g x 0 + g x 1) * (2 * v * (2 * v)) := by
    intro g x y
    change (∑ i : ZMod 2, ∑ j : ZMod 2, g x i) * (2 * v * (2 * v)) = _
    rw [sum_two, sum_two, sum_two]; ring
  have curx : ∀ (g : ZMod N → ZMod 2 → ℝ) (x : ZMod N) (y : ZMod ny),
      (beamsOf N ny v g).jx x y = -(2 * v * (g x 1 - g x 0)) * (2 * v * (2 * v)) := by
    intro g x y
    change -1 * (∑ i : ZMod 2, ∑ j : ZMod 2, sign2 i * v * g x i) * (2 * v * (2 * v)) = _
    rw [sum_two, sum_two, sum_two, sign2_zero, sign2_one]; ring
  have cury : ∀ (g : ZMod N → ZMod 2 → ℝ) (x : ZMod N) (y : ZMod ny),
      (beamsOf N ny v g).jy x y = 0 := by
    intro g x y
    change -1 * (∑ i : ZMod 2, ∑ j : ZMod 2, sign2 j * v * g x i) * (2 * v * (2 * v)) = _
    rw [sum_two, sum_two, sum_two, sign2_zero, sign2_one]; ring
  obtain ⟨G, hG⟩ : ∃ G : ZMod N → ZMod 2 → ℝ, G = fun x i => 1 + sign2 i * Real.cos (angle N 1 x - sign2 i * θ) := ⟨_, rfl⟩
  have hmv : kinetic .exponential ip dx dy dt (fun _ _ => 0) (fun _ _ => 0) (fun _ _ => 0) (beams N ny v) =
      beamsOf N ny v G := by
    rw [beams_moved N ny ip hip dx dy dt v hdx.ne' hv.ne' h, hG, hθ]
  have hzero : ∀ x y, divE dx dy s0.em x y = 0 := by
    intro x y
    rw [hs0]
    unfold divE
    dsimp only
    have a1 : ddx (.spectral dx) (fun (_ : ZMod N) (_ : ZMod ny) => (0 : ℝ)) x y = 0 := Vfp2d.applyR_const _ 0 x
    have a2 : ddy (.spectral dy) (fun (_ : ZMod N) (_ : ZMod ny) => (0 : ℝ)) x y = 0 := Vfp2d.applyR_const _ 0 y
    rw [a1, a2, add_zero]
  refine ⟨s0, bg, ?_, ?_⟩
  · intro x y
    rw [hzero]
    unfold charge
    rw [hs0, hbg]
    have e : (beams N ny v).density x y = 4 * (2 * v * (2 * v)) := by
      have := dens (fun x i => 1 + sign2 i * Real.cos (angle N 1 x)) x y
      rw [sign2_zero, sign2_one] at this
      refine Eq.trans ?_ (this.trans ?_)
      · rfl
      · ring
    simp only [List.map_cons, List.map_nil, List.sum_cons, List.sum_nil]
    rw [e, show (beams N ny v).charge = -1 from rfl]; ring
  · have hsp : (step (plain N ny ip solve dx dy dt c2) t s0).species = [beamsOf N ny v G] := by
      rw [step_species, hs0]
      simp only [List.map_cons, List.map_nil, stepSp, plain, Option.map_none, collide]
      rw [hmv]
    have hj : ∀ x y, (beamsOf N ny v G).jx x y
        = -(4 * v * (2 * v * (2 * v)) * Real.cos θ) * Real.cos (angle N 1 x + angle ny 0 y) := by
      intro x y
      rw [curx, hG]
      have a0 : angle ny 0 y = 0 := by unfold angle; simp
      dsimp only
      rw [sign2_zero, sign2_one, a0, add_zero, show angle N 1 x - 1 * θ = angle N 1 x - θ by ring, show angle N 1 x - -1 * θ = angle N 1 x + θ by ring, Real.cos_add, Real.cos_sub]; ring
    have hdiv : divE dx dy (step (plain N ny ip solve dx dy dt c2) t s0).em 1 y
        = -(4 * (2 * v * (2 * v))) * (θ * Real.cos θ) * Real.sin (angle N 1 1) := by
      have := step_gauss (plain N ny ip solve dx dy dt c2) rfl t s0 1 y
      have hs : s0.species.map (kinetic .exponential ip dx dy dt s0.em.ex s0.em.ey s0.em.bz) = [beamsOf N ny v G] := by
        rw [hs0]
        simp only [List.map_cons, List.map_nil]
        rw [hmv]
      simp only [plain, driverJ, List.foldl_nil, add_zero] at this
      refine this.trans ?_
      rw [hzero, hs]
      have cx : currentX [(beamsOf N ny v G)]
          = fun x y => -(4 * v * (2 * v * (2 * v)) * Real.cos θ) * Real.cos (angle N 1 x + angle ny 0 y) := by
        funext x y
        unfold currentX
        simp only [List.map_cons, List.map_nil, List.sum_cons, List.sum_nil, add_zero]
        exact hj x y
      have cy : currentY [(beamsOf N ny v G)] = fun _ _ => 0 := by
        funext x y
        unfold currentY
        simp only [List.map_cons, List.map_nil, List.sum_cons, List.sum_nil, add_zero]
        exact cury G x y
      have dY : ddy (.spectral dy) (fun (_ : ZMod N) (_ : ZMod ny) => (0 : ℝ)) 1 y = 0 := Vfp2d.applyR_const _ 0 y
      have hres : Resolved N 1 := by unfold Resolved; norm_num; omega
      change 0 - dt * (ddx (.spectral dx) (currentX [(beamsOf N ny v G)]) 1 y
        + ddy (.spectral dy) (currentY [(beamsOf N ny v G)]) 1 y) = _
      rw [cx, cy, dY, Vfp2d.ddx_smul, ddx_cos dx 1 0 hres]
      have a0 : angle ny 0 y = 0 := by unfold angle; simp
      have hk : v * dt * waveNumber N dx 1 = θ := by
        rw [h, hθ]; unfold waveNumber; push_cast; field_simp; norm_num
      rw [a0, add_zero, ← hk]; ring
    have hrho : charge (step (plain N ny ip solve dx dy dt c2) t s0).species bg 1 y
        = -(4 * (2 * v * (2 * v))) * Real.sin θ * Real.sin (angle N 1 1) := by
      rw [hsp]
      unfold charge
      simp only [List.map_cons, List.map_nil, List.sum_cons, List.sum_nil]
      rw [dens, show (beamsOf N ny v G).charge = -1 from rfl, hG, hbg]
      dsimp only
      rw [sign2_zero, sign2_one, show angle N 1 1 - 1 * θ = angle N 1 1 - θ by ring, show angle N 1 1 - -1 * θ = angle N 1 1 + θ by ring, Real.cos_add, Real.cos_sub]; ring
    rw [hdiv, hrho]
    have hval : ((1 : ZMod N).val : ℝ) = 1 := by
      have : (1 : ZMod N).val = 1 := by
        have : Fact (1 < N) := ⟨by omega⟩
        exact ZMod.val_one N
      rw [this]; norm_num
    have ha : angle N 1 1 = 2 * Real.pi / N := by unfold angle; rw [hval]; push_cast; ring
    have hsin : 0 < Real.sin (angle N 1 1) := by
      rw [ha]
      refine Real.sin_pos_of_pos_of_lt_pi (by positivity) ?_
      rw [div_lt_iff₀ (by linarith)]; nlinarith
    have htan := Real.lt_tan θ0 θ1
    have hcos : 0 < Real.cos θ := Real.cos_pos_of_mem_Ioo ⟨by linarith, θ1⟩
    rw [Real.tan_eq_sin_div_cos, lt_div_iff₀ hcos] at htan
    intro he
    have : 4 * (2 * v * (2 * v)) * Real.sin (angle N 1 1) * (Real.sin θ - θ * Real.cos θ) = 0 := by linarith
    have pos : 0 < 4 * (2 * v * (2 * v)) * Real.sin (angle N 1 1) * (Real.sin θ - θ * Real.cos θ) := by
      have : 0 < Real.sin θ - θ * Real.cos θ := by linarith
      positivity
    linarith

/-! ### The initial state -/

theorem normalised_sum {n : ℕ} [NeZero n] (vmax : ℝ) (hv : vmax ≠ 0) (shape : ZMod n → ℝ) (hs : ∑ i, shape i ≠ 0) :
    (∑ i, normalised vmax shape i) * (2 * vmax / n) = 1 := by
  have hn : (n : ℝ) ≠ 0 := by exact_mod_cast NeZero.ne n
  unfold normalised
  rw [← sum_div]
  field_simp

theorem superGaussian_sum {n : ℕ} [NeZero n] (v0 scale m : ℝ) (v : ZMod n → ℝ) : 0 < ∑ i, superGaussian v0 scale m (v i) :=
  exp_sum_pos _

/-- A species as initialised from its density components. -/
noncomputable def initialised (nvx nvy : ℕ) [hx : NeZero nvx] [hy : NeZero nvy] (q mass vmax : ℝ) (cs : List (Component nx ny)) : Sp nx ny where
  nvx := nvx
  nvy := nvy
  posx := hx
  posy := hy
  charge := q
  mass := mass
  dvx := 2 * vmax / nvx
  dvy := 2 * vmax / nvy
  vx := axis vmax nvx
  vy := axis vmax nvy
  f := initialF cs vmax

theorem component_sum {nvx nvy : ℕ} [NeZero nvx] [NeZero nvy] (c : Component nx ny) (vmax : ℝ) (hv : vmax ≠ 0) (x : ZMod nx) (y : ZMod ny) :
    (∑ i : ZMod nvx, ∑ j : ZMod nvy, c.f vmax x y i j) * (2 * vmax / nvx * (2 * vmax / nvy)) = c.density x y := by
  have h1 := normalised_sum (n := nvx) vmax hv (fun i => superGaussian c.v0x c.scale c.m (axis vmax nvx i)) (superGaussian_sum ..).ne'
  have h2 := normalised_sum (n := nvy) vmax hv (fun j => superGaussian c.v0y c.scale c.m (axis vmax nvy j)) (superGaussian_sum ..).ne'
  unfold Component.f
  simp only [← mul_sum, ← sum_mul]
  linear_combination c.density x y * (2 * vmax / nvy * (∑ j, normalised vmax (fun j => superGaussian c.v0y c.scale c.m (axis vmax nvy j)) j)) * h1 + c.density x y * h2

/-- C97: without sharding the initial density of a species is exactly its density profile, at every
position, for every drift, temperature, order and grid. -/
theorem initial_density (nvx nvy : ℕ) [NeZero nvx] [NeZero nvy] (q mass vmax : ℝ) (hv : vmax ≠ 0) (cs : List (Component nx ny)) (x : ZMod nx) (y : ZMod ny) :
    (initialised nvx nvy q mass vmax cs).density x y = profile cs x y := by
  change (∑ i : ZMod nvx, ∑ j : ZMod nvy, (cs.map fun c => c.f vmax x y i j).sum) * (2 * vmax / nvx * (2 * vmax / nvy)) = (cs.map fun c => c.density x y).sum
  induction cs with
  | nil => simp
  | cons c cs ih =>
    simp only [List.map_cons, List.sum_cons, sum_add_distrib, add_mul]
    rw [component_sum c vmax hv, ih]

/-- C97: divided over `p` devices along a velocity axis, the piece of every device carries exactly `1/p` of
the density, whatever the drift and the temperature: the distribution is not the one of the unsharded
run. -/
theorem shards_equal {p b : ℕ} [NeZero b] (hp : p ≠ 0) (vmax : ℝ) (hv : vmax ≠ 0) (v0 scale m : ℝ) (q : ℕ) :
    (∑ i : ZMod b, normalisedShards (p := p) vmax (fun i => superGaussian v0 scale m (axis vmax (p * b) i)) q i) * (2 * vmax / (p * b : ℕ)) = 1 / p := by
  have hs : 0 < ∑ i : ZMod b, superGaussian v0 scale m (axis vmax (p * b) ((q * b + i.val : ℕ) : ZMod (p * b))) := exp_sum_pos _
  have h := normalised_sum (n := b) vmax hv (fun i : ZMod b => superGaussian v0 scale m (axis vmax (p * b) ((q * b + i.val : ℕ) : ZMod (p * b)))) hs.ne'
  have hb : (b : ℝ) ≠ 0 := by exact_mod_cast NeZero.ne b
  have hp' : (p : ℝ) ≠ 0 := by exact_mod_cast hp
  unfold normalisedShards
  have e : (2 * vmax / ((p * b : ℕ) : ℝ)) = 2 * vmax / b * (1 / p) := by push_cast; field_simp
  rw [e, ← mul_assoc, h, one_mul]

/-- C97: the difference is real: two velocity cells on two devices, a drift towards the upper one. -/
theorem shards_wrong : normalisedShards (p := 2) (b := 1) 1 (fun i => superGaussian (1 / 2) 1 2 (axis 1 2 i)) 0 0 = 1 / 2 ∧
    normalised (n := 2) 1 (fun i => superGaussian (1 / 2) 1 2 (axis 1 2 i)) 0 < 1 / 2 := by
  have a := axis_two
  have g0 : superGaussian (1 / 2) 1 2 (axis 1 2 0) = Real.exp (-1) := by
    rw [a.1]; unfold superGaussian; norm_num
  have g1 : superGaussian (1 / 2) 1 2 (axis 1 2 1) = 1 := by
    rw [a.2]; unfold superGaussian; norm_num
  have hp := Real.exp_pos (-1)
  have hl : Real.exp (-1) < 1 := by rw [Real.exp_lt_one_iff]; norm_num
  constructor
  · have e : normalisedShards (p := 2) (b := 1) 1 (fun i => superGaussian (1 / 2) 1 2 (axis 1 2 i)) 0 0
        = superGaussian (1 / 2) 1 2 (axis 1 2 0) / ((∑ _i : ZMod 1, superGaussian (1 / 2) 1 2 (axis 1 2 0)) * (2 * 1 / (1 : ℕ))) := by
      unfold normalisedShards normalised
      have : ∀ i : ZMod 1, ((0 * 1 + i.val : ℕ) : ZMod (2 * 1)) = (0 : ZMod 2) := by
        intro i; have : i = 0 := Subsingleton.elim _ _; subst this; rfl
      simp only [this]
    rw [e, g0]
    simp
    field_simp
  · unfold normalised
    rw [sum_two, g0, g1, div_lt_iff₀ (by positivity)]
    norm_num
    linarith

/-- C98: a single species of charge `-1` starts without charge and without fields, whatever its
profile. -/
theorem electrons_neutral (dx dy : ℝ) (nvx nvy : ℕ) [NeZero nvx] [NeZero nvy] (mass vmax : ℝ) (hv : vmax ≠ 0) (cs : List (Component nx ny)) :
    let y := initialState dx dy [initialised nvx nvy (-1) mass vmax cs] [profile cs]
    y.em = ⟨fun _ _ => 0, fun _ _ => 0, fun _ _ => 0⟩ ∧ y.species = [initialised nvx nvy (-1) mass vmax cs] := by
  intro y
  refine ⟨?_, rfl⟩
  have hz : charge [initialised nvx nvy (-1) mass vmax cs] (ionCharge 1 fun x y => ([profile cs].map fun n => n x y).sum) = fun _ _ => 0 := by
    funext x y
    unfold charge ionCharge
    simp only [List.map_cons, List.map_nil, List.sum_cons, List.sum_nil, add_zero, lt_irrefl, if_false]
    rw [initial_density _ _ _ _ _ hv]
    change -1 * profile cs x y + profile cs x y = 0
    ring
  simp only [y, initialState]
  rw [show [initialised nvx nvy (-1) mass vmax cs].length = 1 from rfl, hz, Vfp2d.poisson_zero]

/-- C98: for a single species of another charge the background has the wrong sign or size: the box starts
with the charge `(q + 1) n`, which no field can carry when the profile does not vanish on average. -/
theorem other_charge (nvx nvy : ℕ) [NeZero nvx] [NeZero nvy] (q mass vmax : ℝ) (hv : vmax ≠ 0) (cs : List (Component nx ny)) (x : ZMod nx) (y : ZMod ny) :
    charge [initialised nvx nvy q mass vmax cs] (ionCharge 1 (profile cs)) x y = (q + 1) * profile cs x y := by
  unfold charge ionCharge
  simp only [List.map_cons, List.map_nil, List.sum_cons, List.sum_nil, add_zero, lt_irrefl, if_false]
  rw [initial_density _ _ _ _ _ hv]
  change q * profile cs x y + profile cs x y = _
  ring

/-- C98: in general the initial electric field has no curl and no mean, and its divergence is the charge of
all species (and of the background of a single species) without its mean, if that charge has no content on
the Nyquist lines of the grid (always so on odd grids); there is no magnetic field. -/
theorem initial_gauss (dx dy : ℝ) (hdx : dx ≠ 0) (hdy : dy ≠ 0) (ss : List (Sp nx ny)) (profiles : List (Scal nx ny)) (rho : Scal nx ny)
    (hr : rho = fun x y => (ss.map fun s => s.charge * s.density x y).sum + if ss.length ≤ 1 then (profiles.map fun n => n x y).sum else 0)
    (hs : Vfp2d.Smooth rho) (x : ZMod nx) (y : ZMod ny) :
    divE dx dy (initialState dx dy ss profiles).em x y = rho x y - (∑ x, ∑ y, rho x y) / (nx * ny) ∧
    curlZ dx dy (initialState dx dy ss profiles).em x y = 0 ∧
    ∑ x, ∑ y, (initialState dx dy ss profiles).em.ex x y = 0 ∧ ∑ x, ∑ y, (initialState dx dy ss profiles).em.ey x y = 0 ∧
    (initialState dx dy ss profiles).em.bz x y = 0 := by
  have e : charge ss (ionCharge ss.length fun x y => (profiles.map fun n => n x y).sum) = rho := by
    rw [hr]
    funext x y
    unfold charge ionCharge
    by_cases h : 1 < ss.length
    · rw [if_pos h, if_neg (by omega)]
    · rw [if_neg h, if_pos (by omega)]
  obtain ⟨h1, h2, h3, h4, _⟩ := Vfp2d.poisson_gauss dx dy hdx hdy rho hs x y
  have hx : (initialState dx dy ss profiles).em.ex = fun x y => (Vfp2d.poisson dx dy rho x y).x := by rw [← e]; rfl
  have hy : (initialState dx dy ss profiles).em.ey = fun x y => (Vfp2d.poisson dx dy rho x y).y := by rw [← e]; rfl
  refine ⟨?_, ?_, ?_, ?_, rfl⟩
  · unfold divE; rw [hx, hy]; exact h1
  · unfold curlZ; rw [hx, hy]
    have := congrArg Vfp2d.Vec.z h2
    exact this
  · rw [hx]; exact h3
  · rw [hy]; exact h4

/-! ### Distribution sharding -/

/-- C99: what a distribution sharding must satisfy to be accepted, and the mesh it gets. -/
theorem mesh_iff (c : Sharding) (d : ℕ) (shape : List ℤ) :
    meshFor c d = .ok shape ↔
      c.partition.length = 4 ∧ (∀ a, some a ∈ c.partition → a ∈ c.meshAxes) ∧ 0 < d ∧
      shape = c.meshShape.getD ((d : ℤ) :: List.replicate (c.meshAxes.length - 1) 1) ∧
      shape.length = c.meshAxes.length ∧ shape.prod = d := by
  unfold meshFor
  have hany : (c.partition.filterMap id).any (fun a => !c.meshAxes.contains a) = true ↔ ¬ ∀ a, some a ∈ c.partition → a ∈ c.meshAxes := by
    rw [List.any_eq_true]
    constructor
    · rintro ⟨a, ha, hb⟩ h
      simp at ha hb
      exact hb (h a ha)
    · intro h
      push Not at h
      obtain ⟨a, ha, hb⟩ := h
      exact ⟨a, by simpa using ha, by simpa using hb⟩
  by_cases h1 : c.partition.length = 4
  · rw [if_neg (by simpa using h1)]
    by_cases h2 : ∀ a, some a ∈ c.partition → a ∈ c.meshAxes
    · rw [if_neg (by rw [hany]; exact not_not.2 h2)]
      by_cases h3 : d = 0
      · rw [if_pos h3]
        constructor
        · intro h; cases h
        · rintro ⟨_, _, h, _⟩; omega
      · rw [if_neg h3]
        dsimp only
        obtain ⟨S, hS⟩ : ∃ S, S = c.meshShape.getD ((d : ℤ) :: List.replicate (c.meshAxes.length - 1) 1) := ⟨_, rfl⟩
        rw [← hS]
        by_cases h4 : S.length = c.meshAxes.length
        · rw [if_neg (by simpa using h4)]
          by_cases h5 : S.prod = (d : ℤ)
          · rw [if_neg (by simpa using h5)]
            constructor
            · intro h; cases h; exact ⟨h1, h2, by omega, rfl, h4, h5⟩
            · rintro ⟨_, _, _, h, _, _⟩; rw [h]
          · rw [if_pos h5]
            constructor
            · intro h; cases h
            · rintro ⟨_, _, _, h, _, h'⟩; rw [h] at h'; exact absurd h' h5
        · rw [if_pos h4]
          constructor
          · intro h; cases h
          · rintro ⟨_, _, _, h, h', _⟩; rw [h] at h'; exact absurd h' h4
    · rw [if_pos (by rw [hany]; exact h2)]
      constructor
      · intro h; cases h
      · rintro ⟨_, h, _⟩; exact absurd h h2
  · rw [if_pos h1]
    constructor
    · intro h; cases h
    · rintro ⟨h, _⟩; exact absurd h h1

/-- C99: without a mesh shape every known partition is accepted on every number of devices, all of them
on the first axis. -/
theorem mesh_default (c : Sharding) (d : ℕ) (hd : 0 < d) (h4 : c.partition.length = 4) (hp : ∀ a, some a ∈ c.partition → a ∈ c.meshAxes)
    (hs : c.meshShape = none) (ha : c.meshAxes ≠ []) : meshFor c d = .ok ((d : ℤ) :: List.replicate (c.meshAxes.length - 1) 1) := by
  rw [mesh_iff]
  have : 0 < c.meshAxes.length := List.length_pos_iff.2 ha
  refine ⟨h4, hp, hd, by rw [hs]; rfl, ?_, ?_⟩
  · simp; omega
  · simp

example : meshFor ⟨["x", "vx"], none, [some "x", none, some "vx", none]⟩ 4 = .ok [4, 1] := by rfl
example : meshFor ⟨["x"], some [2], [some "x", none, some "vx", none]⟩ 2 = .error "ValueError" := by rfl

/-! ### Drivers -/

/-- C100: the driven current is the sum over the drivers. -/
theorem driver_sum (xs : ZMod nx → ℝ) (ys : ZMod ny → ℝ) (ds : List (Driver nx ny)) (t : ℝ) (x : ZMod nx) (y : ZMod ny) :
    driverJ xs ys ds t x y = (ds.map fun d => -(d.w0 + d.dw0) ^ 2 * d.a0 * d.env x y t *
      Real.sin (d.k0x * xs x + d.k0y * ys y - (d.w0 + d.dw0) * t)).sum := by
  unfold driverJ
  have h : ∀ (c : ℝ), ds.foldl (fun out d => out + -((d.w0 + d.dw0) ^ 2) * d.a0 * d.env x y t * Real.sin (d.k0x * xs x + d.k0y * ys y - (d.w0 + d.dw0) * t)) c
      = c + (ds.map fun d => -(d.w0 + d.dw0) ^ 2 * d.a0 * d.env x y t * Real.sin (d.k0x * xs x + d.k0y * ys y - (d.w0 + d.dw0) * t)).sum := by
    induction ds with
    | nil => intro c; simp
    | cons d ds ih => intro c; rw [List.foldl_cons, ih, List.map_cons, List.sum_cons]; ring
  rw [h, zero_add]

/-- C100: under a constant envelope the current of a driver is the second time derivative of the travelling
wave `a0 sin(k·x - ω t)` with the shifted frequency `ω = w0 + dw0`. -/
theorem driver_wave (xs : ZMod nx → ℝ) (ys : ZMod ny → ℝ) (d : Driver nx ny) (x : ZMod nx) (y : ZMod ny) (e : ℝ) (he : ∀ t, d.env x y t = e) :
    ∃ A' : ℝ → ℝ, (∀ t, HasDerivAt (fun t => e * (d.a0 * Real.sin (d.k0x * xs x + d.k0y * ys y - (d.w0 + d.dw0) * t))) (A' t) t) ∧
      ∀ t, HasDerivAt A' (driverJ xs ys [d] t x y) t := by
  obtain ⟨w, hw⟩ : ∃ w, w = d.w0 + d.dw0 := ⟨_, rfl⟩
  obtain ⟨k, hk⟩ : ∃ k, k = d.k0x * xs x + d.k0y * ys y := ⟨_, rfl⟩
  have hid : ∀ t : ℝ, HasDerivAt (fun t => k - w * t) (-w) t := fun t => by
    have := ((hasDerivAt_id t).const_mul w).const_sub k
    simpa using this
  refine ⟨fun t => e * (d.a0 * (Real.cos (k - w * t) * -w)), fun t => ?_, fun t => ?_⟩
  · rw [← hw, ← hk]
    exact (((hid t).sin).const_mul d.a0).const_mul e
  · have := ((((hid t).cos).mul_const (-w)).const_mul d.a0).const_mul e
    refine this.congr_deriv ?_
    rw [driver_sum]
    simp only [List.map_cons, List.map_nil, List.sum_cons, List.sum_nil, add_zero]
    rw [he, ← hw, ← hk]; ring

/-- C100: the step uses, and reports, the driver's current in the middle of the step; with `skip_maxwell` the
fields stay what they were and the driver has no effect on anything but the report. -/
theorem step_driver (p : Setup nx ny) (t : ℝ) (st : State nx ny) :
    (step p t st).jxDriver = driverJ p.xs p.ys p.exDrivers (t + p.dt / 2) ∧ (step p t st).jyDriver = driverJ p.xs p.ys p.eyDrivers (t + p.dt / 2) ∧
    (p.skipMaxwell = true → (step p t st).em = st.em ∧
      ∀ ds ds', (step { p with exDrivers := ds, eyDrivers := ds' } t st).species = (step p t st).species ∧
        (step { p with exDrivers := ds, eyDrivers := ds' } t st).em = (step p t st).em) := by
  have e : t + 0.5 * p.dt = t + p.dt / 2 := by ring
  refine ⟨by rw [← e]; rfl, by rw [← e]; rfl, fun h => ⟨?_, fun ds ds' => ⟨?_, ?_⟩⟩⟩
  · unfold step; dsimp only; rw [h, if_pos rfl]
  · rw [step_species, step_species]; rfl
  · unfold step; dsimp only; rw [h, if_pos rfl, if_pos rfl]

/-- C100: the driver reaches the box-averaged field with the sign `dE/dt = -j`. -/
theorem driver_mean (p : Setup nx ny) (hm : p.skipMaxwell = false) (t : ℝ) (em : Fields nx ny) (jx jy : Scal nx ny) :
    ∑ x, ∑ y, (step p t ⟨[], em, jx, jy⟩).em.ex x y = ∑ x, ∑ y, em.ex x y - p.dt * ∑ x, ∑ y, driverJ p.xs p.ys p.exDrivers (t + p.dt / 2) x y ∧
    ∑ x, ∑ y, (step p t ⟨[], em, jx, jy⟩).em.ey x y = ∑ x, ∑ y, em.ey x y - p.dt * ∑ x, ∑ y, driverJ p.xs p.ys p.eyDrivers (t + p.dt / 2) x y := by
  have e : t + 0.5 * p.dt = t + p.dt / 2 := by ring
  have h : (step p t ⟨[], em, jx, jy⟩).em = maxwell p.dx p.dy p.c2 p.dt (driverJ p.xs p.ys p.exDrivers (t + p.dt / 2)) (driverJ p.xs p.ys p.eyDrivers (t + p.dt / 2)) em := by
    unfold step
    dsimp only
    rw [hm, if_neg (by simp), e]
    simp [currentX, currentY]
  rw [h]
  exact ⟨(maxwell_means ..).2.1, (maxwell_means ..).2.2⟩

/-! ### Diagnostics -/

/-- C102: the saved moments of a place with particles: the kinetic energy density is that of the flow plus the
temperature's (two degrees of freedom), the momentum is density times flow. -/
theorem moments_energy (s : Sp nx ny) (x : ZMod nx) (y : ZMod ny) (hn : 0 < s.density x y) :
    (∑ i, ∑ j, s.vx i * s.f x y i j) * (s.dvx * s.dvy) = (s.moments x y).n * (s.moments x y).ux ∧
    (∑ i, ∑ j, s.vy j * s.f x y i j) * (s.dvx * s.dvy) = (s.moments x y).n * (s.moments x y).uy ∧
    (∑ i, ∑ j, 1 / 2 * (s.vx i ^ 2 + s.vy j ^ 2) * s.f x y i j) * (s.dvx * s.dvy)
      = 1 / 2 * (s.moments x y).n * ((s.moments x y).ux ^ 2 + (s.moments x y).uy ^ 2) + (s.moments x y).n * (s.moments x y).T := by
  obtain ⟨n, hnd⟩ : ∃ n, n = s.density x y := ⟨_, rfl⟩
  obtain ⟨D, hD⟩ : ∃ D, D = s.dvx * s.dvy := ⟨_, rfl⟩
  obtain ⟨S0, hS0⟩ : ∃ S0, S0 = ∑ i, ∑ j, s.f x y i j := ⟨_, rfl⟩
  obtain ⟨Sx, hSx⟩ : ∃ Sx, Sx = ∑ i, ∑ j, s.vx i * s.f x y i j := ⟨_, rfl⟩
  obtain ⟨Sy, hSy⟩ : ∃ Sy, Sy = ∑ i, ∑ j, s.vy j * s.f x y i j := ⟨_, rfl⟩
  obtain ⟨Qx, hQx⟩ : ∃ Qx, Qx = ∑ i, ∑ j, s.vx i ^ 2 * s.f x y i j := ⟨_, rfl⟩
  obtain ⟨Qy, hQy⟩ : ∃ Qy, Qy = ∑ i, ∑ j, s.vy j ^ 2 * s.f x y i j := ⟨_, rfl⟩
  have hn0 : n = S0 * D := by rw [hnd, hS0, hD]; rfl
  have hsafe : safeN n = n := by unfold safeN; rw [if_pos (by rw [hnd]; exact hn)]
  have npos : n ≠ 0 := by rw [hnd]; exact hn.ne'
  have m1 : (s.moments x y).n = n := by rw [hnd]; rfl
  have m2 : (s.moments x y).ux = Sx * D / n := by
    have : (s.moments x y).ux = Sx * D / safeN n := by rw [hSx, hD, hnd]; rfl
    rw [this, hsafe]
  have m3 : (s.moments x y).uy = Sy * D / n := by
    have : (s.moments x y).uy = Sy * D / safeN n := by rw [hSy, hD, hnd]; rfl
    rw [this, hsafe]
  have mx : ∀ u, ∑ i, ∑ j, (s.vx i - u) ^ 2 * s.f x y i j = Qx - 2 * u * Sx + u ^ 2 * S0 := by
    intro u
    rw [hQx, hSx, hS0]
    simp only [mul_sum, ← sum_sub_distrib, ← sum_add_distrib]
    exact sum_congr rfl fun i _ => sum_congr rfl fun j _ => by ring
  have my : ∀ u, ∑ i, ∑ j, (s.vy j - u) ^ 2 * s.f x y i j = Qy - 2 * u * Sy + u ^ 2 * S0 := by
    intro u
    rw [hQy, hSy, hS0]
    simp only [mul_sum, ← sum_sub_distrib, ← sum_add_distrib]
    exact sum_congr rfl fun i _ => sum_congr rfl fun j _ => by ring
  have m4 : (s.moments x y).T = 0.5 * ((Qx - 2 * (Sx * D / n) * Sx + (Sx * D / n) ^ 2 * S0) * D + (Qy - 2 * (Sy * D / n) * Sy + (Sy * D / n) ^ 2 * S0) * D) / n := by
    have : (s.moments x y).T = 0.5 * ((∑ i, ∑ j, (s.vx i - (s.moments x y).ux) ^ 2 * s.f x y i j) * D + (∑ i, ∑ j, (s.vy j - (s.moments x y).uy) ^ 2 * s.f x y i j) * D) / safeN n := by
      rw [hD, hnd]; rfl
    rw [this, hsafe, mx, my, m2, m3]
  have mE : ∑ i, ∑ j, 1 / 2 * (s.vx i ^ 2 + s.vy j ^ 2) * s.f x y i j = 1 / 2 * (Qx + Qy) := by
    rw [hQx, hQy]
    simp only [← sum_add_distrib, mul_sum]
    exact sum_congr rfl fun i _ => sum_congr rfl fun j _ => by ring
  rw [mE, ← hSx, ← hSy, ← hD, m1, m2, m3, m4]
  refine ⟨by field_simp, by field_simp, ?_⟩
  have hS : S0 * D = n := hn0.symm
  have key2 : ∀ S Q : ℝ, (Q - 2 * (S * D / n) * S + (S * D / n) ^ 2 * S0) * D = Q * D - (S * D) ^ 2 / n := by
    intro S Q
    rw [show (Q - 2 * (S * D / n) * S + (S * D / n) ^ 2 * S0) * D = Q * D - 2 * (S * D) ^ 2 / n + (S * D / n) ^ 2 * (S0 * D) by ring, hS]
    field_simp
    ring
  rw [key2, key2]
  field_simp
  ring

/-- C102: the mean density of the default diagnostics is the number of particles over the number of cells, so it
is constant exactly when the number of particles is. -/
theorem meanN_number (s : Sp nx ny) : s.meanN = s.number / (nx * ny) := rfl

/-- C102: the mean kinetic energy of the default diagnostics is the average over the cells of the energy in the
saved moments. -/
theorem meanKE_moments (s : Sp nx ny) (hn : ∀ x y, 0 < s.density x y) :
    s.meanKE = (∑ x, ∑ y, (1 / 2 * (s.moments x y).n * ((s.moments x y).ux ^ 2 + (s.moments x y).uy ^ 2) + (s.moments x y).n * (s.moments x y).T)) / (nx * ny) := by
  have h5 : (0.5 : ℝ) = 1 / 2 := by norm_num
  rw [Sp.meanKE, h5]
  congr 1
  exact sum_congr rfl fun x _ => sum_congr rfl fun y _ => (moments_energy s x y (hn x y)).2.2

/-- C102: the mean kinetic energy is nonnegative for nonnegative distributions, and so is every saved temperature. -/
theorem moments_nonneg (s : Sp nx ny) (hf : ∀ x y i j, 0 ≤ s.f x y i j) (hx : 0 ≤ s.dvx) (hy : 0 ≤ s.dvy) :
    0 ≤ s.meanKE ∧ 0 ≤ s.meanF2 ∧ ∀ x y, 0 ≤ (s.moments x y).n ∧ 0 ≤ (s.moments x y).T := by
  have hd : ∀ x y, 0 ≤ s.density x y := fun x y =>
    mul_nonneg (sum_nonneg fun i _ => sum_nonneg fun j _ => hf x y i j) (mul_nonneg hx hy)
  have hs : ∀ n : ℝ, 0 ≤ safeN n := by intro n; unfold safeN; split <;> linarith
  refine ⟨?_, ?_, fun x y => ⟨hd x y, ?_⟩⟩
  · unfold Sp.meanKE
    refine div_nonneg (sum_nonneg fun x _ => sum_nonneg fun y _ => mul_nonneg (sum_nonneg fun i _ => sum_nonneg fun j _ => ?_) (mul_nonneg hx hy)) (by positivity)
    have := hf x y i j
    positivity
  · unfold Sp.meanF2
    exact div_nonneg (sum_nonneg fun x _ => sum_nonneg fun y _ => mul_nonneg (sum_nonneg fun i _ => sum_nonneg fun j _ => mul_self_nonneg _) (mul_nonneg hx hy)) (by positivity)
  · unfold Sp.moments
    dsimp only
    refine div_nonneg (mul_nonneg (by norm_num) (add_nonneg ?_ ?_)) (hs _)
    · exact mul_nonneg (sum_nonneg fun i _ => sum_nonneg fun j _ => mul_nonneg (sq_nonneg _) (hf x y i j)) (mul_nonneg hx hy)
    · exact mul_nonneg (sum_nonneg fun i _ => sum_nonneg fun j _ => mul_nonneg (sq_nonneg _) (hf x y i j)) (mul_nonneg hx hy)

/-! ### Equilibrium -/

/-- The same distribution at every position. -/
def Sp.Homogeneous (s : Sp nx ny) : Prop := ∃ g : ZMod s.nvx → ZMod s.nvy → ℝ, s.f = fun _ _ => g

theorem streamX_homogeneous (dx dt : ℝ) (s : Sp nx ny) (h : s.Homogeneous) : streamX dx dt s = s := by
  obtain ⟨g, hg⟩ := h
  have : (streamX dx dt s).f = s.f := by
    funext x y i j
    change shift dx (s.vx i * dt) (fun x' => s.f x' y i j) x = _
    rw [hg]
    exact congrFun (Spectral.shift_const (nx := nx) _ _ (g i j)) x
  exact congrArg (fun g => ({ s with f := g } : Sp nx ny)) this

theorem streamY_homogeneous (dy dt : ℝ) (s : Sp nx ny) (h : s.Homogeneous) : streamY dy dt s = s := by
  obtain ⟨g, hg⟩ := h
  have : (streamY dy dt s).f = s.f := by
    funext x y i j
    change shift dy (s.vy j * dt) (fun y' => s.f x y' i j) y = _
    rw [hg]
    exact congrFun (Spectral.shift_const (nx := ny) _ _ (g i j)) y
  exact congrArg (fun g => ({ s with f := g } : Sp nx ny)) this

/-- C102: a homogeneous plasma without fields, net current, drivers and collisions stays exactly as it is, for
every number of steps, with either acceleration. -/
theorem equilibrium (p : Setup nx ny) (hip : Nodal p.ip) (hf : p.filter = none) (hex : p.exDrivers = []) (hey : p.eyDrivers = []) (h1 : p.nuFP = none) (h2 : p.nuK = none)
    (ss : List (Sp nx ny)) (hg : ∀ s ∈ ss, s.Grid) (hh : ∀ s ∈ ss, s.Homogeneous) (hx : currentX ss = fun _ _ => 0) (hy : currentY ss = fun _ _ => 0) (t0 : ℝ) (n : ℕ) :
    run p t0 ⟨ss, ⟨fun _ _ => 0, fun _ _ => 0, fun _ _ => 0⟩, fun _ _ => 0, fun _ _ => 0⟩ n = ⟨ss, ⟨fun _ _ => 0, fun _ _ => 0, fun _ _ => 0⟩, fun _ _ => 0, fun _ _ => 0⟩ := by
  have hk : ss.map (kinetic p.kind p.ip p.dx p.dy p.dt (fun _ _ => 0) (fun _ _ => 0) (fun _ _ => 0)) = ss := by
    conv_rhs => rw [← List.map_id ss]
    refine List.map_congr_left fun s hs => ?_
    rw [kinetic_free p.kind p.ip hip p.dx p.dy p.dt s (hg s hs), streamX_homogeneous _ _ _ (hh s hs), streamY_homogeneous _ _ _ (hh s hs),
      streamY_homogeneous _ _ _ (hh s hs), streamX_homogeneous _ _ _ (hh s hs)]
    rfl
  have z1 : ∀ (d : ℝ), ddx (.spectral d) (fun (_ : ZMod nx) (_ : ZMod ny) => (0 : ℝ)) = fun _ _ => 0 := fun d => by
    funext x y; exact Vfp2d.applyR_const _ 0 x
  have z2 : ∀ (d : ℝ), ddy (.spectral d) (fun (_ : ZMod nx) (_ : ZMod ny) => (0 : ℝ)) = fun _ _ => 0 := fun d => by
    funext x y; exact Vfp2d.applyR_const _ 0 y
  have hm : maxwell p.dx p.dy p.c2 p.dt (fun (_ : ZMod nx) (_ : ZMod ny) => 0) (fun _ _ => 0) ⟨fun _ _ => 0, fun _ _ => 0, fun _ _ => 0⟩ = ⟨fun _ _ => 0, fun _ _ => 0, fun _ _ => 0⟩ := by
    have hB : bHalf p.dx p.dy p.dt (⟨fun _ _ => 0, fun _ _ => 0, fun _ _ => 0⟩ : Fields nx ny) = ⟨fun _ _ => 0, fun _ _ => 0, fun _ _ => 0⟩ := by
      unfold bHalf; dsimp only; rw [z1, z2]; simp
    have hE : eFull p.dx p.dy p.c2 p.dt (fun _ _ => 0) (fun _ _ => 0) (⟨fun _ _ => 0, fun _ _ => 0, fun _ _ => 0⟩ : Fields nx ny) = ⟨fun _ _ => 0, fun _ _ => 0, fun _ _ => 0⟩ := by
      unfold eFull; dsimp only; rw [z1, z2]; simp
    unfold maxwell
    rw [hB, hE, hB]
  have hc : ∀ s : Sp nx ny, collide p.solve none none p.dt s = s := fun s => rfl
  have hone : ∀ t, step p t ⟨ss, ⟨fun _ _ => 0, fun _ _ => 0, fun _ _ => 0⟩, fun _ _ => 0, fun _ _ => 0⟩ = ⟨ss, ⟨fun _ _ => 0, fun _ _ => 0, fun _ _ => 0⟩, fun _ _ => 0, fun _ _ => 0⟩ := by
    intro t
    have hd : driverJ p.xs p.ys ([] : List (Driver nx ny)) (t + 0.5 * p.dt) = fun _ _ => 0 := rfl
    unfold step
    dsimp only
    rw [hk, hex, hey, hd, hf, h1, h2, hx, hy]
    simp only [add_zero, Option.map_none]
    rw [hm]
    have : List.map (collide p.solve none none p.dt) ss = ss := by
      conv_rhs => rw [← List.map_id ss]
      exact List.map_congr_left fun s _ => hc s
    rw [this]
    simp
  induction n with
  | zero => rfl
  | succ n ih =>
    change step p (t0 + n * p.dt) (run p t0 _ n) = _
    rw [ih, hone]

/-- Species without drift carry no current. -/
theorem no_drift_current {nvx nvy : ℕ} [NeZero nvx] [NeZero nvy] (q mass vmax : ℝ) (cs : List (Component nx ny)) (h : ∀ c ∈ cs, c.v0x = 0) (x : ZMod nx) (y : ZMod ny) :
    (initialised nvx nvy q mass vmax cs).jx x y = 0 := by
  have hodd : ∀ g : ZMod nvx → ℝ, (∀ i, g (-1 - i) = -g i) → ∑ i, g i = 0 := by
    intro g hg
    have h1 : ∑ i, g i = ∑ i, g (-1 - i) := (Equiv.sum_comp (Equiv.subLeft (-1 : ZMod nvx)) g).symm
    simp only [hg, sum_neg_distrib] at h1
    linarith
  change q * (∑ i : ZMod nvx, ∑ j : ZMod nvy, axis vmax nvx i * initialF cs vmax x y i j) * _ = 0
  rw [hodd, mul_zero, zero_mul]
  intro i
  rw [← sum_neg_distrib]
  refine sum_congr rfl fun j _ => ?_
  rw [axis_mirror, neg_mul]
  congr 2
  unfold initialF
  congr 1
  refine List.map_congr_left fun c hc => ?_
  unfold Component.f normalised superGaussian
  rw [h c hc]
  beta_reduce
  rw [axis_mirror]
  simp only [sub_zero, neg_div, abs_neg]

/-! ### The hypotheses can be met -/

/-- A species set up by the module satisfies what the theorems above ask of a species. -/
theorem initialised_ok (nvx nvy : ℕ) [NeZero nvx] [NeZero nvy] (q mass vmax : ℝ) (hv : vmax ≠ 0) (cs : List (Component nx ny)) :
    (initialised nvx nvy q mass vmax cs).Ok := by
  have h : ∀ n : ℕ, [NeZero n] → 2 * vmax / (n : ℝ) ≠ 0 := fun n _ =>
    div_ne_zero (mul_ne_zero two_ne_zero hv) (Nat.cast_ne_zero.2 (NeZero.ne n))
  exact ⟨⟨axis_inj vmax hv nvx, axis_inj vmax hv nvy⟩, h nvx, h nvy⟩

/-- The velocity axes are uniform with the spacing of the species' grid. -/
theorem axis_uniform (vmax : ℝ) (n : ℕ) [NeZero n] : FP.Uniform n (2 * vmax / n) (flat (axis vmax n)) := by
  intro i hi
  unfold flat
  rw [axis_val, axis_val, ZMod.val_natCast_of_lt hi, ZMod.val_natCast_of_lt (by omega)]
  push_cast
  ring

/-- One solver solves every system that has a solution: `Solved` holds of it for every resolved column. -/
theorem solver_exists : ∃ solve : Solve, ∀ (n : ℕ) (v : ℕ → ℝ) (dv nu dt : ℝ) (f : ℕ → ℝ), 0 < dv → 0 ≤ nu → 0 ≤ dt → (∀ i < n, 0 ≤ f i) →
    (∀ e, e + 1 < n → |0.5 * (v (e + 1) + v e) - colV n v dv f| * dv ≤ 2 * colT n v dv f) → Solved solve n v dv nu dt f := by
  classical
  refine ⟨fun n A f => if h : ∃ g, ∀ i < n, A.mv n g i = f i then h.choose else f, ?_⟩
  intro n v dv nu dt f h1 h2 h3 h4 h5
  have hex := (column_positive_partial (solve := fun _ _ f => f) h1 h2 h3 h4 h5).1
  unfold Solved doughertyCol
  beta_reduce
  rw [dif_pos hex]
  exact hex.choose_spec

/-- The run theorems apply to a plasma of two drifting components with evolving fields: species well formed,
interpolation available, no hypothesis left to the caller. -/
example (ip : Interp) (hip : Nodal ip) (solve : Solve) : ∀ n : ℕ, (run { plain 8 8 ip solve 1 1 (1 / 4) 1 with skipMaxwell := true } 0
    (initialState 1 1 [initialised 16 16 (-1) 1 6 [⟨fun _ _ => 1, 1, 0, 1, 2⟩, ⟨fun x _ => if x = 0 then 2 else 1, -1, 0, 1, 2⟩]]
      [profile [⟨fun _ _ => 1, 1, 0, 1, 2⟩, ⟨fun x _ => if x = 0 then 2 else 1, -1, 0, 1, 2⟩]]) n).species.map Sp.number =
    [(initialised 16 16 (-1) 1 6 [⟨fun _ _ => 1, 1, 0, 1, 2⟩, ⟨fun x _ => if x = 0 then 2 else 1, -1, 0, 1, 2⟩] : Sp 8 8).number] := by
  intro n
  refine run_number_partial _ hip rfl (by intro h hh; cases hh) rfl 0 _ rfl ?_ ?_ n
  swap
  · intro k s _; exact trivial
  intro s hs
  rw [List.mem_singleton.1 hs]
  exact initialised_ok 16 16 _ _ 6 (by norm_num) _

/-! ### Refusals -/

/-- C96: with the operator on only the Dougherty type is accepted; off, the type is not looked at. -/
theorem collisions_iff (on : Bool) (type : String) : collisionsOk on type = .ok () ↔ on = false ∨ type = "dougherty" := by
  unfold collisionsOk
  cases on <;> by_cases h : type = "dougherty" <;> simp [h]

/-- C99: a divided initialization refuses noise of nonzero strength, and nothing else. -/
theorem sharded_iff (noise : List (String × ℝ)) : shardedOk noise = .ok () ↔ ∀ n ∈ noise, n.1 = "none" ∨ n.2 = 0 := by
  unfold shardedOk
  split
  · rename_i h
    refine ⟨(fun h' => by cases h'), fun h' => ?_⟩
    obtain ⟨n, hn, hb⟩ := List.any_eq_true.1 h
    rcases h' n hn with h1 | h1 <;> simp [h1] at hb
  · rename_i h
    refine ⟨fun _ n hn => ?_, fun _ => rfl⟩
    by_contra hc
    push Not at hc
    exact h (List.any_eq_true.2 ⟨n, hn, by simp [hc.1, hc.2]⟩)

example : ¬ shardedOk [("none", 1), ("uniform", 1e-3)] = .ok () := by
  rw [sharded_iff]
  intro h
  rcases h ("uniform", 1e-3) (by simp) with h | h
  · exact absurd h (by decide)
  · norm_num at h

end Verif.Vlasov2d
