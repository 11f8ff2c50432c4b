import Verif.Props.Vlasov2dMaxwell
import Verif.Props.Integrator
import Verif.Props.Collisions
import Mathlib.Analysis.Calculus.MeanValue
import Mathlib.Analysis.SpecialFunctions.Trigonometric.Deriv

/-! C90-C92, C96: the kinetic step and the collisions of Vlasov-2D. -/
namespace Verif.Vlasov2d
open Finset Complex Verif.Spectral
open Verif.Vfp2d (Deriv Scal ddx ddy)

variable {nx ny : ℕ} [NeZero nx] [NeZero ny]

/-! ### What is assumed of the external routines -/

/-- The interpolant passes through the data. -/
def Nodal (ip : Interp) : Prop := ∀ (nvx nvy : ℕ) (vx : ZMod nvx → ℝ) (vy : ZMod nvy → ℝ) (g : ZMod nvx → ZMod nvy → ℝ) (i : ZMod nvx) (j : ZMod nvy),
  Function.Injective vx → Function.Injective vy → ip nvx nvy vx vy g (vx i) (vy j) = g i j

/-- Outside the grid the interpolant is the constant `extrap = 0`. -/
def ZeroOutside (ip : Interp) : Prop := ∀ (nvx nvy : ℕ) (vx : ZMod nvx → ℝ) (vy : ZMod nvy → ℝ) (g : ZMod nvx → ZMod nvy → ℝ) (a b : ℝ),
  ((∀ i, vx i < a) ∨ (∀ i, a < vx i) ∨ (∀ j, vy j < b) ∨ (∀ j, b < vy j)) → ip nvx nvy vx vy g a b = 0

/-- The velocity axes have distinct points. -/
def Sp.Grid (s : Sp nx ny) : Prop := Function.Injective s.vx ∧ Function.Injective s.vy

/-- Both assumptions can be met. -/
theorem interp_exists : ∃ ip : Interp, Nodal ip ∧ ZeroOutside ip := by
  classical
  refine ⟨fun nvx nvy vx vy g a b => if h : (∃ i, vx i = a) ∧ ∃ j, vy j = b then g h.1.choose h.2.choose else 0, ?_, ?_⟩
  · intro nvx nvy vx vy g i j hx hy
    have h : (∃ i', vx i' = vx i) ∧ ∃ j', vy j' = vy j := ⟨⟨i, rfl⟩, ⟨j, rfl⟩⟩
    beta_reduce
    rw [dif_pos h, hx h.1.choose_spec, hy h.2.choose_spec]
  · intro nvx nvy vx vy g a b h
    beta_reduce
    rw [dif_neg]
    rintro ⟨⟨i, hi⟩, ⟨j, hj⟩⟩
    rcases h with h | h | h | h
    · exact absurd (h i) (by rw [hi]; exact lt_irrefl _)
    · exact absurd (h i) (by rw [hi]; exact lt_irrefl _)
    · exact absurd (h j) (by rw [hj]; exact lt_irrefl _)
    · exact absurd (h j) (by rw [hj]; exact lt_irrefl _)

/-! ### Number of particles -/

/-- Number of particles of a species over the box, per cell area. -/
noncomputable def Sp.number (s : Sp nx ny) : ℝ := ∑ x, ∑ y, s.density x y

theorem streamX_number (dx dt : ℝ) (s : Sp nx ny) : (streamX dx dt s).number = s.number := by
  simp only [Sp.number, Sp.density, streamX, ← sum_mul]
  congr 1
  rw [sum_comm]
  conv_rhs => rw [sum_comm]
  refine sum_congr rfl fun y _ => ?_
  rw [sum_comm]
  conv_rhs => rw [sum_comm]
  refine sum_congr rfl fun i _ => ?_
  rw [sum_comm]
  conv_rhs => rw [sum_comm]
  exact sum_congr rfl fun j _ => shift_conserves _ _ _

theorem streamY_number (dy dt : ℝ) (s : Sp nx ny) : (streamY dy dt s).number = s.number := by
  simp only [Sp.number, Sp.density, streamY, ← sum_mul]
  congr 1
  refine sum_congr rfl fun x _ => ?_
  rw [sum_comm]
  conv_rhs => rw [sum_comm]
  refine sum_congr rfl fun i _ => ?_
  rw [sum_comm]
  conv_rhs => rw [sum_comm]
  exact sum_congr rfl fun j _ => shift_conserves _ _ _

/-- C90: the exponential acceleration keeps the density at every position. -/
theorem push_density (ip : Interp) (e : Scal nx ny) (dt : ℝ) (s : Sp nx ny) (x : ZMod nx) (y : ZMod ny) :
    (pushVx .exponential ip e dt s).density x y = s.density x y ∧ (pushVy .exponential ip e dt s).density x y = s.density x y := by
  constructor
  · have h : ∑ i, ∑ j, (pushVx .exponential ip e dt s).f x y i j = ∑ i, ∑ j, s.f x y i j := by
      rw [sum_comm]
      conv_rhs => rw [sum_comm]
      exact sum_congr rfl fun j _ => shift_conserves _ _ _
    unfold Sp.density
    exact congrArg (· * (s.dvx * s.dvy)) h
  · have h : ∑ i, ∑ j, (pushVy .exponential ip e dt s).f x y i j = ∑ i, ∑ j, s.f x y i j :=
      sum_congr rfl fun i _ => shift_conserves _ _ _
    unfold Sp.density
    exact congrArg (· * (s.dvx * s.dvy)) h

theorem pushVx_number (ip : Interp) (e : Scal nx ny) (dt : ℝ) (s : Sp nx ny) :
    (pushVx .exponential ip e dt s).number = s.number := by
  unfold Sp.number; exact sum_congr rfl fun x _ => sum_congr rfl fun y _ => (push_density ip e dt s x y).1
theorem pushVy_number (ip : Interp) (e : Scal nx ny) (dt : ℝ) (s : Sp nx ny) :
    (pushVy .exponential ip e dt s).number = s.number := by
  unfold Sp.number; exact sum_congr rfl fun x _ => sum_congr rfl fun y _ => (push_density ip e dt s x y).2

/-- What reaches the rotation inside `kinetic`. -/
noncomputable def beforeRotation (kind : EPush) (ip : Interp) (dx dy dt : ℝ) (ex ey : Scal nx ny) (s : Sp nx ny) : Sp nx ny :=
  pushVy kind ip ey (0.5 * dt) (pushVx kind ip ex (0.5 * dt) (streamY dy (0.5 * dt) (streamX dx (0.5 * dt) s)))

/-- C90: in a kinetic step with the spectral acceleration particles can be gained or lost only in the
magnetic rotation. -/
theorem kinetic_number (ip : Interp) (dx dy dt : ℝ) (ex ey bz : Scal nx ny) (s : Sp nx ny) :
    (kinetic .exponential ip dx dy dt ex ey bz s).number - s.number =
      (rotateB ip bz dt (beforeRotation .exponential ip dx dy dt ex ey s)).number
        - (beforeRotation .exponential ip dx dy dt ex ey s).number := by
  simp only [kinetic, streamX_number, streamY_number, pushVx_number, pushVy_number, beforeRotation]

theorem rotate_zero (ip : Interp) (hip : Nodal ip) (dt : ℝ) (s : Sp nx ny) (hs : s.Grid) :
    rotateB ip (fun _ _ => 0) dt s = s := by
  have : (rotateB ip (fun _ _ => 0) dt s).f = s.f := by
    funext x y i j
    change ip s.nvx s.nvy s.vx s.vy (s.f x y) _ _ = _
    simp only [theta, mul_zero, zero_mul, queryX, queryY, Real.cos_zero, Real.sin_zero, one_mul, add_zero, neg_zero, zero_add]
    exact hip _ _ _ _ _ _ _ hs.1 hs.2
  unfold rotateB at this ⊢
  dsimp only at this
  rw [this]

/-- Parameters of a species: everything but the distribution. -/
def Sp.grid_eq (s t : Sp nx ny) : Prop := ∃ f, t = { s with f := f }

theorem pushVx_grid (kind : EPush) (ip : Interp) (e : Scal nx ny) (dt : ℝ) (s : Sp nx ny) : s.grid_eq (pushVx kind ip e dt s) := by
  cases kind <;> exact ⟨_, rfl⟩
theorem pushVy_grid (kind : EPush) (ip : Interp) (e : Scal nx ny) (dt : ℝ) (s : Sp nx ny) : s.grid_eq (pushVy kind ip e dt s) := by
  cases kind <;> exact ⟨_, rfl⟩
theorem grid_eq_trans {s t u : Sp nx ny} (h : s.grid_eq t) (h' : t.grid_eq u) : s.grid_eq u := by
  obtain ⟨f, rfl⟩ := h; obtain ⟨g, rfl⟩ := h'; exact ⟨g, rfl⟩
theorem grid_eq_Grid {s t : Sp nx ny} (h : s.grid_eq t) (hs : s.Grid) : t.Grid := by
  obtain ⟨f, rfl⟩ := h; exact hs

theorem before_grid (kind : EPush) (ip : Interp) (dx dy dt : ℝ) (ex ey : Scal nx ny) (s : Sp nx ny) :
    s.grid_eq (beforeRotation kind ip dx dy dt ex ey s) := by
  unfold beforeRotation
  exact grid_eq_trans (t := streamX dx (0.5 * dt) s) ⟨_, rfl⟩ (grid_eq_trans (t := streamY dy (0.5 * dt) (streamX dx (0.5 * dt) s)) ⟨_, rfl⟩
    (grid_eq_trans (pushVx_grid ..) (pushVy_grid ..)))

theorem kinetic_grid (kind : EPush) (ip : Interp) (dx dy dt : ℝ) (ex ey bz : Scal nx ny) (s : Sp nx ny) :
    s.grid_eq (kinetic kind ip dx dy dt ex ey bz s) := by
  have h := before_grid kind ip dx dy dt ex ey s
  unfold kinetic
  exact grid_eq_trans h (grid_eq_trans (t := rotateB ip bz dt (beforeRotation kind ip dx dy dt ex ey s)) ⟨_, rfl⟩
    (grid_eq_trans (pushVy_grid kind ip ey (0.5 * dt) _) (grid_eq_trans (pushVx_grid kind ip ex (0.5 * dt) _)
      (grid_eq_trans (u := streamX dx (0.5 * dt) _) (t := streamY dy (0.5 * dt) _) ⟨_, rfl⟩ ⟨_, rfl⟩))))

/-- C90, partial: without a magnetic field a kinetic step with the spectral acceleration keeps the
number of particles.  Missing: a magnetic field (`rotation_loses`), and the semi-Lagrangian
acceleration (`sl_loses`). -/
theorem kinetic_number_partial (ip : Interp) (hip : Nodal ip) (dx dy dt : ℝ) (ex ey : Scal nx ny) (s : Sp nx ny) (hs : s.Grid) :
    (kinetic .exponential ip dx dy dt ex ey (fun _ _ => 0) s).number = s.number := by
  have h := kinetic_number ip dx dy dt ex ey (fun _ _ => 0) s
  rw [rotate_zero ip hip dt _ (grid_eq_Grid (before_grid _ _ _ _ _ _ _ _) hs), sub_self] at h
  linarith

/-- A species of one position and two by two velocities `±1/2`, of which every particle is a
particle per cell. -/
noncomputable def fourCells : Sp 1 1 where
  nvx := 2
  nvy := 2
  posx := ⟨two_ne_zero⟩
  posy := ⟨two_ne_zero⟩
  charge := -1
  mass := 1
  dvx := 1
  dvy := 1
  vx := axis 1 2
  vy := axis 1 2
  f := fun _ _ _ _ => 1

theorem axis_two : axis 1 2 0 = -(1 / 2) ∧ axis 1 2 1 = 1 / 2 := by
  constructor
  · simp only [axis, Grid.linspaceAt, show (0 : ZMod 2).val = 0 from rfl]; norm_num
  · simp only [axis, Grid.linspaceAt, show (1 : ZMod 2).val = 1 from rfl]; norm_num

theorem fourCells_grid : fourCells.Grid := by
  have h : Function.Injective (axis 1 2) := by
    intro a b hab
    have := axis_two
    fin_cases a <;> fin_cases b <;> first | rfl | (exfalso; change axis 1 2 0 = axis 1 2 1 at hab; rw [this.1, this.2] at hab; norm_num at hab) | (exfalso; change axis 1 2 1 = axis 1 2 0 at hab; rw [this.1, this.2] at hab; norm_num at hab)
  exact ⟨h, h⟩

theorem fourCells_number : fourCells.number = 4 := by
  have h : ∀ x y, fourCells.density x y = 4 := by
    intro x y
    change (∑ _i : ZMod 2, ∑ _j : ZMod 2, (1 : ℝ)) * (1 * 1) = 4
    simp [ZMod.card]; norm_num
  unfold Sp.number
  simp [h]

theorem rotated_outside (ip : Interp) (hip : ZeroOutside ip) (g : ZMod 2 → ZMod 2 → ℝ) (i j : ZMod 2) :
    rotated ip (-1) 1 (axis 1 2) (axis 1 2) (Real.pi / 4) 1 g i j = 0 := by
  have h2 : 1 < Real.sqrt 2 := by rw [Real.lt_sqrt (by norm_num)]; norm_num
  have ht : theta (-1) 1 (Real.pi / 4) 1 = Real.pi / 4 := by unfold theta; ring
  have a := axis_two
  have lt : ∀ c : ℝ, 1 / 2 < c → ∀ i : ZMod 2, axis 1 2 i < c := by
    intro c hc i; fin_cases i
    · change axis 1 2 0 < c; rw [a.1]; linarith
    · change axis 1 2 1 < c; rw [a.2]; linarith
  have gt : ∀ c : ℝ, c < -(1 / 2) → ∀ i : ZMod 2, c < axis 1 2 i := by
    intro c hc i; fin_cases i
    · change c < axis 1 2 0; rw [a.1]; linarith
    · change c < axis 1 2 1; rw [a.2]; linarith
  unfold rotated
  apply hip
  rw [ht]
  unfold queryX queryY
  rw [Real.cos_pi_div_four, Real.sin_pi_div_four]
  fin_cases i <;> fin_cases j
  · right; left; change ∀ k, _ * axis 1 2 0 + _ * axis 1 2 0 < _; rw [a.1]; exact gt _ (by linarith)
  · right; right; left; change ∀ k, _ < _ * axis 1 2 0 + _ * axis 1 2 1; rw [a.1, a.2]; exact lt _ (by linarith)
  · right; right; right; change ∀ k, _ * axis 1 2 1 + _ * axis 1 2 0 < _; rw [a.1, a.2]; exact gt _ (by linarith)
  · left; change ∀ k, _ < _ * axis 1 2 1 + _ * axis 1 2 1; rw [a.2]; exact lt _ (by linarith)

theorem fourCells_before (ip : Interp) (dx dy dt : ℝ) :
    beforeRotation .exponential ip dx dy dt (fun _ _ => 0) (fun _ _ => 0) fourCells = fourCells := by
  have h1 : streamX dx (0.5 * dt) fourCells = fourCells := by
    have : (streamX dx (0.5 * dt) fourCells).f = fourCells.f := by
      funext x y i j; exact congrFun (Spectral.shift_const (nx := 1) _ _ 1) x
    unfold streamX at this ⊢; dsimp only at this; rw [this]
  have h2 : streamY dy (0.5 * dt) fourCells = fourCells := by
    have : (streamY dy (0.5 * dt) fourCells).f = fourCells.f := by
      funext x y i j; exact congrFun (Spectral.shift_const (nx := 1) _ _ 1) y
    unfold streamY at this ⊢; dsimp only at this; rw [this]
  have h3 : pushVx .exponential ip (fun _ _ => 0) (0.5 * dt) fourCells = fourCells := by
    have : (pushVx .exponential ip (fun _ _ => 0) (0.5 * dt) fourCells).f = fourCells.f := by
      funext x y i j; exact congrFun (Spectral.shift_const (nx := 2) _ _ 1) i
    unfold pushVx at this ⊢; dsimp only at this ⊢; rw [this]
  have h4 : pushVy .exponential ip (fun _ _ => 0) (0.5 * dt) fourCells = fourCells := by
    have : (pushVy .exponential ip (fun _ _ => 0) (0.5 * dt) fourCells).f = fourCells.f := by
      funext x y i j; exact congrFun (Spectral.shift_const (nx := 2) _ _ 1) j
    unfold pushVy at this ⊢; dsimp only at this ⊢; rw [this]
  unfold beforeRotation
  rw [h1, h2, h3, h4]

/-- C90: with a magnetic field particles are lost.  Four velocity cells filled alike, no electric
field, an eighth of a gyration: afterwards no particle is left. -/
theorem rotation_loses (ip : Interp) (hip : ZeroOutside ip) (dx dy : ℝ) :
    fourCells.number = 4 ∧
      (kinetic .exponential ip dx dy 1 (fun _ _ => 0) (fun _ _ => 0) (fun _ _ => Real.pi / 4) fourCells).number = 0 := by
  refine ⟨fourCells_number, ?_⟩
  have h := kinetic_number ip dx dy 1 (fun _ _ => 0) (fun _ _ => 0) (fun _ _ => Real.pi / 4) fourCells
  rw [fourCells_before] at h
  have h0 : (rotateB ip (fun _ _ => Real.pi / 4) 1 fourCells).number = 0 := by
    unfold Sp.number Sp.density
    refine sum_eq_zero fun x _ => sum_eq_zero fun y _ => ?_
    have : ∑ i, ∑ j, (rotateB ip (fun _ _ => Real.pi / 4) 1 fourCells).f x y i j = 0 :=
      sum_eq_zero fun i _ => sum_eq_zero fun j _ => rotated_outside ip hip _ i j
    rw [this, zero_mul]
  linarith

/-- C90: the semi-Lagrangian acceleration also loses particles: an acceleration by one cell empties
half of the four cells. -/
theorem sl_loses (ip : Interp) (hip : ZeroOutside ip) (hn : Nodal ip) :
    (pushVx .sl ip (fun _ _ => -1) 1 fourCells).number = 2 := by
  have a := axis_two
  have g := fourCells_grid
  obtain ⟨G, hG⟩ : ∃ G : ZMod 1 → ZMod 1 → ZMod 2 → ZMod 2 → ℝ, G = (pushVx .sl ip (fun _ _ => -1) 1 fourCells).f := ⟨_, rfl⟩
  have h0 : ∀ x y j, G x y 0 j = 0 := by
    intro x y j
    rw [hG]
    change ip 2 2 (axis 1 2) (axis 1 2) (fun _ _ => 1) (axis 1 2 0 - -1 / 1 * -1 * 1) (axis 1 2 j) = 0
    apply hip
    right; left
    intro i
    rw [a.1]
    fin_cases i
    · change _ < axis 1 2 0; rw [a.1]; norm_num
    · change _ < axis 1 2 1; rw [a.2]; norm_num
  have h1 : ∀ x y j, G x y 1 j = 1 := by
    intro x y j
    rw [hG]
    change ip 2 2 (axis 1 2) (axis 1 2) (fun _ _ => 1) (axis 1 2 1 - -1 / 1 * -1 * 1) (axis 1 2 j) = 1
    have e : axis 1 2 1 - -1 / 1 * -1 * 1 = axis 1 2 0 := by rw [a.1, a.2]; norm_num
    rw [e]
    exact hn 2 2 (axis 1 2) (axis 1 2) (fun _ _ => 1) 0 j g.1 g.2
  have hd : ∀ x y, (pushVx .sl ip (fun _ _ => -1) 1 fourCells).density x y = 2 := by
    intro x y
    have e : (pushVx .sl ip (fun _ _ => -1) 1 fourCells).density x y = (∑ i, ∑ j, G x y i j) * (1 * 1) := by rw [hG]; rfl
    rw [e, show (∑ i, ∑ j, G x y i j) = (∑ j, G x y 0 j) + ∑ j, G x y 1 j from Fin.sum_univ_two _]
    simp [h0, h1, ZMod.card]
  unfold Sp.number
  simp [hd]

/-! ### Characteristics -/

/-- C91: a velocity that moves in the magnetic field, `dv/dt = (q/m) v × B`, and ends at the grid point
`(vx, vy)` started exactly where the rotation reads the old distribution. -/
theorem rotation_characteristic (q m b dt : ℝ) (u w : ℝ → ℝ)
    (hu : ∀ t, HasDerivAt u (q / m * (w t * b)) t) (hw : ∀ t, HasDerivAt w (q / m * (-u t * b)) t) :
    u 0 = queryX (theta q m b dt) (u dt) (w dt) ∧ w 0 = queryY (theta q m b dt) (u dt) (w dt) := by
  obtain ⟨Ω, hΩ⟩ : ∃ Ω, Ω = q / m * b := ⟨_, rfl⟩
  have ht : theta q m b dt = -(Ω * dt) := by rw [hΩ]; unfold theta; ring
  have hid : ∀ t : ℝ, HasDerivAt (fun t => Ω * t) Ω t := fun t => by simpa using (hasDerivAt_id t).const_mul Ω
  have hc : ∀ t : ℝ, HasDerivAt (fun t => Real.cos (Ω * t)) (-Real.sin (Ω * t) * Ω) t := fun t => (hid t).cos
  have hs : ∀ t : ℝ, HasDerivAt (fun t => Real.sin (Ω * t)) (Real.cos (Ω * t) * Ω) t := fun t => (hid t).sin
  have c1 : ∀ t, Real.cos (Ω * t) * u t - Real.sin (Ω * t) * w t = Real.cos (Ω * 0) * u 0 - Real.sin (Ω * 0) * w 0 := by
    have hd : ∀ t, HasDerivAt (fun t => Real.cos (Ω * t) * u t - Real.sin (Ω * t) * w t) 0 t := by
      intro t
      exact (((hc t).mul (hu t)).sub ((hs t).mul (hw t))).congr_deriv (by rw [hΩ]; ring)
    intro t
    exact is_const_of_deriv_eq_zero (fun t => (hd t).differentiableAt) (fun t => (hd t).deriv) t 0
  have c2 : ∀ t, Real.sin (Ω * t) * u t + Real.cos (Ω * t) * w t = Real.sin (Ω * 0) * u 0 + Real.cos (Ω * 0) * w 0 := by
    have hd : ∀ t, HasDerivAt (fun t => Real.sin (Ω * t) * u t + Real.cos (Ω * t) * w t) 0 t := by
      intro t
      exact (((hs t).mul (hu t)).add ((hc t).mul (hw t))).congr_deriv (by rw [hΩ]; ring)
    intro t
    exact is_const_of_deriv_eq_zero (fun t => (hd t).differentiableAt) (fun t => (hd t).deriv) t 0
  have e1 := c1 dt
  have e2 := c2 dt
  simp only [mul_zero, Real.cos_zero, Real.sin_zero, one_mul, zero_mul, sub_zero, zero_add] at e1 e2
  unfold queryX queryY
  rw [ht, Real.cos_neg, Real.sin_neg]
  exact ⟨by rw [← e1]; ring, by rw [← e2]; ring⟩

/-- Such an orbit exists through every end point. -/
theorem orbit_exists (q m b dt vx vy : ℝ) : ∃ u w : ℝ → ℝ, (∀ t, HasDerivAt u (q / m * (w t * b)) t) ∧
    (∀ t, HasDerivAt w (q / m * (-u t * b)) t) ∧ u dt = vx ∧ w dt = vy := by
  obtain ⟨Ω, hΩ⟩ : ∃ Ω, Ω = q / m * b := ⟨_, rfl⟩
  have hid : ∀ t : ℝ, HasDerivAt (fun t => Ω * (t - dt)) Ω t := fun t => by
    simpa using ((hasDerivAt_id t).sub_const dt).const_mul Ω
  have hc : ∀ t : ℝ, HasDerivAt (fun t => Real.cos (Ω * (t - dt))) (-Real.sin (Ω * (t - dt)) * Ω) t := fun t => (hid t).cos
  have hs : ∀ t : ℝ, HasDerivAt (fun t => Real.sin (Ω * (t - dt))) (Real.cos (Ω * (t - dt)) * Ω) t := fun t => (hid t).sin
  refine ⟨fun t => Real.cos (Ω * (t - dt)) * vx + Real.sin (Ω * (t - dt)) * vy,
    fun t => -Real.sin (Ω * (t - dt)) * vx + Real.cos (Ω * (t - dt)) * vy, ?_, ?_, by simp, by simp⟩
  · intro t
    exact (((hc t).mul_const vx).add ((hs t).mul_const vy)).congr_deriv (by rw [hΩ]; ring)
  · intro t
    exact (((hs t).neg.mul_const vx).add ((hc t).mul_const vy)).congr_deriv (by rw [hΩ]; ring)

/-- C91: the new distribution at a grid velocity is the interpolated old one at the start of the orbit
that ends there, for every interpolation. -/
theorem rotation_transports (ip : Interp) (bz : Scal nx ny) (dt : ℝ) (s : Sp nx ny) (x : ZMod nx) (y : ZMod ny) (i : ZMod s.nvx)
    (j : ZMod s.nvy) (u w : ℝ → ℝ) (hu : ∀ t, HasDerivAt u (s.charge / s.mass * (w t * bz x y)) t)
    (hw : ∀ t, HasDerivAt w (s.charge / s.mass * (-u t * bz x y)) t) (hi : u dt = s.vx i) (hj : w dt = s.vy j) :
    (rotateB ip bz dt s).f x y i j = ip s.nvx s.nvy s.vx s.vy (s.f x y) (u 0) (w 0) := by
  obtain ⟨h1, h2⟩ := rotation_characteristic s.charge s.mass (bz x y) dt u w hu hw
  rw [h1, h2, hi, hj]; rfl

/-- C91: the rotation reads the old distribution at the same speed. -/
theorem rotation_speed (th vx vy : ℝ) : queryX th vx vy ^ 2 + queryY th vx vy ^ 2 = vx ^ 2 + vy ^ 2 := by
  unfold queryX queryY
  linear_combination (vx ^ 2 + vy ^ 2) * Real.sin_sq_add_cos_sq th

/-- C91: the semi-Lagrangian acceleration reads the old distribution where the orbit of
`dv/dt = (q/m) E` started. -/
theorem sl_characteristic (ip : Interp) (ex : Scal nx ny) (dt : ℝ) (s : Sp nx ny) (x : ZMod nx) (y : ZMod ny) (i : ZMod s.nvx)
    (j : ZMod s.nvy) (u : ℝ → ℝ) (hu : ∀ t, HasDerivAt u (s.charge / s.mass * ex x y) t) :
    (u dt = s.vx i → (pushVx .sl ip ex dt s).f x y i j = ip s.nvx s.nvy s.vx s.vy (s.f x y) (u 0) (s.vy j)) ∧
    (u dt = s.vy j → (pushVy .sl ip ex dt s).f x y i j = ip s.nvx s.nvy s.vx s.vy (s.f x y) (s.vx i) (u 0)) := by
  have c : ∀ t, u t - s.charge / s.mass * ex x y * t = u 0 - s.charge / s.mass * ex x y * 0 := by
    have hd : ∀ t, HasDerivAt (fun t => u t - s.charge / s.mass * ex x y * t) 0 t := by
      intro t
      have h2 : HasDerivAt (fun t => s.charge / s.mass * ex x y * t) (s.charge / s.mass * ex x y) t := by
        simpa using (hasDerivAt_id t).const_mul (s.charge / s.mass * ex x y)
      exact ((hu t).sub h2).congr_deriv (sub_self _)
    intro t
    exact is_const_of_deriv_eq_zero (fun t => (hd t).differentiableAt) (fun t => (hd t).deriv) t 0
  have e := c dt
  rw [mul_zero, sub_zero] at e
  constructor
  · intro h
    rw [← e, h]; rfl
  · intro h
    rw [← e, h]; rfl

/-! ### The velocity axis -/

theorem axis_val (vmax : ℝ) (n : ℕ) [NeZero n] (i : ZMod n) : axis vmax n i = -vmax + (i.val + 1 / 2) * (2 * vmax / n) := by
  have hn : (n : ℝ) ≠ 0 := by exact_mod_cast NeZero.ne n
  unfold axis Grid.linspaceAt
  by_cases h : n ≤ 1
  · have h1 : n = 1 := by have := NeZero.ne n; omega
    subst h1
    rw [if_pos h]
    have : i.val = 0 := by have := ZMod.val_lt i; omega
    rw [this]; push_cast; ring
  · rw [if_neg h]
    have h1 : (n : ℝ) - 1 ≠ 0 := by
      have : (1 : ℝ) < n := by exact_mod_cast not_le.1 h
      linarith
    field_simp
    ring

theorem axis_inj (vmax : ℝ) (h : vmax ≠ 0) (n : ℕ) [NeZero n] : Function.Injective (axis vmax n) := by
  intro a b hab
  rw [axis_val, axis_val] at hab
  have hn : (n : ℝ) ≠ 0 := by exact_mod_cast NeZero.ne n
  have hd : 2 * vmax / n ≠ 0 := by positivity
  have : ((a.val : ℝ) + 1 / 2) = b.val + 1 / 2 := mul_right_cancel₀ hd (by linarith)
  have : (a.val : ℝ) = b.val := by linarith
  exact ZMod.val_injective n (by exact_mod_cast this)

theorem axis_mirror (vmax : ℝ) (n : ℕ) [NeZero n] (i : ZMod n) : axis vmax n (-1 - i) = -axis vmax n i := by
  have hn : (n : ℝ) ≠ 0 := by exact_mod_cast NeZero.ne n
  have hv : (-1 - i : ZMod n).val = n - 1 - i.val := by
    have hlt := ZMod.val_lt i
    have : (-1 - i : ZMod n) = ((n - 1 - i.val : ℕ) : ZMod n) := by
      rw [Nat.cast_sub (by omega), Nat.cast_sub (by omega)]
      simp
    rw [this, ZMod.val_natCast, Nat.mod_eq_of_lt (by omega)]
  rw [axis_val, axis_val, hv]
  have hlt := ZMod.val_lt i
  rw [Nat.cast_sub (by omega), Nat.cast_sub (by omega)]
  push_cast
  field_simp
  ring

/-- C91: a quarter gyration exchanges the velocity axes exactly on a square velocity grid, so nothing is
lost. -/
theorem quarter_turn (ip : Interp) (hip : Nodal ip) (q m b dt vmax : ℝ) (hv : vmax ≠ 0) {n : ℕ} [NeZero n] (h : q / m * b * dt = -(Real.pi / 2))
    (g : ZMod n → ZMod n → ℝ) (i j : ZMod n) :
    rotated ip q m (axis vmax n) (axis vmax n) b dt g i j = g j (-1 - i) ∧ axis vmax n (-1 - i) = -axis vmax n i := by
  refine ⟨?_, axis_mirror vmax n i⟩
  have ht : theta q m b dt = Real.pi / 2 := by unfold theta; linarith
  unfold rotated queryX queryY
  rw [ht, Real.cos_pi_div_two, Real.sin_pi_div_two]
  rw [show 0 * axis vmax n i + 1 * axis vmax n j = axis vmax n j by ring,
    show -1 * axis vmax n i + 0 * axis vmax n j = axis vmax n (-1 - i) by rw [axis_mirror]; ring]
  exact hip n n _ _ g _ _ (axis_inj vmax hv n) (axis_inj vmax hv n)

/-! ### Free streaming -/

/-- The Fourier mode `(p, q)` over the box. -/
noncomputable def mode2 (a : Scal nx ny) (p q : ℤ) : ℂ :=
  ∑ y : ZMod ny, cexp (-(2 * Real.pi * I * q * y.val / ny)) * mode (fun x => a x y) p

theorem mode2_x (a : Scal nx ny) (p q : ℤ) :
    mode2 a p q = ∑ x : ZMod nx, cexp (-(2 * Real.pi * I * p * x.val / nx)) * mode (fun y => a x y) q := by
  unfold mode2 mode
  simp only [mul_sum]
  rw [sum_comm]
  exact sum_congr rfl fun x _ => sum_congr rfl fun y _ => by ring

theorem mode2_streamX (dx dt : ℝ) (s : Sp nx ny) (i : ZMod s.nvx) (j : ZMod s.nvy) (p q : ℤ) (hp : Resolved nx p) :
    mode2 (fun x y => (streamX dx dt s).f x y i j) p q =
      cexp (-I * ((waveNumber nx dx p * (s.vx i * dt) : ℝ) : ℂ)) * mode2 (fun x y => s.f x y i j) p q := by
  unfold mode2
  rw [mul_sum]
  refine sum_congr rfl fun y _ => ?_
  have h := (shift_modes dx (s.vx i * dt) (fun x' => s.f x' y i j)).1 p hp
  rw [show (fun x => (streamX dx dt s).f x y i j) = shift dx (s.vx i * dt) (fun x' => s.f x' y i j) from rfl, h]
  ring

theorem mode2_streamY (dy dt : ℝ) (s : Sp nx ny) (i : ZMod s.nvx) (j : ZMod s.nvy) (p q : ℤ) (hq : Resolved ny q) :
    mode2 (fun x y => (streamY dy dt s).f x y i j) p q =
      cexp (-I * ((waveNumber ny dy q * (s.vy j * dt) : ℝ) : ℂ)) * mode2 (fun x y => s.f x y i j) p q := by
  rw [mode2_x, mode2_x, mul_sum]
  refine sum_congr rfl fun x _ => ?_
  have h := (shift_modes dy (s.vy j * dt) (fun y' => s.f x y' i j)).1 q hq
  rw [show (fun y => (streamY dy dt s).f x y i j) = shift dy (s.vy j * dt) (fun y' => s.f x y' i j) from rfl, h]
  ring

theorem pushVx_zero (kind : EPush) (ip : Interp) (hip : Nodal ip) (dt : ℝ) (s : Sp nx ny) (hs : s.Grid) :
    pushVx kind ip (fun _ _ => 0) dt s = s := by
  cases kind
  · have : (fun (x : ZMod nx) (y : ZMod ny) (i : ZMod s.nvx) (j : ZMod s.nvy) => shift s.dvx (s.charge / s.mass * 0 * dt) (fun i' => s.f x y i' j) i) = s.f := by
      funext x y i j
      rw [mul_zero, zero_mul, shift_zero]
    simp only [pushVx]
    rw [this]
  · have : (fun (x : ZMod nx) (y : ZMod ny) (i : ZMod s.nvx) (j : ZMod s.nvy) => ip s.nvx s.nvy s.vx s.vy (s.f x y) (s.vx i - s.charge / s.mass * 0 * dt) (s.vy j)) = s.f := by
      funext x y i j
      rw [mul_zero, zero_mul, sub_zero]
      exact hip _ _ _ _ _ _ _ hs.1 hs.2
    simp only [pushVx]
    rw [this]

theorem pushVy_zero (kind : EPush) (ip : Interp) (hip : Nodal ip) (dt : ℝ) (s : Sp nx ny) (hs : s.Grid) :
    pushVy kind ip (fun _ _ => 0) dt s = s := by
  cases kind
  · have : (fun (x : ZMod nx) (y : ZMod ny) (i : ZMod s.nvx) (j : ZMod s.nvy) => shift s.dvy (s.charge / s.mass * 0 * dt) (fun j' => s.f x y i j') j) = s.f := by
      funext x y i j
      rw [mul_zero, zero_mul, shift_zero]
    simp only [pushVy]
    rw [this]
  · have : (fun (x : ZMod nx) (y : ZMod ny) (i : ZMod s.nvx) (j : ZMod s.nvy) => ip s.nvx s.nvy s.vx s.vy (s.f x y) (s.vx i) (s.vy j - s.charge / s.mass * 0 * dt)) = s.f := by
      funext x y i j
      rw [mul_zero, zero_mul, sub_zero]
      exact hip _ _ _ _ _ _ _ hs.1 hs.2
    simp only [pushVy]
    rw [this]

/-- Without fields a kinetic step is four half streams. -/
theorem kinetic_free (kind : EPush) (ip : Interp) (hip : Nodal ip) (dx dy dt : ℝ) (s : Sp nx ny) (hs : s.Grid) :
    kinetic kind ip dx dy dt (fun _ _ => 0) (fun _ _ => 0) (fun _ _ => 0) s =
      streamX dx (0.5 * dt) (streamY dy (0.5 * dt) (streamY dy (0.5 * dt) (streamX dx (0.5 * dt) s))) := by
  obtain ⟨u, hu⟩ : ∃ u, u = streamY dy (0.5 * dt) (streamX dx (0.5 * dt) s) := ⟨_, rfl⟩
  have hg : u.Grid := by rw [hu]; exact hs
  unfold kinetic
  dsimp only
  rw [← hu, pushVx_zero kind ip hip _ u hg, pushVy_zero kind ip hip _ u hg, rotate_zero ip hip _ u hg,
    pushVy_zero kind ip hip _ u hg, pushVx_zero kind ip hip _ u hg]

/-- C92: without fields every resolved mode of every velocity moves with exactly that velocity,
`f(x, y, t + dt) = f(x - vx dt, y - vy dt, t)`, and nothing but the distribution changes. -/
theorem free_streaming (kind : EPush) (ip : Interp) (hip : Nodal ip) (dx dy dt : ℝ) (s : Sp nx ny) (hs : s.Grid) :
    ∃ g, kinetic kind ip dx dy dt (fun _ _ => 0) (fun _ _ => 0) (fun _ _ => 0) s = { s with f := g } ∧
      ∀ (i : ZMod s.nvx) (j : ZMod s.nvy) (p q : ℤ), Resolved nx p → Resolved ny q →
        mode2 (fun x y => g x y i j) p q =
          cexp (-I * (((waveNumber nx dx p * s.vx i + waveNumber ny dy q * s.vy j) * dt : ℝ) : ℂ)) * mode2 (fun x y => s.f x y i j) p q := by
  refine ⟨(streamX dx (0.5 * dt) (streamY dy (0.5 * dt) (streamY dy (0.5 * dt) (streamX dx (0.5 * dt) s)))).f,
    by rw [kinetic_free kind ip hip dx dy dt s hs]; rfl, ?_⟩
  intro i j p q hp hq
  have h1 := mode2_streamX dx (0.5 * dt) (streamY dy (0.5 * dt) (streamY dy (0.5 * dt) (streamX dx (0.5 * dt) s))) i j p q hp
  have h2 := mode2_streamY dy (0.5 * dt) (streamY dy (0.5 * dt) (streamX dx (0.5 * dt) s)) i j p q hq
  have h3 := mode2_streamY dy (0.5 * dt) (streamX dx (0.5 * dt) s) i j p q hq
  have h4 := mode2_streamX dx (0.5 * dt) s i j p q hp
  refine h1.trans ?_
  rw [h2.trans (congrArg _ (h3.trans (congrArg _ h4)))]
  rw [← mul_assoc, ← mul_assoc, ← mul_assoc, ← Complex.exp_add, ← Complex.exp_add, ← Complex.exp_add]
  congr 2
  change -I * ((waveNumber nx dx p * (s.vx i * (0.5 * dt)) : ℝ) : ℂ) + -I * ((waveNumber ny dy q * (s.vy j * (0.5 * dt)) : ℝ) : ℂ)
    + -I * ((waveNumber ny dy q * (s.vy j * (0.5 * dt)) : ℝ) : ℂ) + -I * ((waveNumber nx dx p * (s.vx i * (0.5 * dt)) : ℝ) : ℂ) = _
  push_cast
  ring

/-- C92: velocities that cross whole cells in half a step move the distribution by whole cells, without
error. -/
theorem free_streaming_cells (kind : EPush) (ip : Interp) (hip : Nodal ip) (dx dy dt : ℝ) (hdx : dx ≠ 0) (hdy : dy ≠ 0) (s : Sp nx ny)
    (hs : s.Grid) (a : ZMod s.nvx → ℤ) (b : ZMod s.nvy → ℤ) (ha : ∀ i, s.vx i * dt = 2 * a i * dx) (hb : ∀ j, s.vy j * dt = 2 * b j * dy) :
    kinetic kind ip dx dy dt (fun _ _ => 0) (fun _ _ => 0) (fun _ _ => 0) s =
      { s with f := fun x y i j => s.f (x - 2 * a i) (y - 2 * b j) i j } := by
  rw [kinetic_free kind ip hip dx dy dt s hs]
  have e1 : ∀ i, s.vx i * (0.5 * dt) = a i * dx := fun i => by linarith [ha i]
  have e2 : ∀ j, s.vy j * (0.5 * dt) = b j * dy := fun j => by linarith [hb j]
  have hX : ∀ (g : ZMod nx → ZMod ny → ZMod s.nvx → ZMod s.nvy → ℝ), streamX dx (0.5 * dt) { s with f := g } = { s with f := fun x y i j => g (x - a i) y i j } := by
    intro g
    unfold streamX
    have : (fun (x : ZMod nx) (y : ZMod ny) (i : ZMod s.nvx) (j : ZMod s.nvy) => shift dx (s.vx i * (0.5 * dt)) (fun x' => g x' y i j) x) = fun x y i j => g (x - a i) y i j := by
      funext x y i j
      rw [e1, shift_cells dx hdx]
    dsimp only
    rw [this]
  have hY : ∀ (g : ZMod nx → ZMod ny → ZMod s.nvx → ZMod s.nvy → ℝ), streamY dy (0.5 * dt) { s with f := g } = { s with f := fun x y i j => g x (y - b j) i j } := by
    intro g
    unfold streamY
    have : (fun (x : ZMod nx) (y : ZMod ny) (i : ZMod s.nvx) (j : ZMod s.nvy) => shift dy (s.vy j * (0.5 * dt)) (fun y' => g x y' i j) y) = fun x y i j => g x (y - b j) i j := by
      funext x y i j
      rw [e2, shift_cells dy hdy]
    dsimp only
    rw [this]
  have h0 : s = { s with f := s.f } := rfl
  conv_lhs => rw [h0]
  rw [hX, hY, hY, hX]
  congr 1
  funext x y i j
  congr 1 <;> ring

/-! ### Reversing a step -/

theorem streamX_reverse (hx : ¬ 2 ∣ nx) (dx dt : ℝ) (s : Sp nx ny) : streamX dx (-dt) (streamX dx dt s) = s := by
  have : (streamX dx (-dt) (streamX dx dt s)).f = s.f := by
    funext x y i j
    have h := shift_add_partial dx (s.vx i * dt) (s.vx i * -dt) (fun x' => s.f x' y i j) (fun h => absurd h hx)
    rw [show s.vx i * dt + s.vx i * -dt = 0 by ring, shift_zero] at h
    exact congrFun h x
  exact congrArg (fun g => ({ s with f := g } : Sp nx ny)) this

theorem streamY_reverse (hy : ¬ 2 ∣ ny) (dy dt : ℝ) (s : Sp nx ny) : streamY dy (-dt) (streamY dy dt s) = s := by
  have : (streamY dy (-dt) (streamY dy dt s)).f = s.f := by
    funext x y i j
    have h := shift_add_partial dy (s.vy j * dt) (s.vy j * -dt) (fun y' => s.f x y' i j) (fun h => absurd h hy)
    rw [show s.vy j * dt + s.vy j * -dt = 0 by ring, shift_zero] at h
    exact congrFun h y
  exact congrArg (fun g => ({ s with f := g } : Sp nx ny)) this

omit [NeZero nx] [NeZero ny] in
theorem pushVx_reverse (ip : Interp) (e : Scal nx ny) (dt : ℝ) (s : Sp nx ny) (hv : ¬ 2 ∣ s.nvx) :
    pushVx .exponential ip e (-dt) (pushVx .exponential ip e dt s) = s := by
  have : (pushVx .exponential ip e (-dt) (pushVx .exponential ip e dt s)).f = s.f := by
    funext x y i j
    have h := shift_add_partial s.dvx (s.charge / s.mass * e x y * dt) (s.charge / s.mass * e x y * -dt) (fun i' => s.f x y i' j) (fun h => absurd h hv)
    rw [show s.charge / s.mass * e x y * dt + s.charge / s.mass * e x y * -dt = 0 by ring, shift_zero] at h
    exact congrFun h i
  exact congrArg (fun g => ({ s with f := g } : Sp nx ny)) this

omit [NeZero nx] [NeZero ny] in
theorem pushVy_reverse (ip : Interp) (e : Scal nx ny) (dt : ℝ) (s : Sp nx ny) (hv : ¬ 2 ∣ s.nvy) :
    pushVy .exponential ip e (-dt) (pushVy .exponential ip e dt s) = s := by
  have : (pushVy .exponential ip e (-dt) (pushVy .exponential ip e dt s)).f = s.f := by
    funext x y i j
    have h := shift_add_partial s.dvy (s.charge / s.mass * e x y * dt) (s.charge / s.mass * e x y * -dt) (fun j' => s.f x y i j') (fun h => absurd h hv)
    rw [show s.charge / s.mass * e x y * dt + s.charge / s.mass * e x y * -dt = 0 by ring, shift_zero] at h
    exact congrFun h j
  exact congrArg (fun g => ({ s with f := g } : Sp nx ny)) this

/-- C92, partial: a kinetic step in any electric field is undone by the step with `-dt`.  Missing: even
numbers of cells, whose alternating component the spectral shifts damp, and magnetic fields, whose
interpolation is not invertible. -/
theorem kinetic_reversible_partial (ip : Interp) (hip : Nodal ip) (dx dy dt : ℝ) (ex ey : Scal nx ny) (s : Sp nx ny) (hs : s.Grid)
    (hx : ¬ 2 ∣ nx) (hy : ¬ 2 ∣ ny) (hvx : ¬ 2 ∣ s.nvx) (hvy : ¬ 2 ∣ s.nvy) :
    kinetic .exponential ip dx dy (-dt) ex ey (fun _ _ => 0) (kinetic .exponential ip dx dy dt ex ey (fun _ _ => 0) s) = s := by
  have form : ∀ (t : ℝ) (u : Sp nx ny), u.Grid → kinetic .exponential ip dx dy t ex ey (fun _ _ => 0) u =
      streamX dx (0.5 * t) (streamY dy (0.5 * t) (pushVx .exponential ip ex (0.5 * t) (pushVy .exponential ip ey (0.5 * t)
        (pushVy .exponential ip ey (0.5 * t) (pushVx .exponential ip ex (0.5 * t) (streamY dy (0.5 * t) (streamX dx (0.5 * t) u))))))) := by
    intro t u hu
    unfold kinetic
    dsimp only
    rw [rotate_zero ip hip]
    exact grid_eq_Grid (before_grid .exponential ip dx dy t ex ey u) hu
  rw [form (-dt) _ (grid_eq_Grid (kinetic_grid ..) hs), form dt s hs, show (0.5 : ℝ) * -dt = -(0.5 * dt) by ring]
  rw [streamX_reverse hx, streamY_reverse hy, pushVx_reverse, pushVy_reverse, pushVy_reverse, pushVx_reverse, streamY_reverse hy, streamX_reverse hx]
  all_goals assumption

/-- C91: when the acceleration `(q/m) E dt` is a whole number of velocity cells, the spectral push moves the
distribution by exactly that many cells, along the right axis and in the right direction. -/
theorem push_cells (ip : Interp) (e : Scal nx ny) (dt : ℝ) (s : Sp nx ny) (c : ℤ) (x : ZMod nx) (y : ZMod ny) (i : ZMod s.nvx) (j : ZMod s.nvy) :
    (s.dvx ≠ 0 → s.charge / s.mass * e x y * dt = c * s.dvx → (pushVx .exponential ip e dt s).f x y i j = s.f x y (i - (c : ZMod s.nvx)) j) ∧
    (s.dvy ≠ 0 → s.charge / s.mass * e x y * dt = c * s.dvy → (pushVy .exponential ip e dt s).f x y i j = s.f x y i (j - (c : ZMod s.nvy))) := by
  constructor
  · intro hd h
    change shift s.dvx (s.charge / s.mass * e x y * dt) (fun i' => s.f x y i' j) i = _
    rw [h, shift_cells _ hd]
  · intro hd h
    change shift s.dvy (s.charge / s.mass * e x y * dt) (fun j' => s.f x y i j') j = _
    rw [h, shift_cells _ hd]

/-- C91: the same for the drift through space. -/
theorem stream_cells (d dt : ℝ) (hd : d ≠ 0) (s : Sp nx ny) (c : ℤ) (x : ZMod nx) (y : ZMod ny) (i : ZMod s.nvx) (j : ZMod s.nvy) :
    (s.vx i * dt = c * d → (streamX d dt s).f x y i j = s.f (x - (c : ZMod nx)) y i j) ∧
    (s.vy j * dt = c * d → (streamY d dt s).f x y i j = s.f x (y - (c : ZMod ny)) i j) := by
  constructor
  · intro h
    change shift d (s.vx i * dt) (fun x' => s.f x' y i j) x = _
    rw [h, shift_cells _ hd]
  · intro h
    change shift d (s.vy j * dt) (fun y' => s.f x y' i j) y = _
    rw [h, shift_cells _ hd]

example (ip : Interp) (x y : ZMod 1) (i j : ZMod 2) : (pushVx .exponential ip (fun _ _ => -3) 1 fourCells).f x y i j = fourCells.f x y (i - ((3 : ℤ) : ZMod 2)) j :=
  (push_cells ip (fun _ _ => -3) 1 fourCells 3 x y i j).1 (by norm_num [fourCells]) (by norm_num [fourCells])

end Verif.Vlasov2d
