import Verif.Model.Pic
import Verif.Props.Integrator
import Mathlib.Analysis.SpecialFunctions.Pow.Real
import Mathlib.Tactic.Linarith
import Mathlib.Tactic.FieldSimp
import Mathlib.Tactic.Ring

/-! C38 (particle integrators), C39, C40, C41. -/
namespace Verif.Pic
open Finset Verif.Spectral

/-! ### Shapes -/

/-- A weighted sum over the stencil of a particle. -/
noncomputable def over (shape : Shape) (F : ℤ → ℝ) (sr : ℝ) : ℝ := ((stencilAt shape sr).map fun iw => iw.2 * F iw.1).sum

theorem roundEven_near (x : ℝ) : |x - roundEven x| ≤ 1 / 2 := by
  have h0 := Int.fract_nonneg x
  have h1 := Int.fract_lt_one x
  have h2 := Int.self_sub_floor x
  unfold roundEven
  rw [abs_le]
  split
  · constructor <;> linarith
  · split
    · push_cast; constructor <;> linarith
    · split
      · constructor <;> linarith
      · push_cast; constructor <;> linarith

theorem over_linear (F : ℤ → ℝ) (sr : ℝ) (g : ℤ) (h0 : (g : ℝ) ≤ sr) (h1 : sr ≤ g + 1) :
    over .linear F sr = (1 - (sr - g)) * F g + (sr - g) * F (g + 1) := by
  unfold over stencilAt
  simp only [List.map_cons, List.map_nil, List.sum_cons, List.sum_nil, add_zero]
  by_cases h : sr = g + 1
  · have : ⌊sr⌋ = g + 1 := by rw [h]; exact_mod_cast Int.floor_intCast (R := ℝ) (g + 1)
    rw [this, h]; push_cast; ring
  · have : ⌊sr⌋ = g := Int.floor_eq_iff.2 ⟨h0, lt_of_le_of_ne h1 h⟩
    rw [this]

theorem over_cubic (F : ℤ → ℝ) (sr : ℝ) (g : ℤ) (h0 : (g : ℝ) ≤ sr) (h1 : sr ≤ g + 1) :
    over .cubic F sr = (1 - (sr - g)) ^ 3 / 6 * F (g - 1) + (2 / 3 - (sr - g) ^ 2 + (sr - g) ^ 3 / 2) * F g +
      (2 / 3 - (1 - (sr - g)) ^ 2 + (1 - (sr - g)) ^ 3 / 2) * F (g + 1) + (sr - g) ^ 3 / 6 * F (g + 2) := by
  unfold over stencilAt
  simp only [List.map_cons, List.map_nil, List.sum_cons, List.sum_nil, add_zero]
  by_cases h : sr = g + 1
  · have : ⌊sr⌋ = g + 1 := by rw [h]; exact_mod_cast Int.floor_intCast (R := ℝ) (g + 1)
    rw [this, h, show g + 1 - 1 = g by ring, show g + 1 + 1 = g + 2 by ring]; push_cast; ring
  · have : ⌊sr⌋ = g := Int.floor_eq_iff.2 ⟨h0, lt_of_le_of_ne h1 h⟩
    rw [this]; ring

theorem over_tsc (F : ℤ → ℝ) (sr : ℝ) (g : ℤ) (h : |sr - g| ≤ 1 / 2) :
    over .tsc F sr = 1 / 2 * (1 / 2 - (sr - g)) ^ 2 * F (g - 1) + (3 / 4 - (sr - g) ^ 2) * F g +
      1 / 2 * (1 / 2 + (sr - g)) ^ 2 * F (g + 1) := by
  have h' := roundEven_near sr
  unfold over stencilAt
  simp only [List.map_cons, List.map_nil, List.sum_cons, List.sum_nil, add_zero]
  generalize roundEven sr = r at h'
  rw [abs_le] at h h'
  have a1 : r ≤ g + 1 := by
    have : (r : ℝ) ≤ (g : ℝ) + 1 := by linarith [h.1, h.2, h'.1, h'.2]
    exact_mod_cast this
  have a2 : g ≤ r + 1 := by
    have : (g : ℝ) ≤ (r : ℝ) + 1 := by linarith [h.1, h.2, h'.1, h'.2]
    exact_mod_cast this
  rcases (by omega : r = g ∨ r = g + 1 ∨ g = r + 1) with h1 | h1 | h1
  · rw [h1]; ring
  · subst h1
    push_cast at h'
    have : sr = g + 1 / 2 := by linarith [h.2, h'.1]
    rw [this, show g + 1 - 1 = g by ring]; push_cast; ring
  · subst h1
    push_cast at h
    have : sr = r + 1 / 2 := by linarith [h'.2, h.1]
    rw [this, show r + 1 - 1 = r by ring]; push_cast; ring

/-- The weights are non-negative, add up to one, and are centred on the particle. -/
theorem stencil_weights (shape : Shape) (sr : ℝ) :
    (∀ iw ∈ stencilAt shape sr, 0 ≤ iw.2) ∧ ((stencilAt shape sr).map (·.2)).sum = 1 ∧
    ((stencilAt shape sr).map fun iw => iw.2 * (iw.1 : ℝ)).sum = sr := by
  have h0 : 0 ≤ sr - ⌊sr⌋ := sub_nonneg.2 (Int.floor_le sr)
  have h1 : sr - ⌊sr⌋ ≤ 1 := by linarith [Int.lt_floor_add_one sr]
  cases shape
  · unfold stencilAt
    refine ⟨?_, by simp, by simp only [List.map_cons, List.map_nil, List.sum_cons, List.sum_nil]; push_cast; ring⟩
    simp only [List.mem_cons, List.not_mem_nil, or_false, forall_eq_or_imp, forall_eq]
    exact ⟨by linarith, h0⟩
  · have h := roundEven_near sr
    rw [abs_le] at h
    unfold stencilAt
    refine ⟨?_, by simp only [List.map_cons, List.map_nil, List.sum_cons, List.sum_nil]; ring,
      by simp only [List.map_cons, List.map_nil, List.sum_cons, List.sum_nil]; push_cast; ring⟩
    simp only [List.mem_cons, List.not_mem_nil, or_false, forall_eq_or_imp, forall_eq]
    refine ⟨by positivity, by nlinarith [h.1, h.2], by positivity⟩
  · unfold stencilAt
    refine ⟨?_, by simp only [List.map_cons, List.map_nil, List.sum_cons, List.sum_nil]; ring,
      by simp only [List.map_cons, List.map_nil, List.sum_cons, List.sum_nil]; push_cast; ring⟩
    simp only [List.mem_cons, List.not_mem_nil, or_false, forall_eq_or_imp, forall_eq]
    generalize sr - ⌊sr⌋ = s at h0 h1
    have h2 : 0 ≤ 1 - s := by linarith
    refine ⟨by positivity, ?_, ?_, by positivity⟩
    · nlinarith [pow_nonneg h0 3, mul_nonneg h0 h2, sq_nonneg s]
    · nlinarith [pow_nonneg h2 3, mul_nonneg h0 h2, sq_nonneg (1 - s)]

theorem over_shift (shape : Shape) (F : ℤ → ℝ) (sr : ℝ) (m : ℤ) : over shape F (sr + m) = over shape (fun i => F (i + m)) sr := by
  cases shape
  · rw [over_linear F _ (⌊sr⌋ + m) (by push_cast; linarith [Int.floor_le sr]) (by push_cast; linarith [Int.lt_floor_add_one sr]),
      over_linear _ sr ⌊sr⌋ (Int.floor_le sr) (Int.lt_floor_add_one sr).le]
    push_cast
    rw [show ⌊sr⌋ + m + 1 = ⌊sr⌋ + 1 + m by ring]; ring
  · have h := roundEven_near sr
    rw [over_tsc F _ (roundEven sr + m) (by push_cast; convert h using 2; ring), over_tsc _ sr (roundEven sr) h]
    push_cast
    rw [show roundEven sr + m - 1 = roundEven sr - 1 + m by ring, show roundEven sr + m + 1 = roundEven sr + 1 + m by ring]; ring
  · rw [over_cubic F _ (⌊sr⌋ + m) (by push_cast; linarith [Int.floor_le sr]) (by push_cast; linarith [Int.lt_floor_add_one sr]),
      over_cubic _ sr ⌊sr⌋ (Int.floor_le sr) (Int.lt_floor_add_one sr).le]
    push_cast
    rw [show ⌊sr⌋ + m + 1 = ⌊sr⌋ + 1 + m by ring, show ⌊sr⌋ + m - 1 = ⌊sr⌋ - 1 + m by ring, show ⌊sr⌋ + m + 2 = ⌊sr⌋ + 2 + m by ring]; ring

theorem over_mirror (shape : Shape) (F : ℤ → ℝ) (sr : ℝ) : over shape F (-sr) = over shape (fun i => F (-i)) sr := by
  have e1 := Int.floor_le sr
  have e2 := (Int.lt_floor_add_one sr).le
  cases shape
  · rw [over_linear F _ (-⌊sr⌋ - 1) (by push_cast; linarith) (by push_cast; linarith), over_linear _ sr ⌊sr⌋ e1 e2]
    push_cast
    rw [show -⌊sr⌋ - 1 + 1 = -⌊sr⌋ by ring, show -(⌊sr⌋ + 1) = -⌊sr⌋ - 1 by ring]; ring
  · have h := roundEven_near sr
    rw [over_tsc F _ (-roundEven sr) (by push_cast; rw [← abs_neg]; convert h using 2; ring), over_tsc _ sr (roundEven sr) h]
    push_cast
    rw [show -(roundEven sr - 1) = -roundEven sr + 1 by ring, show -(roundEven sr + 1) = -roundEven sr - 1 by ring]; ring
  · rw [over_cubic F _ (-⌊sr⌋ - 1) (by push_cast; linarith) (by push_cast; linarith), over_cubic _ sr ⌊sr⌋ e1 e2]
    push_cast
    rw [show -⌊sr⌋ - 1 + 1 = -⌊sr⌋ by ring, show -(⌊sr⌋ + 1) = -⌊sr⌋ - 1 by ring, show -⌊sr⌋ - 1 - 1 = -(⌊sr⌋ + 2) by ring,
      show -⌊sr⌋ - 1 + 2 = -(⌊sr⌋ - 1) by ring]; ring

/-! ### Deposit and gather (C39) -/

variable {nx : ℕ}

theorem gather_eq (shape : Shape) (dx xmin : ℝ) (field : ZMod nx → ℝ) (x : ℝ) :
    gather shape dx xmin field x = over shape (fun i => field (i : ZMod nx)) (gridPos dx xmin x) := rfl

theorem share_eq (shape : Shape) (dx xmin x : ℝ) (g : ZMod nx) :
    share shape dx xmin x g = over shape (fun i => if (i : ZMod nx) = g then 1 else 0) (gridPos dx xmin x) := by
  unfold share over stencil
  congr 1
  refine List.map_congr_left fun iw _ => ?_
  by_cases h : (iw.1 : ZMod nx) = g <;> simp [h]

theorem deposit_eq (shape : Shape) (dx xmin : ℝ) (ps : List Particle) (g : ZMod nx) :
    deposit shape dx xmin ps g = (ps.map fun p => p.w * share shape dx xmin p.x g).sum / dx := by
  unfold deposit share
  congr 2
  refine List.map_congr_left fun p _ => ?_
  rw [← List.sum_map_mul_left]
  congr 1
  refine List.map_congr_left fun iw _ => ?_
  split_ifs <;> simp [mul_comm]

theorem share_sum [NeZero nx] (shape : Shape) (dx xmin x : ℝ) (F : ZMod nx → ℝ) :
    ∑ g, F g * share shape dx xmin x g = gather shape dx xmin F x := by
  unfold share gather
  induction stencil shape dx xmin x with
  | nil => simp
  | cons iw l ih =>
    simp only [List.map_cons, List.sum_cons, mul_add, sum_add_distrib, ih]
    congr 1
    simp [mul_comm]

/-- C39: the deposited density integrates to the total weight. -/
theorem deposit_total [NeZero nx] (shape : Shape) (dx xmin : ℝ) (hdx : dx ≠ 0) (ps : List Particle) :
    ∑ g : ZMod nx, deposit shape dx xmin ps g * dx = (ps.map (·.w)).sum := by
  have h1 : ∀ x, ∑ g : ZMod nx, share shape dx xmin x g = 1 := by
    intro x
    have := share_sum (nx := nx) shape dx xmin x fun _ => 1
    simp only [one_mul] at this
    rw [this]
    unfold gather
    simp only [mul_one]
    exact (stencil_weights shape _).2.1
  simp only [deposit_eq, div_mul_cancel₀ _ hdx]
  induction ps with
  | nil => simp
  | cons p l ih =>
    simp only [List.map_cons, List.sum_cons, sum_add_distrib, ih]
    rw [← mul_sum, h1, mul_one]

/-- C39: non-negative weights give a non-negative density. -/
theorem deposit_nonneg (shape : Shape) (dx xmin : ℝ) (hdx : 0 < dx) (ps : List Particle) (hw : ∀ p ∈ ps, 0 ≤ p.w) (g : ZMod nx) :
    0 ≤ deposit shape dx xmin ps g := by
  rw [deposit_eq]
  refine div_nonneg (List.sum_nonneg ?_) hdx.le
  intro y hy
  obtain ⟨p, hp, rfl⟩ := List.mem_map.1 hy
  refine mul_nonneg (hw p hp) (List.sum_nonneg ?_)
  intro z hz
  obtain ⟨iw, hi, rfl⟩ := List.mem_map.1 hz
  split
  · exact (stencil_weights shape _).1 iw hi
  · rfl

/-- C39: the field a particle feels lies between the smallest and the largest grid value; a
constant field is returned exactly. -/
theorem gather_bounds (shape : Shape) (dx xmin : ℝ) (F : ZMod nx → ℝ) (x lo hi : ℝ) (h : ∀ g, lo ≤ F g ∧ F g ≤ hi) :
    lo ≤ gather shape dx xmin F x ∧ gather shape dx xmin F x ≤ hi := by
  obtain ⟨h0, h1, _⟩ := stencil_weights shape (gridPos dx xmin x)
  have key : ∀ l : List (ℤ × ℝ), (∀ iw ∈ l, 0 ≤ iw.2) → lo * (l.map (·.2)).sum ≤ (l.map fun iw => iw.2 * F (iw.1 : ZMod nx)).sum ∧
      (l.map fun iw => iw.2 * F (iw.1 : ZMod nx)).sum ≤ hi * (l.map (·.2)).sum := by
    intro l hl
    induction l with
    | nil => simp
    | cons iw l ih =>
      obtain ⟨i1, i2⟩ := ih fun w hw => hl w (List.mem_cons_of_mem _ hw)
      have hw := hl iw List.mem_cons_self
      obtain ⟨f1, f2⟩ := h (iw.1 : ZMod nx)
      simp only [List.map_cons, List.sum_cons, mul_add]
      constructor <;> nlinarith
  have := key _ h0
  rw [h1, mul_one, mul_one] at this
  exact this

theorem gather_const (shape : Shape) (dx xmin c x : ℝ) : gather shape dx xmin (fun _ : ZMod nx => c) x = c := by
  have := gather_bounds (nx := nx) shape dx xmin (fun _ => c) x c c fun _ => ⟨le_rfl, le_rfl⟩
  exact le_antisymm this.2 this.1

/-- C39: a field that is linear across the particle's stencil is gathered exactly. -/
theorem gather_linear (shape : Shape) (dx xmin : ℝ) (hdx : dx ≠ 0) (F : ZMod nx → ℝ) (x α β : ℝ)
    (h : ∀ iw ∈ stencil shape dx xmin x, F (iw.1 : ZMod nx) = α + β * (xmin + (iw.1 + 1 / 2) * dx)) :
    gather shape dx xmin F x = α + β * x := by
  obtain ⟨_, h1, h2⟩ := stencil_weights shape (gridPos dx xmin x)
  have : gather shape dx xmin F x = ((stencil shape dx xmin x).map fun iw => iw.2 * (α + β * (xmin + (iw.1 + 1 / 2) * dx))).sum := by
    unfold gather
    congr 1
    exact List.map_congr_left fun iw hi => by rw [h iw hi]
  rw [this]
  have e : ∀ l : List (ℤ × ℝ), (l.map fun iw => iw.2 * (α + β * (xmin + ((iw.1 : ℝ) + 1 / 2) * dx))).sum =
      (α + β * (xmin + dx / 2)) * (l.map (·.2)).sum + β * dx * (l.map fun iw => iw.2 * (iw.1 : ℝ)).sum := by
    intro l
    induction l with
    | nil => simp
    | cons iw l ih => simp only [List.map_cons, List.sum_cons, ih]; ring
  unfold stencil at *
  rw [e, h1, h2]
  unfold gridPos
  field_simp
  ring

/-- C39: moving all particles by a whole number of cells moves the density with them; a whole
box length changes nothing. -/
theorem deposit_translate (shape : Shape) (dx xmin : ℝ) (hdx : dx ≠ 0) (ps : List Particle) (m : ℤ) (g : ZMod nx) :
    deposit shape dx xmin (ps.map fun p => { p with x := p.x + m * dx }) (g + (m : ZMod nx)) = deposit shape dx xmin ps g := by
  rw [deposit_eq, deposit_eq, List.map_map]
  congr 2
  refine List.map_congr_left fun p _ => ?_
  simp only [Function.comp_apply]
  congr 1
  rw [share_eq, share_eq]
  have : gridPos dx xmin (p.x + m * dx) = gridPos dx xmin p.x + m := by unfold gridPos; field_simp; ring
  rw [this, over_shift]
  congr 1
  funext i
  push_cast
  simp

theorem gather_periodic (shape : Shape) (dx xmin : ℝ) (hdx : dx ≠ 0) (F : ZMod nx → ℝ) (x : ℝ) (k : ℤ) :
    gather shape dx xmin F (x + k * (nx * dx)) = gather shape dx xmin F x := by
  rw [gather_eq, gather_eq]
  have : gridPos dx xmin (x + k * (nx * dx)) = gridPos dx xmin x + ((k * nx : ℤ) : ℝ) := by
    unfold gridPos; push_cast; field_simp; ring
  rw [this, over_shift]
  congr 1
  funext i
  push_cast
  simp

/-- C39: no direction is preferred: reflecting the particles about the middle of the box
reflects the density. -/
theorem deposit_mirror (shape : Shape) (dx xmin : ℝ) (hdx : dx ≠ 0) (ps : List Particle) (g : ZMod nx) :
    deposit shape dx xmin (ps.map fun p => { p with x := xmin + (xmin + nx * dx) - p.x }) (-1 - g) = deposit shape dx xmin ps g := by
  rw [deposit_eq, deposit_eq, List.map_map]
  congr 2
  refine List.map_congr_left fun p _ => ?_
  simp only [Function.comp_apply]
  congr 1
  rw [share_eq, share_eq]
  have : gridPos dx xmin (xmin + (xmin + nx * dx) - p.x) = -gridPos dx xmin p.x + ((nx - 1 : ℤ) : ℝ) := by
    unfold gridPos; push_cast; field_simp; ring
  rw [this, over_shift, over_mirror]
  congr 1
  funext i
  push_cast
  have : (-(i : ZMod nx) + (((nx : ℕ) : ZMod nx) - 1) = -1 - g) ↔ ((i : ZMod nx) = g) := by
    rw [ZMod.natCast_self]
    constructor
    · intro h; linear_combination -h
    · intro h; rw [h]; ring
  simp only [this]

example : deposit (nx := 8) .tsc 1 0 [⟨2.5, 0, 3⟩] 2 = 9 / 4 := by
  rw [deposit_eq]
  simp only [List.map_cons, List.map_nil, List.sum_cons, List.sum_nil, share_eq]
  rw [over_tsc _ _ 2 (by norm_num [gridPos])]
  norm_num [gridPos, show ¬ (1 : ZMod 8) = 2 by decide, show ¬ (3 : ZMod 8) = 2 by decide]

/-! ### Momentum (C40) -/

variable [NeZero nx]

/-- C40: gathering is the adjoint of depositing. -/
theorem gather_adjoint (shape : Shape) (dx xmin : ℝ) (hdx : dx ≠ 0) (ps : List Particle) (F : ZMod nx → ℝ) :
    (ps.map fun p => p.w * gather shape dx xmin F p.x).sum = ∑ g, F g * deposit shape dx xmin ps g * dx := by
  have e : ∀ g, F g * deposit shape dx xmin ps g * dx = (ps.map fun p => p.w * (F g * share shape dx xmin p.x g)).sum := by
    intro g
    rw [deposit_eq, mul_assoc, div_mul_cancel₀ _ hdx, ← List.sum_map_mul_left]
    congr 1
    exact List.map_congr_left fun p _ => by ring
  simp only [e]
  induction ps with
  | nil => simp
  | cons p l ih =>
    simp only [List.map_cons, List.sum_cons, sum_add_distrib, ← mul_sum, share_sum]
    rw [ih]
    intro g
    rw [deposit_eq, mul_assoc, div_mul_cancel₀ _ hdx, ← List.sum_map_mul_left]
    congr 1
    exact List.map_congr_left fun p _ => by ring

/-- Total momentum of the particles. -/
noncomputable def momentum (ss : List PSpecies) : ℝ := (ss.map fun s => s.mass * (s.ps.map fun p => p.w * p.v).sum).sum

/-- Momentum gained in a kick without laser: the force of the driver on the deposited charge,
minus the pull of the static background. -/
theorem kick_momentum (b : Box nx) (hdx : b.dx ≠ 0) (dt t : ℝ) (ss : List PSpecies) (hm : ∀ s ∈ ss, s.mass ≠ 0) :
    momentum (kick b dt t none ss).1 = momentum ss +
      dt * (∑ g, b.driver t g * chargeOf b.shape b.dx b.xmin ss g * b.dx - ∑ g, b.static g * selfField b ss g * b.dx) := by
  have hforce := (poisson_field b.dx hdx fun g => chargeOf b.shape b.dx b.xmin ss g + b.static g).2.2.2
  have key : ∀ (F : ZMod nx → ℝ) (l : List PSpecies), (∀ s ∈ l, s.mass ≠ 0) →
      (l.map fun s => s.mass * (s.ps.map fun p => p.w * (p.v + dt * (s.charge / s.mass * gather b.shape b.dx b.xmin F p.x))).sum).sum =
      (l.map fun s => s.mass * (s.ps.map fun p => p.w * p.v).sum).sum + dt * ∑ g, F g * chargeOf b.shape b.dx b.xmin l g * b.dx := by
    intro F l hl
    induction l with
    | nil => simp [chargeOf]
    | cons s l ih =>
      have hs := hl s List.mem_cons_self
      simp only [List.map_cons, List.sum_cons]
      rw [ih fun u hu => hl u (List.mem_cons_of_mem _ hu)]
      have e1 : s.mass * (s.ps.map fun p => p.w * (p.v + dt * (s.charge / s.mass * gather b.shape b.dx b.xmin F p.x))).sum =
          s.mass * (s.ps.map fun p => p.w * p.v).sum + dt * (s.charge * (s.ps.map fun p => p.w * gather b.shape b.dx b.xmin F p.x).sum) := by
        generalize s.ps = q
        induction q with
        | nil => simp
        | cons p q ih =>
          have hp : s.mass * (p.w * (p.v + dt * (s.charge / s.mass * gather b.shape b.dx b.xmin F p.x))) =
              s.mass * (p.w * p.v) + dt * (s.charge * (p.w * gather b.shape b.dx b.xmin F p.x)) := by field_simp
          simp only [List.map_cons, List.sum_cons]
          linear_combination ih + hp
      have e2 : ∑ g, F g * chargeOf b.shape b.dx b.xmin (s :: l) g * b.dx =
          s.charge * (s.ps.map fun p => p.w * gather b.shape b.dx b.xmin F p.x).sum + ∑ g, F g * chargeOf b.shape b.dx b.xmin l g * b.dx := by
        rw [gather_adjoint b.shape b.dx b.xmin hdx, mul_sum, ← sum_add_distrib]
        refine sum_congr rfl fun g _ => ?_
        simp only [chargeOf, List.map_cons, List.sum_cons]; ring
      rw [e1, e2]; ring
  unfold momentum kick
  simp only [List.map_map]
  have := key (fun g => selfField b ss g + b.driver t g) ss hm
  refine Eq.trans ?_ (this.trans ?_)
  · congr 1
    refine List.map_congr_left fun s _ => ?_
    simp only [Function.comp_apply, List.map_map]
    rfl
  · congr 2
    have hf : ∑ g, (chargeOf b.shape b.dx b.xmin ss g + b.static g) * selfField b ss g = 0 := hforce
    have : ∑ g, (selfField b ss g + b.driver t g) * chargeOf b.shape b.dx b.xmin ss g * b.dx =
        (∑ g, (chargeOf b.shape b.dx b.xmin ss g + b.static g) * selfField b ss g) * b.dx +
        (∑ g, b.driver t g * chargeOf b.shape b.dx b.xmin ss g * b.dx - ∑ g, b.static g * selfField b ss g * b.dx) := by
      rw [sum_mul, ← sum_sub_distrib, ← sum_add_distrib]
      exact sum_congr rfl fun g _ => by ring
    rw [this, hf]; ring

/-- C40: without driver and laser, and with a uniform (or no) background, a kick conserves the
total momentum exactly, for every particle distribution, shape and step. -/
theorem self_force_zero (b : Box nx) (hdx : b.dx ≠ 0) (n0 : ℝ) (hb : b.static = fun _ => n0) (dt t : ℝ)
    (hd : b.driver t = fun _ => 0) (ss : List PSpecies) (hm : ∀ s ∈ ss, s.mass ≠ 0) :
    momentum (kick b dt t none ss).1 = momentum ss := by
  rw [kick_momentum b hdx dt t ss hm, hd, hb]
  have h0 := (poisson_field b.dx hdx fun g => chargeOf b.shape b.dx b.xmin ss g + b.static g).2.1
  have : ∑ g, n0 * selfField b ss g * b.dx = n0 * (∑ g, selfField b ss g) * b.dx := by rw [mul_sum, sum_mul]
  rw [this]
  have : ∑ g, selfField b ss g = 0 := h0
  rw [this]; simp

/-! ### Drift (C41) -/

theorem modL_range (y L : ℝ) (hL : 0 < L) : 0 ≤ modL y L ∧ modL y L < L ∧ ∃ k : ℤ, modL y L = y - k * L := by
  unfold modL
  have h1 := Int.floor_le (y / L)
  have h2 := Int.lt_floor_add_one (y / L)
  rw [le_div_iff₀ hL] at h1
  rw [div_lt_iff₀ hL] at h2
  exact ⟨by linarith, by linarith, ⌊y / L⌋, by ring⟩

/-- C41: the wrap puts every position into the box and moves it by whole box lengths. -/
theorem wrap_range (xmin xmax x : ℝ) (h : xmin < xmax) :
    xmin ≤ wrap xmin xmax x ∧ wrap xmin xmax x < xmax ∧ ∃ k : ℤ, wrap xmin xmax x = x - k * (xmax - xmin) := by
  obtain ⟨h1, h2, k, h3⟩ := modL_range (x - xmin) (xmax - xmin) (by linarith)
  unfold wrap
  exact ⟨by linarith, by linarith, k, by linarith⟩

/-- Positions in the box are left alone, and the wrap forgets whole box lengths. -/
theorem wrap_id (xmin xmax x : ℝ) (h0 : xmin ≤ x) (h1 : x < xmax) (k : ℤ) : wrap xmin xmax (x + k * (xmax - xmin)) = x := by
  have hL : 0 < xmax - xmin := by linarith
  unfold wrap modL
  have : ⌊(x + k * (xmax - xmin) - xmin) / (xmax - xmin)⌋ = k := by
    rw [Int.floor_eq_iff]
    constructor
    · rw [le_div_iff₀ hL]; linarith
    · rw [div_lt_iff₀ hL]; linarith
  rw [this]; ring

/-- C41: after a drift every particle is in the box, at its old position plus `dt v` up to
whole box lengths; velocities, weights, the number and the order of the particles are
unchanged. -/
theorem drift_effect (dt xmin xmax : ℝ) (h : xmin < xmax) (ss : List PSpecies) :
    List.Forall₂ (fun s s' : PSpecies => s'.charge = s.charge ∧ s'.mass = s.mass ∧
      List.Forall₂ (fun p p' : Particle => p'.v = p.v ∧ p'.w = p.w ∧ xmin ≤ p'.x ∧ p'.x < xmax ∧
        ∃ k : ℤ, p'.x = p.x + dt * p.v - k * (xmax - xmin)) s.ps s'.ps) ss (drift dt xmin xmax ss) := by
  unfold drift
  rw [List.forall₂_map_right_iff]
  refine List.forall₂_same.2 fun s _ => ⟨rfl, rfl, ?_⟩
  rw [List.forall₂_map_right_iff]
  exact List.forall₂_same.2 fun p _ => ⟨rfl, rfl, wrap_range xmin xmax _ h⟩

/-- A kick moves no particle and keeps weights and order. -/
theorem kick_effect (b : Box nx) (dt t : ℝ) (a : Option (ℕ → ℝ)) (ss : List PSpecies) :
    List.Forall₂ (fun s s' : PSpecies => s'.charge = s.charge ∧ s'.mass = s.mass ∧
      List.Forall₂ (fun p p' : Particle => p'.x = p.x ∧ p'.w = p.w) s.ps s'.ps) ss (kick b dt t a ss).1 := by
  unfold kick
  simp only
  rw [List.forall₂_map_right_iff]
  refine List.forall₂_same.2 fun s _ => ⟨rfl, rfl, ?_⟩
  rw [List.forall₂_map_right_iff]
  exact List.forall₂_same.2 fun p _ => ⟨rfl, rfl⟩

/-! ### Integrators (C38, C40, C41) -/

theorem cbrt2_cube : cbrt2 ^ 3 = 2 := by
  unfold cbrt2
  rw [← Real.rpow_natCast, ← Real.rpow_mul (by norm_num)]
  norm_num

theorem cbrt2_ne : (2 : ℝ) - cbrt2 ≠ 0 := by
  intro h
  have h2 : cbrt2 = 2 := by linarith
  have := cbrt2_cube
  rw [h2] at this; norm_num at this

/-- C38: the three inner steps of the fourth-order integrator add up to `dt`, and their cubes
cancel, which is the condition for fourth order. -/
theorem yoshida_substeps (dt : ℝ) :
    dt1 dt + dt2 dt + dt1 dt = dt ∧ dt1 dt ^ 3 + dt2 dt ^ 3 + dt1 dt ^ 3 = 0 := by
  have h := cbrt2_ne
  have h3 := cbrt2_cube
  unfold dt2 dt1
  constructor
  · field_simp; ring
  · have : dt / (2 - cbrt2) = dt / (2 - cbrt2) := rfl
    generalize dt / (2 - cbrt2) = d
    linear_combination (-(d ^ 3)) * h3

/-- What no push changes: charges, masses, weights, numbers and order. -/
def ids (ss : List PSpecies) : List (ℝ × ℝ × List ℝ) := ss.map fun s => (s.charge, s.mass, s.ps.map Particle.w)

/-- Every particle is in `[xmin, xmax)`. -/
def InBox (b : Box nx) (ss : List PSpecies) : Prop := ∀ s ∈ ss, ∀ p ∈ s.ps, b.xmin ≤ p.x ∧ p.x < b.xmax

theorem ids_kick (b : Box nx) (dt t : ℝ) (a : Option (ℕ → ℝ)) (ss : List PSpecies) : ids (kick b dt t a ss).1 = ids ss := by
  unfold ids kick
  simp [Function.comp_def]

theorem ids_drift (dt xmin xmax : ℝ) (ss : List PSpecies) : ids (drift dt xmin xmax ss) = ids ss := by
  unfold ids drift
  simp [Function.comp_def]

theorem inBox_kick (b : Box nx) (dt t : ℝ) (a : Option (ℕ → ℝ)) (ss : List PSpecies) (h : InBox b ss) : InBox b (kick b dt t a ss).1 := by
  unfold kick
  intro s hs p hp
  simp only [List.mem_map] at hs
  obtain ⟨s0, h0, rfl⟩ := hs
  simp only [List.mem_map] at hp
  obtain ⟨p0, h1, rfl⟩ := hp
  exact h s0 h0 p0 h1

theorem inBox_drift (b : Box nx) (hb : b.xmin < b.xmax) (dt : ℝ) (ss : List PSpecies) : InBox b (drift dt b.xmin b.xmax ss) := by
  unfold drift
  intro s hs p hp
  simp only [List.mem_map] at hs
  obtain ⟨s0, h0, rfl⟩ := hs
  simp only [List.mem_map] at hp
  obtain ⟨p0, h1, rfl⟩ := hp
  have := wrap_range b.xmin b.xmax (p0.x + dt * p0.v) hb
  exact ⟨this.1, this.2.1⟩

theorem momentum_drift (dt xmin xmax : ℝ) (ss : List PSpecies) : momentum (drift dt xmin xmax ss) = momentum ss := by
  unfold momentum drift
  simp [Function.comp_def]

theorem kdk_keeps (b : Box nx) (hb : b.xmin < b.xmax) (dt t : ℝ) (a : Option (ℕ → ℝ)) (ss : List PSpecies) :
    ids (kdk b dt t a ss).1 = ids ss ∧ InBox b (kdk b dt t a ss).1 :=
  ⟨by unfold kdk; rw [ids_kick, ids_drift, ids_kick], inBox_kick b _ _ a _ (inBox_drift b hb dt _)⟩

theorem yoshida_keeps (b : Box nx) (hb : b.xmin < b.xmax) (dt t : ℝ) (a : Option (ℕ → ℝ)) (ss : List PSpecies) :
    ids (yoshida b dt t a ss).1 = ids ss ∧ InBox b (yoshida b dt t a ss).1 := by
  unfold yoshida
  exact ⟨by rw [(kdk_keeps b hb _ _ a _).1, (kdk_keeps b hb _ _ a _).1, (kdk_keeps b hb _ _ a _).1], (kdk_keeps b hb _ _ a _).2⟩

/-- C41: over any number of steps of either integrator no particle is lost, added, reordered or
reweighted. -/
theorem run_keeps (b : Box nx) (hb : b.xmin < b.xmax) (sch : Scheme) (dt t : ℝ) (ss : List PSpecies) (n : ℕ) :
    ids (pushRun b sch dt t ss n) = ids ss := by
  induction n with
  | zero => rfl
  | succ n ih =>
    rw [← ih]
    cases sch
    · exact (kdk_keeps b hb _ _ _ _).1
    · exact (yoshida_keeps b hb _ _ _ _).1

/-- C41: after any positive number of steps every particle is in the box. -/
theorem run_inBox (b : Box nx) (hb : b.xmin < b.xmax) (sch : Scheme) (dt t : ℝ) (ss : List PSpecies) (n : ℕ) :
    InBox b (pushRun b sch dt t ss (n + 1)) := by
  cases sch
  · exact (kdk_keeps b hb _ _ _ _).2
  · exact (yoshida_keeps b hb _ _ _ _).2

theorem mass_of_ids {ss ss' : List PSpecies} (h : ids ss' = ids ss) (hm : ∀ s ∈ ss, s.mass ≠ 0) : ∀ s ∈ ss', s.mass ≠ 0 := by
  intro s hs
  have h1 : (s.charge, s.mass, s.ps.map Particle.w) ∈ ids ss' := List.mem_map_of_mem (f := fun s : PSpecies => (s.charge, s.mass, s.ps.map Particle.w)) hs
  rw [h] at h1
  obtain ⟨s0, h0, e⟩ := List.mem_map.1 h1
  have := hm s0 h0
  simp only [Prod.mk.injEq] at e
  rw [← e.2.1]; exact this

theorem kdk_momentum (b : Box nx) (hdx : b.dx ≠ 0) (n0 : ℝ) (hb : b.static = fun _ => n0) (dt t : ℝ)
    (hd : b.driver = fun _ _ => 0) (ss : List PSpecies) (hm : ∀ s ∈ ss, s.mass ≠ 0) : momentum (kdk b dt t none ss).1 = momentum ss := by
  unfold kdk
  have e1 : ids (kick b (0.5 * dt) t none ss).1 = ids ss := ids_kick b _ _ _ _
  have e2 : ids (drift dt b.xmin b.xmax (kick b (0.5 * dt) t none ss).1) = ids ss := by rw [ids_drift, e1]
  rw [self_force_zero b hdx n0 hb _ _ (by rw [hd]) _ (mass_of_ids e2 hm), momentum_drift,
    self_force_zero b hdx n0 hb _ _ (by rw [hd]) _ hm]

/-- C40: without driver and light wave and with a uniform background, both integrators conserve
the total momentum exactly over any number of steps. -/
theorem run_momentum (b : Box nx) (hbox : b.xmin < b.xmax) (hdx : b.dx ≠ 0) (n0 : ℝ) (hb : b.static = fun _ => n0) (sch : Scheme)
    (dt t : ℝ) (hd : b.driver = fun _ _ => 0) (ss : List PSpecies) (hm : ∀ s ∈ ss, s.mass ≠ 0) (n : ℕ) :
    momentum (pushRun b sch dt t ss n) = momentum ss := by
  induction n with
  | zero => rfl
  | succ n ih =>
    have hm' := mass_of_ids (run_keeps b hbox sch dt t ss n) hm
    rw [← ih]
    generalize hq : pushRun b sch dt t ss n = q at hm'
    rw [show pushRun b sch dt t ss (n + 1) = (push b sch dt (t + n * dt) none q).1 by rw [← hq]; rfl]
    cases sch
    · exact kdk_momentum b hdx n0 hb dt _ hd q hm'
    · show momentum (yoshida b dt (t + n * dt) none q).1 = momentum q
      unfold yoshida
      have k1 := (kdk_keeps b hbox (dt1 dt) (t + n * dt + 0) none q).1
      have m1 := mass_of_ids k1 hm'
      have k2 := (kdk_keeps b hbox (dt2 dt) (t + n * dt + dt1 dt) none (kdk b (dt1 dt) (t + n * dt + 0) none q).1).1
      rw [kdk_momentum b hdx n0 hb _ _ hd _ (mass_of_ids k2 m1), kdk_momentum b hdx n0 hb _ _ hd _ m1,
        kdk_momentum b hdx n0 hb _ _ hd _ hm']

/-- Positions, charges and weights are all the fields depend on. -/
theorem chargeOf_congr (shape : Shape) (dx xmin : ℝ) (ss ss' : List PSpecies)
    (h : ss'.map (fun s => (s.charge, s.ps.map fun p => (p.x, p.w))) = ss.map fun s => (s.charge, s.ps.map fun p => (p.x, p.w)))
    (g : ZMod nx) : chargeOf shape dx xmin ss' g = chargeOf shape dx xmin ss g := by
  have : ∀ l : List PSpecies, chargeOf shape dx xmin l g =
      ((l.map fun s => (s.charge, s.ps.map fun p => (p.x, p.w))).map fun c =>
        c.1 * ((c.2.map fun xw => ((stencil shape dx xmin xw.1).map fun iw => if (iw.1 : ZMod nx) = g then iw.2 * xw.2 else 0).sum).sum / dx)).sum := by
    intro l
    unfold chargeOf deposit
    simp [Function.comp_def]
  rw [this, this, h]

/-- C38: a kick with the opposite step at the same time undoes a kick. -/
theorem kick_undo (b : Box nx) (h t : ℝ) (a : Option (ℕ → ℝ)) (ss : List PSpecies) :
    (kick b (-h) t a (kick b h t a ss).1).1 = ss := by
  have hf : selfField b (kick b h t a ss).1 = selfField b ss := by
    unfold selfField
    congr 1
    funext g
    rw [chargeOf_congr b.shape b.dx b.xmin ss (kick b h t a ss).1]
    unfold kick
    simp [Function.comp_def]
  generalize hss : (kick b h t a ss).1 = ss' at hf
  unfold kick
  simp only [hf]
  rw [← hss]
  unfold kick
  simp only [List.map_map]
  conv_rhs => rw [← List.map_id ss]
  refine List.map_congr_left fun s _ => ?_
  simp only [Function.comp_apply, List.map_map, id_eq]
  have : ∀ s' : PSpecies, s' = { charge := s'.charge, mass := s'.mass, ps := s'.ps } := fun _ => rfl
  conv_rhs => rw [this s]
  congr 1
  conv_rhs => rw [← List.map_id s.ps]
  refine List.map_congr_left fun p _ => ?_
  simp only [Function.comp_apply, id_eq]
  have : ∀ p' : Particle, p' = { x := p'.x, v := p'.v, w := p'.w } := fun _ => rfl
  conv_rhs => rw [this p]
  congr 1
  ring

/-- C38: a drift with the opposite step undoes a drift, for particles in the box. -/
theorem drift_undo (b : Box nx) (dt : ℝ) (ss : List PSpecies) (hin : InBox b ss) :
    drift (-dt) b.xmin b.xmax (drift dt b.xmin b.xmax ss) = ss := by
  unfold drift
  simp only [List.map_map]
  conv_rhs => rw [← List.map_id ss]
  refine List.map_congr_left fun s hs => ?_
  simp only [Function.comp_apply, List.map_map, id_eq]
  have : ∀ s' : PSpecies, s' = { charge := s'.charge, mass := s'.mass, ps := s'.ps } := fun _ => rfl
  conv_rhs => rw [this s]
  congr 1
  conv_rhs => rw [← List.map_id s.ps]
  refine List.map_congr_left fun p hp => ?_
  simp only [Function.comp_apply, id_eq]
  have : ∀ p' : Particle, p' = { x := p'.x, v := p'.v, w := p'.w } := fun _ => rfl
  conv_rhs => rw [this p]
  congr 1
  obtain ⟨h0, h1⟩ := hin s hs p hp
  obtain ⟨_, _, k, hk⟩ := wrap_range b.xmin b.xmax (p.x + dt * p.v) (lt_of_le_of_lt h0 h1)
  have := wrap_id b.xmin b.xmax p.x h0 h1 (-k)
  rw [hk]
  refine Eq.trans ?_ this
  congr 1
  push_cast; ring

/-- C38: the kick-drift-kick step is exactly time-reversible: stepping back from the result by
`-dt` returns every particle, whatever the driver, the light wave and the shape. -/
theorem kdk_reversible (b : Box nx) (dt t : ℝ) (a : Option (ℕ → ℝ)) (ss : List PSpecies) (hin : InBox b ss) :
    (kdk b (-dt) (t + dt) a (kdk b dt t a ss).1).1 = ss := by
  unfold kdk
  rw [show (0.5 * -dt : ℝ) = -(0.5 * dt) by ring, kick_undo, drift_undo b dt _ (inBox_kick b _ _ a ss hin),
    show t + dt + -dt = t by ring, kick_undo]

/-- C38: so is the fourth-order step. -/
theorem yoshida_reversible (b : Box nx) (hb : b.xmin < b.xmax) (dt t : ℝ) (a : Option (ℕ → ℝ)) (ss : List PSpecies) (hin : InBox b ss) :
    (yoshida b (-dt) (t + dt) a (yoshida b dt t a ss).1).1 = ss := by
  have hsum := (yoshida_substeps dt).1
  have n1 : dt1 (-dt) = -dt1 dt := by unfold dt1; ring
  have n2 : dt2 (-dt) = -dt2 dt := by unfold dt2; rw [n1]; ring
  unfold yoshida
  simp only [n1, n2]
  set s1 := (kdk b (dt1 dt) (t + 0) a ss).1 with hs1
  have i1 : InBox b s1 := (kdk_keeps b hb _ _ a _).2
  set s2 := (kdk b (dt2 dt) (t + dt1 dt) a s1).1 with hs2
  have i2 : InBox b s2 := (kdk_keeps b hb _ _ a _).2
  have r3 := kdk_reversible b (dt1 dt) (t + (dt1 dt + dt2 dt)) a s2 i2
  rw [show t + dt + 0 = t + (dt1 dt + dt2 dt) + dt1 dt by linarith, r3]
  have r2 := kdk_reversible b (dt2 dt) (t + dt1 dt) a s1 i1
  rw [show t + dt + -dt1 dt = t + dt1 dt + dt2 dt by linarith, r2]
  have r1 := kdk_reversible b (dt1 dt) (t + 0) a ss hin
  rw [show t + dt + (-dt1 dt + -dt2 dt) = t + 0 + dt1 dt by linarith, r1]

/-! Free particles in a uniform field: no self-field because the weights vanish. -/

theorem selfField_test (b : Box nx) (hdx : b.dx ≠ 0) (n0 : ℝ) (hb : b.static = fun _ => n0) (ss : List PSpecies) (hw : ∀ s ∈ ss, ∀ p ∈ s.ps, p.w = 0) :
    selfField b ss = fun _ => 0 := by
  unfold selfField
  have hc : (fun g => chargeOf b.shape b.dx b.xmin ss g + b.static g) = fun _ : ZMod nx => n0 := by
    funext g
    have : chargeOf b.shape b.dx b.xmin ss g = 0 := by
      unfold chargeOf
      refine List.sum_eq_zero fun y hy => ?_
      obtain ⟨s, hs, rfl⟩ := List.mem_map.1 hy
      have : deposit b.shape b.dx b.xmin s.ps g = 0 := by
        unfold deposit
        rw [List.sum_eq_zero, zero_div]
        intro z hz
        obtain ⟨p, hp, rfl⟩ := List.mem_map.1 hz
        simp [hw s hs p hp]
      rw [this, mul_zero]
    rw [this, hb, zero_add]
  rw [hc]
  exact poisson_const b.dx hdx n0

/-- C38: test particles in a field that is uniform in space: the step is the trapezoidal rule in
time for the velocity, with the field taken at the start and at the end of the step. -/
theorem kdk_uniform (b : Box nx) (hdx : b.dx ≠ 0) (n0 : ℝ) (hb : b.static = fun _ => n0) (E : ℝ → ℝ) (hd : b.driver = fun t _ => E t)
    (dt t : ℝ) (ss : List PSpecies) (hw : ∀ s ∈ ss, ∀ p ∈ s.ps, p.w = 0) :
    (kdk b dt t none ss).1 = ss.map fun s => { s with ps := s.ps.map fun p =>
      { x := wrap b.xmin b.xmax (p.x + dt * (p.v + dt / 2 * (s.charge / s.mass * E t))),
        v := p.v + s.charge / s.mass * (dt / 2 * (E t + E (t + dt))), w := p.w } } := by
  have hkick : ∀ (h τ : ℝ) (l : List PSpecies), (∀ s ∈ l, ∀ p ∈ s.ps, p.w = 0) →
      (kick b h τ none l).1 = l.map fun s => { s with ps := s.ps.map fun p => { p with v := p.v + h * (s.charge / s.mass * E τ) } } := by
    intro h τ l hl
    unfold kick
    rw [selfField_test b hdx n0 hb l hl, hd]
    simp only [zero_add]
    refine List.map_congr_left fun s _ => ?_
    simp only [gather_const]
  unfold kdk
  have z1 : ∀ s ∈ (kick b (0.5 * dt) t none ss).1, ∀ p ∈ s.ps, p.w = 0 := by
    rw [hkick _ _ _ hw]
    intro s hs p hp
    obtain ⟨s0, h0, rfl⟩ := List.mem_map.1 hs
    obtain ⟨p0, h1, rfl⟩ := List.mem_map.1 hp
    exact hw s0 h0 p0 h1
  have z2 : ∀ s ∈ drift dt b.xmin b.xmax (kick b (0.5 * dt) t none ss).1, ∀ p ∈ s.ps, p.w = 0 := by
    unfold drift
    intro s hs p hp
    obtain ⟨s0, h0, rfl⟩ := List.mem_map.1 hs
    obtain ⟨p0, h1, rfl⟩ := List.mem_map.1 hp
    exact z1 s0 h0 p0 h1
  rw [hkick _ _ _ z2, hkick _ _ _ hw]
  unfold drift
  simp only [List.map_map]
  refine List.map_congr_left fun s _ => ?_
  simp only [Function.comp_apply, List.map_map]
  congr 1
  refine List.map_congr_left fun p _ => ?_
  simp only [Function.comp_apply]
  congr 1
  · congr 1; ring
  · ring

/-- Wrapping first does not change the wrapped sum. -/
theorem wrap_wrap (xmin xmax x d : ℝ) (h : xmin < xmax) : wrap xmin xmax (wrap xmin xmax x + d) = wrap xmin xmax (x + d) := by
  obtain ⟨_, _, k, hk⟩ := wrap_range xmin xmax x h
  obtain ⟨h0, h1, m, hm⟩ := wrap_range xmin xmax (x + d) h
  have := wrap_id xmin xmax _ h0 h1 (m - k)
  rw [← this]
  congr 1
  rw [hk, hm]; push_cast; ring

/-- C38: in a constant uniform field both integrators give the exact parabola for every test
particle: the right total time for the drift and for the kicks. -/
theorem push_constant (b : Box nx) (hbox : b.xmin < b.xmax) (hdx : b.dx ≠ 0) (n0 : ℝ) (hb : b.static = fun _ => n0) (E : ℝ) (hd : b.driver = fun _ _ => E)
    (sch : Scheme) (dt t : ℝ) (ss : List PSpecies) (hw : ∀ s ∈ ss, ∀ p ∈ s.ps, p.w = 0) :
    (push b sch dt t none ss).1 = ss.map fun s => { s with ps := s.ps.map fun p =>
      { x := wrap b.xmin b.xmax (p.x + dt * p.v + dt ^ 2 / 2 * (s.charge / s.mass * E)),
        v := p.v + dt * (s.charge / s.mass * E), w := p.w } } := by
  have h1 : ∀ (h τ : ℝ) (l : List PSpecies), (∀ s ∈ l, ∀ p ∈ s.ps, p.w = 0) →
      (kdk b h τ none l).1 = l.map fun s => { s with ps := s.ps.map fun p =>
      { x := wrap b.xmin b.xmax (p.x + h * p.v + h ^ 2 / 2 * (s.charge / s.mass * E)),
        v := p.v + h * (s.charge / s.mass * E), w := p.w } } := by
    intro h τ l hl
    rw [kdk_uniform b hdx n0 hb (fun _ => E) hd h τ l hl]
    refine List.map_congr_left fun s _ => ?_
    congr 1
    refine List.map_congr_left fun p _ => ?_
    congr 1
    · congr 1; ring
    · ring
  have hz : ∀ (h τ : ℝ) (l : List PSpecies), (∀ s ∈ l, ∀ p ∈ s.ps, p.w = 0) → ∀ s ∈ (kdk b h τ none l).1, ∀ p ∈ s.ps, p.w = 0 := by
    intro h τ l hl s hs p hp
    rw [h1 h τ l hl] at hs
    obtain ⟨s0, h0, rfl⟩ := List.mem_map.1 hs
    obtain ⟨p0, h1, rfl⟩ := List.mem_map.1 hp
    exact hl s0 h0 p0 h1
  cases sch
  · exact h1 dt t ss hw
  · show (yoshida b dt t none ss).1 = _
    unfold yoshida
    simp only
    have z1 := hz (dt1 dt) (t + 0) ss hw
    have z2 := hz (dt2 dt) (t + dt1 dt) _ z1
    rw [h1 _ _ _ z2, h1 _ _ _ z1, h1 _ _ _ hw]
    have hsum := (yoshida_substeps dt).1
    simp only [List.map_map]
    refine List.map_congr_left fun s _ => ?_
    simp only [Function.comp_apply, List.map_map]
    congr 1
    refine List.map_congr_left fun p _ => ?_
    simp only [Function.comp_apply, wrap_wrap _ _ _ _ hbox, add_assoc]
    generalize s.charge / s.mass * E = q
    congr 1
    · simp only [← add_assoc]
      congr 1
      linear_combination (p.v + q / 2 * (dt1 dt + dt2 dt + dt1 dt + dt)) * hsum
    · linear_combination q * hsum

/-- C58 for the particle code: the field and the driver returned by a step are those of the
returned particles, at the end of the step. -/
theorem push_fields (b : Box nx) (sch : Scheme) (dt t : ℝ) (a : Option (ℕ → ℝ)) (ss : List PSpecies) :
    (push b sch dt t a ss).2.1 = selfField b (push b sch dt t a ss).1 ∧ (push b sch dt t a ss).2.2 = b.driver (t + dt) := by
  have h1 : ∀ (h τ : ℝ) (l : List PSpecies), (kick b h τ a l).2.1 = selfField b (kick b h τ a l).1 := by
    intro h τ l
    show selfField b l = _
    unfold selfField
    congr 1
    funext g
    rw [chargeOf_congr b.shape b.dx b.xmin l (kick b h τ a l).1]
    unfold kick
    simp [Function.comp_def]
  cases sch
  · exact ⟨h1 _ _ _, rfl⟩
  · refine ⟨h1 _ _ _, ?_⟩
    show b.driver (t + (dt1 dt + dt2 dt) + dt1 dt) = _
    have := (yoshida_substeps dt).1
    congr 1; linarith

/-- C58: hence the returned field satisfies Gauss's law for the returned particles, at every step
of every run. -/
theorem push_gauss (b : Box nx) (hdx : b.dx ≠ 0) (sch : Scheme) (dt t : ℝ) (a : Option (ℕ → ℝ)) (ss : List PSpecies)
    (p : ℤ) (hp : Resolved nx p) (h0 : p ≠ 0) :
    gaussError b.dx (push b sch dt t a ss).2.1
      (fun g => chargeOf b.shape b.dx b.xmin (push b sch dt t a ss).1 g + b.static g) p = 0 := by
  rw [(push_fields b sch dt t a ss).1]
  exact (poisson_field b.dx hdx _).1 p hp h0

/-- C61: what the light wave adds to a kick: every particle gets `dt (q/m)²` times the negative
half gradient of the squared amplitude at its place, on top of the electric kick, so the push
does not depend on the sign of the charge or of the wave. -/
theorem kick_light (b : Box nx) (dt t : ℝ) (a : ℕ → ℝ) (ss : List PSpecies) :
    (kick b dt t (some a) ss).1 = (kick b dt t none ss).1.map fun s => { s with ps := s.ps.map fun p => { p with
      v := p.v + dt * (s.charge / s.mass) ^ 2 *
        gather b.shape b.dx b.xmin (fun g : ZMod nx => -(1 / 2) * ((a (g.val + 2) ^ 2 - a g.val ^ 2) / (2 * b.dx))) p.x } } := by
  unfold kick ponderomotive
  simp only [List.map_map]
  refine List.map_congr_left fun s _ => ?_
  simp only [Function.comp_apply, List.map_map]
  congr 1
  refine List.map_congr_left fun p _ => ?_
  simp only [Function.comp_apply]
  congr 1
  have : (-0.5 : ℝ) = -(1 / 2) := by norm_num
  rw [this]; ring

/-- C61: a wave whose squared amplitude grows linearly pushes every particle down the slope with
acceleration `(q/m)² slope / 2`, wherever it is. -/
theorem kick_light_slope (b : Box nx) (hdx : b.dx ≠ 0) (dt t : ℝ) (a : ℕ → ℝ) (c0 slope : ℝ) (ha : ∀ j, a j ^ 2 = c0 + slope * (j * b.dx)) (ss : List PSpecies) :
    (kick b dt t (some a) ss).1 = (kick b dt t none ss).1.map fun s => { s with ps := s.ps.map fun p => { p with
      v := p.v - dt * ((s.charge / s.mass) ^ 2 * slope / 2) } } := by
  rw [kick_light]
  refine List.map_congr_left fun s _ => ?_
  congr 1
  refine List.map_congr_left fun p _ => ?_
  have : (fun g : ZMod nx => -(1 / 2) * ((a (g.val + 2) ^ 2 - a g.val ^ 2) / (2 * b.dx))) = fun _ => -(slope / 2) := by
    funext g
    rw [ha, ha]; push_cast; field_simp; ring
  rw [this, gather_const]
  congr 1
  ring

/-- C61: particles of opposite charge get the same push from the light wave. -/
theorem kick_light_sign (b : Box nx) (dt t : ℝ) (a a' : ℕ → ℝ) (h : ∀ j, a' j = -a j) (ss : List PSpecies) :
    kick b dt t (some a') ss = kick b dt t (some a) ss := by
  have : a' = fun j => -a j := funext h
  subst this
  unfold kick ponderomotive
  simp only [neg_sq]

/-- C63: only the three shapes and two integrators are accepted. -/
theorem names_known (n : String) :
    ((∃ s, Shape.ofName n = .ok s) ↔ n = "linear" ∨ n = "tsc" ∨ n = "cubic") ∧
    ((∃ s, Scheme.ofName n = .ok s) ↔ n = "leapfrog" ∨ n = "yoshida4") := by
  constructor
  · unfold Shape.ofName
    split <;> simp_all
  · unfold Scheme.ofName
    split <;> simp_all

theorem names_mean : Shape.ofName "linear" = .ok .linear ∧ Shape.ofName "tsc" = .ok .tsc ∧ Shape.ofName "cubic" = .ok .cubic ∧
    Scheme.ofName "leapfrog" = .ok .leapfrog ∧ Scheme.ofName "yoshida4" = .ok .yoshida4 := ⟨rfl, rfl, rfl, rfl, rfl⟩

/-- C38: over a whole run the velocity of a test particle in a field uniform in space is the
trapezoidal sum of the field over the elapsed time. -/
theorem run_trapezoid (b : Box nx) (hdx : b.dx ≠ 0) (n0 : ℝ) (hb : b.static = fun _ => n0) (E : ℝ → ℝ) (hd : b.driver = fun t _ => E t)
    (dt t : ℝ) (ss : List PSpecies) (hw : ∀ s ∈ ss, ∀ p ∈ s.ps, p.w = 0) (n : ℕ) :
    (pushRun b .leapfrog dt t ss n).map (fun s => s.ps.map fun p => (p.v, p.w)) = ss.map (fun s => s.ps.map fun p =>
      (p.v + s.charge / s.mass * ∑ k ∈ range n, dt / 2 * (E (t + k * dt) + E (t + (k + 1) * dt)), p.w)) ∧
    (pushRun b .leapfrog dt t ss n).map (fun s => (s.charge, s.mass)) = ss.map fun s => (s.charge, s.mass) := by
  have hids : ∀ n, (∀ s ∈ pushRun b .leapfrog dt t ss n, ∀ p ∈ s.ps, p.w = 0) ∧
      ∃ X : PSpecies → Particle → ℝ, pushRun b .leapfrog dt t ss n = ss.map fun s => { s with ps := s.ps.map fun p =>
        { x := X s p, v := p.v + s.charge / s.mass * ∑ k ∈ range n, dt / 2 * (E (t + k * dt) + E (t + (k + 1) * dt)), w := p.w } } := by
    intro n
    induction n with
    | zero => exact ⟨hw, fun _ p => p.x, by simp [pushRun]⟩
    | succ n ih =>
      obtain ⟨h0, X, hX⟩ := ih
      have hstep : pushRun b .leapfrog dt t ss (n + 1) = (kdk b dt (t + n * dt) none (pushRun b .leapfrog dt t ss n)).1 := rfl
      rw [kdk_uniform b hdx n0 hb E hd dt (t + n * dt) _ h0] at hstep
      have h2 : pushRun b .leapfrog dt t ss (n + 1) = ss.map fun s => { s with ps := s.ps.map fun p =>
        { x := wrap b.xmin b.xmax (X s p + dt * (p.v + s.charge / s.mass * ∑ k ∈ range n, dt / 2 * (E (t + k * dt) + E (t + (k + 1) * dt)) +
              dt / 2 * (s.charge / s.mass * E (t + n * dt)))),
          v := p.v + s.charge / s.mass * ∑ k ∈ range (n + 1), dt / 2 * (E (t + k * dt) + E (t + (k + 1) * dt)), w := p.w } } := by
        rw [hstep, hX, List.map_map]
        refine List.map_congr_left fun s _ => ?_
        simp only [Function.comp_apply, List.map_map]
        congr 1
        refine List.map_congr_left fun p _ => ?_
        simp only [Function.comp_apply]
        congr 1
        rw [sum_range_succ, show t + n * dt + dt = t + (n + 1) * dt by ring]
        ring
      refine ⟨?_, _, h2⟩
      rw [h2]
      intro s hs p hp
      obtain ⟨s0, hs0, rfl⟩ := List.mem_map.1 hs
      obtain ⟨p0, hp0, rfl⟩ := List.mem_map.1 hp
      exact hw s0 hs0 p0 hp0
  obtain ⟨_, X, hX⟩ := hids n
  rw [hX]
  simp [Function.comp_def]

/-- A two-species case meeting the hypotheses: electrons and ions, periodic box of length 8. -/
noncomputable def sampleBox : Box 4 :=
  { shape := .tsc, dx := 2, xmin := -1, xmax := 7, static := fun _ => 0, driver := fun _ _ => 0 }
noncomputable def sampleSpecies : List PSpecies :=
  [{ charge := -1, mass := 1, ps := [⟨0, 3, 1⟩, ⟨6.5, -2, 1⟩] }, { charge := 1, mass := 1836, ps := [⟨3, 0, 2⟩] }]

example : sampleBox.xmin < sampleBox.xmax ∧ sampleBox.dx ≠ 0 ∧ InBox sampleBox sampleSpecies ∧ ∀ s ∈ sampleSpecies, s.mass ≠ 0 := by
  unfold sampleBox sampleSpecies InBox
  norm_num

example (n : ℕ) : momentum (pushRun sampleBox .yoshida4 0.1 0 sampleSpecies n) = 1 := by
  rw [run_momentum sampleBox (by norm_num [sampleBox]) (by norm_num [sampleBox]) 0 rfl .yoshida4 0.1 0 rfl sampleSpecies
    (by norm_num [sampleSpecies]) n]
  norm_num [momentum, sampleSpecies]

example : wrap 0 10 (-3) = 7 := by
  have := wrap_id 0 10 7 (by norm_num) (by norm_num) (-1)
  norm_num at this ⊢; exact this

end Verif.Pic
