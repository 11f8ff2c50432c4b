import Verif.Props.Vlasov2dKinetic
import Verif.Props.Krook

/-! C90, C96, C101: collisions and filter of Vlasov-2D, and whole runs. -/
namespace Verif.Vlasov2d
open Finset Complex Verif.Spectral
open Verif.Vfp2d (Deriv Scal ddx ddy)

/-! ### One column -/

/-- The solver returned a solution of this column's system. -/
def Solved (solve : Solve) (n : ℕ) (v : ℕ → ℝ) (dv nu dt : ℝ) (f : ℕ → ℝ) : Prop :=
  ∀ i < n, (colOp n v dv nu dt f).mv n (doughertyCol solve n v dv nu dt f) i = f i

theorem colOp_central (n : ℕ) (v : ℕ → ℝ) (dv nu dt : ℝ) (f : ℕ → ℝ) :
    colOp n v dv nu dt f = FP.central n dv (fun e => 0.5 * (v (e + 1) + v e) - colV n v dv f) (fun _ => colT n v dv f) (fun _ => nu) dt := rfl

theorem colOp_step {solve : Solve} {n : ℕ} {v : ℕ → ℝ} {dv nu dt : ℝ} {f : ℕ → ℝ} (h : Solved solve n v dv nu dt f) :
    FP.SolveOneX n (FP.central n dv (fun e => 0.5 * (v (e + 1) + v e) - colV n v dv f) (fun _ => colT n v dv f) (fun _ => nu) dt)
      f (doughertyCol solve n v dv nu dt f) := by
  rw [FP.solve_iff, ← colOp_central]; exact h

/-- C96: a collision step keeps the number of particles of every column. -/
theorem column_density {solve : Solve} {n : ℕ} {v : ℕ → ℝ} {dv nu dt : ℝ} {f : ℕ → ℝ} (h : Solved solve n v dv nu dt f) :
    ∑ i ∈ range n, doughertyCol solve n v dv nu dt f i = ∑ i ∈ range n, f i :=
  FP.collisions_conserve_density n dv _ _ nu dt f f _ (Or.inl (colOp_step h))

theorem colT_pos (n : ℕ) (v : ℕ → ℝ) (dv : ℝ) (f : ℕ → ℝ) : 0 < colT n v dv f :=
  lt_of_lt_of_le (by norm_num) (le_max_right _ _)

theorem colV_eq {n : ℕ} {v : ℕ → ℝ} {dv : ℝ} {f : ℕ → ℝ} (hn : 0 < colN n dv f) : colV n v dv f = FP.vbarOf n v f := by
  unfold colV safeN FP.vbarOf
  rw [if_pos hn]
  unfold colN at hn ⊢
  have hdv : dv ≠ 0 := by rintro rfl; simp at hn
  rw [mul_div_mul_right _ _ hdv]

theorem col_model {n : ℕ} {v : ℕ → ℝ} {dv : ℝ} {f : ℕ → ℝ} (hn : 0 < colN n dv f) :
    (fun e => 0.5 * (v (e + 1) + v e) - colV n v dv f) = (FP.betaModel v (FP.vbarOf n v f) (1 / (2 * colT n v dv f))).1 ∧
    (fun _ : ℕ => colT n v dv f) = fun _ => (FP.betaModel v (FP.vbarOf n v f) (1 / (2 * colT n v dv f))).2 := by
  have hT := colT_pos n v dv f
  constructor
  · funext e
    simp only [FP.betaModel]
    rw [colV_eq hn]
    have : (0.5 : ℝ) = 1 / 2 := by norm_num
    rw [this]
    field_simp
  · funext e
    simp only [FP.betaModel]
    field_simp

/-- C96: the momentum of a column changes only through the two end cells of the velocity grid. -/
theorem column_momentum {solve : Solve} {m : ℕ} {v : ℕ → ℝ} {dv nu dt : ℝ} {f : ℕ → ℝ} (hdv : dv ≠ 0) (hv : FP.Uniform (m + 1) dv v)
    (hn : 0 < colN (m + 1) dv f) (h : Solved solve (m + 1) v dv nu dt f) :
    (1 + dt * nu) * (∑ i ∈ range (m + 1), v i * doughertyCol solve (m + 1) v dv nu dt f i - ∑ i ∈ range (m + 1), v i * f i) =
      dt * nu * (doughertyCol solve (m + 1) v dv nu dt f m * ((v m + dv / 2 - FP.vbarOf (m + 1) v f) / 2 - colT (m + 1) v dv f / dv)
        + doughertyCol solve (m + 1) v dv nu dt f 0 * ((v 0 - dv / 2 - FP.vbarOf (m + 1) v f) / 2 + colT (m + 1) v dv f / dv)) := by
  have hT := colT_pos (m + 1) v dv f
  have hs := colOp_step h
  rw [(col_model hn).1, (col_model hn).2] at hs
  have h0 : ∑ i ∈ range (m + 1), f i ≠ 0 := by
    intro h0; unfold colN at hn; rw [h0, zero_mul] at hn; exact lt_irrefl _ hn
  have := FP.dougherty_momentum_budget m v dv (1 / (2 * colT (m + 1) v dv f)) nu dt f _ hdv (by positivity) hv h0 hs
  rw [this, show 1 / (2 * (1 / (2 * colT (m + 1) v dv f))) = colT (m + 1) v dv f by field_simp]

/-- The two temperatures agree unless the floor acts. -/
theorem colT_eq {n : ℕ} {v : ℕ → ℝ} {dv : ℝ} {f : ℕ → ℝ} (hn : 0 < colN n dv f) (hT : 1 / 10 ^ 12 < colT n v dv f) :
    colT n v dv f = FP.discreteT n v dv (FP.vbarOf n v f) f := by
  unfold colT at hT ⊢
  have h1 := (lt_max_iff.1 hT).resolve_right (lt_irrefl _)
  rw [max_eq_left h1.le, colV_eq hn]
  unfold safeN FP.discreteT
  rw [if_pos hn]
  unfold colN
  rw [← sum_mul, ← sum_mul]

/-- C96: the kinetic energy of a column of a settled, symmetric grid is not conserved exactly, as the
documentation of the operator has it: up to the end cells and the momentum error, every step takes
`dt nu N dv²/2` out (divided by `1 + 2 dt nu`). -/
theorem column_energy {solve : Solve} {m : ℕ} {v : ℕ → ℝ} {dv nu dt : ℝ} {f : ℕ → ℝ} (hdv : dv ≠ 0) (hv : FP.Uniform (m + 1) dv v)
    (hn : 0 < colN (m + 1) dv f) (hT : 1 / 10 ^ 12 < colT (m + 1) v dv f) (h : Solved solve (m + 1) v dv nu dt f) :
    (1 + 2 * (dt * nu)) * (∑ i ∈ range (m + 1), v i ^ 2 * doughertyCol solve (m + 1) v dv nu dt f i - ∑ i ∈ range (m + 1), v i ^ 2 * f i) =
      -(dt * nu * (dv ^ 2 / 2) * ∑ i ∈ range (m + 1), f i) +
        2 * (dt * nu) * FP.vbarOf (m + 1) v f *
          (∑ i ∈ range (m + 1), v i * doughertyCol solve (m + 1) v dv nu dt f i - ∑ i ∈ range (m + 1), v i * f i) +
        2 * (dt * nu) *
          (doughertyCol solve (m + 1) v dv nu dt f m * ((v m + dv / 2) * ((v m + dv / 2 - FP.vbarOf (m + 1) v f) / 2 - colT (m + 1) v dv f / dv))
            + doughertyCol solve (m + 1) v dv nu dt f 0 * ((v 0 - dv / 2) * ((v 0 - dv / 2 - FP.vbarOf (m + 1) v f) / 2 + colT (m + 1) v dv f / dv))) := by
  have hs := colOp_step h
  have hTp := colT_pos (m + 1) v dv f
  rw [(col_model hn).1, (col_model hn).2] at hs
  have h0 : ∑ i ∈ range (m + 1), f i ≠ 0 := by
    intro h0; unfold colN at hn; rw [h0, zero_mul] at hn; exact lt_irrefl _ hn
  have e := colT_eq hn hT
  have hb : 1 / (2 * colT (m + 1) v dv f) = FP.betaInit (m + 1) v dv (FP.vbarOf (m + 1) v f) f := by rw [e]; rfl
  rw [hb] at hs
  have := FP.dougherty_energy_budget m v dv nu dt f _ hdv (by rw [← e]; exact hTp.ne') hv h0 hs
  rw [this, ← e]

/-- C96, partial: when the grid resolves the column (cell Peclet number at most two) the system has
exactly one solution and it is nonnegative.  Missing: columns colder than that. -/
theorem column_positive_partial {solve : Solve} {n : ℕ} {v : ℕ → ℝ} {dv nu dt : ℝ} {f : ℕ → ℝ} (hdv : 0 < dv) (hnu : 0 ≤ nu) (hdt : 0 ≤ dt)
    (hf : ∀ i < n, 0 ≤ f i) (hp : ∀ e, e + 1 < n → |0.5 * (v (e + 1) + v e) - colV n v dv f| * dv ≤ 2 * colT n v dv f) :
    (∃ g, ∀ i < n, (colOp n v dv nu dt f).mv n g i = f i) ∧
    (Solved solve n v dv nu dt f → ∀ i < n, 0 ≤ doughertyCol solve n v dv nu dt f i) := by
  constructor
  · obtain ⟨⟨g, hg⟩, _⟩ := FP.central_unique_partial n dv (fun e => 0.5 * (v (e + 1) + v e) - colV n v dv f) (fun _ => colT n v dv f) (fun _ => nu) dt
      hdv hdt (fun _ _ => hnu) hp f
    refine ⟨g, ?_⟩
    rw [FP.solve_iff, ← colOp_central] at hg
    exact hg
  · intro h
    exact FP.central_positive_partial n dv _ _ (fun _ => nu) dt f _ hdv hdt (fun _ _ => hnu) hf hp (colOp_step h)

/-! ### The whole species -/

variable {nx ny : ℕ} [NeZero nx] [NeZero ny]

theorem sum_flat {n : ℕ} [NeZero n] (a : ZMod n → ℝ) : ∑ i ∈ range n, flat a i = ∑ i, a i := by
  refine (sum_bij (fun (i : ZMod n) _ => i.val) ?_ ?_ ?_ ?_).symm
  · intro i _; exact mem_range.2 (ZMod.val_lt i)
  · intro i _ j _ h; exact ZMod.val_injective n h
  · intro b hb; exact ⟨(b : ZMod n), mem_univ _, ZMod.val_cast_of_lt (mem_range.1 hb)⟩
  · intro i _; unfold flat; rw [ZMod.natCast_zmod_val]

theorem sum_val {n : ℕ} [NeZero n] (g : ℕ → ℝ) : ∑ i : ZMod n, g i.val = ∑ i ∈ range n, g i := by
  rw [← sum_flat (fun i : ZMod n => g i.val)]
  refine sum_congr rfl fun i hi => ?_
  unfold flat
  beta_reduce
  rw [ZMod.val_cast_of_lt (mem_range.1 hi)]

/-- Every column solve of the two sweeps returned a solution. -/
def SweepsSolved (solve : Solve) (nu : Scal nx ny) (dt : ℝ) (s : Sp nx ny) : Prop :=
  (∀ x y (j : ZMod s.nvy), Solved solve s.nvx (flat s.vx) s.dvx (nu x y) dt (flat fun i => s.f x y i j)) ∧
  (∀ x y (i : ZMod s.nvx), Solved solve s.nvy (flat s.vy) s.dvy (nu x y) dt (flat fun j => (doughertyX solve nu dt s).f x y i j))

/-- C96: the Dougherty operator keeps the density at every position. -/
theorem dougherty_density (solve : Solve) (nu : Scal nx ny) (dt : ℝ) (s : Sp nx ny) (h : SweepsSolved solve nu dt s) (x : ZMod nx) (y : ZMod ny) :
    (dougherty solve nu dt s).density x y = s.density x y := by
  have h1 : ∑ i, ∑ j, (doughertyX solve nu dt s).f x y i j = ∑ i, ∑ j, s.f x y i j := by
    rw [sum_comm]
    conv_rhs => rw [sum_comm]
    refine sum_congr rfl fun j _ => ?_
    rw [← sum_flat (fun i => s.f x y i j), ← column_density (h.1 x y j)]
    exact sum_val _
  obtain ⟨g, hg⟩ : ∃ g : ZMod nx → ZMod ny → ZMod s.nvx → ZMod s.nvy → ℝ, g = (doughertyX solve nu dt s).f := ⟨_, rfl⟩
  have hs : ∀ i : ZMod s.nvx, Solved solve s.nvy (flat s.vy) s.dvy (nu x y) dt (flat fun j => g x y i j) := by
    intro i; rw [hg]; exact h.2 x y i
  have h2 : ∑ i : ZMod s.nvx, ∑ j : ZMod s.nvy, doughertyCol solve s.nvy (flat s.vy) s.dvy (nu x y) dt (flat fun j' => g x y i j') j.val
      = ∑ i, ∑ j, g x y i j := by
    refine sum_congr rfl fun i _ => ?_
    rw [sum_val (n := s.nvy) (doughertyCol solve s.nvy (flat s.vy) s.dvy (nu x y) dt (flat fun j' => g x y i j')), column_density (hs i), sum_flat]
  have h3 : ∑ i, ∑ j, (dougherty solve nu dt s).f x y i j = ∑ i, ∑ j, s.f x y i j := by
    refine Eq.trans ?_ h1
    rw [hg] at h2
    exact h2
  unfold Sp.density
  exact congrArg (· * (s.dvx * s.dvy)) h3

/-! ### Krook -/

theorem exp_sum_pos {n : ℕ} [NeZero n] (g : ZMod n → ℝ) : 0 < ∑ i, Real.exp (g i) := by
  have : (univ : Finset (ZMod n)).Nonempty := ⟨0, mem_univ _⟩
  exact sum_pos (fun _ _ => Real.exp_pos _) this

theorem unitMaxwellian_sum {n : ℕ} [NeZero n] (v : ZMod n → ℝ) (dv : ℝ) (hdv : dv ≠ 0) : (∑ i, unitMaxwellian v dv i) * dv = 1 := by
  unfold unitMaxwellian
  have := exp_sum_pos (fun i => -0.5 * v i ^ 2)
  rw [← sum_div]
  field_simp

/-- C96: the Krook operator keeps the density at every position. -/
theorem krook_density (nu : Scal nx ny) (dt : ℝ) (s : Sp nx ny) (hx : s.dvx ≠ 0) (hy : s.dvy ≠ 0) (x : ZMod nx) (y : ZMod ny) :
    (krook nu dt s).density x y = s.density x y := by
  have h : ∑ i, ∑ j, (krook nu dt s).f x y i j = (∑ i, ∑ j, s.f x y i j) * Real.exp (-(nu x y * dt))
      + s.density x y * ((∑ i, unitMaxwellian s.vx s.dvx i) * ∑ j, unitMaxwellian s.vy s.dvy j) * (1 - Real.exp (-(nu x y * dt))) := by
    change ∑ i, ∑ j, (s.f x y i j * Real.exp (-(nu x y * dt)) +
      s.density x y * (unitMaxwellian s.vx s.dvx i * unitMaxwellian s.vy s.dvy j) * (1 - Real.exp (-(nu x y * dt)))) = _
    simp only [sum_add_distrib, ← sum_mul, ← mul_sum]
  change (∑ i, ∑ j, (krook nu dt s).f x y i j) * (s.dvx * s.dvy) = _
  rw [h]
  have e1 := unitMaxwellian_sum s.vx s.dvx hx
  have e2 := unitMaxwellian_sum s.vy s.dvy hy
  have e3 : s.density x y = (∑ i, ∑ j, s.f x y i j) * (s.dvx * s.dvy) := rfl
  linear_combination (s.density x y * (1 - Real.exp (-(nu x y * dt)))) * ((∑ j, unitMaxwellian s.vy s.dvy j) * s.dvy * e1 + e2)
    - Real.exp (-(nu x y * dt)) * e3

/-- C96: the distance to the unit Maxwellian of the same density shrinks by `exp(-nu dt)` at every
velocity. -/
theorem krook_relaxes (nu : Scal nx ny) (dt : ℝ) (s : Sp nx ny) (x : ZMod nx) (y : ZMod ny) (i : ZMod s.nvx) (j : ZMod s.nvy) :
    (krook nu dt s).f x y i j - s.density x y * (unitMaxwellian s.vx s.dvx i * unitMaxwellian s.vy s.dvy j) =
      Real.exp (-(nu x y * dt)) * (s.f x y i j - s.density x y * (unitMaxwellian s.vx s.dvx i * unitMaxwellian s.vy s.dvy j)) := by
  simp only [krook]; ring

/-- C96: whatever the species' temperature and mass, the Krook operator relaxes to unit thermal
velocity.  A Maxwellian in which the ratio of two cells belongs to another temperature does not stay:
for every `T ≠ 1`, rate and time step. -/
theorem krook_wrong_temperature (nu : Scal nx ny) (dt : ℝ) (s : Sp nx ny) (x : ZMod nx) (y : ZMod ny) (T A : ℝ) (hT : 0 < T) (hT1 : T ≠ 1) (hA : A ≠ 0)
    (hnu : nu x y * dt ≠ 0)
    (hf : ∀ i j, s.f x y i j = A * Real.exp (-(s.vx i ^ 2 + s.vy j ^ 2) / (2 * T))) (i i' : ZMod s.nvx) (j : ZMod s.nvy)
    (hi : s.vx i ^ 2 ≠ s.vx i' ^ 2) : krook nu dt s ≠ s := by
  intro h
  have fix : ∀ i j, s.f x y i j = s.density x y * (unitMaxwellian s.vx s.dvx i * unitMaxwellian s.vy s.dvy j) := by
    intro i j
    have r := krook_relaxes nu dt s x y i j
    have hk : (krook nu dt s).f x y i j = s.f x y i j := by
      have := krook_relaxes nu dt s
      have e : ∀ t : Sp nx ny, t = s → HEq t.f s.f := by rintro t rfl; rfl
      exact congrFun (congrFun (congrFun (congrFun (eq_of_heq (e (krook nu dt s) h)) x) y) i) j
    rw [hk] at r
    have hE : Real.exp (-(nu x y * dt)) ≠ 1 := by
      intro h1
      rw [Real.exp_eq_one_iff] at h1
      exact hnu (by linarith)
    have : (1 - Real.exp (-(nu x y * dt))) * (s.f x y i j - s.density x y * (unitMaxwellian s.vx s.dvx i * unitMaxwellian s.vy s.dvy j)) = 0 := by linarith
    rcases mul_eq_zero.1 this with h1 | h1
    · exact absurd (by linarith) hE
    · linarith
  have c : s.f x y i j * Real.exp (-0.5 * s.vx i' ^ 2) = s.f x y i' j * Real.exp (-0.5 * s.vx i ^ 2) := by
    rw [fix i j, fix i' j]
    unfold unitMaxwellian
    ring
  rw [hf, hf, mul_assoc, mul_assoc, ← Real.exp_add, ← Real.exp_add] at c
  have c2 := Real.exp_injective (mul_left_cancel₀ hA c)
  have c3 : (s.vx i ^ 2 - s.vx i' ^ 2) * (1 / T - 1) = 0 := by
    field_simp at c2 ⊢
    linarith
  rcases mul_eq_zero.1 c3 with h1 | h1
  · exact hi (by linarith)
  · apply hT1
    field_simp at h1
    linarith

/-! ### The filter -/

theorem filterRow_conserves {N : ℕ} [NeZero N] (alpha : ℝ) (ha : 0 ≤ alpha) (order : ℕ) (ho : 0 < order) (f : ZMod N → ℝ) :
    ∑ x, filterRow (fun k => (houLi N alpha order k : ℂ)) f x = ∑ x, f x ∧
    ∑ x, filterRow (fun k => (houLi N alpha order k : ℂ)) f x ^ 2 ≤ ∑ x, f x ^ 2 :=
  houLi_filter (nv := 1) alpha ha order ho (fun x _ => f x) 0

/-- One axis of the filter. -/
noncomputable def filterX (h : Filter) (s : Sp nx ny) : Sp nx ny :=
  { s with f := fun x y i j => filterRow (fun k => (houLi nx h.alpha h.order k : ℂ)) (fun x' => s.f x' y i j) x }
noncomputable def filterY (h : Filter) (s : Sp nx ny) : Sp nx ny :=
  { s with f := fun x y i j => filterRow (fun k => (houLi ny h.alpha h.order k : ℂ)) (fun y' => s.f x y' i j) y }

theorem filter_apply (h : Filter) (s : Sp nx ny) : h.apply s =
    (if h.y then filterY h (if h.x then filterX h s else s) else (if h.x then filterX h s else s)) := rfl

theorem sum_x_first {a b : ℕ} [NeZero a] [NeZero b] (g : ZMod nx → ZMod ny → ZMod a → ZMod b → ℝ) :
    ∑ x, ∑ y, ∑ i, ∑ j, g x y i j = ∑ y, ∑ i, ∑ j, ∑ x, g x y i j := by
  rw [sum_comm]
  refine sum_congr rfl fun y _ => ?_
  rw [sum_comm]
  refine sum_congr rfl fun i _ => ?_
  rw [sum_comm]

theorem sum_y_first {a b : ℕ} [NeZero a] [NeZero b] (g : ZMod nx → ZMod ny → ZMod a → ZMod b → ℝ) :
    ∑ x, ∑ y, ∑ i, ∑ j, g x y i j = ∑ x, ∑ i, ∑ j, ∑ y, g x y i j := by
  refine sum_congr rfl fun x _ => ?_
  rw [sum_comm]
  refine sum_congr rfl fun i _ => ?_
  rw [sum_comm]

/-- `∑ f²` over phase space. -/
noncomputable def Sp.sqsum (s : Sp nx ny) : ℝ := ∑ x, ∑ y, ∑ i, ∑ j, s.f x y i j ^ 2

theorem number_eq (s : Sp nx ny) : s.number = (∑ x, ∑ y, ∑ i, ∑ j, s.f x y i j) * (s.dvx * s.dvy) := by
  simp only [Sp.number, Sp.density, ← sum_mul]

theorem filterX_ok (h : Filter) (ha : 0 ≤ h.alpha) (ho : 0 < h.order) (s : Sp nx ny) :
    (filterX h s).number = s.number ∧ (filterX h s).sqsum ≤ s.sqsum := by
  constructor
  · rw [number_eq, number_eq, sum_x_first s.f]
    refine congrArg (· * (s.dvx * s.dvy)) ?_
    refine (sum_x_first (a := s.nvx) (b := s.nvy) (filterX h s).f).trans ?_
    exact sum_congr rfl fun y _ => sum_congr rfl fun i _ => sum_congr rfl fun j _ => (filterRow_conserves h.alpha ha h.order ho _).1
  · unfold Sp.sqsum
    rw [sum_x_first (fun x y i j => s.f x y i j ^ 2)]
    refine (sum_x_first (a := s.nvx) (b := s.nvy) (fun x y i j => (filterX h s).f x y i j ^ 2)).le.trans ?_
    exact sum_le_sum fun y _ => sum_le_sum fun i _ => sum_le_sum fun j _ => (filterRow_conserves h.alpha ha h.order ho _).2

theorem filterY_ok (h : Filter) (ha : 0 ≤ h.alpha) (ho : 0 < h.order) (s : Sp nx ny) :
    (filterY h s).number = s.number ∧ (filterY h s).sqsum ≤ s.sqsum := by
  constructor
  · rw [number_eq, number_eq, sum_y_first s.f]
    refine congrArg (· * (s.dvx * s.dvy)) ?_
    refine (sum_y_first (a := s.nvx) (b := s.nvy) (filterY h s).f).trans ?_
    exact sum_congr rfl fun y _ => sum_congr rfl fun i _ => sum_congr rfl fun j _ => (filterRow_conserves h.alpha ha h.order ho _).1
  · unfold Sp.sqsum
    rw [sum_y_first (fun x y i j => s.f x y i j ^ 2)]
    refine (sum_y_first (a := s.nvx) (b := s.nvy) (fun x y i j => (filterY h s).f x y i j ^ 2)).le.trans ?_
    exact sum_le_sum fun y _ => sum_le_sum fun i _ => sum_le_sum fun j _ => (filterRow_conserves h.alpha ha h.order ho _).2

/-- C101: the filter, along either or both axes, keeps the number of particles and never increases
`∑ f²`. -/
theorem filter_conserves (h : Filter) (ha : 0 ≤ h.alpha) (ho : 0 < h.order) (s : Sp nx ny) :
    (h.apply s).number = s.number ∧ (h.apply s).sqsum ≤ s.sqsum := by
  rw [filter_apply]
  have hx := filterX_ok h ha ho s
  cases h.x <;> cases h.y
  · exact ⟨rfl, le_rfl⟩
  · exact filterY_ok h ha ho s
  · exact hx
  · have hy := filterY_ok h ha ho (filterX h s)
    exact ⟨hy.1.trans hx.1, hy.2.trans hx.2⟩

/-! ### Whole runs -/

/-- The solver solved every column it was given for this species. -/
def CollisionsSolved (solve : Solve) (nuFP : Option (Scal nx ny)) (dt : ℝ) (s : Sp nx ny) : Prop :=
  match nuFP with
  | some nu => SweepsSolved solve nu dt s
  | none => True

/-- C96: with either, both or none of the operators the density at every position stays. -/
theorem collide_density (solve : Solve) (nuFP nuK : Option (Scal nx ny)) (dt : ℝ) (s : Sp nx ny) (h : CollisionsSolved solve nuFP dt s)
    (hx : s.dvx ≠ 0) (hy : s.dvy ≠ 0) (x : ZMod nx) (y : ZMod ny) : (collide solve nuFP nuK dt s).density x y = s.density x y := by
  cases nuFP with
  | none =>
    cases nuK with
    | none => rfl
    | some nu => exact krook_density nu dt s hx hy x y
  | some mu =>
    cases nuK with
    | none => exact dougherty_density solve mu dt s h x y
    | some nu => exact (krook_density nu dt (dougherty solve mu dt s) hx hy x y).trans (dougherty_density solve mu dt s h x y)

theorem collide_grid (solve : Solve) (nuFP nuK : Option (Scal nx ny)) (dt : ℝ) (s : Sp nx ny) : s.grid_eq (collide solve nuFP nuK dt s) := by
  cases nuFP <;> cases nuK <;> exact ⟨_, rfl⟩

theorem filter_grid (h : Filter) (s : Sp nx ny) : s.grid_eq (h.apply s) := by
  rw [filter_apply]
  cases h.x <;> cases h.y <;> exact ⟨_, rfl⟩

/-- What happens to one species in a step. -/
noncomputable def stepSp (p : Setup nx ny) (t : ℝ) (em : Fields nx ny) (s : Sp nx ny) : Sp nx ny :=
  let u := collide p.solve (p.nuFP.map fun g => g t) (p.nuK.map fun g => g t) p.dt (kinetic p.kind p.ip p.dx p.dy p.dt em.ex em.ey em.bz s)
  match p.filter with
  | some h => h.apply u
  | none => u

theorem step_species (p : Setup nx ny) (t : ℝ) (y : State nx ny) : (step p t y).species = y.species.map (stepSp p t y.em) := by
  unfold step stepSp
  cases p.filter <;> simp [List.map_map, Function.comp_def]

theorem stepSp_grid (p : Setup nx ny) (t : ℝ) (em : Fields nx ny) (s : Sp nx ny) : s.grid_eq (stepSp p t em s) := by
  unfold stepSp
  have h := grid_eq_trans (kinetic_grid p.kind p.ip p.dx p.dy p.dt em.ex em.ey em.bz s) (collide_grid p.solve (p.nuFP.map fun g => g t) (p.nuK.map fun g => g t) p.dt _)
  cases p.filter with
  | none => exact h
  | some f => exact grid_eq_trans h (filter_grid f _)

/-- A species with a usable velocity grid. -/
def Sp.Ok (s : Sp nx ny) : Prop := s.Grid ∧ s.dvx ≠ 0 ∧ s.dvy ≠ 0

theorem ok_of_grid_eq {s t : Sp nx ny} (h : s.grid_eq t) (hs : s.Ok) : t.Ok := by
  obtain ⟨f, rfl⟩ := h; exact hs

/-- The filter, when there is one, has a nonnegative strength and a positive order. -/
def FilterOk (f : Option Filter) : Prop := ∀ h, f = some h → 0 ≤ h.alpha ∧ 0 < h.order

/-- C90: over a whole step, collisions and filter included, the only source or sink of particles of a
species is the rotation of its distribution by the magnetic field. -/
theorem step_number (p : Setup nx ny) (hk : p.kind = .exponential) (hf : FilterOk p.filter) (t : ℝ) (em : Fields nx ny) (s : Sp nx ny) (hs : s.Ok)
    (hc : CollisionsSolved p.solve (p.nuFP.map fun g => g t) p.dt (kinetic p.kind p.ip p.dx p.dy p.dt em.ex em.ey em.bz s)) :
    (stepSp p t em s).number - s.number =
      (rotateB p.ip em.bz p.dt (beforeRotation .exponential p.ip p.dx p.dy p.dt em.ex em.ey s)).number
        - (beforeRotation .exponential p.ip p.dx p.dy p.dt em.ex em.ey s).number := by
  rw [← kinetic_number, ← hk]
  have hg := ok_of_grid_eq (kinetic_grid p.kind p.ip p.dx p.dy p.dt em.ex em.ey em.bz s) hs
  have h1 : (collide p.solve (p.nuFP.map fun g => g t) (p.nuK.map fun g => g t) p.dt (kinetic p.kind p.ip p.dx p.dy p.dt em.ex em.ey em.bz s)).number
      = (kinetic p.kind p.ip p.dx p.dy p.dt em.ex em.ey em.bz s).number := by
    unfold Sp.number
    exact sum_congr rfl fun x _ => sum_congr rfl fun y _ => collide_density _ _ _ _ _ hc hg.2.1 hg.2.2 x y
  unfold stepSp
  dsimp only
  cases hq : p.filter with
  | none => dsimp only; rw [h1]
  | some h => dsimp only; rw [(filter_conserves h (hf h hq).1 (hf h hq).2 _).1, h1]

/-- C90, partial: a run with prescribed fields (`skip_maxwell`) and no magnetic field keeps the number of
particles of every species at every time, with collisions and filter.  Missing: magnetic fields and the
semi-Lagrangian acceleration, where particles are lost (`rotation_loses`, `sl_loses`). -/
theorem run_number_partial (p : Setup nx ny) (hip : Nodal p.ip) (hk : p.kind = .exponential) (hf : FilterOk p.filter) (hm : p.skipMaxwell = true)
    (t0 : ℝ) (y : State nx ny) (hb : y.em.bz = fun _ _ => 0) (hs : ∀ s ∈ y.species, s.Ok)
    (hc : ∀ k : ℕ, ∀ s ∈ (run p t0 y k).species, CollisionsSolved p.solve (p.nuFP.map fun g => g (t0 + k * p.dt)) p.dt
      (kinetic p.kind p.ip p.dx p.dy p.dt (run p t0 y k).em.ex (run p t0 y k).em.ey (run p t0 y k).em.bz s)) (n : ℕ) :
    (run p t0 y n).species.map Sp.number = y.species.map Sp.number := by
  have main : (run p t0 y n).em = y.em ∧ (∀ s ∈ (run p t0 y n).species, s.Ok) ∧ (run p t0 y n).species.map Sp.number = y.species.map Sp.number := by
    induction n with
    | zero => exact ⟨rfl, hs, rfl⟩
    | succ n ih =>
      obtain ⟨h1, h2, h3⟩ := ih
      have e : (run p t0 y (n + 1)).em = (run p t0 y n).em := by
        change (step p (t0 + n * p.dt) (run p t0 y n)).em = _
        unfold step; dsimp only; rw [hm, if_pos rfl]
      have es : (run p t0 y (n + 1)).species = (run p t0 y n).species.map (stepSp p (t0 + n * p.dt) (run p t0 y n).em) := step_species p _ _
      refine ⟨e.trans h1, ?_, ?_⟩
      · rw [es]
        intro s hmem
        obtain ⟨u, hu, rfl⟩ := List.mem_map.1 hmem
        exact ok_of_grid_eq (stepSp_grid p _ _ u) (h2 u hu)
      · rw [es, List.map_map, ← h3]
        refine List.map_congr_left fun u hu => ?_
        have hn := step_number p hk hf (t0 + n * p.dt) (run p t0 y n).em u (h2 u hu) (hc n u hu)
        rw [h1, hb, rotate_zero p.ip hip p.dt _ (grid_eq_Grid (before_grid _ _ _ _ _ _ _ _) (h2 u hu).1), sub_self] at hn
        rw [Function.comp_apply, h1]
        linarith
  exact main.2.2

end Verif.Vlasov2d
