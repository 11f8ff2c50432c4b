import Mathlib.Analysis.Complex.ExponentialBounds
import Verif.Props.Vlasov2VErf
import Verif.Props.Vlasov2V
import Verif.Props.Vlasov2VGrid

/-!
C143, C145: the cylindrical collision operator of Vlasov-1D2V.
-/
namespace Verif.Vlasov2V
open Finset Verif.FP

namespace Cyl

/-- A grid as the deck gives it: at least one cell each way, positive spacings, positive perpendicular centres. -/
structure Ok (c : Cyl) : Prop where
  nv : 0 < c.nv
  np : 0 < c.np
  dv : 0 < c.dv
  dvperp : 0 < c.dvperp
  vperp : ∀ j < c.np, 0 < c.vperp j

theorem Ok.w {c : Cyl} (h : c.Ok) {j : ℕ} (hj : j < c.np) : 0 < c.w j := by
  have := h.vperp j hj
  have := h.dv
  have := h.dvperp
  unfold Cyl.w
  positivity

theorem Ok.edge {c : Cyl} (h : c.Ok) {e : ℕ} (he : e + 1 < c.np) : 0 < c.vperpEdge e := by
  have := h.vperp (e + 1) he
  have := h.vperp e (by omega)
  unfold vperpEdge
  linarith

theorem maxwellian_pos (c : Cyl) (u T : ℝ) (i j : ℕ) : 0 < c.maxwellian u T i j := Real.exp_pos _

/-- The flux of both sweeps. -/
noncomputable def sweepFlux (c M : ℕ → ℝ) (f : ℕ → ℝ) (e : ℕ) : ℝ := c e * (f (e + 1) / M (e + 1) - f e / M e)

/-- C145: the parallel sweep is a backward Euler step of `∂f/∂t = ν ∂/∂v [D M ∂(f/M)/∂v]` with closed ends. -/
theorem par_step (c : Cyl) (nudt n u T : ℝ) (j : ℕ) (f f' : ℕ → ℝ) :
    (∀ i < c.nv, (c.triPar nudt n u T j).mv c.nv f' i = f i) ↔
      ImplicitStep c.nv (fun _ => 1) nudt 1 (sweepFlux (fun e => c.cPar n u T e j) fun i => c.maxwellian u T i j) f f' := by
  have key : ∀ i, (c.triPar nudt n u T j).mv c.nv f' i =
      f' i - nudt * 1 * (netFlux c.nv (sweepFlux (fun e => c.cPar n u T e j) (fun i => c.maxwellian u T i j) f') i / 1) := by
    intro i
    unfold Tri.mv triPar netFlux sweepFlux
    dsimp only
    by_cases h1 : i + 1 < c.nv <;> by_cases h2 : 0 < i
    · have : i - 1 + 1 = i := by omega
      simp only [if_pos h1, if_pos h2, this]; ring
    · simp only [if_pos h1, if_neg h2]; ring
    · have : i - 1 + 1 = i := by omega
      simp only [if_neg h1, if_pos h2, this]; ring
    · simp only [if_neg h1, if_neg h2]; ring
  unfold ImplicitStep
  refine forall_congr' fun i => imp_congr_right fun _ => ?_
  rw [key]
  exact ⟨fun h => by linarith, fun h => by linarith⟩

/-- C145: the same for the perpendicular sweep, with the metric `1/vperp`. -/
theorem perp_step (c : Cyl) (nudt n u T : ℝ) (i : ℕ) (f f' : ℕ → ℝ) :
    (∀ j < c.np, (c.triPerp nudt n u T i).mv c.np f' j = f j) ↔
      ImplicitStep c.np (fun j => 1 / c.vperp j) nudt 1 (sweepFlux (fun e => c.cPerp n u T i e) fun j => c.maxwellian u T i j) f f' := by
  have key : ∀ j, (c.triPerp nudt n u T i).mv c.np f' j =
      f' j - nudt * (1 / c.vperp j) * (netFlux c.np (sweepFlux (fun e => c.cPerp n u T i e) (fun j => c.maxwellian u T i j) f') j / 1) := by
    intro j
    unfold Tri.mv triPerp netFlux sweepFlux
    dsimp only
    by_cases h1 : j + 1 < c.np <;> by_cases h2 : 0 < j
    · have : j - 1 + 1 = j := by omega
      simp only [if_pos h1, if_pos h2, this]; ring
    · simp only [if_pos h1, if_neg h2]; ring
    · have : j - 1 + 1 = j := by omega
      simp only [if_neg h1, if_pos h2, this]; ring
    · simp only [if_neg h1, if_neg h2]; ring
  unfold ImplicitStep
  refine forall_congr' fun j => imp_congr_right fun _ => ?_
  rw [key]
  exact ⟨fun h => by linarith, fun h => by linarith⟩

/-! ### Conservation -/

theorem total_congr {c : Cyl} {f g : ℕ → ℕ → ℝ} (h : ∀ i < c.nv, ∀ j < c.np, f i j = g i j) : c.total f = c.total g :=
  sum_congr rfl fun i hi => sum_congr rfl fun j hj => by rw [h i (mem_range.1 hi) j (mem_range.1 hj)]

theorem total_add (c : Cyl) (f g : ℕ → ℕ → ℝ) : c.total (fun i j => f i j + g i j) = c.total f + c.total g := by
  unfold total
  simp only [add_mul, sum_add_distrib]

theorem total_smul (c : Cyl) (k : ℝ) (f : ℕ → ℕ → ℝ) : c.total (fun i j => k * f i j) = k * c.total f := by
  unfold total
  simp only [mul_sum, mul_assoc]

theorem total_sub (c : Cyl) (f g : ℕ → ℕ → ℝ) : c.total (fun i j => f i j - g i j) = c.total f - c.total g := by
  unfold total
  simp only [sub_mul, sum_sub_distrib]

theorem par_total (c : Cyl) (nudt n u T : ℝ) (f f' : ℕ → ℕ → ℝ)
    (h : ∀ j < c.np, ∀ i < c.nv, (c.triPar nudt n u T j).mv c.nv (fun i => f' i j) i = f i j) : c.total f' = c.total f := by
  unfold total
  rw [sum_comm, sum_comm (s := range c.nv)]
  refine sum_congr rfl fun j hj => ?_
  rw [← sum_mul, ← sum_mul]
  have := (step_conserves ((c.par_step nudt n u T j (fun i => f i j) fun i => f' i j).1 (h j (mem_range.1 hj)))).1 1 fun _ _ => rfl
  rw [this]

theorem perp_total (c : Cyl) (hc : c.Ok) (nudt n u T : ℝ) (f f' : ℕ → ℕ → ℝ)
    (h : ∀ i < c.nv, ∀ j < c.np, (c.triPerp nudt n u T i).mv c.np (fun j => f' i j) j = f i j) : c.total f' = c.total f := by
  unfold total
  refine sum_congr rfl fun i hi => ?_
  have := (step_conserves ((c.perp_step nudt n u T i (fun j => f i j) fun j => f' i j).1 (h i (mem_range.1 hi)))).2
    fun j hj => one_div_ne_zero (hc.vperp j hj).ne'
  have e : ∀ g : ℕ → ℝ, ∑ j ∈ range c.np, g j * c.w j = c.dv * (2 * Real.pi * c.dvperp) * ∑ j ∈ range c.np, g j / (1 / c.vperp j) := by
    intro g
    rw [mul_sum]
    refine sum_congr rfl fun j _ => ?_
    unfold w
    rw [one_div, div_inv_eq_mul]; ring
  rw [e, e, this]

theorem explicit_total (c : Cyl) (hc : c.Ok) (nudt n u T : ℝ) (f : ℕ → ℕ → ℝ) : c.total (c.explicitStep nudt n u T f) = c.total f := by
  obtain ⟨gp, hgp⟩ : ∃ gp, gp = c.gamPar n u T fun i j => f i j / c.maxwellian u T i j := ⟨_, rfl⟩
  obtain ⟨gq, hgq⟩ : ∃ gq, gq = c.gamPerp n u T fun i j => f i j / c.maxwellian u T i j := ⟨_, rfl⟩
  have e : ∀ i < c.nv, ∀ j < c.np, c.explicitStep nudt n u T f i j = f i j + (nudt / c.nSub / c.dv * netFlux c.nv (fun e => gp e j) i +
      nudt / c.nSub / c.dvperp * (netFlux c.np (fun e => c.vperpEdge e * gq i e) j / c.vperp j)) := by
    intro i _ j hj
    unfold explicitStep netFlux
    dsimp only
    rw [← hgp, ← hgq]
    have := (hc.vperp j hj).ne'
    have := hc.dv.ne'
    have := hc.dvperp.ne'
    field_simp
  rw [total_congr e, total_add, total_add, total_smul, total_smul]
  have h1 : c.total (fun i j => netFlux c.nv (fun e => gp e j) i) = 0 := by
    unfold total
    rw [sum_comm]
    refine sum_eq_zero fun j _ => ?_
    rw [← sum_mul, sum_netFlux, zero_mul]
  have h2 : c.total (fun i j => netFlux c.np (fun e => c.vperpEdge e * gq i e) j / c.vperp j) = 0 := by
    unfold total
    refine sum_eq_zero fun i _ => ?_
    have : ∑ j ∈ range c.np, netFlux c.np (fun e => c.vperpEdge e * gq i e) j / c.vperp j * c.w j =
        ∑ j ∈ range c.np, netFlux c.np (fun e => c.vperpEdge e * gq i e) j * (c.dv * (2 * Real.pi * c.dvperp)) := by
      refine sum_congr rfl fun j hj => ?_
      have := (hc.vperp j (mem_range.1 hj)).ne'
      unfold w
      field_simp
    rw [this, ← sum_mul, sum_netFlux, zero_mul]
  rw [h1, h2]; ring

/-- C143: the collision step keeps the density. -/
theorem advance_density (c : Cyl) (hc : c.Ok) (nu dt : ℝ) (f f' : ℕ → ℕ → ℝ) (h : c.Advance nu dt f f') : c.total f' = c.total f := by
  obtain ⟨f1, f2, h1, h2, h3⟩ := h
  rw [total_congr h3]
  have key : ∀ k : ℕ, c.total ((c.explicitStep (dt * nu) (c.moments f).1 (c.moments f).2.1 (c.moments f).2.2)^[k] f2) = c.total f2 := by
    intro k
    induction k with
    | zero => rfl
    | succ k ih => rw [Function.iterate_succ_apply', explicit_total c hc, ih]
  rw [key, perp_total c hc _ _ _ _ _ _ h2, par_total c _ _ _ _ _ _ h1]

/-! ### Moment restoration -/

theorem norm_pos {c : Cyl} (hc : c.Ok) (u T : ℝ) : 0 < c.total (c.maxwellian u T) := by
  unfold total
  refine sum_pos (fun i _ => sum_pos (fun j hj => mul_pos (c.maxwellian_pos u T i j) (hc.w (mem_range.1 hj))) ⟨0, mem_range.2 hc.np⟩) ⟨0, mem_range.2 hc.nv⟩

theorem mHat_total {c : Cyl} (hc : c.Ok) (u T : ℝ) : c.total (c.mHat u T) = 1 := by
  have h := (norm_pos hc u T).ne'
  have : c.total (c.mHat u T) = c.total fun i j => 1 / c.total (c.maxwellian u T) * c.maxwellian u T i j :=
    total_congr fun i _ j _ => by unfold mHat; ring
  rw [this, total_smul, one_div, inv_mul_cancel₀ h]

theorem mHat_pos {c : Cyl} (hc : c.Ok) (u T : ℝ) (i j : ℕ) : 0 < c.mHat u T i j := div_pos (c.maxwellian_pos u T i j) (norm_pos hc u T)

/-- Averages over the normalised sampled Maxwellian. -/
noncomputable def avg (c : Cyl) (u T : ℝ) (g : ℕ → ℕ → ℝ) : ℝ := c.total fun i j => g i j * c.mHat u T i j

theorem avg_one {c : Cyl} (hc : c.Ok) (u T : ℝ) : c.avg u T (fun _ _ => 1) = 1 := by
  unfold avg; simp only [one_mul]; exact mHat_total hc u T

theorem avg_add (c : Cyl) (u T : ℝ) (f g : ℕ → ℕ → ℝ) : c.avg u T (fun i j => f i j + g i j) = c.avg u T f + c.avg u T g := by
  unfold avg; rw [← total_add]; congr 1; funext i j; ring

theorem avg_smul (c : Cyl) (u T k : ℝ) (f : ℕ → ℕ → ℝ) : c.avg u T (fun i j => k * f i j) = k * c.avg u T f := by
  unfold avg; rw [← total_smul]; congr 1; funext i j; ring

theorem avg_const {c : Cyl} (hc : c.Ok) (u T k : ℝ) : c.avg u T (fun _ _ => k) = k := by
  have := avg_smul c u T k fun _ _ => 1
  simpa [avg_one hc] using this

/-- The two fluctuations that the restoration modes are made of. -/
noncomputable def dW (c : Cyl) (u T : ℝ) (i j : ℕ) : ℝ := (c.v i - u) - c.avg u T fun i _ => c.v i - u
noncomputable def dS (c : Cyl) (u T : ℝ) (i j : ℕ) : ℝ := ((c.v i - u) ^ 2 + c.vperp j ^ 2) - c.avg u T fun i j => (c.v i - u) ^ 2 + c.vperp j ^ 2

theorem phi1_eq (c : Cyl) (u T : ℝ) (i j : ℕ) : c.phi1 u T i j = c.dW u T i j * c.mHat u T i j := by
  unfold phi1 dW avg; dsimp only; ring

theorem phi2_eq (c : Cyl) (u T : ℝ) (i j : ℕ) : c.phi2 u T i j = c.dS u T i j * c.mHat u T i j := by
  unfold phi2 dS avg; dsimp only

theorem dW_avg {c : Cyl} (hc : c.Ok) (u T : ℝ) : c.avg u T (c.dW u T) = 0 := by
  have : c.avg u T (c.dW u T) = c.avg u T fun i j => (c.v i - u) + (-1) * c.avg u T fun i _ => c.v i - u := by
    congr 1; funext i j; unfold dW; ring
  rw [this, avg_add, avg_const hc]; ring

theorem dS_avg {c : Cyl} (hc : c.Ok) (u T : ℝ) : c.avg u T (c.dS u T) = 0 := by
  have : c.avg u T (c.dS u T) = c.avg u T fun i j => ((c.v i - u) ^ 2 + c.vperp j ^ 2) + (-1) * c.avg u T fun i j => (c.v i - u) ^ 2 + c.vperp j ^ 2 := by
    congr 1; funext i j; unfold dS; ring
  rw [this, avg_add, avg_const hc]; ring

/-- The determinant of the 2×2 system, as the Gram determinant of the two fluctuations. -/
theorem det_eq {c : Cyl} (hc : c.Ok) (u T : ℝ) :
    c.total (fun i j => c.phi1 u T i j * c.v i) * c.total (fun i j => c.phi2 u T i j * (c.v i ^ 2 + c.vperp j ^ 2)) -
      c.total (fun i j => c.phi2 u T i j * c.v i) * c.total (fun i j => c.phi1 u T i j * (c.v i ^ 2 + c.vperp j ^ 2)) =
    c.avg u T (fun i j => c.dW u T i j ^ 2) * c.avg u T (fun i j => c.dS u T i j ^ 2) - c.avg u T (fun i j => c.dW u T i j * c.dS u T i j) ^ 2 := by
  obtain ⟨mw, hmw⟩ : ∃ q, q = c.avg u T fun i _ => c.v i - u := ⟨_, rfl⟩
  obtain ⟨ms, hms⟩ : ∃ q, q = c.avg u T fun i j => (c.v i - u) ^ 2 + c.vperp j ^ 2 := ⟨_, rfl⟩
  have hw : ∀ i j, c.v i = c.dW u T i j + (mw + u) := fun i j => by unfold dW; rw [← hmw]; ring
  have hs : ∀ i j, c.v i ^ 2 + c.vperp j ^ 2 = c.dS u T i j + 2 * u * c.dW u T i j + (ms + 2 * u * mw + u ^ 2) := fun i j => by
    unfold dW dS; rw [← hmw, ← hms]; ring
  have t1 : ∀ g : ℕ → ℕ → ℝ, c.avg u T g = 0 → c.total (fun i j => g i j * c.mHat u T i j * c.v i) = c.avg u T fun i j => c.dW u T i j * g i j := by
    intro g hg
    have : c.total (fun i j => g i j * c.mHat u T i j * c.v i) = c.avg u T fun i j => c.dW u T i j * g i j + (mw + u) * g i j := by
      unfold avg; congr 1; funext i j; rw [hw i j]; ring
    rw [this, avg_add, avg_smul, hg]; ring
  have t2 : ∀ g : ℕ → ℕ → ℝ, c.avg u T g = 0 → c.total (fun i j => g i j * c.mHat u T i j * (c.v i ^ 2 + c.vperp j ^ 2)) =
      c.avg u T (fun i j => c.dS u T i j * g i j) + 2 * u * c.avg u T fun i j => c.dW u T i j * g i j := by
    intro g hg
    have : c.total (fun i j => g i j * c.mHat u T i j * (c.v i ^ 2 + c.vperp j ^ 2)) = c.avg u T fun i j =>
        (c.dS u T i j * g i j + 2 * u * (c.dW u T i j * g i j)) + (ms + 2 * u * mw + u ^ 2) * g i j := by
      unfold avg; congr 1; funext i j; rw [hs i j]; ring
    rw [this, avg_add, avg_add, avg_smul, avg_smul, hg]; ring
  simp only [phi1_eq, phi2_eq]
  rw [t1 _ (dW_avg hc u T), t1 _ (dS_avg hc u T), t2 _ (dW_avg hc u T), t2 _ (dS_avg hc u T)]
  have e1 : (fun i j => c.dW u T i j * c.dW u T i j) = fun i j => c.dW u T i j ^ 2 := by funext i j; ring
  have e2 : (fun i j => c.dS u T i j * c.dS u T i j) = fun i j => c.dS u T i j ^ 2 := by funext i j; ring
  have e3 : (fun i j => c.dS u T i j * c.dW u T i j) = fun i j => c.dW u T i j * c.dS u T i j := by funext i j; ring
  rw [e1, e2, e3]
  ring

/-- Two parallel velocities and two perpendicular speeds that differ. -/
structure Spread (c : Cyl) : Prop extends c.Ok where
  nv2 : 2 ≤ c.nv
  np2 : 2 ≤ c.np
  v2 : c.v 0 ≠ c.v 1
  vperp2 : c.vperp 0 ≠ c.vperp 1

/-- C143: the 2×2 system of the restoration is never singular on such a grid, whatever the mean velocity and
temperature. -/
theorem det_pos {c : Cyl} (hc : c.Spread) (u T : ℝ) :
    0 < c.total (fun i j => c.phi1 u T i j * c.v i) * c.total (fun i j => c.phi2 u T i j * (c.v i ^ 2 + c.vperp j ^ 2)) -
      c.total (fun i j => c.phi2 u T i j * c.v i) * c.total (fun i j => c.phi1 u T i j * (c.v i ^ 2 + c.vperp j ^ 2)) := by
  rw [det_eq hc.toOk]
  obtain ⟨A, hA⟩ : ∃ q, q = c.avg u T fun i j => c.dW u T i j ^ 2 := ⟨_, rfl⟩
  obtain ⟨B, hB⟩ : ∃ q, q = c.avg u T fun i j => c.dW u T i j * c.dS u T i j := ⟨_, rfl⟩
  obtain ⟨D, hD⟩ : ∃ q, q = c.avg u T fun i j => c.dS u T i j ^ 2 := ⟨_, rfl⟩
  rw [← hA, ← hB, ← hD]
  have form : ∀ a b, c.avg u T (fun i j => (a * c.dW u T i j + b * c.dS u T i j) ^ 2) = a ^ 2 * A + 2 * a * b * B + b ^ 2 * D := by
    intro a b
    have : (fun i j => (a * c.dW u T i j + b * c.dS u T i j) ^ 2) = fun i j =>
        (a ^ 2 * c.dW u T i j ^ 2 + 2 * a * b * (c.dW u T i j * c.dS u T i j)) + b ^ 2 * c.dS u T i j ^ 2 := by funext i j; ring
    rw [this, avg_add, avg_add, avg_smul, avg_smul, avg_smul, hA, hB, hD]
  have strict : ∀ a b, (a, b) ≠ (0, 0) → 0 < a ^ 2 * A + 2 * a * b * B + b ^ 2 * D := by
    intro a b hab
    rw [← form]
    unfold avg total
    by_contra hcon
    have hz : ∑ i ∈ range c.nv, ∑ j ∈ range c.np, (a * c.dW u T i j + b * c.dS u T i j) ^ 2 * c.mHat u T i j * c.w j = 0 := by
      refine le_antisymm (not_lt.1 hcon) (sum_nonneg fun i _ => sum_nonneg fun j hj => ?_)
      have := mHat_pos hc.toOk u T i j
      have := hc.toOk.w (mem_range.1 hj)
      positivity
    have pt : ∀ i < c.nv, ∀ j < c.np, a * c.dW u T i j + b * c.dS u T i j = 0 := by
      intro i hi j hj
      have hnn : ∀ i ∈ range c.nv, 0 ≤ ∑ j ∈ range c.np, (a * c.dW u T i j + b * c.dS u T i j) ^ 2 * c.mHat u T i j * c.w j := fun i _ =>
        sum_nonneg fun j hj => by
          have := mHat_pos hc.toOk u T i j
          have := hc.toOk.w (mem_range.1 hj)
          positivity
      have h1 := (sum_eq_zero_iff_of_nonneg hnn).1 hz i (mem_range.2 hi)
      have hnn2 : ∀ j ∈ range c.np, 0 ≤ (a * c.dW u T i j + b * c.dS u T i j) ^ 2 * c.mHat u T i j * c.w j := fun j hj => by
        have := mHat_pos hc.toOk u T i j
        have := hc.toOk.w (mem_range.1 hj)
        positivity
      have h2 := (sum_eq_zero_iff_of_nonneg hnn2).1 h1 j (mem_range.2 hj)
      have p1 := (mHat_pos hc.toOk u T i j).ne'
      have p2 := (hc.toOk.w hj).ne'
      have := (mul_eq_zero.1 ((mul_eq_zero.1 h2).resolve_right p2)).resolve_right p1
      exact pow_eq_zero_iff (two_ne_zero) |>.1 this
    have n2 := hc.nv2
    have m2 := hc.np2
    have q1 := pt 0 (by omega) 0 (by omega)
    have q2 := pt 0 (by omega) 1 (by omega)
    have q3 := pt 1 (by omega) 0 (by omega)
    have hb : b = 0 := by
      have : b * (c.vperp 0 ^ 2 - c.vperp 1 ^ 2) = 0 := by
        unfold dW dS at q1 q2; linarith
      refine (mul_eq_zero.1 this).resolve_right ?_
      have p0 := hc.vperp 0 (by omega)
      have p1 := hc.vperp 1 (by omega)
      intro h
      have : (c.vperp 0 - c.vperp 1) * (c.vperp 0 + c.vperp 1) = 0 := by linarith
      rcases mul_eq_zero.1 this with h | h
      · exact hc.vperp2 (by linarith)
      · linarith
    rw [hb] at q1 q3
    have ha : a = 0 := by
      have : a * (c.v 0 - c.v 1) = 0 := by unfold dW at q1 q3; linarith
      exact (mul_eq_zero.1 this).resolve_right (sub_ne_zero.2 hc.v2)
    exact hab (by rw [ha, hb])
  have hAp : 0 < A := by
    have := strict 1 0 (by simp)
    linarith
  have h := strict (-B) A (fun h => hAp.ne' (congrArg Prod.snd h))
  have : A * (A * D - B ^ 2) = (-B) ^ 2 * A + 2 * (-B) * A * B + A ^ 2 * D := by ring
  rw [← this] at h
  exact (mul_pos_iff_of_pos_left hAp).1 h

/-- C143: the restored step keeps the density. -/
theorem restored_density {c : Cyl} (hc : c.Ok) (f g : ℕ → ℕ → ℝ) : c.total (c.restored f g) = c.total g := by
  by_cases hr : c.restore = true
  · obtain ⟨b, cc, h⟩ : ∃ b cc, ∀ i j, c.restored f g i j = g i j + b * c.phi1 (c.moments f).2.1 (c.moments f).2.2 i j +
        cc * c.phi2 (c.moments f).2.1 (c.moments f).2.2 i j := ⟨_, _, fun i j => by unfold restored; rw [if_pos hr]⟩
    rw [total_congr fun i _ j _ => h i j, total_add, total_add, total_smul, total_smul]
    have e1 : c.total (c.phi1 (c.moments f).2.1 (c.moments f).2.2) = 0 := by
      rw [total_congr fun i _ j _ => phi1_eq ..]; exact dW_avg hc _ _
    have e2 : c.total (c.phi2 (c.moments f).2.1 (c.moments f).2.2) = 0 := by
      rw [total_congr fun i _ j _ => phi2_eq ..]; exact dS_avg hc _ _
    rw [e1, e2]; ring
  · rw [total_congr fun i _ j _ => show c.restored f g i j = g i j by unfold restored; rw [if_neg hr]]

/-- C143: the restored step gives back the parallel momentum and the energy of the state before the collisions, whatever
the step in between did. -/
theorem restored_moments {c : Cyl} (hc : c.Spread) (hr : c.restore = true) (f g : ℕ → ℕ → ℝ) :
    c.total (fun i j => c.restored f g i j * c.v i) = c.total (fun i j => f i j * c.v i) ∧
    c.total (fun i j => c.restored f g i j * (c.v i ^ 2 + c.vperp j ^ 2)) = c.total fun i j => f i j * (c.v i ^ 2 + c.vperp j ^ 2) := by
  obtain ⟨u, hu⟩ : ∃ u, u = (c.moments f).2.1 := ⟨_, rfl⟩
  obtain ⟨T, hT⟩ : ∃ T, T = (c.moments f).2.2 := ⟨_, rfl⟩
  have hdet := det_pos hc u T
  obtain ⟨a11, h11⟩ : ∃ q, q = c.total (fun i j => c.phi1 u T i j * c.v i) := ⟨_, rfl⟩
  obtain ⟨a12, h12⟩ : ∃ q, q = c.total (fun i j => c.phi2 u T i j * c.v i) := ⟨_, rfl⟩
  obtain ⟨a21, h21⟩ : ∃ q, q = c.total (fun i j => c.phi1 u T i j * (c.v i ^ 2 + c.vperp j ^ 2)) := ⟨_, rfl⟩
  obtain ⟨a22, h22⟩ : ∃ q, q = c.total (fun i j => c.phi2 u T i j * (c.v i ^ 2 + c.vperp j ^ 2)) := ⟨_, rfl⟩
  obtain ⟨dj, hdj⟩ : ∃ q, q = c.total (fun i j => (g i j - f i j) * c.v i) := ⟨_, rfl⟩
  obtain ⟨de, hde⟩ : ∃ q, q = c.total (fun i j => (g i j - f i j) * (c.v i ^ 2 + c.vperp j ^ 2)) := ⟨_, rfl⟩
  have h : ∀ i j, c.restored f g i j = g i j + (-dj * a22 + de * a12) / (a11 * a22 - a12 * a21) * c.phi1 u T i j +
      (-de * a11 + dj * a21) / (a11 * a22 - a12 * a21) * c.phi2 u T i j := by
    intro i j
    rw [hu] at h11 h12 h21 h22 ⊢
    rw [hT] at h11 h12 h21 h22 ⊢
    unfold restored
    rw [if_pos hr, h11, h12, h21, h22, hdj, hde]
  rw [← h11, ← h12, ← h21, ← h22] at hdet
  have lin : ∀ m : ℕ → ℕ → ℝ, c.total (fun i j => c.restored f g i j * m i j) = c.total (fun i j => g i j * m i j) +
      (-dj * a22 + de * a12) / (a11 * a22 - a12 * a21) * c.total (fun i j => c.phi1 u T i j * m i j) +
      (-de * a11 + dj * a21) / (a11 * a22 - a12 * a21) * c.total (fun i j => c.phi2 u T i j * m i j) := by
    intro m
    rw [← total_smul, ← total_smul, ← total_add, ← total_add]
    exact total_congr fun i _ j _ => by rw [h]; ring
  have dlin : ∀ m : ℕ → ℕ → ℝ, c.total (fun i j => (g i j - f i j) * m i j) = c.total (fun i j => g i j * m i j) - c.total fun i j => f i j * m i j := by
    intro m
    rw [← total_sub]
    exact total_congr fun i _ j _ => by ring
  rw [dlin] at hdj hde
  have hd := hdet.ne'
  constructor
  · rw [lin fun i _ => c.v i, ← h11, ← h12]
    have : (-dj * a22 + de * a12) / (a11 * a22 - a12 * a21) * a11 + (-de * a11 + dj * a21) / (a11 * a22 - a12 * a21) * a12 = -dj := by
      rw [div_mul_eq_mul_div, div_mul_eq_mul_div, ← add_div, div_eq_iff hd]; ring
    linarith
  · rw [lin fun i j => c.v i ^ 2 + c.vperp j ^ 2, ← h21, ← h22]
    have : (-dj * a22 + de * a12) / (a11 * a22 - a12 * a21) * a21 + (-de * a11 + dj * a21) / (a11 * a22 - a12 * a21) * a22 = -de := by
      rw [div_mul_eq_mul_div, div_mul_eq_mul_div, ← add_div, div_eq_iff hd]; ring
    linarith

/-- C143: the complete cylindrical step keeps density, and with moment restoration the parallel momentum and the
energy. -/
theorem apply_conserves {c : Cyl} (hc : c.Ok) (nu dt : ℝ) (f f' : ℕ → ℕ → ℝ) (h : c.Apply nu dt f f') :
    c.total f' = c.total f ∧ (c.Spread → c.restore = true →
      c.total (fun i j => f' i j * c.v i) = c.total (fun i j => f i j * c.v i) ∧
      c.total (fun i j => f' i j * (c.v i ^ 2 + c.vperp j ^ 2)) = c.total fun i j => f i j * (c.v i ^ 2 + c.vperp j ^ 2)) := by
  obtain ⟨g, hg, hf⟩ := h
  refine ⟨?_, fun hs hr => ?_⟩
  · rw [total_congr hf, restored_density hc, advance_density c hc nu dt f g hg]
  · have := restored_moments hs hr f g
    exact ⟨(total_congr fun i hi j hj => by rw [hf i hi j hj]).trans this.1, (total_congr fun i hi j hj => by rw [hf i hi j hj]).trans this.2⟩

/-! ### The sweeps -/

theorem sqrt_pos' {c : Cyl} (u T : ℝ) (i j i' j' : ℕ) : 0 < Real.sqrt (c.maxwellian u T i j * c.maxwellian u T i' j') :=
  Real.sqrt_pos.2 (mul_pos (c.maxwellian_pos ..) (c.maxwellian_pos ..))

theorem cPar_nonneg {c : Cyl} (hc : c.Ok) (ha : 0 ≤ c.alphaSpeed) (hl : 0 ≤ c.alphaLorentz) {n : ℝ} (hn : 0 ≤ n) (u T : ℝ) (e : ℕ) {j : ℕ} (hj : j < c.np) :
    0 ≤ c.cPar n u T e j := by
  have h1 := (c.tensor_psd (c.vEdge e - u) (c.vperp j) T (hc.vperp j hj) ha hl).2.1
  have h2 := (sqrt_pos' (c := c) u T (e + 1) j e j).le
  unfold cPar
  exact div_nonneg (mul_nonneg (mul_nonneg (mul_nonneg hn (Real.sqrt_nonneg T)) h1) h2) (sq_nonneg _)

theorem cPerp_nonneg {c : Cyl} (hc : c.Ok) (ha : 0 ≤ c.alphaSpeed) (hl : 0 ≤ c.alphaLorentz) {n : ℝ} (hn : 0 ≤ n) (u T : ℝ) (i : ℕ) {e : ℕ} (he : e + 1 < c.np) :
    0 ≤ c.cPerp n u T i e := by
  have h1 := (c.tensor_psd (c.v i - u) (c.vperpEdge e) T (hc.edge he) ha hl).2.2.1
  have h2 := (sqrt_pos' (c := c) u T i (e + 1) i e).le
  have h3 := (hc.edge he).le
  unfold cPerp
  exact div_nonneg (mul_nonneg (mul_nonneg (mul_nonneg h3 (mul_nonneg hn (Real.sqrt_nonneg T))) h1) h2) (sq_nonneg _)

theorem sweep_positive {m : ℕ} {nu cc M f f' : ℕ → ℝ} {d : ℝ} (hd : 0 ≤ d) (hnu : ∀ i < m, 0 ≤ nu i) (hc : ∀ e, e + 1 < m → 0 ≤ cc e)
    (hM : ∀ i, 0 < M i) (h : ImplicitStep m nu d 1 (sweepFlux cc M) f f') (hf : ∀ i < m, 0 ≤ f i) : ∀ i < m, 0 ≤ f' i :=
  positive_step (fun e => cc e / M e) (fun e => cc e / M (e + 1)) h hd one_pos hnu (fun e he => div_nonneg (hc e he) (hM e).le)
    (fun e he => div_nonneg (hc e he) (hM (e + 1)).le) (fun e _ => by unfold sweepFlux; ring) hf

/-- C145: for every time step, rate, density and temperature each sweep keeps a non-negative distribution
non-negative. -/
theorem sweeps_positive {c : Cyl} (hc : c.Ok) (ha : 0 ≤ c.alphaSpeed) (hl : 0 ≤ c.alphaLorentz) {nudt n : ℝ} (hd : 0 ≤ nudt) (hn : 0 ≤ n) (u T : ℝ) :
    (∀ j < c.np, ∀ f f' : ℕ → ℝ, (∀ i < c.nv, (c.triPar nudt n u T j).mv c.nv f' i = f i) → (∀ i < c.nv, 0 ≤ f i) → ∀ i < c.nv, 0 ≤ f' i) ∧
    ∀ i, ∀ f f' : ℕ → ℝ, (∀ j < c.np, (c.triPerp nudt n u T i).mv c.np f' j = f j) → (∀ j < c.np, 0 ≤ f j) → ∀ j < c.np, 0 ≤ f' j := by
  constructor
  · intro j hj f f' h
    exact sweep_positive hd (fun _ _ => zero_le_one) (fun e _ => cPar_nonneg hc ha hl hn u T e hj) (fun i => c.maxwellian_pos u T i j) ((par_step ..).1 h)
  · intro i f f' h
    exact sweep_positive hd (fun j hj => (one_div_pos.2 (hc.vperp j hj)).le) (fun e he => cPerp_nonneg hc ha hl hn u T i he)
      (fun j => c.maxwellian_pos u T i j) ((perp_step ..).1 h)

theorem kernel_of_positive (n : ℕ) (op : Tri) (h : ∀ f f' : ℕ → ℝ, (∀ i < n, op.mv n f' i = f i) → (∀ i < n, 0 ≤ f i) → ∀ i < n, 0 ≤ f' i) :
    ∀ x : ℕ → ℝ, (∀ i < n, op.mv n x i = 0) → ∀ i < n, x i = 0 := by
  intro x hx i hi
  refine le_antisymm ?_ (h (fun _ => 0) x hx (fun _ _ => le_refl 0) i hi)
  have := h (fun _ => 0) (fun j => (-1) * x j) (fun j hj => by rw [mv_smul, hx j hj, mul_zero]) (fun _ _ => le_refl 0) i hi
  linarith

/-- C145: each sweep has exactly one result. -/
theorem sweeps_unique {c : Cyl} (hc : c.Ok) (ha : 0 ≤ c.alphaSpeed) (hl : 0 ≤ c.alphaLorentz) {nudt n : ℝ} (hd : 0 ≤ nudt) (hn : 0 ≤ n) (u T : ℝ) :
    (∀ j < c.np, ∀ f : ℕ → ℝ, (∃ f' : ℕ → ℝ, ∀ i < c.nv, (c.triPar nudt n u T j).mv c.nv f' i = f i) ∧
      ∀ f' f'' : ℕ → ℝ, (∀ i < c.nv, (c.triPar nudt n u T j).mv c.nv f' i = f i) → (∀ i < c.nv, (c.triPar nudt n u T j).mv c.nv f'' i = f i) →
        ∀ i < c.nv, f' i = f'' i) ∧
    ∀ i, ∀ f : ℕ → ℝ, (∃ f' : ℕ → ℝ, ∀ j < c.np, (c.triPerp nudt n u T i).mv c.np f' j = f j) ∧
      ∀ f' f'' : ℕ → ℝ, (∀ j < c.np, (c.triPerp nudt n u T i).mv c.np f' j = f j) → (∀ j < c.np, (c.triPerp nudt n u T i).mv c.np f'' j = f j) →
        ∀ j < c.np, f' j = f'' j := by
  have P := sweeps_positive hc ha hl hd hn u T
  constructor
  · intro j hj f
    have := unique_of_kernel c.nv (c.triPar nudt n u T j) (kernel_of_positive _ _ fun f f' => P.1 j hj f f') f
    simpa only [solve_iff] using this
  · intro i f
    have := unique_of_kernel c.np (c.triPerp nudt n u T i) (kernel_of_positive _ _ fun f f' => P.2 i f f') f
    simpa only [solve_iff] using this

/-- C145: the cylindrical step is always defined. -/
theorem advance_exists {c : Cyl} (hc : c.Ok) (ha : 0 ≤ c.alphaSpeed) (hl : 0 ≤ c.alphaLorentz) {nu dt : ℝ} (hd : 0 ≤ dt * nu) (f : ℕ → ℕ → ℝ)
    (hf : 0 ≤ c.total f) : ∃ f', c.Advance nu dt f f' := by
  have U := sweeps_unique hc ha hl hd (n := (c.moments f).1) hf (c.moments f).2.1 (c.moments f).2.2
  have hx : ∀ j : ℕ, ∃ g : ℕ → ℝ, j < c.np → ∀ i < c.nv, (c.triPar (dt * nu) (c.moments f).1 (c.moments f).2.1 (c.moments f).2.2 j).mv c.nv g i = f i j := by
    intro j
    by_cases hj : j < c.np
    · obtain ⟨g, hg⟩ := (U.1 j hj fun i => f i j).1
      exact ⟨g, fun _ => hg⟩
    · exact ⟨fun _ => 0, fun h => absurd h hj⟩
  choose g hg using hx
  choose g2 hg2 using fun i => (U.2 i fun j => g j i).1
  exact ⟨_, fun i j => g j i, fun i j => g2 i j, fun j hj => hg j hj, fun i _ => hg2 i, fun i _ j _ => rfl⟩

theorem sweep_dissipates {m : ℕ} {nu cc M f f' : ℕ → ℝ} {d : ℝ} (hnu : ∀ i < m, 0 < nu i) (hM : ∀ i, 0 < M i)
    (h : ImplicitStep m nu d 1 (sweepFlux cc M) f f') :
    ∑ i ∈ range m, f' i ^ 2 / M i / nu i + 2 * d * ∑ e ∈ range (m - 1), cc e * (f' (e + 1) / M (e + 1) - f' e / M e) ^ 2 ≤ ∑ i ∈ range m, f i ^ 2 / M i / nu i := by
  have h1 := sum_netFlux_mul m (sweepFlux cc M f') fun i => f' i / M i
  have h2 : ∑ e ∈ range (m - 1), sweepFlux cc M f' e * (f' e / M e - f' (e + 1) / M (e + 1)) = -∑ e ∈ range (m - 1), cc e * (f' (e + 1) / M (e + 1) - f' e / M e) ^ 2 := by
    rw [← sum_neg_distrib]
    exact sum_congr rfl fun e _ => by unfold sweepFlux; ring
  have h3 : ∑ i ∈ range m, (f i ^ 2 / M i / nu i - f' i ^ 2 / M i / nu i) =
      ∑ i ∈ range m, ((f i - f' i) ^ 2 / M i / nu i - 2 * d * (f' i / M i * netFlux m (sweepFlux cc M f') i)) := by
    refine sum_congr rfl fun i hi => ?_
    have hn := (hnu i (mem_range.1 hi)).ne'
    have hM' := (hM i).ne'
    have e := h i (mem_range.1 hi)
    have e' : f i = f' i - d * nu i * (netFlux m (sweepFlux cc M f') i / 1) := by linarith
    rw [e']
    field_simp
    ring
  rw [sum_sub_distrib, sum_sub_distrib, ← mul_sum, h1, h2] at h3
  have h4 : 0 ≤ ∑ i ∈ range m, (f i - f' i) ^ 2 / M i / nu i :=
    sum_nonneg fun i hi => div_nonneg (div_nonneg (sq_nonneg _) (hM i).le) (hnu i (mem_range.1 hi)).le
  linarith

/-- C145: each sweep lowers the norm `∫ f²/M`, by at least twice the dissipation. -/
theorem sweeps_dissipate {c : Cyl} (hc : c.Ok) (nudt n u T : ℝ) :
    (∀ j (f f' : ℕ → ℝ), (∀ i < c.nv, (c.triPar nudt n u T j).mv c.nv f' i = f i) →
      ∑ i ∈ range c.nv, f' i ^ 2 / c.maxwellian u T i j + 2 * nudt * ∑ e ∈ range (c.nv - 1), c.cPar n u T e j *
        (f' (e + 1) / c.maxwellian u T (e + 1) j - f' e / c.maxwellian u T e j) ^ 2 ≤ ∑ i ∈ range c.nv, f i ^ 2 / c.maxwellian u T i j) ∧
    ∀ i (f f' : ℕ → ℝ), (∀ j < c.np, (c.triPerp nudt n u T i).mv c.np f' j = f j) →
      ∑ j ∈ range c.np, c.vperp j * (f' j ^ 2 / c.maxwellian u T i j) + 2 * nudt * ∑ e ∈ range (c.np - 1), c.cPerp n u T i e *
        (f' (e + 1) / c.maxwellian u T i (e + 1) - f' e / c.maxwellian u T i e) ^ 2 ≤ ∑ j ∈ range c.np, c.vperp j * (f j ^ 2 / c.maxwellian u T i j) := by
  constructor
  · intro j f f' h
    have := sweep_dissipates (fun _ _ => one_pos) (fun i => c.maxwellian_pos u T i j) ((par_step ..).1 h)
    simpa only [div_one] using this
  · intro i f f' h
    have := sweep_dissipates (fun j hj => one_div_pos.2 (hc.vperp j hj)) (fun j => c.maxwellian_pos u T i j) ((perp_step ..).1 h)
    have e : ∀ g : ℕ → ℝ, ∑ j ∈ range c.np, g j ^ 2 / c.maxwellian u T i j / (1 / c.vperp j) = ∑ j ∈ range c.np, c.vperp j * (g j ^ 2 / c.maxwellian u T i j) := by
      intro g
      exact sum_congr rfl fun j _ => by rw [one_div, div_inv_eq_mul, mul_comm]
    rw [e, e] at this
    exact this

/-! ### Fixed points -/

theorem explicit_fixed (c : Cyl) (nudt n u T k : ℝ) (f : ℕ → ℕ → ℝ) (hf : ∀ i < c.nv, ∀ j < c.np, f i j = k * c.maxwellian u T i j) :
    ∀ i < c.nv, ∀ j < c.np, c.explicitStep nudt n u T f i j = f i j := by
  intro i hi j hj
  have g : ∀ i < c.nv, ∀ j < c.np, f i j / c.maxwellian u T i j = k := fun i hi j hj => by
    rw [hf i hi j hj, mul_div_assoc, div_self (c.maxwellian_pos u T i j).ne', mul_one]
  have d1 : ∀ i < c.nv, ∀ j < c.np, c.dperpG (fun i j => f i j / c.maxwellian u T i j) i j = 0 := by
    intro i hi j hj
    unfold dperpG
    beta_reduce
    rw [g i hi _ (by omega), g i hi _ (by omega), sub_self, zero_div]
  have d2 : ∀ i < c.nv, ∀ j < c.np, c.dparG (fun i j => f i j / c.maxwellian u T i j) i j = 0 := by
    intro i hi j hj
    unfold dparG
    beta_reduce
    rw [g _ (by omega) j hj, g _ (by omega) j hj, sub_self, zero_div]
  have p1 : ∀ e, e + 1 < c.nv → c.gamPar n u T (fun i j => f i j / c.maxwellian u T i j) e j = 0 := by
    intro e he
    unfold gamPar
    rw [d1 _ he j hj, d1 e (by omega) j hj]; ring
  have p2 : ∀ e, e + 1 < c.np → c.gamPerp n u T (fun i j => f i j / c.maxwellian u T i j) i e = 0 := by
    intro e he
    unfold gamPerp
    rw [d2 i hi _ he, d2 i hi e (by omega)]; ring
  unfold explicitStep
  dsimp only
  have q1 : (if i + 1 < c.nv then c.gamPar n u T (fun i j => f i j / c.maxwellian u T i j) i j else 0) = 0 := by
    split_ifs with h
    · exact p1 i h
    · rfl
  have q2 : (if 0 < i then c.gamPar n u T (fun i j => f i j / c.maxwellian u T i j) (i - 1) j else 0) = 0 := by
    split_ifs with h
    · exact p1 (i - 1) (by omega)
    · rfl
  have q3 : (if j + 1 < c.np then c.vperpEdge j * c.gamPerp n u T (fun i j => f i j / c.maxwellian u T i j) i j else 0) = 0 := by
    split_ifs with h
    · rw [p2 j h, mul_zero]
    · rfl
  have q4 : (if 0 < j then c.vperpEdge (j - 1) * c.gamPerp n u T (fun i j => f i j / c.maxwellian u T i j) i (j - 1) else 0) = 0 := by
    split_ifs with h
    · rw [p2 (j - 1) (by omega), mul_zero]
    · rfl
  rw [q1, q2, q3, q4]; ring

/-- C145: the explicit part carries the off-diagonal flux and nothing else.  Where `f / M` is linear in both velocities, with slopes
`b` along `v_par` and `d` along `v_perp`, the flux through a `v_par` face is the off-diagonal entry of the diffusion tensor there times
`d`, the flux through a ring face the off-diagonal entry there times `b`, and an interior cell changes by their divergence. -/
theorem explicit_cross (c : Cyl) (nudt n u T a b d : ℝ) (hdv : c.dv ≠ 0) (hdp : c.dvperp ≠ 0) (hv : ∀ i, c.v (i + 1) = c.v i + c.dv)
    (hp : ∀ j, c.vperp (j + 1) = c.vperp j + c.dvperp) (f : ℕ → ℕ → ℝ)
    (hf : ∀ i j, f i j = (a + b * c.v i + d * c.vperp j) * c.maxwellian u T i j) (i j : ℕ) (hi : i + 2 < c.nv) (hj : j + 2 < c.np) :
    let D : ℝ → ℝ → ℝ := fun w q =>
      let s := Real.sqrt (w ^ 2 + q ^ 2 + 1e-30) / Real.sqrt T
      (c.alphaSpeed * dhatPar s - c.alphaLorentz * dhatPerp s) * w * q / (w ^ 2 + q ^ 2)
    let parFlux : ℕ → ℝ := fun e => n * Real.sqrt T * D ((c.v (e + 1) + c.v e) / 2 - u) (c.vperp (j + 1)) *
      Real.sqrt (c.maxwellian u T (e + 1) (j + 1) * c.maxwellian u T e (j + 1)) * d
    let perpFlux : ℕ → ℝ := fun e => n * Real.sqrt T * D (c.v (i + 1) - u) ((c.vperp (e + 1) + c.vperp e) / 2) *
      Real.sqrt (c.maxwellian u T (i + 1) (e + 1) * c.maxwellian u T (i + 1) e) * b
    c.explicitStep nudt n u T f (i + 1) (j + 1) = f (i + 1) (j + 1) + nudt / c.nSub * ((parFlux (i + 1) - parFlux i) / c.dv +
      ((c.vperp (j + 2) + c.vperp (j + 1)) / 2 * perpFlux (j + 1) - (c.vperp (j + 1) + c.vperp j) / 2 * perpFlux j) /
        (c.vperp (j + 1) * c.dvperp)) := by
  intro D parFlux perpFlux
  have g : ∀ i j, f i j / c.maxwellian u T i j = a + b * c.v i + d * c.vperp j := fun i j => by
    rw [hf i j, mul_div_assoc, div_self (c.maxwellian_pos u T i j).ne', mul_one]
  have d1 : ∀ i, c.dperpG (fun i j => f i j / c.maxwellian u T i j) i (j + 1) = d := by
    intro i
    unfold dperpG
    beta_reduce
    rw [g, g, show min (j + 1 + 1) (c.np - 1) = j + 1 + 1 by omega, show j + 1 - 1 = j by omega, hp (j + 1), hp j, div_eq_iff (by simpa using hdp)]
    ring
  have d2 : ∀ j, c.dparG (fun i j => f i j / c.maxwellian u T i j) (i + 1) j = b := by
    intro j
    unfold dparG
    beta_reduce
    rw [g, g, show min (i + 1 + 1) (c.nv - 1) = i + 1 + 1 by omega, show i + 1 - 1 = i by omega, hv (i + 1), hv i, div_eq_iff (by simpa using hdv)]
    ring
  have half : ∀ x y : ℝ, 0.5 * (x + y) = (x + y) / 2 := fun x y => by norm_num; ring
  have p1 : ∀ e, c.gamPar n u T (fun i j => f i j / c.maxwellian u T i j) e (j + 1) = parFlux e := by
    intro e
    unfold gamPar
    rw [d1, d1, half, show (d + d) / 2 = d by ring, vEdge, half]
    rfl
  have p2 : ∀ e, c.gamPerp n u T (fun i j => f i j / c.maxwellian u T i j) (i + 1) e = perpFlux e := by
    intro e
    unfold gamPerp
    rw [d2, d2, half, show (b + b) / 2 = b by ring, vperpEdge, half]
    show n * Real.sqrt T * D _ _ * b * Real.sqrt _ = n * Real.sqrt T * D _ _ * Real.sqrt _ * b
    ring
  unfold explicitStep
  dsimp only
  rw [if_pos (show i + 1 + 1 < c.nv by omega), if_pos (show 0 < i + 1 by omega), if_pos (show j + 1 + 1 < c.np by omega), if_pos (show 0 < j + 1 by omega),
    show i + 1 - 1 = i by omega, show j + 1 - 1 = j by omega, p1, p1, p2, p2, vperpEdge, vperpEdge, half, half]

example : ∃ (c : Cyl) (f : ℕ → ℕ → ℝ), c.dv ≠ 0 ∧ c.dvperp ≠ 0 ∧ (∀ i, c.v (i + 1) = c.v i + c.dv) ∧ (∀ j, c.vperp (j + 1) = c.vperp j + c.dvperp) ∧
    (∀ i j, f i j = (1 + 2 * c.v i + 3 * c.vperp j) * c.maxwellian 0 1 i j) ∧ 0 + 2 < c.nv ∧ 0 + 2 < c.np := by
  refine ⟨⟨3, fun i => (i : ℝ) - 1, 1, 3, fun j => (j : ℝ) + 1 / 2, 1, 1, 1, true, 1⟩, _, one_ne_zero, one_ne_zero, fun i => ?_, fun j => ?_,
    fun i j => rfl, by decide, by decide⟩ <;> push_cast <;> ring

theorem explicit_congr (c : Cyl) (nudt n u T : ℝ) (f g : ℕ → ℕ → ℝ) (h : ∀ i < c.nv, ∀ j < c.np, f i j = g i j) :
    ∀ i < c.nv, ∀ j < c.np, c.explicitStep nudt n u T f i j = c.explicitStep nudt n u T g i j := by
  intro i hi j hj
  have d1 : ∀ i < c.nv, ∀ j < c.np, c.dperpG (fun i j => f i j / c.maxwellian u T i j) i j = c.dperpG (fun i j => g i j / c.maxwellian u T i j) i j := by
    intro i hi j hj
    unfold dperpG
    beta_reduce
    rw [h i hi _ (show min (j + 1) (c.np - 1) < c.np by omega), h i hi _ (show j - 1 < c.np by omega)]
  have d2 : ∀ i < c.nv, ∀ j < c.np, c.dparG (fun i j => f i j / c.maxwellian u T i j) i j = c.dparG (fun i j => g i j / c.maxwellian u T i j) i j := by
    intro i hi j hj
    unfold dparG
    beta_reduce
    rw [h _ (show min (i + 1) (c.nv - 1) < c.nv by omega) j hj, h _ (show i - 1 < c.nv by omega) j hj]
  have p1 : ∀ e, e + 1 < c.nv → c.gamPar n u T (fun i j => f i j / c.maxwellian u T i j) e j = c.gamPar n u T (fun i j => g i j / c.maxwellian u T i j) e j := by
    intro e he
    unfold gamPar
    rw [d1 _ he j hj, d1 e (by omega) j hj]
  have p2 : ∀ e, e + 1 < c.np → c.gamPerp n u T (fun i j => f i j / c.maxwellian u T i j) i e = c.gamPerp n u T (fun i j => g i j / c.maxwellian u T i j) i e := by
    intro e he
    unfold gamPerp
    rw [d2 i hi _ he, d2 i hi e (by omega)]
  unfold explicitStep
  dsimp only
  rw [h i hi j hj]
  congr 2
  congr 2
  · congr 1
    · split_ifs with h'
      · exact p1 i h'
      · rfl
    · split_ifs with h'
      · exact p1 (i - 1) (by omega)
      · rfl
  · congr 1
    · split_ifs with h'
      · rw [p2 j h']
      · rfl
    · split_ifs with h'
      · rw [p2 (j - 1) (by omega)]
      · rfl

/-- C145: a distribution that is a multiple of the Maxwellian of its own measured moments is an exact fixed point of the
complete step, for every mix of the channels, every rate and every time step; nothing else can come out. -/
theorem maxwellian_fixed {c : Cyl} (hc : c.Ok) (ha : 0 ≤ c.alphaSpeed) (hl : 0 ≤ c.alphaLorentz) {nu dt k : ℝ} (hd : 0 ≤ dt * nu) (f : ℕ → ℕ → ℝ)
    (hf : 0 ≤ c.total f) (hm : ∀ i < c.nv, ∀ j < c.np, f i j = k * c.maxwellian (c.moments f).2.1 (c.moments f).2.2 i j) :
    c.Apply nu dt f f ∧ ∀ f', c.Apply nu dt f f' → ∀ i < c.nv, ∀ j < c.np, f' i j = f i j := by
  obtain ⟨n, hn⟩ : ∃ n, n = (c.moments f).1 := ⟨_, rfl⟩
  obtain ⟨u, hu⟩ : ∃ u, u = (c.moments f).2.1 := ⟨_, rfl⟩
  obtain ⟨T, hT⟩ : ∃ T, T = (c.moments f).2.2 := ⟨_, rfl⟩
  rw [← hu, ← hT] at hm
  have gi : ∀ i < c.nv, ∀ j < c.np, f i j / c.maxwellian u T i j = k := fun i hi j hj => by
    rw [hm i hi j hj, mul_div_assoc, div_self (c.maxwellian_pos u T i j).ne', mul_one]
  have s1 : ∀ j < c.np, ∀ i < c.nv, (c.triPar (dt * nu) n u T j).mv c.nv (fun i => f i j) i = f i j := by
    intro j hj
    rw [par_step c (dt * nu) n u T j (fun i => f i j) fun i => f i j]
    intro i hi
    have : netFlux c.nv (sweepFlux (fun e => c.cPar n u T e j) (fun i => c.maxwellian u T i j) fun i => f i j) i = 0 := by
      unfold netFlux sweepFlux
      split_ifs with h1 h2 h2
      · rw [gi _ h1 j hj, gi _ hi j hj, gi _ (by omega) j hj, gi _ (by omega) j hj]; ring
      · rw [gi _ h1 j hj, gi _ hi j hj]; ring
      · rw [gi _ (show i - 1 + 1 < c.nv by omega) j hj, gi _ (by omega) j hj]; ring
      · ring
    rw [this]; ring
  have s2 : ∀ i < c.nv, ∀ j < c.np, (c.triPerp (dt * nu) n u T i).mv c.np (fun j => f i j) j = f i j := by
    intro i hi
    rw [perp_step c (dt * nu) n u T i (fun j => f i j) fun j => f i j]
    intro j hj
    have : netFlux c.np (sweepFlux (fun e => c.cPerp n u T i e) (fun j => c.maxwellian u T i j) fun j => f i j) j = 0 := by
      unfold netFlux sweepFlux
      split_ifs with h1 h2 h2
      · rw [gi i hi _ h1, gi i hi _ hj, gi i hi _ (by omega), gi i hi _ (by omega)]; ring
      · rw [gi i hi _ h1, gi i hi _ hj]; ring
      · rw [gi i hi _ (show j - 1 + 1 < c.np by omega), gi i hi _ (by omega)]; ring
      · ring
    rw [this]; ring
  have s3 : ∀ (g : ℕ → ℕ → ℝ) (q : ℕ), (∀ i < c.nv, ∀ j < c.np, g i j = f i j) → ∀ i < c.nv, ∀ j < c.np, (c.explicitStep (dt * nu) n u T)^[q] g i j = f i j := by
    intro g q
    induction q generalizing g with
    | zero => intro h; exact h
    | succ q ih =>
      intro h i hi j hj
      rw [Function.iterate_succ_apply]
      refine ih _ (fun i hi j hj => ?_) i hi j hj
      rw [explicit_congr c _ _ _ _ g f h i hi j hj, explicit_fixed c _ _ _ _ k f hm i hi j hj]
  have adv : c.Advance nu dt f f := by
    refine ⟨f, f, ?_, ?_, ?_⟩
    · rw [← hn, ← hu, ← hT]; exact s1
    · rw [← hn, ← hu, ← hT]; exact s2
    · rw [← hn, ← hu, ← hT]; exact fun i hi j hj => (s3 f _ (fun _ _ _ _ => rfl) i hi j hj).symm
  have res : ∀ g : ℕ → ℕ → ℝ, (∀ i < c.nv, ∀ j < c.np, g i j = f i j) → ∀ i j, c.restored f g i j = g i j := by
    intro g hg i j
    have z : ∀ m : ℕ → ℕ → ℝ, c.total (fun i j => (g i j - f i j) * m i j) = 0 := by
      intro m
      unfold total
      exact sum_eq_zero fun i hi => sum_eq_zero fun j hj => by beta_reduce; rw [hg i (mem_range.1 hi) j (mem_range.1 hj)]; ring
    unfold restored
    split_ifs
    · dsimp only
      rw [z fun i _ => c.v i, z fun i j => c.v i ^ 2 + c.vperp j ^ 2]
      ring
    · rfl
  refine ⟨⟨f, adv, fun i _ j _ => (res f (fun _ _ _ _ => rfl) i j).symm⟩, ?_⟩
  rintro f' ⟨g, ⟨f1, f2, h1, h2, h3⟩, h4⟩ i hi j hj
  rw [← hn, ← hu, ← hT] at h1 h2 h3
  have U := sweeps_unique hc ha hl hd (n := n) (by rw [hn]; exact hf) u T
  have e1 : ∀ i < c.nv, ∀ j < c.np, f1 i j = f i j := fun i hi j hj =>
    (U.1 j hj fun i => f i j).2 (fun i => f1 i j) (fun i => f i j) (h1 j hj) (s1 j hj) i hi
  have e2 : ∀ i < c.nv, ∀ j < c.np, f2 i j = f i j := fun i hi j hj =>
    (U.2 i fun j => f i j).2 (fun j => f2 i j) (fun j => f i j) (fun j hj => by rw [h2 i hi j hj, e1 i hi j hj]) (s2 i hi) j hj
  have e3 : ∀ i < c.nv, ∀ j < c.np, g i j = f i j := fun i hi j hj => by rw [h3 i hi j hj]; exact s3 f2 _ e2 i hi j hj
  rw [h4 i hi j hj, res g e3 i j, e3 i hi j hj]

/-! ### Non-vacuity -/

/-- Two parallel cells at `±1`, one perpendicular ring of radius 1. -/
noncomputable def ring : Cyl := ⟨2, fun i => 2 * i - 1, 2, 1, fun _ => 1, 1, 1, 2, true, 4⟩

theorem ring_ok : ring.Ok := ⟨two_pos, one_pos, two_pos, one_pos, fun _ _ => one_pos⟩

/-- A 3×2 grid on which the restoration acts. -/
noncomputable def grid32 : Cyl := ⟨3, fun i => i - 1, 1, 2, fun j => j + 1 / 2, 1, 1, 2, true, 4⟩

example : grid32.Spread where
  nv := by decide
  np := by decide
  dv := one_pos
  dvperp := one_pos
  vperp := fun j _ => by show (0 : ℝ) < j + 1 / 2; positivity
  nv2 := by decide
  np2 := le_refl 2
  v2 := by show ((0 : ℕ) : ℝ) - 1 ≠ ((1 : ℕ) : ℝ) - 1; norm_num
  vperp2 := by show ((0 : ℕ) : ℝ) + 1 / 2 ≠ ((1 : ℕ) : ℝ) + 1 / 2; norm_num

/-- The even filling of the ring is a Maxwellian of its own moments `u = 0`, `T = 2/3`. -/
example : 0 ≤ ring.total (fun _ _ => 1) ∧ ∀ i < ring.nv, ∀ j < ring.np,
    (1 : ℝ) = Real.exp (3 / 2) * ring.maxwellian (ring.moments fun _ _ => 1).2.1 (ring.moments fun _ _ => 1).2.2 i j := by
  have hn : ring.total (fun _ _ => 1) = 8 * Real.pi := by
    simp [total, w, ring, sum_range_succ]; ring
  have hp : ring.total (fun i _ => 1 * ring.v i) = 0 := by
    simp [total, w, ring, sum_range_succ]; ring
  have hu : (ring.moments fun _ _ => 1).2.1 = 0 := by
    show ring.total (fun i _ => 1 * ring.v i) / _ = 0
    rw [hp, zero_div]
  have hT : (ring.moments fun _ _ => 1).2.2 = 2 / 3 := by
    show ring.total (fun i j => 1 * ((ring.v i - (ring.moments fun _ _ => 1).2.1) ^ 2 + ring.vperp j ^ 2)) / (3 * ring.total fun _ _ => 1) = 2 / 3
    have : ring.total (fun i j => 1 * ((ring.v i - 0) ^ 2 + ring.vperp j ^ 2)) = 16 * Real.pi := by
      simp [total, w, ring, sum_range_succ]; ring
    rw [hu, this, hn]
    have := Real.pi_pos.ne'
    field_simp
    norm_num
  refine ⟨by rw [hn]; positivity, fun i hi j _ => ?_⟩
  rw [hu, hT]
  have h : (ring.v i - 0) ^ 2 + ring.vperp j ^ 2 = 2 := by
    have : i = 0 ∨ i = 1 := by have : i < 2 := hi; omega
    rcases this with rfl | rfl <;> simp [ring] <;> norm_num
  unfold maxwellian
  rw [h, ← Real.exp_add]
  norm_num

/-! ### A sampled Maxwellian need not be fixed -/

/-- Two parallel cells at `±1`, one perpendicular ring of radius 3/2, no restoration. -/
noncomputable def coarse : Cyl := ⟨2, fun i => 2 * i - 1, 2, 1, fun _ => 3 / 2, 3, 1, 1, false, 1⟩

theorem coarse_ok : coarse.Ok := ⟨two_pos, one_pos, two_pos, by show (0 : ℝ) < 3; norm_num, fun _ _ => by show (0 : ℝ) < 3 / 2; norm_num⟩

/-- C145, the limit of the statement: what is fixed is the Maxwellian of the *measured* moments.  The grid samples of a
drifting Maxwellian of temperature 1, whose measured mean velocity differs from the drift, are moved by every step. -/
theorem sampled_not_fixed (nu dt : ℝ) (h : 0 < dt * nu) (f' : ℕ → ℕ → ℝ)
    (ha : coarse.Apply nu dt (coarse.maxwellian (Real.log 3 / 2) 1) f') : f' 1 0 ≠ coarse.maxwellian (Real.log 3 / 2) 1 1 0 := by
  obtain ⟨f, hf⟩ : ∃ f, f = coarse.maxwellian (Real.log 3 / 2) 1 := ⟨_, rfl⟩
  rw [← hf] at ha ⊢
  obtain ⟨q, hq⟩ : ∃ q, q = f 0 0 := ⟨_, rfl⟩
  have q0 : 0 < q := by rw [hq, hf]; exact coarse.maxwellian_pos ..
  have f1 : f 1 0 = 3 * q := by
    rw [hq, hf]
    unfold maxwellian
    have : (3 : ℝ) = Real.exp (Real.log 3) := (Real.exp_log (by norm_num)).symm
    conv_rhs => rw [this]
    rw [← Real.exp_add, Real.exp_log (by norm_num : (0 : ℝ) < 3)]
    congr 1
    simp [coarse]
    ring
  have tot : ∀ g : ℕ → ℕ → ℝ, coarse.total g = 18 * Real.pi * (g 0 0 + g 1 0) := by
    intro g
    simp [total, w, coarse, sum_range_succ]; ring
  have hpi := Real.pi_pos
  have v0 : coarse.v 0 = -1 := by simp [coarse]
  have v1 : coarse.v 1 = 1 := by simp [coarse]; norm_num
  have hn : (coarse.moments f).1 = 72 * Real.pi * q := by
    show coarse.total f = _
    rw [tot, f1, ← hq]; ring
  have hu : (coarse.moments f).2.1 = 1 / 2 := by
    show coarse.total (fun i j => f i j * coarse.v i) / coarse.total f = _
    rw [tot, tot, f1, ← hq, v0, v1, div_eq_iff (by positivity)]; ring
  have hT : (coarse.moments f).2.2 = 1 := by
    show coarse.total (fun i j => f i j * ((coarse.v i - (coarse.moments f).2.1) ^ 2 + coarse.vperp j ^ 2)) / (3 * coarse.total f) = _
    rw [hu, tot, tot, f1, ← hq, v0, v1, div_eq_iff (by positivity)]
    show 18 * Real.pi * (q * ((-1 - 1 / 2) ^ 2 + (3 / 2) ^ 2) + 3 * q * ((1 - 1 / 2) ^ 2 + (3 / 2) ^ 2)) = _
    ring
  obtain ⟨g, ⟨f1', f2', h1, h2, h3⟩, h4⟩ := ha
  rw [hn, hu, hT] at h1 h2 h3
  have e4 : f' 1 0 = g 1 0 := by
    rw [h4 1 (by decide) 0 (by decide)]
    unfold restored
    exact if_neg (by decide)
  have ex : ∀ k : ℕ → ℕ → ℝ, coarse.explicitStep (dt * nu) (72 * Real.pi * q) (1 / 2) 1 k 1 0 = k 1 0 := by
    intro k
    simp [explicitStep, gamPar, dperpG, coarse]
  have e3 : g 1 0 = f2' 1 0 := by
    rw [h3 1 (by decide) 0 (by decide)]
    exact ex f2'
  have e2 : f2' 1 0 = f1' 1 0 := by
    have := h2 1 (by decide) 0 (by decide)
    simpa [Tri.mv, triPerp, coarse] using this
  intro bad
  have b1 : f1' 1 0 = 3 * q := by rw [← e2, ← e3, ← e4, bad, f1]
  have cp : 0 < coarse.cPar (72 * Real.pi * q) (1 / 2) 1 0 0 := by
    have ht : 0 < (coarse.tensor (coarse.vEdge 0 - 1 / 2) (coarse.vperp 0) 1).1 := by
      unfold tensor
      dsimp only
      have d1 := dhat_pos (Real.sqrt ((coarse.vEdge 0 - 1 / 2) ^ 2 + coarse.vperp 0 ^ 2 + 1e-30) / Real.sqrt 1)
      have hv : (0 : ℝ) < coarse.vperp 0 := by show (0 : ℝ) < 3 / 2; norm_num
      have a1 : coarse.alphaSpeed = 1 := rfl
      have a2 : coarse.alphaLorentz = 1 := rfl
      rw [a1, a2, one_mul, one_mul]
      have := d1.1
      have := d1.2
      positivity
    unfold cPar
    have := sqrt_pos' (c := coarse) (1 / 2) 1 (0 + 1) 0 0 0
    have : (0 : ℝ) < coarse.dv := two_pos
    have : 0 < Real.sqrt 1 := by rw [Real.sqrt_one]; exact one_pos
    positivity
  have M := coarse.maxwellian_pos (1 / 2) 1
  have st := (par_step coarse (dt * nu) (72 * Real.pi * q) (1 / 2) 1 0 (fun i => f i 0) fun i => f1' i 0).1 (h1 0 (by decide))
  have s1 := st 1 (by decide)
  have s0 := st 0 (by decide)
  unfold netFlux sweepFlux at s1 s0
  have nv : coarse.nv = 2 := rfl
  simp only [nv, Nat.lt_irrefl, if_false, Nat.lt_one_iff, if_true, one_pos, Nat.sub_self, zero_add, one_lt_two, show ¬ (1 + 1 < 2) by decide] at s1 s0
  rw [f1, b1] at s1
  rw [← hq, b1] at s0
  have flux : 3 * q / coarse.maxwellian (1 / 2) 1 1 0 - f1' 0 0 / coarse.maxwellian (1 / 2) 1 0 0 = 0 := by
    have : dt * nu * (coarse.cPar (72 * Real.pi * q) (1 / 2) 1 0 0 * (3 * q / coarse.maxwellian (1 / 2) 1 1 0 - f1' 0 0 / coarse.maxwellian (1 / 2) 1 0 0)) = 0 := by linarith
    rcases mul_eq_zero.1 this with h' | h'
    · exact absurd h' h.ne'
    · rcases mul_eq_zero.1 h' with h'' | h''
      · exact absurd h'' cp.ne'
      · exact h''
  have b0 : f1' 0 0 = q := by rw [flux] at s0; linarith
  have m1 : coarse.maxwellian (1 / 2) 1 1 0 = coarse.maxwellian (1 / 2) 1 0 0 * Real.exp 1 := by
    unfold maxwellian
    rw [← Real.exp_add]
    congr 1
    rw [v0, v1]
    show -((1 - 1 / 2) ^ 2 + (3 / 2) ^ 2) / (2 * 1) = -((-1 - 1 / 2) ^ 2 + (3 / 2) ^ 2) / (2 * 1) + (1 : ℝ)
    norm_num
  rw [b0, m1] at flux
  have M0 := M 0 0
  have he := Real.exp_pos 1
  have : 3 * q / (coarse.maxwellian (1 / 2) 1 0 0 * Real.exp 1) = q / coarse.maxwellian (1 / 2) 1 0 0 := by linarith
  rw [div_eq_div_iff (by positivity) (by positivity)] at this
  have h3e : (3 : ℝ) = Real.exp 1 := by
    have h' : q * coarse.maxwellian (1 / 2) 1 0 0 * 3 = q * coarse.maxwellian (1 / 2) 1 0 0 * Real.exp 1 := by linarith
    exact mul_left_cancel₀ (by positivity) h'
  have := Real.exp_one_lt_d9
  linarith

example (nu dt : ℝ) (h : 0 < dt * nu) : ∃ f', coarse.Apply nu dt (coarse.maxwellian (Real.log 3 / 2) 1) f' := by
  obtain ⟨g, hg⟩ := advance_exists coarse_ok zero_le_one zero_le_one h.le (coarse.maxwellian (Real.log 3 / 2) 1)
    (by unfold total; exact sum_nonneg fun i _ => sum_nonneg fun j hj => mul_nonneg (coarse.maxwellian_pos ..).le (coarse_ok.w (mem_range.1 hj)).le)
  exact ⟨_, g, hg, fun _ _ _ _ => rfl⟩

end Cyl

/-! ### Runs with the cylindrical operator -/

/-- The velocity grids of a species are those of a deck. -/
structure Sp2.GridOk {nx : ℕ} (s : Sp2 nx) : Prop where
  nv : 2 ≤ s.nv
  np : 0 < s.np
  dv : 0 < s.dv
  dvperp : 0 < s.dvperp
  vperp : ∀ p < s.np, 0 < s.vperp p

theorem Sp2.GridOk.same {nx : ℕ} {s s' : Sp2 nx} (h : SameGrid s s') (hs : s.GridOk) : s'.GridOk :=
  ⟨by rw [h.nv]; exact hs.nv, by rw [h.np]; exact hs.np, by rw [h.dv]; exact hs.dv, by rw [h.dvperp]; exact hs.dvperp,
    fun p hp => by rw [h.vperp]; exact hs.vperp p (by rw [← h.np]; exact hp)⟩

theorem Sp2.GridOk.cyl {nx : ℕ} {s : Sp2 nx} (hs : s.GridOk) (as al : ℝ) (r : Bool) (n : ℤ) : (s.cyl as al r n).Ok :=
  ⟨lt_of_lt_of_le two_pos hs.nv, hs.np, hs.dv, hs.dvperp, hs.vperp⟩

/-- The moments of the operator are those of the species at one position. -/
theorem cyl_total {nx : ℕ} (s : Sp2 nx) (as al : ℝ) (r : Bool) (n : ℤ) (f : ZMod s.nv → ℕ → ℝ) :
    (s.cyl as al r n).total (fun i p => f i p) = ∑ j, ∑ p ∈ range s.np, f j p * s.w p * s.dv := by
  rw [sum_zmod]
  unfold Cyl.total Cyl.w Sp2.w
  exact sum_congr rfl fun i _ => sum_congr rfl fun p _ => by dsimp only [Sp2.cyl]; ring

/-- C143: with `cylindrical_landau` the collision stage keeps, at every position, the density of the electrons, and with
`moment_restoration` also their parallel momentum and their energy. -/
theorem collide_cyl_moments {nx : ℕ} (c : Cfg nx) {as al : ℝ} {r : Bool} {n : ℤ} (hc : c.fp = .cyl as al r n) (nu : ZMod nx → ℝ) (s s' : Sp2 nx)
    (hs : s.GridOk) (h : Collide2 c nu s s') :
    ∃ f', s' = { s with f := f' } ∧ ∀ x,
      ∑ j, ∑ p ∈ range s.np, f' x j p * s.w p * s.dv = ∑ j, ∑ p ∈ range s.np, s.f x j p * s.w p * s.dv ∧
      (2 ≤ s.np → s.v 0 ≠ s.v 1 → s.vperp 0 ≠ s.vperp 1 → r = true →
        ∑ j, ∑ p ∈ range s.np, f' x j p * s.v j * s.w p * s.dv = ∑ j, ∑ p ∈ range s.np, s.f x j p * s.v j * s.w p * s.dv ∧
        ∑ j, ∑ p ∈ range s.np, f' x j p * (s.v j ^ 2 + s.vperp p ^ 2) * s.w p * s.dv =
          ∑ j, ∑ p ∈ range s.np, s.f x j p * (s.v j ^ 2 + s.vperp p ^ 2) * s.w p * s.dv) := by
  unfold Collide2 at h
  rw [hc] at h
  by_cases he : s.name = "electron"
  · rw [if_pos he] at h
    obtain ⟨f', e, ha⟩ := h
    refine ⟨f', e, fun x => ?_⟩
    have A := Cyl.apply_conserves (hs.cyl as al r n) (nu x) c.dt _ _ (ha x)
    refine ⟨?_, fun h1 h2 h3 h4 => ?_⟩
    · rw [← cyl_total s as al r n (f' x), ← cyl_total s as al r n (s.f x)]
      exact A.1
    · have B := A.2 ⟨hs.cyl as al r n, hs.nv, h1, by simpa [Sp2.cyl] using h2, h3⟩ h4
      have c1 := cyl_total s as al r n fun j p => f' x j p * s.v j
      have c2 := cyl_total s as al r n fun j p => s.f x j p * s.v j
      have c3 := cyl_total s as al r n fun j p => f' x j p * (s.v j ^ 2 + s.vperp p ^ 2)
      have c4 := cyl_total s as al r n fun j p => s.f x j p * (s.v j ^ 2 + s.vperp p ^ 2)
      rw [← c1, ← c2, ← c3, ← c4]
      exact B
  · rw [if_neg he] at h
    exact ⟨s.f, h, fun x => ⟨rfl, fun _ _ _ _ => ⟨rfl, rfl⟩⟩⟩

/-- Same species, same number of particles. -/
def SameNumber {nx : ℕ} [NeZero nx] (s s' : Sp2 nx) : Prop := SameGrid s s' ∧ meanMoment s' (fun _ _ => 1) = meanMoment s fun _ _ => 1

theorem SameSlices.number {nx : ℕ} [NeZero nx] {s s' : Sp2 nx} (h : SameSlices s s') : SameNumber s s' := by
  refine ⟨h.1, ?_⟩
  have hw : s'.w = s.w := by unfold Sp2.w; rw [h.1.vperp, h.1.dvperp]
  rw [meanMoment_perp s' fun _ => 1, meanMoment_perp s fun _ => 1, h.1.np, h.1.dv, hw]
  congr 2
  exact sum_congr rfl fun p hp => by rw [h.2 p (mem_range.1 hp)]

theorem collide_number {nx : ℕ} [NeZero nx] (c : Cfg nx) (nu : ZMod nx → ℝ) (s s' : Sp2 nx) (hs : s.GridOk) (h : Collide2 c nu s s') : SameNumber s s' := by
  rcases hfp : c.fp with _ | kind | ⟨as, al, r, n⟩
  · exact (collide_slices c (fun _ _ _ _ h => by rw [hfp] at h; cases h) nu s s' hs.nv h).number
  · exact (collide_slices c (fun _ _ _ _ h => by rw [hfp] at h; cases h) nu s s' hs.nv h).number
  · obtain ⟨f', e, hf⟩ := collide_cyl_moments c hfp nu s s' hs h
    subst e
    refine ⟨⟨rfl, rfl, rfl, rfl, rfl, rfl, rfl, rfl⟩, ?_⟩
    show (∑ x, ∑ j, ∑ p ∈ range s.np, f' x j p * s.w p * 1 * s.dv) / (nx : ℝ) = (∑ x, ∑ j, ∑ p ∈ range s.np, s.f x j p * s.w p * 1 * s.dv) / nx
    simp only [mul_one]
    congr 1
    exact sum_congr rfl fun x _ => (hf x).1

/-- C143: the saved `mean_n` of every species never changes during a run, whatever the collision operator. -/
theorem run_number {nx : ℕ} [NeZero nx] (c : Cfg nx) (ds : List (Drive nx)) (y y' : St2 nx)
    (hn : ∀ s ∈ y.sp, s.GridOk) (h : Run (Step2 c) y ds y') :
    List.Forall₂ (fun s s' : Sp2 nx => SameGrid s s' ∧ meanMoment s' (fun _ _ => 1) = meanMoment s fun _ _ => 1) y.sp y'.sp := by
  have T : ∀ a b c : Sp2 nx, SameNumber a b → SameNumber b c → SameNumber a c := fun _ _ _ h h' => ⟨h.1.trans h'.1, h'.2.trans h.2⟩
  induction h with
  | nil y =>
    have := forall2_self_map (R := SameNumber) (f := id) (fun s : Sp2 nx => ⟨SameGrid.refl s, rfl⟩) y.sp
    rwa [List.map_id] at this
  | @cons y y1 y2 d ds hs _ ih =>
    have h1 := (vlasov2_slices c.time c.dx c.dt c.field y.a d.dex y.e y.sp).imp fun {s s'} h => h.number
    have h2 := forall2_mem (P := Sp2.GridOk) (fun a b hab ha => ha.same hab.1) h1 hn
    have h3 := forall2_trans T h1 (forall2_mono (T := SameNumber) Sp2.GridOk (fun a b ha hab => collide_number c d.nu a b ha hab) h2 hs.2.1)
    exact forall2_trans T h3 (ih (forall2_mem (P := Sp2.GridOk) (fun a b hab ha => ha.same hab.1) h3 hn))

example : ∀ s ∈ demoState.sp, s.GridOk := fun s hs => by
  have : s = demoSpecies "electron" ∨ s = demoSpecies "ion" := by
    rcases List.mem_cons.1 hs with e | hs
    · exact Or.inl e
    · exact Or.inr (List.mem_singleton.1 hs)
  have key : ∀ n, (demoSpecies n).GridOk := fun n =>
    ⟨le_refl 2, two_pos, one_pos, one_pos, fun p _ => by show (0 : ℝ) < p + 1 / 2; positivity⟩
  rcases this with e | e <;> rw [e] <;> exact key _

end Verif.Vlasov2V
