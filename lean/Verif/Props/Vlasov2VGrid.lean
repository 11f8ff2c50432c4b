import Verif.Model.Vlasov2V
import Mathlib.Tactic.Positivity
import Mathlib.Tactic.FieldSimp

/-!
C141: the perpendicular grid of the Vlasov-1D2V solver and its initial state.
-/
namespace Verif.Vlasov2V
open Finset

/-- C141: the perpendicular points are the centres of `np` equal cells on `[0, vmax]`. -/
theorem vperp_centre (np : ℕ) (vmax : ℝ) (p : ℕ) (hp : p < np) : vperp np vmax p = (p + 1 / 2) * (vmax / np) := by
  have hn : (np : ℝ) ≠ 0 := Nat.cast_ne_zero.2 (by omega)
  unfold vperp dvperp Grid.linspaceAt
  by_cases h1 : np = 1
  · subst h1
    have : p = 0 := by omega
    subst this
    simp; ring
  · have hn1 : (np : ℝ) - 1 ≠ 0 := by
      intro h
      have : (np : ℝ) = 1 := by linarith
      exact h1 (by exact_mod_cast this)
    rw [if_neg (show ¬ np ≤ 1 by omega)]
    field_simp
    ring

theorem vperp_pos (np : ℕ) (vmax : ℝ) (hv : 0 < vmax) (p : ℕ) (hp : p < np) : 0 < vperp np vmax p := by
  have hn : (0 : ℝ) < np := Nat.cast_pos.2 (by omega)
  rw [vperp_centre np vmax p hp]
  positivity

/-- C141: the weights are the areas of the rings between the cell faces: positive, and together the disc of radius
`vmax`. -/
theorem wperp_rings (np : ℕ) (hn : 0 < np) (vmax : ℝ) (hv : 0 < vmax) :
    (∀ p < np, 0 < wperp np vmax p ∧
      wperp np vmax p = Real.pi * ((p + 1) * (vmax / np)) ^ 2 - Real.pi * (p * (vmax / np)) ^ 2) ∧
    ∑ p ∈ range np, wperp np vmax p = Real.pi * vmax ^ 2 := by
  have hn' : (0 : ℝ) < np := Nat.cast_pos.2 hn
  have key : ∀ p < np, wperp np vmax p = Real.pi * ((p + 1) * (vmax / np)) ^ 2 - Real.pi * (p * (vmax / np)) ^ 2 := by
    intro p hp
    unfold wperp
    rw [vperp_centre np vmax p hp, dvperp]
    ring
  refine ⟨fun p hp => ⟨?_, key p hp⟩, ?_⟩
  · unfold wperp dvperp
    have := vperp_pos np vmax hv p hp
    positivity
  · rw [sum_congr rfl fun p hp => key p (mem_range.1 hp)]
    have h : ∀ m : ℕ, ∑ p ∈ range m, (Real.pi * (((p : ℝ) + 1) * (vmax / np)) ^ 2 - Real.pi * (p * (vmax / np)) ^ 2) =
        Real.pi * (m * (vmax / np)) ^ 2 := by
      intro m
      induction m with
      | zero => simp
      | succ k ih => rw [sum_range_succ, ih]; push_cast; ring
    rw [h np]
    field_simp

/-- C141: the perpendicular Maxwellian is positive, has unit weighted sum and the ratio of a Maxwellian of temperature
`T0`. -/
theorem mPerp_spec (np : ℕ) (hn : 0 < np) (vmax : ℝ) (hv : 0 < vmax) (T0 mass : ℝ) :
    (∀ p < np, 0 < mPerp np vmax T0 mass p) ∧ ∑ p ∈ range np, mPerp np vmax T0 mass p * wperp np vmax p = 1 ∧
    ∀ p q, mPerp np vmax T0 mass p * Real.exp (-(mass * vperp np vmax q ^ 2) / (2 * T0)) =
      mPerp np vmax T0 mass q * Real.exp (-(mass * vperp np vmax p ^ 2) / (2 * T0)) := by
  have hw := (wperp_rings np hn vmax hv).1
  have hS : 0 < ∑ q ∈ range np, Real.exp (-(vperp np vmax q ^ 2) / (2 * T0 / mass)) * wperp np vmax q :=
    sum_pos (fun q hq => mul_pos (Real.exp_pos _) (hw q (mem_range.1 hq)).1) ⟨0, mem_range.2 hn⟩
  refine ⟨fun p _ => div_pos (Real.exp_pos _) hS, ?_, fun p q => ?_⟩
  · unfold mPerp
    dsimp only
    rw [sum_congr rfl fun p _ => div_mul_eq_mul_div _ _ _, ← sum_div, div_self hS.ne']
  · unfold mPerp
    dsimp only
    have e : ∀ a : ℝ, -(mass * a) / (2 * T0) = -a / (2 * T0 / mass) := by
      intro a
      rw [div_div_eq_mul_div]; congr 1; ring
    rw [e, e]
    ring

/-- C141: the marginal of the initial state is the sum of the 1D arrays of its components, exactly, for every number of
perpendicular cells. -/
theorem initial_marginal {X V : Type} (np : ℕ) (hn : 0 < np) (vmax : ℝ) (hv : 0 < vmax) (mass : ℝ) (comps : List ((X → V → ℝ) × ℝ))
    (x : X) (v : V) :
    ∑ p ∈ range np, initial np vmax mass comps x v p * wperp np vmax p = (comps.map fun c => c.1 x v).sum := by
  have key : ∀ (l : List ((X → V → ℝ) × ℝ)) (acc : ℕ → ℝ),
      ∑ p ∈ range np, l.foldl (fun acc c => acc + c.1 x v * mPerp np vmax c.2 mass p) (acc p) * wperp np vmax p =
        ∑ p ∈ range np, acc p * wperp np vmax p + (l.map fun c => c.1 x v).sum := by
    intro l
    induction l with
    | nil => intro acc; simp
    | cons c l ih =>
      intro acc
      simp only [List.foldl_cons, List.map_cons, List.sum_cons]
      rw [ih fun p => acc p + c.1 x v * mPerp np vmax c.2 mass p]
      have := (mPerp_spec np hn vmax hv c.2 mass).2.1
      simp only [add_mul, sum_add_distrib, mul_assoc, ← mul_sum]
      rw [this]; ring
  have := key comps fun _ => 0
  simpa [initial] using this

/-- C141: a state of non-negative components is non-negative. -/
theorem initial_nonneg {X V : Type} (np : ℕ) (vmax : ℝ) (hv : 0 < vmax) (mass : ℝ) (comps : List ((X → V → ℝ) × ℝ))
    (hc : ∀ c ∈ comps, ∀ x v, 0 ≤ c.1 x v) (x : X) (v : V) (p : ℕ) (hp : p < np) : 0 ≤ initial np vmax mass comps x v p := by
  have key : ∀ (l : List ((X → V → ℝ) × ℝ)) (acc : ℝ), 0 ≤ acc → (∀ c ∈ l, ∀ x v, 0 ≤ c.1 x v) →
      0 ≤ l.foldl (fun acc c => acc + c.1 x v * mPerp np vmax c.2 mass p) acc := by
    intro l
    induction l with
    | nil => intro acc h _; exact h
    | cons c l ih =>
      intro acc h hl
      refine ih _ ?_ fun c hc => hl c (List.mem_cons_of_mem _ hc)
      exact add_nonneg h (mul_nonneg (hl c (List.mem_cons_self ..) x v) ((mPerp_spec np (by omega) vmax hv c.2 mass).1 p hp).le)
  exact key comps 0 (le_refl 0) hc

example : ∑ p ∈ range 3, initial 3 2 1 [((fun _ _ => 5 : Unit → Unit → ℝ), 1), (fun _ _ => 7, 2)] () () p * wperp 3 2 p = 12 := by
  rw [initial_marginal 3 (by norm_num) 2 (by norm_num)]
  norm_num

end Verif.Vlasov2V
