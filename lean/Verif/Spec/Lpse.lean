import Verif.Model.Lpse

/-!
Vocabulary of the envelope properties, independent of the solver's helpers.
-/
namespace Verif.Lpse
open Complex

variable {nx ny : ℕ}

/-- Parameters for which the solver is meant: a positive plasma frequency and temperature, a forward time step, damping
and not driving collisions, filter and boundary factors between 0 and 1. -/
structure Physical (p : Epw nx ny) : Prop where
  dx : 0 < p.dx
  dy : 0 < p.dy
  dt : 0 ≤ p.dt
  wp0 : 0 < p.wp0
  vte : 0 < p.vteSq
  nu : 0 ≤ p.nuColl
  low : ∀ a b, 0 ≤ p.lowPass a b ∧ p.lowPass a b ≤ 1
  bnd : ∀ x y, 0 ≤ p.boundary x y ∧ p.boundary x y ≤ 1

/-- A uniform periodic plasma of density `n`, with a filter that keeps or removes modes. -/
structure Uniform (p : Epw nx ny) (n : ℝ) : Prop where
  density : ∀ x y, p.density x y = n
  boundary : ∀ x y, p.boundary x y = 1
  low : ∀ a b, p.lowPass a b = 0 ∨ p.lowPass a b = 1

/-- The textbook Landau damping rate of a plasma wave with `kappa = k * lambda_D`, including the thermal correction of the
wave's frequency. -/
noncomputable def landauRate (wp kappa : ℝ) : ℝ :=
  Real.sqrt (Real.pi / 8) * wp * (1 + 3 / 2 * kappa ^ 2) / kappa ^ 3 * Real.exp (-(3 / 2) - 1 / (2 * kappa ^ 2))

/-- Square of the Bohm-Gross frequency at wave number `k` in a plasma of density `n` (in units of the density whose plasma
frequency is `wp0`). -/
noncomputable def bohmGross (wp0 vteSq n ksq : ℝ) : ℝ := wp0 ^ 2 * n + 3 * ksq * vteSq

end Verif.Lpse
