import Verif.Model.Spectral

/-! Specification vocabulary for C36, C37, C58, C59. -/
namespace Verif.Spectral
open Finset Complex

/-- The amplitude of the fastest oscillation a grid with an even number of cells carries:
the alternating sum `f₀ - f₁ + f₂ - ...`. -/
def alternating {N : ℕ} [NeZero N] (f : ZMod N → ℝ) : ℝ := ∑ j, (-1) ^ j.val * f j

/-- The amplitude of mode `p` (`p` waves per box) of `f`. -/
noncomputable def mode {N : ℕ} [NeZero N] (f : ZMod N → ℝ) (p : ℤ) : ℂ :=
  ∑ j, (f j : ℂ) * cexp (-(2 * Real.pi * I * p * j.val / N))

/-- Wavenumber of mode `p` in a box of `N` cells of width `dx`. -/
noncomputable def waveNumber (N : ℕ) (dx : ℝ) (p : ℤ) : ℝ := 2 * Real.pi * p / (N * dx)

/-- Modes the grid resolves without ambiguity. -/
def Resolved (N : ℕ) (p : ℤ) : Prop := 2 * |p| < N

/-- Gauss's law for mode `p`: `i k E = rho`. -/
noncomputable def gaussError {N : ℕ} [NeZero N] (dx : ℝ) (E rho : ZMod N → ℝ) (p : ℤ) : ℂ :=
  I * (waveNumber N dx p : ℂ) * mode E p - mode rho p

end Verif.Spectral
