import Mathlib.Analysis.Complex.Basic
import Mathlib.Analysis.SpecialFunctions.Pow.Real
import Mathlib.Analysis.Real.Pi.Bounds

/-!
Model of the dispersion functions of adept/electrostatic.py.  `scipy.special.wofz` and `scipy.optimize.newton` are
arbitrary functions here; what the theorems need of them is a hypothesis.
-/
namespace Verif.Electrostatic
open Complex

/-- `plasma_dispersion` (electrostatic.py:59-66). -/
noncomputable def plasmaDispersion (wofz : ℂ → ℂ) (x : ℂ) : ℂ := wofz x * (Real.sqrt Real.pi : ℝ) * I

/-- `plasma_dispersion_prime` (electrostatic.py:69-76). -/
noncomputable def plasmaDispersionPrime (wofz : ℂ → ℂ) (x : ℂ) : ℂ := -2 * (1 + x * plasmaDispersion wofz x)

/-- `chi_e` (electrostatic.py:115). -/
noncomputable def chi (wp vth k f : ℝ) : ℝ := (wp / (vth * k)) ^ 2 / f

/-- `plasma_epsilon` (electrostatic.py:117-119). -/
noncomputable def plasmaEpsilon (wofz : ℂ → ℂ) (wp vth k f : ℝ) (x : ℂ) : ℂ := 1 - chi wp vth k f * plasmaDispersionPrime wofz x

/-- `initial_root_guess` (electrostatic.py:112-113). -/
noncomputable def guess (wp vth k : ℝ) (given : Option ℂ) : ℂ :=
  match given with
  | some g => g
  | none => (Real.sqrt (wp ^ 2 + 3 * (k * vth) ^ 2) : ℝ)

/-- `get_roots_to_electrostatic_dispersion` (electrostatic.py:79-98). -/
noncomputable def roots (wofz : ℂ → ℂ) (newton : (ℂ → ℂ) → ℂ → ℂ) (wp vth k f : ℝ) (given : Option ℂ) : ℂ :=
  newton (plasmaEpsilon wofz wp vth k f) (guess wp vth k given) * k * vth * (Real.sqrt f : ℝ)

end Verif.Electrostatic
