import Verif.Model.Grid
import Mathlib.Analysis.Fourier.ZMod
import Mathlib.Analysis.SpecialFunctions.Exp

/-!
Model of the spectral pushers and field solvers of Vlasov-1D
(adept/_vlasov1d/solvers/pushers/vlasov.py, field.py).

An array of length `N` is a function on `ZMod N` (`N` positive).  `numpy.fft.fft` is
`ZMod.dft`, Mathlib's discrete Fourier transform with the same sign convention, and
`ifft` its inverse.  A distribution `f[nx, nv]` is a function of two indices.  Exact real
and complex arithmetic; sharding over devices is not modelled (it does not change the
mathematical result).
-/
namespace Verif.Spectral
open Finset ZMod Complex

/-- `numpy.fft.fft`. -/
noncomputable def fft {N : ℕ} [NeZero N] (x : ZMod N → ℂ) : ZMod N → ℂ := ZMod.dft x

/-- `numpy.fft.ifft`. -/
noncomputable def ifft {N : ℕ} [NeZero N] (x : ZMod N → ℂ) : ZMod N → ℂ := ZMod.dft.symm x

/-- `numpy.fft.rfft` of a real array, entry `k` (meaningful for `k ≤ N / 2`). -/
noncomputable def rfft {N : ℕ} [NeZero N] (f : ZMod N → ℝ) (k : ℕ) : ℂ := fft (fun j => (f j : ℂ)) k

/-- Lengths: `rfft` of `n` values gives `n // 2 + 1`; `irfft` of `m` values without a
length argument gives `2 (m - 1)`. -/
def rfftLen (n : ℕ) : ℕ := n / 2 + 1
def irfftLen (m : ℕ) : ℕ := 2 * (m - 1)

/-- The full spectrum `irfft` works with: the negative frequencies are the conjugates of
the positive ones; the imaginary parts of the mean and of the Nyquist mode are ignored. -/
noncomputable def hermitian (N : ℕ) (G : ℕ → ℂ) (k : ZMod N) : ℂ :=
  if k.val = 0 then ((G 0).re : ℂ) else if 2 * k.val = N then ((G k.val).re : ℂ)
  else if 2 * k.val < N then G k.val else (starRingEnd ℂ) (G (N - k.val))

/-- `numpy.fft.irfft(G)` of an array of `N / 2 + 1` values, `N` even. -/
noncomputable def irfft (N : ℕ) [NeZero N] (G : ℕ → ℂ) (j : ZMod N) : ℝ := (ifft (hermitian N G) j).re

/-- Multiplication of the half spectrum by `m`. -/
noncomputable def filterRow {N : ℕ} [NeZero N] (m : ℕ → ℂ) (f : ZMod N → ℝ) : ZMod N → ℝ := irfft N fun k => m k * rfft f k

/-- `kx_real`, `kvr` (vlasov.py:228; modules.py:236). -/
noncomputable def kr (N : ℕ) (d : ℝ) (k : ℕ) : ℝ := Grid.rfftfreqAt N d k * (2 * Real.pi)

/-- `kx`, `kv` (grid.py:80; modules.py:235). -/
noncomputable def kfull {N : ℕ} (d : ℝ) (k : ZMod N) : ℝ := Grid.fftfreqAt N d k.val * (2 * Real.pi)

/-- `one_over_kx` (grid.py:81-84). -/
noncomputable def oneOverK {N : ℕ} (d : ℝ) (k : ZMod N) : ℝ := if k.val = 0 then 0 else 1 / kfull d k

/-- One row of the exponential pushers: displacement by `s` on a grid of spacing `d`
(vlasov.py:86-91, 234-238). -/
noncomputable def shift {N : ℕ} [NeZero N] (d s : ℝ) (f : ZMod N → ℝ) : ZMod N → ℝ :=
  filterRow (fun k => cexp (-I * (kr N d k * s : ℝ))) f

/-- `force / m` (vlasov.py:80-85). -/
noncomputable def accel (q m e pond : ℝ) : ℝ := (q * e + q ^ 2 / m * pond) / m

/-- `VelocityExponential.push` for one species (vlasov.py:74-92). -/
noncomputable def edfdv {nx nv : ℕ} [NeZero nv] (dv q m : ℝ) (e pond : ZMod nx → ℝ) (dt : ℝ) (f : ZMod nx → ZMod nv → ℝ) :
    ZMod nx → ZMod nv → ℝ := fun x => shift dv (dt * accel q m (e x) (pond x)) (f x)

/-- `SpaceExponential.__call__` for one species (vlasov.py:234-251). -/
noncomputable def vdfdx {nx nv : ℕ} [NeZero nx] (dx : ℝ) (v : ZMod nv → ℝ) (dt : ℝ) (f : ZMod nx → ZMod nv → ℝ) :
    ZMod nx → ZMod nv → ℝ := fun x j => shift dx (v j * dt) (fun y => f y j) x

/-- `HouLiFilter.filter_x` (vlasov.py:209-213). -/
noncomputable def houLi (nx : ℕ) (alpha : ℝ) (order : ℕ) (k : ℕ) : ℝ :=
  Real.exp (-alpha * ((k : ℝ) / ((nx / 2 : ℕ) : ℝ)) ^ (2 * order))

/-- `HouLiFilter.__call__` for one species (vlasov.py:215-220). -/
noncomputable def houLiFilter {nx nv : ℕ} [NeZero nx] (alpha : ℝ) (order : ℕ) (f : ZMod nx → ZMod nv → ℝ) :
    ZMod nx → ZMod nv → ℝ := fun x j => filterRow (fun k => (houLi nx alpha order k : ℂ)) (fun y => f y j) x

/-- A kinetic species as the field solvers see it. -/
structure Species (nx : ℕ) where
  nv : ℕ
  pos : NeZero nv
  charge : ℝ
  mass : ℝ
  dv : ℝ
  v : ZMod nv → ℝ
  f : ZMod nx → ZMod nv → ℝ

instance {nx : ℕ} (s : Species nx) : NeZero s.nv := s.pos

/-- `sum(f, axis=1) * dv`. -/
noncomputable def Species.density {nx : ℕ} (s : Species nx) (x : ZMod nx) : ℝ := (∑ j, s.f x j) * s.dv

/-- `compute_charge_density` (field.py:186-208, 271-280); no static part is zero. -/
noncomputable def chargeDensity {nx : ℕ} (species : List (Species nx)) (static : ZMod nx → ℝ) (x : ZMod nx) : ℝ :=
  (species.map fun s => s.charge * s.density x).sum + static x

/-- `compute_current_density` (field.py:319-340). -/
noncomputable def currentDensity {nx : ℕ} (species : List (Species nx)) (x : ZMod nx) : ℝ :=
  (species.map fun s => s.charge * ((∑ j, s.v j * s.f x j) * s.dv)).sum

/-- `SpectralPoissonSolver.__call__` (field.py:210-224). -/
noncomputable def poisson {N : ℕ} [NeZero N] (dx : ℝ) (rho : ZMod N → ℝ) (x : ZMod N) : ℝ :=
  (ifft (fun k => -I * (oneOverK dx k : ℂ) * fft (fun j => (rho j : ℂ)) k) x).re

/-- `BoltzmannPoissonSolver.__call__` (field.py:282-298). -/
noncomputable def boltzmann {N : ℕ} [NeZero N] (dx Te : ℝ) (lambdaDe : Option ℝ) (rho : ZMod N → ℝ) (x : ZMod N) : ℝ :=
  let rho0 := (∑ j, rho j) / N
  let lambdaSq := match lambdaDe with
    | none => Te / rho0
    | some l => l ^ 2
  let kernel : ZMod N → ℝ := fun k => kfull dx k * (Te / rho0) / (1 + lambdaSq * kfull dx k ^ 2)
  (ifft (fun k => -I * (kernel k : ℂ) * fft (fun j => (rho j : ℂ)) k) x).re

/-- `AmpereSolver.__call__` (field.py:342-354). -/
noncomputable def ampere {N : ℕ} (prev j : ZMod N → ℝ) (dt : ℝ) (x : ZMod N) : ℝ := prev x - dt * j x

/-- `HampereSolver.__call__` (field.py:395-419). -/
noncomputable def hampere {nx nv : ℕ} [NeZero nx] [NeZero nv] (dx q dv : ℝ) (v : ZMod nv → ℝ) (f : ZMod nx → ZMod nv → ℝ)
    (prev : ZMod nx → ℝ) (dt : ℝ) (x : ZMod nx) : ℝ :=
  (ifft (fun k => fft (fun j => (prev j : ℂ)) k + (q : ℂ) * ((oneOverK dx k : ℂ) / I) *
    (∑ j, fft (fun y => (f y j : ℂ)) k * (cexp (-I * (kfull dx k * dt * v j : ℝ)) - 1)) * (dv : ℂ)) x).re

end Verif.Spectral
