import Verif.Model.Hermite
import Verif.Model.TwoFluid

/-!
Model of the Hermite-Fourier Vlasov-Maxwell solver (adept/_spectrax1d): the moment equations, both time
integrators (explicit Runge-Kutta and the Lawson exponential integrator), the split-step damping, the initial
state, the drivers and the saved moments.

A coefficient array `Ck[p, m, n, ky, kx, kz]` is a function of the three mode numbers and the wave number
`(ky, kx, kz)` in FFT order; complex numbers stored as pairs of floats are complex numbers.  Exact arithmetic.
External and therefore parameters: `jnp.linalg.eigh`, the random numbers of the density noise, diffrax's method
and step sizes, its dense-output weights.  Not modelled: neural-network closures (never passed by the solver),
plotting, the interpolation of saved fields onto another axis.
-/
namespace Verif.Spectrax
open Finset Complex Verif.Hermite

/-- Wave numbers or grid points `(y, x, z)`. -/
abbrev K (Ny Nx Nz : ℕ) := ZMod Ny × ZMod Nx × ZMod Nz

/-- Hermite mode counts of a species. -/
structure Dims where
  np : ℕ
  nm : ℕ
  nn : ℕ

/-- An array over the Hermite modes `[p, m, n]`. -/
abbrev Tens (d : Dims) (A : Type) := Fin d.np → Fin d.nm → Fin d.nn → A

variable {Ny Nx Nz : ℕ} [NeZero Ny] [NeZero Nx] [NeZero Nz]

/-- `jnp.fft.ifftn(., axes=(-3, -2, -1), norm="forward")` and `jnp.fft.fftn(…)` (vector_field.py:208, hermite_fourier_ode.py:344-353). -/
noncomputable def toX3 (c : K Ny Nx Nz → ℂ) (x : K Ny Nx Nz) : ℂ :=
  toX (fun ky => toX (fun kx => toX (fun kz => c (ky, kx, kz)) x.2.2) x.2.1) x.1
noncomputable def toK3 (f : K Ny Nx Nz → ℂ) (k : K Ny Nx Nz) : ℂ :=
  toK (fun y => toK (fun x => toK (fun z => f (y, x, z)) k.2.2) k.2.1) k.1

/-- `nabla` (base_module.py:460-467): the wave vector `(kx/Lx, ky/Ly, kz/Lz)`. -/
noncomputable def xi (L : Fin 3 → ℝ) (k : K Ny Nx Nz) : Fin 3 → ℝ := ![kx (L 0) k.2.1, kx (L 1) k.1, kx (L 2) k.2.2]

/-- `k2_grid` (base_module.py:460-464); not divided by the lengths. -/
noncomputable def k2 (k : K Ny Nx Nz) : ℝ := kx 1 k.2.1 ^ 2 + kx 1 k.1 ^ 2 + kx 1 k.2.2 ^ 2

/-- The 2/3 mask (vector_field.py:85-92, nonlinear_vector_field.py:223-238). -/
noncomputable def mask (k : K Ny Nx Nz) : Bool := mask23 Ny k.1 && mask23 Nx k.2.1 && mask23 Nz k.2.2
noncomputable def masked3 (c : K Ny Nx Nz → ℂ) (k : K Ny Nx Nz) : ℂ := if mask k then c k else 0

/-! ### The moment equations of one species -/

/-- The zero-padded array (hermite_fourier_ode.py:125-136). -/
def pad {d : Dims} {A : Type} [Zero A] (C : Tens d A) (p m n : ℤ) : A :=
  if h : (0 ≤ p ∧ p < d.np) ∧ (0 ≤ m ∧ m < d.nm) ∧ 0 ≤ n ∧ n < d.nn then
    C ⟨p.toNat, by omega⟩ ⟨m.toNat, by omega⟩ ⟨n.toNat, by omega⟩ else 0

/-- `shift_multi` without closures (hermite_fourier_ode.py:138-208). -/
def shift {d : Dims} {A : Type} [Zero A] (C : Tens d A) (dn dm dp : ℤ) : Tens d A := fun p m n =>
  pad C (p.val + dp) (m.val + dm) (n.val + dn)

/-- Charge, mass, thermal velocities and drifts of a species (base_module.py:496-505, vector_field.py:213-240). -/
structure Species where
  q : ℝ
  m : ℝ
  alpha : Fin 3 → ℝ
  u : Fin 3 → ℝ

/-- `sqrt_n_plus`, `sqrt_n_minus` (base_module.py:105-116). -/
noncomputable def sp (n : ℕ) : ℂ := ((Real.sqrt ((n : ℝ) + 1) : ℝ) : ℂ)
noncomputable def sm (n : ℕ) : ℂ := ((Real.sqrt (n : ℝ) : ℝ) : ℂ)
noncomputable def r2 : ℂ := ((Real.sqrt 2 : ℝ) : ℂ)

/-- `C_aux_x`, `C_aux_y`, `C_aux_z` (hermite_fourier_ode.py:271-293, 407-429). -/
noncomputable def auxX {d : Dims} (s : Species) (C : Tens d ℂ) : Tens d ℂ := fun p m n =>
  sm m * sm p * ((s.alpha 2 / s.alpha 1 - s.alpha 1 / s.alpha 2 : ℝ) : ℂ) * shift C 0 (-1) (-1) p m n
    + sm m * sp p * ((s.alpha 2 / s.alpha 1 : ℝ) : ℂ) * shift C 0 (-1) 1 p m n
    - sp m * sm p * ((s.alpha 1 / s.alpha 2 : ℝ) : ℂ) * shift C 0 1 (-1) p m n
    + r2 * sm m * ((s.u 2 / s.alpha 1 : ℝ) : ℂ) * shift C 0 (-1) 0 p m n
    - r2 * sm p * ((s.u 1 / s.alpha 2 : ℝ) : ℂ) * shift C 0 0 (-1) p m n
noncomputable def auxY {d : Dims} (s : Species) (C : Tens d ℂ) : Tens d ℂ := fun p m n =>
  sm n * sm p * ((s.alpha 0 / s.alpha 2 - s.alpha 2 / s.alpha 0 : ℝ) : ℂ) * shift C (-1) 0 (-1) p m n
    + sp n * sm p * ((s.alpha 0 / s.alpha 2 : ℝ) : ℂ) * shift C 1 0 (-1) p m n
    - sm n * sp p * ((s.alpha 2 / s.alpha 0 : ℝ) : ℂ) * shift C (-1) 0 1 p m n
    + r2 * sm p * ((s.u 0 / s.alpha 2 : ℝ) : ℂ) * shift C 0 0 (-1) p m n
    - r2 * sm n * ((s.u 2 / s.alpha 0 : ℝ) : ℂ) * shift C (-1) 0 0 p m n
noncomputable def auxZ {d : Dims} (s : Species) (C : Tens d ℂ) : Tens d ℂ := fun p m n =>
  sm n * sm m * ((s.alpha 1 / s.alpha 0 - s.alpha 0 / s.alpha 1 : ℝ) : ℂ) * shift C (-1) (-1) 0 p m n
    + sm n * sp m * ((s.alpha 1 / s.alpha 0 : ℝ) : ℂ) * shift C (-1) 1 0 p m n
    - sp n * sm m * ((s.alpha 0 / s.alpha 1 : ℝ) : ℂ) * shift C 1 (-1) 0 p m n
    + r2 * sm n * ((s.u 1 / s.alpha 0 : ℝ) : ℂ) * shift C (-1) 0 0 p m n
    - r2 * sm m * ((s.u 0 / s.alpha 1 : ℝ) : ℂ) * shift C 0 (-1) 0 p m n

/-- The product inside `fftn` at one grid point (hermite_fourier_ode.py:345-350, 437-442). -/
noncomputable def lorentzAt {d : Dims} (s : Species) (C : Tens d ℂ) (E B : Fin 3 → ℂ) : Tens d ℂ := fun p m n =>
  sm n * r2 / (s.alpha 0 : ℂ) * E 0 * shift C (-1) 0 0 p m n
    + sm m * r2 / (s.alpha 1 : ℂ) * E 1 * shift C 0 (-1) 0 p m n
    + sm p * r2 / (s.alpha 2 : ℂ) * E 2 * shift C 0 0 (-1) p m n
    + B 0 * auxX s C p m n + B 1 * auxY s C p m n + B 2 * auxZ s C p m n

/-- The arrays after mask and inverse transform (vector_field.py:208-210, nonlinear_vector_field.py:343-346). -/
noncomputable def coefX {d : Dims} (C : Tens d (K Ny Nx Nz → ℂ)) (x : K Ny Nx Nz) : Tens d ℂ := fun p m n => toX3 (masked3 (C p m n)) x
noncomputable def fieldX (E : Fin 3 → K Ny Nx Nz → ℂ) (x : K Ny Nx Nz) : Fin 3 → ℂ := fun i => toX3 (masked3 (E i)) x

/-- `_compute_lorentz_rhs` and the Lorentz part of `_compute_rhs` (hermite_fourier_ode.py:341-354, 363-448). -/
noncomputable def lorentz {d : Dims} (s : Species) (omega : ℝ) (C : Tens d (K Ny Nx Nz → ℂ)) (E B : Fin 3 → K Ny Nx Nz → ℂ) :
    Tens d (K Ny Nx Nz → ℂ) := fun p m n k =>
  ((s.q / s.m * omega : ℝ) : ℂ) * masked3 (toK3 fun x => lorentzAt s (coefX C x) (fieldX E x) (fieldX B x) p m n) k

/-- The advection terms of `_compute_rhs` (hermite_fourier_ode.py:304-339) at one wave vector. -/
noncomputable def advect {d : Dims} (s : Species) (x : Fin 3 → ℝ) (C : Tens d ℂ) : Tens d ℂ := fun p m n =>
  -((x 0 : ℂ) * I) * (s.alpha 0 : ℂ) * (sp n / r2 * shift C 1 0 0 p m n + sm n / r2 * shift C (-1) 0 0 p m n + ((s.u 0 / s.alpha 0 : ℝ) : ℂ) * C p m n)
    - (x 1 : ℂ) * I * (s.alpha 1 : ℂ) * (sp m / r2 * shift C 0 1 0 p m n + sm m / r2 * shift C 0 (-1) 0 p m n + ((s.u 1 / s.alpha 1 : ℝ) : ℂ) * C p m n)
    - (x 2 : ℂ) * I * (s.alpha 2 : ℂ) * (sp p / r2 * shift C 0 0 1 p m n + sm p / r2 * shift C 0 0 (-1) p m n + ((s.u 2 / s.alpha 2 : ℝ) : ℂ) * C p m n)

/-- The collision matrix (base_module.py:118-131). -/
noncomputable def col (d : Dims) (p : Fin d.np) (m : Fin d.nm) (n : Fin d.nn) : ℝ := hyperCol d.nn n + hyperCol d.nm m + hyperCol d.np p

/-- The slice of an array at one wave vector or grid point. -/
def slice {d : Dims} {A : Type} (C : Tens d (A → ℂ)) (k : A) : Tens d ℂ := fun p m n => C p m n k

/-- `_compute_rhs` (hermite_fourier_ode.py:210-361). -/
noncomputable def rhs {d : Dims} (s : Species) (L : Fin 3 → ℝ) (omega nu D : ℝ) (C : Tens d (K Ny Nx Nz → ℂ)) (E B : Fin 3 → K Ny Nx Nz → ℂ) :
    Tens d (K Ny Nx Nz → ℂ) := fun p m n k =>
  advect s (xi L k) (slice C k) p m n + lorentz s omega C E B p m n k
    + -(nu : ℂ) * (col d p m n : ℂ) * C p m n k + -(D : ℂ) * (k2 k : ℂ) * C p m n k

/-- `_houli_filter`, one axis and all three (vector_field.py:156-172, nonlinear_vector_field.py:240-264); the order a natural number. -/
noncomputable def axisFilter (strength : ℝ) (order N i : ℕ) : ℝ :=
  if N ≤ 1 then 1 else Real.exp (-strength * ((i : ℝ) / ((N : ℝ) - 1)) ^ order)
noncomputable def houli (d : Dims) (strength : ℝ) (order : ℕ) (p : Fin d.np) (m : Fin d.nm) (n : Fin d.nn) : ℝ :=
  axisFilter strength order d.np p * axisFilter strength order d.nm m * axisFilter strength order d.nn n
noncomputable def applyFilter {d : Dims} (f : Option (ℝ × ℕ)) (C : Tens d (K Ny Nx Nz → ℂ)) : Tens d (K Ny Nx Nz → ℂ) :=
  match f with
  | some (s, o) => fun p m n k => C p m n k * (houli d s o p m n : ℂ)
  | none => C

/-- `_current` (vector_field.py:174-182, nonlinear_vector_field.py:266-282) at one wave vector. -/
noncomputable def current {d : Dims} (s : Species) (C : Tens d ℂ) : Fin 3 → ℂ :=
  let pre : ℂ := ((s.q * s.alpha 0 * s.alpha 1 * s.alpha 2 : ℝ) : ℂ)
  ![(1 / r2 * ((s.alpha 0 : ℂ) * pad C 0 0 1) + (s.u 0 : ℂ) * pad C 0 0 0) * pre,
    (1 / r2 * ((s.alpha 1 : ℂ) * pad C 0 1 0) + (s.u 1 : ℂ) * pad C 0 0 0) * pre,
    (1 / r2 * ((s.alpha 2 : ℂ) * pad C 1 0 0) + (s.u 2 : ℂ) * pad C 0 0 0) * pre]

/-- The density noise added at `[0, 0, 0, 0, :, 0]` (vector_field.py:247-257, nonlinear_vector_field.py:382-396). -/
def addNoise {d : Dims} (w : Option (ZMod Nx → ℂ)) (C : Tens d (K Ny Nx Nz → ℂ)) : Tens d (K Ny Nx Nz → ℂ) :=
  match w with
  | some w => fun p m n k => C p m n k + if p.val = 0 ∧ m.val = 0 ∧ n.val = 0 ∧ k.1 = 0 ∧ k.2.2 = 0 then w k.2.1 else 0
  | none => C

/-- `jnp.cross(a, b, axis=0)`. -/
def cross (a b : Fin 3 → ℂ) : Fin 3 → ℂ := ![a 1 * b 2 - a 2 * b 1, a 2 * b 0 - a 0 * b 2, a 0 * b 1 - a 1 * b 0]

/-! ### The system -/

/-- The state dictionary (base_module.py:475-479): electrons, ions, electric and magnetic field. -/
abbrev St (de di : Dims) (Ny Nx Nz : ℕ) :=
  Tens de (K Ny Nx Nz → ℂ) × Tens di (K Ny Nx Nz → ℂ) × (Fin 3 → K Ny Nx Nz → ℂ) × (Fin 3 → K Ny Nx Nz → ℂ)

/-- What the vector fields and exponentials hold (vector_field.py:25-154, nonlinear_vector_field.py:100-221,
exponential_operators.py:354-459, base_module.py:454-572).  `filter`: strength and order of the Hou-Li filter of the
vector field; `gamma`: those given to the streaming exponential, used only when both are positive. -/
structure Setup (de di : Dims) (Ny Nx Nz : ℕ) where
  e : Species
  i : Species
  L : Fin 3 → ℝ
  omega : ℝ
  nu : ℝ
  D : ℝ
  staticIons : Bool
  filter : Option (ℝ × ℕ)
  gamma : Option (ℝ × ℕ)
  driver : ℝ → Fin 3 → K Ny Nx Nz → ℂ
  noiseE : Option (ℝ → ZMod Nx → ℂ)
  noiseI : Option (ℝ → ZMod Nx → ℂ)
  eX : Eigh de.nn
  eY : Eigh de.nm
  eZ : Eigh de.np
  iX : Eigh di.nn
  iY : Eigh di.nm
  iZ : Eigh di.np
  spongeF : Option (ZMod Nx → ℝ)
  spongeE : Option (ZMod Nx → ℝ)
  spongeI : Option (ZMod Nx → ℝ)

variable {de di : Dims}

/-- The total current (vector_field.py:262-267, nonlinear_vector_field.py:407-417). -/
noncomputable def Setup.J (p : Setup de di Ny Nx Nz) (y : St de di Ny Nx Nz) (k : K Ny Nx Nz) (j : Fin 3) : ℂ :=
  current p.e (slice y.1 k) j + if p.staticIons then 0 else current p.i (slice y.2.1 k) j

/-- `SpectraxVectorField.__call__` (vector_field.py:194-282). -/
noncomputable def Setup.explicit (p : Setup de di Ny Nx Nz) (t : ℝ) (y : St de di Ny Nx Nz) : St de di Ny Nx Nz :=
  (addNoise (p.noiseE.map (· t)) (applyFilter p.filter (rhs p.e p.L p.omega p.nu p.D y.1 y.2.2.1 y.2.2.2)),
    if p.staticIons then 0 else addNoise (p.noiseI.map (· t)) (applyFilter p.filter (rhs p.i p.L p.omega p.nu p.D y.2.1 y.2.2.1 y.2.2.2)),
    fun j k => I * cross (fun i => (xi p.L k i : ℂ)) (fun i => y.2.2.2 i k) j - p.J y k j / p.omega + p.driver t j k,
    fun j k => -I * cross (fun i => (xi p.L k i : ℂ)) (fun i => y.2.2.1 i k) j)

/-- `NonlinearVectorField.__call__` (nonlinear_vector_field.py:315-437). -/
noncomputable def Setup.nonlinear (p : Setup de di Ny Nx Nz) (t : ℝ) (y : St de di Ny Nx Nz) : St de di Ny Nx Nz :=
  (addNoise (p.noiseE.map (· t)) (applyFilter p.filter (lorentz p.e p.omega y.1 y.2.2.1 y.2.2.2)),
    if p.staticIons then 0 else addNoise (p.noiseI.map (· t)) (applyFilter p.filter (lorentz p.i p.omega y.2.1 y.2.2.1 y.2.2.2)),
    fun j k => -p.J y k j / p.omega + p.driver t j k,
    0)

/-! ### Exponentials of the linear terms -/

/-- `_apply_direction_x` before the damping (exponential_operators.py:143-155), `_apply_direction_y` (:164-174) and
`_apply_direction_z` (:176-186). -/
noncomputable def streamX {d : Dims} (e : Eigh d.nn) (alpha L s : ℝ) (C : Tens d (K Ny Nx Nz → ℂ)) : Tens d (K Ny Nx Nz → ℂ) := fun p m n k =>
  stream e alpha (kx L) (fun j q => C p m j (k.1, q, k.2.2)) s n k.2.1
noncomputable def streamY {d : Dims} (e : Eigh d.nm) (alpha L s : ℝ) (C : Tens d (K Ny Nx Nz → ℂ)) : Tens d (K Ny Nx Nz → ℂ) := fun p m n k =>
  stream e alpha (kx L) (fun j q => C p j n (q, k.2)) s m k.1
noncomputable def streamZ {d : Dims} (e : Eigh d.np) (alpha L s : ℝ) (C : Tens d (K Ny Nx Nz → ℂ)) : Tens d (K Ny Nx Nz → ℂ) := fun p m n k =>
  stream e alpha (kx L) (fun j q => C j m n (k.1, k.2.1, q)) s p k.2.2

/-- The Hou-Li damping inside the x direction (exponential_operators.py:88-95, 157-160). -/
noncomputable def gammaDamp {d : Dims} (g : Option (ℝ × ℕ)) (s : ℝ) (C : Tens d (K Ny Nx Nz → ℂ)) : Tens d (K Ny Nx Nz → ℂ) :=
  match g with
  | some (a, o) => if 0 < a ∧ 0 < o then fun p m n k => C p m n k * ((Real.exp (-(a * ((n.val : ℝ) / d.nn) ^ o) * |s|) : ℝ) : ℂ) else C
  | none => C

/-- `FreeStreamingExponential.apply` (exponential_operators.py:125-141). -/
noncomputable def freeStream {d : Dims} (eX : Eigh d.nn) (eY : Eigh d.nm) (eZ : Eigh d.np) (sp : Species) (L : Fin 3 → ℝ) (g : Option (ℝ × ℕ)) (s : ℝ)
    (C : Tens d (K Ny Nx Nz → ℂ)) : Tens d (K Ny Nx Nz → ℂ) :=
  streamZ eZ (sp.alpha 2) (L 2) s (streamY eY (sp.alpha 1) (L 1) s (gammaDamp g s (streamX eX (sp.alpha 0) (L 0) s C)))

/-- `DiagonalExponential.apply` (exponential_operators.py:275-288). -/
noncomputable def diagonal {d : Dims} (nu D s : ℝ) (C : Tens d (K Ny Nx Nz → ℂ)) : Tens d (K Ny Nx Nz → ℂ) := fun p m n k =>
  C p m n k * ((Real.exp (-nu * col d p m n * s + -D * k2 k * s) : ℝ) : ℂ)

/-- `MaxwellExponential.apply` (exponential_operators.py:203-256) at the wave vector `x`: electric and magnetic field. -/
noncomputable def safeOmega (x : Fin 3 → ℝ) : ℝ :=
  let w := Real.sqrt (x 0 ^ 2 + x 1 ^ 2 + x 2 ^ 2)
  if 0 < w then w else 1
noncomputable def maxwell (x : Fin 3 → ℝ) (s : ℝ) (E B : Fin 3 → ℂ) : (Fin 3 → ℂ) × (Fin 3 → ℂ) :=
  let w := Real.sqrt (x 0 ^ 2 + x 1 ^ 2 + x 2 ^ 2)
  let c1 : ℂ := ((Real.sin (safeOmega x * s) / safeOmega x : ℝ) : ℂ)
  let c2 : ℂ := (((1 - Real.cos (safeOmega x * s)) / safeOmega x ^ 2 : ℝ) : ℂ)
  let xc : Fin 3 → ℂ := fun i => (x i : ℂ)
  let xE := xc 0 * E 0 + xc 1 * E 1 + xc 2 * E 2
  let xB := xc 0 * B 0 + xc 1 * B 1 + xc 2 * B 2
  (fun j => E j + c1 * (I * cross xc B j) + c2 * (xc j * xE - E j * ((w ^ 2 : ℝ) : ℂ)),
    fun j => B j + c1 * (-I * cross xc E j) + c2 * (xc j * xB - B j * ((w ^ 2 : ℝ) : ℂ)))

/-- `CombinedLinearExponential.apply` (exponential_operators.py:314-351). -/
noncomputable def Setup.exp (p : Setup de di Ny Nx Nz) (s : ℝ) (y : St de di Ny Nx Nz) : St de di Ny Nx Nz :=
  (diagonal p.nu p.D s (freeStream p.eX p.eY p.eZ p.e p.L p.gamma s y.1),
    if p.staticIons then y.2.1 else diagonal p.nu p.D s (freeStream p.iX p.iY p.iZ p.i p.L none s y.2.1),
    fun j k => (maxwell (xi p.L k) s (fun i => y.2.2.1 i k) (fun i => y.2.2.2 i k)).1 j,
    fun j k => (maxwell (xi p.L k) s (fun i => y.2.2.1 i k) (fun i => y.2.2.2 i k)).2 j)

/-- `LawsonRK4Solver.step` (integrators.py:345-409): the same arithmetic as the Hermite-Poisson solver's. -/
noncomputable def Setup.lawsonStep (p : Setup de di Ny Nx Nz) (t h : ℝ) (y : St de di Ny Nx Nz) : St de di Ny Nx Nz :=
  lawson p.exp p.nonlinear t h y

/-- The error estimate of the step (integrators.py:399-404), for any linear flow `S` and nonlinear term `F`. -/
noncomputable def lawsonError {E : Type*} [AddCommGroup E] [Module ℝ E] (S F : ℝ → E → E) (t h : ℝ) (y : E) : E :=
  let n1 := F t y
  let n2 := F (t + h / 2) (S (h / 2) y + (h / 2) • S (h / 2) n1)
  let n3 := F (t + h / 2) (S (h / 2) y + (h / 2) • n2)
  let n4 := F (t + h) (S h y + h • S (h / 2) n3)
  lawson S F t h y - (S h y + (h / 2) • (S h n1 + n4))

/-! ### Split-step damping -/

/-- The sponge on the fields (integrators.py:168-193). -/
noncomputable def spongeField (s : Option (ZMod Nx → ℝ)) (h : ℝ) (E : Fin 3 → K Ny Nx Nz → ℂ) : Fin 3 → K Ny Nx Nz → ℂ :=
  match s with
  | some s => fun j => toK3 fun x => toX3 (E j) x * ((Real.exp (-s x.2.1 * h) : ℝ) : ℂ)
  | none => E

/-- The sponge on a species (integrators.py:195-259): the density mode is left alone. -/
noncomputable def spongeC {d : Dims} (s : Option (ZMod Nx → ℝ)) (h : ℝ) (C : Tens d (K Ny Nx Nz → ℂ)) : Tens d (K Ny Nx Nz → ℂ) :=
  match s with
  | some s => fun p m n => toK3 fun x => toX3 (C p m n) x * ((if p.val = 0 ∧ m.val = 0 ∧ n.val = 0 then 1 else Real.exp (-s x.2.1 * h) : ℝ) : ℂ)
  | none => C

/-- `SplitStepDampingSolver._apply_damping` (integrators.py:147-276); `filter` is passed on by the exponential integrator only
(base_module.py:750-758). -/
noncomputable def Setup.damp (p : Setup de di Ny Nx Nz) (filter : Option (ℝ × ℕ)) (h : ℝ) (y : St de di Ny Nx Nz) : St de di Ny Nx Nz :=
  (applyFilter filter (spongeC p.spongeE h y.1), applyFilter filter (spongeC p.spongeI h y.2.1),
    spongeField p.spongeF h y.2.2.1, spongeField p.spongeF h y.2.2.2)

/-- One step of the exponential path (integrators.py:114-145 with base_module.py:610-689, 746-770). -/
noncomputable def Setup.expStep (p : Setup de di Ny Nx Nz) (t h : ℝ) (y : St de di Ny Nx Nz) : St de di Ny Nx Nz :=
  p.damp p.filter h (p.lawsonStep t h y)

/-- One step of the explicit path (integrators.py:114-145 with base_module.py:691-770). -/
noncomputable def Setup.rkStep (p : Setup de di Ny Nx Nz) (m : TwoFluid.Method) (t h : ℝ) (y : St de di Ny Nx Nz) : St de di Ny Nx Nz :=
  p.damp none h (TwoFluid.rkStep m m.b p.explicit t h y)

/-- The time loop of `diffeqsolve` (base_module.py:801-813) over the given step sizes. -/
noncomputable def loop {E : Type*} (step : ℝ → ℝ → E → E) (t : ℝ) (y : E) : List ℝ → ℝ × E
  | [] => (t, y)
  | h :: hs => loop step (t + h) (step t h y) hs

/-- What is saved at the fraction `th` of a step of the exponential path from `y`: linear interpolation to the step's end
*before* the damping (integrators.py:134-145, 406-409). -/
noncomputable def Setup.savedExp (p : Setup de di Ny Nx Nz) (t h th : ℝ) (y : St de di Ny Nx Nz) : St de di Ny Nx Nz :=
  y + th • (p.lawsonStep t h y - y)

/-! ### Initial state -/

/-- An index of `.at[…].set`: negative ones count from the end; outside the array the write is dropped. -/
def jaxIndex (N : ℕ) (i : ℤ) : Option (ZMod N) :=
  if 0 ≤ i ∧ i < N then some (i : ZMod N) else if -(N : ℤ) ≤ i ∧ i < 0 then some ((i + N : ℤ) : ZMod N) else none

/-- `fft_index` (base_module.py:33-49). -/
def fftIndex (k : ℤ) (N : ℕ) : ℤ := if 0 ≤ k then k else N + k

/-- A write at the index of the mode numbers `(nx, ny, nz)`. -/
def setAt (c : K Ny Nx Nz → ℂ) (nx ny nz : ℤ) (v : ℂ) : K Ny Nx Nz → ℂ :=
  match jaxIndex Ny (fftIndex ny Ny), jaxIndex Nx (fftIndex nx Nx), jaxIndex Nz (fftIndex nz Nz) with
  | some y, some x, some z => Function.update c (y, x, z) v
  | _, _, _ => c

/-- `E_field_component` (base_module.py:349) as an index of the six components; negative ones count from the end. -/
def component (ny nz : ℤ) : ℤ :=
  let c := ny.sign + 2 * nz.sign
  if c < 0 then c + 6 else c

/-- `Fk_0` (base_module.py:336-367); `j` is the component of `[Ex, Ey, Ez, Bx, By, Bz]`. -/
noncomputable def initialF (L : Fin 3 → ℝ) (nx ny nz : ℤ) (dn omega : ℝ) (j : ℕ) : K Ny Nx Nz → ℂ :=
  let n := nx + ny + nz
  let len := L 0 * (nx.sign : ℝ) + L 1 * (ny.sign : ℝ) + L 2 * (nz.sign : ℝ)
  let a : ℂ := ((dn * len / (4 * Real.pi * n * omega) : ℝ) : ℂ)
  if n ≠ 0 ∧ omega ≠ 0 ∧ (j : ℤ) = component ny nz then setAt (setAt 0 (-nx) (-ny) (-nz) a) nx ny nz a else 0

/-- `Ck_0_electrons[0, 0, 0]` (base_module.py:392-402). -/
noncomputable def initialE0 (alpha : ℝ) (nx ny nz : ℤ) (dn : ℝ) : K Ny Nx Nz → ℂ :=
  setAt (setAt (Function.update 0 0 ((1 / alpha ^ 3 : ℝ) : ℂ)) (-nx) (-ny) (-nz) (I * ((1 / (2 * alpha ^ 3) * dn : ℝ) : ℂ)))
    nx ny nz (-I * ((1 / (2 * alpha ^ 3) * dn : ℝ) : ℂ))

/-- The initial state (base_module.py:336-413, 475-479). -/
noncomputable def initial (alphaE alphaI : ℝ) (L : Fin 3 → ℝ) (nx ny nz : ℤ) (dn omega : ℝ) : St de di Ny Nx Nz :=
  (fun p m n => if p.val = 0 ∧ m.val = 0 ∧ n.val = 0 then initialE0 alphaE nx ny nz dn else 0,
    fun p m n => if p.val = 0 ∧ m.val = 0 ∧ n.val = 0 then Function.update 0 0 ((1 / alphaI ^ 3 : ℝ) : ℂ) else 0,
    fun j => initialF L nx ny nz dn omega j, fun j => initialF L nx ny nz dn omega (j + 3))

/-! ### Drivers, sponge profile -/

/-- A pulse (driver.py:92-114) after its defaults. -/
structure Pulse where
  k0 : ℝ
  w0 : ℝ
  dw0 : ℝ
  a0 : ℝ
  tCenter : ℝ
  tWidth : ℝ
  tRise : ℝ
  xCenter : ℝ
  xWidth : ℝ
  xRise : ℝ

/-- `_get_single_pulse` (driver.py:77-114) at one position. -/
noncomputable def Pulse.at (q : Pulse) (t x : ℝ) : ℝ :=
  Driver.getEnvelope q.tRise q.tRise (q.tCenter - 0.5 * q.tWidth) (q.tCenter + 0.5 * q.tWidth) t *
    Driver.getEnvelope q.xRise q.xRise (q.xCenter - 0.5 * q.xWidth) (q.xCenter + 0.5 * q.xWidth) x * |q.k0| * q.a0 *
    Real.sin (q.k0 * x - (q.w0 + q.dw0) * t)

/-- `Driver.__call__` (driver.py:45-75): the transform along x alone, set on every `ky`, `kz` (broadcast from shape `(1, Nx, 1)`). -/
noncomputable def drive (qs : List Pulse) (x : ZMod Nx → ℝ) (t : ℝ) : K Ny Nx Nz → ℂ := fun k =>
  toK (fun j : ZMod Nx => ((qs.foldl (fun tot q => tot + q.at t (x j)) 0 : ℝ) : ℂ)) k.2.1

/-- The grid of the drivers and the sponge (base_module.py:482). -/
noncomputable def xax (Lx : ℝ) (j : ZMod Nx) : ℝ := Lx / Nx * j.val

/-- The sponge profile (base_module.py:551-568). -/
noncomputable def clip01 (x : ℝ) : ℝ := min (max x 0) 1
noncomputable def sponge (Lx strength width : ℝ) (sides : String) (x : ℝ) : ℝ :=
  let r := if sides = "right" ∨ sides = "both" then
    strength * clip01 ((x - Lx * (1 - width)) / (Lx - Lx * (1 - width) + 1e-10)) ^ 2 else 0
  let l := if sides = "left" ∨ sides = "both" then strength * clip01 ((Lx * width - x) / (Lx * width + 1e-10)) ^ 2 else 0
  r + l

/-! ### Time grid -/

/-- `nt`, `dt`, `tmax` and `max_steps` (base_module.py:220-255). -/
structure TimeGrid where
  nt : ℕ
  dt : ℝ
  tmax : ℝ
  maxSteps : ℕ
/-- `max_steps` from the number of steps (base_module.py:246-255); `adaptive` as read there, false when absent. -/
def maxSteps (nt : ℕ) (adaptive : Option Bool) : ℕ :=
  let raw := nt * (if adaptive = some true then 100 else 1) + 4
  if 1000000 < raw then 1000000 else raw
/-- base_module.py:220-255. -/
noncomputable def timeGrid (tmax : ℝ) (dt : Option ℝ) (nt : Option ℕ) (adaptive : Option Bool) : TimeGrid :=
  match dt with
  | none =>
    let n := nt.getD 501
    ⟨n, tmax / n, tmax / n * n, maxSteps n adaptive⟩
  | some h =>
    let n := ⌊tmax / h⌋₊ + 1
    ⟨n, h, h * n, maxSteps n adaptive⟩

/-- `adaptive_time_step` as read by the two integrator paths (base_module.py:673, 714). -/
def adaptiveOf (exponential : Bool) (adaptive : Option Bool) : Bool := adaptive.getD (!exponential)

/-- `filter_strength`, `filter_order` of the exponential and of the vector field for an enabled filter (base_module.py:617-620,
nonlinear_vector_field.py:158-163). -/
def gammaOf (strength : Option ℝ) (order : Option ℕ) : ℝ × ℕ := (strength.getD 0, order.getD 0)
def filterOf (strength : Option ℝ) (order : Option ℕ) : ℝ × ℕ := (strength.getD 36, order.getD 36)

/-! ### Saved quantities -/

/-- `_moments_species` (storage.py:365-415): density, the three flows and the temperature at a grid point. -/
structure Moments where
  n : ℝ
  J : Fin 3 → ℝ
  T : ℝ
/-- `C0_safe` (storage.py:387-388). -/
noncomputable def safe0 (c : ℂ) : ℂ := if ‖c‖ < 1e-20 then ((1e-20 : ℝ) : ℂ) else c
/-- `Tx`, `Ty`, `Tz` (storage.py:389-405). -/
noncomputable def temperature (N : ℕ) (a : ℝ) (c0 c2 : ℂ) : ℝ :=
  if 2 < N then 0.5 * a ^ 2 * (1 + Real.sqrt 2 * (c2 / safe0 c0).re) else 0.5 * a ^ 2
/-- storage.py:365-415; the coefficients are the ones at the grid point. -/
noncomputable def moments {d : Dims} (s : Species) (C : Tens d ℂ) : Moments :=
  let pre : ℂ := ((s.alpha 0 * s.alpha 1 * s.alpha 2 : ℝ) : ℂ)
  { n := (pre * pad C 0 0 0).re
    J := ![(pre * ((s.u 0 : ℂ) * pad C 0 0 0 + 1 / r2 * (s.alpha 0 : ℂ) * pad C 0 0 1)).re,
      (pre * ((s.u 1 : ℂ) * pad C 0 0 0 + 1 / r2 * (s.alpha 1 : ℂ) * pad C 0 1 0)).re,
      (pre * ((s.u 2 : ℂ) * pad C 0 0 0 + 1 / r2 * (s.alpha 2 : ℂ) * pad C 1 0 0)).re]
    T := (temperature d.nn (s.alpha 0) (pad C 0 0 0) (pad C 0 0 2) + temperature d.nm (s.alpha 1) (pad C 0 0 0) (pad C 0 2 0)
      + temperature d.np (s.alpha 2) (pad C 0 0 0) (pad C 2 0 0)) / 3 }
/-- `Jx_total` and its companions (storage.py:441-443). -/
noncomputable def totalJ {de di : Dims} (e i : Species) (Ce : Tens de ℂ) (Ci : Tens di ℂ) (j : Fin 3) : ℝ := (moments e Ce).J j + (moments i Ci).J j

/-- `E_energy`, `B_energy` (storage.py:320-323). -/
noncomputable def energy (E : Fin 3 → K Ny Nx Nz → ℂ) : ℝ := ∑ j, ∑ k, ‖E j k‖ ^ 2

/-- The coordinate stored with the fields and moments (base_module.py:1018). -/
noncomputable def savedX (Lx : ℝ) (N : ℕ) (j : ℕ) : ℝ := Lx / ((N : ℝ) - 1) * j

end Verif.Spectrax
