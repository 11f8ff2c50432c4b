import Verif.Model.Hermite
import Mathlib.LinearAlgebra.Matrix.NonsingularInverse
import Mathlib.Algebra.Polynomial.Eval.Defs
import Mathlib.Analysis.SpecialFunctions.Exp

/-!
Model of the mixed Hermite-Legendre solver (adept/_hermite_legendre_1d): basis constants, moment map,
exact exponentials, collisions, Poisson field, force terms, the Cayley maps, the three integrators,
initial states and the checks on the deck.

Arrays as in `Model/Hermite.lean`; exact arithmetic.  External and therefore parameters: the results of
`eigh` (`Eigh`, `SkewEigh`), Gauss-Legendre quadrature (the coupling integrals and beam projections enter
as numbers).  `linalg.solve`, `linalg.inv` and `solve_triangular` are the matrix inverse (zero where there
is none; the code then yields `inf` or `nan`).
Line numbers are those of adept/_hermite_legendre_1d/vector_field.py unless another file is named.
-/
namespace Verif.HermiteLegendre
open Finset Complex Verif.Spectral Verif.Hermite
open scoped Polynomial Matrix

variable {N : ℕ} [NeZero N] {nh nl : ℕ}

/-! ### Basis functions -/

/-- The Legendre polynomials by the recurrence of `_legendre_basis_values` (227-231), as polynomials. -/
noncomputable def legP : ℕ → ℝ[X]
  | 0 => 1
  | 1 => Polynomial.X
  | k + 2 => Polynomial.C (1 / ((k : ℝ) + 2)) *
      (Polynomial.C (2 * ((k : ℝ) + 1) + 1) * Polynomial.X * legP (k + 1) - Polynomial.C ((k : ℝ) + 1) * legP k)

/-- `_legendre_basis_values` (222-233): `sqrt(2m+1) L_m((2v - (v_a+v_b)) / (v_b-v_a))`. -/
noncomputable def xi (a b : ℝ) (m : ℕ) : ℝ[X] :=
  Polynomial.C (Real.sqrt (2 * m + 1)) *
    (legP m).comp (Polynomial.C (1 / (b - a)) * (Polynomial.C 2 * Polynomial.X - Polynomial.C (a + b)))

/-- `_hermite_function_values` (199-219). -/
noncomputable def psi (alpha u v : ℝ) : ℕ → ℝ
  | 0 => 1 / Real.sqrt Real.pi * Real.exp (-((v - u) / alpha) ^ 2)
  | 1 => Real.sqrt 2 * ((v - u) / alpha) * psi alpha u v 0
  | n + 2 => (v - u) / alpha * Real.sqrt (2 / ((n : ℝ) + 2)) * psi alpha u v (n + 1)
      - Real.sqrt (((n : ℝ) + 1) / ((n : ℝ) + 2)) * psi alpha u v n

/-! ### Basis constants -/

/-- `sigma` (138-141). -/
noncomputable def sigma (w : ℝ) (n : ℕ) : ℝ :=
  if n = 0 then 0 else w / 2 * n / Real.sqrt ((2 * n + 1) * (2 * n - 1))

/-- `T_L` (143-146). -/
noncomputable def TL (nl : ℕ) (a b : ℝ) : Matrix (Fin nl) (Fin nl) ℝ := fun i j =>
  (if i = j then 0.5 * (a + b) else 0) + (if j.val = i.val + 1 then sigma (b - a) j.val else 0)
    + (if i.val = j.val + 1 then sigma (b - a) i.val else 0)

/-- `deriv` (149-153). -/
noncomputable def deriv (nl : ℕ) (a b : ℝ) : Matrix (Fin nl) (Fin nl) ℝ := fun m i =>
  if i.val < m.val ∧ (m.val - i.val) % 2 = 1 then 2 * Real.sqrt ((2 * m.val + 1) * (2 * i.val + 1)) / (b - a) else 0

/-- `xi_b`, `xi_a` (155-157). -/
noncomputable def xiB (m : ℕ) : ℝ := Real.sqrt (2 * m + 1)
noncomputable def xiA (m : ℕ) : ℝ := Real.sqrt (2 * m + 1) * (-1) ^ m

/-- An index of a JAX array: one past the end reads the last element. -/
def clampIx [NeZero nl] (i : ℕ) : Fin nl := ⟨min i (nl - 1), by have := NeZero.pos nl; omega⟩

/-- `mixed_moment_matrix` (165-196). -/
noncomputable def momentMatrix [NeZero nl] (alpha u : ℝ) (T : Matrix (Fin nl) (Fin nl) ℝ) (w : ℝ) : Matrix (Fin 3) (Fin 6) ℝ :=
  let sb := T (clampIx 0) (clampIx 0)
  let s1 := T (clampIx 0) (clampIx 1)
  let s2 := T (clampIx 1) (clampIx 2)
  !![alpha, 0, 0, w, 0, 0;
    u * alpha, alpha ^ 2 / Real.sqrt 2, 0, w * sb, w * s1, 0;
    0.5 * alpha * (alpha ^ 2 / 2 + u ^ 2), alpha ^ 2 * u / Real.sqrt 2, alpha ^ 3 / (2 * Real.sqrt 2),
      0.5 * w * (s1 ^ 2 + sb ^ 2), w * s1 * sb, 0.5 * w * s2 * s1]

/-- The six low coefficients (`_moments`, 351-353 and 459-461; `_moment_density`, 1000-1002). -/
def low [NeZero nh] [NeZero nl] {A : Type} (C : Fin nh → A) (B : Fin nl → A) : Fin 6 → A :=
  ![C (clampIx 0), C (clampIx 1), C (clampIx 2), B (clampIx 0), B (clampIx 1), B (clampIx 2)]

/-- `coupling_vec` (modules.py:436-437) of the coupling integrals `J`, with the gate of
`hermite_legendre_coupling_vector` (257-258). -/
noncomputable def couplingVec (nh : ℕ) (alpha w : ℝ) (enforce : Bool) (J : Fin nl → ℝ) (m : Fin nl) : ℝ :=
  -(alpha / w) * Real.sqrt (nh / 2) * (if enforce ∧ m.val < 3 then 0 else J m)

/-- `gamma_vec` (modules.py:433-434). -/
def gammaVec (gamma : ℝ) (allModes : Bool) (m : Fin nl) : ℝ := if allModes then gamma else if 3 ≤ m.val then gamma else 0

/-! ### Exponentials -/

/-- `DiagonalCollisionExp1D.apply` (297-300). -/
noncomputable def absorb {n : ℕ} (nu : ℝ) (col : Fin n → ℝ) (C : Coef n N) (s : ℝ) : Coef n N := fun i q =>
  if nu = 0 then C i q else C i q * (Real.exp (-nu * col i * s) : ℝ)

/-- Hermite and Legendre coefficients. -/
abbrev Cs (nh nl N : ℕ) := Coef nh N × Coef nl N

/-! ### Collisions -/

/-- `_maxwellian_coefficients` (355-363), without the factor `density / alpha`. -/
noncomputable def maxwell (p q : ℝ) : ℕ → ℝ
  | 0 => 1
  | 1 => p
  | n + 2 => p / Real.sqrt ((n : ℝ) + 2) * maxwell p q (n + 1)
      + 2 * q * Real.sqrt (((n : ℝ) + 1) / ((n : ℝ) + 2)) * maxwell p q n

/-- Density, mean velocity and temperature from the moments, with their floors (375-377, 507-509). -/
noncomputable def densityOf (target : Fin 3 → ℝ) : ℝ := max (target 0) 1e-14
noncomputable def meanOf (target : Fin 3 → ℝ) : ℝ := target 1 / densityOf target
noncomputable def tempOf (minT : ℝ) (target : Fin 3 → ℝ) : ℝ := max (2 * target 2 / densityOf target - meanOf target ^ 2) minT

/-- A map of the coefficients at one position: what the collisions apply (365-393, 497-523).  The restoration:
the defect of the moments goes to the first three Hermite coefficients. -/
noncomputable def restore [NeZero nh] [NeZero nl] (M : Matrix (Fin 3) (Fin 6) ℝ) (C : Fin nh → ℝ) (B : Fin nl → ℝ)
    (C' : Fin nh → ℝ) (B' : Fin nl → ℝ) : (Fin nh → ℝ) × (Fin nl → ℝ) :=
  let H : Matrix (Fin 3) (Fin 3) ℝ := fun i j => M i (Fin.castLE (by omega) j)
  let defect : Fin 3 → ℝ := fun i => (M *ᵥ low C B) i - (M *ᵥ low C' B') i
  let c := H⁻¹ *ᵥ defect
  (fun i => C' i + (if h : i.val < 3 then c ⟨i.val, h⟩ else 0), B')

/-- The parameters common to both collision models (331-349, 421-443). -/
structure Params where
  nu : ℝ
  alpha : ℝ
  u : ℝ
  minT : ℝ

/-- The BGK map at one position (365-389). -/
noncomputable def bgkAt [NeZero nh] [NeZero nl] (p : Params) (M : Matrix (Fin 3) (Fin 6) ℝ) (s : ℝ)
    (C : Fin nh → ℝ) (B : Fin nl → ℝ) : (Fin nh → ℝ) × (Fin nl → ℝ) :=
  let t := M *ᵥ low C B
  let r := Real.exp (-p.nu * s)
  let pp := Real.sqrt 2 * (meanOf t - p.u) / p.alpha
  let q := tempOf p.minT t / p.alpha ^ 2 - 0.5
  restore M C B (fun i => r * C i + (1 - r) * (densityOf t / p.alpha * maxwell pp q i.val)) (fun m => r * B m)

/-- `exp_coeff` of `_hermite_exact` (472-476). -/
noncomputable def expCoeff (p q : ℝ) : ℕ → ℝ
  | 0 => 1
  | 1 => p
  | k + 2 => (p * expCoeff p q (k + 1) + 2 * q * expCoeff p q k) / ((k : ℝ) + 2)

/-- `_hermite_exact` (463-482); `sqrt_factorial` is the exact root of the factorial. -/
noncomputable def ouHermite (p : Params) (U T s : ℝ) (C : Fin nh → ℝ) (n : Fin nh) : ℝ :=
  let r := Real.exp (-(p.nu * s))
  let A := Real.sqrt 2 * (p.u - U) / p.alpha
  let B := 1 - 2 * T / p.alpha ^ 2
  let pp := -A * (1 - r)
  let q := -0.5 * B * (1 - r ^ 2)
  Real.sqrt (n.val.factorial) * ∑ j : Fin nh, if j.val ≤ n.val then
    C j / Real.sqrt (j.val.factorial) * r ^ j.val * expCoeff pp q (n.val - j.val) else 0

/-- `_legendre_diffusion` (484-487); the eigenvalues are cut at zero (455). -/
noncomputable def diffuse (nu : ℝ) (d : Eigh nl) (T s : ℝ) (B : Fin nl → ℝ) (m : Fin nl) : ℝ :=
  ∑ j, d.V m j * (Real.exp (nu * s * min (d.lam j) 0 * T) * ∑ i, d.V i j * B i)

/-- `legendre_drift_0` (454): the lower triangle of `-D V`. -/
noncomputable def drift0 (nl : ℕ) (a b : ℝ) : Matrix (Fin nl) (Fin nl) ℝ := fun i j =>
  if j.val ≤ i.val then -((deriv nl a b * TL nl a b) i j) else 0

/-- `_legendre_drift` (489-495). -/
noncomputable def driftStep (nu a b U s : ℝ) (B : Fin nl → ℝ) : Fin nl → ℝ :=
  let G := drift0 nl a b + U • deriv nl a b
  (1 - (0.5 * nu * s) • G)⁻¹ *ᵥ (B + (0.5 * nu * s) • (G *ᵥ B))

/-- The Dougherty map at one position (497-519). -/
noncomputable def doughertyAt [NeZero nh] [NeZero nl] (p : Params) (M : Matrix (Fin 3) (Fin 6) ℝ) (a b : ℝ) (d : Eigh nl) (s : ℝ)
    (C : Fin nh → ℝ) (B : Fin nl → ℝ) : (Fin nh → ℝ) × (Fin nl → ℝ) :=
  let t := M *ᵥ low C B
  let U := meanOf t
  let T := tempOf p.minT t
  restore M C B (ouHermite p U T s C)
    (diffuse p.nu d T (0.5 * s) (driftStep p.nu a b U s (diffuse p.nu d T (0.5 * s) B)))

/-- The collision object of a run; Dougherty holds the diagonalised diffusion. -/
inductive Collision (nl : ℕ) where
  | bgk (nu minT : ℝ)
  | dougherty (nu minT : ℝ) (d : Eigh nl)

/-- A map of the real coefficients at every position, on the Fourier coefficients (368-372, 391-393). -/
noncomputable def pointwise (F : (Fin nh → ℝ) → (Fin nl → ℝ) → (Fin nh → ℝ) × (Fin nl → ℝ)) (c : Cs nh nl N) : Cs nh nl N :=
  (fun i => toK fun x => ((F (fun j => (toX (c.1 j) x).re) (fun j => (toX (c.2 j) x).re)).1 i : ℂ),
    fun m => toK fun x => ((F (fun j => (toX (c.1 j) x).re) (fun j => (toX (c.2 j) x).re)).2 m : ℂ))

/-! ### The vector field -/

/-- The eigenvectors and eigenvalues of `i G_B`, when they are used (modules.py:445-448). -/
structure SkewEigh (nl : ℕ) where
  W : Matrix (Fin nl) (Fin nl) ℂ
  lam : Fin nl → ℝ

inductive Integrator where
  | lawson | imex | split
  deriving DecidableEq

/-- What `HermiteLegendre1DVectorField` and its operators hold (829-895, modules.py:353-477). -/
structure Setup (nh nl N : ℕ) where
  L : ℝ
  dt : ℝ
  alpha : ℝ
  u : ℝ
  a : ℝ
  b : ℝ
  eighH : Eigh nh
  eighL : Eigh nl
  nuH : ℝ
  nuL : ℝ
  gamma : Fin nl → ℝ
  coupling : Fin nl → ℝ
  mask : Option (ZMod N → Bool)
  fieldOn : Bool
  driver : Option (ℝ → ZMod N → ℝ)
  integrator : Integrator
  iters : ℕ
  skew : Option (SkewEigh nl)
  enforce : Bool
  collision : Option (Collision nl)

variable [NeZero nh] [NeZero nl]

/-- `CombinedLinearExp1D.apply` (541-550). -/
noncomputable def Setup.exp (p : Setup nh nl N) (s : ℝ) (c : Cs nh nl N) : Cs nh nl N :=
  (absorb p.nuH (hyperCol nh) (stream p.eighH p.alpha (kx p.L) c.1 s) s,
    absorb p.nuL (hyperCol nl) (stream p.eighL 1 (kx p.L) c.2 s) s)

/-- `_rho_k` before its transform (571-575). -/
noncomputable def Setup.charge (p : Setup nh nl N) (c : Cs nh nl N) (x : ZMod N) : ℝ :=
  1 - p.alpha * (toX (c.1 0) x).re - (p.b - p.a) * (toX (c.2 0) x).re

/-- `electric_field` when the field is on (578-580, 903). -/
noncomputable def Setup.field (p : Setup nh nl N) (c : Cs nh nl N) (x : ZMod N) : ℝ :=
  if p.fieldOn then Hermite.field p.L (p.charge c) x else 0

/-- `potential` (582-585). -/
noncomputable def Setup.potential (p : Setup nh nl N) (c : Cs nh nl N) (x : ZMod N) : ℝ :=
  if p.fieldOn then (toX (fun k => if 0 < kx p.L k ^ 2 then toK (fun j => (p.charge c j : ℂ)) k / ((kx p.L k ^ 2 : ℝ) : ℂ) else 0) x).re else 0

/-- The driver's field, zero without one (905-906, 1049-1050). -/
noncomputable def Setup.driven (p : Setup nh nl N) (t : ℝ) (x : ZMod N) : ℝ :=
  match p.driver with
  | some d => d t x
  | none => 0

/-- `_hermite_force` (600-615). -/
noncomputable def hermiteForce (alpha : ℝ) (m : Option (ZMod N → Bool)) (E : ZMod N → ℝ) (C : Coef nh N) : Coef nh N := fun i =>
  masked m (toK fun x => ((-(Real.sqrt (2 * i.val) / alpha) : ℝ) : ℂ) * (maskedForce m E x : ℂ) * up (fun j => toX (masked m (C j)) x) i)

/-- `legendre_force_operator` (699-711): also the linear map of `_legendre_force` (633-646). -/
noncomputable def GB (a b : ℝ) (gamma : Fin nl → ℝ) : Matrix (Fin nl) (Fin nl) ℝ := fun m j =>
  gamma m / (b - a) * (xiB m.val * xiB j.val - xiA m.val * xiA j.val) - deriv nl a b m j

/-- `hermite_force_operator` (686-696). -/
noncomputable def GC (nh : ℕ) (alpha : ℝ) : Matrix (Fin nh) (Fin nh) ℝ := fun n j =>
  if n.val = j.val + 1 then -Real.sqrt (2 * n.val) / alpha else 0

/-- The force on the Legendre coefficients at one position (638-646), `E` the field after the mask. -/
noncomputable def legendreRate (a b : ℝ) (gamma : Fin nl → ℝ) (E : ℝ) (f : Fin nl → ℂ) (i : Fin nl) : ℂ :=
  -(E : ℂ) * ((∑ j, (deriv nl a b i j : ℂ) * f j)
    - ((gamma i / (b - a) : ℝ) : ℂ) * ((xiB i.val : ℂ) * (∑ j, (xiB j.val : ℂ) * f j) - (xiA i.val : ℂ) * (∑ j, (xiA j.val : ℂ) * f j)))

/-- `_legendre_force` (618-651). -/
noncomputable def legendreForce (a b : ℝ) (gamma : Fin nl → ℝ) (m : Option (ZMod N → Bool)) (E : ZMod N → ℝ) (B : Coef nl N) : Coef nl N := fun i =>
  masked m (toK fun x => legendreRate a b gamma (maskedForce m E x) (fun j => toX (masked m (B j)) x) i)

/-- The last Hermite coefficient. -/
def lastH : Fin nh := ⟨nh - 1, by have := NeZero.pos nh; omega⟩

/-- `_cross_coupling` (654-678). -/
noncomputable def cross (L alpha : ℝ) (cv : Fin nl → ℝ) (m : Option (ZMod N → Bool)) (E : ZMod N → ℝ) (C : Coef nh N) : Coef nl N := fun i k =>
  (cv i : ℂ) * (I * (kx L k : ℂ) * C lastH k
    + masked m (toK fun x => ((2 / alpha ^ 2 : ℝ) : ℂ) * (maskedForce m E x : ℂ) * toX (masked m (C lastH)) x) k)

/-- `_nonlinear_rhs` (897-937). -/
noncomputable def Setup.rhs (p : Setup nh nl N) (t : ℝ) (c : Cs nh nl N) : Cs nh nl N :=
  let E : ZMod N → ℝ := fun x => p.field c x + p.driven t x
  let x := cross p.L p.alpha p.coupling p.mask E c.1
  if p.integrator = .imex then (0, x)
  else (hermiteForce p.alpha p.mask E c.1, fun i k => legendreForce p.a p.b p.gamma p.mask E c.2 i k + x i k)

/-- `hermite_cayley_update` at one position (714-732): the scan over the modes. -/
noncomputable def cayleyH (alpha scale : ℝ) (C : Fin nh → ℂ) : ℕ → ℂ
  | 0 => C 0
  | n + 1 => if h : n + 1 < nh then
      C ⟨n + 1, h⟩ + (scale : ℂ) * ((-(Real.sqrt (2 * ((n : ℝ) + 1)) / alpha) : ℝ) : ℂ) * (C ⟨n, by omega⟩ + cayleyH alpha scale C n) else 0

/-- `legendre_cayley_update` at one position (735-801): the branch with eigenvectors. -/
noncomputable def cayleySkew (d : SkewEigh nl) (scale : ℝ) (B : Fin nl → ℂ) : Fin nl → ℂ :=
  d.W *ᵥ fun j => (1 - I * (d.lam j : ℂ) * (scale : ℂ)) / (1 + I * (d.lam j : ℂ) * (scale : ℂ)) * (d.Wᴴ *ᵥ B) j

/-- The Woodbury branch (770-801). -/
noncomputable def cayleyWoodbury (a b : ℝ) (gamma : Fin nl → ℝ) (scale : ℝ) (B : Fin nl → ℂ) : Fin nl → ℂ :=
  let D : Matrix (Fin nl) (Fin nl) ℂ := (deriv nl a b).map ofReal
  let g : Fin nl → ℂ := fun m => ((gamma m / (b - a) : ℝ) : ℂ)
  let xb : Fin nl → ℂ := fun m => (xiB m.val : ℂ)
  let xa : Fin nl → ℂ := fun m => (xiA m.val : ℂ)
  let penalty : Fin nl → ℂ := fun m => g m * (xb m * (xb ⬝ᵥ B) - xa m * (xa ⬝ᵥ B))
  let rhs : Fin nl → ℂ := fun m => B m + (scale : ℂ) * (penalty m - (D *ᵥ B) m)
  let A : Matrix (Fin nl) (Fin nl) ℂ := 1 + (scale : ℂ) • D
  let U : Matrix (Fin nl) (Fin 2) ℂ := fun m => ![-(scale : ℂ) * (g m * xb m), (scale : ℂ) * (g m * xa m)]
  let z := A⁻¹ *ᵥ rhs
  let W := A⁻¹ * U
  let V : Matrix (Fin 2) (Fin nl) ℂ := ![xb, xa]
  let weights := (1 + V * W)⁻¹ *ᵥ (V *ᵥ z)
  z - W *ᵥ weights

noncomputable def Setup.cayleyL (p : Setup nh nl N) (scale : ℝ) (B : Fin nl → ℂ) : Fin nl → ℂ :=
  match p.skew with
  | some d => cayleySkew d scale B
  | none => cayleyWoodbury p.a p.b p.gamma scale B

/-- `_force_cayley` (970-996). -/
noncomputable def Setup.forceCayley (p : Setup nh nl N) (E : ZMod N → ℝ) (c : Cs nh nl N) : Cs nh nl N :=
  (fun i => masked p.mask (toK fun x => cayleyH p.alpha (0.5 * p.dt * E x) (fun j => toX (masked p.mask (c.1 j)) x) i.val),
    fun m => masked p.mask (toK fun x => p.cayleyL (0.5 * p.dt * E x) (fun j => toX (masked p.mask (c.2 j)) x) m))

/-- The moment map of the split path (889-893). -/
noncomputable def Setup.moments (p : Setup nh nl N) : Matrix (Fin 3) (Fin 6) ℝ := momentMatrix p.alpha p.u (TL nl p.a p.b) (p.b - p.a)

/-- `_moment_density` (998-1004). -/
noncomputable def Setup.momentDensity (p : Setup nh nl N) (c : Cs nh nl N) (E : ZMod N → ℝ) (i : Fin 3) : ℝ :=
  (p.moments *ᵥ low (fun j => (c.1 j 0).re) (fun j => (c.2 j 0).re)) i + (if i = 2 then 0.5 * ((∑ x, E x ^ 2) / N) else 0)

/-- `_moment_projector` (892-893). -/
noncomputable def projector (M : Matrix (Fin 3) (Fin 6) ℝ) : Matrix (Fin 6) (Fin 3) ℝ := Mᵀ * (M * Mᵀ)⁻¹

/-- `_conservation_correct` (1006-1019): the correction and the corrected state. -/
noncomputable def Setup.delta (p : Setup nh nl N) (target : Fin 3 → ℝ) (c : Cs nh nl N) : Fin 6 → ℝ :=
  projector p.moments *ᵥ fun i => target i - p.momentDensity c (p.field c) i
noncomputable def Setup.correct (p : Setup nh nl N) (target : Fin 3 → ℝ) (c : Cs nh nl N) : Cs nh nl N :=
  (fun i k => c.1 i k + (if h : i.val < 3 ∧ k = 0 then ((p.delta target c ⟨i.val, by omega⟩ : ℝ) : ℂ) else 0),
    fun i k => c.2 i k + (if h : i.val < 3 ∧ k = 0 then ((p.delta target c ⟨i.val + 3, by omega⟩ : ℝ) : ℂ) else 0))

/-- One pass of the corrector loop (1070-1085): from `E_mid` the forced state and the next `E_mid`. -/
noncomputable def Setup.corrector (p : Setup nh nl N) (t : ℝ) (h : Cs nh nl N) (Eleft Emid : ZMod N → ℝ) : Cs nh nl N × (ZMod N → ℝ) :=
  let f := p.forceCayley Emid h
  let mid : Coef nh N := fun i k => 0.5 * (h.1 i k + f.1 i k)
  let c : Cs nh nl N := (f.1, fun i k => f.2 i k + p.dt * cross p.L p.alpha p.coupling p.mask Emid mid i k)
  (c, fun x => 0.5 * (Eleft x + (p.field c x + p.driven (t + 0.5 * p.dt) x)))

/-- The loop: after `n` more passes (the first is always made; `split_field_iters` is at least one). -/
noncomputable def Setup.correctorLoop (p : Setup nh nl N) (t : ℝ) (h : Cs nh nl N) (Eleft Emid : ZMod N → ℝ) : ℕ → Cs nh nl N × (ZMod N → ℝ)
  | 0 => p.corrector t h Eleft Emid
  | n + 1 => p.corrector t h Eleft (p.correctorLoop t h Eleft Emid n).2

/-- `_split_step` (1036-1090), without the residual diagnostic. -/
noncomputable def Setup.splitStep (p : Setup nh nl N) (t : ℝ) (c : Cs nh nl N) : Cs nh nl N :=
  let target := p.momentDensity c (p.field c)
  let h := p.exp (0.5 * p.dt) c
  let Eleft : ZMod N → ℝ := fun x => p.field h x + p.driven (t + 0.5 * p.dt) x
  let pr := p.forceCayley Eleft h
  let pred : Cs nh nl N := (pr.1, fun i k => pr.2 i k + p.dt * cross p.L p.alpha p.coupling p.mask Eleft h.1 i k)
  let Emid : ZMod N → ℝ := fun x => 0.5 * (Eleft x + (p.field pred x + p.driven (t + 0.5 * p.dt) x))
  let forced := (p.correctorLoop t h Eleft Emid (p.iters - 1)).1
  let out := p.exp (0.5 * p.dt) forced
  if p.enforce ∧ p.driver.isNone then p.correct target out else out

/-- `_implicit_E_substep` (1092-1127). -/
noncomputable def Setup.implicitE (p : Setup nh nl N) (E : ZMod N → ℝ) (c : Cs nh nl N) : Cs nh nl N :=
  (fun i => masked p.mask (toK fun x =>
      ((1 - ((p.dt * E x : ℝ) : ℂ) • (GC nh p.alpha).map ofReal)⁻¹ *ᵥ fun j => toX (masked p.mask (c.1 j)) x) i),
    fun m => masked p.mask (toK fun x =>
      ((1 - ((p.dt * E x : ℝ) : ℂ) • (GB p.a p.b p.gamma).map ofReal)⁻¹ *ᵥ fun j => toX (masked p.mask (c.2 j)) x) m))

/-- The physical collisions over a time `s` (365-393, 497-523); `nu` zero or no time: unchanged. -/
noncomputable def Setup.collide (p : Setup nh nl N) (s : ℝ) (c : Cs nh nl N) : Cs nh nl N :=
  match p.collision with
  | none => c
  | some (.bgk nu minT) => if nu = 0 ∨ s = 0 then c else pointwise (bgkAt ⟨nu, p.alpha, p.u, minT⟩ p.moments s) c
  | some (.dougherty nu minT d) =>
    if nu = 0 ∨ s = 0 then c else pointwise (doughertyAt ⟨nu, p.alpha, p.u, minT⟩ p.moments p.a p.b d s) c

/-- The kinetic part of a step: between the two collision half steps (1135-1153). -/
noncomputable def Setup.kinetic (p : Setup nh nl N) (t : ℝ) (c : Cs nh nl N) : Cs nh nl N :=
  match p.integrator with
  | .split => p.splitStep t c
  | .lawson => lawson p.exp p.rhs t p.dt c
  | .imex =>
    let y := lawson p.exp p.rhs t p.dt c
    p.implicitE (fun x => p.field y x + p.driven (t + p.dt) x) y

/-- The state (1165-1175), without the residual and correction diagnostics. -/
structure State (nh nl N : ℕ) where
  c : Cs nh nl N
  e : ZMod N → ℝ
  phi : ZMod N → ℝ
  de : ZMod N → ℝ

/-- `HermiteLegendre1DVectorField.__call__` (1129-1175). -/
noncomputable def Setup.step (p : Setup nh nl N) (t : ℝ) (y : State nh nl N) : State nh nl N :=
  let c := p.collide (0.5 * p.dt) (p.kinetic t (p.collide (0.5 * p.dt) y.c))
  ⟨c, p.field c, p.potential c, p.driven (t + p.dt)⟩

/-- `diffeqsolve` with `Stepper` and the constant step (modules.py:505-523). -/
noncomputable def Setup.run (p : Setup nh nl N) (y : State nh nl N) : ℕ → State nh nl N
  | 0 => y
  | n + 1 => p.step (n * p.dt) (p.run y n)

/-! ### Diagnostics -/

/-- `default_save_func`'s integrals (storage.py:78-81): a missing mode counts as zero. -/
noncomputable def intg {n : ℕ} (Lx : ℝ) (C : Coef n N) (i : ℕ) : ℝ := if h : i < n then Lx * (C ⟨i, h⟩ 0).re else 0

/-- The saved mass, momentum and energy (storage.py:83-91), `e` the saved field. -/
noncomputable def savedMass (alpha w Lx : ℝ) (c : Cs nh nl N) : ℝ := alpha * intg Lx c.1 0 + w * intg Lx c.2 0
noncomputable def savedMomentum (alpha u w sb Lx : ℝ) (c : Cs nh nl N) : ℝ :=
  alpha ^ 2 / Real.sqrt 2 * intg Lx c.1 1 + u * alpha * intg Lx c.1 0 + w * sigma w 1 * intg Lx c.2 1 + sb * w * intg Lx c.2 0
noncomputable def savedEnergy (alpha u w sb Lx : ℝ) (c : Cs nh nl N) (e : ZMod N → ℝ) : ℝ :=
  alpha / 2 * (alpha ^ 2 / Real.sqrt 2 * intg Lx c.1 2 + Real.sqrt 2 * u * alpha * intg Lx c.1 1 + (alpha ^ 2 / 2 + u ^ 2) * intg Lx c.1 0)
    + w / 2 * (sigma w 2 * sigma w 1 * intg Lx c.2 2 + 2 * sigma w 1 * sb * intg Lx c.2 1 + (sigma w 1 ^ 2 + sb ^ 2) * intg Lx c.2 0)
    + 0.5 * (∑ x, e x ^ 2) * (Lx / N)

/-- `high_legendre_fraction` (1030-1033). -/
noncomputable def highFraction (B : Coef nl N) : ℝ :=
  let total := ∑ m, ∑ k, ‖B m k‖ ^ 2
  if 0 < total then (∑ m : Fin nl, if max 3 (3 * nl / 4) ≤ m.val then ∑ k, ‖B m k‖ ^ 2 else 0) / total else 0

/-- Occupancy of the ends of the window (1023-1028, modules.py:328-332): the largest modulus of the Legendre part at
`v_a` and at `v_b`. -/
noncomputable def boundaryA (B : Coef nl N) : ℝ := Finset.univ.sup' ⟨(0 : ZMod N), mem_univ _⟩ fun x => ‖∑ m : Fin nl, (xiA m.val : ℂ) * toX (B m) x‖
noncomputable def boundaryB (B : Coef nl N) : ℝ := Finset.univ.sup' ⟨(0 : ZMod N), mem_univ _⟩ fun x => ‖∑ m : Fin nl, (xiB m.val : ℂ) * toX (B m) x‖

/-! ### Initial states (modules.py) -/

/-- `_density_profile` (modules.py:57-59) on the grid of 222. -/
noncomputable def profile (L base eps : ℝ) (mode : ℤ) (x : ZMod N) : ℝ :=
  base * (1 + eps * Real.cos (2 * Real.pi * mode * (x.val * (L / N)) / L))

/-- `_project_legendre` (modules.py:153-163) with the nodes and weights `leggauss` returns. -/
noncomputable def project (rule : List (ℝ × ℝ)) (a b : ℝ) (g : ℝ → ℝ) (m : ℕ) : ℝ :=
  (rule.map fun z => (xi a b m).eval (0.5 * (b - a) * z.1 + 0.5 * (b + a)) *
    (g (0.5 * (b - a) * z.1 + 0.5 * (b + a)) * (0.5 * (b - a) * z.2))).sum / (b - a)

/-- A beam of the deck: `amp exp(-(v - v_drift)^2 / (2 v_th^2))` (modules.py:281-282, 299-301). -/
structure Beam where
  amp : ℝ
  drift : Option ℝ := none
  vth : Option ℝ := none

noncomputable def Beam.at (q : Beam) (v : ℝ) : ℝ :=
  q.amp * Real.exp (-(v - q.drift.getD 0) ^ 2 / (2 * q.vth.getD 1 ^ 2))

/-- `g` of the custom state (modules.py:296-302). -/
noncomputable def beams (qs : List Beam) (v : ℝ) : ℝ := qs.foldl (fun out q => out + q.at v) 0

/-- An entry of `hermite` of the custom state: the key, `base`, `eps`, `mode`. -/
structure Row where
  key : ℤ
  base : Option ℝ := none
  eps : Option ℝ := none
  mode : Option ℤ := none

/-- `df` of the custom state; the model's `none` is a missing or empty entry. -/
structure DfDeck where
  beams : List Beam := []
  eps : Option ℝ := none
  mode : Option ℤ := none

/-- The entry `initialization` of the deck (modules.py:255-308); a missing entry is the empty one. -/
structure InitDeck where
  type : Option String := none
  eps : Option ℝ := none
  mode : Option ℤ := none
  nBeam : Option ℝ := none
  vDrift : Option ℝ := none
  vTh : Option ℝ := none
  hermite : List Row := []
  df : Option DfDeck := none

/-- Index of an array axis, as numpy resolves it: negative ones count from the end. -/
def axisIx (n : ℕ) (k : ℤ) : Option (Fin n) :=
  if h : 0 ≤ k ∧ k < n then some ⟨k.toNat, by omega⟩
  else if h : -(n : ℤ) ≤ k ∧ k < 0 then some ⟨(k + n).toNat, by omega⟩ else none

/-- Real coefficients on the grid. -/
abbrev Init (nh nl N : ℕ) := (Fin nh → ZMod N → ℝ) × (Fin nl → ZMod N → ℝ)

/-- The rows of the custom state, in the order of the deck (modules.py:287-291). -/
noncomputable def setRows (L : ℝ) : List Row → (Fin nh → ZMod N → ℝ) → Except String (Fin nh → ZMod N → ℝ)
  | [], C => .ok C
  | r :: rs, C => match axisIx nh r.key with
    | none => .error "IndexError"
    | some i => setRows L rs (Function.update C i (profile L (r.base.getD 0) (r.eps.getD 0) (r.mode.getD 1)))

/-- The coefficients of `init_state_and_args` (modules.py:252-308). -/
noncomputable def initial (d : InitDeck) (rule : List (ℝ × ℝ)) (L alpha a b : ℝ) : Except String (Init nh nl N) :=
  let t := d.type.getD "linear-advection"
  if t = "linear-advection" then
    .ok (fun i x => if i.val = 0 then profile L 1 (d.eps.getD 1) (d.mode.getD 1) x / alpha else 0, fun _ _ => 0)
  else if t = "two-stream" then
    .ok (fun i x => if i.val = 0 then profile L 1 (d.eps.getD 0.01) (d.mode.getD 1) x / alpha
      else if i.val = 2 then Real.sqrt 2 * (profile L 1 (d.eps.getD 0.01) (d.mode.getD 1) x / alpha) else 0, fun _ _ => 0)
  else if t = "bump-on-tail" then
    let n := d.nBeam.getD 0.01
    let g : Beam := ⟨n / (Real.sqrt (2 * Real.pi) * d.vTh.getD 1), some (d.vDrift.getD 10), some (d.vTh.getD 1)⟩
    .ok (fun i x => if i.val = 0 then profile L (1 - n) (d.eps.getD 1e-4) (d.mode.getD 1) x / alpha else 0,
      fun m _ => project rule a b g.at m.val)
  else if t = "custom" then
    match setRows L d.hermite (fun _ _ => 0) with
    | .error e => .error e
    | .ok C => .ok (C, fun m x => match d.df with
      | none => 0
      | some f => project rule a b (beams f.beams) m.val * profile L 1 (f.eps.getD 0) (f.mode.getD 1) x)
  else .error "ValueError: initialization.type"

/-- The state the run starts from (modules.py:310-350). -/
noncomputable def Setup.start (p : Setup nh nl N) (i : Init nh nl N) : State nh nl N :=
  let c : Cs nh nl N := (fun n => toK fun x => (i.1 n x : ℂ), fun m => toK fun x => (i.2 m x : ℂ))
  ⟨c, p.field c, p.potential c, fun _ => 0⟩

/-- `ExternalExDriver` (38-79) on the grid; `none` without pulses in the deck (modules.py:432-433).  Its sum over the pulses
is that of the Hermite-Poisson driver. -/
noncomputable def exDriver (L : ℝ) (qs : List Pulse) : Option (ℝ → ZMod N → ℝ) :=
  if qs.isEmpty then none else some fun t x => longitudinal qs (x.val * (L / N)) t

/-! ### Construction -/

/-- The checks of `init_diffeqsolve` (modules.py:366-381, 405-413) and of the collision constructors (340-341,
432-433, the finiteness of `sqrt_factorial` aside), in the order they are made.
The moment matrix always has six columns, so the second half of the check at 340 never fires; `nu` a rational for decidability. -/
def checks (integrator : String) (nh nl : ℕ) (iters : ℤ) (model : String) (nu : ℚ) : Except String Unit :=
  if integrator ≠ "lawson" ∧ integrator ≠ "imex" ∧ integrator ≠ "split" then .error "ValueError: integrator"
  else if integrator = "split" ∧ (nh < 3 ∨ nl < 3) then .error "ValueError: split needs three modes"
  else if iters < 1 then .error "ValueError: split_field_iters"
  else if model ≠ "none" ∧ model ≠ "off" ∧ model ≠ "bgk" ∧ model ≠ "dougherty" then .error "ValueError: collision model"
  else if nu < 0 then .error "ValueError: nu"
  else if model = "bgk" ∧ 0 < nu ∧ nh < 3 then .error "ValueError: BGK"
  else if model = "dougherty" ∧ 0 < nu ∧ (nh < 3 ∨ nl < 3) then .error "ValueError: Dougherty"
  else .ok ()

end Verif.HermiteLegendre
