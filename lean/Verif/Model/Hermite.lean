import Verif.Model.Wave
import Verif.Model.Driver
import Mathlib.LinearAlgebra.Matrix.Notation
import Mathlib.Data.Matrix.Mul

/-!
Model of the Hermite-Poisson solver (adept/_hermite_poisson_1d): linear exponentials, Poisson
field, force terms, both integrators, sponge, initial state.

A coefficient array `Ck[n, k]` is a function of `Fin n` and `ZMod N` (FFT order); complex numbers
stored as pairs of floats are complex numbers.  Exact arithmetic.  External and therefore
parameters: `jnp.linalg.eigh` (its result `V`, `lam`), the envelopes' times and the noise draw.
-/
namespace Verif.Hermite
open Finset Complex Verif.Spectral

variable {N : ℕ} [NeZero N]

/-- `jnp.fft.ifft(., norm="forward")` and `jnp.fft.fft(., norm="forward")`. -/
noncomputable def toX (c : ZMod N → ℂ) (x : ZMod N) : ℂ := N * ifft c x
noncomputable def toK (f : ZMod N → ℂ) (k : ZMod N) : ℂ := fft f k / N

/-- `kx_1d` (modules.py:157). -/
noncomputable def kx (L : ℝ) (k : ZMod N) : ℝ := Grid.fftfreqAt N (1 : ℝ) k.val * N * 2 * Real.pi / L

/-- `one_over_kx` (modules.py:158-160). -/
noncomputable def oneOverKx (L : ℝ) (k : ZMod N) : ℝ := if k.val = 0 then 0 else 1 / kx L k

/-- Coefficients of one species. -/
abbrev Coef (n N : ℕ) := Fin n → ZMod N → ℂ

/-! ### Linear exponentials -/

/-- The matrix `FreeStreamingExp1D.__init__` diagonalises (vector_field.py:183-206); for one
mode this is the single entry used there. -/
noncomputable def streamMatrix (n : ℕ) (alpha u : ℝ) : Matrix (Fin n) (Fin n) ℝ := fun i j =>
  (if j.val = i.val + 1 then Real.sqrt ((i.val + 1) / 2) else 0) + (if i.val = j.val + 1 then Real.sqrt ((j.val + 1) / 2) else 0)
    + u / alpha * (if i = j then 1 else 0)

/-- What `jnp.linalg.eigh` returns. -/
structure Eigh (n : ℕ) where
  V : Matrix (Fin n) (Fin n) ℝ
  lam : Fin n → ℝ

/-- `FreeStreamingExp1D.apply` (vector_field.py:208-216). -/
noncomputable def stream {n : ℕ} (d : Eigh n) (alpha : ℝ) (k : ZMod N → ℝ) (C : Coef n N) (s : ℝ) : Coef n N := fun i q =>
  ∑ j, (d.V i j : ℂ) * ((∑ m, (d.V m j : ℂ) * C m q) * cexp (-I * alpha * s * d.lam j * k q))

/-- `DiagonalExp1D` (vector_field.py:218-255): `filter` is the strength and profile, `none` when
there is no profile. -/
structure Damping (n : ℕ) where
  nu : ℝ
  col : Fin n → ℝ
  D : ℝ
  filter : Option (ℝ × (Fin n → ℝ))

/-- The rate of the filter: used only when its strength is positive (vector_field.py:246-255). -/
noncomputable def filterRate {n : ℕ} (f : Option (ℝ × (Fin n → ℝ))) (i : Fin n) : ℝ :=
  match f with
  | some (s, p) => if 0 < s then s * p i else 0
  | none => 0
noncomputable def Damping.apply {n : ℕ} (d : Damping n) (k : ZMod N → ℝ) (C : Coef n N) (s : ℝ) : Coef n N := fun i q =>
  C i q * (Real.exp (-d.nu * d.col i * s + -d.D * k q ^ 2 * s + -filterRate d.filter i * s) : ℝ)

/-- `LinearExp1D.apply` (vector_field.py:264-267). -/
noncomputable def linear {n : ℕ} (e : Eigh n) (alpha : ℝ) (d : Damping n) (k : ZMod N → ℝ) (C : Coef n N) (s : ℝ) : Coef n N :=
  d.apply k (stream e alpha k C s) s

/-- `_safe_col_1d` (modules.py:48-53). -/
noncomputable def hyperCol (n : ℕ) (i : Fin n) : ℝ :=
  if 3 < n then (i.val : ℝ) * (i.val - 1) * (i.val - 2) / ((n - 1) * (n - 2) * (n - 3)) else 0

/-- `_collision_profile` (modules.py:56-76). -/
noncomputable def collisionProfile (n : ℕ) (model : String) : Except String (Fin n → ℝ) :=
  if model = "lenard-bernstein" then .ok fun i => if 3 ≤ i.val then (i.val : ℝ) else 0
  else if model = "hypercollision" then .ok (hyperCol n)
  else .error "ValueError"

/-- The filter profiles (modules.py:302-318): `profile` is any string, other than `knee` it means
`houli`. -/
noncomputable def filterProfile (n : ℕ) (profile : String) (knee width order : ℝ) (i : Fin n) : ℝ :=
  if profile = "knee" then 0.5 * (1 + Real.tanh ((i.val - knee) / width))
  else ((i.val : ℝ) / max ((n : ℝ) - 1) 1) ^ order

/-! ### Poisson -/

/-- `electron_density`, `ion_density` without static background (vector_field.py:335-345). -/
noncomputable def density {n : ℕ} [NeZero n] (alpha : ℝ) (C : Coef n N) (x : ZMod N) : ℝ := alpha ^ 3 * (toX (C 0) x).re

/-- `PoissonSolver1D.__call__` (vector_field.py:347-361) for a charge density. -/
noncomputable def field (L : ℝ) (rho : ZMod N → ℝ) (x : ZMod N) : ℝ :=
  (toX (fun k => -I * (oneOverKx L k : ℂ) * toK (fun j => (rho j : ℂ)) k) x).re

/-! ### Force -/

/-- Shift along the mode axis: `C[n-1]`, zero for the first row (vector_field.py:409-415). -/
def up {n : ℕ} {A : Type} [Zero A] (C : Fin n → A) (i : Fin n) : A := if h : i.val = 0 then 0 else C ⟨i.val - 1, by omega⟩

/-- The 2/3 mask (modules.py:331-333) and its application; `none` is no mask. -/
noncomputable def mask23 (N : ℕ) [NeZero N] (k : ZMod N) : Bool := decide (|Grid.fftfreqAt N (1 : ℝ) k.val * N| ≤ ((N / 3 : ℕ) : ℝ))
def masked (m : Option (ZMod N → Bool)) (c : ZMod N → ℂ) (k : ZMod N) : ℂ :=
  match m with
  | some m => if m k then c k else 0
  | none => c k
/-- The force after the mask (vector_field.py:400-412, 455-466). -/
noncomputable def maskedForce (m : Option (ZMod N → Bool)) (F : ZMod N → ℝ) (x : ZMod N) : ℝ :=
  match m with
  | some _ => (toX (masked m (toK fun j => (F j : ℂ))) x).re
  | none => F x

/-- `_hermite_e_coupling` (vector_field.py:364-421). -/
noncomputable def coupling {n : ℕ} (C : Coef n N) (F : ZMod N → ℝ) (qm alpha omega : ℝ) (m : Option (ZMod N → Bool)) : Coef n N := fun i =>
  masked m fun k => qm * omega * toK (fun x => (Real.sqrt i.val * Real.sqrt 2 / alpha : ℝ) * (maskedForce m F x : ℂ) *
    up (fun j => toX (masked m (C j)) x) i) k

/-- One position of the loop of `_exp_force_substep` (vector_field.py:467-480): the sum so far and
the last term. -/
noncomputable def forceLoop {n : ℕ} (kdt : Fin n → ℝ) (C : Fin n → ℂ) : ℕ → (Fin n → ℂ) × (Fin n → ℂ)
  | 0 => (C, C)
  | k + 1 =>
    let prev := forceLoop kdt C k
    let term : Fin n → ℂ := fun i => (kdt i : ℂ) * up prev.2 i / ((k : ℂ) + 1)
    (fun i => prev.1 i + term i, term)

/-- `k_max` (vector_field.py:473). -/
def kMax (n terms : ℕ) : ℕ := if 1 < n then min terms (n - 1) else 0

/-- `_exp_force_substep` (vector_field.py:424-486). -/
noncomputable def forceExp {n : ℕ} (C : Coef n N) (accel : ZMod N → ℝ) (alpha omega dt : ℝ) (m : Option (ZMod N → Bool)) (terms : ℕ) : Coef n N := fun i =>
  masked m (toK fun x => (forceLoop (fun i => omega * Real.sqrt 2 / alpha * Real.sqrt i.val * dt * maskedForce m accel x)
    (fun j => toX (masked m (C j)) x) (kMax n terms)).1 i)

/-- `jnp.gradient(g, dx)` of an array of `N` values, `N` at least 2. -/
noncomputable def gradient (N : ℕ) (dx : ℝ) (g : ℕ → ℝ) (i : ℕ) : ℝ :=
  if i = 0 then (g 1 - g 0) / dx else if i + 1 = N then (g (N - 1) - g (N - 2)) / dx else (g (i + 1) - g (i - 1)) / (2 * dx)

/-- The ponderomotive term `-0.5 * gradient(a^2)`; `a` with its ghost cells (vector_field.py:655-657, 818-819). -/
noncomputable def pond (dx : ℝ) (a : ℕ → ℝ) (x : ZMod N) : ℝ := -0.5 * gradient N dx (fun i => a (i + 1) ^ 2) x.val

/-- `accel_e`, `accel_i` (vector_field.py:661, 676, 821, 844). -/
noncomputable def acceleration (qm : ℝ) (e fp : ZMod N → ℝ) (x : ZMod N) : ℝ := qm * e x + qm ^ 2 * fp x

/-! ### The step -/

/-- Electron and ion coefficients. -/
abbrev Ks (ne ni N : ℕ) := Coef ne N × Coef ni N

/-- What `HermitePoisson1DVectorField` and its operators hold (vector_field.py:531-618,
modules.py:254-421). -/
structure Setup (ne ni N : ℕ) where
  L : ℝ
  dt : ℝ
  dx : ℝ
  cLight : ℝ
  alphaE : ℝ
  alphaI : ℝ
  qmE : ℝ
  qmI : ℝ
  omega : ℝ
  eighE : Eigh ne
  eighI : Eigh ni
  dampE : Damping ne
  dampI : Damping ni
  staticIons : Bool
  staticDensity : Option (ZMod N → ℝ)
  mask : Option (ZMod N → Bool)
  terms : ℕ
  strang : Bool
  linearResponse : Bool
  eqE : Coef ne N
  eqI : Coef ni N
  densityMax : Option ℝ
  exDriver : ℝ → ZMod N → ℝ
  eyDriver : ℝ → ℕ → ℝ
  noise : ℝ → ZMod N → ℝ
  spongePlasma : Option (ZMod N → ℝ)
  spongeFields : Option (ZMod N → ℝ)

/-- The state dictionary (modules.py:1-16). -/
structure State (ne ni N : ℕ) where
  c : Ks ne ni N
  a : ℕ → ℝ
  prev : ℕ → ℝ
  e : ZMod N → ℝ
  da : ℕ → ℝ
  de : ZMod N → ℝ

variable {ne ni : ℕ} [NeZero ne] [NeZero ni]

/-- `CombinedLinearExp1D.apply` (vector_field.py:287-303). -/
noncomputable def Setup.exp (p : Setup ne ni N) (s : ℝ) (c : Ks ne ni N) : Ks ne ni N :=
  (linear p.eighE p.alphaE p.dampE (kx p.L) c.1 s,
    if p.staticIons then c.2 else linear p.eighI p.alphaI p.dampI (kx p.L) c.2 s)

/-- The field of the state (vector_field.py:335-361). -/
noncomputable def Setup.ionDensity (p : Setup ne ni N) (c : Coef ni N) (x : ZMod N) : ℝ :=
  match p.staticDensity with
  | some n => n x
  | none => density p.alphaI c x
noncomputable def Setup.ex (p : Setup ne ni N) (c : Ks ne ni N) : ZMod N → ℝ :=
  field p.L fun x => p.ionDensity c.2 x - density p.alphaE c.1 x

/-- `_nonlinear_rhs` (vector_field.py:629-700): only the coefficients; the other entries are zero. -/
noncomputable def Setup.rhs (p : Setup ne ni N) (fp noise : ZMod N → ℝ) (t : ℝ) (c : Ks ne ni N) : Ks ne ni N :=
  let f : ZMod N → ℝ := fun x => p.ex c x + p.exDriver t x + noise x
  (coupling c.1 (acceleration p.qmE f fp) 1 p.alphaE p.omega p.mask,
    if p.staticIons then 0 else coupling c.2 (acceleration p.qmI f fp) 1 p.alphaI p.omega p.mask)

/-- The arithmetic of `_lawson_rk4` (vector_field.py:702-738), for any linear flow `S` and force `F`. -/
noncomputable def lawson {E : Type*} [AddCommGroup E] [Module ℝ E] (S : ℝ → E → E) (F : ℝ → E → E) (t dt : ℝ) (y : E) : E :=
  let ehY := S (dt / 2) y
  let efY := S dt y
  let n1 := F t y
  let ehN1 := S (dt / 2) n1
  let yStar := ehY + (dt / 2) • ehN1
  let n2 := F (t + dt / 2) yStar
  let yDstar := ehY + (dt / 2) • n2
  let n3 := F (t + dt / 2) yDstar
  let ehN3 := S (dt / 2) n3
  let yTstar := efY + dt • ehN3
  let n4 := F (t + dt) yTstar
  let efN1 := S dt n1
  let ehN2 := S (dt / 2) n2
  efY + (dt / 6) • ((efN1 + (2 : ℝ) • ehN2) + ((2 : ℝ) • ehN3 + n4))

/-- The force substep of one species (vector_field.py:822-865). -/
noncomputable def Setup.force (p : Setup ne ni N) {n : ℕ} (C eq : Coef n N) (accel : ZMod N → ℝ) (alpha : ℝ) : Coef n N :=
  if p.linearResponse then fun i k => C i k + p.dt * coupling eq accel 1 alpha p.omega p.mask i k
  else forceExp C accel alpha p.omega p.dt p.mask p.terms

/-- The coefficients after `_strang_exp_step` (vector_field.py:783-892), before the sponge. -/
noncomputable def Setup.strangStep (p : Setup ne ni N) (t : ℝ) (y : State ne ni N) : Ks ne ni N :=
  let h := p.exp (p.dt / 2) y.c
  let aMid : ℕ → ℝ := fun i => 1.5 * y.a i - 0.5 * y.prev i
  let fp : ZMod N → ℝ := pond p.dx aMid
  let f : ZMod N → ℝ := fun x => p.ex h x + p.exDriver (t + 0.5 * p.dt) x + p.noise t x
  p.exp (p.dt / 2) (p.force h.1 p.eqE (acceleration p.qmE f fp) p.alphaE,
    if p.staticIons then h.2 else p.force h.2 p.eqI (acceleration p.qmI f fp) p.alphaI)

/-- `_apply_sponge` on one species (vector_field.py:744-760). -/
noncomputable def spongeK {n : ℕ} (sponge : Option (ZMod N → ℝ)) (dt : ℝ) (C : Coef n N) : Coef n N :=
  match sponge with
  | some s => fun i => toK fun x => toX (C i) x * ((if i.val = 0 then 1 else Real.exp (-s x * dt) : ℝ) : ℂ)
  | none => C

/-- `_apply_sponge` on `a` or `prev_a` (vector_field.py:761-771). -/
noncomputable def spongeA (sponge : Option (ZMod N → ℝ)) (dt : ℝ) (a : ℕ → ℝ) : ℕ → ℝ :=
  match sponge with
  | some s => fun i => if 1 ≤ i ∧ i ≤ N then a i * Real.exp (-s ((i - 1 : ℕ) : ZMod N) * dt) else a i
  | none => a

/-- The clipped density (vector_field.py:801-802). -/
noncomputable def clip (m : Option ℝ) (x : ℝ) : ℝ :=
  match m with
  | some m => min (max x 0) m
  | none => x

/-- `HermitePoisson1DVectorField.__call__` (vector_field.py:777-946). -/
noncomputable def Setup.step (p : Setup ne ni N) (t : ℝ) (y : State ne ni N) : State ne ni N :=
  let w : Wave.Solver := ⟨p.cLight, p.dx, p.dt⟩
  let c := if p.strang then p.strangStep t y
    else lawson p.exp (p.rhs (pond p.dx y.a) (p.noise t)) t p.dt y.c
  let djy := if p.strang then p.eyDriver t else p.eyDriver (t + 0.5 * p.dt)
  let ne : ZMod N → ℝ := if p.strang then fun x => clip p.densityMax (density p.alphaE y.c.1 x)
    else fun x => 0.5 * (density p.alphaE y.c.1 x + density p.alphaE c.1 x)
  let a := w.step N y.a y.prev djy fun i => ne ((i : ℕ) : ZMod N)
  ⟨(spongeK p.spongePlasma p.dt c.1, spongeK p.spongePlasma p.dt c.2),
    spongeA p.spongeFields p.dt a.1, spongeA p.spongeFields p.dt a.2, p.ex c, djy, p.exDriver t⟩

/-- `diffeqsolve` with `Stepper` and the constant step (modules.py:450-473). -/
noncomputable def Setup.run (p : Setup ne ni N) (y : State ne ni N) : ℕ → State ne ni N
  | 0 => y
  | n + 1 => p.step (n * p.dt) (p.run y n)

/-! ### Construction -/

/-- The checks of `HermitePoisson1DVectorField.__init__` (vector_field.py:562-566). -/
def setupOk (integrator : String) (linearResponse eqGiven : Bool) : Except String Unit :=
  if integrator ≠ "strang-exp" ∧ integrator ≠ "lawson-rk4" then .error "ValueError"
  else if linearResponse ∧ ¬ eqGiven then .error "ValueError"
  else .ok ()

/-- The electrons of `init_state_and_args` (modules.py:195-235).  The perturbation writes the indices
`mode` and `-mode` of the array: negative ones count from the end, and JAX drops a write whose index is out
of range; the two writes are symmetric in the sign of the mode, `m` its absolute value. -/
noncomputable def initialE (ne : ℕ) [NeZero ne] (alpha n0 : ℝ) (pert : Option (ℕ × ℝ)) : Coef ne N := fun i k =>
  let base : ℂ := if i = 0 ∧ k = 0 then ((n0 / alpha ^ 3 : ℝ) : ℂ) else 0
  match pert with
  | none => base
  | some (m, eps) =>
    if i = 0 ∧ ((m < N ∧ k = (m : ZMod N)) ∨ (m ≤ N ∧ k = -(m : ZMod N))) then ((0.5 * eps * n0 / alpha ^ 3 : ℝ) : ℂ) else base

/-! ### Drivers -/

/-- `tanh((ax - p) / 0)` with floating-point division: minus one before, one after.  At the point itself the
code gets `nan`; here zero. -/
noncomputable def edge (y : ℝ) : ℝ := if y < 0 then -1 else if 0 < y then 1 else 0

/-- `get_envelope(rise, rise, left, right, ax)` (adept/_base_.py:21-27), including the default rise of zero. -/
noncomputable def window (rise l r y : ℝ) : ℝ :=
  if rise = 0 then 0.5 * (edge (y - l) - edge (y - r)) else Driver.getEnvelope rise rise l r y

/-- A pulse of `TransverseWaveDriver` after parsing (vector_field.py:49-91). -/
structure Pulse where
  point : Bool
  a0 : ℝ
  w : ℝ
  k0 : ℝ
  tCenter : ℝ
  tHalf : ℝ
  tRise : ℝ
  xCenter : ℝ
  xHalf : ℝ
  xRise : ℝ

/-- `jnp.trapezoid(env_x, x_a)` on the `n` points. -/
noncomputable def trapezoid (n : ℕ) (x f : ℕ → ℝ) : ℝ := ∑ i ∈ range (n - 1), (x (i + 1) - x i) * (f i + f (i + 1)) / 2

/-- `TransverseWaveDriver.__init__`'s refusal of a pulse and the source at point `i`
(vector_field.py:76-103); `n` the number of points of `x_a`. -/
noncomputable def Pulse.envX (q : Pulse) (x : ℕ → ℝ) (i : ℕ) : ℝ :=
  window q.xRise (q.xCenter - q.xHalf) (q.xCenter + q.xHalf) (x i)
noncomputable def Pulse.ok (q : Pulse) (n : ℕ) (x : ℕ → ℝ) : Except String Unit :=
  if q.point then .ok () else if trapezoid n x (q.envX x) ≤ 0 then .error "ValueError" else .ok ()
noncomputable def Pulse.source (q : Pulse) (c : ℝ) (n : ℕ) (x : ℕ → ℝ) (t : ℝ) (i : ℕ) : ℝ :=
  let envT := window q.tRise (q.tCenter - q.tHalf) (q.tCenter + q.tHalf) t
  if q.point then
    let scale := 2 * q.w * c * q.a0 / (x 1 - x 0)
    let i0 := Driver.nearest q.xCenter ((List.range n).map x)
    scale * envT * (if i = i0 then 1 else 0) * Real.sin (q.w * t)
  else
    let cal := 2 * c / (q.w * trapezoid n x (q.envX x))
    let amp := -(q.w ^ 2) * q.a0 * cal
    envT * q.envX x i * amp * Real.sin (q.k0 * x i - q.w * t)

/-- `TransverseWaveDriver.__call__` (vector_field.py:93-102). -/
noncomputable def transverse (qs : List Pulse) (c : ℝ) (n : ℕ) (x : ℕ → ℝ) (t : ℝ) (i : ℕ) : ℝ :=
  qs.foldl (fun tot q => tot + q.source c n x t i) 0

/-- `LongitudinalElectricFieldDriver.__call__` (vector_field.py:154-161) at one position. -/
noncomputable def longitudinal (qs : List Pulse) (x t : ℝ) : ℝ :=
  qs.foldl (fun tot q => tot + window q.tRise (q.tCenter - q.tHalf) (q.tCenter + q.tHalf) t *
    window q.xRise (q.xCenter - q.xHalf) (q.xCenter + q.xHalf) x * q.w * q.a0 * Real.sin (q.k0 * x - q.w * t)) 0

end Verif.Hermite
