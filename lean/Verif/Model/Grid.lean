import Verif.Model.Py
import Mathlib.Algebra.Order.Floor.Ring
import Mathlib.Algebra.Order.Field.Basic

/-!
Model of the space and time grids of the solvers.  Exact arithmetic in an ordered
field with floor; `twoPi` stands for `2 * pi`.  Only positive cell counts are built by
`linspace` here.  Printed warnings are not modelled.
-/
namespace Verif.Grid
variable {K : Type} [Field K] [LinearOrder K] [FloorRing K]

/-- Python's `int(x)`: truncation towards zero. -/
def pyInt (x : K) : Int := if 0 ≤ x then ⌊x⌋ else ⌈x⌉

/-- Python's `round(x)`: nearest integer, ties to even. -/
def pyRound (x : K) : Int :=
  let f := ⌊x⌋
  let r := x - f
  if r < 1 / 2 then f else if 1 / 2 < r then f + 1 else if f % 2 = 0 then f else f + 1

/-- `numpy.linspace(a, b, n)`, entry `i`. -/
def linspaceAt (a b : K) (n : Nat) (i : Nat) : K := if n ≤ 1 then a else a + (i : K) * ((b - a) / ((n : K) - 1))

/-- `numpy.linspace(a, b, n)`. -/
def linspace (a b : K) (n : Nat) : List K := (List.range n).map (linspaceAt a b n)

/-- `numpy.fft.fftfreq(n, d)`, entry `j`. -/
def fftfreqAt (n : Nat) (d : K) (j : Nat) : K :=
  (if j < (n - 1) / 2 + 1 then (j : K) else (j : K) - (n : K)) / ((n : K) * d)

/-- `numpy.fft.rfftfreq(n, d)`, entry `j`. -/
def rfftfreqAt (n : Nat) (d : K) (j : Nat) : K := (j : K) / ((n : K) * d)

/-- `one_over_kx`: the reciprocal with entry 0 set to zero
(adept/_vlasov1d/grid.py:81-87). -/
def oneOver (k : List K) : List K := k.mapIdx fun j x => if j = 0 then 0 else 1 / x

/-- The fields of adept/_vlasov1d/grid.py:19-35. -/
structure Grid1 (K : Type) where
  dx : K
  dt : K
  nt : Int
  tmax : K
  maxSteps : Int
  x : List K
  t : List K
  kx : List K
  kxr : List K
  oneOverKx : List K
  oneOverKxr : List K
  xa : List K

/-- `Grid.__init__` of Vlasov-1D and PIC-1D (adept/_vlasov1d/grid.py:37-89). -/
def vlasov1d (twoPi xmin xmax : K) (nx : Nat) (tmaxReq dtReq : K) (em : Bool) (beta : K) : Grid1 K :=
  let dx := (xmax - xmin) / nx
  let dt := if em then min dtReq ((95 / 100) * dx / (1 / beta)) else dtReq
  let nt := pyInt (tmaxReq / dt + 1)
  let tmax := dt * nt
  let x := linspace (xmin + dx / 2) (xmax - dx / 2) nx
  let kx := (List.range nx).map fun j => fftfreqAt nx dx j * twoPi
  let kxr := (List.range (nx / 2 + 1)).map fun j => rfftfreqAt nx dx j * twoPi
  { dx, dt, nt, tmax
    maxSteps := min (nt + 4) 100000000
    x
    t := linspace 0 tmax nt.toNat
    kx, kxr
    oneOverKx := oneOver kx
    oneOverKxr := oneOver kxr
    xa := [x.headD 0 - dx] ++ x ++ [x.getLastD 0 + dx] }

/-- The time grid of a solver. -/
structure TimeGrid (K : Type) where
  dt : K
  nt : Int
  tmax : K
  maxSteps : Int

/-- Vlasov-2D (adept/_vlasov2d/grid.py:56-78). -/
def vlasov2d (dx dy tmaxReq dtReq : K) (em : Bool) (beta : K) : TimeGrid K :=
  let dt := if em then min dtReq ((1 / 2) * min dx dy / (1 / beta)) else dtReq
  let nt := pyInt (tmaxReq / dt + 1)
  ⟨dt, nt, dt * nt, min (nt + 4) 100000000⟩

/-- VFP-1D (adept/vfp1d/grid.py:100-113). -/
def vfp1d (tmaxReq dt : K) : TimeGrid K :=
  let nt := pyInt (tmaxReq / dt) + 1
  ⟨dt, nt, dt * nt, if nt > 1000000 then 1000000 else nt + 4⟩

/-- VFP-2D (adept/vfp2d/base.py:131-135). -/
def vfp2d (tmin tmaxReq dt : K) : TimeGrid K :=
  let nt := ⌈(tmaxReq - tmin) / dt⌉
  ⟨dt, nt, tmin + nt * dt, nt + 4⟩

/-- Two-fluid 1D (adept/_tf1d/modules.py:124-133). -/
def tf1d (xmax : K) (nx : Nat) (tmaxReq : K) : TimeGrid K :=
  let dt := (5 / 100) * (xmax / nx)
  let nt := pyInt (tmaxReq / dt + 1)
  ⟨dt, nt, dt * nt, if nt > 1000000 then 1000000 else nt + 4⟩

/-- Hermite-Poisson 1D (adept/_hermite_poisson_1d/modules.py:108-126); the infinite
time step of `c_light = 0` without a given `dt` is outside the model (`none`). -/
def hermitePoisson (Lx : K) (nx : Nat) (cLight tmaxReq : K) (userDt : Option K) : Option (TimeGrid K) :=
  let dx := Lx / nx
  let cfl := if 0 < cLight then some ((9 / 10) * dx / cLight) else none
  let dt := match userDt with
    | some d => if 0 < d then some d else cfl
    | none => cfl
  dt.map fun dt =>
    let nt := pyInt (tmaxReq / dt) + 1
    ⟨dt, nt, dt * nt, nt + 4⟩

/-- Hermite-Legendre 1D (adept/_hermite_legendre_1d/modules.py:186-192). -/
def hermiteLegendre (tmaxReq dt : K) : TimeGrid K :=
  let nt := pyRound (tmaxReq / dt)
  ⟨dt, nt, dt * nt, nt + 4⟩

/-- Spectrax 1D (adept/_spectrax1d/base_module.py:225-244): `dt` may be absent; the
step limit is not modelled. -/
def spectrax (tmaxReq : K) (dt? : Option K) (nt? : Option Nat) : K × Int × K :=
  match dt? with
  | none =>
    let nt : Nat := nt?.getD 501
    let dt := tmaxReq / nt
    (dt, (nt : Int), dt * nt)
  | some dt =>
    let nt := pyInt (tmaxReq / dt) + 1
    (dt, nt, dt * nt)

/-- Envelope LPSE-2D (adept/_lpse2d/helpers.py:251-256). -/
def lpse2d (tmaxReq dt : K) : TimeGrid K :=
  let nt := pyInt (tmaxReq / dt + 1)
  ⟨dt, nt, dt * nt, nt + 2048⟩

end Verif.Grid
