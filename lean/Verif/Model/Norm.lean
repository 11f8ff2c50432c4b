import Verif.Model.Py
import Mathlib.Analysis.Real.Sqrt
import Mathlib.Analysis.SpecialFunctions.Trigonometric.Basic

/-!
Model of adept/normalization.py: dimensional quantities, the normalisation factories
and `normalize`.

Simplifications: a pint quantity is its value in SI units together with its
dimension; `.to(u)` is therefore a check of the dimension that leaves the quantity
alone.  Parsing a text into a quantity is a parameter of the statements (the text is
represented by its parsed value or by "unparsable").  Exact real arithmetic.  The
physical constants are parameters.  The Coulomb logarithms and collision rates
(normalization.py:34-70) are not modelled.
-/
namespace Verif.Norm

/-- Exponents of metre, kilogram, second, ampere and kelvin. -/
@[ext] structure Dim where
  m : ℚ
  kg : ℚ
  s : ℚ
  A : ℚ
  K : ℚ
deriving DecidableEq

/-- A pint quantity. -/
@[ext] structure Qty where
  val : ℝ
  dim : Dim

/-- Product of dimensions. -/
def Dim.mul (a b : Dim) : Dim := ⟨a.m + b.m, a.kg + b.kg, a.s + b.s, a.A + b.A, a.K + b.K⟩
/-- Rational power of a dimension. -/
def Dim.pow (a : Dim) (r : ℚ) : Dim := ⟨r * a.m, r * a.kg, r * a.s, r * a.A, r * a.K⟩
/-- Dimensionless. -/
def Dim.none : Dim := ⟨0, 0, 0, 0, 0⟩

/-- pint `a * b`. -/
noncomputable def Qty.mul (a b : Qty) : Qty := ⟨a.val * b.val, a.dim.mul b.dim⟩
/-- pint `a / b`. -/
noncomputable def Qty.div (a b : Qty) : Qty := ⟨a.val / b.val, a.dim.mul (b.dim.pow (-1))⟩
/-- pint `a ** 2.0`. -/
noncomputable def Qty.sq (a : Qty) : Qty := ⟨a.val ^ 2, a.dim.pow 2⟩
/-- pint `a ** 0.5` of a non-negative quantity. -/
noncomputable def Qty.sqrt (a : Qty) : Qty := ⟨Real.sqrt a.val, a.dim.pow (1 / 2)⟩
/-- A plain number as a quantity. -/
def Qty.num (x : ℝ) : Qty := ⟨x, Dim.none⟩

/-- Exceptions. -/
inductive Err
  | noNorm | unknownDim | dimensionality | unparsable | typeError
deriving DecidableEq

/-- pint `q.to(unit)`: `DimensionalityError` unless the dimensions agree. -/
def Qty.to (q : Qty) (d : Dim) : Except Err Qty := if q.dim = d then .ok q else .error .dimensionality

def dLength : Dim := ⟨1, 0, 0, 0, 0⟩
def dTime : Dim := ⟨0, 0, 1, 0, 0⟩
def dSpeed : Dim := ⟨1, 0, -1, 0, 0⟩
def dRate : Dim := ⟨0, 0, -1, 0, 0⟩
def dDensity : Dim := ⟨-3, 0, 0, 0, 0⟩
def dEnergy : Dim := ⟨2, 1, -2, 0, 0⟩
def dMass : Dim := ⟨0, 1, 0, 0, 0⟩
def dCharge : Dim := ⟨0, 0, 1, 1, 0⟩
def dPermittivity : Dim := ⟨-3, -1, 4, 2, 0⟩

/-- Values of the physical constants of the unit registry. -/
structure Consts where
  c : ℝ
  e : ℝ
  me : ℝ
  mp : ℝ
  eps0 : ℝ
  c_pos : 0 < c
  e_pos : 0 < e
  me_pos : 0 < me
  mp_pos : 0 < mp
  eps0_pos : 0 < eps0

/-- `UREG.c`. -/
def Consts.cQ (u : Consts) : Qty := ⟨u.c, dSpeed⟩
/-- `UREG.e`. -/
def Consts.eQ (u : Consts) : Qty := ⟨u.e, dCharge⟩
/-- `UREG.m_e`. -/
def Consts.meQ (u : Consts) : Qty := ⟨u.me, dMass⟩
/-- `UREG.m_p`. -/
def Consts.mpQ (u : Consts) : Qty := ⟨u.mp, dMass⟩
/-- `UREG.epsilon_0`. -/
def Consts.epsQ (u : Consts) : Qty := ⟨u.eps0, dPermittivity⟩

/-- `PlasmaNormalization` (normalization.py:9-32); `T0` may be `None`. -/
structure PlasmaNorm where
  m0 : Qty
  q0 : Qty
  n0 : Qty
  T0 : Option Qty
  L0 : Qty
  v0 : Qty
  tau : Qty

/-- Argument of `normalize`: a number, or a text given by its parsed value. -/
inductive Arg
  | num (x : ℝ)
  | text (parsed : Option Qty)

/-- Values of the argument `dim`. -/
inductive DimArg
  | x | t | v | temp | k | other
deriving DecidableEq

/-- `q.to("").magnitude`. -/
noncomputable def magnitude (q : Qty) : Except Err ℝ :=
  match q.to Dim.none with
  | .ok q => .ok q.val
  | .error e => .error e

/-- `normalize` (normalization.py:79-97).  `UREG.Quantity(s)` is evaluated inside the
branch, hence after the dimension name was accepted. -/
noncomputable def normalize (s : Arg) (norm : Option PlasmaNorm) (d : DimArg) : Except Err ℝ :=
  match s with
  | .num x => .ok x
  | .text q? =>
    match norm with
    | none => .error .noNorm
    | some n =>
      match d with
      | .other => .error .unknownDim
      | .x => match q? with
        | none => .error .unparsable
        | some q => magnitude (q.div n.L0)
      | .t => match q? with
        | none => .error .unparsable
        | some q => magnitude (q.div n.tau)
      | .v => match q? with
        | none => .error .unparsable
        | some q => magnitude (q.div n.v0)
      | .temp => match q? with
        | none => .error .unparsable
        | some q => match n.T0 with
          | none => .error .typeError
          | some T => magnitude (q.div T)
      | .k => match q? with
        | none => .error .unparsable
        | some q => magnitude (q.mul n.L0)

/-- `vth_norm` (normalization.py:71-73). -/
noncomputable def vthNorm (n : PlasmaNorm) : Except Err ℝ :=
  match n.T0 with
  | none => .error .typeError
  | some T => magnitude ((((Qty.num 2).mul T).div n.m0).sqrt.div n.v0)

/-- `speed_of_light_norm` (normalization.py:75-76). -/
noncomputable def cNorm (u : Consts) (n : PlasmaNorm) : Except Err ℝ := magnitude (u.cQ.div n.v0)

/-- The common body of the two Debye factories. -/
noncomputable def debye (u : Consts) (m0 q0 n0 T0 : Qty) : Except Err PlasmaNorm := do
  let wp ← ((n0.mul q0.sq).div (m0.mul u.epsQ)).sqrt.to dRate
  let tau := (Qty.num 1).div wp
  let v0 ← (T0.div m0).sqrt.to dSpeed
  let x0 ← (v0.div wp).to dLength
  return ⟨m0, q0, n0, some T0, x0, v0, tau⟩

/-- `electron_debye_normalization` (normalization.py:100-121). -/
noncomputable def electronDebye (u : Consts) (n0 T0 : Qty) : Except Err PlasmaNorm :=
  debye u u.meQ u.eQ n0 T0

/-- `ion_debye_normalization` (normalization.py:124-151). -/
noncomputable def ionDebye (u : Consts) (n0 T0 : Qty) (A Z : ℝ) : Except Err PlasmaNorm :=
  debye u ((Qty.num A).mul u.mpQ) ((Qty.num Z).mul u.eQ) n0 T0

/-- `laser_normalization` (normalization.py:154-175). -/
noncomputable def laser (u : Consts) (wavelength T0 : Qty) : Except Err PlasmaNorm := do
  let ook ← ((wavelength.div (Qty.num 2)).div (Qty.num Real.pi)).to dLength
  let om ← (u.cQ.div ook).to dRate
  let nc ← (((u.epsQ.mul u.meQ).mul om.sq).div u.eQ.sq).to dDensity
  return ⟨u.meQ, u.eQ, nc, some T0, ook, (Qty.num 1).mul u.cQ, (Qty.num 1).div om⟩

/-- `_osiris_normalization` (normalization.py:178-202). -/
noncomputable def osirisNorm (u : Consts) (wp0 n0 : Qty) : Except Err PlasmaNorm := do
  let wp0 ← wp0.to dRate
  let v0 := (Qty.num 1).mul u.cQ
  let x0 ← (v0.div wp0).to dLength
  let n0 ← n0.to dDensity
  return ⟨u.meQ, u.eQ, n0, none, x0, v0, (Qty.num 1).div wp0⟩

/-- `skin_depth_normalization` (normalization.py:205-214). -/
noncomputable def skinDepth (u : Consts) (n0 : Qty) : Except Err PlasmaNorm := do
  let wp0 ← ((n0.mul u.eQ.sq).div (u.meQ.mul u.epsQ)).sqrt.to dRate
  osirisNorm u wp0 n0

/-- `skin_depth_normalization_from_frequency` (normalization.py:217-227). -/
noncomputable def skinDepthFromFreq (u : Consts) (wp0 : Qty) : Except Err PlasmaNorm := do
  let n0 ← (((wp0.sq.mul u.epsQ).mul u.meQ).div u.eQ.sq).to dDensity
  osirisNorm u wp0 n0

end Verif.Norm
