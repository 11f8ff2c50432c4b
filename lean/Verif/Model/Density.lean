import Verif.Model.Py
import Mathlib.Algebra.Order.Floor.Ring
import Mathlib.Algebra.Order.Field.Basic

/-!
Model of adept/osiris/density.py (`apply_gradient_scale_length`).

Simplifications: numbers are elements of an ordered field with floor (exact
arithmetic; integers and floats are not told apart); a parameter value is a number,
a list of numbers or a text; `round(x, 10)` is the parameter `rnd`; the target `L`
is given in code units (`_normalized_length` is `Verif.Norm.normalize`).  All
mutations of the deck happen after the last check that is modelled, except the
`float()` of a text inside `_scale_array`, which raises half-way in the code; here
an exception never returns a deck.
-/
namespace Verif.Density

/-- A deck parameter value. -/
inductive DVal (K : Type)
  | num (x : K)
  | arr (l : List K)
  | txt

/-- The parameters of one section. -/
abbrev Params (K : Type) := Dict Str (DVal K)
/-- A deck: named sections, in order. -/
abbrev Secs (K : Type) := List (Str × Params K)

/-- Exceptions. -/
inductive Err
  | missing | multiDim | noKey | fewPoints | keyError | densityOrder | rampOrder | value | index | zeroDiv
deriving DecidableEq

def nSpace : Str := ['s', 'p', 'a', 'c', 'e']
def nGrid : Str := ['g', 'r', 'i', 'd']
def nProfile : Str := ['p', 'r', 'o', 'f', 'i', 'l', 'e']
def nDiag : Str := ['d', 'i', 'a', 'g', '_', 's', 'p', 'e', 'c', 'i', 'e', 's']
def nNode : Str := ['n', 'o', 'd', 'e', '_', 'c', 'o', 'n', 'f']
def kNx : Str := ['n', 'x', '_', 'p']
def kX : Str := ['x']
def kFx : Str := ['f', 'x']
def kXmin : Str := ['x', 'm', 'i', 'n']
def kXmax : Str := ['x', 'm', 'a', 'x']
def kPsXmin : Str := ['p', 's', '_', 'x', 'm', 'i', 'n']
def kPsXmax : Str := ['p', 's', '_', 'x', 'm', 'a', 'x']
def kNodes : Str := ['n', 'o', 'd', 'e', '_', 'n', 'u', 'm', 'b', 'e', 'r']

/-- `k.split("(", 1)[0]` (density.py:180). -/
def baseOf (k : Str) : Str := k.takeWhile (· != '(')

section
variable {K : Type} [Field K] [LinearOrder K] [FloorRing K]

/-- `_first_section` (density.py:170-174). -/
def firstSection (secs : Secs K) (name : Str) : Option (Params K) := dictGet secs name

/-- `_array_key` (density.py:177-182). -/
def arrayKey (d : Params K) (base : Str) : Option Str :=
  (dictKeys d).find? fun k => decide (k = base ∨ baseOf k = base)

/-- `[float(v) for v in _as_list(v)]` (density.py:185-186). -/
def floats : DVal K → Option (List K)
  | .num x => some [x]
  | .arr l => some l
  | .txt => none

/-- `_scalar` (density.py:189-194); the outer `none` is an exception. -/
def scalar (d : Params K) (base : Str) : Option (Option K) :=
  match arrayKey d base with
  | none => some none
  | some k =>
    match dictGet d k with
    | some (.num x) => some (some x)
    | some (.arr (x :: _)) => some (some x)
    | _ => none

/-- `_scale_array` (density.py:197-207); `none` is an exception. -/
def scaleArray (rnd : K → K) (s : K) (base : Str) (d : Params K) : Option (Params K) :=
  match arrayKey d base with
  | none => some d
  | some k =>
    match dictGet d k with
    | some (.num x) => some (dictSet d k (.num (rnd (x * s))))
    | some (.arr l) => some (dictSet d k (.arr (l.map fun x => rnd (x * s))))
    | _ => none

/-- Python's `int(x)` of a number: truncation towards zero. -/
def trunc (x : K) : Int := if 0 ≤ x then ⌊x⌋ else ⌈x⌉

/-- `_node_count` (density.py:210-222); `none` is an exception. -/
def nodeCount (secs : Secs K) : Option Int :=
  match firstSection secs nNode with
  | none => some 1
  | some d =>
    match arrayKey d kNodes with
    | none => some 1
    | some k =>
      match dictGet d k with
      | some (.num x) => some (max 1 (trunc x))
      | some (.arr (x :: _)) => some (max 1 (trunc x))
      | some (.arr []) => none
      | _ => some 1

/-- `_round_up_multiple` (density.py:225-228). -/
def roundUp (n m : Int) : Int := if m ≤ 1 then n else (⌈((n : K) / (m : K))⌉) * m

/-- The request: target `L`, reference density, optional `min` and `max`. -/
structure Req (K : Type) where
  L : K
  ref : K
  mn : Option K
  mx : Option K

/-- The returned quantities used below (density.py:154-164). -/
structure Info (K : Type) where
  nmin : K
  nmax : K
  s : K
  nx : Int

/-- The number of cells (density.py:89-99). -/
def readNx (grid : Params K) : Except Err (Str × Bool × Int) :=
  match arrayKey grid kNx with
  | none => .error .noKey
  | some k =>
    match dictGet grid k with
    | some (.num x) => .ok (k, false, trunc x)
    | some (.arr [x]) => .ok (k, true, trunc x)
    | some (.arr []) => .error .index
    | some (.arr _) => .error .multiDim
    | _ => .error .value

/-- The ramp (density.py:102-127): key and values of `fx`, `nmin`, `nmax` and the
old span. -/
def readRamp (profile : Params K) (r : Req K) : Except Err (Str × List K × K × K × K) :=
  match arrayKey profile kX, arrayKey profile kFx with
  | some kx, some kf =>
    match (dictGet profile kx).bind floats, (dictGet profile kf).bind floats with
    | some x, some fx =>
      if x.length < 3 ∨ fx.length < 3 then .error .fewPoints
      else
        let mm : Except Err (K × K) :=
          match r.mn, r.mx with
          | none, none => .ok (fx.getD 1 0, fx.getD (fx.length - 2) 0)
          | some a, some b => .ok (a, b)
          | _, _ => .error .keyError
        match mm with
        | .error e => .error e
        | .ok (a, b) =>
          if b ≤ a then .error .densityOrder
          else
            let span := x.getD (x.length - 2) 0 - x.getD 1 0
            if span ≤ 0 then .error .rampOrder else .ok (kf, fx, a, b, span)
    | _, _ => .error .value
  | _, _ => .error .noKey

/-- Rescaling of one section in the loop (density.py:146-151). -/
def rescaleSec (rnd : K → K) (s : K) (sec : Str × Params K) : Option (Str × Params K) :=
  if sec.1 = nProfile then (scaleArray rnd s kX sec.2).map fun d => (sec.1, d)
  else if sec.1 = nDiag then
    ((scaleArray rnd s kPsXmin sec.2).bind (scaleArray rnd s kPsXmax)).map fun d => (sec.1, d)
  else some sec

/-- `fx[1], fx[-2] = nmin, nmax` (density.py:141). -/
def setEnds (fx : List K) (a b : K) : List K := (fx.set 1 a).set (fx.length - 2) b

/-- `apply_gradient_scale_length` (density.py:54-164): the new deck and the
returned dictionary. -/
def apply (rnd : K → K) (secs : Secs K) (req : Option (Req K)) : Except Err (Secs K × Option (Info K)) :=
  match req with
  | none => .ok (secs, none)
  | some r =>
    match firstSection secs nSpace, firstSection secs nGrid, firstSection secs nProfile with
    | some space, some grid, some profile =>
      match readNx grid with
      | .error e => .error e
      | .ok (nxKey, isList, nx) =>
        match readRamp profile r with
        | .error e => .error e
        | .ok (fxKey, fx, nmin, nmax, span) =>
          if r.ref = 0 then .error .zeroDiv
          else
            let s := (r.L * (nmax - nmin) / r.ref) / span
            match scalar space kXmax with
            | none => .error .value
            | some none => .error .noKey
            | some (some _) =>
              match scalar space kXmin, nodeCount secs with
              | some _, some nodes =>
                let nxNew := roundUp (K := K) ⌈(nx : K) * s⌉ nodes
                let profile' := if r.mn.isSome then dictSet profile fxKey (.arr (setEnds fx nmin nmax)) else profile
                let secs1 := dictSet secs nProfile profile'
                match (scaleArray rnd s kXmin space).bind (scaleArray rnd s kXmax) with
                | none => .error .value
                | some space' =>
                  let secs2 := dictSet secs1 nSpace space'
                  match secs2.mapM (rescaleSec rnd s) with
                  | none => .error .value
                  | some secs3 =>
                    let g : DVal K := if isList then .arr [(nxNew : K)] else .num (nxNew : K)
                    .ok (dictSet secs3 nGrid (dictSet grid nxKey g), some ⟨nmin, nmax, s, nxNew⟩)
              | _, _ => .error .value
    | _, _, _ => .error .missing

end
end Verif.Density
