import Mathlib.Algebra.Order.Field.Basic
import Mathlib.Algebra.Order.Floor.Ring
import Mathlib.Algebra.BigOperators.Group.List.Basic
import Mathlib.Data.Rat.Floor

/-!
Model of the particle loader (adept/_pic1d/helpers.py:75-188) and of the neutralising background
(adept/_pic1d/modules.py:93-121).  Exact arithmetic in any ordered field.  Random numbers and the
velocity samples are arbitrary.
-/
namespace Verif.PicLoad

variable {K : Type} [Field K] [LinearOrder K] [IsStrictOrderedRing K] [FloorRing K]

/-- `np.interp(x, xp, fp)` for increasing `xp`: linear between the points, constant beyond. -/
def interp (x : K) : List (K × K) → K
  | [] => 0
  | [p] => p.2
  | p :: q :: l =>
    if x ≤ p.1 then p.2
    else if x < q.1 then p.2 + (x - p.1) * ((q.2 - p.2) / (q.1 - p.1))
    else interp x (q :: l)

/-- `np.round`: ties to even. -/
def roundEven (x : K) : ℤ :=
  if Int.fract x < 1 / 2 then ⌊x⌋ else if 1 / 2 < Int.fract x then ⌊x⌋ + 1 else if ⌊x⌋ % 2 = 0 then ⌊x⌋ else ⌊x⌋ + 1

/-- `np_per_sub` before the adjustment (helpers.py:109). -/
def rawCounts (n : ℕ) (integrated : List K) : List ℤ :=
  integrated.map fun i => max (roundEven (i / integrated.sum * n)) 1

/-- `np_per_sub` (helpers.py:104-111): a species without particles to share is rejected. -/
def counts (n : ℕ) (integrated : List K) : Except String (List ℤ) :=
  if integrated.sum ≤ 0 then .error "ValueError"
  else
    let c := rawCounts n integrated
    .ok (c.dropLast ++ [c.getLastD 0 + (n - c.sum)])

/-- Positions and weights of a quietly loaded population of `m` particles (helpers.py:124-132);
`L / 0` raises. -/
def quiet (xmin L : K) (grid prof : List K) (m : ℤ) : Except String (List (K × K)) :=
  if m = 0 then .error "ZeroDivisionError"
  else .ok ((List.range m.toNat).map fun (k : ℕ) =>
    let x := xmin + ((k : K) + 1 / 2) * (L / m)
    (x, interp x (grid.zip prof) * (L / m)))

/-- The same for random loading (helpers.py:147-155): `u` are the random numbers, `cdf` the
cumulated profile; a negative count makes `rng.uniform` fail. -/
def random (grid cdf : List K) (integrated : K) (u : List K) (m : ℤ) : Except String (List (K × K)) :=
  if m < 0 then .error "ValueError"
  else .ok (u.map fun r => (interp r (cdf.zip grid), integrated / m))

/-- `np.resize(arr, n)`: repeat or cut (helpers.py:177-180); an empty array gives zeros. -/
def resize (n : ℕ) (l : List (K × K)) : List (K × K) :=
  if l.length = n then l else (List.range n).map fun k => l.getD (k % l.length) (0, 0)

/-- One quietly loaded species (helpers.py:104-180): the profiles of its populations. -/
def loadQuiet (xmin L dx : K) (grid : List K) (n : ℕ) (profs : List (List K)) : Except String (List (K × K)) := do
  let cs ← counts n (profs.map fun p => p.sum * dx)
  let parts ← (profs.zip cs).mapM fun pc => quiet xmin L grid pc.1 pc.2
  pure (resize n parts.flatten)

/-- The background (modules.py:114-121): `rho` holds charge and density profile of each species. -/
def ionCharge (quasineutral : Bool) (nx : ℕ) (species : List (K × List K)) : List K :=
  if quasineutral then species.foldl (fun acc s => List.zipWith (fun a d => a - s.1 * d) acc s.2) (List.replicate nx 0)
  else List.replicate nx 0

end Verif.PicLoad
