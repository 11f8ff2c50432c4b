import Mathlib.Algebra.Order.Field.Rat

/-!
Model of what a Vlasov-1D deck means: the checks of its configuration model
(adept/_vlasov1d/datamodel.py) and the reading of the same deck, as the dictionary it came in, by
the code that builds and steps the run (adept/_vlasov1d/modules.py, storage.py,
solvers/vector_field.py, solvers/pushers/field.py, solvers/pushers/fokker_planck.py).  The entries
that only one of the two sides reads, and conversions of quantities with units, are not modelled.
-/
namespace Verif.VlasovDeck

/-- A value in the place of a switch. -/
inductive Raw
  | bool (b : Bool)
  | int (n : ℤ)
  | str (s : String)
  | null
  deriving DecidableEq, Repr

/-- `if x:` -/
def truthy : Raw → Bool
  | .bool b => b
  | .int n => n ≠ 0
  | .str s => s ≠ ""
  | .null => false

/-- A field of type `bool` of a pydantic model; which words it takes is a parameter. -/
def typed (word : String → Option Bool) : Raw → Option Bool
  | .bool b => some b
  | .int n => if n = 0 then some false else if n = 1 then some true else none
  | .str s => word s
  | .null => none

/-- `grid.parallel` of the deck. -/
inductive Axes
  | absent
  | null
  | bool (b : Bool)
  | list (l : List String)
  | other
  deriving DecidableEq, Repr

/-- One entry of `terms.species` (datamodel.py:240-249), what is read of it here. -/
structure SpeciesRow where
  name : String
  charge : ℚ
  deriving DecidableEq, Repr

/-- `terms.hou_li_filter` (datamodel.py:200-206). -/
structure HouLiRow where
  isOn : Raw
  alpha : Option ℚ
  order : Option ℤ
  dims : Option (List String)
  deriving DecidableEq, Repr

/-- `diagnostics` (datamodel.py:304-310): every entry under its alias and under its name. -/
structure DiagRow where
  vlasov : Option Raw
  vlasovName : Option Raw
  fp : Option Raw
  fpName : Option Raw
  deriving DecidableEq, Repr

/-- `drivers.ex_stochastic` (datamodel.py:156-190). -/
structure StochRow where
  modes : Option (List ℤ)
  tau : ℚ
  deriving DecidableEq, Repr

/-- One driver given by amplitude, wave number and frequency (datamodel.py:132-145). -/
structure AkwRow where
  k0 : Option ℚ
  w0 : Option ℚ
  deriving DecidableEq, Repr

/-- The parts of a deck that are read twice or checked. -/
structure Deck where
  field : String
  edfdv : String
  time : String
  /-- `none` is an absent or empty list -/
  species : Option (List SpeciesRow)
  fpOn : Raw
  fpType : String
  fpM : Option ℚ
  krookOn : Raw
  houLi : Option HouLiRow
  diagnostics : Option DiagRow
  parallel : Axes
  stochastic : Option StochRow
  drivers : List AkwRow
  /-- `units.A`, `units.Z` -/
  A : Option ℚ
  Z : Option ℚ
  window : Option (ℚ × ℚ)
  /-- the entries of `save` in their order -/
  saves : List String
  deriving DecidableEq, Repr

/-- The values that the configuration model holds. -/
structure Typed where
  fpOn : Bool
  fpM : ℚ
  krookOn : Bool
  /-- on, alpha, order -/
  houLi : Bool × ℚ × ℤ
  diagVlasov : Bool
  diagFp : Bool
  parallel : List String
  deriving DecidableEq, Repr

/-- The values that the run works with. -/
abbrev Used := Typed

/-! ### The configuration model -/

/-- `validate_parallel` (datamodel.py:91-105). -/
def typedAxes : Axes → Except String (List String)
  | .absent => .ok []
  | .null => .ok []
  | .bool false => .ok []
  | .list l => if l.all fun a => a = "x" ∨ a = "v" then .ok l else .error "ValidationError"
  | _ => .error "ValidationError"

/-- A switch of the configuration model; a missing one has the default `d`, `none` where the entry is
required. -/
def switch (word : String → Option Bool) (d : Option Bool) : Option Raw → Except String Bool
  | none => match d with
    | some b => .ok b
    | none => .error "ValidationError"
  | some r => match typed word r with
    | some b => .ok b
    | none => .error "ValidationError"

/-- `check_boltzmann_electrons` (datamodel.py:279-295). -/
def boltzmannOk (field : String) (species : Option (List SpeciesRow)) : Bool :=
  if field = "poisson-boltzmann" then match species with
    | none => false
    | some l => !l.isEmpty && l.all fun s => 0 ≤ s.charge
  else true

/-- `_no_velocity_space` (datamodel.py:208-217), for the given dimensions only: defaults are not
validated. -/
def dimsOk (h : HouLiRow) : Bool := (h.dims.getD ["x"]).all fun d => d = "x"

/-- `_positive_modes`, `_positive_tau` (datamodel.py:178-190). -/
def stochOk : Option StochRow → Bool
  | none => true
  | some s => (match s.modes with
      | none => true
      | some l => !l.isEmpty && l.all fun m => 1 ≤ m) && decide (0 < s.tau)

/-- `check_w_or_k` (datamodel.py:140-145). -/
def akwOk (d : AkwRow) : Bool := d.k0.isSome || d.w0.isSome

/-- `_valid_window` (datamodel.py:326-331). -/
def windowOk : Option (ℚ × ℚ) → Bool
  | none => true
  | some (a, b) => decide (0 ≤ a) && decide (a < b) && decide (b ≤ 1)

/-- The numbers with bounds: `units.A`, `units.Z`, `fokker_planck.m` (datamodel.py:69-70, 229). -/
def boundsOk (d : Deck) : Bool :=
  decide (0 < d.A.getD 1) && decide (0 < d.Z.getD 1) && decide (1 ≤ d.fpM.getD 2)

/-- `terms.hou_li_filter` of the configuration model: on, alpha, order; a missing filter is off with its
defaults (datamodel.py:200-217, 276). -/
def typedHouLi (word : String → Option Bool) : Option HouLiRow → Except String (Bool × ℚ × ℤ)
  | none => .ok (false, 36, 36)
  | some h => match switch word none (some h.isOn) with
    | .error e => .error e
    | .ok on => if dimsOk h then .ok (on, h.alpha.getD 36, h.order.getD 36) else .error "ValidationError"

/-- `Vlasov1DConfig.model_validate` (datamodel.py:334-346, modules.py:94-97); of an entry
given twice the alias is taken. -/
def validate (word : String → Option Bool) (d : Deck) : Except String Typed := do
  let par ← typedAxes d.parallel
  let fp ← switch word none (some d.fpOn)
  let kr ← switch word none (some d.krookOn)
  let hl ← typedHouLi word d.houLi
  let dv ← switch word (some false) (d.diagnostics.bind fun g => g.vlasov.or g.vlasovName)
  let df ← switch word (some false) (d.diagnostics.bind fun g => g.fp.or g.fpName)
  if boltzmannOk d.field d.species && stochOk d.stochastic && d.drivers.all akwOk && windowOk d.window && boundsOk d &&
      d.saves.contains "fields" then
    .ok ⟨fp, d.fpM.getD 2, kr, hl, dv, df, par⟩
  else .error "ValidationError"

/-! ### The run -/

/-- The names of the species (modules.py:25-46). -/
def names (d : Deck) : List String := match d.species with
  | some (s :: l) => (s :: l).map (·.name)
  | _ => ["electron"]

/-- A key of the dictionary `diagnostics` (modules.py:312-314, vector_field.py:217-218). -/
def diagKey (d : Deck) (key : DiagRow → Option Raw) : Except String Bool :=
  match d.diagnostics.bind key with
  | some r => .ok (truthy r)
  | none => .error "KeyError"

/-- One entry of `save` (storage.py:247-279); nothing inside it is looked at. -/
def saveOk (d : Deck) (key : String) : Except String Unit :=
  if key.startsWith "fields" then .ok ()
  else if (names d).contains key then .ok ()
  else if key = "diag-vlasov-dfdt" ∨ key = "diag-fp-dfdt" then
    if (names d).contains "electron" then .ok () else .error "KeyError"
  else .error "NotImplementedError"

/-- All entries of `save`, the first error. -/
def savesOk (d : Deck) : List String → Except String Unit
  | [] => .ok ()
  | k :: l => match saveOk d k with
    | .error e => .error e
    | .ok () => savesOk d l

/-- `ElectricFieldSolver.__init__` (field.py:428-477, 383-387): the message about an unknown field
reads `cfg["solver"]["field"]` of a string. -/
def fieldOk (d : Deck) : Except String Unit :=
  if d.field = "poisson" ∨ d.field = "poisson-boltzmann" then .ok ()
  else if d.field = "ampere" then if d.time = "leapfrog" then .ok () else .error "NotImplementedError"
  else if d.field = "hampere" then
    if d.time = "leapfrog" then
      if 1 < (names d).eraseDups.length then .error "NotImplementedError" else .ok ()
    else .error "NotImplementedError"
  else .error "TypeError"

/-- `__init_fp_operator__` (fokker_planck.py:303-342), built whether or not the switch is on; names
already in lower case. -/
def fpTypeOk (t : String) : Bool :=
  ["lenard_bernstein", "chang_cooper", "lenard_bernstein_chang_cooper", "chang_cooper_dougherty", "dougherty_chang_cooper",
    "dougherty", "super_gaussian", "super_gaussian_chang_cooper", "dougherty_nodrag"].contains t

/-- What the filter of the run is built from (vector_field.py:220-230): the dictionary, without the
defaults. -/
def usedHouLi : Option HouLiRow → Except String (Bool × ℚ × ℤ)
  | none => .ok (false, 36, 36)
  | some h => if truthy h.isOn then match h.alpha, h.order with
      | some a, some o => .ok (true, a, o)
      | _, _ => .error "KeyError"
    else .ok (false, h.alpha.getD 36, h.order.getD 36)

/-- `cfg["grid"].get("parallel", False)` as `_is_parallel` and `Collisions` see it
(vector_field.py:12-16, 37, fokker_planck.py:290-293). -/
def usedAxes : Axes → List String
  | .list l => l
  | _ => []

/-- `if not c: raise NotImplementedError`. -/
def require (c : Bool) : Except String Unit := if c then .ok () else .error "NotImplementedError"

/-- The set-up of a validated deck from its dictionary (modules.py:312-333, vector_field.py:204-230,
fokker_planck.py:275-342), in the order of the code. -/
def setup (d : Deck) : Except String Used := do
  let dv ← diagKey d (·.vlasov)
  let df ← diagKey d (·.fp)
  savesOk d d.saves
  require (d.time = "sixth" ∨ d.time = "leapfrog")
  fieldOk d
  require (d.edfdv = "exponential" ∨ d.edfdv = "cubic-spline")
  require (fpTypeOk d.fpType)
  let hl ← usedHouLi d.houLi
  .ok ⟨truthy d.fpOn, d.fpM.getD 2, truthy d.krookOn, hl, dv, df, usedAxes d.parallel⟩

/-- The first step (vector_field.py:323-331): collision profiles were built from the configuration
model (modules.py:60-72), the switches are read from the dictionary. -/
def firstStep (t : Typed) (u : Used) : Except String Unit :=
  if u.fpOn && !t.fpOn then .error "TypeError"
  else if u.krookOn && !t.krookOn then .error "TypeError"
  else .ok ()

/-- The first save (storage.py:160-180, 264-279): the diagnostics are in the state only when they are
on. -/
def firstSave (d : Deck) (u : Used) : Except String Unit :=
  if d.saves.contains "diag-vlasov-dfdt" && !u.diagVlasov && !(names d).contains "diag-vlasov-dfdt" then .error "KeyError"
  else if d.saves.contains "diag-fp-dfdt" && !u.diagFp && !(names d).contains "diag-fp-dfdt" then .error "KeyError"
  else .ok ()

/-- A deck from the beginning to the first step and save. -/
def start (word : String → Option Bool) (d : Deck) : Except String Used := do
  let t ← validate word d
  let u ← setup d
  firstStep t u
  firstSave d u
  .ok u

end Verif.VlasovDeck
