import Verif.Model.VlasovDeck

/-!
Model of what a two-fluid deck means: the checks of its configuration model (adept/_tf1d/datamodel.py)
and the reading of the same deck, as the dictionary it came in, by the code that sets up and steps the run
(adept/_tf1d/modules.py, solvers/vector_field.py, solvers/pushers.py).  Grid, times, drivers and units
are not modelled; numbers stand for themselves.
-/
namespace Verif.TfDeck
open VlasovDeck (Raw truthy typed)

/-- `gamma: int | float | str` (datamodel.py:73, 83). -/
inductive Gamma
  | num (q : ℚ)
  | str (s : String)
  deriving DecidableEq, Repr

/-- An entry that may be left out or empty. -/
inductive Entry (α : Type)
  | absent
  | null
  | given (a : α)
  deriving DecidableEq, Repr

/-- One species of `physics` (datamodel.py:53-84). -/
structure SpeciesRow where
  isOn : Raw
  landau : Raw
  gamma : Gamma
  trapOn : Raw
  model : Option String
  nuee : Entry ℚ
  deriving DecidableEq, Repr

/-- The parts of a deck that are read here; of `save.kx` only whether it is there. -/
structure Deck where
  ion : SpeciesRow
  electron : SpeciesRow
  kx : Entry Unit
  deriving DecidableEq, Repr

/-- What the solver does with a species. -/
structure Species where
  moves : Bool
  damped : Bool
  kinetic : Bool
  trapped : Bool
  /-- the reduction of the damping -/
  model : String
  deriving DecidableEq, Repr

/-- A field of type `bool`. -/
def switch (word : String → Option Bool) (r : Raw) : Except String Bool := match typed word r with
  | some b => .ok b
  | none => .error "ValidationError"

/-- The known reductions (datamodel.py:58). -/
def modelOk (s : SpeciesRow) : Bool := match s.model with
  | none => true
  | some m => ["none", "zk", "delta"].contains m

/-- The check of one species (datamodel.py:53-84), with the values it is accepted with. -/
def checkSpecies (word : String → Option Bool) (s : SpeciesRow) : Except String Species := do
  let on ← switch word s.isOn
  let damped ← switch word s.landau
  let trapped ← switch word s.trapOn
  if modelOk s = true then
    .ok ⟨on, damped, s.gamma = .str "kinetic", trapped, if trapped then s.model.getD "none" else "none"⟩
  else .error "ValidationError"

/-- `ConfigModel` (datamodel.py:87-89, 128-137); `save.kx` may be empty (datamodel.py:50). -/
def validate (word : String → Option Bool) (d : Deck) : Except String (Species × Species) := do
  let i ← checkSpecies word d.ion
  let e ← checkSpecies word d.electron
  .ok (i, e)

/-- `VelocityStepper`, `EnergyStepper` and `ParticleTrapper` of one species (solvers/pushers.py:168-203, 264-269,
304-318). -/
def build (s : SpeciesRow) : Except String Species :=
  if truthy s.trapOn = true then
    (match s.nuee with
    | .absent => .error "KeyError"
    | .null => .error "TypeError"
    | .given _ => .ok ⟨truthy s.isOn, truthy s.landau, s.gamma = .str "kinetic", true, s.model.getD "none"⟩)
  else .ok ⟨truthy s.isOn, truthy s.landau, s.gamma = .str "kinetic", false, "none"⟩

/-- A number or the word kinetic can be used as gamma (solvers/pushers.py:264-276). -/
def gammaOk : Gamma → Bool
  | .num _ => true
  | .str s => s = "kinetic"

/-- The first evaluation of the right-hand side for one species (solvers/vector_field.py:76-99, pushers.py:205-220,
271-276, 333); `nuG` is whether the arguments of the call hold the growth rate. -/
def firstStep (nuG : Bool) (s : SpeciesRow) (r : Species) : Except String Unit :=
  if r.moves = true ∧ r.model ∉ ["none", "zk", "delta"] then .error "NotImplementedError"
  else if r.moves = true ∧ gammaOk s.gamma = false then .error "TypeError"
  else if r.trapped = true ∧ nuG = false then .error "KeyError"
  else .ok ()

/-- The save section (modules.py:118-122). -/
def savesOk (d : Deck) : Except String Unit := match d.kx with
  | .null => .error "TypeError"
  | _ => .ok ()

/-- The set-up and the first step. -/
def setup (nuG : Bool) (d : Deck) : Except String (Species × Species) := do
  savesOk d
  let i ← build d.ion
  let e ← build d.electron
  firstStep nuG d.ion i
  firstStep nuG d.electron e
  .ok (i, e)

end Verif.TfDeck
