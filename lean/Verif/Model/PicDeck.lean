import Verif.Model.VlasovDeck

/-!
Model of what a PIC-1D deck means: the checks of its configuration model (adept/_pic1d/datamodel.py and
the shared density section of adept/_vlasov1d/datamodel.py:43-52), the species set
(adept/_pic1d/simulation.py:18-47, 73-104), and the static background with the charge that the run
starts with (adept/_pic1d/modules.py:81-125, helpers.py:75-200).  Charge is that of one place of the
grid: a density component is its name with the value of its profile there.  Loading itself, the time step,
drivers and the inside of save entries are not modelled.
-/
namespace Verif.PicDeck
open VlasovDeck (Raw truthy switch)

/-- One entry of `terms.species` (datamodel.py:28-41). -/
structure SpeciesRow where
  name : String
  charge : ℚ
  components : Option (List String)
  deriving DecidableEq, Repr

/-- The parts of a deck that are read here. -/
structure Deck where
  time : Option String
  field : Option String
  shape : Option String
  species : Option (List SpeciesRow)
  /-- the entries of `density` but `quasineutrality` -/
  density : List (String × ℚ)
  quasineutral : Raw
  saves : List String
  deriving DecidableEq, Repr

/-- A species of a run. -/
structure Species where
  name : String
  charge : ℚ
  components : List String
  deriving DecidableEq, Repr

/-- What a run starts with. -/
structure Run where
  time : String
  shape : String
  species : List Species
  /-- the static charge -/
  background : ℚ
  /-- the charge of all species and of the background -/
  charge : ℚ
  deriving DecidableEq, Repr

/-- A `Literal` with a default. -/
def literal (choices : List String) (s : Option String) : Bool := match s with
  | none => true
  | some s => choices.contains s

/-- `PIC1DConfig.model_validate` (datamodel.py:15-64, modules.py:34); the value is whether the run is to be
neutral. -/
def validate (word : String → Option Bool) (d : Deck) : Except String Bool := do
  let q ← switch word none (some d.quasineutral)
  if literal ["leapfrog", "yoshida4"] d.time && literal ["poisson"] d.field && literal ["linear", "tsc", "cubic"] d.shape &&
      d.saves.contains "fields" then .ok q
  else .error "ValidationError"

/-- `_density_component_names` (simulation.py:73-74). -/
def defaults (d : Deck) : List String := (d.density.map (·.1)).filter fun n => n.startsWith "species-"

/-- `PICSpecies.from_config` (simulation.py:37-47); an empty list counts as none. -/
def resolve (d : Deck) (s : SpeciesRow) : Species := match s.components with
  | some (c :: l) => ⟨s.name, s.charge, c :: l⟩
  | _ => ⟨s.name, s.charge, defaults d⟩

/-- The species of `sim_from_config` (simulation.py:85-104). -/
def speciesOf (d : Deck) : Except String (List Species) :=
  if defaults d = [] then .error "ValueError"
  else
    let l := match d.species with
      | some (s :: l) => (s :: l).map (resolve d)
      | _ => [⟨"electron", -1, defaults d⟩]
    if l.all fun s => s.components.all fun c => (d.density.map (·.1)).contains c then .ok l else .error "KeyError"

/-- The value of a component; names are the keys of a dictionary. -/
def value (d : Deck) (c : String) : ℚ := ((d.density.find? fun p => p.1 = c).map (·.2)).getD 0

/-- The last species of a name: dictionaries by name keep the last (simulation.py:106-112, modules.py:91-99). -/
def last (l : List Species) (name : String) : Option Species := l.reverse.find? fun s => s.name = name

/-- The density loaded under a name (helpers.py:88-103). -/
def loaded (d : Deck) (l : List Species) (name : String) : ℚ := match last l name with
  | some s => (s.components.map (value d)).sum
  | none => 0

/-- The charge loaded under a name. -/
def chargeOf (l : List Species) (name : String) : ℚ := ((last l name).map (·.charge)).getD 0

/-- The static background (modules.py:106-121). -/
def background (d : Deck) (l : List Species) : ℚ :=
  if truthy d.quasineutral then (l.map fun s => -(s.charge * loaded d l s.name)).sum else 0

/-- The charge at the start, particles and background: particles are kept by name (modules.py:124-126,
solvers/pushers/field.py:52-58). -/
def startCharge (d : Deck) (l : List Species) : ℚ :=
  ((l.map (·.name)).eraseDups.map fun n => chargeOf l n * loaded d l n).sum + background d l

/-- The save section (storage.py:105-124) and the integrator (solvers/vector_field.py:54-60), which has
no default there. -/
def begin' (d : Deck) (l : List Species) : Except String Run :=
  if (d.saves.all fun k => k.startsWith "fields" || (l.map (·.name)).contains k) = true then
    (match d.time with
    | none => .error "KeyError"
    | some t => if t = "leapfrog" ∨ t = "yoshida4" then
        .ok ⟨t, d.shape.getD "tsc", l, background d l, startCharge d l⟩
      else .error "NotImplementedError")
  else .error "NotImplementedError"

/-- The set-up from the dictionary: the species (modules.py:30-60), then the rest. -/
def setup (d : Deck) : Except String Run :=
  match speciesOf d with
  | .error e => .error e
  | .ok l => begin' d l

/-- A deck from the beginning to the first step. -/
def start (word : String → Option Bool) (d : Deck) : Except String Run := do
  let _ ← validate word d
  setup d

end Verif.PicDeck
