import Verif.Model.VlasovDeck

/-!
Model of the reading of a Vlasov-1D2V deck by the code that builds and steps the run
(adept/_vlasov1d2v/modules.py, storage.py, solvers/vector_field.py, solvers/pushers/fokker_planck.py).
The configuration model is that of Vlasov-1D but for the perpendicular grid and the names of the
diagnostics (adept/_vlasov1d2v/datamodel.py:8-39): in the deck of Verif.Model.VlasovDeck the two
diagnostics stand for `diag-vlasov-cumulative` and `diag-fp-cumulative`.  The options of the
cylindrical operator and the inside of save entries are not modelled.
-/
namespace Verif.Vlasov2VDeck
open VlasovDeck

/-- One entry of `save` (storage.py:168-200); nothing inside it is looked at. -/
def saveOk (d : Deck) (key : String) : Except String Unit :=
  if key.startsWith "fields" then .ok ()
  else if (names d).contains key then .ok ()
  else if key = "diag-vlasov-cumulative" ∨ key = "diag-fp-cumulative" then
    if (names d).contains "electron" then .ok () else .error "KeyError"
  else .error "NotImplementedError"

/-- All entries of `save`, the first error. -/
def savesOk (d : Deck) : List String → Except String Unit
  | [] => .ok ()
  | k :: l => match saveOk d k with
    | .error e => .error e
    | .ok () => savesOk d l

/-- The names of operators that there are (fokker_planck.py:43-65); names already in lower case. -/
def fpTypeOk (t : String) : Bool := ["dougherty", "dougherty_nodrag", "lenard_bernstein", "cylindrical_landau"].contains t

/-- `cfg["grid"]["species_grids"]["electron"]` (fokker_planck.py:38). -/
def electronOk (d : Deck) : Except String Unit := if (names d).contains "electron" then .ok () else .error "KeyError"

/-- The set-up of a validated deck from its dictionary (modules.py:136-150, vector_field.py:22-31, 114-127,
fokker_planck.py:34-77), in the order of the code; the filter is not read. -/
def setup (d : Deck) : Except String Used := do
  let dv ← diagKey d (·.vlasov)
  let df ← diagKey d (·.fp)
  savesOk d d.saves
  require (d.time = "sixth" ∨ d.time = "leapfrog")
  fieldOk d
  require (d.edfdv = "exponential")
  electronOk d
  require (fpTypeOk d.fpType)
  require (!truthy d.krookOn)
  .ok ⟨truthy d.fpOn, d.fpM.getD 2, false, (false, 36, 36), dv, df, []⟩

/-- The first step (vector_field.py:209-210). -/
def firstStep (t : Typed) (u : Used) : Except String Unit := if u.fpOn && !t.fpOn then .error "TypeError" else .ok ()

/-- The first save (storage.py:187-197, modules.py:136-138). -/
def firstSave (d : Deck) (u : Used) : Except String Unit :=
  if d.saves.contains "diag-vlasov-cumulative" && !u.diagVlasov && !(names d).contains "diag-vlasov-cumulative" then
    .error "KeyError"
  else if d.saves.contains "diag-fp-cumulative" && !u.diagFp && !(names d).contains "diag-fp-cumulative" then .error "KeyError"
  else .ok ()

/-- A deck from the beginning to the first step and save (modules.py:29-38). -/
def start (word : String → Option Bool) (d : Deck) : Except String Used := do
  let t ← validate word d
  let u ← setup d
  firstStep t u
  firstSave d u
  .ok u

end Verif.Vlasov2VDeck
