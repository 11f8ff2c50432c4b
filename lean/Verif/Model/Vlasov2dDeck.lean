import Verif.Model.VlasovDeck

/-!
Model of what a Vlasov-2D deck means: the checks of its configuration model
(adept/_vlasov2d/datamodel.py) and the reading of the same deck, as the dictionary it came in, by the
code that builds and steps the run (adept/_vlasov2d/modules.py, storage.py, solvers/vector_field.py,
solvers/pushers/fokker_planck.py, solvers/pushers/vlasov.py).  Switches are those of
Verif.Model.VlasovDeck.  Entries that only one side reads, the inside of density components, of save
entries and of drivers, and quantities with units are not modelled.
-/
namespace Verif.Vlasov2dDeck
open VlasovDeck (Raw Axes truthy typed switch)

/-- `terms.fokker_planck` (datamodel.py:158-163). -/
structure FpRow where
  isOn : Option Raw
  kind : Option String
  deriving DecidableEq, Repr

/-- `terms.hou_li_filter` (datamodel.py:139-155). -/
structure HouLiRow where
  isOn : Option Raw
  alpha : Option ℚ
  order : Option ℤ
  dims : Option (List String)
  deriving DecidableEq, Repr

/-- `terms` (datamodel.py:183-200). -/
structure Terms where
  edfdv : Option String
  vdfdx : Option String
  skip : Option Raw
  species : Option (List String)
  fp : Option FpRow
  /-- `krook`, in it `is_on` -/
  krook : Option (Option Raw)
  houLi : Option HouLiRow
  deriving DecidableEq, Repr

/-- The parts of a deck that are read twice or checked. -/
structure Deck where
  terms : Option Terms
  /-- `drivers`, in it the numbers of entries of `ex` and `ey` -/
  drivers : Option (Option ℕ × Option ℕ)
  parallel : Axes
  nvx : Option ℕ
  nvy : Option ℕ
  vmax : Option ℚ
  /-- whether `density` has an entry of a name with species- at its begin -/
  hasComponents : Bool
  saves : List String
  deriving DecidableEq, Repr

/-- The values that the configuration model holds, and those that a run works with. -/
structure Values where
  exponential : Bool
  skip : Bool
  fpOn : Bool
  krookOn : Bool
  /-- alpha, order, whether along x and along y; `none` is off -/
  filter : Option (ℚ × ℤ × Bool × Bool)
  drivers : ℕ × ℕ
  deriving DecidableEq, Repr

/-- `Terms` of the defaults. -/
def noTerms : Terms := ⟨none, none, none, none, none, none, none⟩

/-- `validate_parallel` (datamodel.py:92-103). -/
def axesOk : Axes → Bool
  | .absent => true
  | .null => true
  | .bool b => !b
  | .list l => l.all fun a => a = "x" ∨ a = "y"
  | .other => false

/-- A `Literal` with a default (datamodel.py:194-195). -/
def literal (choices : List String) (s : Option String) : Bool := match s with
  | none => true
  | some s => choices.contains s

/-- `_no_velocity_space` (datamodel.py:145-155). -/
def dimsOk (h : HouLiRow) : Bool := (h.dims.getD ["x", "y"]).all fun d => d = "x" ∨ d = "y"

/-- The filter of alpha, order and dimensions (vlasov.py:184-193). -/
def filterOf (alpha : ℚ) (order : ℤ) (dims : List String) : ℚ × ℤ × Bool × Bool :=
  (alpha, order, dims.contains "x", dims.contains "y")

/-- `HouLiFilterConfig` (datamodel.py:139-155, 200). -/
def typedFilter (word : String → Option Bool) : Option HouLiRow → Except String (Option (ℚ × ℤ × Bool × Bool))
  | none => .ok none
  | some h => match switch word (some false) h.isOn with
    | .error e => .error e
    | .ok on => if dimsOk h then
        .ok (if on then some (filterOf (h.alpha.getD 36) (h.order.getD 36) (h.dims.getD ["x", "y"])) else none)
      else .error "ValidationError"

/-- `Vlasov2DConfig.model_validate` (datamodel.py:214-223, modules.py:96). -/
def validate (word : String → Option Bool) (d : Deck) : Except String Values := do
  let t := d.terms.getD noTerms
  let skip ← switch word (some false) t.skip
  let fp ← switch word (some false) (t.fp.bind (·.isOn))
  let kr ← switch word (some false) (t.krook.bind id)
  let hl ← typedFilter word t.houLi
  if axesOk d.parallel && literal ["exponential", "sl"] t.edfdv && literal ["exponential"] t.vdfdx && d.saves.contains "fields" then
    .ok ⟨t.edfdv.getD "exponential" = "exponential", skip, fp, kr, hl, (d.drivers.getD (none, none)).1.getD 0,
      (d.drivers.getD (none, none)).2.getD 0⟩
  else .error "ValidationError"

/-- The names of the species (modules.py:29-51). -/
def names (d : Deck) : List String := match (d.terms.getD noTerms).species with
  | some (s :: l) => s :: l
  | _ => ["electron"]

/-- `species_set_from_config` (modules.py:29-51): what a deck without a list of species needs. -/
def speciesOk (d : Deck) : Except String Unit := match (d.terms.getD noTerms).species with
  | some (_ :: _) => .ok ()
  | _ => if d.hasComponents && d.nvx.isSome && d.nvy.isSome && d.vmax.isSome then .ok () else .error "ValueError"

/-- `dict[key]`. -/
def key {α : Type} : Option α → Except String α
  | some a => .ok a
  | none => .error "KeyError"

/-- `get_save_quantities` (storage.py:200-228), only the names of the entries. -/
def savesOk (d : Deck) : Bool := d.saves.all fun k => k.startsWith "fields" || (names d).contains k

/-- The filter of a run from its dictionary (vector_field.py:68-80). -/
def usedFilter : Option HouLiRow → Except String (Option (ℚ × ℤ × Bool × Bool))
  | none => .ok none
  | some h => if (h.isOn.map truthy).getD false then do
      let a ← key h.alpha
      let o ← key h.order
      let l ← key h.dims
      .ok (some (filterOf a o l))
    else .ok none

/-- The collision operator (fokker_planck.py:143-153); names already in lower case. -/
def fpOk (row : FpRow) (on : Raw) : Except String Unit :=
  if truthy on then do
    let k ← key row.kind
    if k = "dougherty" then .ok () else .error "NotImplementedError"
  else .ok ()

/-- The set-up of a validated deck with the values `v` from its dictionary (modules.py:93-97, 147, 231-247,
vector_field.py:36-80, 119-121, fokker_planck.py:143-155); `v` is needed because collisions act only where
there is a profile, which the configuration model decides (modules.py:63-79, vector_field.py:123-126). -/
def setup (d : Deck) (v : Values) : Except String Values := do
  speciesOk d
  let dr ← key d.drivers
  let ex ← key dr.1
  let ey ← key dr.2
  let t ← key d.terms
  VlasovDeck.require (savesOk d)
  let e ← key t.edfdv
  let fp ← key t.fp
  let kr ← key t.krook
  let fpOn ← key fp.isOn
  let krOn ← key kr
  fpOk fp fpOn
  let hl ← usedFilter t.houLi
  .ok ⟨e = "exponential", (t.skip.map truthy).getD false, truthy fpOn && v.fpOn, truthy krOn && v.krookOn, hl, ex, ey⟩

/-- A deck from the beginning to the first step. -/
def start (word : String → Option Bool) (d : Deck) : Except String Values := do
  let v ← validate word d
  setup d v

end Verif.Vlasov2dDeck
