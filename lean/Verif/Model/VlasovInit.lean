import Verif.Model.Spectral
import Verif.Model.Driver
import Verif.Model.Py
import Mathlib.Analysis.SpecialFunctions.Gamma.Basic

/-!
Model of the initial state of Vlasov-1D: the velocity grid and the super-Gaussian
(adept/_vlasov1d/helpers.py:37-161), the density profiles (adept/_vlasov1d/simulation.py:171-300,
adept/functions.py:137-226), the species (adept/_vlasov1d/modules.py:25-94) and the state built from
them (adept/_vlasov1d/modules.py:191-317).  Exact real arithmetic; units have been removed
(Model/Norm.lean).  Random numbers are a function of the seed and the cell.
-/
namespace Verif.VlasovInit
open Finset Verif.Spectral

/-! ### One component -/

/-- `dv` (helpers.py:69, 131; modules.py:226). -/
noncomputable def dv (vmin vmax : ℝ) (nv : ℕ) : ℝ := (vmax - vmin) / nv

/-- `vax` (helpers.py:70, 132). -/
noncomputable def vax (vmin vmax : ℝ) (nv j : ℕ) : ℝ :=
  Grid.linspaceAt (vmin + dv vmin vmax nv / 2) (vmax - dv vmin vmax nv / 2) nv j

/-- `alpha` (helpers.py:79). -/
noncomputable def alpha (m : ℝ) : ℝ := Real.sqrt (3 * Real.Gamma (3 / m) / Real.Gamma (5 / m))

/-- `single_dist` at the velocity `v` (helpers.py:73, 81-83). -/
noncomputable def shape (v0 m T0 mass v : ℝ) : ℝ :=
  Real.exp (-(|(v - v0) / (alpha m * Real.sqrt (T0 / mass))| ^ m))

/-- The normalised distribution (helpers.py:85-87). -/
noncomputable def unit (vmin vmax : ℝ) (nv : ℕ) (g : ℝ → ℝ) (j : ℕ) : ℝ :=
  g (vax vmin vmax nv j) / (∑ i ∈ range nv, g (vax vmin vmax nv i)) / dv vmin vmax nv

/-- A density component on the grid: the profile and the numbers of the distribution
(simulation.py:270-290). -/
structure Comp (nx : ℕ) where
  n : ZMod nx → ℝ
  v0 : ℝ
  T0 : ℝ
  m : ℝ

/-- `_initialize_supergaussian_distribution_` (helpers.py:37-93): the profile is used only if it has
more than one entry. -/
noncomputable def Comp.f {nx : ℕ} (c : Comp nx) (mass vmin vmax : ℝ) (nv : ℕ) (x : ZMod nx) (j : ℕ) : ℝ :=
  let u := unit vmin vmax nv (shape c.v0 c.m c.T0 mass) j
  if 1 < nx then c.n x * u else u

/-! ### Density profiles -/

/-- The entry `density.species-*` by its `basis` (datamodel.py:13-42), numbers without units. -/
inductive Basis where
  | uniform (baseline : Option ℝ) (spaceProfile : Option Driver.Envelope)
  | tanh (env : Driver.Envelope)
  | linear (center length value : ℝ) (env : Driver.Envelope)
  | exponential (center length value : ℝ) (env : Driver.Envelope)
  | sine (baseline amplitude k : ℝ)
  | other (name : String)

/-- The profile without noise (simulation.py:213-218, 221-259, functions.py:137-200). -/
noncomputable def Basis.eval : Basis → Except String (ℝ → ℝ)
  | .uniform b _ => .ok fun _ => b.getD 1 * 1
  | .tanh env => .ok fun x => env.eval x * (1 * 1)
  | .linear c l a env => .ok fun x => env.eval x * (a + (x - c) / l)
  | .exponential c l a env => .ok fun x => env.eval x * (a * Real.exp ((x - c) / l))
  | .sine b a k => .ok fun x => b * (1 + a * Real.sin (k * x))
  | .other _ => .error "NotImplementedError"

/-- `noise_type.casefold()` (functions.py:214-218). -/
inductive Noise where
  | uniform
  | gaussian
  | other

/-- A component of the deck (datamodel.py:13-42). -/
structure CompCfg where
  basis : Basis
  noise : Noise
  noiseVal : ℝ
  seed : ℕ
  v0 : ℝ
  T0 : ℝ
  m : ℝ

/-- The pseudo random numbers of a seed: in `[-1, 1]` and normally distributed. -/
structure Rng where
  uniform : ℕ → ℕ → ℝ
  normal : ℕ → ℕ → ℝ

/-- `NoiseProfile.__call__` at cell `i` (functions.py:210-218). -/
noncomputable def CompCfg.noiseAt (c : CompCfg) (r : Rng) (i : ℕ) : ℝ :=
  match c.noise with
  | .uniform => c.noiseVal * r.uniform c.seed i
  | .gaussian => r.normal c.seed i * c.noiseVal
  | .other => 0

/-- `SubspeciesDistributionSpec.from_config` and its profile on the grid `x` (simulation.py:213-218,
279-290). -/
noncomputable def CompCfg.toComp {nx : ℕ} (c : CompCfg) (r : Rng) (x : ZMod nx → ℝ) : Except String (Comp nx) :=
  match c.basis.eval with
  | .error e => .error e
  | .ok p => .ok { n := fun i => p (x i) * (1 + c.noiseAt r i.val), v0 := c.v0, T0 := c.T0, m := c.m }

/-! ### Species -/

/-- `SpeciesConfig` (datamodel.py:228-237). -/
structure SpeciesCfg where
  name : String
  charge : ℝ
  mass : ℝ
  vmax : ℝ
  vmin : Option ℝ
  nv : ℕ
  components : List String

/-- `Species.vmin` (simulation.py:189-190). -/
noncomputable def SpeciesCfg.lower (s : SpeciesCfg) : ℝ := s.vmin.getD (-s.vmax)

/-- The part of the deck that decides the species; `quasineutral` is `density.quasineutrality`
(datamodel.py:45-48). -/
structure Deck where
  species : Option (List SpeciesCfg)
  density : List (String × CompCfg)
  quasineutral : Bool
  vmax : Option ℝ
  vmin : Option ℝ
  nv : Option ℕ

/-- `species_set_from_config` (modules.py:25-47). -/
def speciesSet (d : Deck) : Except String (List SpeciesCfg) :=
  match d.species with
  | some (s :: l) => .ok (s :: l)
  | _ =>
    let comps := (d.density.map Prod.fst).filter fun k => "species-".toList.isPrefixOf k.toList
    if comps = [] then .error "ValueError"
    else match d.vmax, d.nv with
      | some v, some n =>
        .ok [{ name := "electron", charge := -1, mass := 1, vmax := v, vmin := d.vmin, nv := n, components := comps }]
      | _, _ => .error "ValidationError"

/-- A list comprehension that may raise. -/
def collect {α β : Type} (f : α → Except String β) : List α → Except String (List β)
  | [] => .ok []
  | a :: l => match f a with
    | .error e => .error e
    | .ok b => match collect f l with
      | .error e => .error e
      | .ok bs => .ok (b :: bs)

/-- `cfg.density.get_component(name)` and its conversion (datamodel.py:50-52, modules.py:73-75). -/
noncomputable def component {nx : ℕ} (d : Deck) (r : Rng) (x : ZMod nx → ℝ) (name : String) : Except String (Comp nx) :=
  match dictGet d.density name with
  | none => .error "KeyError"
  | some c => c.toComp r x

/-- A species with its components on the grid. -/
structure Loaded (nx : ℕ) where
  cfg : SpeciesCfg
  comps : List (Comp nx)

/-- One entry of `species_distribution_specs` (modules.py:71-77). -/
noncomputable def load {nx : ℕ} (d : Deck) (r : Rng) (x : ZMod nx → ℝ) (s : SpeciesCfg) : Except String (Loaded nx) :=
  match collect (component d r x) s.components with
  | .error e => .error e
  | .ok cs => .ok ⟨s, cs⟩

/-- `n_prof_species` (helpers.py:130, 138-139). -/
noncomputable def Loaded.profile {nx : ℕ} (l : Loaded nx) (x : ZMod nx) : ℝ := (l.comps.map fun c => c.n x).sum

/-- `f_species` (helpers.py:133, 142-153). -/
noncomputable def Loaded.f {nx : ℕ} (l : Loaded nx) (x : ZMod nx) (j : ℕ) : ℝ :=
  (l.comps.map fun c => c.f l.cfg.mass l.cfg.lower l.cfg.vmax l.cfg.nv x j).sum

/-- The kinetic species of the solver (modules.py:226-256); no velocities is a division by zero. -/
noncomputable def Loaded.kinetic {nx : ℕ} (l : Loaded nx) : Except String (String × Species nx) :=
  if h : l.cfg.nv = 0 then .error "ZeroDivisionError"
  else .ok (l.cfg.name, {
    nv := l.cfg.nv, pos := ⟨h⟩, charge := l.cfg.charge, mass := l.cfg.mass,
    dv := dv l.cfg.lower l.cfg.vmax l.cfg.nv,
    v := fun j => vax l.cfg.lower l.cfg.vmax l.cfg.nv j.val,
    f := fun x j => l.f x j.val })

/-- The dictionaries keyed by species name (modules.py:71-77, helpers.py:156, simulation.py:314-317):
the last species of a name counts. -/
def byName {nx : ℕ} (ls : List (Loaded nx)) : Dict String (Loaded nx) :=
  ls.foldl (fun d l => dictSet d l.cfg.name l) []

/-- The set-up after `get_solver_quantities`. -/
structure Setup (nx : ℕ) where
  loaded : List (Loaded nx)
  species : List (String × Species nx)
  total : ZMod nx → ℝ
  background : ZMod nx → ℝ

/-- The checks of the loaded species (helpers.py:158-159, modules.py:255). -/
def check {nx : ℕ} (ls : List (Loaded nx)) : Option String :=
  if ls.all fun l => l.comps.isEmpty then some "ValueError"
  else if ls.any fun l => l.comps.isEmpty then some "IndexError"
  else none

/-- `sim_from_config` and `get_solver_quantities` (modules.py:70-77, 205-267), `x` being the grid. -/
noncomputable def setup {nx : ℕ} (d : Deck) (r : Rng) (x : ZMod nx → ℝ) : Except String (Setup nx) :=
  match speciesSet d with
  | .error e => .error e
  | .ok ss => match collect (load d r x) ss with
    | .error e => .error e
    | .ok all =>
      let ls := (byName all).map Prod.snd
      match collect Loaded.kinetic ls with
      | .error e => .error e
      | .ok sp => match check ls with
        | some e => .error e
        | none =>
          let total := fun i => (ls.map fun l => l.profile i).sum
          .ok { loaded := ls, species := sp, total := total, background := fun i => if 1 < ss.length then 0 else total i }

/-! ### The state -/

/-- An entry of the state: a distribution or an array of zeros of the given shape. -/
inductive Entry (nx : ℕ) where
  | dist (s : Species nx)
  | zeros (shape : List ℕ)

/-- `d[k] = v` for several keys. -/
def setAll {ν : Type} (d : Dict String ν) (l : List (String × ν)) : Dict String ν :=
  l.foldl (fun d p => dictSet d p.1 p.2) d

/-- `init_state_and_args` (modules.py:280-317): `vlasov`, `fp` are the switches of the two diagnostics. -/
def initState {nx : ℕ} (species : List (String × Species nx)) (vlasov fp : Bool) : Dict String (Entry nx) :=
  let nvRef := ((dictGet species "electron").or (species.head?.map Prod.snd)).elim 0 Species.nv
  let s := setAll [] (species.map fun p => (p.1, Entry.dist p.2))
  let s := setAll s [("e", .zeros [nx]), ("de", .zeros [nx])]
  let s := setAll s [("a", .zeros [nx + 2]), ("da", .zeros [nx + 2]), ("prev_a", .zeros [nx + 2])]
  let s := if vlasov then dictSet s "diag-vlasov-dfdt" (.zeros [nx, nvRef]) else s
  if fp then dictSet s "diag-fp-dfdt" (.zeros [nx, nvRef]) else s

end Verif.VlasovInit
