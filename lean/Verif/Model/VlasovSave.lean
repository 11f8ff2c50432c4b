import Verif.Model.VlasovInit

/-!
Model of what Vlasov-1D saves: the moments and scalars (adept/_vlasov1d/storage.py:119-162, 286-327),
the interpolated distribution (storage.py:165-219), the save section of the deck
(storage.py:222-283, adept/_vlasov1d/modules.py:172-182, adept/_vlasov1d/helpers.py:205-272) and the
spectrum of the ion-acoustic module (adept/_vlasov1d/iaw.py:43-142).  Exact real arithmetic;
`log 0` is a number here, while the code gets NaN for a distribution with exact zeros.
-/
namespace Verif.VlasovSave
open Finset Verif.Spectral

/-! ### Moments -/

/-- `_calc_moment_` of `inp` at the cell `x` (storage.py:134-135). -/
noncomputable def moment {nx : ℕ} (s : Species nx) (inp : ZMod s.nv → ℝ) : ℝ := (∑ j, inp j) * s.dv

/-- The saved fields of a species (storage.py:139-146). -/
noncomputable def fieldN {nx : ℕ} (s : Species nx) (x : ZMod nx) : ℝ := moment s fun j => s.f x j
noncomputable def fieldJ {nx : ℕ} (s : Species nx) (x : ZMod nx) : ℝ := moment s fun j => s.f x j * s.v j
noncomputable def fieldV {nx : ℕ} (s : Species nx) (x : ZMod nx) : ℝ := fieldJ s x / fieldN s x
noncomputable def fieldP {nx : ℕ} (s : Species nx) (x : ZMod nx) : ℝ := moment s fun j => s.f x j * (s.v j - fieldV s x) ^ 2
noncomputable def fieldQ {nx : ℕ} (s : Species nx) (x : ZMod nx) : ℝ := moment s fun j => s.f x j * (s.v j - fieldV s x) ^ 3
noncomputable def fieldS {nx : ℕ} (s : Species nx) (x : ZMod nx) : ℝ := moment s fun j => -|s.f x j| * Real.log |s.f x j|
noncomputable def fieldF2 {nx : ℕ} (s : Species nx) (x : ZMod nx) : ℝ := moment s fun j => s.f x j * s.f x j

/-- `jnp.mean` over the cells. -/
noncomputable def mean {nx : ℕ} [NeZero nx] (g : ZMod nx → ℝ) : ℝ := (∑ x, g x) / nx

/-- The scalars of a species (storage.py:306-311). -/
noncomputable def meanP {nx : ℕ} [NeZero nx] (s : Species nx) : ℝ := mean fun x => moment s fun j => s.f x j * s.v j ^ 2
noncomputable def meanJ {nx : ℕ} [NeZero nx] (s : Species nx) : ℝ := mean fun x => moment s fun j => s.f x j * s.v j
noncomputable def meanN {nx : ℕ} [NeZero nx] (s : Species nx) : ℝ := mean fun x => moment s fun j => s.f x j
noncomputable def meanQ {nx : ℕ} [NeZero nx] (s : Species nx) : ℝ := mean fun x => moment s fun j => s.f x j * s.v j ^ 3
noncomputable def meanS {nx : ℕ} [NeZero nx] (s : Species nx) : ℝ := mean fun x => moment s fun j => -Real.log |s.f x j| * |s.f x j|
noncomputable def meanF2 {nx : ℕ} [NeZero nx] (s : Species nx) : ℝ := mean fun x => moment s fun j => s.f x j * s.f x j

/-- `mean_kinetic_energy` (storage.py:296, 312, 321). -/
noncomputable def kinetic {nx : ℕ} [NeZero nx] (ss : List (Species nx)) : ℝ := (ss.map fun s => 0.5 * s.mass * meanP s).sum

/-- `mean_field_energy` (storage.py:316, 322). -/
noncomputable def fieldEnergy {nx : ℕ} [NeZero nx] (e : ZMod nx → ℝ) : ℝ := 0.5 * mean fun x => e x ^ 2

/-- `mean_total_energy` (storage.py:323). -/
noncomputable def totalEnergy {nx : ℕ} [NeZero nx] (ss : List (Species nx)) (e : ZMod nx → ℝ) : ℝ :=
  kinetic ss + 0.5 * mean fun x => e x ^ 2

/-- `pond` at cell `i` of `nx` (storage.py:154): `a` has a boundary cell at each end. -/
noncomputable def pond (dx : ℝ) (a : ℕ → ℝ) (i : ℕ) : ℝ := -0.5 * ((a (i + 2) ^ 2 - a i ^ 2) / (2 * dx))

/-- `mean_pond` (storage.py:317). -/
noncomputable def meanPond (dx : ℝ) (nx : ℕ) (a : ℕ → ℝ) : ℝ := (∑ i ∈ range nx, pond dx a i) / nx

/-! ### Interpolated distributions -/

/-- `ax` of a dimension (storage.py:203-219): only `x` is shifted by half a cell. -/
noncomputable def saveAxis (isX : Bool) (lo hi : ℝ) (n : ℕ) (i : ℕ) : ℝ :=
  let d := if isX then (hi - lo) / n else 0
  Grid.linspaceAt (lo + d / 2) (hi - d / 2) n i

/-- `clip(searchsorted(ax, q, side="right"), 1, n - 1)` of `interp2d` (called at storage.py:180). -/
noncomputable def locate (ax : ℕ → ℝ) (n : ℕ) (q : ℝ) : ℕ :=
  max 1 (min ((range n).filter fun k => ax k ≤ q).card (n - 1))

/-- The weight of the upper neighbour. -/
noncomputable def weight (ax : ℕ → ℝ) (n : ℕ) (q : ℝ) : ℝ :=
  let i := locate ax n q
  (q - ax (i - 1)) / (ax i - ax (i - 1))

/-- `interp2d(..., method="linear")` of one point (storage.py:180): `none` is the NaN it returns outside the axes, since
`extrap` is not given. -/
noncomputable def interp2 (x : ℕ → ℝ) (nx : ℕ) (v : ℕ → ℝ) (nv : ℕ) (f : ℕ → ℕ → ℝ) (xq vq : ℝ) : Option ℝ :=
  open Classical in
  if xq < x 0 ∨ x (nx - 1) < xq ∨ vq < v 0 ∨ v (nv - 1) < vq then none
  else
    let i := locate x nx xq
    let j := locate v nv vq
    let a := weight x nx xq
    let b := weight v nv vq
    some ((1 - a) * ((1 - b) * f (i - 1) (j - 1) + b * f (i - 1) j) + a * ((1 - b) * f i (j - 1) + b * f i j))

/-! ### The save section -/

/-- What a saved stream contains. -/
inductive Stream where
  | fields
  | full (species : String)
  | sampled (species : String)
  | spectrum (species : String)
  | scalars
deriving DecidableEq

/-- The dimensions named by an entry. -/
inductive Dims where
  | t
  | txv
  | tkxv
  | tkv
  | bad
deriving DecidableEq

/-- The comparison of key sets (storage.py:167-198): `tkv` are the two branches that define no function. -/
def dims (keys : List String) : Dims :=
  let same := fun l : List String => keys.all (· ∈ l) && l.all (· ∈ keys)
  if same ["t"] then .t
  else if same ["t", "x", "v"] then .txv
  else if same ["t", "kx", "v"] then .tkxv
  else if same ["t", "x", "kv"] || same ["t", "kx", "kv"] then .tkv
  else .bad

/-- `get_dist_save_func` (storage.py:165-200). -/
def distFunc (keys : List String) (source : String) : Except String Stream :=
  match dims keys with
  | .t => .ok (.full source)
  | .txv => .ok (.sampled source)
  | .tkxv => .ok (.spectrum source)
  | .tkv => .error "UnboundLocalError"
  | .bad => .error "NotImplementedError"

/-- An entry of `save`: `flat` has the dimensions themselves, `nested` one set of dimensions per label. -/
inductive Entry where
  | flat (keys : List String)
  | nested (labels : List (String × List String))

/-- The keys of an entry. -/
def Entry.keys : Entry → List String
  | .flat k => k
  | .nested l => l.map Prod.fst

/-- The labels of a species entry (storage.py:256-265). -/
def labels (species : String) : List (String × List String) → Dict String Stream → Except String (Dict String Stream)
  | [], acc => .ok acc
  | (label, keys) :: l, acc => match distFunc keys species with
    | .error e => .error e
    | .ok s => labels species l (dictSet acc (species ++ "." ++ label) s)

/-- `get_field_save_func` (storage.py:119-121, 159-160): it always looks at the entry `fields`, whose keys change once it
has been given its function. -/
def fieldFunc (save : List (String × Entry)) (done : Bool) : Except String Stream :=
  match dictGet save "fields" with
  | none => .error "KeyError"
  | some e => if dims e.keys = .t && !done then .ok .fields else .error "NotImplementedError"

/-- `startswith`. -/
def starts (p s : String) : Bool := p.toList.isPrefixOf s.toList

/-- The loop of `get_save_quantities` (storage.py:247-279): `done` says whether `fields` has its function. -/
def expand (save : List (String × Entry)) (species : List String) : List (String × Entry) → Bool → Dict String Stream →
    Except String (Dict String Stream)
  | [], _, acc => .ok acc
  | (key, e) :: l, done, acc =>
    if starts "fields" key then
      match fieldFunc save done with
      | .error err => .error err
      | .ok s => expand save species l (done || key == "fields") (dictSet acc key s)
    else if key ∈ species then
      match e with
      | .flat [] => expand save species l done acc
      | .flat _ => .error "NotImplementedError"
      | .nested ls => match labels key ls acc with
        | .error err => .error err
        | .ok acc => expand save species l done acc
    else if key ∈ ["diag-vlasov-dfdt", "diag-fp-dfdt"] then
      if "electron" ∈ species then
        match distFunc e.keys key with
        | .error err => .error err
        | .ok s => expand save species l done (dictSet acc key s)
      else .error "KeyError"
    else .error "NotImplementedError"

/-- `get_save_quantities` (storage.py:222-283). -/
def saveSection (save : List (String × Entry)) (species : List String) : Except String (Dict String Stream) :=
  match expand save species save false [] with
  | .error e => .error e
  | .ok d => .ok (dictSet d "default" .scalars)

/-- What the saved stream of a key is taken for when the run is stored (helpers.py:206-272). -/
inductive Writer where
  | fields
  | scalars
  | dist
deriving DecidableEq

/-- The dispatch on the key (helpers.py:205-206, 271, 305). -/
def writer (key : String) : Writer :=
  if starts "field" key then .fields else if starts "default" key then .scalars else .dist

/-- `tmin` and `tmax` of the section `t` of a saved stream. -/
structure TimeSec where
  tmin : Option ℝ
  tmax : Option ℝ

/-- The section after `setdefault` (modules.py:172-182) with the first and last time of the run. -/
noncomputable def TimeSec.default (s : TimeSec) (t0 t1 : ℝ) : TimeSec := ⟨some (s.tmin.getD t0), some (s.tmax.getD t1)⟩

/-- The times of a saved stream (storage.py:203-219, modules.py:175-176). -/
noncomputable def times (s : TimeSec) (t0 t1 : ℝ) (n i : ℕ) : ℝ :=
  saveAxis false ((s.default t0 t1).tmin.getD 0) ((s.default t0 t1).tmax.getD 0) n i

/-- The switches of the diagnostics, read from the deck itself (modules.py:312-314). -/
def diagSwitches (section_ : Option (Dict String Bool)) : Except String (Bool × Bool) :=
  match section_ with
  | none => .error "KeyError"
  | some d => match dictGet d "diag-vlasov-dfdt", dictGet d "diag-fp-dfdt" with
    | some a, some b => .ok (a, b)
    | _, _ => .error "KeyError"

/-! ### The spectrum of the ion-acoustic module -/

/-- The number of saved modes, without the mean (iaw.py:71). -/
def nkModes (requested nx : ℕ) : ℕ := min requested (nx / 2)

/-- `nk_save` (iaw.py:77-83): `rho` without any background. -/
noncomputable def nk {nx : ℕ} [NeZero nx] (species : List (Species nx)) (m : ℕ) : ℂ :=
  rfft (chargeDensity species fun _ => 0) m / nx

/-- `P` (iaw.py:113). -/
noncomputable def power {nx : ℕ} [NeZero nx] (species : List (Species nx)) (m : ℕ) : ℝ := (nk species m).re ^ 2 + (nk species m).im ^ 2

/-- The times of the stream (iaw.py:72) that the late-time average uses (iaw.py:139-142). -/
noncomputable def windowTimes (tmin tmax : ℝ) (n : ℕ) (w0 w1 : ℝ) : Finset ℕ :=
  let t := fun i => Grid.linspaceAt tmin tmax n i
  let t0 := t 0 + w0 * (t (n - 1) - t 0)
  let t1 := t 0 + w1 * (t (n - 1) - t 0)
  (range n).filter fun i => t0 ≤ t i ∧ t i ≤ t1

/-- `screening_length` (iaw.py:51-63) for the Boltzmann closure. -/
noncomputable def screening (Te : ℝ) (lambdaDe : Option ℝ) : ℝ := lambdaDe.getD (Real.sqrt Te)

end Verif.VlasovSave
