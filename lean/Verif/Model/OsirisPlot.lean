import Verif.Model.Py
import Verif.Model.Grid
import Verif.Model.Spectral
import Mathlib.Algebra.BigOperators.Field

/-!
Model of the data side of adept/osiris/plots.py: decimation of images, the (k, ω) power spectrum, the choice of time
slices, cropping to the box, per-species density and temperature profiles, the left/right split of the transverse
fields and field energies.

Simplifications: exact arithmetic; a two-dimensional array is a function of its indices together with its sizes; the
logarithm of the spectrum is an arbitrary function applied to every cell; colours, labels, legends and file names of
the figures are not modelled, nor are NaNs.
-/
namespace Verif.OsirisPlot
open Finset

/-- An image with the coordinates of its rows and columns (the three results of `_boxcar_downsample`,
plots.py:104-129). -/
structure Mesh (K : Type) where
  rows : ℕ
  cols : ℕ
  data : ℕ → ℕ → K
  r : ℕ → K
  c : ℕ → K

/-- `max(1, size // max(target, 1))` (plots.py:120-121). -/
def factor (size : ℕ) (target : ℤ) : ℕ := max 1 (size / (max target 1).toNat)

section
variable {K : Type} [Field K]

/-- Mean of a block of `f` entries: `coord[:n].reshape(n // f, f).mean(axis=1)` (plots.py:127-128). -/
def blockMean (f : ℕ) (x : ℕ → K) (i : ℕ) : K := (∑ a ∈ range f, x (i * f + a)) / (f : K)

/-- `data[:nr, :nc].reshape(nr // fr, fr, nc // fc, fc).mean(axis=(1, 3))` (plots.py:126). -/
def blockMean2 (fr fc : ℕ) (x : ℕ → ℕ → K) (i j : ℕ) : K :=
  (∑ a ∈ range fr, ∑ b ∈ range fc, x (i * fr + a) (j * fc + b)) / ((fr : K) * (fc : K))

/-- `_boxcar_downsample` (plots.py:104-129). -/
def downsample (m : Mesh K) (targetRows targetCols : ℤ) : Mesh K :=
  let fr := factor m.rows targetRows
  let fc := factor m.cols targetCols
  if fr = 1 ∧ fc = 1 then m
  else ⟨m.rows / fr, m.cols / fc, blockMean2 fr fc m.data, blockMean fr m.r, blockMean fc m.c⟩

end

/-- One component of `_render_cells` (plots.py:67-101): `size` inches of the axes on the screen, `visible` the fraction
shown. -/
noncomputable def renderCells (size dpi oversample visible : ℝ) (cap : ℤ) : ℤ :=
  min (max ⌈size * dpi * oversample / max visible (1 / 1000)⌉ 1) cap

/-! ### The (k, ω) spectrum -/

section
open Spectral

variable {nt nx : ℕ} [NeZero nt] [NeZero nx]

/-- `np.fft.rfft2(values, axes=(1, 0))` (plots.py:747): real transform over the last listed axis (time), then a complex
one over space; entry `(n, m)`. -/
noncomputable def rfft2 (v : ZMod nt → ZMod nx → ℝ) (n : ℕ) (m : ZMod nx) : ℂ :=
  fft (fun x => rfft (fun t => v t x) n) m

/-- Index of the entry that `np.fft.fftshift` moves to place `j`: a roll by `n // 2` (plots.py:751, 757). -/
def shiftIdx (n j : ℕ) : ℕ := (j + (n - n / 2)) % n

/-- The half spectrum with its axes (plots.py:747-757): `g` is the per-cell function (`log10(P + 1e-30)` or the
identity). -/
noncomputable def half (g : ℝ → ℝ) (dt dx : ℝ) (v : ZMod nt → ZMod nx → ℝ) : Mesh ℝ where
  rows := nt / 2 + 1
  cols := nx
  data n j := g (‖rfft2 v n (shiftIdx nx j : ℕ)‖ ^ 2)
  r n := Grid.rfftfreqAt nt dt n * (2 * Real.pi)
  c j := Grid.fftfreqAt nx dx (shiftIdx nx j) * (2 * Real.pi)

/-- Rebuilding of the negative frequencies (plots.py:775-777). -/
def reflect {K : Type} [Neg K] (m : Mesh K) : Mesh K :=
  if 1 < m.rows then
    { rows := (m.rows - 1) + m.rows
      cols := m.cols
      data := fun i j => if i < m.rows - 1 then m.data (m.rows - 1 - i) (m.cols - 1 - j) else m.data (i - (m.rows - 1)) j
      r := fun i => if i < m.rows - 1 then -m.r (m.rows - 1 - i) else m.r (i - (m.rows - 1))
      c := m.c }
  else m

/-- The image drawn by `plot_omega_k` (plots.py:747-777). -/
noncomputable def omegaK (g : ℝ → ℝ) (dt dx : ℝ) (v : ZMod nt → ZMod nx → ℝ) (targetRows targetCols : ℤ) : Mesh ℝ :=
  reflect (downsample (half g dt dx v) targetRows targetCols)

end

/-- `_omega_k_zoom_window` (plots.py:1454-1471); `k` and `w` are the two Nyquist limits, `none` if an axis has fewer
than two points. -/
noncomputable def zoomWindow (nyquist : Option (ℝ × ℝ)) (requested : Option ℝ) : Option ℝ :=
  match nyquist with
  | none => none
  | some (k, w) =>
    match requested with
    | none => some (min k w)
    | some z => if z ≤ 0 then some (min k w) else some (min z (min k w))

/-! ### Time slices -/

/-- `range(0, n, s)` for a positive step (plots.py:209, 275). -/
def rangeStep (n s : ℕ) : List ℕ := (List.range ((n + s - 1) / s)).map (· * s)

/-- `_evolution_t_indices` (plots.py:267-275) for a non-empty series (`0 < n`; for `n = 0` the code returns `[-1]`); for
zero panels the division raises. -/
def evolutionIdx (n panels : ℕ) : Option (List ℕ) :=
  if panels = 0 then none
  else
    let l := rangeStep n (max 1 (n / panels))
    some (if n - 1 ∈ l then l else l ++ [n - 1])

/-- The slices of `plot_lineouts` (plots.py:207-209). -/
def lineoutIdx (n panels : ℕ) : Option (List ℕ) :=
  if panels = 0 then none else some (rangeStep n (max 1 (n / panels)))

/-! ### Cropping to the box -/

/-- `np.searchsorted(xv, b, side="left")` on a sorted axis: the number of entries below `b` (plots.py:969). -/
def searchLeft {K : Type} [LT K] [DecidableLT K] (xv : List K) (b : K) : ℕ := xv.countP fun x => decide (x < b)

/-- `np.searchsorted(xv, b, side="right")` on a sorted axis: the number of entries up to `b` (plots.py:970). -/
def searchRight {K : Type} [LE K] [DecidableLE K] (xv : List K) (b : K) : ℕ := xv.countP fun x => decide (x ≤ b)

/-- The window kept along one spatial dimension (plots.py:966-973): `isel(slice(left, right))`. -/
def cropAxis {K : Type} [LinearOrder K] (xv : List K) (lo hi : K) : List K :=
  if xv.length < 2 then xv
  else
    let left := searchLeft xv lo
    let right := max (left + 1) (min (searchRight xv hi) xv.length)
    (xv.take right).drop left

/-- Entry of `sim.XMIN`/`sim.XMAX` used for a dimension (plots.py:922-930): `digits` is the number in the name of the
dimension, if any; `none` for the attribute if it is absent. -/
def boxBound {K : Type} (attr : Option (List K)) (digits : Option ℕ) (axisEnd : K) : Option K :=
  match attr with
  | none => some axisEnd
  | some l =>
    match digits with
    | none => l[0]?
    | some d => if 1 ≤ d ∧ d - 1 < l.length then l[d - 1]? else l.getLast?

/-! ### Species profiles -/

section
variable {K : Type} [Field K] [LinearOrder K]

/-- `np.sign(s) or 1.0` (plots.py:1088, 1180). -/
def chargeSign (s : K) : K := if s < 0 then -1 else 1

/-- Density of a species from its charge density (plots.py:1087-1090): the whole `(t, x)` array is divided by the sign of
its sum. -/
def densityFromCharge {T X : Type} [Fintype T] [Fintype X] (rho : T → X → K) : T → X → K :=
  fun t x => rho t x / chargeSign (∑ t, ∑ x, rho t x)

/-- `_temperature_from_phasespace` (plots.py:1180-1185) for one `(t, x)`: `total` is the sum of the whole phase space, `f`
the cells of one position; `none` where the weight is not positive (masked). -/
def temperature {P : Type} [Fintype P] (total : K) (p : P → K) (f : P → K) : Option K :=
  let w := fun i => max (f i / chargeSign total) 0
  let weight := ∑ i, w i
  let p0 := (∑ i, w i * p i) / weight
  if 0 < weight then some ((∑ i, w i * (p i - p0) ^ 2) / weight) else none

end

/-! ### Left- and right-going fields -/

/-- One polarisation pair of `efield_lr_components` (plots.py:1293-1304): `s = 1` for (e2, b3), `s = -1` for (e3, b2). -/
def rightGoing {K : Type} [Field K] (s e b : K) : K := (e + s * b) / 2
/-- `left` of the same pair (plots.py:1297, 1303); see `rightGoing`. -/
def leftGoing {K : Type} [Field K] (s e b : K) : K := (e - s * b) / 2

/-- Guard and window actually used (plots.py:1357-1359). -/
def slabSize (n g w : ℕ) : ℕ × ℕ := if g + w > n then (0, min w n) else (g, w)

/-- `slice(g, g + w)` (plots.py:1360). -/
def leftSlab {α : Type} (l : List α) (g w : ℕ) : List α :=
  let s := slabSize l.length g w
  (l.take (s.1 + s.2)).drop s.1

/-- `slice(n - g - w, n - g)` (plots.py:1360). -/
def rightSlab {α : Type} (l : List α) (g w : ℕ) : List α :=
  let s := slabSize l.length g w
  (l.take (l.length - s.1)).drop (l.length - s.1 - s.2)

/-! ### Field energies -/

section
variable {K : Type} [Field K]

/-- The six components (plots.py:435). -/
inductive Comp | e1 | e2 | e3 | b1 | b2 | b3
deriving DecidableEq

/-- The loop order of plots.py:435. -/
def comps : List Comp := [.e1, .e2, .e3, .b1, .b2, .b3]

/-- A loaded field series: for every dump its iteration number, its time and the grid values, and the cell volume
(plots.py:1843-1852). -/
structure Series (K : Type) where
  dumps : List (ℤ × K × List K)
  dvol : K

/-- `_field_energy_from_series` (plots.py:1855-1865) for one dump. -/
def dumpEnergy (dvol : K) (vals : List K) : K := 1 / 2 * (vals.map fun x => x ^ 2).sum * dvol

/-- The accumulation `by_iter` (plots.py:454-458) of one series for one component. -/
def compEnergy (s : Option (Series K)) (it : ℤ) : K :=
  match s with
  | none => 0
  | some s => ((s.dumps.filter fun d => d.1 = it).map fun d => dumpEnergy s.dvol d.2.2).sum

/-- Insertion of an iteration number into the sorted list of the distinct ones (`sorted` of the keys, plots.py:461). -/
def insertIter (it : ℤ) : List ℤ → List ℤ
  | [] => [it]
  | a :: l => if it < a then it :: a :: l else if it = a then a :: l else a :: insertIter it l

/-- `sorted(by_iter)` (plots.py:461). -/
def iters (f : Comp → Option (Series K)) : List ℤ :=
  (comps.flatMap fun c => match f c with
    | none => []
    | some s => s.dumps.map fun d => d.1).foldl (fun l it => insertIter it l) []

/-- `E_energy` (plots.py:468). -/
def electric (f : Comp → Option (Series K)) (it : ℤ) : K := compEnergy (f .e1) it + compEnergy (f .e2) it + compEnergy (f .e3) it
/-- `B_energy` (plots.py:469). -/
def magnetic (f : Comp → Option (Series K)) (it : ℤ) : K := compEnergy (f .b1) it + compEnergy (f .b2) it + compEnergy (f .b3) it
/-- `total_field_energy` (plots.py:475). -/
def totalEnergy (f : Comp → Option (Series K)) (it : ℤ) : K := electric f it + magnetic f it

end

end Verif.OsirisPlot
