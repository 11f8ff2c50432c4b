import Verif.Model.Vfp2dStep
import Verif.Model.Pic

/-!
Model of the reconnection diagnostics of VFP-2D runs (adept/vfp2d/plotting.py): vector potential, X-point diagnostics, gates,
metrics, choice of panels and colour scales.

Simplifications: exact arithmetic, no NaN or infinity in the input; NaN results are `none`; the drawing is not modelled; arrays
over cells are functions of the two indices together with the sizes.
-/
namespace Verif.Vfp2d.Recon
open Finset Complex Verif.Spectral Verif.Vfp2d

section
variable {nx ny : ℕ} [NeZero nx] [NeZero ny]

/-- `k2` (plotting.py:109). -/
noncomputable def k2 (dx dy : ℝ) (k : ZMod nx) (l : ZMod ny) : ℝ := kfull dx k ^ 2 + kfull dy l ^ 2

/-- `_vector_potential` (plotting.py:102-114). -/
noncomputable def potential (dx dy : ℝ) (bx by' : Scal nx ny) : Scal nx ny := fun x y =>
  (ifft2 (fun k l => if 0 < k2 dx dy k l then
    (-I * (kfull dy l : ℂ) * fft2 (fun x y => (bx x y : ℂ)) k l + I * (kfull dx k : ℂ) * fft2 (fun x y => (by' x y : ℂ)) k l) / (k2 dx dy k l : ℂ)
    else 0) x y).re

end

/-! ### Axes -/

/-- Coordinates of the cells. -/
structure Axes where
  nx : ℕ
  ny : ℕ
  x : ℕ → ℝ
  y : ℕ → ℝ

/-- `float(np.mean(np.diff(x)))` (plotting.py:124-125). -/
noncomputable def spacing (n : ℕ) (x : ℕ → ℝ) : ℝ := (∑ i ∈ range (n - 1), (x (i + 1) - x i)) / ((n - 1 : ℕ) : ℝ)

/-- `x_center`, `y_center` (plotting.py:127-128). -/
noncomputable def centre (n : ℕ) (x : ℕ → ℝ) : ℝ := if x 0 ≤ 0 ∧ 0 ≤ x (n - 1) then 0 else 0.5 * (x 0 + x (n - 1))

/-- One comparison of `np.argmax`: a later entry wins only if it is larger. -/
noncomputable def better (f : ℕ → ℝ) (b i : ℕ) : ℕ := if f b < f i then i else b

/-- `l[np.argmax(f[l])]` on a list of indices (plotting.py:138-139); 0 for the empty list, which is refused before. -/
noncomputable def argmax (f : ℕ → ℝ) (l : List ℕ) : ℕ := l.tail.foldl (better f) (l.headD 0)

/-- `np.argmin(np.abs(x - x_center))` (plotting.py:129). -/
noncomputable def nearest (n : ℕ) (x : ℕ → ℝ) : ℕ := argmax (fun i => -|x i - centre n x|) (List.range n)

/-- `np.flatnonzero(y < y_center)` (plotting.py:131). -/
noncomputable def lower (a : Axes) : List ℕ := (List.range a.ny).filter fun j => decide (a.y j < centre a.ny a.y)
/-- `np.flatnonzero(y > y_center)` (plotting.py:132). -/
noncomputable def upper (a : Axes) : List ℕ := (List.range a.ny).filter fun j => decide (centre a.ny a.y < a.y j)

/-! ### One time slice -/

/-- The fields of one saved time used by the diagnostics (plotting.py:120-121, 126, 155-158, 170, 178). -/
structure Slice where
  bx : ℕ → ℕ → ℝ
  by' : ℕ → ℕ → ℝ
  bz : ℕ → ℕ → ℝ
  ez : ℕ → ℕ → ℝ
  vy : ℕ → ℕ → ℝ
  jz : ℕ → ℕ → ℝ
  az : ℕ → ℕ → ℝ

/-- The threshold `1e-30`. -/
noncomputable def tiny : ℝ := 1 / 10 ^ 30

noncomputable def ix (a : Axes) : ℕ := nearest a.nx a.x
noncomputable def iy (a : Axes) : ℕ := nearest a.ny a.y

/-- `lower_iy` (plotting.py:138). -/
noncomputable def lowerIy (a : Axes) (s : Slice) : ℕ := argmax (fun j => |s.bx (ix a) j|) (lower a)
/-- `upper_iy` (plotting.py:139). -/
noncomputable def upperIy (a : Axes) (s : Slice) : ℕ := argmax (fun j => |s.bx (ix a) j|) (upper a)

/-- `bx_lower`, `bx_upper` (plotting.py:140-141). -/
noncomputable def bxLower (a : Axes) (s : Slice) : ℝ := s.bx (ix a) (lowerIy a s)
/-- `bx_upper` (plotting.py:141). -/
noncomputable def bxUpper (a : Axes) (s : Slice) : ℝ := s.bx (ix a) (upperIy a s)

/-- `upstream_bx` (plotting.py:143). -/
noncomputable def upstreamBx (a : Axes) (s : Slice) : ℝ := 0.5 * (|bxLower a s| + |bxUpper a s|)

/-- `upstream_balance` (plotting.py:144-149). -/
noncomputable def balance (a : Axes) (s : Slice) : ℝ :=
  if tiny < |bxLower a s| + |bxUpper a s| then 2 * min |bxLower a s| |bxUpper a s| / (|bxLower a s| + |bxUpper a s|) else 0

/-- `raw_reconnected_flux` (plotting.py:152-153). -/
noncomputable def rawFlux (a : Axes) (s : Slice) : ℝ :=
  s.az (ix a) (iy a) - 0.5 * (s.az (ix a) (lowerIy a s) + s.az (ix a) (upperIy a s))

/-- `upstream_vn` (plotting.py:155-158). -/
noncomputable def upstreamVn (a : Axes) (s : Slice) : ℝ :=
  0.5 * (max (s.vy (ix a) (lowerIy a s)) 0 + max (-s.vy (ix a) (upperIy a s)) 0)

/-- `inplane_null_ratio` (plotting.py:161-166); `none` for infinity. -/
noncomputable def nullRatio (a : Axes) (s : Slice) : Option ℝ :=
  if tiny < upstreamBx a s then some (Real.sqrt (s.bx (ix a) (iy a) ^ 2 + s.by' (ix a) (iy a) ^ 2) / upstreamBx a s) else none

/-- `np.gradient(f, d)` on `n ≥ 2` points (plotting.py:167-169): one-sided at the ends. -/
noncomputable def gradient (n : ℕ) (d : ℝ) (f : ℕ → ℝ) (i : ℕ) : ℝ :=
  if i = 0 then (f 1 - f 0) / d else if i = n - 1 then (f (n - 1) - f (n - 2)) / d else (f (i + 1) - f (i - 1)) / (2 * d)

/-- `az_xx` at a cell (plotting.py:167). -/
noncomputable def azxx (a : Axes) (az : ℕ → ℕ → ℝ) (i j : ℕ) : ℝ :=
  gradient a.nx (spacing a.nx a.x) (fun i => gradient a.nx (spacing a.nx a.x) (fun i => az i j) i) i
/-- `az_yy` at a cell (plotting.py:168). -/
noncomputable def azyy (a : Axes) (az : ℕ → ℕ → ℝ) (i j : ℕ) : ℝ :=
  gradient a.ny (spacing a.ny a.y) (fun j => gradient a.ny (spacing a.ny a.y) (fun j => az i j) j) j
/-- `az_xy` at a cell (plotting.py:169). -/
noncomputable def azxy (a : Axes) (az : ℕ → ℕ → ℝ) (i j : ℕ) : ℝ :=
  gradient a.ny (spacing a.ny a.y) (fun j => gradient a.nx (spacing a.nx a.x) (fun i => az i j) i) j

/-- `xpoint_hessian_determinant` (plotting.py:170). -/
noncomputable def hessian (a : Axes) (s : Slice) : ℝ :=
  azxx a s.az (ix a) (iy a) * azyy a s.az (ix a) (iy a) - azxy a s.az (ix a) (iy a) ^ 2

/-! ### Current sheet and quadrupole -/

/-- `upstream_distance` (plotting.py:182). -/
noncomputable def upstreamDistance (a : Axes) (s : Slice) : ℝ := min |a.y (lowerIy a s)| |a.y (upperIy a s)|

/-- `sheet_half_width` (plotting.py:183). -/
noncomputable def sheetHalf (a : Axes) (s : Slice) : ℝ := max (2 * spacing a.ny a.y) (0.4 * upstreamDistance a s)

/-- `y_from_sheet` (plotting.py:174). -/
noncomputable def fromSheet (a : Axes) (j : ℕ) : ℝ := a.y j - a.y (iy a)

/-- `sheet_mask` (plotting.py:184). -/
noncomputable def sheetCells (a : Axes) (s : Slice) : Finset ℕ := (range a.ny).filter fun j => |fromSheet a j| ≤ sheetHalf a s

/-- `sheet_width` (plotting.py:186-187); `none` for NaN. -/
noncomputable def sheetWidth (a : Axes) (s : Slice) : Option ℝ :=
  if tiny < ∑ j ∈ sheetCells a s, |s.jz (ix a) j| then
    some (Real.sqrt ((∑ j ∈ sheetCells a s, |s.jz (ix a) j| * fromSheet a j ^ 2) / ∑ j ∈ sheetCells a s, |s.jz (ix a) j|))
  else none

/-- `global_peak` (plotting.py:188). -/
noncomputable def globalPeak (a : Axes) (s : Slice) : ℝ := (range a.nx).fold max 0 fun i => (range a.ny).fold max 0 fun j => |s.jz i j|

/-- `sheet_dominance` (plotting.py:189-190). -/
noncomputable def dominance (a : Axes) (s : Slice) : ℝ :=
  if tiny < globalPeak a s then ((sheetCells a s).fold max 0 fun j => |s.jz (ix a) j|) / globalPeak a s else 0

/-- `spatial_mask` (plotting.py:192-193). -/
noncomputable def window (a : Axes) (s : Slice) : Finset (ℕ × ℕ) :=
  (range a.nx ×ˢ range a.ny).filter fun c =>
    |a.x c.1| ≤ max (2 * spacing a.nx a.x) (2 * upstreamDistance a s) ∧ |a.y c.2| ≤ upstreamDistance a s

/-- `np.sign` (plotting.py:194). -/
noncomputable def sgn (v : ℝ) : ℝ := if 0 < v then 1 else if v < 0 then -1 else 0

/-- `local_l1` (plotting.py:197). -/
noncomputable def localL1 (a : Axes) (s : Slice) : ℝ := ∑ c ∈ window a s, |s.bz c.1 c.2|
/-- `signed_sum` (plotting.py:199). -/
noncomputable def signedSum (a : Axes) (s : Slice) : ℝ := ∑ c ∈ window a s, s.bz c.1 c.2 * sgn (a.x c.1 * a.y c.2)
/-- `quadrupole_purity` (plotting.py:198-200). -/
noncomputable def purity (a : Axes) (s : Slice) : ℝ := if tiny < localL1 a s then |signedSum a s| / localL1 a s else 0
/-- `quadrupole_projection` (plotting.py:201). -/
noncomputable def projection (a : Axes) (s : Slice) : ℝ := if tiny < localL1 a s then signedSum a s / (window a s).card else 0
/-- `quadrupole_central_fraction` (plotting.py:202). -/
noncomputable def centralFraction (a : Axes) (s : Slice) : ℝ :=
  if tiny < localL1 a s then localL1 a s / ∑ c ∈ range a.nx ×ˢ range a.ny, |s.bz c.1 c.2| else 0

/-! ### Gates -/

/-- `reconnection_valid` (plotting.py:150, 204-210). -/
def Valid (a : Axes) (s : Slice) : Prop :=
  bxLower a s * bxUpper a s < 0 ∧ 0.25 ≤ balance a s ∧ (∃ r, nullRatio a s = some r ∧ r ≤ 0.5) ∧ hessian a s < 0 ∧ 0.25 ≤ dominance a s

/-- `peak_upstream_vn` (plotting.py:211). -/
noncomputable def peakVn (a : Axes) (run : List Slice) : ℝ := run.foldl (fun m s => max m (upstreamVn a s)) 0

/-- `rate_normalization_valid` (plotting.py:212). -/
def RateValid (a : Axes) (run : List Slice) (s : Slice) : Prop := Valid a s ∧ 0.1 * peakVn a run ≤ upstreamVn a s

open scoped Classical in
/-- `normalized_rate` (plotting.py:213-219); `none` for NaN. -/
noncomputable def rate (a : Axes) (run : List Slice) (s : Slice) : Option ℝ :=
  if RateValid a run s ∧ tiny < upstreamBx a s * upstreamVn a s then some (s.ez (ix a) (iy a) / (upstreamBx a s * upstreamVn a s)) else none

open scoped Classical in
/-- `reconnected_flux` (plotting.py:220); `none` for NaN. -/
noncomputable def flux (a : Axes) (s : Slice) : Option ℝ := if Valid a s then some (rawFlux a s) else none

/-- The exceptions of `add_reconnection_diagnostics` (plotting.py:133-134 and `np.gradient` at 167-169, which needs two points). -/
noncomputable def accepts (a : Axes) : Except String Unit :=
  if lower a = [] ∨ upper a = [] then .error "ValueError: both sides"
  else if a.nx < 2 ∨ a.ny < 2 then .error "ValueError: gradient"
  else .ok ()

/-! ### Metrics -/

/-- Peak of the absolute values of the finite entries, zero without any (plotting.py:577, 587). -/
noncomputable def peakAbs (l : List (Option ℝ)) : ℝ := (l.filterMap id).foldl (fun m v => max m |v|) 0

/-- The last value if it is finite, else zero (plotting.py:578-582). -/
noncomputable def finalOr (l : List (Option ℝ)) : ℝ := (l.getLast?.join).getD 0

open scoped Classical in
/-- `np.mean` of a gate (plotting.py:583, 585). -/
noncomputable def fraction (p : Slice → Prop) (run : List Slice) : ℝ := ((run.filter fun s => decide (p s)).length : ℝ) / run.length

/-! ### Panels and colour scales -/

/-- `_selected_indices` (plotting.py:17-18) before duplicates are removed: `np.linspace(0, nt - 1, k).round()`. -/
noncomputable def rawPanels (nt panels : ℕ) : List ℤ :=
  let k := min nt panels
  (List.range k).map fun (i : ℕ) => if k = 1 then 0 else Pic.roundEven ((i : ℝ) * ((nt : ℝ) - 1) / ((k : ℝ) - 1))

/-- `_selected_indices` (plotting.py:17-18). -/
noncomputable def panels (nt n : ℕ) : List ℤ := (rawPanels nt n).dedup

/-- The colour range of the panels (plotting.py:57-66): `lo`, `hi` the extreme values, `floor` the smallest positive number. -/
noncomputable def colours (diverging : Bool) (floor : ℝ) (vals : List ℝ) : ℝ × ℝ :=
  match vals with
  | [] => (-1, 1)
  | v :: l =>
    if diverging then
      let m := max ((v :: l).foldl (fun m w => max m |w|) 0) floor
      (-m, m)
    else
      let lo := l.foldl min v
      let hi := l.foldl max v
      (lo, if lo = hi then lo + 1 else hi)

/-- The cells inside the limits of a plot (plotting.py:44-55). -/
noncomputable def inside (n : ℕ) (x : ℕ → ℝ) (lim : Option (ℝ × ℝ)) : Except String (List ℕ) :=
  match lim with
  | none => .ok (List.range n)
  | some (lo, hi) =>
    let l := (List.range n).filter fun i => decide (lo ≤ x i ∧ x i ≤ hi)
    if l = [] then .error "ValueError: no coordinates" else .ok l

end Verif.Vfp2d.Recon
