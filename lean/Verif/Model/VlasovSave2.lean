import Verif.Model.VlasovSave

/-!
Model of the distributions that Vlasov-1D2V (adept/_vlasov1d2v/storage.py:79-108) and Vlasov-2D
(adept/_vlasov2d/storage.py:122-197) save.  The linear interpolation of interpax is modelled as
documented: cell by `searchsorted` clipped to the grid, bilinear weights, then the treatment of
points outside.  Exact real arithmetic.
-/
namespace Verif.VlasovSave2
open Finset Verif.VlasovSave

/-- The bilinear surface of the cell that `interp2d(..., method="linear")` uses, also outside the
axes (called at _vlasov1d2v/storage.py:103 and _vlasov2d/storage.py:164, 176). -/
noncomputable def surface (x : ℕ → ℝ) (nx : ℕ) (v : ℕ → ℝ) (nv : ℕ) (f : ℕ → ℕ → ℝ) (xq vq : ℝ) : ℝ :=
  let i := locate x nx xq
  let j := locate v nv vq
  let a := weight x nx xq
  let b := weight v nv vq
  (1 - a) * ((1 - b) * f (i - 1) (j - 1) + b * f (i - 1) j) + a * ((1 - b) * f i (j - 1) + b * f i j)

/-- `extrap=True`: no treatment outside (_vlasov1d2v/storage.py:103). -/
noncomputable def extended (x : ℕ → ℝ) (nx : ℕ) (v : ℕ → ℝ) (nv : ℕ) (f : ℕ → ℕ → ℝ) (xq vq : ℝ) : ℝ := surface x nx v nv f xq vq

/-- `extrap=0.0`: zero outside either axis (_vlasov2d/storage.py:164, 176). -/
noncomputable def zeroed (x : ℕ → ℝ) (nx : ℕ) (v : ℕ → ℝ) (nv : ℕ) (f : ℕ → ℕ → ℝ) (xq vq : ℝ) : ℝ :=
  open Classical in
  if xq < x 0 ∨ x (nx - 1) < xq ∨ vq < v 0 ∨ v (nv - 1) < vq then 0 else surface x nx v nv f xq vq

/-- `F`, the marginal over the perpendicular velocity (_vlasov1d2v/storage.py:102). -/
def marginal (np : ℕ) (w : ℕ → ℝ) (f : ℕ → ℕ → ℕ → ℝ) (i j : ℕ) : ℝ := ∑ p ∈ range np, f i j p * w p

/-- `dist_save_func` of a `{t, x, v}` label (_vlasov1d2v/storage.py:87-103). -/
noncomputable def saved2V (x : ℕ → ℝ) (nx : ℕ) (v : ℕ → ℝ) (nv : ℕ) (np : ℕ) (w : ℕ → ℝ) (f : ℕ → ℕ → ℕ → ℝ) (xq vq : ℝ) : ℝ :=
  extended x nx v nv (marginal np w f) xq vq

/-- The four axes of a distribution. -/
structure Axes where
  x : ℕ → ℝ
  nx : ℕ
  y : ℕ → ℝ
  ny : ℕ
  vx : ℕ → ℝ
  nvx : ℕ
  vy : ℕ → ℝ
  nvy : ℕ

/-- `dist_save_func` of a `{t, x, y, vx, vy}` label (_vlasov2d/storage.py:153-183): velocities first. -/
noncomputable def saved2D (g : Axes) (f : ℕ → ℕ → ℕ → ℕ → ℝ) (xq yq vxq vyq : ℝ) : ℝ :=
  let inner := fun i j => zeroed g.vx g.nvx g.vy g.nvy (f i j) vxq vyq
  zeroed g.x g.nx g.y g.ny inner xq yq

/-- `_add_dim_axes` of Vlasov-2D (_vlasov2d/storage.py:188-197): `x` and `y` are shifted by half a
cell, the velocities are not. -/
noncomputable def axis2d (dim : String) (lo hi : ℝ) (n : ℕ) (i : ℕ) : ℝ := saveAxis (dim == "x" || dim == "y") lo hi n i

/-- What a label of a species saves. -/
inductive Kind where
  | full
  | sampled
deriving DecidableEq

/-- `get_dist_save_func` of Vlasov-2D with the reading of the axes (_vlasov2d/storage.py:122-149); a
dimension comes with the statement whether its number of points is given. -/
def dist2d (label : Dict String Bool) : Except String Kind :=
  let keys := dictKeys label
  let same := fun l : List String => keys.all (· ∈ l) && l.all (· ∈ keys)
  if same ["t"] || same ["t", "func"] || same ["t", "func", "_species_name"] then .ok .full
  else if !(["t", "x", "y", "vx", "vy"].all (· ∈ keys)) then .error "NotImplementedError"
  else if ["x", "y", "vx", "vy"].all fun d => (dictGet label d).getD false then .ok .sampled
  else .error "KeyError"

/-- `get_dist_save_func_2v` (_vlasov1d2v/storage.py:79-108). -/
def dist2v (label : Dict String Bool) : Except String Kind :=
  let keys := dictKeys label
  let same := fun l : List String => keys.all (· ∈ l) && l.all (· ∈ keys)
  if same ["t"] then .ok .full
  else if same ["t", "x", "v"] then
    if ["x", "v"].all fun d => (dictGet label d).getD false then .ok .sampled else .error "KeyError"
  else .error "NotImplementedError"

end Verif.VlasovSave2
