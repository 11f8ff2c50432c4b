import Verif.Model.Spectral
import Mathlib.Algebra.BigOperators.Group.Finset.Basic

/-!
Model of VFP-2D: harmonic layout, Vlasov operator, moments and filters (adept/vfp2d/harmonics.py),
grid (adept/vfp2d/grid.py), Maxwell curl, Poisson solve and the two time steps
(adept/vfp2d/vector_field.py), kinetic Ohm law and current projection (adept/vfp2d/ohm.py).

A harmonic array is a function of position `(x, y)`, packed harmonic index and speed index; the
periodic axes are `ZMod nx`, `ZMod ny`, the speed axis has `j < nv`.  Exact arithmetic.  The
collision step is a parameter (its operators are those of Model/VfpCollisions.lean), and so are
`jnp.finfo(...).tiny` (any positive number) and the device mesh (only its size matters).
-/
namespace Verif.Vfp2d
open Finset Complex Verif.Spectral

/-! ### Layout and grid -/

/-- `HarmonicLayout` (harmonics.py:23-46). -/
structure Layout where
  lMax : ℕ
  mMax : ℕ

/-- `HarmonicLayout.__init__` (harmonics.py:32-38). -/
def mkLayout (lMax : ℤ) (mMax : Option ℤ) : Except String Layout :=
  if lMax < 0 then .error "ValueError"
  else if 0 ≤ mMax.getD lMax ∧ mMax.getD lMax ≤ lMax then .ok ⟨lMax.toNat, (mMax.getD lMax).toNat⟩
  else .error "ValueError"

/-- `pairs` (harmonics.py:40). -/
def Layout.pairs (L : Layout) : List (ℕ × ℕ) :=
  (List.range (L.lMax + 1)).flatMap fun l => (List.range (min l L.mMax + 1)).map fun m => (l, m)

/-- `size` (harmonics.py:48-50). -/
def Layout.size (L : Layout) : ℕ := L.pairs.length

/-- `index` with the lookup table (harmonics.py:41-42, 60-65). -/
def Layout.index (L : Layout) (l m : ℤ) : ℤ :=
  if l < 0 ∨ l > L.lMax ∨ m < 0 ∨ m > L.mMax then -1
  else match L.pairs.idxOf? (l.toNat, m.toNat) with
    | some i => i
    | none => -1

/-- A harmonic of a packed array; the operators skip the term when the index is `-1`. -/
noncomputable def Layout.get (L : Layout) (a : ℕ → ℂ) (l m : ℤ) : ℂ :=
  if 0 ≤ L.index l m then a (L.index l m).toNat else 0

/-- The checks of `Grid.__init__` (grid.py:49-56): extents and counts as given. -/
noncomputable def gridOk (xmin xmax ymin ymax vmax dt : ℝ) (nx ny nv lMax : ℤ) (mMax : Option ℤ) : Except String Unit :=
  if nx < 1 ∨ ny < 1 ∨ nv < 2 then .error "ValueError"
  else if xmax ≤ xmin ∨ ymax ≤ ymin ∨ vmax ≤ 0 ∨ dt ≤ 0 then .error "ValueError"
  else if 0 ≤ mMax.getD lMax ∧ mMax.getD lMax ≤ lMax then .ok ()
  else .error "ValueError"

/-! ### Derivatives in configuration space -/

/-- The derivative along one axis: Fourier, or one of the two central differences. -/
inductive Deriv
  | spectral (d : ℝ)
  | second (h : ℝ)
  | fourth (h : ℝ)

/-- `_spectral_derivative` and `periodic_central_derivative` along one axis
(harmonics.py:68-74, 108-115; grid.py:78-79). -/
noncomputable def Deriv.apply {N : ℕ} [NeZero N] (D : Deriv) (a : ZMod N → ℂ) (i : ZMod N) : ℂ :=
  match D with
  | .spectral d => ifft (fun k => I * (kfull d k : ℂ) * fft a k) i
  | .second h => (a (i + 1) - a (i - 1)) / (2 * (h : ℂ))
  | .fourth h => (a (i - 2) - 8 * a (i - 1) + 8 * a (i + 1) - a (i + 2)) / (12 * (h : ℂ))

/-- The choice without a mesh (harmonics.py:108). -/
def Deriv.central (N : ℕ) (h : ℝ) : Deriv := if N < 5 then .second h else .fourth h

/-- The derivative of a real array: `.real` of the Fourier derivative
(vector_field.py:65-73; ohm.py:52-62), or the central difference. -/
noncomputable def Deriv.applyR {N : ℕ} [NeZero N] (D : Deriv) (a : ZMod N → ℝ) (i : ZMod N) : ℝ :=
  (D.apply (fun j => (a j : ℂ)) i).re

/-! ### The Vlasov operator -/

/-- `TzoufrasVlasov` (harmonics.py:144-173). -/
structure Op where
  layout : Layout
  nv : ℕ
  v : ℕ → ℝ
  dv : ℝ
  speed : ℕ → ℝ
  dX : Deriv
  dY : Deriv

/-- The speed axis of the grid (grid.py:60, 77). -/
noncomputable def speedAxis (vmax : ℝ) (nv : ℕ) (j : ℕ) : ℝ := vmax / nv / 2 + j * (vmax / nv)

/-- `ddv` (harmonics.py:175-181). -/
noncomputable def ddvRow (nv : ℕ) (dv : ℝ) (l : ℕ) (f : ℕ → ℂ) (j : ℕ) : ℂ :=
  ((if j + 1 < nv then f (j + 1) else 0) - (if j = 0 then (-1) ^ l * f 0 else f (j - 1))) / (2 * (dv : ℂ))

/-- A harmonic array at one position: packed index, speed. -/
abbrev Local := ℕ → ℕ → ℂ

/-- `gh` (harmonics.py:183-193). -/
noncomputable def Op.g (o : Op) (f : Local) (i j : ℕ) : ℂ :=
  ddvRow o.nv o.dv (o.layout.pairs.getD i (0, 0)).1 (f i) j
    - (o.layout.pairs.getD i (0, 0)).1 * (1 / (o.v j : ℂ)) * f i j
noncomputable def Op.h (o : Op) (f : Local) (i j : ℕ) : ℂ :=
  ddvRow o.nv o.dv (o.layout.pairs.getD i (0, 0)).1 (f i) j
    + ((o.layout.pairs.getD i (0, 0)).1 + 1) * (1 / (o.v j : ℂ)) * f i j

/-- One target of `streaming` (harmonics.py:218-252): `v` the streaming speed there, `ax`, `am`, `ap`
the packed `dfdx`, `transverse_minus`, `transverse_plus`. -/
noncomputable def streamTerm (L : Layout) (v : ℝ) (ax am ap : ℕ → ℂ) (l m : ℕ) : ℂ :=
  -(v : ℂ) * ((l : ℂ) - m) / (2 * l - 1) * L.get ax (l - 1) m
  - (v : ℂ) * ((l : ℂ) + m + 1) / (2 * l + 3) * L.get ax (l + 1) m
  + if 0 < m then
      - 0.5 * (v : ℂ) / (2 * l - 1) * L.get am (l - 1) (m - 1)
      + 0.5 * (v : ℂ) * ((l : ℂ) - m) * ((l : ℂ) - m - 1) / (2 * l - 1) * L.get ap (l - 1) (m + 1)
      + 0.5 * (v : ℂ) / (2 * l + 3) * L.get am (l + 1) (m - 1)
      - 0.5 * (v : ℂ) * ((l : ℂ) + m + 1) * ((l : ℂ) + m + 2) / (2 * l + 3) * L.get ap (l + 1) (m + 1)
    else
      -(v : ℂ) * ((- ((l : ℂ) * (l - 1) / (2 * l - 1) * L.get ap (l - 1) 1)
        + ((l : ℂ) + 1) * (l + 2) / (2 * l + 3) * L.get ap (l + 1) 1).re : ℂ)

/-- A harmonic array. -/
abbrev Flm (nx ny : ℕ) := ZMod nx → ZMod ny → ℕ → ℕ → ℂ

/-- `streaming` (harmonics.py:195-253); `dfdz` is zero when it is not given. -/
noncomputable def Op.streaming {nx ny : ℕ} [NeZero nx] [NeZero ny] (o : Op) (f dfdz : Flm nx ny) : Flm nx ny := fun x y i j =>
  streamTerm o.layout (o.speed j)
    (fun k => o.dX.apply (fun x' => f x' y k j) x)
    (fun k => o.dY.apply (fun y' => f x y' k j) y - I * dfdz x y k j)
    (fun k => o.dY.apply (fun y' => f x y' k j) y + I * dfdz x y k j)
    (o.layout.pairs.getD i (0, 0)).1 (o.layout.pairs.getD i (0, 0)).2

/-- A vector in configuration space (`[..., 0]`, `[..., 1]`, `[..., 2]`). -/
@[ext] structure Vec where
  x : ℝ
  y : ℝ
  z : ℝ

/-- `jnp.cross`. -/
def Vec.cross (a b : Vec) : Vec := ⟨a.y * b.z - a.z * b.y, a.z * b.x - a.x * b.z, a.x * b.y - a.y * b.x⟩

/-- One target of `electric` at one speed (harmonics.py:264-296): `g`, `h` the packed radial operators. -/
noncomputable def electricTerm (L : Layout) (e : Vec) (g h : ℕ → ℂ) (l m : ℕ) : ℂ :=
  let minus : ℂ := (e.y : ℂ) - I * e.z
  let plus : ℂ := (e.y : ℂ) + I * e.z
  (e.x : ℂ) * ((l : ℂ) - m) / (2 * l - 1) * L.get g (l - 1) m
  + (e.x : ℂ) * ((l : ℂ) + m + 1) / (2 * l + 3) * L.get h (l + 1) m
  + if 0 < m then
      0.5 * minus / (2 * l - 1) * L.get g (l - 1) (m - 1)
      - 0.5 * plus * ((l : ℂ) - m) * ((l : ℂ) - m - 1) / (2 * l - 1) * L.get g (l - 1) (m + 1)
      - 0.5 * minus / (2 * l + 3) * L.get h (l + 1) (m - 1)
      + 0.5 * plus * ((l : ℂ) + m + 1) * ((l : ℂ) + m + 2) / (2 * l + 3) * L.get h (l + 1) (m + 1)
    else
      ((plus * (- ((l : ℂ) * (l - 1) / (2 * l - 1) * L.get g (l - 1) 1)
        + ((l : ℂ) + 1) * (l + 2) / (2 * l + 3) * L.get h (l + 1) 1)).re : ℂ)

/-- `electric` at one position (harmonics.py:255-297). -/
noncomputable def Op.electric (o : Op) (f : Local) (e : Vec) : Local := fun i j =>
  electricTerm o.layout e (fun k => o.g f k j) (fun k => o.h f k j)
    (o.layout.pairs.getD i (0, 0)).1 (o.layout.pairs.getD i (0, 0)).2

/-- One target of `magnetic` at one speed (harmonics.py:307-321). -/
noncomputable def magneticTerm (L : Layout) (b : Vec) (a : ℕ → ℂ) (l m : ℕ) : ℂ :=
  let minus : ℂ := (b.z : ℂ) - I * b.y
  let plus : ℂ := (b.z : ℂ) + I * b.y
  if 0 < m then
    - I * b.x * m * L.get a l m
    + 0.5 * ((l : ℂ) - m) * ((l : ℂ) + m + 1) * minus * L.get a l (m + 1)
    - 0.5 * plus * L.get a l (m - 1)
  else if 0 < l then (l : ℂ) * (l + 1) * ((minus * L.get a l 1).re : ℂ)
  else 0

/-- `magnetic` at one position (harmonics.py:299-322). -/
noncomputable def Op.magnetic (o : Op) (f : Local) (b : Vec) : Local := fun i j =>
  magneticTerm o.layout b (fun k => f k j) (o.layout.pairs.getD i (0, 0)).1 (o.layout.pairs.getD i (0, 0)).2

/-- `__call__` (harmonics.py:324-337): the sum, with the `m = 0` harmonics made real. -/
noncomputable def Op.rate {nx ny : ℕ} [NeZero nx] [NeZero ny] (o : Op) (f : Flm nx ny) (e b : ZMod nx → ZMod ny → Vec)
    (dfdz : Flm nx ny) : Flm nx ny := fun x y i j =>
  let r := o.streaming f dfdz x y i j + o.electric (f x y) (e x y) i j + o.magnetic (f x y) (b x y) i j
  if (o.layout.pairs.getD i (0, 0)).2 = 0 then (r.re : ℂ) else r

/-! ### Moments -/

/-- `density` (harmonics.py:340-344). -/
noncomputable def Op.density (o : Op) (f : Local) : ℝ :=
  4 * Real.pi * (∑ j ∈ range o.nv, (f (o.layout.index 0 0).toNat j).re * o.v j ^ 2) * o.dv

/-- The vector of the `l = 1` modes with a given weight (harmonics.py:445-457, 480-487): the packed
`(m10, 2 Re m11, -2 Im m11)`; zero without these modes. -/
noncomputable def Op.vector (o : Op) (weight : ℕ → ℝ) (f : Local) : Vec :=
  if o.layout.index 1 0 < 0 then ⟨0, 0, 0⟩
  else
    let m10 := (∑ j ∈ range o.nv, (f (o.layout.index 1 0).toNat j).re * weight j) * o.dv
    let m11 : ℂ := if 0 ≤ o.layout.index 1 1 then
      (∑ j ∈ range o.nv, f (o.layout.index 1 1).toNat j * (weight j : ℂ)) * o.dv else 0
    ⟨4 * Real.pi / 3 * m10, 4 * Real.pi / 3 * (2 * m11.re), 4 * Real.pi / 3 * (-2 * m11.im)⟩

/-- `current` (harmonics.py:435-458). -/
noncomputable def Op.current (o : Op) (charge : ℝ) (speed : ℕ → ℝ) (f : Local) : Vec :=
  let m := o.vector (fun j => o.v j ^ 2 * speed j) f
  ⟨charge * m.x, charge * m.y, charge * m.z⟩

/-- `scalar_velocity_moment` (harmonics.py:461-473). -/
noncomputable def Op.scalarMoment (o : Op) (tiny : ℝ) (power : ℕ) (f : Local) : ℝ :=
  4 * Real.pi * (∑ j ∈ range o.nv, (f (o.layout.index 0 0).toNat j).re * o.v j ^ (power + 2)) * o.dv / max (o.density f) tiny

/-- `vector_velocity_moment` (harmonics.py:476-488). -/
noncomputable def Op.vectorMoment (o : Op) (tiny : ℝ) (power : ℕ) (f : Local) : Vec :=
  let m := o.vector (fun j => o.v j ^ (power + 3)) f
  ⟨m.x / max (o.density f) tiny, m.y / max (o.density f) tiny, m.z / max (o.density f) tiny⟩

/-- A symmetric tensor by its entries `[r, c]`, `r, c < 3`. -/
abbrev Tensor := ℕ → ℕ → ℝ

/-- `cartesian_l2` at one speed (harmonics.py:491-519). -/
noncomputable def cartesianL2 (L : Layout) (a : ℕ → ℂ) : Tensor := fun r c =>
  if L.index 2 0 < 0 then 0
  else
    let f20 := (a (L.index 2 0).toNat).re
    let f21 := L.get a 2 1
    let f22 := L.get a 2 2
    match r, c with
    | 0, 0 => f20
    | 0, 1 => 3 * f21.re
    | 0, 2 => -3 * f21.im
    | 1, 0 => 3 * f21.re
    | 1, 1 => -0.5 * f20 + 6 * f22.re
    | 1, 2 => -6 * f22.im
    | 2, 0 => -3 * f21.im
    | 2, 1 => -6 * f22.im
    | 2, 2 => -0.5 * f20 - 6 * f22.re
    | _, _ => 0

/-- `tensor_velocity_moment` (harmonics.py:522-528). -/
noncomputable def Op.tensorMoment (o : Op) (tiny : ℝ) (power : ℕ) (f : Local) : Tensor := fun r c =>
  8 * Real.pi / 15 * (∑ j ∈ range o.nv, cartesianL2 o.layout (fun k => f k j) r c * o.v j ^ (power + 4)) * o.dv
    / max (o.density f) tiny

/-- `nernst_velocity` (harmonics.py:531-546). -/
noncomputable def Op.nernst (o : Op) (tiny : ℝ) (f : Local) (j : Vec) : Vec :=
  let v3 := max (o.scalarMoment tiny 3 f) tiny
  let vv3 := o.vectorMoment tiny 3 f
  let ne := max (o.density f) tiny
  ⟨vv3.x / (2 * v3) + j.x / ne, vv3.y / (2 * v3) + j.y / ne, vv3.z / (2 * v3) + j.z / ne⟩

/-- `conservative_f00_positivity` at one position (harmonics.py:347-369). -/
noncomputable def Op.positive (o : Op) (tiny : ℝ) (f : Local) : Local :=
  let i00 := (o.layout.index 0 0).toNat
  let w := fun j => 4 * Real.pi * o.v j ^ 2 * o.dv
  let target := ∑ j ∈ range o.nv, (f i00 j).re * w j
  let posDensity := ∑ j ∈ range o.nv, max (f i00 j).re 0 * w j
  let scale := if 0 < target ∧ tiny < posDensity then target / max posDensity tiny else 0
  fun i j => if i = i00 then ((max (f i00 j).re 0 * scale : ℝ) : ℂ) else f i j

/-- `project_current_moment` at one position (ohm.py:137-151). -/
noncomputable def Op.projectCore (o : Op) (tiny : ℝ) (f : Local) (target : Vec) : Local :=
  let measured := o.current (-1) o.v f
  let f00 := fun j => (f (o.layout.index 0 0).toNat j).re
  let response := max (4 * Real.pi / 3 * (∑ j ∈ range o.nv, f00 j * o.v j ^ 3) * o.dv) tiny
  let ax := -(target.x - measured.x) / response
  let a1 : ℂ := (-((target.y - measured.y : ℝ) : ℂ) + I * ((target.z - measured.z : ℝ) : ℂ)) / (2 * (response : ℂ))
  fun i j =>
    f i j + (if i = (o.layout.index 1 0).toNat then ((ax * f00 j : ℝ) : ℂ) else 0)
      + (if 0 ≤ o.layout.index 1 1 ∧ i = (o.layout.index 1 1).toNat then a1 * (f00 j : ℂ) else 0)

/-- The check of `project_current_moment` (ohm.py:134-136). -/
noncomputable def Op.project (o : Op) (tiny : ℝ) (f : Local) (target : Vec) : Except String Local :=
  if o.layout.index 1 0 < 0 then .error "ValueError" else .ok (o.projectCore tiny f target)

/-- `complex_to_real`, `real_to_complex` (harmonics.py:549-560) on one entry with a final axis of
length `n`. -/
def complexToReal (z : ℂ) : List ℝ := [z.re, z.im]
noncomputable def realToComplex : List ℝ → Except String ℂ
  | [a, b] => .ok ((a : ℂ) + I * b)
  | _ => .error "ValueError"

end Verif.Vfp2d
