import Mathlib.Algebra.Order.Floor.Ring
import Mathlib.Data.Real.Archimedean
import Mathlib.Algebra.BigOperators.Finprod

/-!
Model of the cubic-spline velocity push (adept/_vlasov1d/solvers/pushers/vlasov.py:106-172) for one
row of the distribution function.  Exact real arithmetic.  Rows are functions of the index, of which
`0 … nv - 1` are meaningful.
-/
namespace Verif.CubicSpline

/-- `jnp.clip` on indices. -/
def clip (x lo hi : ℤ) : ℤ := min (max x lo) hi

/-- The four-point formula (vlasov.py:131-144): values at the points `left - 1 … left + 2`, whether
the segment is the first or the last, and the fraction `t`. -/
noncomputable def hermite (fm1 f0 f1 f2 : ℝ) (first last : Bool) (t : ℝ) : ℝ :=
  let m0 := if first then f1 - f0 else 0.5 * (f1 - fm1)
  let m1 := if last then f1 - f0 else 0.5 * (f2 - f0)
  (2 * t ^ 3 - 3 * t ^ 2 + 1) * f0 + (t ^ 3 - 2 * t ^ 2 + t) * m0 + (-2 * t ^ 3 + 3 * t ^ 2) * f1 + (t ^ 3 - t ^ 2) * m1

/-- `_uniform_cubic_interp` for one row and velocity index `j` (vlasov.py:106-148). -/
noncomputable def shiftRow (nv : ℕ) (f : ℤ → ℝ) (shift dv : ℝ) (j : ℕ) : ℝ :=
  let s := shift / dv
  let row := ⌊-s⌋
  let left := clip (j + row) 0 (nv - 2)
  let query := (j : ℝ) - s
  let t := min (max (query - left) 0) 1
  let value := hermite (f (clip (left - 1) 0 (nv - 1))) (f left) (f (left + 1)) (f (clip (left + 2) 0 (nv - 1)))
    (decide (left = 0)) (decide (left = nv - 2)) t
  if query < 0 ∨ (nv : ℝ) - 1 < query then 1 / 10 ^ 30 else value

/-- The same with its guard (vlasov.py:115-117). -/
noncomputable def shiftChecked (nv : ℕ) (f : ℤ → ℝ) (shift dv : ℝ) : Except String (ℕ → ℝ) :=
  if nv < 2 then .error "ValueError" else .ok (shiftRow nv f shift dv)

/-- `VelocityCubicSpline.push` for one species and one cell (vlasov.py:162-172). -/
noncomputable def push (nv : ℕ) (q m e pond dt dv : ℝ) (f : ℤ → ℝ) : Except String (ℕ → ℝ) :=
  let force := q * e + q ^ 2 / m * pond
  let accel := force / m
  shiftChecked nv f (accel * dt) dv

end Verif.CubicSpline
