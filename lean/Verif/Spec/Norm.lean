import Verif.Model.Norm

/-! Specification vocabulary for C29 and C53. -/
namespace Verif.Norm

/-- `r` times a unit quantity. -/
noncomputable def times (r : ℝ) (w : Qty) : Qty := ⟨r * w.val, w.dim⟩

/-- What "one" of a code quantity means: the reference quantity of each dimension name. -/
noncomputable def unitOf (n : PlasmaNorm) : DimArg → Option Qty
  | .x => some n.L0
  | .t => some n.tau
  | .v => some n.v0
  | .temp => n.T0
  | .k => some ((Qty.num 1).div n.L0)
  | .other => none

/-- A normalisation with non-zero references. -/
def NonZero (n : PlasmaNorm) : Prop :=
  n.L0.val ≠ 0 ∧ n.tau.val ≠ 0 ∧ n.v0.val ≠ 0 ∧ ∀ T, n.T0 = some T → T.val ≠ 0

/-- A normalisation whose references are positive, carry the dimension their name
says, and fit together: unit length is unit velocity times unit time. -/
structure Consistent (n : PlasmaNorm) : Prop where
  L0_pos : 0 < n.L0.val
  tau_pos : 0 < n.tau.val
  v0_pos : 0 < n.v0.val
  L0_dim : n.L0.dim = dLength
  tau_dim : n.tau.dim = dTime
  v0_dim : n.v0.dim = dSpeed
  fit : n.L0 = n.v0.mul n.tau

end Verif.Norm
