import Verif.Model.Grad

/-! Specification vocabulary for C25. -/
namespace Verif.Grad

variable {ι K : Type} [Field K] [LinearOrder K]

/-- The number at a position, if there is one (not `None`, not NaN). -/
def number : Option (Fl K) → Option K
  | some (.num x) => some x
  | _ => none

/-- The numbers the runs report at position `i`. -/
def numbers (gs : List (Tree ι K)) (i : ι) : List K := gs.filterMap fun g => number (g i)

end Verif.Grad
