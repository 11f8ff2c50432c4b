import Verif.Model.Density

/-! Specification vocabulary for C21. -/
namespace Verif.Density
variable {K : Type} [Field K] [LinearOrder K] [FloorRing K]

/-- The number or numbers of parameter `base` (`base` or `base(...)`) in the first
section called `sec`. -/
def values (secs : Secs K) (sec base : Str) : Option (List K) :=
  (firstSection secs sec).bind fun d => (arrayKey d base).bind fun k => (dictGet d k).bind floats

/-- Span of the density ramp: from the second to the last but one control point. -/
def span (x : List K) : K := x.getD (x.length - 2) 0 - x.getD 1 0

/-- Scale length `n / (dn/dx)` of the linear ramp at density `n`. -/
def scaleLength (n : K) (x fx : List K) : K := n / (span fx / span x)

/-- Parameters of a section that the rescaling may change. -/
def Touched (sec k : Str) : Prop :=
  (sec = nProfile ∧ (baseOf k = kX ∨ baseOf k = kFx)) ∨ (sec = nSpace ∧ (baseOf k = kXmin ∨ baseOf k = kXmax)) ∨
  (sec = nDiag ∧ (baseOf k = kPsXmin ∨ baseOf k = kPsXmax)) ∨ (sec = nGrid ∧ baseOf k = kNx)

end Verif.Density
