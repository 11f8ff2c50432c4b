import Verif.Model.Lifecycle

/-! Specification vocabulary for C27, C28. -/
namespace Verif.Lifecycle

/-- The documented order of the module hooks. -/
def hookOrder : List Hook := [.ctor, .writeUnits, .derived, .solver, .initState, .initDiffeq, .initModules]

/-- A configuration after the given hooks, in order; `none` if one raises. -/
def after {C : Type} (m : Mod C) : List Hook → C → Option C
  | [], c => some c
  | h :: hs, c => (m.hook h c).bind (after m hs)

/-- The documented solver keys (README.md, docs/source/solvers.md) and their modules. -/
def documented : List (String × Cls) :=
  [("tf-1d", .twoFluid1D), ("vlasov-1d", .vlasov1D), ("vlasov-1d-iaw", .iawTurbulence1D),
   ("vlasov-1d2v", .vlasov1D2V), ("vlasov-2d", .vlasov2D), ("vfp-1d", .vfp1D), ("vfp-2d", .vfp2D),
   ("envelope-2d", .lpse2D), ("spectrax-1d", .spectrax1D), ("hermite-epw-1d", .epw1D),
   ("hermite-maxwell-1d", .maxwell1D), ("hermite-legendre-1d", .hermiteLegendre1D), ("pic-1d", .pic1D),
   ("osiris", .osiris)]

end Verif.Lifecycle
