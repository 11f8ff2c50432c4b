import Mathlib.Data.List.Range
import Mathlib.Order.Basic

/-!
Model of the choice of saved times drawn as panels of a lineout or facet figure by every solver.
-/

namespace Verif.Lineouts

/-- `range(0, stop, step)` for a positive step. -/
def strided (stop step : ℕ) : List ℕ := (List.range ((stop + step - 1) / step)).map fun (i : ℕ) => i * step

/-- The stride: the number of saved times over the wanted number of panels, at least one
(_vlasov1d/helpers.py:218-219, 249-250, 313-314, _vlasov1d/iaw.py:189, _vlasov1d2v/helpers.py:178, _pic1d/helpers.py:197,
vfp1d/storage.py:238-239, 276-277, _lpse2d/helpers.py:561-562, 613-614, _spectrax1d/plotting.py:183, 220). -/
def skip (nt panels : ℕ) : ℕ := if nt / panels > 1 then nt / panels else 1

/-- Panels of the solvers that use `slice(0, -1, t_skip)`: `panels` is `8` (_vlasov1d/helpers.py:220, 251, 315,
_vlasov1d/iaw.py:190, _vlasov1d2v/helpers.py:179, _pic1d/helpers.py:198, vfp1d/storage.py:240, _lpse2d/helpers.py:563), `4`
(vfp1d/storage.py:278) or `6` (_lpse2d/helpers.py:615). -/
def panelsDropLast (panels nt : ℕ) : List ℕ := strided (nt - 1) (skip nt panels)

/-- Panels of the Hermite-Fourier solver, `slice(0, None, t_skip)` with `panels = 6` (_spectrax1d/plotting.py:184, 221). -/
def panelsAll (panels nt : ℕ) : List ℕ := strided nt (skip nt panels)

end Verif.Lineouts
