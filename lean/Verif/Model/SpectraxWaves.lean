import Mathlib.Analysis.SpecialFunctions.Complex.Arg
import Mathlib.Analysis.SpecialFunctions.Log.Basic
import Mathlib.Algebra.BigOperators.Fin
import Verif.Model.Vfp2dRecon

/-!
Model of the wave diagnostics of the Hermite-Fourier solver: adept/_spectrax1d/epw_module.py (`EPW1D`),
adept/_spectrax1d/maxwell_module.py (`Maxwell1D`) and the mode plots of adept/_spectrax1d/plotting.py.

A saved series is the function of the saved time number together with the number of saved times; all arithmetic is
exact.  `np.gradient` is `Vfp2d.Recon.gradient`, `np.angle` is `Complex.arg` (zero for zero, in `(-π, π]`).
`np.polyfit(t, y, 1)` is modelled by the closed form of the slope of the least-squares line.  NaN is `none`.
-/

namespace Verif.SpectraxWaves

open Real

/-- One increment of `np.unwrap` with the default discontinuity `π` and period `2π` (epw_module.py:37,
maxwell_module.py:54): differences below `π` in size are kept; others are reduced to `[-π, π)`, an increase that lands
on `-π` being moved to `π`. -/
noncomputable def wrapStep (d : ℝ) : ℝ :=
  if |d| < π then d
  else if (d + π - 2 * π * ⌊(d + π) / (2 * π)⌋) - π = -π ∧ 0 < d then π
  else (d + π - 2 * π * ⌊(d + π) / (2 * π)⌋) - π

/-- `np.unwrap(p)` (epw_module.py:37, maxwell_module.py:54). -/
noncomputable def unwrap (p : ℕ → ℝ) : ℕ → ℝ
  | 0 => p 0
  | i + 1 => unwrap p i + wrapStep (p (i + 1) - p i)

/-- `_compute_epw_frequency` and `_compute_em_frequency` (epw_module.py:23-45, maxwell_module.py:38-56, plotting.py:515-555)
on `n` saved times: `t_array[1]` needs two of them. -/
noncomputable def frequencies (n : ℕ) (z : ℕ → ℂ) (t : ℕ → ℝ) : Except String (ℕ → ℝ) :=
  if n < 2 then .error "IndexError"
  else .ok fun i => -(Vfp2d.Recon.gradient n (t 1 - t 0) (unwrap fun j => Complex.arg (z j)) i)

/-- `np.mean` of `n` values (epw_module.py:141, 145, maxwell_module.py:121, 136). -/
noncomputable def mean (n : ℕ) (f : ℕ → ℝ) : ℝ := (∑ i ∈ Finset.range n, f i) / n

/-- The frequency metrics of the plasma wave, mean and final (epw_module.py:144-146). -/
noncomputable def epwFrequency (n : ℕ) (z : ℕ → ℂ) (t : ℕ → ℝ) : Except String (ℝ × ℝ) :=
  match frequencies n z t with
  | .error e => .error e
  | .ok f => .ok (mean n f, f (n - 1))

/-- The number of leading saved times left out of the fit: `int(n_points * (1 - fraction))` with the default fraction
`2/3` (epw_module.py:47, 67-68). -/
def fitStart (n : ℕ) : ℕ := n / 3

/-- The amplitude below which a sample is left out (epw_module.py:73). -/
noncomputable def ampFloor : ℝ := 1e-20

/-- The samples used by the fit, `(time, amplitude)` pairs (epw_module.py:64-75). -/
noncomputable def fitSamples (n : ℕ) (z : ℕ → ℂ) (t : ℕ → ℝ) : List (ℝ × ℝ) :=
  ((((List.range n).drop (fitStart n)).map fun (i : ℕ) => (t i, ‖z i‖)).filter fun p => decide (ampFloor < p.2))

/-- The mean of a list (`np.polyfit`, epw_module.py:85). -/
noncomputable def listMean (l : List ℝ) : ℝ := l.sum / l.length

/-- The slope returned by `np.polyfit(t, y, 1)[0]` (epw_module.py:85-86), closed form. -/
noncomputable def slope (l : List (ℝ × ℝ)) : ℝ :=
  (l.map fun p => (p.1 - listMean (l.map Prod.fst)) * (p.2 - listMean (l.map Prod.snd))).sum /
    (l.map fun p => (p.1 - listMean (l.map Prod.fst)) ^ 2).sum

/-- The intercept of the same line (`np.polyfit(t, y, 1)[1]`, not used by the code). -/
noncomputable def intercept (l : List (ℝ × ℝ)) : ℝ := listMean (l.map Prod.snd) - slope l * listMean (l.map Prod.fst)

/-- `_compute_damping_rate` (epw_module.py:47-88): `none` is NaN. -/
noncomputable def dampingRate (n : ℕ) (z : ℕ → ℂ) (t : ℕ → ℝ) : Option ℝ :=
  if (fitSamples n z t).length < 10 then none
  else some (slope ((fitSamples n z t).map fun p => (p.1, Real.log p.2)))

/-- The saved times of the final `50` (epw_module.py:157-158). -/
noncomputable def lastFifty (n : ℕ) (t : ℕ → ℝ) : Finset ℕ :=
  (Finset.range n).filter fun i => t (n - 1) - 50 ≤ t i

/-- `avg_electrostatic_energy_final_50` (epw_module.py:151-159), from the electrostatic energy at each saved time. -/
noncomputable def finalEnergy (n : ℕ) (t e : ℕ → ℝ) : ℝ := (∑ i ∈ lastFifty n t, e i) / (lastFifty n t).card

/-- First saved time of the frequency measurement of the light wave (maxwell_module.py:115). -/
def emStart (n : ℕ) : ℕ := max 1 (n * 8 / 10)

/-- `em_avg_frequency_k1` (maxwell_module.py:110-126): `none` is NaN; `np.max` of an empty tail is an error. -/
noncomputable def emFrequency (n : ℕ) (z : ℕ → ℂ) (t : ℕ → ℝ) : Except String (Option ℝ) :=
  let s := emStart n
  if n - s = 0 then .error "ValueError: zero-size array"
  else if ∀ i < n - s, ‖z (s + i)‖ ≤ 1e-30 then .ok none
  else match frequencies (n - s) (fun i => z (s + i)) (fun i => t (s + i)) with
    | .error e => .error e
    | .ok f => .ok (some (mean (n - s) fun i => |f i|))

/-- The largest of a non-empty list (`np.max`, maxwell_module.py:134). -/
noncomputable def peak : List ℝ → ℝ
  | [] => 0
  | a :: l => l.foldl max a

/-- `n_final` (maxwell_module.py:135). -/
def nFinal (n : ℕ) : ℕ := max 1 (n / 5)

/-- `final_em_energy` (maxwell_module.py:136). -/
noncomputable def finalEm (e : List ℝ) : ℝ := listMean (e.drop (e.length - nFinal e.length))

/-- `em_absorption_ratio` (maxwell_module.py:131-145) of at least one saved energy. -/
noncomputable def absorption (e : List ℝ) : ℝ := if 0 < peak e then finalEm e / peak e else 1

/-- The curves drawn by `plot_field_mode_amplitudes` (plotting.py:118-121, 140-143): the label `k` of each, which is also the
index read in FFT order. -/
def modeCurves (nx : ℕ) : List ℕ := (List.range' 1 5).filter fun k => decide (k < nx)

/-- Signed mode number held at index `i` of an FFT axis of length `n` (`np.fft.fftfreq`, base_module.py). -/
def fftMode (n i : ℕ) : ℤ := if 2 * i < n then i else (i : ℤ) - n

/-- The plane drawn by `plot_distribution_facets` (plotting.py:239-240): `int((size - 1) / 2)` of the `ky` and `kz` axes. -/
def facetCentre (n : ℕ) : ℕ := (n - 1) / 2

/-- First time of the frequency panel (plotting.py:293-305): `t_center - t_width / 2 + t_rise` of the first driver, or a
quarter of the run. -/
noncomputable def panelStart (driver : Option (ℝ × ℝ × ℝ)) (tLast : ℝ) : ℝ :=
  match driver with
  | some (c, w, r) => c - w / 2 + r
  | none => 0.25 * tLast

/-- The saved times drawn in the frequency panel (plotting.py:308-313). -/
noncomputable def panelTimes (n : ℕ) (t : ℕ → ℝ) (driver : Option (ℝ × ℝ × ℝ)) : Finset ℕ :=
  (Finset.range n).filter fun i => panelStart driver (t (n - 1)) ≤ t i ∧ t i ≤ t (n - 1) - 50

end Verif.SpectraxWaves
