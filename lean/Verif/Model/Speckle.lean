import Verif.Model.Grid
import Verif.Model.Pic
import Mathlib.Analysis.SpecialFunctions.Complex.Log
import Mathlib.Analysis.SpecialFunctions.Trigonometric.Sinc

/-!
Model of the speckled beam (adept/_lpse2d/core/speckle.py) and its use by the pump (laser.py:28-49, 92-98).

Random numbers (phase plate, dephasing, Gaussian series) are parameters.  The Fourier filter that shapes the
series' spectrum is modelled in SpeckleSeries.lean.
-/
namespace Verif.Speckle
open Finset Complex

/-- `SpeckleProfile`: what the pattern depends on (speckle.py:124-166, 209-219). -/
structure Beam where
  lam : ℝ
  focal : ℝ
  apX : ℝ
  apY : ℝ
  nX : ℕ
  nY : ℕ
  plate : ℕ → ℕ → ℝ
  withSinc : Bool

/-- `x_lens_list`, `y_lens_list` (speckle.py:143-152). -/
noncomputable def lens (n i : ℕ) : ℝ := Grid.linspaceAt (-0.5 * ((n : ℝ) - 1)) (0.5 * ((n : ℝ) - 1)) n i

/-- `lambda_fnum` (speckle.py:375): size of one speckle in each direction. -/
noncomputable def Beam.spotX (b : Beam) : ℝ := b.lam * b.focal / b.apX
noncomputable def Beam.spotY (b : Beam) : ℝ := b.lam * b.focal / b.apY

/-- `numpy.sinc`. -/
noncomputable def sinc (x : ℝ) : ℝ := Real.sinc (Real.pi * x)

/-- `generate_speckle_pattern` (speckle.py:354-400) with near-field amplitudes `B`. -/
noncomputable def Beam.pattern (b : Beam) (B : ℕ → ℕ → ℂ) (x y : ℝ) : ℂ :=
  let X := x / b.spotX
  let Y := y / b.spotY
  let amp := ∑ j ∈ range b.nY, (∑ i ∈ range b.nX, B i j * cexp (I * (b.plate i j : ℂ)) *
    cexp (-2 * Real.pi * I / b.nX * (lens b.nX i : ℂ) * (X : ℂ))) * cexp (-2 * Real.pi * I / b.nY * (lens b.nY j : ℂ) * (Y : ℂ))
  if b.withSinc then (sinc (X / b.nX) : ℂ) * (sinc (Y / b.nY) : ℂ) * amp else amp

/-- Smoothing by spectral dispersion in one direction: amplitude, frequency, delay, dephasing (speckle.py:159-187, 221-224). -/
structure Ssd where
  amp : ℝ
  freq : ℝ
  delay : ℝ
  dephase : ℝ

/-- `ssd_phase_modulation_frequency` (speckle.py:165-175). -/
noncomputable def ssdFreq (bandwidth mine other amp : ℝ) : ℝ := bandwidth * (mine / Real.sqrt (mine ^ 2 + other ^ 2)) * 0.5 / amp
/-- `ssd_time_delay` (speckle.py:176-187). -/
noncomputable def ssdDelay (cycles freq : ℝ) : ℝ := if 0 < freq then cycles / freq else 0

/-- `numpy.interp` on the uniform nodes `0, h, 2h, ..., (n-1) h`. -/
noncomputable def interp (h : ℝ) (n : ℕ) (f : ℕ → ℝ) (t : ℝ) : ℝ :=
  if t ≤ 0 then f 0
  else if ((n - 1 : ℕ) : ℝ) * h ≤ t then f (n - 1)
  else f ⌊t / h⌋₊ + (t / h - ⌊t / h⌋₊) * (f (⌊t / h⌋₊ + 1) - f ⌊t / h⌋₊)

/-- `beamlets_complex_amplitude` (speckle.py:301-352). -/
inductive Smoothing where
  | static
  | fm (x y : Ssd)
  | rpm (x y : Ssd) (h : ℝ) (n : ℕ) (sx sy : ℕ → ℝ)
  | isi (h : ℝ) (series : ℕ → ℕ → ℕ → ℂ)
noncomputable def Beam.nearField (b : Beam) (s : Smoothing) (t : ℝ) (i j : ℕ) : ℂ :=
  match s with
  | .static => 1
  | .fm x y => cexp (I * ((x.amp * Real.sin (x.dephase + 2 * Real.pi * x.freq * (t - lens b.nX i * x.delay / b.nX)) +
      y.amp * Real.sin (y.dephase + 2 * Real.pi * y.freq * (t - lens b.nY j * y.delay / b.nY)) : ℝ) : ℂ))
  | .rpm x y h n sx sy => cexp (I * ((interp h n sx (t + i * x.delay / b.nX) + interp h n sy (t + j * y.delay / b.nY) : ℝ) : ℂ))
  | .isi h series => series i j (Pic.roundEven (t / h)).toNat

/-- `evaluate` (speckle.py:402-421); `c` the speed of light. -/
noncomputable def Beam.evaluate (b : Beam) (c : ℝ) (s : Smoothing) (x y t : ℝ) : ℂ := b.pattern (b.nearField s (t * c / b.lam)) x y

/-- Number of entries of `numpy.arange(0, b, h)`. -/
noncomputable def arangeLen (b h : ℝ) : ℕ := ⌈b / h⌉₊
/-- `dt_update` (speckle.py:140) and the number of entries of `series_time` (speckle.py:230-231). -/
noncomputable def dtUpdate (bandwidth : ℝ) : ℝ := 1 / bandwidth / 50
noncomputable def seriesLen (T h : ℝ) : ℕ := arangeLen (T + h) h
/-- `n_pts` and the number of entries of `time_interp` for SSD (speckle.py:254-278). -/
noncomputable def ssdPoints (T h D : ℝ) : ℕ := seriesLen T h + ⌊D / h⌋₊ + 2
noncomputable def ssdTimes (T h D : ℝ) : ℕ := min (ssdPoints T h D) (arangeLen (((seriesLen T h - 1 : ℕ) : ℝ) * h + D + 3 * h) h)

/-- The normalisation at the end of `gen_gaussian_time_series` (speckle.py:43-44, 55), `raw` the filtered random series. -/
noncomputable def normalise (n : ℕ) (fwhm rms : ℝ) (raw : ℕ → ℂ) (k : ℕ) : ℂ :=
  if fwhm = 0 then 0 else raw k * (rms : ℂ) / ((Real.sqrt ((∑ i ∈ range n, ‖raw i‖ ^ 2) / n) : ℝ) : ℂ)

/-- The constructor's checks in the order they happen (speckle.py:140, 164-207): `dist`, `amp`, `cycles` tell whether the SSD
options are given; the frequencies are positive when they are. -/
def construct (smoothing : String) (bandwidth : ℚ) (dist amp cycles : Bool) (tmax : ℚ) : Except String Unit :=
  let ssd := smoothing = "FM SSD" ∨ smoothing = "GP RPM SSD"
  if bandwidth = 0 then .error "ZeroDivisionError"
  else if ssd ∧ !(dist && amp && cycles) then .error "TypeError"
  else if smoothing ∉ ["RPP", "CPP", "FM SSD", "GP RPM SSD", "GP ISI"] then .error "AssertionError"
  else if bandwidth < 0 then .error "AssertionError"
  else if ssd ∧ !(dist && amp && cycles) then .error "AssertionError"
  else if (smoothing = "GP RPM SSD" ∨ smoothing = "GP ISI") ∧ tmax ≤ 0 then .error "AssertionError"
  else .ok ()

/-- `speckle_normalization` over the sample points (laser.py:46-49) and the factor applied to the pump (:96-98). -/
noncomputable def normalisation {ι : Type} (pts : Finset ι) (E : ι → ℂ) : ℝ := (∑ i ∈ pts, ‖E i‖) / #pts
noncomputable def factor {ι : Type} (pts : Finset ι) (E : ι → ℂ) (z : ℂ) : ℂ := z / (normalisation pts E : ℂ)
/-- Half-widths of the sampled region (laser.py:38-45). -/
noncomputable def Beam.halfX (b : Beam) : ℝ := b.focal * b.lam / (b.apX / b.nX)
noncomputable def Beam.halfY (b : Beam) : ℝ := b.focal * b.lam / (b.apY / b.nY)

end Verif.Speckle
