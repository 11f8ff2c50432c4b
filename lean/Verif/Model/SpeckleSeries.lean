import Verif.Model.Speckle
import Verif.Model.Spectral

/-!
Model of the random time series of the smoothed beam (adept/_lpse2d/core/speckle.py:16-56, 254-299).  The normal random
numbers are a parameter; arrays of length `N` are functions on `ZMod N`.
-/
namespace Verif.Speckle
open Finset Complex

variable {N : ℕ}

/-- `numpy.fft.fftshift`: roll by `N // 2` (speckle.py:46, 54). -/
def fftshift {α : Type} (x : ZMod N → α) (i : ZMod N) : α := x (i - ((N / 2 : ℕ) : ZMod N))
/-- `numpy.fft.ifftshift`: roll by `-(N // 2)` (speckle.py:54). -/
def ifftshift {α : Type} (x : ZMod N → α) (i : ZMod N) : α := x (i + ((N / 2 : ℕ) : ZMod N))

/-- `psd` at the frequency `f` (speckle.py:47). -/
noncomputable def psd (fwhm f : ℝ) : ℝ := Real.exp (-Real.log 2 * 0.5 * (f / fwhm * 2 * Real.pi) ^ 2)

/-- `spectral_amplitude` (speckle.py:46-52), `noise` the complex normal numbers in the order they are drawn. -/
noncomputable def spectral (dt fwhm : ℝ) (noise : ZMod N → ℂ) (i : ZMod N) : ℂ :=
  (psd fwhm (fftshift (fun k : ZMod N => Grid.fftfreqAt N dt k.val) i) : ℂ) * noise i

/-- `temporal_amplitude` before normalisation (speckle.py:54). -/
noncomputable def rawSeries [NeZero N] (dt fwhm : ℝ) (noise : ZMod N → ℂ) : ZMod N → ℂ :=
  ifftshift (Spectral.fft (fftshift (spectral dt fwhm noise)))

/-- `gen_gaussian_time_series` (speckle.py:16-56). -/
noncomputable def series [NeZero N] (dt fwhm rms : ℝ) (noise : ZMod N → ℂ) (i : ZMod N) : ℂ :=
  normalise N fwhm rms (fun k => rawSeries dt fwhm noise (k : ZMod N)) i.val

/-- The stored phase of the random-phase-modulated SSD (speckle.py:283-287). -/
noncomputable def storedPhase (z : ℂ) : ℝ := (z.re + z.im) / Real.sqrt 2

end Verif.Speckle
