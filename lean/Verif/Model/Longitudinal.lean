import Verif.Model.Profile
import Mathlib.Analysis.SpecialFunctions.Pow.Real
import Mathlib.Analysis.SpecialFunctions.Trigonometric.Basic

/-!
# Model of the analytic profiles of `lasy/profiles/longitudinal`
-/

namespace Lasy
open Phys Complex
variable [Phys]

/-- `self.omega0` of a longitudinal profile (`longitudinal_profile.py:13-15`) -/
noncomputable def longOmega0 (wavelength : ℝ) : ℝ := 2 * Real.pi * c / wavelength

/-- `GaussianLongitudinalProfile.evaluate` (`longitudinal/gaussian_profile.py:37-63`) at one time -/
noncomputable def gaussianLong (wavelength tau tPeak cep : ℝ) (t : ℝ) : ℂ :=
  exp (-(((t - tPeak) ^ 2 / tau ^ 2 : ℝ) : ℂ) + I * ((cep + longOmega0 wavelength * tPeak : ℝ) : ℂ))

/-- `SuperGaussianLongitudinalProfile.evaluate` (`longitudinal/super_gaussian_profile.py:42-69`). The base of
`np.power` is a square divided by a square: nonnegative. -/
noncomputable def superGaussianLong (wavelength tau tPeak nOrder cep : ℝ) (t : ℝ) : ℂ :=
  exp (-((((t - tPeak) ^ 2 / tau ^ 2) ^ (nOrder / 2) : ℝ) : ℂ) +
    I * ((cep + longOmega0 wavelength * tPeak : ℝ) : ℂ))

open Classical in
/-- `CosineLongitudinalProfile.evaluate` (`longitudinal/cosine_profile.py:41-71`). The boolean arrays count as
0 and 1. -/
noncomputable def cosineLong (wavelength tauFwhm tPeak cep : ℝ) (t : ℝ) : ℂ :=
  let tn := (t - tPeak) / tauFwhm
  (Real.cos (0.5 * Real.pi * tn) : ℂ) * (if tn > -1 then 1 else 0) * (if tn < 1 then 1 else 0) *
    exp (I * ((cep + longOmega0 wavelength * tPeak : ℝ) : ℂ))

end Lasy
