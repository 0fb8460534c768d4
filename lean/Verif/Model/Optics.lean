import Verif.Model.Laser
import Mathlib.Analysis.SpecialFunctions.Trigonometric.Basic

/-! # Model of `lasy/optical_elements/*.py`

Parameters that make the code divide by zero (`f = 0`, `f0 = 0`, `R = 0`) give `inf`/`nan` in NumPy; they
are excluded by hypotheses in the theorems. -/

namespace Lasy
open Phys Complex

variable [Phys]

/-- `ParabolicMirror.amplitude_multiplier` (`parabolic_mirror.py:33-52`) -/
noncomputable def parabolicMirror (f : ℝ) : OpticalElement where
  mult := fun x y omega _ => exp (-I * omega * (x ^ 2 + y ^ 2) / (2 * c * f))

/-- `Axicon.amplitude_multiplier` (`axicon.py:35-56`) -/
noncomputable def axicon (gamma : ℝ) : OpticalElement where
  mult := fun x y omega _ =>
    exp (-2 * I * (omega / c) * (Real.sqrt (x ^ 2 + y ^ 2) : ℝ) * (Real.tan (0.5 * gamma) : ℝ))

/-- the sag of the axiparabola (`axiparabola.py:57-64`) -/
noncomputable def axiparabolaSag (f0 delta R r2 : ℝ) : ℝ :=
  (1.0 / (4 * f0)) * r2 - (delta / (8 * f0 ^ 2 * R ^ 2)) * r2 ^ 2
    + delta * (R ^ 2 + 8 * f0 * delta) / (96 * f0 ^ 4 * R ^ 4) * r2 ^ 3

/-- `Axiparabola.amplitude_multiplier` (`axiparabola.py:37-69`) -/
noncomputable def axiparabola (f0 delta R : ℝ) : OpticalElement where
  mult := fun x y omega _ =>
    if x ^ 2 + y ^ 2 > R ^ 2 then 0
    else exp (-2 * I * (omega / c) * (axiparabolaSag f0 delta R (x ^ 2 + y ^ 2) : ℝ))

/-- `PolynomialSpectralPhase.amplitude_multiplier` (`polynomial_spectral_phase.py:42-68`) -/
noncomputable def polynomialSpectralPhase (gdd tod fod : ℝ) : OpticalElement where
  mult := fun _ _ omega omega0 =>
    exp (I * ((gdd / 2 * (omega - omega0) ^ 2 + tod / 6 * (omega - omega0) ^ 3
      + fod / 24 * (omega - omega0) ^ 4 : ℝ) : ℂ))

end Lasy
