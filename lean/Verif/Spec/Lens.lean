import Mathlib.Analysis.SpecialFunctions.Trigonometric.Basic

/-! # The lens formula of Gaussian beams

Small separate specification used by property C117; it does not mention the model. -/

namespace Lasy.Spec
open Complex

/-- the complex beam parameter, on the plane `z = 0`, of a beam of waist `w0` and wavelength `lam` which has its
focus at distance `z` behind this plane: `z + i z_R` with the Rayleigh length `z_R = π w0² / λ` -/
noncomputable def beamParam (lam w0 z : ℝ) : ℂ := z + I * ((Real.pi * w0 ^ 2 / lam : ℝ) : ℂ)

/-- the lens formula: an ideal thin element of focal length `f` turns the beam with parameter `b` into the one
with parameter `b'`, `1/b' = 1/b + 1/f` -/
def LensLaw (f : ℝ) (b b' : ℂ) : Prop := 1 / b' = 1 / b + 1 / (f : ℂ)

end Lasy.Spec
