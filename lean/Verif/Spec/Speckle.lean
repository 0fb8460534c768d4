import Mathlib.Analysis.SpecialFunctions.Trigonometric.Sinc
import Mathlib.Analysis.SpecialFunctions.Complex.Circle
import Mathlib.Algebra.BigOperators.Fin

/-!
# Specification of speckle patterns

The near field, of widths `D0`, `D1`, is divided into `N0 × N1` equal beamlets; a lens of focal length `f` superposes them
in the focal plane (formula in the documentation of `SpeckleProfile`).
-/

namespace Lasy.Spec
open Complex

/-- the position of the centre of beamlet `m` of `N` across an aperture of width `D` centred at 0 -/
noncomputable def beamletCentre (D : ℝ) (N m : ℕ) : ℝ := -D / 2 + D / N * (m + 1 / 2)

/-- the transverse wave number in the focal plane of light of wavelength `lam` from the near-field position `X` -/
noncomputable def focusK (lam f X : ℝ) : ℝ := -(2 * Real.pi / lam) * (X / f)

/-- the beam width `Δ = λ f N / D` -/
noncomputable def beamWidth (lam f D : ℝ) (N : ℕ) : ℝ := lam * f * N / D

/-- the double sum over the beamlets, with amplitudes `A`, phases `φ` from the phase plate and `ψ` from the smoothing -/
noncomputable def speckleSum (lam f D0 D1 : ℝ) {N0 N1 : ℕ} (A : Fin N0 → Fin N1 → ℂ) (φ ψ : Fin N0 → Fin N1 → ℝ)
    (x y : ℝ) : ℂ :=
  ∑ m, ∑ l, A m l * exp (I * ((focusK lam f (beamletCentre D0 N0 m) * x + focusK lam f (beamletCentre D1 N1 l) * y +
    φ m l + ψ m l : ℝ) : ℂ))

/-- the field in the focal plane, with or without the transverse envelope -/
noncomputable def speckleField (lam f D0 D1 : ℝ) (env : Bool) {N0 N1 : ℕ} (A : Fin N0 → Fin N1 → ℂ)
    (φ ψ : Fin N0 → Fin N1 → ℝ) (x y : ℝ) : ℂ :=
  (if env then ((Real.sinc (Real.pi * x / beamWidth lam f D0 N0) * Real.sinc (Real.pi * y / beamWidth lam f D1 N1) : ℝ) : ℂ)
    else 1) * speckleSum lam f D0 D1 A φ ψ x y

end Lasy.Spec
