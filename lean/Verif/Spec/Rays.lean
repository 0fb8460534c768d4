import Verif.Model.Laser
import Mathlib.Analysis.Calculus.Deriv.Basic

/-!
# Rays leaving an optical element

Specification for C99, in geometrical optics: a plane wave of frequency `w` that passes through a thin element
has, at distance `r` from the axis in the direction `φ`, a transverse wave number `k` which is the derivative
of its phase; the ray that starts there has the slope `k / (w / c)` (paraxial approximation).
-/

namespace Lasy
open Phys Complex

variable [Phys]

/-- the ray leaving the element at radius `r` in the direction `φ` has the (outward) slope `m` -/
def RaySlope (el : OpticalElement) (w w0 φ r m : ℝ) : Prop :=
  ∃ k : ℝ, HasDerivAt (fun ρ : ℝ => el.mult (ρ * Real.cos φ) (ρ * Real.sin φ) w w0)
    (I * k * el.mult (r * Real.cos φ) (r * Real.sin φ) w w0) r ∧
    el.mult (r * Real.cos φ) (r * Real.sin φ) w w0 ≠ 0 ∧ m = k / (w / c)

/-- the ray leaving the element at radius `r` in the direction `φ` crosses the axis at the distance `z` -/
def RayFocus (el : OpticalElement) (w w0 φ r z : ℝ) : Prop :=
  ∃ m, RaySlope el w w0 φ r m ∧ r + m * z = 0

end Lasy
