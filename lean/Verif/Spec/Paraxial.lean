import Mathlib.Analysis.Calculus.Deriv.Basic
import Mathlib.Analysis.Complex.Basic

/-! # The paraxial wave equation -/

namespace Lasy.Spec
open Complex

/-- `u(x, y, z)` is, at every point, differentiable in `z` and twice differentiable in `x` and in `y`, and
satisfies `∂u/∂z = i/(2k) (∂²u/∂x² + ∂²u/∂y²)`: the paraxial equation of an envelope `u` of the carrier
`exp(i k z - i ω t)`. -/
def SolvesParaxial (k : ℝ) (u : ℝ → ℝ → ℝ → ℂ) : Prop :=
  ∀ x y z : ℝ, ∃ (ux uy : ℝ → ℂ) (uxx uyy uz : ℂ),
    (∀ x', HasDerivAt (fun x => u x y z) (ux x') x') ∧ HasDerivAt ux uxx x ∧
    (∀ y', HasDerivAt (fun y => u x y z) (uy y') y') ∧ HasDerivAt uy uyy y ∧
    HasDerivAt (fun z => u x y z) uz z ∧ uz = I / (2 * k) * (uxx + uyy)

end Lasy.Spec
