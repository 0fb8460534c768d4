import Verif.Spec.Chirp

/-!
# Localised functions

What is assumed of a pulse and of its spectrum when they are put on a grid.
-/

namespace Lasy.Spec

/-- `f` decays around `t0` at least like the power `p`: `‖f t‖ ≤ C / (1 + |t - t0|) ^ p` -/
def Localised (f : ℝ → ℂ) (t0 C : ℝ) (p : ℕ) : Prop := ∀ t, ‖f t‖ ≤ C / (1 + |t - t0|) ^ p

/-- `∑_{m ≠ 0} 1 / m²`, that is `π²/3` -/
noncomputable def zeta2 : ℝ := ∑' m : ℤ, 1 / (|(m : ℝ)|) ^ 2

end Lasy.Spec
