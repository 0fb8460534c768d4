import Mathlib.MeasureTheory.Integral.Bochner.Basic
import Mathlib.MeasureTheory.Measure.Lebesgue.Basic
import Mathlib.Analysis.SpecialFunctions.Complex.Circle

/-! # Pulses and spectra in continuous time

Small separate specification used by properties C118 and C119; it does not mention the model. The convention is
the one of lasy: the component at angular frequency `ω` oscillates as `exp(-i ω t)`. -/

namespace Lasy.Spec
open Complex MeasureTheory

/-- the envelope, relative to the carrier `exp(-i ω0 t)`, of the pulse with the spectrum `S`, as a function of the
distance `Ω = ω - ω0` from the carrier frequency: `(1/2π) ∫ S(Ω) exp(-i Ω t) dΩ` -/
noncomputable def pulse (S : ℝ → ℂ) (t : ℝ) : ℂ := (1 / (2 * Real.pi) : ℝ) * ∫ W : ℝ, S W * exp (-I * W * t)

/-- the fluence of the pulse `E`: `∫ |E|² dt` -/
noncomputable def fluence (E : ℝ → ℂ) : ℝ := ∫ t : ℝ, ‖E t‖ ^ 2

/-- the first moment in time of `|E|²`; divided by the fluence it is the mean arrival time -/
noncomputable def firstMoment (E : ℝ → ℂ) : ℝ := ∫ t : ℝ, t * ‖E t‖ ^ 2

end Lasy.Spec
