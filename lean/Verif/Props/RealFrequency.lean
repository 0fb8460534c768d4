import Verif.Props.Hilbert
import Verif.Props.Analytic

/-!
# Properties C40 and C86, continued: default arguments; the number that `get_frequency` returns for a real field
-/

namespace Lasy
open Spec Phys Complex

variable [Phys] {s : Shape}

/-- the weight of a sample in the documented average: the amplitude, times the radius on cylindrical grids (the area of the ring) -/
def Spec.amplitudeWeight (geom : Geom s.n0 s.n1) (E : RField s) : RField s := fun i j k =>
  match geom with
  | .xyt _ _ => |E i j k|
  | .rt _ _ r => r.pts j * |E i j k|

omit [Phys] in
/-- **C86** (`_partial`: what is returned instead of the carrier frequency). For every real field and every time axis with at least
three nodes, the central frequency found is the average, weighted by amplitude (and radius on cylindrical grids), of the
numerical time derivative of a function that only knows the *sign* of the field: `-pi` where it is negative and `0` elsewhere.
The field between two changes of sign, hence its carrier, does not enter. -/
theorem C86_signs_partial (geom : Geom s.n0 s.n1) (t : Axis s.nt) (hn : 3 ≤ s.nt) (E : RField s)
    (hw : ∑ i, ∑ j, ∑ k, Spec.amplitudeWeight geom E i j k ≠ 0) :
    ∃ w : RField s, (∀ i j, gradient (fun k => if E i j k < 0 then -Real.pi else 0) t.pts = .ok (w i j)) ∧
      CentralFrequency geom t E ((∑ i, ∑ j, ∑ k, w i j k * Spec.amplitudeWeight geom E i j k) /
        ∑ i, ∑ j, ∑ k, Spec.amplitudeWeight geom E i j k) := by
  obtain ⟨w, hr⟩ := realRate_exists hn t.pts E
  have hwt : ∀ i j k, fullFieldWeights (Grid.holdingReal geom t E) (fun i j k => (E i j k : ℂ)) i j k =
      Spec.amplitudeWeight geom E i j k := by
    intro i j k
    cases geom <;> simp [fullFieldWeights, Grid.holdingReal, Spec.amplitudeWeight]
  have e : ∀ F : Fin s.n0 → Fin s.n1 → Fin s.nt → ℝ, ∑ i, ∑ j, ∑ k, F i j k =
      ∑ p : Fin s.n0 × Fin s.n1 × Fin s.nt, F p.1 p.2.1 p.2.2 := by
    intro F
    simp only [Fintype.sum_prod_type]
  refine ⟨w, fun i j => ?_, ?_⟩
  · rw [← hr i j]
    congr 1
    funext k
    by_cases h : E i j k < 0
    · rw [if_pos h, if_neg (by linarith)]
    · rw [if_neg h, if_pos (by linarith), neg_zero]
  · refine centralFrequency_of hr ?_ ?_
    · simp only [hwt]
      rw [e] at hw
      exact hw
    · simp only [hwt]
      rw [e, e]

/-- the hypotheses are met by a field that changes sign -/
example : ∃ (geom : Geom 2 2) (_ : Axis 3) (E : RField ⟨2, 2, 3⟩),
    (∑ i, ∑ j, ∑ k, Spec.amplitudeWeight (s := ⟨2, 2, 3⟩) geom E i j k ≠ 0) ∧ E 0 0 0 < 0 ∧ 0 < E 0 0 1 := by
  refine ⟨.xyt axis01 axis01, axis012, fun _ _ k => if k = 0 then -1 else 1, ?_, by simp, by simp⟩
  have : ∀ i j k, Spec.amplitudeWeight (s := ⟨2, 2, 3⟩) (.xyt axis01 axis01) (fun _ _ k => if k = 0 then -1 else 1) i j k = 1 := by
    intro i j k
    simp only [Spec.amplitudeWeight]
    split <;> simp
  simp only [this]
  norm_num

/-- **C40** (default arguments). `GaussianProfile(wavelength, pol, laser_energy, w0, tau, t_peak)` without `cep_phase` and `z_foc`
is the pulse in focus without offset phase. -/
theorem C40_defaults (wavelength : ℝ) (hw : wavelength ≠ 0) (px py : ℂ) (E : Option ℝ) (w0 tau tPeak : ℝ) :
    ∃ p f, gaussianProfile wavelength [px, py] E w0 tau tPeak = .ok p ∧ p.Pointwise f ∧
      ∀ x y t : ℝ, f x y t * exp (-I * p.omega0 * t) =
        exp (-(x ^ 2 + y ^ 2) / w0 ^ 2 - (t - tPeak) ^ 2 / tau ^ 2 - I * p.omega0 * (t - tPeak)) := by
  obtain ⟨p, f, h, hp, hf⟩ := C40_documented wavelength hw px py E w0 tau tPeak 0
  refine ⟨p, f, h, hp, fun x y t => ?_⟩
  rw [hf]
  simp

end Lasy
