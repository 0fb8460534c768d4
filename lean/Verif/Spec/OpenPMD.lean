import Verif.Model.OpenPMD
import Verif.Spec.Modes

/-!
# What an openPMD mesh means (openPMD standard 1.1.0)

Only the fields of the record `Mesh` are used here, none of the functions that make one.
-/

namespace Lasy
open Complex

/-- the coordinate of sample number `i` along the axis called `label`:
`gridGlobalOffset[a] + i * gridSpacing[a]`, where `a` is the position of the label in `axisLabels` -/
def Mesh.coord (m : Mesh) (label : String) (i : ℕ) : Option ℝ :=
  let a := m.axisLabels.idxOf label
  match m.gridGlobalOffset[a]?, m.gridSpacing[a]? with
  | some o, some d => some (o + i * d)
  | _, _ => none

/-- the value of a `thetaMode` mesh at angle `θ`, sample `k` in `t` and `j` in `r`: "the first component is
the real mode 0, then the cosine and sine parts of the modes 1, 2, ..." -/
noncomputable def Mesh.atAngle (m : Mesh) (θ : ℝ) (k j : ℕ) : ℂ :=
  m.data.get [0, k, j] + ∑ q ∈ Finset.Icc 1 ((m.data.shape.headD 1 - 1) / 2),
    (m.data.get [2 * q - 1, k, j] * Real.cos (q * θ) + m.data.get [2 * q, k, j] * Real.sin (q * θ))

/-- the field which the components of an `rt` laser stand for, at angle `θ` (`laser.py:44-66`) -/
noncomputable def fieldAtAngle {n nr nt : ℕ} (f : Fin (2 * n - 1) → Fin nr → Fin nt → ℂ) (θ : ℝ)
    (j : Fin nr) (k : Fin nt) : ℂ :=
  ∑ i, f i j k * exp (-I * (modeAt n i) * θ)

end Lasy
