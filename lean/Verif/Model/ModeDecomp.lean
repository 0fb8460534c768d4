import Verif.Model.FromData
import Verif.Model.Transverse
import Verif.Model.LongFromData

/-!
# Model of `lasy/utils/mode_decomposition.py`

Simplifications: `n_x_max`, `n_y_max` are natural numbers; `res = 0` is a `ZeroDivisionError` (with NumPy numbers it is a
`ValueError`); a waist of `nan` is `none`. The `print` is left out.
-/

namespace Lasy
open Complex

/-- what `hermite_gauss_decomposition` looks at to find the bounds -/
inductive HGKind
  /-- a `TransverseProfileFromData` -/
  | data (p : TransFromData)
  /-- another profile, with the attribute `w0` -/
  | waist (w0 : ℝ)
  /-- another profile, without this attribute (sums, scaled profiles) -/
  | noWaist

/-- a `TransverseProfile`: `_evaluate` at a point, and the offsets -/
structure TransSource where
  kind : HGKind
  xOff : ℝ
  yOff : ℝ
  eval : ℝ → ℝ → ℂ

/-- `TransverseProfile.evaluate` (`transverse_profile.py:56-72`) -/
def TransSource.evaluate (p : TransSource) (x y : ℝ) : ℂ := p.eval (x + p.xOff) (y + p.yOff)

/-- `np.min` of a non-empty array -/
noncomputable def npMin {n : ℕ} (h : 0 < n) (x : Fin n → ℝ) : ℝ :=
  Finset.univ.inf' ⟨⟨0, h⟩, Finset.mem_univ _⟩ x

/-- `lo`, `hi` (`mode_decomposition.py:57-73`). `field_interp.grid` is `(y_data, x_data)`. -/
noncomputable def TransSource.bounds (p : TransSource) : Except PyErr ((ℝ × ℝ) × (ℝ × ℝ)) :=
  match p.kind with
  | .data q =>
    if h : 0 < q.ny ∧ 0 < q.nx then
      .ok ((npMin h.1 q.y + p.xOff, npMin h.2 q.x + p.xOff), (npMax h.1 q.y + p.yOff, npMax h.2 q.x + p.yOff))
    else .error .value
  | .waist w0 => .ok ((-w0 * 5 + p.xOff, -w0 * 5 + p.xOff), (w0 * 5 + p.xOff, w0 * 5 + p.xOff))
  | .noWaist => .error .attribute

/-- `Nx`, `Ny` (`mode_decomposition.py:75-76`) -/
noncomputable def hgCount (lo hi res : ℝ) : ℤ := pyInt ((⌊(hi - lo) / (2 * res)⌋ : ℝ) * 2) + 2

/-- `x`, `y` (`mode_decomposition.py:79-88`) -/
noncomputable def hgAxis (lo hi res : ℝ) (N : ℕ) : Fin N → ℝ :=
  linspace ((lo + hi) / 2 - ((N : ℝ) - 1) / 2 * res) ((lo + hi) / 2 + ((N : ℝ) - 1) / 2 * res) N

/-- `np.isclose(a, b, rtol=1e-10)` -/
def isClose10 (a b : ℝ) : Prop := |a - b| ≤ 1e-8 + 1e-10 * |b|

/-- the waists that are tried (`mode_decomposition.py:146`) -/
noncomputable def waistTest (w : ℝ) : Fin 30 → ℝ := linspace (w / 2) (w * 1.5) 30

/-- `np.real(np.sum(mode * field))`, with the mode of waist `w` and orders `i`, `j` -/
noncomputable def hgOverlap {Ny Nx : ℕ} (x : Fin Nx → ℝ) (y : Fin Ny → ℝ) (field : Fin Ny → Fin Nx → ℂ) (w : ℝ)
    (i j : ℕ) : ℝ :=
  (∑ q, ∑ r, field q r * hermiteGaussianTrans w i j 0 (x r) (y q)).re

/-- `w0Est` (`mode_decomposition.py:140-141`) -/
noncomputable def waistEstimate {Ny Nx : ℕ} (dx : ℝ) (field : Fin Ny → Fin Nx → ℂ) : ℝ :=
  let d := findD4sigma fun q r => ‖field q r‖ ^ 2
  (d.1 + d.2) / 2 / 2 * dx

/-- `estimate_best_HG_waist(x, y, field)` (`mode_decomposition.py:107-159`). A field that is zero makes all numbers
`nan`; an estimate of zero makes all overlaps `nan`, and `argmax` returns the first. -/
noncomputable def estimateWaist {Ny Nx : ℕ} (x : Fin Nx → ℝ) (y : Fin Ny → ℝ) (field : Fin Ny → Fin Nx → ℂ) :
    Except PyErr (Option ℝ) :=
  open Classical in
  if h : 1 < Nx ∧ 1 < Ny then do
    let dx := x ⟨1, h.1⟩ - x ⟨0, by omega⟩
    let dy := y ⟨1, h.2⟩ - y ⟨0, by omega⟩
    if ¬ isClose10 dx dy then .error .assertion
    else if (∑ q, ∑ r, ‖field q r‖ ^ 2) = 0 then return none
    else
      let w := waistEstimate dx field
      if w = 0 then return some 0
      else
        let k ← argmin fun k => -hgOverlap x y field (waistTest w k) 0 0
        return some (waistTest w k)
  else .error .index

/-- `coef` (`mode_decomposition.py:98-102`) -/
noncomputable def hgCoef {Ny Nx : ℕ} (x : Fin Nx → ℝ) (y : Fin Ny → ℝ) (dx dy : ℝ) (field : Fin Ny → Fin Nx → ℂ)
    (waist : Option ℝ) (i j : ℕ) : ℝ :=
  match waist with
  | some w => if w = 0 then 0 else hgOverlap x y field w i j * dx * dy
  | none => 0

/-- the result: the dictionary (`none`: no such key) and the waist -/
structure HGResult where
  weights : ℕ → ℕ → Option ℝ
  waist : Option ℝ

/-- the grid on which the profile is sampled, and the samples (`mode_decomposition.py:75-94`) -/
structure HGGrid where
  Nx : ℕ
  Ny : ℕ
  x : Fin Nx → ℝ
  y : Fin Ny → ℝ
  field : Fin Ny → Fin Nx → ℂ

/-- `X`, `Y`, `field` (`mode_decomposition.py:52-94`) -/
noncomputable def hgSample (p : TransSource) (res : ℝ) : Except PyErr HGGrid := do
  let (lo, hi) ← p.bounds
  if res = 0 then .error .zeroDivision
  else
    let Nx := hgCount lo.1 hi.1 res
    let Ny := hgCount lo.2 hi.2 res
    if Nx < 0 ∨ Ny < 0 then .error .value
    else
      let x := hgAxis lo.1 hi.1 res Nx.toNat
      let y := hgAxis lo.2 hi.2 res Ny.toNat
      .ok ⟨_, _, x, y, fun q r => p.evaluate (x r) (y q)⟩

/-- the loop over the modes (`mode_decomposition.py:96-105`) -/
noncomputable def hgWeights (g : HGGrid) (nxMax nyMax : ℕ) : Except PyErr HGResult :=
  if h : 1 < g.Nx ∧ 1 < g.Ny then do
    let w ← estimateWaist g.x g.y g.field
    return ⟨fun i j => if i < nxMax ∧ j < nyMax then
      some (hgCoef g.x g.y (g.x ⟨1, h.1⟩ - g.x ⟨0, by omega⟩) (g.y ⟨1, h.2⟩ - g.y ⟨0, by omega⟩) g.field w i j) else none, w⟩
  else .error .index

/-- `hermite_gauss_decomposition(laserProfile, n_x_max, n_y_max, res)` (`mode_decomposition.py:15-105`) -/
noncomputable def hgDecomposition (p : TransSource) (nxMax nyMax : ℕ) (res : ℝ) : Except PyErr HGResult := do
  let g ← hgSample p res
  hgWeights g nxMax nyMax

end Lasy
