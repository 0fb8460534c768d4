import Verif.Model.Grid
import Verif.Model.Phys
import Mathlib.Analysis.SpecialFunctions.Pow.Real
import Mathlib.Analysis.SpecialFunctions.Sqrt

/-!
# Energy, normalisation, azimuthal modes (`lasy/utils/laser_utils.py`, `lasy/utils/grid.py`)

`dim` is an argument of some of these functions in the code; every caller in lasy passes the `dim` of
the grid, so the model reads it off `Grid.geom`.
-/

namespace Lasy
open Phys

/-- `np.r_[np.arange(n), np.arange(-n + 1, 0, 1)]` (`grid.py:57-59`) -/
def azimuthalModes (n : ℕ) : List ℤ :=
  (List.range n).map (fun (k : ℕ) => (k : ℤ)) ++ (List.range (n - 1)).map (fun (k : ℕ) => -(n : ℤ) + 1 + k)

/-- Python's `a[i]` on a sequence of length `n`: negative indices count from the end, out of range is an
`IndexError`. -/
def pyIndex (n : ℕ) (i : ℤ) : Except PyErr (Fin n) :=
  if h : 0 ≤ i ∧ i < n then .ok ⟨i.toNat, by omega⟩
  else if h : -(n : ℤ) ≤ i ∧ i < 0 then .ok ⟨(n + i).toNat, by omega⟩
  else .error .index

variable [Phys] {s : Shape}

/-- `get_grid_cell_volume` for `rt` (`laser_utils.py:629, 633-637`) -/
noncomputable def cellVolumeRT {n nt : ℕ} (r : Axis n) (t : Axis nt) (j : Fin n) : ℝ :=
  Real.pi * ((r.pts j + 0.5 * r.dx) ^ 2 - (r.pts j - 0.5 * r.dx) ^ 2) * (t.dx * c)

/-- `get_grid_cell_volume` for `xyt` (`laser_utils.py:629-631`) -/
noncomputable def cellVolumeXYT {n0 n1 nt : ℕ} (x : Axis n0) (y : Axis n1) (t : Axis nt) : ℝ :=
  x.dx * y.dx * (t.dx * c)

/-- the volume by which the cell `(i, j, ·)` is weighted: `dV` broadcast over the field
(`laser_utils.py:44-51`) -/
noncomputable def Grid.cellVolume (g : Grid s) (j : Fin s.n1) : ℝ :=
  match g.geom with
  | .xyt x y => cellVolumeXYT x y g.t
  | .rt _ _ r => cellVolumeRT r g.t j

/-- `compute_laser_energy` (`laser_utils.py:11-56`) -/
noncomputable def computeLaserEnergy : Py (Grid s) ℝ := do
  let envelope ← Grid.getTemporalField
  let g ← Py.get
  let energy := ∑ i, ∑ j, ∑ k, g.cellVolume j * eps0 * ‖envelope.val i j k‖ ^ 2
  return if g.isEnvelope then energy * 0.5 else energy

/-- `field *= a` on a copy of the field -/
def Arr.scale (a : ℝ) (f : Arr s) : Arr s := ⟨f.dtype, fun i j k => f.val i j k * (a : ℂ)⟩

/-- `normalize_energy` (`laser_utils.py:59-89`). `x ** 0.5` is the real square root; for a negative
`energy` NumPy yields `nan`, which is outside the model (theorems assume `0 ≤ energy`). -/
noncomputable def normalizeEnergy (energy : Option ℝ) : Py (Grid s) Unit :=
  match energy with
  | none => return ()
  | some energy => do
    let current ← computeLaserEnergy
    if current = 0 then
      return ()
    else
      let normFactor := Real.sqrt (energy / current)
      let field ← Grid.getTemporalField
      Grid.setTemporalField (field.scale normFactor).toNd

/-- `np.abs(field).max()` (`laser_utils.py:106`); shapes of grids are never empty. -/
noncomputable def absMax (f : Field s) : ℝ :=
  ⨆ p : Fin s.n0 × Fin s.n1 × Fin s.nt, ‖f p.1 p.2.1 p.2.2‖

/-- `normalize_peak_field_amplitude` (`laser_utils.py:92-111`) -/
noncomputable def normalizePeakField (amplitude : Option ℝ) : Py (Grid s) Unit :=
  match amplitude with
  | none => return ()
  | some amplitude => do
    let field ← Grid.getTemporalField
    let fieldMax := absMax field.val
    if fieldMax = 0 then
      return ()
    else
      Grid.setTemporalField (field.scale (amplitude / fieldMax)).toNd

/-- `normalize_peak_intensity` (`laser_utils.py:114-133`). The last line passes the *scalar*
`np.sqrt(peak_intensity / input_peak_intensity)` to `set_temporal_field`: a NumPy scalar of shape `()`. -/
noncomputable def normalizePeakIntensity (peakIntensity : Option ℝ) : Py (Grid s) Unit :=
  match peakIntensity with
  | none => return ()
  | some peakIntensity => do
    let field ← Grid.getTemporalField
    let inputPeak := absMax fun i j k => (eps0 : ℂ) * field.val i j k ^ 2 / 2 * (c : ℂ)
    if inputPeak = 0 then
      return ()
    else
      Grid.setTemporalField
        { shape := [], dtype := .f64, get := fun _ => (Real.sqrt (peakIntensity / inputPeak) : ℂ) }

end Lasy
